import Verif.Model.Micro
import Verif.Props.IndBands

/-!
# Facts used for the microstructure features
-/

namespace Verif

namespace XF

theorem mul_eq_fin {a b : XF} {r : ℝ} (h : a * b = fin r) : ∃ x y, a = fin x ∧ b = fin y ∧ r = x * y := by
  have key : ∀ s, infSign s ≠ fin r := by
    intro s hs
    rw [infSign] at hs
    split at hs
    · cases hs
    · split at hs <;> cases hs
  change mul a b = fin r at h
  cases a <;> cases b <;> rw [mul] at h <;> try first | exact absurd h (key _) | (cases h; done)
  all_goals exact ⟨_, _, rfl, rfl, (XF.fin.inj h).symm⟩

theorem add_eq_fin {a b : XF} {r : ℝ} (h : a + b = fin r) : ∃ x y, a = fin x ∧ b = fin y ∧ r = x + y := by
  change add a b = fin r at h
  cases a <;> cases b <;> first | exact ⟨_, _, rfl, rfl, (XF.fin.inj h).symm⟩ | (simp [add] at h)

theorem sub_eq_fin {a b : XF} {r : ℝ} (h : a - b = fin r) : ∃ x y, a = fin x ∧ b = fin y ∧ r = x - y := by
  obtain ⟨x, y, h1, h2, h3⟩ := add_eq_fin (show a + neg b = fin r from h)
  cases b <;> simp only [neg] at h2 <;> cases h2
  exact ⟨x, _, h1, rfl, by rw [h3]; ring⟩

theorem infSign_ne_fin (s r : ℝ) : infSign s ≠ fin r := by
  intro hs
  rw [infSign] at hs
  split at hs
  · cases hs
  · split at hs <;> cases hs

theorem div_eq_fin {a b : XF} {r : ℝ} (h : a / b = fin r) :
    ∃ x, a = fin x ∧ ((∃ y, b = fin y ∧ y ≠ 0 ∧ r = x / y) ∨ ((b = pinf ∨ b = ninf) ∧ r = 0)) := by
  change div a b = fin r at h
  cases a with
  | fin x =>
    refine ⟨x, rfl, ?_⟩
    cases b with
    | fin y =>
      rw [div] at h
      split at h
      · exact absurd h (infSign_ne_fin _ _)
      · rename_i hy
        exact .inl ⟨y, rfl, hy, (XF.fin.inj h).symm⟩
    | nan => simp [div] at h
    | pinf => exact .inr ⟨.inl rfl, (XF.fin.inj h).symm⟩
    | ninf => exact .inr ⟨.inr rfl, (XF.fin.inj h).symm⟩
  | nan => cases b <;> simp [div] at h
  | pinf =>
    cases b <;> simp only [div] at h <;> first | cases h | (split at h <;> cases h)
  | ninf =>
    cases b <;> simp only [div] at h <;> first | cases h | (split at h <;> cases h)

theorem log_eq_fin {a : XF} {r : ℝ} (h : a.log = fin r) : ∃ x, a = fin x ∧ 0 < x ∧ r = Real.log x := by
  cases a with
  | fin x =>
    simp only [log] at h
    split at h
    · rename_i hx
      exact ⟨x, rfl, hx, (XF.fin.inj h).symm⟩
    · split at h <;> cases h
  | nan => simp [log] at h
  | pinf => simp [log] at h
  | ninf => simp [log] at h

theorem log_fin {a : ℝ} (h : 0 < a) : (fin a).log = fin (Real.log a) := by
  simp only [log]
  rw [if_pos h]

/-- A finite log ratio comes from two numbers with a positive quotient. -/
theorem log_div_eq_fin {a b : XF} {r : ℝ} (h : (a / b).log = fin r) :
    ∃ x y, a = fin x ∧ b = fin y ∧ y ≠ 0 ∧ 0 < x / y ∧ r = Real.log (x / y) := by
  obtain ⟨q, hq, hpos, hr⟩ := log_eq_fin h
  obtain ⟨x, hx, ⟨y, hy, hy0, rfl⟩ | ⟨-, rfl⟩⟩ := div_eq_fin hq
  · exact ⟨x, y, hx, hy, hy0, hpos, hr⟩
  · exact absurd hpos (lt_irrefl _)

theorem log_div_fin {a b : ℝ} (ha : 0 < a) (hb : 0 < b) : (fin a / fin b).log = fin (Real.log (a / b)) := by
  rw [div_fin hb.ne', log_fin (div_pos ha hb)]

theorem sqF_eq_fin {a : XF} {r : ℝ} (h : Ser.sqF a = fin r) : ∃ x, a = fin x ∧ r = x ^ 2 := by
  obtain ⟨x, y, h1, h2, h3⟩ := mul_eq_fin h
  rw [h1] at h2
  cases h2
  exact ⟨x, h1, by rw [h3, pow_two]⟩

theorem sqF_fin (a : ℝ) : Ser.sqF (fin a) = fin (a ^ 2) := by
  rw [Ser.sqF, mul_fin, pow_two]

theorem sqrt_eq_fin {a : XF} {r : ℝ} (h : a.sqrt = fin r) : ∃ x, a = fin x ∧ 0 ≤ x ∧ r = Real.sqrt x := by
  cases a with
  | fin x =>
    simp only [sqrt] at h
    split at h
    · cases h
    · rename_i hx
      exact ⟨x, rfl, not_lt.1 hx, (XF.fin.inj h).symm⟩
  | nan => simp [sqrt] at h
  | pinf => simp [sqrt] at h
  | ninf => simp [sqrt] at h

theorem abs_eq_fin {a : XF} {r : ℝ} (h : a.abs = fin r) : ∃ x, a = fin x ∧ r = |x| := by
  cases a <;> simp [abs] at h
  exact ⟨_, rfl, h.symm⟩

/-- The quotient does not change when both are multiplied by a positive number. -/
theorem div_scale {k : ℝ} (hk : 0 < k) (a b : XF) : (a * fin k) / (b * fin k) = a / b := by
  have hp : infSign k = pinf := by rw [infSign, if_pos hk]
  have hn : infSign (-k) = ninf := by
    rw [infSign, if_neg (by linarith), if_pos (by linarith)]
  cases a with
  | nan => simp
  | pinf =>
    cases b with
    | nan => simp
    | pinf =>
      show div (infSign k) (infSign k) = _
      rw [hp]; rfl
    | ninf =>
      show div (infSign k) (infSign (-k)) = _
      rw [hp, hn]; rfl
    | fin y =>
      show div (infSign k) (fin (y * k)) = div pinf (fin y)
      rw [hp]
      simp only [div]
      by_cases hy : y < 0
      · rw [if_pos hy, if_pos (mul_neg_of_neg_of_pos hy hk)]
      · rw [if_neg hy, if_neg (not_lt.2 (mul_nonneg (not_lt.1 hy) hk.le))]
  | ninf =>
    cases b with
    | nan => simp
    | pinf =>
      show div (infSign (-k)) (infSign k) = _
      rw [hp, hn]; rfl
    | ninf =>
      show div (infSign (-k)) (infSign (-k)) = _
      rw [hn]; rfl
    | fin y =>
      show div (infSign (-k)) (fin (y * k)) = div ninf (fin y)
      rw [hn]
      simp only [div]
      by_cases hy : y < 0
      · rw [if_pos hy, if_pos (mul_neg_of_neg_of_pos hy hk)]
      · rw [if_neg hy, if_neg (not_lt.2 (mul_nonneg (not_lt.1 hy) hk.le))]
  | fin x =>
    cases b with
    | nan => simp
    | pinf =>
      show div (fin (x * k)) (infSign k) = _
      rw [hp]; rfl
    | ninf =>
      show div (fin (x * k)) (infSign (-k)) = _
      rw [hn]; rfl
    | fin y =>
      show div (fin (x * k)) (fin (y * k)) = div (fin x) (fin y)
      simp only [div]
      by_cases hy : y = 0
      · rw [if_pos hy, if_pos (by rw [hy, zero_mul])]
        simp only [infSign]
        by_cases h1 : 0 < x
        · rw [if_pos h1, if_pos (mul_pos h1 hk)]
        · rw [if_neg h1, if_neg (not_lt.2 (mul_nonpos_of_nonpos_of_nonneg (not_lt.1 h1) hk.le))]
          by_cases h2 : x < 0
          · rw [if_pos h2, if_pos (mul_neg_of_neg_of_pos h2 hk)]
          · rw [if_neg h2, if_neg (not_lt.2 (mul_nonneg (not_lt.1 h2) hk.le))]
      · rw [if_neg hy, if_neg (mul_ne_zero hy hk.ne'), mul_div_mul_right _ _ hk.ne']

end XF

namespace Ser

open Props.IndRolling Finset

/-- Multiplying a series by a number. -/
noncomputable def scale (k : ℝ) (x : Ser) : Ser := x.map (· * .fin k)

theorem op2_map_map (f : XF → XF → XF) (g h : XF → XF) (x y : Ser) :
    op2 f (x.map g) (y.map h) = op2 (fun a b => f (g a) (h b)) x y := by
  induction x generalizing y with
  | nil =>
    cases y <;> simp [op2, Function.comp_def]
  | cons a x ih =>
    cases y with
    | nil => simp [op2, Function.comp_def]
    | cons b y => simp [op2, ih]

theorem op2_div_scale {k : ℝ} (hk : 0 < k) (x y : Ser) : op2 (· / ·) (scale k x) (scale k y) = op2 (· / ·) x y := by
  rw [scale, scale, op2_map_map]
  congr 1
  funext a b
  exact XF.div_scale hk a b

theorem shift_map {g : XF → XF} (hg : g .nan = .nan) (k : Int) (x : Ser) : shift k (x.map g) = (shift k x).map g := by
  rw [shift, shift, List.map_map, List.length_map]
  refine List.map_congr_left fun t _ => ?_
  simp only [Function.comp]
  split
  · rw [List.getElem?_map]
    cases x[((t : Int) - k).toNat]? <;> simp [hg]
  · exact hg.symm

theorem shift_scale (k : ℝ) (j : Int) (x : Ser) : shift j (scale k x) = scale k (shift j x) :=
  shift_map (by simp) j x

theorem logRatio_scale {k : ℝ} (hk : 0 < k) (x y : Ser) : logRatio (scale k x) (scale k y) = logRatio x y := by
  rw [logRatio, op2_div_scale hk, logRatio]

theorem logRatio_length {x y : Ser} (h : x.length = y.length) : (logRatio x y).length = x.length := by
  simp [logRatio, op2_length, h]

/-- Where a log ratio is a number. -/
theorem logRatio_get_inv {x y : Ser} (hl : x.length = y.length) {t : Nat} {r : ℝ}
    (h : (logRatio x y)[t]? = some (.fin r)) :
    ∃ a b, x[t]? = some (.fin a) ∧ y[t]? = some (.fin b) ∧ b ≠ 0 ∧ 0 < a / b ∧ r = Real.log (a / b) := by
  rw [logRatio, List.getElem?_map] at h
  obtain ⟨v, hv, hr⟩ := Option.map_eq_some_iff.1 h
  obtain ⟨p, q, hp, hq, rfl⟩ := op2_get_inv hl hv
  obtain ⟨a, b, rfl, rfl, h1, h2, h3⟩ := XF.log_div_eq_fin hr
  exact ⟨a, b, hp, hq, h1, h2, h3⟩

theorem logRatio_get {x y : Ser} {t : Nat} {a b : ℝ} (hx : x[t]? = some (.fin a)) (hy : y[t]? = some (.fin b))
    (ha : 0 < a) (hb : 0 < b) : (logRatio x y)[t]? = some (.fin (Real.log (a / b))) := by
  rw [logRatio, List.getElem?_map, op2_get _ hx hy]
  simp only [Option.map_some, Option.some.injEq]
  exact XF.log_div_fin ha hb

theorem obs_map {x : Ser} {y k : Nat → ℝ} {w t : Nat} {g : XF → XF} (h : Obs x y w t)
    (hg : ∀ i ∈ Ico (t + 1 - w) (t + 1), g (.fin (y i)) = .fin (k i)) : Obs (x.map g) k w t :=
  ⟨h.1, fun i hi => by rw [List.getElem?_map, h.2 i hi, Option.map_some, hg i hi]⟩

theorem obs_op2 {x z : Ser} {y q k : Nat → ℝ} {w t : Nat} {g : XF → XF → XF} (h : Obs x y w t) (h' : Obs z q w t)
    (hg : ∀ i ∈ Ico (t + 1 - w) (t + 1), g (.fin (y i)) (.fin (q i)) = .fin (k i)) : Obs (op2 g x z) k w t :=
  ⟨h.1, fun i hi => by rw [op2_get _ (h.2 i hi) (h'.2 i hi), hg i hi]⟩

theorem obs_logRatio {x z : Ser} {y q : Nat → ℝ} {w t : Nat} (h : Obs x y w t) (h' : Obs z q w t)
    (hy : ∀ i ∈ Ico (t + 1 - w) (t + 1), 0 < y i) (hq : ∀ i ∈ Ico (t + 1 - w) (t + 1), 0 < q i) :
    Obs (logRatio x z) (fun i => Real.log (y i / q i)) w t :=
  ⟨h.1, fun i hi => logRatio_get (h.2 i hi) (h'.2 i hi) (hy i hi) (hq i hi)⟩

/-- The series one step back. -/
theorem obs_shift {x : Ser} {y : Nat → ℝ} {w t : Nat} (h : Obs x y (w + 1) t) :
    Obs (shift 1 x) (fun i => y (i - 1)) w t := by
  refine ⟨by have := h.1; omega, fun i hi => ?_⟩
  rw [mem_Ico] at hi
  have hb := h.1
  have h1 := h.2 (i - 1) (by rw [mem_Ico]; omega)
  have h2 := h.2 i (by rw [mem_Ico]; omega)
  rw [shift_one_get _ (List.getElem?_eq_some_iff.1 h2).1]
  obtain ⟨j, rfl⟩ : ∃ j, i = j + 1 := ⟨i - 1, by omega⟩
  simp only [Nat.add_sub_cancel] at h1 ⊢
  rw [h1]
  rfl

theorem obs_sub {x : Ser} {y : Nat → ℝ} {w v t : Nat} (h : Obs x y w t) (hv : v ≤ w) : Obs x y v t :=
  ⟨hv.trans h.1, fun i hi => h.2 i (by rw [mem_Ico] at hi ⊢; omega)⟩

/-- What a rolling mean is: NaN, or the mean of a window of numbers. -/
theorem rolling_mean_cases {x u : Ser} {w : Int} (hu : rolling w meanF x = .ok u) {t : Nat} {a : XF}
    (ha : u[t]? = some a) :
    a = .nan ∨ ∃ y, 1 ≤ w.toNat ∧ Obs x y w.toNat t ∧ a = .fin (meanOf y w.toNat t) := by
  have hw : 0 ≤ w := by
    by_contra hlt
    rw [rolling_err (by omega)] at hu
    cases hu
  have ht : t < x.length := by
    rw [← rolling_length hu]
    exact (List.getElem?_eq_some_iff.1 ha).1
  obtain ⟨n, rfl⟩ : ∃ n : Nat, w = n := ⟨w.toNat, by omega⟩
  simp only [Int.toNat_natCast]
  by_cases h : ∃ y, Obs x y n t
  · obtain ⟨y, hy⟩ := h
    by_cases hn : 1 ≤ n
    · right
      have := mean_spec hn hu hy
      rw [ha] at this
      exact ⟨y, hn, hy, Option.some.inj this⟩
    · left
      obtain rfl : n = 0 := by omega
      rw [rolling_get hu ht] at ha
      cases ha
      have : win 0 x t = [] := by
        have := win_length_le 0 x t
        exact List.eq_nil_of_length_eq_zero (by omega)
      simp [rollAt, this, meanF]
  · left
    have := rolling_nan hu ht fun y hy => h ⟨y, hy⟩
    rw [ha] at this
    exact Option.some.inj this

theorem meanOf_mono {y z : Nat → ℝ} {w t : Nat} (h : ∀ i ∈ Ico (t + 1 - w) (t + 1), y i ≤ z i) :
    meanOf y w t ≤ meanOf z w t :=
  div_le_div_of_nonneg_right (Finset.sum_le_sum h) (Nat.cast_nonneg _)

theorem meanOf_nonneg {y : Nat → ℝ} {w t : Nat} (h : ∀ i ∈ Ico (t + 1 - w) (t + 1), 0 ≤ y i) :
    0 ≤ meanOf y w t :=
  div_nonneg (Finset.sum_nonneg h) (Nat.cast_nonneg _)

theorem meanOf_congr {y z : Nat → ℝ} {w t : Nat} (h : ∀ i ∈ Ico (t + 1 - w) (t + 1), y i = z i) :
    meanOf y w t = meanOf z w t := by
  rw [meanOf, meanOf, Finset.sum_congr rfl h]

theorem meanOf_smul (k : ℝ) (y : Nat → ℝ) (w t : Nat) : meanOf (fun i => k * y i) w t = k * meanOf y w t := by
  rw [meanOf, meanOf, ← Finset.mul_sum, mul_div_assoc]

theorem meanOf_sub (y z : Nat → ℝ) (w t : Nat) : meanOf (fun i => y i - z i) w t = meanOf y w t - meanOf z w t := by
  rw [meanOf, meanOf, meanOf, Finset.sum_sub_distrib, sub_div]

end Ser

end Verif
