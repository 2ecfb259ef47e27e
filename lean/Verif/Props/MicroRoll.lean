import Verif.Props.MicroTrade

/-!
# C59: Roll's measure and Roll's impact
-/

namespace Verif.Props.MicroRoll

open Verif Ser Micro Finset IndRolling MicroVol MicroTrade

/-- The sample covariance of `x` and `y` over the `w` positions up to `t`. -/
noncomputable def covOf (x y : Nat → ℝ) (w t : Nat) : ℝ :=
  (∑ i ∈ Ico (t + 1 - w) (t + 1), (x i - meanOf x w t) * (y i - meanOf y w t)) / (w - 1)

theorem win2_eq {x y : Ser} {p q : Nat → ℝ} {w t : Nat} (hw : 1 ≤ w) (hx : Obs x p w t) (hy : Obs y q w t) :
    win2 w x y t = (List.range w).map fun j => (p (t + 1 - w + j), q (t + 1 - w + j)) := by
  rw [win2, List.zip, List.take_zipWith, List.drop_zipWith, seg_eq hw hx, seg_eq hw hy, List.zipWith_map, List.zipWith_map,
    List.zipWith_self, List.filterMap_map]
  have : ((fun p : XF × XF => p.1.real?.bind fun a => p.2.real?.map fun b => (a, b)) ∘
      fun j => (XF.fin (p (t + 1 - w + j)), XF.fin (q (t + 1 - w + j)))) =
      some ∘ fun j => (p (t + 1 - w + j), q (t + 1 - w + j)) := rfl
  rw [this, ← List.filterMap_map, List.filterMap_some]

/-- `x.rolling(w).cov(y)` is the sample covariance of the window. -/
theorem rollingCov_spec {x y u : Ser} {p q : Nat → ℝ} {w t : Nat} (hw : 2 ≤ w) (hu : rollingCov w x y = .ok u)
    (hx : Obs x p w t) (hy : Obs y q w t) : u[t]? = some (.fin (covOf p q w t)) := by
  have ht : t < (x.zip y).length := by
    have h1 := (List.getElem?_eq_some_iff.1 (hx.2 t (by rw [mem_Ico]; omega))).1
    have h2 := (List.getElem?_eq_some_iff.1 (hy.2 t (by rw [mem_Ico]; omega))).1
    rw [List.length_zip]
    exact lt_min h1 h2
  rw [rollingCov, if_neg (by omega)] at hu
  cases hu
  have hwt := hx.1
  have hE := win2_eq (by omega) hx hy
  have hlen : (win2 w x y t).length = w := by rw [hE]; simp
  rw [List.getElem?_map, List.getElem?_range ht]
  simp only [Option.map_some, Int.toNat_natCast]
  rw [if_pos (by rw [hlen]; omega), covF, hlen]
  have hw0 : (w : ℝ) ≠ 0 := by positivity
  have hw1 : (w : ℝ) - 1 ≠ 0 := by
    have : (2 : ℝ) ≤ w := by exact_mod_cast hw
    linarith
  rw [XF.div_fin hw1, XF.mul_fin, hE]
  simp only [List.map_map, Function.comp_def]
  have e1 := sum_window' p hwt
  have e2 := sum_window' q hwt
  have e3 := sum_window' (fun i => p i * q i) hwt
  have hm1 : (∑ i ∈ Ico (t + 1 - w) (t + 1), p i) = w * meanOf p w t := by rw [meanOf]; field_simp
  have hm2 : (∑ i ∈ Ico (t + 1 - w) (t + 1), q i) = w * meanOf q w t := by rw [meanOf]; field_simp
  have hc : (∑ i ∈ Ico (t + 1 - w) (t + 1), (p i - meanOf p w t) * (q i - meanOf q w t)) =
      (∑ i ∈ Ico (t + 1 - w) (t + 1), p i * q i) - w * meanOf p w t * meanOf q w t := by
    have : ∀ i, (p i - meanOf p w t) * (q i - meanOf q w t) =
        p i * q i - meanOf q w t * p i - meanOf p w t * q i + meanOf p w t * meanOf q w t := fun i => by ring
    simp only [this]
    rw [Finset.sum_add_distrib, Finset.sum_sub_distrib, Finset.sum_sub_distrib, ← Finset.mul_sum, ← Finset.mul_sum, hm1,
      hm2, Finset.sum_const, Nat.card_Ico, show t + 1 - (t + 1 - w) = w by omega, nsmul_eq_mul]
    ring
  rw [e1, e2, e3, covOf, hc, hm1, hm2]
  congr 2
  field_simp

/-- Without a full window of pairs of numbers the covariance is NaN. -/
theorem rollingCov_nan {x y u : Ser} {w t : Nat} (hl : x.length = y.length) (hu : rollingCov w x y = .ok u)
    (ht : t < x.length) (h : ∀ p, ¬ Obs x p w t) : u[t]? = some .nan := by
  rw [rollingCov, if_neg (by omega)] at hu
  cases hu
  rw [List.getElem?_map, List.getElem?_range (by rw [List.length_zip, hl, min_self, ← hl]; exact ht)]
  simp only [Option.map_some, Int.toNat_natCast]
  rw [if_neg]
  rintro ⟨h1, -⟩
  have hle : (win2 w x y t).length ≤ (win w x t).length := by
    have : win w x t = (((x.zip y).take (t + 1)).drop (t + 1 - w)).filterMap fun p => p.1.real? := by
      rw [win]
      have : x = (x.zip y).map Prod.fst := by rw [List.map_fst_zip (by omega)]
      conv_lhs => rw [this]
      rw [← List.map_take, ← List.map_drop, List.filterMap_map]
      rfl
    rw [this, win2]
    generalize ((x.zip y).take (t + 1)).drop (t + 1 - w) = l
    induction l with
    | nil => simp
    | cons v l ih =>
      simp only [List.filterMap_cons]
      cases h1 : v.1.real? with
      | none => simpa using ih
      | some a =>
        cases h2 : v.2.real? with
        | none => simp; omega
        | some b => simpa using ih
  obtain ⟨p, hp⟩ := obs_of_full (h1.trans hle) ht
  exact h p hp

theorem rollingCov_length {x y u : Ser} {w : Int} (hl : x.length = y.length) (hu : rollingCov w x y = .ok u) :
    u.length = x.length := by
  rw [rollingCov] at hu
  by_cases h : w < 0
  · rw [if_pos h] at hu; cases hu
  · rw [if_neg h] at hu
    cases hu
    simp [hl]

theorem covF_one (x y : ℝ) : covF [(x, y)] = .nan := by
  rw [covF]
  simp only [List.map_cons, List.map_nil, List.sum_cons, List.sum_nil, List.length_cons, List.length_nil]
  norm_num
  show XF.mul (.fin 0) (XF.div (.fin 1) (.fin 0)) = _
  simp [XF.div, XF.infSign, XF.mul]

/-- A rolling covariance is NaN or a number, never infinite. -/
theorem rollingCov_cases {x y u : Ser} {w : Int} (hu : rollingCov w x y = .ok u) {t : Nat} {a : XF}
    (ha : u[t]? = some a) : a = .nan ∨ ∃ r, a = .fin r := by
  rw [rollingCov] at hu
  by_cases hw : w < 0
  · rw [if_pos hw] at hu; cases hu
  rw [if_neg hw] at hu
  cases hu
  rw [List.getElem?_map] at ha
  obtain ⟨i, -, rfl⟩ := Option.map_eq_some_iff.1 ha
  by_cases h : w.toNat ≤ (win2 w.toNat x y i).length ∧ 0 < (win2 w.toNat x y i).length
  · rw [if_pos h]
    have h0 := h.2
    generalize win2 w.toNat x y i = l at h0
    match l, h0 with
    | [(p, q)], _ => exact .inl (covF_one p q)
    | a :: b :: l, _ =>
      right
      have hn : (((a :: b :: l).length : ℕ) : ℝ) - 1 ≠ 0 := by
        simp only [List.length_cons, Nat.cast_add, Nat.cast_one, add_sub_cancel_right]
        positivity
      rw [covF]
      rw [XF.div_fin hn, XF.mul_fin]
      exact ⟨_, rfl⟩
  · rw [if_neg h]
    exact .inl rfl

/-- Roll's measure is NaN or non-negative, for all data. -/
theorem roll_nonneg {c u : Ser} {w : Int} (hu : rollMeasure c w = .ok u) : NonNeg u := by
  obtain ⟨v, hcov, hv⟩ := Ser.bind_ok hu
  cases hv
  apply nonneg_of
  intro t a ha
  rw [List.getElem?_map] at ha
  obtain ⟨s, hs, rfl⟩ := Option.map_eq_some_iff.1 ha
  rcases rollingCov_cases hcov hs with rfl | ⟨r, rfl⟩
  · left; simp
  · right
    rw [XF.abs_fin, XF.sqrt_fin (abs_nonneg _), XF.mul_fin]
    exact ⟨_, rfl, by positivity⟩

theorem obs_log {c : Ser} {P : Nat → ℝ} {w t : Nat} (hc : Obs c P w t) (hpos : ∀ i ∈ Ico (t + 1 - w) (t + 1), 0 < P i) :
    Obs (c.map XF.log) (fun i => Real.log (P i)) w t :=
  obs_map hc fun i hi => XF.log_fin (hpos i hi)

theorem obs_diff {c : Ser} {P : Nat → ℝ} {w t : Nat} (hc : Obs c P (w + 1) t) :
    Obs (diff 1 c) (fun i => P i - P (i - 1)) w t :=
  obs_op2 (obs_sub hc (Nat.le_succ w)) (obs_shift hc) fun i _ => XF.sub_fin _ _

/-- The formula: twice the root of the absolute value of the lag-one autocovariance of log returns, over `w + 2` closes.
The textbook measure is `2 sqrt (-cov)` and is undefined for a positive autocovariance; here the sign is dropped. -/
theorem roll_spec {c u : Ser} {P : Nat → ℝ} {w t : Nat} (hw : 2 ≤ w) (hu : rollMeasure c w = .ok u)
    (hc : Obs c P (w + 2) t) (hpos : ∀ i ∈ Ico (t - 1 - w) (t + 1), 0 < P i) :
    u[t]? = some (.fin (2 * Real.sqrt |covOf (fun i => Real.log (P i) - Real.log (P (i - 1)))
      (fun i => Real.log (P (i - 1)) - Real.log (P (i - 1 - 1))) w t|)) := by
  obtain ⟨v, hv, hvu⟩ := Ser.bind_ok hu
  cases hvu
  have hwt := hc.1
  have hd : Obs (diff 1 (c.map XF.log)) (fun i => Real.log (P i) - Real.log (P (i - 1))) (w + 1) t :=
    obs_diff (obs_log hc fun i hi => hpos i (by rw [mem_Ico] at hi ⊢; omega))
  have := rollingCov_spec hw hv (obs_sub hd (Nat.le_succ w)) (obs_shift hd)
  rw [List.getElem?_map, this]
  simp only [Option.map_some, XF.abs_fin]
  rw [XF.sqrt_fin (abs_nonneg _), XF.mul_fin]

/-- With window 1 the measure is always NaN (the covariance of one pair). -/
theorem roll_window_one {c u : Ser} (hu : rollMeasure c 1 = .ok u) {t : Nat} {a : XF} (ha : u[t]? = some a) :
    a = .nan := by
  obtain ⟨v, hv, hvu⟩ := Ser.bind_ok hu
  cases hvu
  rw [List.getElem?_map] at ha
  obtain ⟨s, hs, rfl⟩ := Option.map_eq_some_iff.1 ha
  have : s = .nan := by
    rw [rollingCov, if_neg (by decide)] at hv
    cases hv
    rw [List.getElem?_map] at hs
    obtain ⟨i, -, rfl⟩ := Option.map_eq_some_iff.1 hs
    by_cases h : (1 : Int).toNat ≤ (win2 (1 : Int).toNat (diff 1 (c.map XF.log)) (shift 1 (diff 1 (c.map XF.log))) i).length ∧
        0 < (win2 (1 : Int).toNat (diff 1 (c.map XF.log)) (shift 1 (diff 1 (c.map XF.log))) i).length
    · rw [if_pos h]
      have hle : (win2 (1 : Int).toNat (diff 1 (c.map XF.log)) (shift 1 (diff 1 (c.map XF.log))) i).length ≤ 1 := by
        rw [win2]
        refine (List.length_filterMap_le _ _).trans ?_
        simp
      generalize win2 (1 : Int).toNat (diff 1 (c.map XF.log)) (shift 1 (diff 1 (c.map XF.log))) i = l at h hle
      match l, h, hle with
      | [], h, _ => simp at h
      | [(x, y)], _, _ =>
        exact covF_one x y
      | _ :: _ :: _, _, h => simp at h
    · rw [if_neg h]
  subst this
  simp

/-- The first `w + 1` values are missing. -/
theorem roll_leading {c u : Ser} {w t : Nat} (hu : rollMeasure c w = .ok u) (ht : t < c.length) (h : t < w + 1) :
    u[t]? = some .nan := by
  obtain ⟨v, hv, hvu⟩ := Ser.bind_ok hu
  cases hvu
  have hl : (diff 1 (c.map XF.log)).length = (shift 1 (diff 1 (c.map XF.log))).length := (shift_length _ _).symm
  have htl : t < (diff 1 (c.map XF.log)).length := by rw [diff_length]; simpa using ht
  by_cases hw : w = 0
  · subst hw
    rw [Nat.cast_zero, rollingCov, if_neg (by decide)] at hv
    cases hv
    rw [List.getElem?_map, List.getElem?_map, List.getElem?_range (by rw [List.length_zip, ← hl, min_self]; exact htl)]
    simp only [Option.map_some]
    rw [if_neg]
    · simp
    · rintro ⟨-, h2⟩
      rw [win2] at h2
      have := (List.length_filterMap_le (fun p : XF × XF => p.1.real?.bind fun a => p.2.real?.map fun b => (a, b))
        ((((diff 1 (c.map XF.log)).zip (shift 1 (diff 1 (c.map XF.log)))).take (t + 1)).drop (t + 1 - (0 : Int).toNat)))
      have h3 := lt_of_lt_of_le h2 this
      simp at h3
  · rw [List.getElem?_map]
    have : v[t]? = some .nan := by
      by_cases hlt : t < w
      · refine rollingCov_nan hl hv htl fun p hp => ?_
        have h0 := hp.1
        have h1 := hp.2 0 (by rw [mem_Ico]; omega)
        rw [diff, op2_get (t := 0) _ (List.getElem?_eq_getElem (by simpa using by omega)) (shift_one_get _ (by simpa using by omega))] at h1
        simp at h1
      · -- t = w: the pair at position 1 needs the return at position 0
        have : ¬ w ≤ (win2 w (diff 1 (c.map XF.log)) (shift 1 (diff 1 (c.map XF.log))) t).length := by
          intro hle
          have hwin : (win2 w (diff 1 (c.map XF.log)) (shift 1 (diff 1 (c.map XF.log))) t).length ≤
              (win w (shift 1 (diff 1 (c.map XF.log))) t).length := by
            generalize hX : diff 1 (c.map XF.log) = X at *
            generalize hY : shift 1 X = Y at *
            have : win w Y t = (((X.zip Y).take (t + 1)).drop (t + 1 - w)).filterMap fun p => p.2.real? := by
              rw [win]
              have : Y = (X.zip Y).map Prod.snd := by rw [List.map_snd_zip (by omega)]
              conv_lhs => rw [this]
              rw [← List.map_take, ← List.map_drop, List.filterMap_map]
              rfl
            rw [this, win2]
            generalize ((X.zip Y).take (t + 1)).drop (t + 1 - w) = l
            induction l with
            | nil => simp
            | cons v l ih =>
              simp only [List.filterMap_cons]
              cases h1 : v.1.real? with
              | none =>
                cases h2 : v.2.real? with
                | none => simpa using ih
                | some b => simp; omega
              | some a =>
                cases h2 : v.2.real? with
                | none => simpa using ih
                | some b => simpa using ih
          obtain ⟨p, hp⟩ := obs_of_full (hle.trans hwin) (by rw [shift_length]; exact htl)
          have h1 := hp.2 1 (by rw [mem_Ico]; omega)
          rw [shift_one_get _ (by omega)] at h1
          have h0 : (diff 1 (c.map XF.log))[0]? = some .nan := by
            rw [diff, op2_get (t := 0) _ (List.getElem?_eq_getElem (by simpa using by omega)) (shift_one_get _ (by simpa using by omega))]
            simp
          simp [h0] at h1
        rw [rollingCov, if_neg (by omega)] at hv
        cases hv
        rw [List.getElem?_map, List.getElem?_range (by rw [List.length_zip, ← hl, min_self]; exact htl)]
        simp only [Option.map_some, Int.toNat_natCast]
        rw [if_neg fun h => this h.1]
    rw [this]
    simp

theorem log_mul_pos {k : ℝ} (hk : 0 < k) (a : XF) : (a * .fin k).log = a.log + .fin (Real.log k) := by
  cases a with
  | nan => simp
  | pinf =>
    show (XF.mul .pinf (.fin k)).log = XF.add .pinf _
    simp [XF.mul, XF.infSign, hk, XF.log, XF.add]
  | ninf =>
    show (XF.mul .ninf (.fin k)).log = _
    have : XF.mul .ninf (.fin k) = .ninf := by simp [XF.mul, XF.infSign, hk, not_lt.2 hk.le]
    rw [this]
    simp [XF.log]
  | fin r =>
    rw [XF.mul_fin]
    rcases lt_trichotomy r 0 with h | rfl | h
    · have : r * k < 0 := mul_neg_of_neg_of_pos h hk
      simp [XF.log, not_lt.2 h.le, h.ne, not_lt.2 this.le, hk.ne']
    · simp only [XF.log, zero_mul, lt_irrefl, if_false, if_true]
      rfl
    · have : 0 < r * k := mul_pos h hk
      rw [XF.log_fin this, XF.log_fin h, XF.add_fin, Real.log_mul h.ne' hk.ne']

theorem add_sub_add_fin (a b : XF) (m : ℝ) : (a + .fin m) - (b + .fin m) = a - b := by
  cases a <;> cases b <;> first | rfl | simp

theorem diff_log_scale {k : ℝ} (hk : 0 < k) (c : Ser) : diff 1 ((scale k c).map XF.log) = diff 1 (c.map XF.log) := by
  have e : (scale k c).map XF.log = (c.map XF.log).map (· + .fin (Real.log k)) := by
    rw [scale, List.map_map, List.map_map]
    exact List.map_congr_left fun a _ => log_mul_pos hk a
  rw [e, diff, shift_map (by simp), op2_map_map]
  simp only [add_sub_add_fin]
  rfl

/-- Roll's measure does not depend on the price unit, whatever the data. -/
theorem roll_scale {k : ℝ} (hk : 0 < k) (c : Ser) (w : Int) : rollMeasure (scale k c) w = rollMeasure c w := by
  rw [rollMeasure, rollMeasure, diff_log_scale hk]

/-- Roll's impact: the measure over the traded value of the bar. -/
theorem impact_spec {c v u m : Ser} {w : Int} {t : Nat} {r V P : ℝ} (hm : rollMeasure c w = .ok m)
    (hu : rollImpact c v w = .ok u) (hr : m[t]? = some (.fin r)) (hv : v[t]? = some (.fin V)) (hc : c[t]? = some (.fin P))
    (hV : V ≠ 0) (hP : P ≠ 0) : u[t]? = some (.fin (r / (V * P))) := by
  obtain ⟨m', hm', hu'⟩ := Ser.bind_ok hu
  rw [hm] at hm'
  cases hm'
  cases hu'
  rw [op2_get _ hr (op2_get _ hv hc), XF.mul_fin, XF.div_fin (mul_ne_zero hV hP)]

/-- Witness for the dropped sign: log returns 0, 1, 2, whose autocovariance over two pairs is `+1/2`, get the "spread"
`sqrt 2`. -/
theorem roll_positive_autocov :
    ∃ u, rollMeasure [.fin 1, .fin 1, .fin (Real.exp 1), .fin (Real.exp 3)] 2 = .ok u ∧
      0 < covOf (fun i => if i = 3 then 2 else 1) (fun i => if i = 3 then 1 else 0) 2 3 ∧
      u[3]? = some (.fin (Real.sqrt 2)) := by
  have hcov : ∀ p q : Nat → ℝ, covOf p q 2 3 = (p 2 - p 3) * (q 2 - q 3) / 2 := by
    intro p q
    have hI : Ico (3 + 1 - 2) (3 + 1) = ({2, 3} : Finset ℕ) := by decide
    rw [covOf, meanOf, meanOf, hI]
    simp
    ring
  refine ⟨_, rfl, by rw [hcov]; norm_num, ?_⟩
  have := roll_spec (c := [.fin 1, .fin 1, .fin (Real.exp 1), .fin (Real.exp 3)]) (w := 2) (t := 3)
    (P := fun i => if i ≤ 1 then 1 else if i = 2 then Real.exp 1 else Real.exp 3) le_rfl rfl
    ⟨by omega, fun i hi => by
      rw [mem_Ico] at hi
      match i with
      | 0 => rfl
      | 1 => rfl
      | 2 => rfl
      | 3 => rfl
      | i + 4 => omega⟩ (fun i _ => by
        split_ifs <;> positivity)
  refine this.trans ?_
  rw [hcov]
  have h4 : (2 : ℝ) = Real.sqrt 4 := by
    rw [show (4 : ℝ) = 2 ^ 2 by norm_num, Real.sqrt_sq (by norm_num)]
  norm_num
  conv_lhs => enter [1]; rw [h4]
  rw [← div_eq_mul_inv, ← Real.sqrt_div (by norm_num)]
  norm_num

end Verif.Props.MicroRoll
