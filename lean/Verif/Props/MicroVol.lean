import Verif.Lemmas.Micro
import Mathlib.Analysis.SpecialFunctions.Log.Deriv
import Mathlib.Analysis.Complex.ExponentialBounds

/-!
# C55: range-based volatility estimators

All the functions return variances. `Bars h l o c`: wherever the four prices of a bar are numbers, they are positive with
`low <= open, close <= high`.
-/

namespace Verif.Props.MicroVol

open Verif Ser Micro Finset IndRolling

/-- Valid OHLC data (missing values allowed). -/
structure Bars (h l o c : Ser) : Prop where
  hl : h.length = l.length
  lo : l.length = o.length
  oc : o.length = c.length
  valid : ∀ (i : Nat) (H L O C : ℝ), h[i]? = some (.fin H) → l[i]? = some (.fin L) → o[i]? = some (.fin O) →
    c[i]? = some (.fin C) → 0 < L ∧ L ≤ O ∧ L ≤ C ∧ O ≤ H ∧ C ≤ H

/-- Every value of the series is NaN or a non-negative number. -/
def NonNeg (u : Ser) : Prop := ∀ v ∈ u, v = .nan ∨ ∃ r, v = .fin r ∧ 0 ≤ r

theorem nonneg_of {u : Ser} (h : ∀ (t : Nat) (a : XF), u[t]? = some a → IndRsi.Fine a) : NonNeg u := by
  intro v hv
  obtain ⟨t, ht⟩ := List.mem_iff_getElem?.1 hv
  exact h t v ht

/-! ## Close-close -/

/-- The close-close estimate is NaN or non-negative, for every series. -/
theorem closeClose_nonneg {c u : Ser} {w : Int} (h : closeClose c w = .ok u) : NonNeg u := by
  apply nonneg_of
  intro t a ha
  have ht : t < (op2 (· / ·) c (shift 1 c)).length := by
    rw [← rolling_length h]
    exact (List.getElem?_eq_some_iff.1 ha).1
  rw [rolling_get h ht] at ha
  cases ha
  rw [rollAt]
  split
  · rw [varF]
    split
    · exact .inl rfl
    · rename_i hlt
      refine .inr ⟨_, rfl, div_nonneg (ssd_nonneg _) ?_⟩
      have : (2 : ℝ) ≤ (win w.toNat (op2 (· / ·) c (shift 1 c)) t).length := by exact_mod_cast (by omega)
      linarith
  · exact .inl rfl

/-- It is the sample variance of the last `w` price ratios; `w + 1` prices are needed. -/
theorem closeClose_spec {c u : Ser} {y : Nat → ℝ} {w t : Nat} (hw : 2 ≤ w) (h : closeClose c w = .ok u)
    (hy : Obs c y (w + 1) t) (hne : ∀ i ∈ Ico (t - w) (t + 1), y i ≠ 0) :
    u[t]? = some (.fin (stdOf (fun i => y i / y (i - 1)) w t ^ 2)) := by
  have hb := hy.1
  have ho : Obs (op2 (· / ·) c (shift 1 c)) (fun i => y i / y (i - 1)) w t :=
    obs_op2 (obs_sub hy (Nat.le_succ w)) (obs_shift hy) fun i hi => by
      rw [mem_Ico] at hi
      exact XF.div_fin (hne _ (by rw [mem_Ico]; omega))
  have ht : t < (op2 (· / ·) c (shift 1 c)).length :=
    (List.getElem?_eq_some_iff.1 (ho.2 t (by rw [mem_Ico]; omega))).1
  have hw2 : (2 : ℝ) ≤ w := by exact_mod_cast hw
  generalize (fun i => y i / y (i - 1)) = z at ho ⊢
  rw [rolling_get h ht, Int.toNat_natCast, rollAt_obs (by omega) ho, varF, if_neg (by simp; omega), ssd,
    sum_window' _ ho.1, sum_window _ _ ho.1, stdOf, Real.sq_sqrt]
  · simp [meanOf]
  · exact div_nonneg (Finset.sum_nonneg fun i _ => sq_nonneg _) (by linarith)

/-- The first `w` values are NaN (one more than for a plain rolling statistic). -/
theorem closeClose_leading {c u : Ser} {w : Nat} (hw : 1 ≤ w) (h : closeClose c w = .ok u) {t : Nat}
    (ht : t < c.length) (htw : t < w) : u[t]? = some .nan := by
  have hlen : t < (op2 (· / ·) c (shift 1 c)).length := by simpa [op2_length, shift_length] using ht
  refine rolling_nan h hlen fun y hy => ?_
  have h0 := hy.2 0 (by have := hy.1; rw [mem_Ico]; omega)
  have hc0 : 0 < c.length := by omega
  rw [op2_get _ (List.getElem?_eq_getElem hc0) (shift_one_get c hc0)] at h0
  simp at h0

/-! ## High-low (Parkinson) -/

theorem sq_series_nonneg (x : Ser) : ∀ v ∈ x.map sqF, ∀ r, v = .fin r → 0 ≤ r := by
  rintro v hv r rfl
  obtain ⟨a, -, ha⟩ := List.mem_map.1 hv
  obtain ⟨s, -, rfl⟩ := XF.sqF_eq_fin ha
  exact sq_nonneg s

theorem log_two_pos : 0 < Real.log 2 := Real.log_pos (by norm_num)

theorem fine_div {a : XF} {k : ℝ} (hk : 0 < k) (h : IndRsi.Fine a) : IndRsi.Fine (a / .fin k) := by
  rcases h with rfl | ⟨r, rfl, hr⟩
  · exact .inl (by simp)
  · exact .inr ⟨r / k, XF.div_fin hk.ne', div_nonneg hr hk.le⟩

theorem fine_mul {a : XF} {k : ℝ} (hk : 0 ≤ k) (h : IndRsi.Fine a) : IndRsi.Fine (.fin k * a) := by
  rcases h with rfl | ⟨r, rfl, hr⟩
  · exact .inl (by simp)
  · exact .inr ⟨k * r, rfl, mul_nonneg hk hr⟩

theorem fine_add {a b : XF} (h : IndRsi.Fine a) (h' : IndRsi.Fine b) : IndRsi.Fine (a + b) := by
  rcases h with rfl | ⟨r, rfl, hr⟩
  · exact .inl (by simp)
  · rcases h' with rfl | ⟨s, rfl, hs⟩
    · exact .inl (by simp)
    · exact .inr ⟨r + s, rfl, add_nonneg hr hs⟩

/-- NaN or non-negative, for all data. -/
theorem highLow_nonneg {h l u : Ser} {w : Int} (hu : highLow h l w = .ok u) : NonNeg u := by
  obtain ⟨m, hm, h'⟩ := bind_ok hu
  cases h'
  apply nonneg_of
  intro t a ha
  rw [List.getElem?_map] at ha
  obtain ⟨b, hb, rfl⟩ := Option.map_eq_some_iff.1 ha
  exact fine_div (by linarith [log_two_pos]) (IndRsi.rolling_fine (sq_series_nonneg _) hm hb)

/-- Parkinson's estimator: the mean of `log(high/low)^2`, divided by `4 log 2`. -/
theorem highLow_spec {h l u : Ser} {H L : Nat → ℝ} {w t : Nat} (hw : 1 ≤ w) (hu : highLow h l w = .ok u)
    (hh : Obs h H w t) (hl : Obs l L w t) (hpos : ∀ i ∈ Ico (t + 1 - w) (t + 1), 0 < L i ∧ 0 < H i) :
    u[t]? = some (.fin (meanOf (fun i => Real.log (H i / L i) ^ 2) w t / (4 * Real.log 2))) := by
  obtain ⟨m, hm, h'⟩ := bind_ok hu
  cases h'
  have ho : Obs ((logRatio h l).map sqF) (fun i => Real.log (H i / L i) ^ 2) w t :=
    obs_map (obs_logRatio hh hl (fun i hi => (hpos i hi).2) fun i hi => (hpos i hi).1) fun i _ => XF.sqF_fin _
  rw [List.getElem?_map, mean_spec hw hm ho]
  simp only [Option.map_some, Option.some.injEq]
  exact XF.div_fin (by have := log_two_pos; positivity)

/-! ## Garman-Klass -/

theorem gk_coeff : 2 * Real.log 2 - 1 ≤ 1 / 2 ∧ 0 ≤ 2 * Real.log 2 - 1 := by
  have h1 := Real.log_two_lt_d9
  have h2 := Real.log_two_gt_d9
  constructor <;> linarith

/-- On a valid bar the open-close move is within the range. -/
theorem log_sq_le {H L O C : ℝ} (hL : 0 < L) (h1 : L ≤ O) (h2 : L ≤ C) (h3 : O ≤ H) (h4 : C ≤ H) :
    Real.log (C / O) ^ 2 ≤ Real.log (H / L) ^ 2 := by
  have hO := hL.trans_le h1
  have hC := hL.trans_le h2
  have hH := hO.trans_le h3
  rw [Real.log_div hC.ne' hO.ne', Real.log_div hH.ne' hL.ne']
  have e1 := Real.log_le_log hL h1
  have e2 := Real.log_le_log hL h2
  have e3 := Real.log_le_log hO h3
  have e4 := Real.log_le_log hC h4
  apply sq_le_sq'
  · linarith
  · linarith

/-- NaN or non-negative on valid bars. -/
theorem garmanKlass_nonneg {h l o c u : Ser} {w : Int} (hb : Bars h l o c) (hu : garmanKlass h l o c w = .ok u) :
    NonNeg u := by
  obtain ⟨a, ha, h'⟩ := bind_ok hu
  obtain ⟨b, hb', h'⟩ := bind_ok h'
  cases h'
  apply nonneg_of
  intro t v hv
  have hlen : a.length = b.length := by
    rw [rolling_length ha, rolling_length hb', List.length_map, List.length_map, logRatio_length hb.hl,
      logRatio_length hb.oc.symm, hb.hl, hb.lo, hb.oc]
  obtain ⟨p, q, hp, hq, rfl⟩ := op2_get_inv hlen hv
  rcases rolling_mean_cases ha hp with rfl | ⟨y, hw, hy, rfl⟩
  · exact .inl (by simp)
  rcases rolling_mean_cases hb' hq with rfl | ⟨z, -, hz, rfl⟩
  · exact .inl (by simp)
  refine .inr ⟨_, XF.sub_fin _ _, sub_nonneg.2 (meanOf_mono fun i hi => ?_)⟩
  have e1 := hy.2 i hi
  have e2 := hz.2 i hi
  rw [List.getElem?_map] at e1 e2
  obtain ⟨v1, hv1, r1⟩ := Option.map_eq_some_iff.1 e1
  obtain ⟨v2, hv2, r2⟩ := Option.map_eq_some_iff.1 e2
  obtain ⟨k1, s1, hk1, hs1, q1⟩ := XF.mul_eq_fin r1
  obtain ⟨k2, s2, hk2, hs2, q2⟩ := XF.mul_eq_fin r2
  cases hk1
  cases hk2
  obtain ⟨g1, rfl, rfl⟩ := XF.sqF_eq_fin hs1
  obtain ⟨g2, rfl, rfl⟩ := XF.sqF_eq_fin hs2
  obtain ⟨H, L, hH, hL, -, -, rfl⟩ := logRatio_get_inv hb.hl hv1
  obtain ⟨C, O, hC, hO, -, -, rfl⟩ := logRatio_get_inv hb.oc.symm hv2
  obtain ⟨f1, f2, f3, f4, f5⟩ := hb.valid i H L O C hH hL hO hC
  have hle := log_sq_le f1 f2 f3 f4 f5
  have hc := gk_coeff
  have := sq_nonneg (Real.log (C / O))
  rw [q1, q2]
  nlinarith

/-- The Garman-Klass formula. -/
theorem garmanKlass_spec {h l o c u : Ser} {H L O C : Nat → ℝ} {w t : Nat} (hw : 1 ≤ w)
    (hu : garmanKlass h l o c w = .ok u) (hh : Obs h H w t) (hl : Obs l L w t) (ho : Obs o O w t) (hc : Obs c C w t)
    (hpos : ∀ i ∈ Ico (t + 1 - w) (t + 1), 0 < H i ∧ 0 < L i ∧ 0 < O i ∧ 0 < C i) :
    u[t]? = some (.fin (meanOf (fun i => 1 / 2 * Real.log (H i / L i) ^ 2 -
      (2 * Real.log 2 - 1) * Real.log (C i / O i) ^ 2) w t)) := by
  obtain ⟨a, ha, h'⟩ := bind_ok hu
  obtain ⟨b, hb', h'⟩ := bind_ok h'
  cases h'
  have o1 : Obs ((logRatio h l).map fun v => .fin (1 / 2) * sqF v) (fun i => 1 / 2 * Real.log (H i / L i) ^ 2) w t :=
    obs_map (obs_logRatio hh hl (fun i hi => (hpos i hi).1) fun i hi => (hpos i hi).2.1) fun i _ => by
      rw [XF.sqF_fin, XF.mul_fin]
  have o2 : Obs ((logRatio c o).map fun v => .fin (2 * Real.log 2 - 1) * sqF v)
      (fun i => (2 * Real.log 2 - 1) * Real.log (C i / O i) ^ 2) w t :=
    obs_map (obs_logRatio hc ho (fun i hi => (hpos i hi).2.2.2) fun i hi => (hpos i hi).2.2.1) fun i _ => by
      rw [XF.sqF_fin, XF.mul_fin]
  rw [op2_get _ (mean_spec hw ha o1) (mean_spec hw hb' o2), XF.sub_fin, meanOf_sub]

/-- On bars that are not valid the "variance" can be negative: high = low = open = 1, close = 2. -/
theorem garmanKlass_negative : ∃ u r, garmanKlass [.fin 1] [.fin 1] [.fin 1] [.fin 2] 1 = .ok u ∧
    u[0]? = some (.fin r) ∧ r < 0 := by
  obtain ⟨u, hu⟩ : ∃ u, garmanKlass [.fin 1] [.fin 1] [.fin 1] [.fin 2] 1 = .ok u := by
    rw [garmanKlass, rolling_ok (by decide)]
    exact ⟨_, rfl⟩
  have key := garmanKlass_spec (w := 1) (t := 0) (H := fun _ => 1) (L := fun _ => 1) (O := fun _ => 1)
    (C := fun _ => 2) le_rfl hu ⟨le_rfl, by simp⟩ ⟨le_rfl, by simp⟩ ⟨le_rfl, by simp⟩ ⟨le_rfl, by simp⟩ (by simp)
  refine ⟨u, _, hu, key, ?_⟩
  have h1 := Real.log_two_gt_d9
  have h2 := log_two_pos
  simp [meanOf]
  have : 0 < (2 * Real.log 2 - 1) * Real.log 2 ^ 2 := mul_pos (by linarith) (by positivity)
  linarith

/-! ## Rogers-Satchell -/

/-- The variance proxy of one bar. -/
noncomputable def rsTerm (H L O C : ℝ) : ℝ :=
  Real.log (H / C) * Real.log (H / O) + Real.log (L / C) * Real.log (L / O)

theorem rsTerm_nonneg {H L O C : ℝ} (hL : 0 < L) (h1 : L ≤ O) (h2 : L ≤ C) (h3 : O ≤ H) (h4 : C ≤ H) :
    0 ≤ rsTerm H L O C := by
  have hO := hL.trans_le h1
  have hC := hL.trans_le h2
  have hH := hO.trans_le h3
  rw [rsTerm, Real.log_div hH.ne' hC.ne', Real.log_div hH.ne' hO.ne', Real.log_div hL.ne' hC.ne',
    Real.log_div hL.ne' hO.ne']
  have e1 := Real.log_le_log hL h1
  have e2 := Real.log_le_log hL h2
  have e3 := Real.log_le_log hO h3
  have e4 := Real.log_le_log hC h4
  have p1 := mul_nonneg (sub_nonneg.2 e4) (sub_nonneg.2 e3)
  have p2 := mul_nonneg (sub_nonneg.2 e2) (sub_nonneg.2 e1)
  nlinarith

/-- NaN or non-negative on valid bars. -/
theorem rogersSatchell_nonneg {h l o c u : Ser} {w : Int} (hb : Bars h l o c)
    (hu : rogersSatchell h l o c w = .ok u) : NonNeg u := by
  apply nonneg_of
  intro t a ha
  refine IndRsi.rolling_fine ?_ hu ha
  rintro v hv r rfl
  obtain ⟨i, hi⟩ := List.mem_iff_getElem?.1 hv
  have l1 : (logRatio h c).length = h.length := logRatio_length (by rw [hb.hl, hb.lo, hb.oc])
  have l2 : (logRatio h o).length = h.length := logRatio_length (by rw [hb.hl, hb.lo])
  have l3 : (logRatio l c).length = l.length := logRatio_length (by rw [hb.lo, hb.oc])
  have l4 : (logRatio l o).length = l.length := logRatio_length hb.lo
  obtain ⟨p, q, hp, hq, hpq⟩ := op2_get_inv (by simp [op2_length, l1, l2, l3, l4, hb.hl]) hi
  obtain ⟨x, y, rfl, rfl, rfl⟩ := XF.add_eq_fin hpq.symm
  obtain ⟨a1, a2, ha1, ha2, h12⟩ := op2_get_inv (by rw [l1, l2]) hp
  obtain ⟨a3, a4, ha3, ha4, h34⟩ := op2_get_inv (by rw [l3, l4]) hq
  obtain ⟨r1, r2, rfl, rfl, rfl⟩ := XF.mul_eq_fin h12.symm
  obtain ⟨r3, r4, rfl, rfl, rfl⟩ := XF.mul_eq_fin h34.symm
  obtain ⟨H, C, hH, hC, -, -, rfl⟩ := logRatio_get_inv (by rw [hb.hl, hb.lo, hb.oc]) ha1
  obtain ⟨H', O, hH', hO, -, -, rfl⟩ := logRatio_get_inv (by rw [hb.hl, hb.lo]) ha2
  obtain ⟨L, C', hL, hC', -, -, rfl⟩ := logRatio_get_inv (by rw [hb.lo, hb.oc]) ha3
  obtain ⟨L', O', hL', hO', -, -, rfl⟩ := logRatio_get_inv hb.lo ha4
  rw [hH] at hH'
  rw [hC] at hC'
  rw [hO] at hO'
  rw [hL] at hL'
  cases hH'
  cases hC'
  cases hO'
  cases hL'
  obtain ⟨f1, f2, f3, f4, f5⟩ := hb.valid i H L O C hH hL hO hC
  exact rsTerm_nonneg f1 f2 f3 f4 f5

/-- The Rogers-Satchell formula. -/
theorem rogersSatchell_spec {h l o c u : Ser} {H L O C : Nat → ℝ} {w t : Nat} (hw : 1 ≤ w)
    (hu : rogersSatchell h l o c w = .ok u) (hh : Obs h H w t) (hl : Obs l L w t) (ho : Obs o O w t) (hc : Obs c C w t)
    (hpos : ∀ i ∈ Ico (t + 1 - w) (t + 1), 0 < H i ∧ 0 < L i ∧ 0 < O i ∧ 0 < C i) :
    u[t]? = some (.fin (meanOf (fun i => rsTerm (H i) (L i) (O i) (C i)) w t)) := by
  have q : ∀ i ∈ Ico (t + 1 - w) (t + 1), 0 < H i := fun i hi => (hpos i hi).1
  have q2 : ∀ i ∈ Ico (t + 1 - w) (t + 1), 0 < L i := fun i hi => (hpos i hi).2.1
  have q3 : ∀ i ∈ Ico (t + 1 - w) (t + 1), 0 < O i := fun i hi => (hpos i hi).2.2.1
  have q4 : ∀ i ∈ Ico (t + 1 - w) (t + 1), 0 < C i := fun i hi => (hpos i hi).2.2.2
  refine mean_spec hw hu (obs_op2
    (y := fun i => Real.log (H i / C i) * Real.log (H i / O i)) (q := fun i => Real.log (L i / C i) * Real.log (L i / O i))
    (obs_op2 (obs_logRatio hh hc q q4) (obs_logRatio hh ho q q3) fun i _ => rfl)
    (obs_op2 (obs_logRatio hl hc q2 q4) (obs_logRatio hl ho q2 q3) fun i _ => rfl) fun i _ => rfl)

/-- On bars that are not valid it can be negative: high = low = 1, open = 1/2, close = 2. -/
theorem rogersSatchell_negative : ∃ u r, rogersSatchell [.fin 1] [.fin 1] [.fin (1 / 2)] [.fin 2] 1 = .ok u ∧
    u[0]? = some (.fin r) ∧ r < 0 := by
  obtain ⟨u, hu⟩ : ∃ u, rogersSatchell [.fin 1] [.fin 1] [.fin (1 / 2)] [.fin 2] 1 = .ok u := by
    rw [rogersSatchell, rolling_ok (by decide)]
    exact ⟨_, rfl⟩
  have key := rogersSatchell_spec (w := 1) (t := 0) (H := fun _ => 1) (L := fun _ => 1) (O := fun _ => 1 / 2)
    (C := fun _ => 2) le_rfl hu ⟨le_rfl, by simp⟩ ⟨le_rfl, by simp⟩ ⟨le_rfl, by simp⟩ ⟨le_rfl, by simp⟩ (by simp)
  refine ⟨u, _, hu, key, ?_⟩
  have h2 := log_two_pos
  simp [meanOf, rsTerm]
  have : 0 < Real.log 2 * Real.log 2 := mul_pos h2 h2
  linarith

/-- A bar that runs straight from low to high (or from high to low) counts as no variance. -/
theorem rsTerm_straight {H L : ℝ} (hH : 0 < H) (hL : 0 < L) : rsTerm H L L H = 0 ∧ rsTerm H L H L = 0 := by
  simp [rsTerm, div_self hH.ne', div_self hL.ne']

/-! ## Yang-Zhang -/

/-- The weight of the open-to-close part, for windows of at least two: between 0 and 0.34/2.34. -/
theorem yzCoeff_range {w : Int} (hw : 2 ≤ w) : ∃ k, yzCoeff w = .ok k ∧ 0 < k ∧ k < 0.34 / 2.34 := by
  refine ⟨_, by rw [yzCoeff, if_neg (by omega)], ?_⟩
  have h2 : (2 : ℝ) ≤ w := by exact_mod_cast hw
  have h1 : 1 < ((w : ℝ) + 1) / ((w : ℝ) - 1) := by
    rw [lt_div_iff₀ (by linarith)]
    linarith
  constructor
  · positivity
  · apply div_lt_div_of_pos_left <;> norm_num
    linarith

/-- A window of one bar raises ZeroDivisionError, for all data. -/
theorem yangZhang_window_one (h l o c : Ser) : yangZhang h l o c 1 = .error .zeroDivisionError := by
  rw [yangZhang, yzCoeff, if_pos rfl]
  rfl

/-- A negative window raises ValueError in all five estimators. -/
theorem negative_window (h l o c : Ser) {w : Int} (hw : w < 0) :
    closeClose c w = .error .valueError ∧ highLow h l w = .error .valueError ∧
      garmanKlass h l o c w = .error .valueError ∧ rogersSatchell h l o c w = .error .valueError ∧
      yangZhang h l o c w = .error .valueError := by
  refine ⟨rolling_err hw _ _, ?_, ?_, rolling_err hw _ _, ?_⟩
  · rw [highLow, rolling_err hw]; rfl
  · rw [garmanKlass, rolling_err hw]; rfl
  · rw [yangZhang, yzCoeff, if_neg (by omega), rolling_err hw]; rfl

/-- NaN or non-negative on valid bars. -/
theorem yangZhang_nonneg {h l o c u : Ser} {w : Int} (hw : 2 ≤ w) (hb : Bars h l o c)
    (hu : yangZhang h l o c w = .ok u) : NonNeg u := by
  obtain ⟨k, hk, h'⟩ := bind_ok hu
  obtain ⟨a, ha, h'⟩ := bind_ok h'
  obtain ⟨b, hb', h'⟩ := bind_ok h'
  obtain ⟨r, hr, h'⟩ := bind_ok h'
  cases h'
  obtain ⟨k', hk', h0, h1⟩ := yzCoeff_range hw
  rw [hk] at hk'
  cases hk'
  have lo : (logRatio o (shift 1 c)).length = o.length := logRatio_length (by rw [shift_length, hb.oc])
  have lc : (logRatio c (shift 1 o)).length = c.length := logRatio_length (by rw [shift_length, hb.oc])
  have l1 : (logRatio h c).length = h.length := logRatio_length (by rw [hb.hl, hb.lo, hb.oc])
  have l2 : (logRatio h o).length = h.length := logRatio_length (by rw [hb.hl, hb.lo])
  have l3 : (logRatio l c).length = l.length := logRatio_length (by rw [hb.lo, hb.oc])
  have l4 : (logRatio l o).length = l.length := logRatio_length hb.lo
  have ea : a.length = o.length := by rw [rolling_length ha, List.length_map, lo]
  have eb : b.length = o.length := by rw [rolling_length hb', List.length_map, lc, hb.oc]
  have er : r.length = o.length := by
    rw [rolling_length hr]
    simp [op2_length, l1, l2, l3, l4, hb.hl, hb.lo]
  apply nonneg_of
  intro t v hv
  obtain ⟨p, q, hp, hq, rfl⟩ := op2_get_inv (by simp [op2_length, ea, eb, er]) hv
  obtain ⟨p1, p2, hp1, hp2, rfl⟩ := op2_get_inv (by simp [ea, eb]) hp
  rw [List.getElem?_map] at hp2 hq
  obtain ⟨b0, hb0, rfl⟩ := Option.map_eq_some_iff.1 hp2
  obtain ⟨r0, hr0, rfl⟩ := Option.map_eq_some_iff.1 hq
  have f3 := rogersSatchell_nonneg hb hr r0 (List.mem_of_getElem? hr0)
  refine fine_add (fine_add (IndRsi.rolling_fine (sq_series_nonneg _) ha hp1)
    (fine_mul h0.le (IndRsi.rolling_fine (sq_series_nonneg _) hb' hb0))) (fine_mul ?_ f3)
  norm_num at h1
  linarith

/-- What the function computes. The middle term pairs the close with the *previous* open. -/
theorem yangZhang_spec {h l o c u : Ser} {H L O C : Nat → ℝ} {w t : Nat} (hw : 2 ≤ w)
    (hu : yangZhang h l o c w = .ok u) (hh : Obs h H (w + 1) t) (hl : Obs l L (w + 1) t) (ho : Obs o O (w + 1) t)
    (hc : Obs c C (w + 1) t)
    (hpos : ∀ i ∈ Ico (t - w) (t + 1), 0 < H i ∧ 0 < L i ∧ 0 < O i ∧ 0 < C i) :
    ∃ k, yzCoeff w = .ok k ∧
      u[t]? = some (.fin (meanOf (fun i => Real.log (O i / C (i - 1)) ^ 2) w t +
        k * meanOf (fun i => Real.log (C i / O (i - 1)) ^ 2) w t +
        (1 - k) * meanOf (fun i => rsTerm (H i) (L i) (O i) (C i)) w t)) := by
  obtain ⟨k, hk, h'⟩ := bind_ok hu
  obtain ⟨a, ha, h'⟩ := bind_ok h'
  obtain ⟨b, hb', h'⟩ := bind_ok h'
  obtain ⟨r, hr, h'⟩ := bind_ok h'
  cases h'
  refine ⟨k, hk, ?_⟩
  have hbd := hh.1
  have hp : ∀ i ∈ Ico (t + 1 - w) (t + 1), 0 < H i ∧ 0 < L i ∧ 0 < O i ∧ 0 < C i := fun i hi =>
    hpos i (by rw [mem_Ico] at hi ⊢; omega)
  have hp1 : ∀ i ∈ Ico (t + 1 - w) (t + 1), 0 < O (i - 1) ∧ 0 < C (i - 1) := fun i hi =>
    (hpos (i - 1) (by rw [mem_Ico] at hi ⊢; omega)).2.2
  have o1 : Obs ((logRatio o (shift 1 c)).map sqF) (fun i => Real.log (O i / C (i - 1)) ^ 2) w t :=
    obs_map (obs_logRatio (obs_sub ho (Nat.le_succ w)) (obs_shift hc) (fun i hi => (hp i hi).2.2.1)
      fun i hi => (hp1 i hi).2) fun i _ => XF.sqF_fin _
  have o2 : Obs ((logRatio c (shift 1 o)).map sqF) (fun i => Real.log (C i / O (i - 1)) ^ 2) w t :=
    obs_map (obs_logRatio (obs_sub hc (Nat.le_succ w)) (obs_shift ho) (fun i hi => (hp i hi).2.2.2)
      fun i hi => (hp1 i hi).1) fun i _ => XF.sqF_fin _
  have r1 := rogersSatchell_spec (by omega) hr (obs_sub hh (Nat.le_succ w)) (obs_sub hl (Nat.le_succ w))
    (obs_sub ho (Nat.le_succ w)) (obs_sub hc (Nat.le_succ w)) hp
  have e1 := mean_spec (by omega) ha o1
  have e2 := mean_spec (by omega) hb' o2
  have e2' : (b.map (XF.fin k * ·))[t]? = some (.fin (k * meanOf (fun i => Real.log (C i / O (i - 1)) ^ 2) w t)) := by
    rw [List.getElem?_map, e2]; rfl
  have r1' : (r.map (XF.fin (1 - k) * ·))[t]? =
      some (.fin ((1 - k) * meanOf (fun i => rsTerm (H i) (L i) (O i) (C i)) w t)) := by
    rw [List.getElem?_map, r1]; rfl
  rw [op2_get _ (op2_get _ e1 e2') r1']
  rfl

/-- The consequence: on bars without any move inside them (open = high = low = close) the open-to-close part of Yang and
Zhang's estimator is zero, so it is the overnight variance; the function returns more, by the factor `1 + k`. -/
theorem yangZhang_flat_bars {p u : Ser} {P : Nat → ℝ} {w t : Nat} (hw : 2 ≤ w) (hu : yangZhang p p p p w = .ok u)
    (hp : Obs p P (w + 1) t) (hpos : ∀ i ∈ Ico (t - w) (t + 1), 0 < P i) :
    ∃ k, 0 < k ∧ u[t]? = some (.fin ((1 + k) * meanOf (fun i => Real.log (P i / P (i - 1)) ^ 2) w t)) := by
  obtain ⟨k, hk, h⟩ := yangZhang_spec hw hu hp hp hp hp fun i hi => ⟨hpos i hi, hpos i hi, hpos i hi, hpos i hi⟩
  obtain ⟨k', hk', h0, -⟩ := yzCoeff_range (w := w) (by exact_mod_cast hw)
  rw [hk] at hk'
  cases hk'
  refine ⟨k, h0, ?_⟩
  have hbd := hp.1
  rw [h]
  have : meanOf (fun i => rsTerm (P i) (P i) (P i) (P i)) w t = 0 := by
    rw [meanOf, Finset.sum_eq_zero, zero_div]
    intro i hi
    have hi' : 0 < P i := hpos i (by rw [mem_Ico] at hi ⊢; omega)
    simp [rsTerm, div_self hi'.ne']
  rw [this]
  congr 2
  ring

/-! ## Units -/

/-- Quoting the prices in another unit changes none of the estimates. -/
theorem volatility_scale {k : ℝ} (hk : 0 < k) (h l o c : Ser) (w : Int) :
    closeClose (scale k c) w = closeClose c w ∧ highLow (scale k h) (scale k l) w = highLow h l w ∧
      garmanKlass (scale k h) (scale k l) (scale k o) (scale k c) w = garmanKlass h l o c w ∧
      rogersSatchell (scale k h) (scale k l) (scale k o) (scale k c) w = rogersSatchell h l o c w ∧
      yangZhang (scale k h) (scale k l) (scale k o) (scale k c) w = yangZhang h l o c w := by
  have hrs : rogersSatchell (scale k h) (scale k l) (scale k o) (scale k c) w = rogersSatchell h l o c w := by
    simp only [rogersSatchell, logRatio_scale hk]
  refine ⟨?_, ?_, ?_, hrs, ?_⟩
  · rw [closeClose, shift_scale, op2_div_scale hk, closeClose]
  · simp only [highLow, logRatio_scale hk]
  · simp only [garmanKlass, logRatio_scale hk]
  · simp only [yangZhang, hrs, shift_scale, logRatio_scale hk]

/-- Concrete case: two valid bars, and the high-low estimate of the second with window 1. -/
example : Bars [.fin 2, .fin 4] [.fin 1, .fin 1] [.fin 1, .fin 2] [.fin 2, .fin 3] ∧
    ∃ u, highLow [.fin 2, .fin 4] [.fin 1, .fin 1] 1 = .ok u ∧ u[1]? = some (.fin (Real.log 4 ^ 2 / (4 * Real.log 2))) := by
  refine ⟨⟨rfl, rfl, rfl, ?_⟩, ?_⟩
  · intro i H L O C h1 h2 h3 h4
    match i with
    | 0 =>
      simp at h1 h2 h3 h4
      subst h1 h2 h3 h4
      norm_num
    | 1 =>
      simp at h1 h2 h3 h4
      subst h1 h2 h3 h4
      norm_num
    | i + 2 => simp at h1
  · obtain ⟨u, hu⟩ : ∃ u, highLow [.fin 2, .fin 4] [.fin 1, .fin 1] 1 = .ok u := by
      rw [highLow, rolling_ok (by decide)]
      exact ⟨_, rfl⟩
    refine ⟨u, hu, ?_⟩
    have := highLow_spec (w := 1) (t := 1) (H := fun i => if i = 0 then 2 else 4) (L := fun _ => 1) le_rfl hu
      ⟨by omega, by simp⟩ ⟨by omega, by simp⟩ (by simp)
    rw [this]
    simp [meanOf]

end Verif.Props.MicroVol
