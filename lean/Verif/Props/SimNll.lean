import Verif.Lemmas.SimFit
import Mathlib.Analysis.SpecialFunctions.Log.Deriv

/-!
# The likelihood and the fit (C67)

One variate (`cor is None`). The likelihood is that of `scipy.stats.norm`.
-/

namespace Verif.Sim

/-- The negative log-likelihood of increments as a function of mean and standard deviation. -/
theorem nllCol_eq {l : List ℝ} (hl : l ≠ []) (m s : ℝ) :
    nllCol m s l = (sqDev l + l.length * (lmean l - m) ^ 2) / (2 * s ^ 2) + l.length * Real.log s +
      l.length * (Real.log (2 * Real.pi) / 2) := by
  unfold nllCol
  have : (l.map (normLogpdf m s)) = l.map fun x => (fun x => (-1 / (2 * s ^ 2)) * (x - m) ^ 2) x +
      (fun _ => -(Real.log s + Real.log (2 * Real.pi) / 2)) x := by
    apply List.map_congr_left
    intro x _
    unfold normLogpdf
    simp only
    ring
  rw [this, sum_map_add, sum_map_const, sum_map_mul l _ (fun x => (x - m) ^ 2), sum_sq_around hl]
  ring

theorem diffs_length (l : List ℝ) : (diffs l).length = l.length - 1 := by
  induction l with
  | nil => rfl
  | cons a l ih =>
    cases l with
    | nil => rfl
    | cons b l => simp only [diffs, List.length_cons] at ih ⊢; omega

theorem diffs_ne {x : List ℝ} (hx : 2 ≤ x.length) : diffs x ≠ [] := by
  intro h
  have := diffs_length x
  rw [h] at this
  simp at this
  omega

theorem logRatios_length (l : List ℝ) : (logRatios l).length = l.length - 1 := by
  induction l with
  | nil => rfl
  | cons a l ih =>
    cases l with
    | nil => rfl
    | cons b l => simp only [logRatios, List.length_cons] at ih ⊢; omega

theorem logRatios_ne {x : List ℝ} (hx : 2 ≤ x.length) : logRatios x ≠ [] := by
  intro h
  have := logRatios_length x
  rw [h] at this
  simp at this
  omega

/-- C67. For every fixed volatility, the drift that `BrownianMotion.fit` returns is the unique minimiser of
`BrownianMotion.nll`. -/
theorem bm_fit_drift_is_ml {x : List ℝ} {dt vol d : ℝ} (hx : 2 ≤ x.length) (hdt : 0 < dt) (hv : 0 < vol)
    (hd : d ≠ lmean (diffs x) / dt) : bmNll (lmean (diffs x) / dt) vol dt x < bmNll d vol dt x := by
  have hne := diffs_ne hx
  unfold bmNll
  rw [nllCol_eq hne, nllCol_eq hne, div_mul_cancel₀ _ hdt.ne', sub_self]
  have hlen : (0 : ℝ) < (diffs x).length := by
    have := List.length_pos_iff.mpr hne; exact_mod_cast this
  have hs : 0 < 2 * (vol * Real.sqrt dt) ^ 2 := by
    have := Real.sqrt_pos.mpr hdt; positivity
  have hsub : lmean (diffs x) - d * dt ≠ 0 := by
    intro h
    apply hd
    rw [eq_div_iff hdt.ne']; linarith
  have hpos : 0 < ((diffs x).length : ℝ) * (lmean (diffs x) - d * dt) ^ 2 :=
    mul_pos hlen (by positivity)
  have : (sqDev (diffs x) + (diffs x).length * (0 : ℝ) ^ 2) / (2 * (vol * Real.sqrt dt) ^ 2) <
      (sqDev (diffs x) + (diffs x).length * (lmean (diffs x) - d * dt) ^ 2) / (2 * (vol * Real.sqrt dt) ^ 2) := by
    apply div_lt_div_of_pos_right _ hs
    linarith
  linarith

/-- The function `A / (2 s²) + n log s` has its unique minimum at `s² = A / n`. -/
theorem gauss_scale_min {A n s t : ℝ} (hn : 0 < n) (hs : 0 < s) (ht : 0 < t) (hA : A = n * t ^ 2) (hne : s ≠ t) :
    A / (2 * t ^ 2) + n * Real.log t < A / (2 * s ^ 2) + n * Real.log s := by
  have hu : 0 < t ^ 2 / s ^ 2 := by positivity
  have hu1 : t ^ 2 / s ^ 2 ≠ 1 := by
    intro h
    rw [div_eq_one_iff_eq (by positivity)] at h
    rcases sq_eq_sq_iff_eq_or_eq_neg.mp h with h | h
    · exact hne h.symm
    · linarith
  have hlog := Real.log_lt_sub_one_of_pos hu hu1
  rw [Real.log_div (by positivity) (by positivity), Real.log_pow, Real.log_pow] at hlog
  have h1 : A / (2 * t ^ 2) = n / 2 := by rw [hA]; field_simp
  have h2 : A / (2 * s ^ 2) = n / 2 * (t ^ 2 / s ^ 2) := by rw [hA]; field_simp
  rw [h1, h2]
  push_cast at hlog
  nlinarith

/-- C67. The volatility returned by `fit` (divisor `n - 1`) is never the maximum-likelihood volatility: for
increments that are not all equal, the volatility with divisor `n` has a strictly smaller `nll`. -/
theorem bm_fit_vol_not_ml {x : List ℝ} {dt : ℝ} (hx : 3 ≤ x.length) (hdt : 0 < dt) (hne : sqDev (diffs x) ≠ 0) :
    bmNll (lmean (diffs x) / dt) (Real.sqrt (sqDev (diffs x) / (diffs x).length) / Real.sqrt dt) dt x <
      bmNll (lmean (diffs x) / dt) (Real.sqrt (sqDev (diffs x) / ((diffs x).length - 1)) / Real.sqrt dt) dt x := by
  have hd := diffs_ne (show 2 ≤ x.length by omega)
  have hlen : (2 : ℝ) ≤ (diffs x).length := by
    have := diffs_length x
    have : 2 ≤ (diffs x).length := by omega
    exact_mod_cast this
  have hA : 0 < sqDev (diffs x) := lt_of_le_of_ne (sqDev_nonneg _) (Ne.symm hne)
  have hsq := Real.sqrt_pos.mpr hdt
  unfold bmNll
  rw [nllCol_eq hd, nllCol_eq hd, div_mul_cancel₀ _ hdt.ne', sub_self, div_mul_cancel₀ _ hsq.ne',
    div_mul_cancel₀ _ hsq.ne']
  have hmain := gauss_scale_min (A := sqDev (diffs x)) (n := (diffs x).length)
    (s := Real.sqrt (sqDev (diffs x) / ((diffs x).length - 1))) (t := Real.sqrt (sqDev (diffs x) / (diffs x).length))
    (by linarith) (Real.sqrt_pos.mpr (div_pos hA (by linarith))) (Real.sqrt_pos.mpr (div_pos hA (by linarith)))
    (by rw [Real.sq_sqrt (by positivity)]; field_simp) (by
      intro h
      have h2 := (Real.sqrt_inj (div_nonneg hA.le (by linarith)) (div_nonneg hA.le (by linarith))).mp h
      rw [div_eq_div_iff (by linarith) (by linarith)] at h2
      have h3 := mul_left_cancel₀ hA.ne' h2
      linarith)
  have e : sqDev (diffs x) + ((diffs x).length : ℝ) * 0 ^ 2 = sqDev (diffs x) := by ring
  rw [e]
  linarith

/-- C67 (defect). `GeometricBrownianMotion.nll` is minimal at the drift `mean(log returns) + vol² / 2`, which
does not scale with `dt`; … -/
theorem gbm_nll_minimiser {x : List ℝ} {dt vol d : ℝ} (hx : 2 ≤ x.length) (hdt : 0 < dt) (hv : 0 < vol)
    (hd : d ≠ lmean (logRatios x) + vol ^ 2 / 2) :
    gbmNll (lmean (logRatios x) + vol ^ 2 / 2) vol dt x < gbmNll d vol dt x := by
  have hne := logRatios_ne hx
  unfold gbmNll
  rw [nllCol_eq hne, nllCol_eq hne]
  have hlen : (0 : ℝ) < (logRatios x).length := by
    have := List.length_pos_iff.mpr hne; exact_mod_cast this
  have hs : 0 < 2 * (vol * Real.sqrt dt) ^ 2 := by
    have := Real.sqrt_pos.mpr hdt; positivity
  have hsub : lmean (logRatios x) - (d - 0.5 * vol ^ 2) ≠ 0 := by
    intro h
    apply hd
    linarith
  have hpos : 0 < ((logRatios x).length : ℝ) * (lmean (logRatios x) - (d - 0.5 * vol ^ 2)) ^ 2 :=
    mul_pos hlen (by positivity)
  have h0 : lmean (logRatios x) - (lmean (logRatios x) + vol ^ 2 / 2 - 0.5 * vol ^ 2) = 0 := by ring
  rw [h0]
  have : (sqDev (logRatios x) + (logRatios x).length * (0 : ℝ) ^ 2) / (2 * (vol * Real.sqrt dt) ^ 2) <
      (sqDev (logRatios x) + (logRatios x).length * (lmean (logRatios x) - (d - 0.5 * vol ^ 2)) ^ 2) /
        (2 * (vol * Real.sqrt dt) ^ 2) := by
    apply div_lt_div_of_pos_right _ hs
    linarith
  linarith

/-- … so neither the drift that `fit` returns (`mean / dt`) nor the drift that generated the data
(`mean / dt + vol² / 2` for zero mean noise) is optimal, unless `dt = 1` or a coincidence happens: the
fitted drift is optimal only if `mean (1/dt - 1) = vol² / 2`, the generating drift only if `dt = 1` or the mean
log-return is zero. -/
theorem gbm_nll_prefers_other_drift {x : List ℝ} {dt vol : ℝ} (hx : 2 ≤ x.length) (hdt : 0 < dt) (hv : 0 < vol) :
    ((∀ d, gbmNll (lmean (logRatios x) / dt) vol dt x ≤ gbmNll d vol dt x) ↔
      lmean (logRatios x) * (1 / dt - 1) = vol ^ 2 / 2) ∧
    ((∀ d, gbmNll (lmean (logRatios x) / dt + vol ^ 2 / 2) vol dt x ≤ gbmNll d vol dt x) ↔
      dt = 1 ∨ lmean (logRatios x) = 0) := by
  have key : ∀ d0, (∀ d, gbmNll d0 vol dt x ≤ gbmNll d vol dt x) ↔ d0 = lmean (logRatios x) + vol ^ 2 / 2 := by
    intro d0
    constructor
    · intro h
      by_contra hne
      exact absurd (h _) (not_le.mpr (gbm_nll_minimiser hx hdt hv hne))
    · rintro rfl d
      by_cases hd : d = lmean (logRatios x) + vol ^ 2 / 2
      · rw [hd]
      · exact (gbm_nll_minimiser hx hdt hv hd).le
  rw [key, key]
  constructor
  · rw [mul_sub, mul_one_div, mul_one]
    constructor <;> intro h <;> linarith
  · rw [add_left_inj, div_eq_iff hdt.ne']
    constructor
    · intro h
      by_cases hm : lmean (logRatios x) = 0
      · exact Or.inr hm
      · left
        have : lmean (logRatios x) * (dt - 1) = 0 := by linarith
        rcases mul_eq_zero.mp this with h | h
        · exact absurd h hm
        · linarith
    · rintro (rfl | h)
      · ring
      · rw [h]; ring

/-- Non-vacuity of C67: three observations whose increments differ, and positive data with a non-zero mean
log-return. -/
example : sqDev (diffs [0, 1, 3]) ≠ 0 ∧ lmean (logRatios [1, 2, 4]) ≠ 0 := by
  refine ⟨by norm_num [diffs, sqDev, lmean], ?_⟩
  have : 0 < Real.log 2 := Real.log_pos (by norm_num)
  norm_num [logRatios, lmean]
  

end Verif.Sim
