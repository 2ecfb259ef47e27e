import Verif.Model.Cov
import Mathlib.MeasureTheory.Integral.IntervalIntegral.FundThmCalculus
import Mathlib.Analysis.SpecialFunctions.Trigonometric.InverseDeriv
import Mathlib.Analysis.SpecialFunctions.Sqrt
import Mathlib.Analysis.Real.Pi.Bounds
import Mathlib.Tactic.Linarith
import Mathlib.Tactic.LinearCombination

/-!
# C38: the Marchenko–Pastur distribution
-/

namespace Verif.Cov

open MeasureTheory

/-- C38. The support: `0 ≤ lower < upper`, and it contains the variance. -/
theorem mp_support {var : ℝ} (hv : 0 < var) {T N : Nat} (hT : 0 < T) (hN : 0 < N) :
    0 ≤ (mpSupport var T N).1 ∧ (mpSupport var T N).1 < (mpSupport var T N).2 ∧ var < (mpSupport var T N).2 := by
  have hq : 0 < Real.sqrt (1 / ((T : ℝ) / N)) := Real.sqrt_pos.mpr (by positivity)
  unfold mpSupport
  dsimp only
  refine ⟨by positivity, ?_, ?_⟩
  · nlinarith
  · nlinarith [mul_pos hv hq]

/-- C38. The density is zero outside the support and positive inside. -/
theorem mp_density_sign {var : ℝ} (hv : 0 < var) {T N : Nat} (hT : 0 < T) (hN : 0 < N) (x : ℝ) :
    (0 < mpDensity var T N x ↔ (mpSupport var T N).1 < x ∧ x < (mpSupport var T N).2) ∧ 0 ≤ mpDensity var T N x := by
  obtain ⟨h0, -, -⟩ := mp_support hv hT hN
  unfold mpDensity
  dsimp only
  by_cases h : (mpSupport var T N).1 < x ∧ x < (mpSupport var T N).2
  · rw [if_pos h]
    have hx : 0 < x := lt_of_le_of_lt h0 h.1
    have hs : 0 < Real.sqrt (((mpSupport var T N).2 - x) * (x - (mpSupport var T N).1)) :=
      Real.sqrt_pos.mpr (mul_pos (by linarith [h.2]) (by linarith [h.1]))
    have hp := Real.pi_pos
    have hTp : (0 : ℝ) < T := by exact_mod_cast hT
    have hNp : (0 : ℝ) < N := by exact_mod_cast hN
    have : 0 < (T / N : ℝ) / (2 * Real.pi * var * x) * Real.sqrt (((mpSupport var T N).2 - x) * (x - (mpSupport var T N).1)) := by
      positivity
    exact ⟨⟨fun _ => h, fun _ => this⟩, this.le⟩
  · rw [if_neg h]
    exact ⟨⟨fun h' => absurd h' (lt_irrefl 0), fun h' => absurd h' h⟩, le_rfl⟩

/-- C38. The variance only rescales the eigenvalues. -/
theorem mp_density_scale {var : ℝ} (hv : 0 < var) {T N : Nat} (x : ℝ) :
    mpDensity var T N x = mpDensity 1 T N (x / var) / var := by
  have e1 : (mpSupport var T N).1 = var * (mpSupport 1 T N).1 := by unfold mpSupport; ring
  have e2 : (mpSupport var T N).2 = var * (mpSupport 1 T N).2 := by unfold mpSupport; ring
  unfold mpDensity
  dsimp only
  rw [e1, e2]
  have hiff : (var * (mpSupport 1 T N).1 < x ∧ x < var * (mpSupport 1 T N).2) ↔
      ((mpSupport 1 T N).1 < x / var ∧ x / var < (mpSupport 1 T N).2) := by
    rw [lt_div_iff₀ hv, div_lt_iff₀ hv, mul_comm var, mul_comm var]
  by_cases h : var * (mpSupport 1 T N).1 < x ∧ x < var * (mpSupport 1 T N).2
  · rw [if_pos h, if_pos (hiff.mp h)]
    have : (var * (mpSupport 1 T N).2 - x) * (x - var * (mpSupport 1 T N).1) =
        var ^ 2 * (((mpSupport 1 T N).2 - x / var) * (x / var - (mpSupport 1 T N).1)) := by
      field_simp
    rw [this, Real.sqrt_mul (by positivity), Real.sqrt_sq hv.le]
    field_simp
  · rw [if_neg h, if_neg (fun h' => h (hiff.mpr h')), zero_div]

/-! ### Total mass -/

private noncomputable def prim (a b x : ℝ) : ℝ :=
  Real.sqrt ((b - x) * (x - a)) + (a + b) / 2 * Real.arcsin ((2 * x - a - b) / (b - a))
    - Real.sqrt (a * b) * Real.arcsin (((a + b) * x - 2 * a * b) / (x * (b - a)))

private theorem prim_deriv {a b x : ℝ} (ha : 0 ≤ a) (hax : a < x) (hxb : x < b) :
    HasDerivAt (prim a b) (Real.sqrt ((b - x) * (x - a)) / x) x := by
  have hx : 0 < x := lt_of_le_of_lt ha hax
  have hab : 0 < b - a := by linarith
  set R := (b - x) * (x - a) with hR
  have hRp : 0 < R := mul_pos (by linarith) (by linarith)
  have hs : 0 < Real.sqrt R := Real.sqrt_pos.mpr hRp
  have hsq : Real.sqrt R ^ 2 = R := Real.sq_sqrt hRp.le
  -- first term
  have d1 : HasDerivAt (fun y => Real.sqrt ((b - y) * (y - a))) ((a + b - 2 * x) / (2 * Real.sqrt R)) x := by
    have : HasDerivAt (fun y => (b - y) * (y - a)) (a + b - 2 * x) x := by
      have := ((hasDerivAt_id x).const_sub b).mul ((hasDerivAt_id x).sub_const a)
      refine HasDerivAt.congr_deriv this ?_
      simp only [id]; ring
    exact this.sqrt hRp.ne'
  -- second term
  have hu2 : Real.sqrt (1 - ((2 * x - a - b) / (b - a)) ^ 2) = 2 * Real.sqrt R / (b - a) := by
    have : 1 - ((2 * x - a - b) / (b - a)) ^ 2 = (2 * Real.sqrt R / (b - a)) ^ 2 := by
      rw [div_pow, div_pow, mul_pow, hsq, hR]
      field_simp
      ring
    rw [this, Real.sqrt_sq (by positivity)]
  have habs : ∀ u : ℝ, 0 < Real.sqrt (1 - u ^ 2) → u ≠ -1 ∧ u ≠ 1 := by
    intro u hu
    constructor
    · rintro rfl; norm_num at hu
    · rintro rfl; norm_num at hu
  have d2 : HasDerivAt (fun y => Real.arcsin ((2 * y - a - b) / (b - a))) (1 / Real.sqrt R) x := by
    obtain ⟨n1, n2⟩ := habs ((2 * x - a - b) / (b - a)) (by rw [hu2]; positivity)
    have hu : HasDerivAt (fun y => (2 * y - a - b) / (b - a)) (2 / (b - a)) x := by
      have := ((((hasDerivAt_id x).const_mul 2).sub_const a).sub_const b).div_const (b - a)
      refine HasDerivAt.congr_deriv this ?_
      simp
    have := (Real.hasDerivAt_arcsin n1 n2).comp x hu
    refine HasDerivAt.congr_deriv this ?_
    rw [hu2]
    field_simp
  -- third term
  have d3 : HasDerivAt (fun y => Real.sqrt (a * b) * Real.arcsin (((a + b) * y - 2 * a * b) / (y * (b - a))))
      (a * b / (x * Real.sqrt R)) x := by
    rcases ha.eq_or_lt with h0 | hapos
    · subst h0
      simp only [zero_mul, Real.sqrt_zero, zero_div]
      exact hasDerivAt_const x 0
    · have hb : 0 < b := by linarith
      have habp : 0 < Real.sqrt (a * b) := Real.sqrt_pos.mpr (mul_pos hapos hb)
      have habs2 : Real.sqrt (a * b) ^ 2 = a * b := Real.sq_sqrt (by positivity)
      have hw2 : Real.sqrt (1 - (((a + b) * x - 2 * a * b) / (x * (b - a))) ^ 2) =
          2 * Real.sqrt (a * b) * Real.sqrt R / (x * (b - a)) := by
        have : 1 - (((a + b) * x - 2 * a * b) / (x * (b - a))) ^ 2 =
            (2 * Real.sqrt (a * b) * Real.sqrt R / (x * (b - a))) ^ 2 := by
          rw [div_pow, div_pow, mul_pow, mul_pow, mul_pow, hsq, habs2, hR]
          field_simp
          ring
        rw [this, Real.sqrt_sq (by positivity)]
      obtain ⟨n1, n2⟩ := habs (((a + b) * x - 2 * a * b) / (x * (b - a))) (by rw [hw2]; positivity)
      have hw : HasDerivAt (fun y => ((a + b) * y - 2 * a * b) / (y * (b - a))) (2 * a * b / (x ^ 2 * (b - a))) x := by
        have h1 : HasDerivAt (fun y => (a + b) * y - 2 * a * b) (a + b) x := by
          have := ((hasDerivAt_id x).const_mul (a + b)).sub_const (2 * a * b)
          refine HasDerivAt.congr_deriv this ?_
          simp
        have h2 : HasDerivAt (fun y => y * (b - a)) (b - a) x := by
          have := (hasDerivAt_id x).mul_const (b - a)
          refine HasDerivAt.congr_deriv this ?_
          simp
        have := h1.div h2 (by positivity)
        refine HasDerivAt.congr_deriv this ?_
        field_simp
        ring
      have := ((Real.hasDerivAt_arcsin n1 n2).comp x hw).const_mul (Real.sqrt (a * b))
      refine HasDerivAt.congr_deriv this ?_
      rw [hw2]
      field_simp
  have := (d1.add (d2.const_mul ((a + b) / 2))).sub d3
  refine HasDerivAt.congr_deriv this ?_
  have : Real.sqrt R / x = R / (x * Real.sqrt R) := by
    rw [div_eq_div_iff hx.ne' (by positivity)]
    linear_combination x * hsq
  rw [this, hR]
  field_simp
  ring

private theorem prim_continuous {a b : ℝ} (ha : 0 ≤ a) (hab : a < b) : ContinuousOn (prim a b) (Set.Icc a b) := by
  unfold prim
  refine ContinuousOn.sub ?_ ?_
  · exact (Continuous.add (by fun_prop) (continuous_const.mul (Real.continuous_arcsin.comp (by fun_prop)))).continuousOn
  · rcases ha.eq_or_lt with h0 | hapos
    · subst h0
      simp only [zero_mul, Real.sqrt_zero]
      exact continuousOn_const
    · refine ContinuousOn.mul continuousOn_const (Real.continuous_arcsin.comp_continuousOn ?_)
      refine ContinuousOn.div (by fun_prop) (by fun_prop) fun x hx => ?_
      have : 0 < x := lt_of_lt_of_le hapos hx.1
      exact (mul_pos this (by linarith)).ne'

/-- The basic integral. -/
theorem sqrt_integral {a b : ℝ} (ha : 0 ≤ a) (hab : a < b) :
    ∫ x in a..b, Real.sqrt ((b - x) * (x - a)) / x = Real.pi / 2 * (a + b - 2 * Real.sqrt (a * b)) := by
  have hd : ∀ x ∈ Set.Ioo a b, HasDerivAt (prim a b) (Real.sqrt ((b - x) * (x - a)) / x) x :=
    fun x hx => prim_deriv ha hx.1 hx.2
  have hint : IntervalIntegrable (fun x => Real.sqrt ((b - x) * (x - a)) / x) volume a b := by
    rw [intervalIntegrable_iff_integrableOn_Ioc_of_le hab.le]
    refine intervalIntegral.integrableOn_deriv_of_nonneg (prim_continuous ha hab) hd fun x hx => ?_
    exact div_nonneg (Real.sqrt_nonneg _) (ha.trans hx.1.le)
  rw [intervalIntegral.integral_eq_sub_of_hasDerivAt_of_le hab.le (prim_continuous ha hab) hd hint]
  have hba : b - a ≠ 0 := by linarith
  unfold prim
  have e1 : (2 * b - a - b) / (b - a) = 1 := by rw [div_eq_one_iff_eq hba]; ring
  have e2 : (2 * a - a - b) / (b - a) = -1 := by rw [div_eq_iff hba]; ring
  rw [e1, e2]
  rcases ha.eq_or_lt with h0 | hapos
  · subst h0
    simp
    ring
  · have hb : 0 < b := by linarith
    have e3 : ((a + b) * b - 2 * a * b) / (b * (b - a)) = 1 := by
      rw [div_eq_one_iff_eq (mul_ne_zero hb.ne' hba)]; ring
    have e4 : ((a + b) * a - 2 * a * b) / (a * (b - a)) = -1 := by
      rw [div_eq_iff (mul_ne_zero hapos.ne' hba)]; ring
    rw [e3, e4]
    simp
    ring

/-- C38. The total mass: one with at least as many time steps as assets, otherwise `num_timesteps / num_assets`
(the zero eigenvalues are missing). -/
theorem mp_total_mass {var : ℝ} (hv : 0 < var) {T N : Nat} (hT : 0 < T) (hN : 0 < N) :
    ∫ x, mpDensity var T N x = min 1 ((T : ℝ) / N) := by
  obtain ⟨h0, h1, -⟩ := mp_support hv hT hN
  set a := (mpSupport var T N).1 with ha
  set b := (mpSupport var T N).2 with hb
  have hTp : (0 : ℝ) < T := by exact_mod_cast hT
  have hNp : (0 : ℝ) < N := by exact_mod_cast hN
  have hpi := Real.pi_pos
  have hind : (fun x => mpDensity var T N x) = Set.indicator (Set.Ioo a b) fun x =>
      (T / N : ℝ) / (2 * Real.pi * var) * (Real.sqrt ((b - x) * (x - a)) / x) := by
    funext x
    unfold mpDensity
    dsimp only
    rw [Set.indicator_apply, ← ha, ← hb]
    by_cases hx : a < x ∧ x < b
    · rw [if_pos hx, if_pos (show x ∈ Set.Ioo a b from hx)]
      have : x ≠ 0 := (lt_of_le_of_lt h0 hx.1).ne'
      field_simp
    · rw [if_neg hx, if_neg (show ¬ x ∈ Set.Ioo a b from hx)]
  rw [hind, integral_indicator measurableSet_Ioo, ← integral_Ioc_eq_integral_Ioo,
    ← intervalIntegral.integral_of_le h1.le, intervalIntegral.integral_const_mul, sqrt_integral h0 h1]
  set s := Real.sqrt (1 / ((T : ℝ) / N)) with hs
  have hs2 : s ^ 2 = N / T := by
    rw [hs, Real.sq_sqrt (by positivity)]; field_simp
  have hs0 : 0 < s := Real.sqrt_pos.mpr (by positivity)
  have ea : a = var * (1 - s) ^ 2 := rfl
  have eb : b = var * (1 + s) ^ 2 := rfl
  have hab : Real.sqrt (a * b) = var * |1 - s ^ 2| := by
    have : a * b = (var * (1 - s ^ 2)) ^ 2 := by rw [ea, eb]; ring
    rw [this, Real.sqrt_sq_eq_abs, abs_mul, abs_of_pos hv]
  have hsum : a + b = 2 * var * (1 + s ^ 2) := by rw [ea, eb]; ring
  rw [hab, hsum, hs2]
  by_cases hle : (N : ℝ) ≤ T
  · have hq : (N : ℝ) / T ≤ 1 := (div_le_one hTp).mpr hle
    rw [abs_of_nonneg (by linarith), min_eq_left ((one_le_div hNp).mpr hle)]
    field_simp
    ring
  · push Not at hle
    have hq : 1 < (N : ℝ) / T := (one_lt_div hTp).mpr hle
    rw [abs_of_neg (by linarith), min_eq_right ((div_le_one hNp).mpr hle.le)]
    field_simp
    ring

/-- A case with fewer time steps than assets: half of the mass is missing. -/
example : ∫ x, mpDensity 2 50 100 x = 1 / 2 := by
  rw [mp_total_mass (by norm_num) (by norm_num) (by norm_num)]
  norm_num

/-! ### The function and the fit -/

/-- C38. The density function: errors, and the values for float arrays. -/
theorem mp_pdf_cases (var : ℝ) (T N : Nat) (xs : List ℝ) :
    (mpPdf false var T N xs = .ok (xs.map (mpDensity var T N)) ↔ 0 < var ∧ 0 < N ∧ 0 < T) ∧
    (mpPdf false var T N xs = .error .valueError ↔ var ≤ 0) ∧
    (mpPdf false var T N xs = .error .zeroDivisionError ↔ 0 < var ∧ (N = 0 ∨ T = 0)) := by
  unfold mpPdf
  by_cases h1 : var ≤ 0
  · rw [if_pos h1]
    refine ⟨⟨fun h => (by cases h), fun h => absurd h.1 (by linarith)⟩, ⟨fun _ => h1, fun _ => rfl⟩,
      ⟨fun h => (by cases h), fun h => absurd h.1 (by linarith)⟩⟩
  · rw [if_neg h1]
    push Not at h1
    by_cases h2 : N = 0 ∨ T = 0
    · rw [if_pos h2]
      refine ⟨⟨fun h => (by cases h), fun h => absurd h2 (by omega)⟩, ⟨fun h => (by cases h), fun h => absurd h (by linarith)⟩,
        ⟨fun _ => ⟨h1, h2⟩, fun _ => rfl⟩⟩
    · rw [if_neg h2]
      refine ⟨⟨fun _ => ⟨h1, by omega, by omega⟩, fun _ => by simp⟩, ⟨fun h => (by cases h), fun h => absurd h (by linarith)⟩,
        ⟨fun h => (by cases h), fun h => absurd h.2 h2⟩⟩

/-- C38, limit. For an array of integers the densities are truncated to integers: for instance the density at the
eigenvalue 1 for variance 1 and as many time steps as assets is returned as 0, although it is positive. -/
theorem mp_pdf_int_truncates : mpPdf true 1 1 1 [1] = .ok [0] ∧ 0 < mpDensity 1 1 1 1 := by
  have hd : mpDensity 1 1 1 1 = 1 / (2 * Real.pi) * Real.sqrt 3 := by
    unfold mpDensity mpSupport
    norm_num
  have hpi := Real.pi_gt_three
  have hs3 : Real.sqrt 3 < 2 := by
    rw [Real.sqrt_lt' (by norm_num)]; norm_num
  have hpos : 0 < mpDensity 1 1 1 1 := by
    rw [hd]
    have : 0 < Real.sqrt 3 := Real.sqrt_pos.mpr (by norm_num)
    positivity
  have hlt : mpDensity 1 1 1 1 < 1 := by
    rw [hd, one_div_mul_eq_div, div_lt_one (by positivity)]
    linarith
  refine ⟨?_, hpos⟩
  unfold mpPdf
  rw [if_neg (by norm_num), if_neg (by norm_num)]
  have : ⌊mpDensity 1 1 1 1⌋ = 0 := Int.floor_eq_zero_iff.mpr ⟨hpos.le, hlt⟩
  simp [this]

/-- The loop finds the first maximiser. -/
theorem mpLoop_argmax (ll : ℝ → ℝ) : ∀ (vs : List ℝ) (st : ℝ × ℝ),
    (mpLoop ll st vs = st ∧ ∀ v ∈ vs, ll v ≤ st.1) ∨
    ∃ pre v post, vs = pre ++ v :: post ∧ mpLoop ll st vs = (ll v, v) ∧ st.1 < ll v ∧
      (∀ u ∈ pre, ll u < ll v) ∧ ∀ u ∈ post, ll u ≤ ll v := by
  intro vs
  induction vs with
  | nil => intro st; left; exact ⟨rfl, by simp⟩
  | cons w vs ih =>
    intro st
    rw [mpLoop]
    by_cases h : st.1 < ll w
    · rw [if_pos h]
      rcases ih (ll w, w) with ⟨h1, h2⟩ | ⟨pre, v, post, h1, h2, h3, h4, h5⟩
      · right
        exact ⟨[], w, vs, rfl, h1, h, by simp, h2⟩
      · right
        refine ⟨w :: pre, v, post, by rw [h1]; rfl, h2, h.trans h3, fun u hu => ?_, h5⟩
        rcases List.mem_cons.mp hu with rfl | hu
        · exact h3
        · exact h4 u hu
    · rw [if_neg h]
      push Not at h
      rcases ih st with ⟨h1, h2⟩ | ⟨pre, v, post, h1, h2, h3, h4, h5⟩
      · left
        refine ⟨h1, fun v hv => ?_⟩
        rcases List.mem_cons.mp hv with rfl | hv
        · exact h
        · exact h2 v hv
      · right
        refine ⟨w :: pre, v, post, by rw [h1]; rfl, h2, h3, fun u hu => ?_, h5⟩
        rcases List.mem_cons.mp hu with rfl | hu
        · exact lt_of_le_of_lt h h3
        · exact h4 u hu

/-- The grid lies between 0.01 and 4. -/
theorem mpGrid_mem {v : ℝ} (h : v ∈ mpGrid) : 0.01 ≤ v ∧ v ≤ 4 := by
  obtain ⟨i, hi, rfl⟩ := List.mem_map.mp h
  have h1 : (i : ℝ) ≤ 999 := by
    have := List.mem_range.mp hi
    exact_mod_cast (by omega : i ≤ 999)
  have h2 : (0 : ℝ) ≤ i := Nat.cast_nonneg i
  constructor
  · have : (0 : ℝ) ≤ i * (3.99 / 999) := by positivity
    linarith
  · have : (i : ℝ) * (3.99 / 999) ≤ 999 * (3.99 / 999) := mul_le_mul_of_nonneg_right h1 (by norm_num)
    norm_num at this ⊢
    linarith

/-- C38. The fitted variance is the first maximiser of the likelihood on the grid, hence between 0.01 and 4 — also
when all eigenvalues are far outside this range — or 0 if no likelihood exceeds `-1e9`. -/
theorem mp_fit_argmax {T N : Nat} {xs : List ℝ} {v : ℝ} (h : mpFit T N xs = .ok v) (hmax : 0 < lmax xs) :
    (v = 0 ∧ ∀ u ∈ mpGrid, mpLogLik T N xs u ≤ -10 ^ 9) ∨
    (0.01 ≤ v ∧ v ≤ 4 ∧ ∃ pre post, mpGrid = pre ++ v :: post ∧
      (∀ u ∈ pre, mpLogLik T N xs u < mpLogLik T N xs v) ∧ ∀ u ∈ post, mpLogLik T N xs u ≤ mpLogLik T N xs v) := by
  unfold mpFit at h
  by_cases h1 : N = 0 ∨ T = 0
  · rw [if_pos h1] at h; cases h
  rw [if_neg h1] at h
  by_cases h2 : xs = []
  · rw [if_pos h2] at h; cases h
  rw [if_neg h2, if_neg (by linarith), if_neg hmax.ne'] at h
  have h := Except.ok.inj h
  rcases mpLoop_argmax (mpLogLik T N xs) mpGrid (-10 ^ 9, 0) with ⟨e, hle⟩ | ⟨pre, w, post, hg, e, -, hpre, hpost⟩
  · left
    rw [e] at h
    exact ⟨h.symm, hle⟩
  · right
    rw [e] at h
    dsimp only at h
    subst h
    obtain ⟨h3, h4⟩ := mpGrid_mem (v := w) (by rw [hg]; simp)
    exact ⟨h3, h4, pre, post, hg, hpre, hpost⟩

/-- C38. The fit succeeds for every non-empty list and positive counts, and fails otherwise. -/
theorem mp_fit_ok_iff (T N : Nat) (xs : List ℝ) :
    (∃ v, mpFit T N xs = .ok v) ↔ 0 < N ∧ 0 < T ∧ xs ≠ [] := by
  unfold mpFit
  by_cases h1 : N = 0 ∨ T = 0
  · rw [if_pos h1]
    exact ⟨fun ⟨v, h⟩ => (by cases h), fun h => absurd h1 (by omega)⟩
  rw [if_neg h1]
  by_cases h2 : xs = []
  · rw [if_pos h2]
    exact ⟨fun ⟨v, h⟩ => (by cases h), fun h => absurd h2 h.2.2⟩
  rw [if_neg h2]
  refine ⟨fun _ => ⟨by omega, by omega, h2⟩, fun _ => ?_⟩
  split
  · exact ⟨_, rfl⟩
  · split
    · exact ⟨_, rfl⟩
    · exact ⟨_, rfl⟩

/-- A case of the fit. -/
example : ∃ v, mpFit 10 2 [1.5, 0.5] = .ok v ∧ (v = 0 ∨ 0.01 ≤ v ∧ v ≤ 4) := by
  obtain ⟨v, h⟩ := (mp_fit_ok_iff 10 2 [1.5, 0.5]).mpr ⟨by norm_num, by norm_num, by simp⟩
  refine ⟨v, h, ?_⟩
  rcases mp_fit_argmax h (by norm_num [lmax]) with ⟨h, -⟩ | ⟨h1, h2, -⟩
  · exact .inl h
  · exact .inr ⟨h1, h2⟩

end Verif.Cov
