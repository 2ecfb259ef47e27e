import Verif.Props.CovMP
import Verif.Props.CovLaw
import Mathlib.Analysis.SpecialFunctions.Integrals.Basic
import Mathlib.Analysis.Matrix.Spectrum
import Mathlib.Probability.Moments.Variance
import Mathlib.Probability.Distributions.Gaussian.Real

/-!
# C38: the moments of the Marchenko–Pastur density and of eigenvalues of sample covariances
-/

namespace Verif.Cov

open MeasureTheory

private theorem sqrt_scaled {m r t : ℝ} (hr : 0 ≤ r) :
    Real.sqrt ((m + r - (r * t + m)) * (r * t + m - (m - r))) = r * Real.sqrt (1 - t ^ 2) := by
  have : (m + r - (r * t + m)) * (r * t + m - (m - r)) = r ^ 2 * (1 - t ^ 2) := by ring
  rw [this, Real.sqrt_mul (sq_nonneg r), Real.sqrt_sq hr]

private theorem odd_integral : ∫ t in (-1 : ℝ)..1, t * Real.sqrt (1 - t ^ 2) = 0 := by
  have h := intervalIntegral.integral_comp_neg (fun t : ℝ => t * Real.sqrt (1 - t ^ 2)) (a := -1) (b := 1)
  simp only [neg_neg, neg_sq, neg_mul, intervalIntegral.integral_neg] at h
  linarith

/-- The area of a half disk. -/
theorem half_disk {a b : ℝ} (hab : a < b) : ∫ x in a..b, Real.sqrt ((b - x) * (x - a)) = Real.pi / 8 * (b - a) ^ 2 := by
  obtain ⟨m, r, rfl, rfl⟩ : ∃ m r, a = m - r ∧ b = m + r := ⟨(a + b) / 2, (b - a) / 2, by ring, by ring⟩
  have hr0 : 0 < r := by linarith
  have key := intervalIntegral.mul_integral_comp_mul_add (f := fun x => Real.sqrt ((m + r - x) * (x - (m - r)))) r m (a := -1) (b := 1)
  rw [show r * -1 + m = m - r by ring, show r * 1 + m = m + r by ring] at key
  rw [← key]
  simp only [sqrt_scaled hr0.le]
  rw [intervalIntegral.integral_const_mul, integral_sqrt_one_sub_sq]
  ring

/-- Its centre of mass. -/
theorem half_disk_mean {a b : ℝ} (hab : a < b) :
    ∫ x in a..b, x * Real.sqrt ((b - x) * (x - a)) = (a + b) / 2 * (Real.pi / 8 * (b - a) ^ 2) := by
  obtain ⟨m, r, rfl, rfl⟩ : ∃ m r, a = m - r ∧ b = m + r := ⟨(a + b) / 2, (b - a) / 2, by ring, by ring⟩
  have hr0 : 0 < r := by linarith
  have key := intervalIntegral.mul_integral_comp_mul_add (f := fun x => x * Real.sqrt ((m + r - x) * (x - (m - r)))) r m (a := -1) (b := 1)
  rw [show r * -1 + m = m - r by ring, show r * 1 + m = m + r by ring] at key
  rw [← key]
  simp only [sqrt_scaled hr0.le]
  have e : (fun t : ℝ => (r * t + m) * (r * Real.sqrt (1 - t ^ 2))) =
      fun t => r ^ 2 * (t * Real.sqrt (1 - t ^ 2)) + m * r * Real.sqrt (1 - t ^ 2) := by
    funext t; ring
  rw [e, intervalIntegral.integral_add (Continuous.intervalIntegrable (by fun_prop) _ _) (Continuous.intervalIntegrable (by fun_prop) _ _),
    intervalIntegral.integral_const_mul, intervalIntegral.integral_const_mul, odd_integral, integral_sqrt_one_sub_sq]
  ring

private theorem mp_weighted {var : ℝ} (hv : 0 < var) {T N : Nat} (hT : 0 < T) (hN : 0 < N) (k : Nat) :
    ∫ x, x ^ (k + 1) * mpDensity var T N x = (T / N : ℝ) / (2 * Real.pi * var) *
      ∫ x in (mpSupport var T N).1..(mpSupport var T N).2,
        x ^ k * Real.sqrt (((mpSupport var T N).2 - x) * (x - (mpSupport var T N).1)) := by
  obtain ⟨h0, h1, -⟩ := mp_support hv hT hN
  set a := (mpSupport var T N).1 with ha
  set b := (mpSupport var T N).2 with hb
  have hTp : (0 : ℝ) < T := by exact_mod_cast hT
  have hNp : (0 : ℝ) < N := by exact_mod_cast hN
  have hpi := Real.pi_pos
  have hind : (fun x => x ^ (k + 1) * mpDensity var T N x) = Set.indicator (Set.Ioo a b) fun x =>
      (T / N : ℝ) / (2 * Real.pi * var) * (x ^ k * Real.sqrt ((b - x) * (x - a))) := by
    funext x
    unfold mpDensity
    dsimp only
    rw [Set.indicator_apply, ← ha, ← hb]
    by_cases hx : a < x ∧ x < b
    · rw [if_pos hx, if_pos (show x ∈ Set.Ioo a b from hx)]
      have : x ≠ 0 := (lt_of_le_of_lt h0 hx.1).ne'
      field_simp
      ring
    · rw [if_neg hx, if_neg (show ¬ x ∈ Set.Ioo a b from hx), mul_zero]
  rw [hind, integral_indicator measurableSet_Ioo, ← integral_Ioc_eq_integral_Ioo,
    ← intervalIntegral.integral_of_le h1.le, intervalIntegral.integral_const_mul]

/-- C38. The mean of the density is the variance parameter, also with more assets than time steps. -/
theorem mp_mean {var : ℝ} (hv : 0 < var) {T N : Nat} (hT : 0 < T) (hN : 0 < N) : ∫ x, x * mpDensity var T N x = var := by
  have h := mp_weighted hv hT hN 0
  simp only [zero_add, pow_one, pow_zero, one_mul] at h
  rw [h, half_disk (mp_support hv hT hN).2.1]
  have hTp : (0 : ℝ) < T := by exact_mod_cast hT
  have hNp : (0 : ℝ) < N := by exact_mod_cast hN
  set s := Real.sqrt (1 / ((T : ℝ) / N)) with hs
  have hs2 : s ^ 2 = N / T := by
    rw [hs, Real.sq_sqrt (by positivity)]; field_simp
  have e : (mpSupport var T N).2 - (mpSupport var T N).1 = 4 * var * s := by
    show var * (1 + s) ^ 2 - var * (1 - s) ^ 2 = 4 * var * s
    ring
  rw [e, mul_pow, hs2]
  have hpi := Real.pi_pos
  field_simp
  norm_num

/-- C38. The second moment of the density. -/
theorem mp_second {var : ℝ} (hv : 0 < var) {T N : Nat} (hT : 0 < T) (hN : 0 < N) :
    ∫ x, x ^ 2 * mpDensity var T N x = var ^ 2 * (1 + N / T) := by
  have h := mp_weighted hv hT hN 1
  simp only [pow_one, Nat.reduceAdd] at h
  rw [h, half_disk_mean (mp_support hv hT hN).2.1]
  have hTp : (0 : ℝ) < T := by exact_mod_cast hT
  have hNp : (0 : ℝ) < N := by exact_mod_cast hN
  set s := Real.sqrt (1 / ((T : ℝ) / N)) with hs
  have hs2 : s ^ 2 = N / T := by
    rw [hs, Real.sq_sqrt (by positivity)]; field_simp
  have e : (mpSupport var T N).2 - (mpSupport var T N).1 = 4 * var * s := by
    show var * (1 + s) ^ 2 - var * (1 - s) ^ 2 = 4 * var * s
    ring
  have e2 : (mpSupport var T N).1 + (mpSupport var T N).2 = 2 * var * (1 + N / T) := by
    rw [← hs2]
    show var * (1 - s) ^ 2 + var * (1 + s) ^ 2 = 2 * var * (1 + s ^ 2)
    ring
  rw [e, e2, mul_pow, hs2]
  have hpi := Real.pi_pos
  field_simp
  norm_num

/-! ### Eigenvalues of sample covariances of uncorrelated series -/

section Random

open ProbabilityTheory

variable {Ω : Type*} [MeasurableSpace Ω] {P : Measure Ω} [IsProbabilityMeasure P] {N T : Nat} {X : Fin N × Fin T → Ω → ℝ}

/-- The sample covariance matrix of `N` series of length `T` with mean zero. -/
noncomputable def sampleCov (x : Fin N × Fin T → ℝ) : Matrix (Fin N) (Fin N) ℝ := fun i j => (∑ t, x (i, t) * x (j, t)) / T

theorem sampleCov_herm (x : Fin N × Fin T → ℝ) : (sampleCov x).IsHermitian := by
  ext i j
  simp only [Matrix.conjTranspose_apply, sampleCov, star_trivial]
  congr 1
  exact Finset.sum_congr rfl fun t _ => mul_comm _ _

/-- Independent series of independent values with mean zero, variance `v` and fourth moment `m`. -/
structure Noise (P : Measure Ω) (X : Fin N × Fin T → Ω → ℝ) (v m : ℝ) : Prop where
  meas : ∀ k, Measurable (X k)
  indep : iIndepFun X P
  int4 : ∀ k, Integrable (fun ω => X k ω ^ 4) P
  mean : ∀ k, ∫ ω, X k ω ∂P = 0
  second : ∀ k, ∫ ω, X k ω ^ 2 ∂P = v
  fourth : ∀ k, ∫ ω, X k ω ^ 4 ∂P = m

variable {v m : ℝ}

omit [IsProbabilityMeasure P] in
theorem Noise.sq2 (h : Noise P X v m) (k : Fin N × Fin T) : MemLp (fun ω => X k ω ^ 2) 2 P := by
  rw [memLp_two_iff_integrable_sq ((h.meas k).pow_const 2).aestronglyMeasurable]
  refine (h.int4 k).congr (ae_of_all _ fun ω => ?_)
  show X k ω ^ 4 = (X k ω ^ 2) ^ 2
  ring

theorem Noise.sq (h : Noise P X v m) (k : Fin N × Fin T) : Integrable (fun ω => X k ω ^ 2) P :=
  (h.sq2 k).integrable one_le_two

theorem Noise.l2 (h : Noise P X v m) (k : Fin N × Fin T) : MemLp (X k) 2 P :=
  (memLp_two_iff_integrable_sq (h.meas k).aestronglyMeasurable).mpr (h.sq k)

/-- Products of two entries at the same time are square integrable. -/
theorem Noise.prod2 (h : Noise P X v m) (i j : Fin N) (t : Fin T) : MemLp (fun ω => X (i, t) ω * X (j, t) ω) 2 P := by
  by_cases hij : i = j
  · subst hij
    have := h.sq2 (i, t)
    simpa only [pow_two] using this
  · have hm : Measurable fun ω => X (i, t) ω * X (j, t) ω := (h.meas _).mul (h.meas _)
    rw [memLp_two_iff_integrable_sq hm.aestronglyMeasurable]
    have hind : IndepFun (fun ω => X (i, t) ω ^ 2) (fun ω => X (j, t) ω ^ 2) P :=
      (h.indep.indepFun (i := (i, t)) (j := (j, t)) (by simp [hij])).comp (φ := fun x => x ^ 2) (ψ := fun x => x ^ 2)
        (measurable_id.pow_const 2) (measurable_id.pow_const 2)
    refine (hind.integrable_mul (h.sq _) (h.sq _)).congr (ae_of_all _ fun ω => ?_)
    simp only [Pi.mul_apply]
    ring

omit [IsProbabilityMeasure P] in
theorem Noise.prod_indep (h : Noise P X v m) (i j : Fin N) {t s : Fin T} (hts : t ≠ s) :
    IndepFun (fun ω => X (i, t) ω * X (j, t) ω) (fun ω => X (i, s) ω * X (j, s) ω) P := by
  have := h.indep.indepFun_prodMk_prodMk h.meas (i, t) (j, t) (i, s) (j, s) (by simp [hts]) (by simp [hts]) (by simp [hts]) (by simp [hts])
  exact this.comp (φ := fun z : ℝ × ℝ => z.1 * z.2) (ψ := fun z : ℝ × ℝ => z.1 * z.2) (measurable_fst.mul measurable_snd)
    (measurable_fst.mul measurable_snd)

omit [IsProbabilityMeasure P] in
theorem Noise.prod_mean (h : Noise P X v m) (i j : Fin N) (t : Fin T) :
    ∫ ω, X (i, t) ω * X (j, t) ω ∂P = if i = j then v else 0 := by
  split_ifs with hij
  · subst hij
    rw [← h.second (i, t)]
    simp only [pow_two]
  · have hind := h.indep.indepFun (i := (i, t)) (j := (j, t)) (by simp [hij])
    have := hind.integral_mul_eq_mul_integral (h.meas _).aestronglyMeasurable (h.meas _).aestronglyMeasurable
    simp only [Pi.mul_apply] at this
    rw [this, h.mean, zero_mul]

omit [IsProbabilityMeasure P] in
theorem Noise.prod_sq (h : Noise P X v m) (i j : Fin N) (t : Fin T) :
    ∫ ω, (X (i, t) ω * X (j, t) ω) ^ 2 ∂P = if i = j then m else v ^ 2 := by
  split_ifs with hij
  · subst hij
    rw [← h.fourth (i, t)]
    refine integral_congr_ae (ae_of_all _ fun ω => ?_)
    show (X (i, t) ω * X (i, t) ω) ^ 2 = X (i, t) ω ^ 4
    ring
  · have hind : IndepFun (fun ω => X (i, t) ω ^ 2) (fun ω => X (j, t) ω ^ 2) P :=
      (h.indep.indepFun (i := (i, t)) (j := (j, t)) (by simp [hij])).comp (φ := fun x => x ^ 2) (ψ := fun x => x ^ 2)
        (measurable_id.pow_const 2) (measurable_id.pow_const 2)
    have := hind.integral_mul_eq_mul_integral ((h.meas _).pow_const 2).aestronglyMeasurable ((h.meas _).pow_const 2).aestronglyMeasurable
    simp only [Pi.mul_apply, h.second] at this
    rw [pow_two v, ← this]
    refine integral_congr_ae (ae_of_all _ fun ω => ?_)
    show (X (i, t) ω * X (j, t) ω) ^ 2 = X (i, t) ω ^ 2 * X (j, t) ω ^ 2
    ring

theorem Noise.entry_mean (h : Noise P X v m) (hT : 0 < T) (i j : Fin N) :
    ∫ ω, sampleCov (fun k => X k ω) i j ∂P = if i = j then v else 0 := by
  have hTp : (T : ℝ) ≠ 0 := by exact_mod_cast hT.ne'
  unfold sampleCov
  rw [integral_div, integral_finsetSum _ fun t _ => (h.prod2 i j t).integrable one_le_two]
  simp only [h.prod_mean, Finset.sum_const, Finset.card_univ, Fintype.card_fin, nsmul_eq_mul]
  field_simp

theorem Noise.entry_l2 (h : Noise P X v m) (i j : Fin N) : MemLp (fun ω => sampleCov (fun k => X k ω) i j) 2 P := by
  have := memLp_finsetSum Finset.univ fun t _ => h.prod2 i j t
  have := this.const_mul ((T : ℝ)⁻¹)
  refine this.ae_eq (ae_of_all _ fun ω => ?_)
  simp only [sampleCov]
  rw [div_eq_inv_mul]

theorem Noise.entry_sq (h : Noise P X v m) (hT : 0 < T) (i j : Fin N) :
    ∫ ω, sampleCov (fun k => X k ω) i j ^ 2 ∂P = if i = j then v ^ 2 + (m - v ^ 2) / T else v ^ 2 / T := by
  have hTp : (T : ℝ) ≠ 0 := by exact_mod_cast hT.ne'
  have hY := fun t => h.prod2 i j t
  have hvar : Var[fun ω => ∑ t, X (i, t) ω * X (j, t) ω; P] = ∑ t : Fin T, Var[fun ω => X (i, t) ω * X (j, t) ω; P] := by
    have := IndepFun.variance_sum (μ := P) (X := fun t ω => X (i, t) ω * X (j, t) ω) (s := Finset.univ) (fun t _ => hY t)
      fun t _ s _ hts => h.prod_indep i j hts
    rw [← this]
    congr 1
    funext ω
    simp
  have h1 : ∀ t, Var[fun ω => X (i, t) ω * X (j, t) ω; P] = (if i = j then m else v ^ 2) - (if i = j then v else 0) ^ 2 := by
    intro t
    rw [variance_eq_sub (hY t), h.prod_mean]
    congr 1
    exact h.prod_sq i j t
  have h2 : Var[fun ω => sampleCov (fun k => X k ω) i j; P] =
      ((if i = j then m else v ^ 2) - (if i = j then v else 0) ^ 2) / T := by
    have e : (fun ω => sampleCov (fun k => X k ω) i j) = fun ω => (T : ℝ)⁻¹ * ∑ t, X (i, t) ω * X (j, t) ω := by
      funext ω
      simp only [sampleCov]
      rw [div_eq_inv_mul]
    rw [e, variance_const_mul, hvar, Finset.sum_congr rfl fun t _ => h1 t]
    simp only [Finset.sum_const, Finset.card_univ, Fintype.card_fin, nsmul_eq_mul]
    field_simp
  have h3 := variance_eq_sub (h.entry_l2 i j)
  rw [h2, h.entry_mean hT] at h3
  have h4 : ∫ ω, sampleCov (fun k => X k ω) i j ^ 2 ∂P =
      ((if i = j then m else v ^ 2) - (if i = j then v else 0) ^ 2) / T + (if i = j then v else 0) ^ 2 := by
    rw [h3]
    simp only [Pi.pow_apply]
    ring
  rw [h4]
  split_ifs <;> ring

/-- Sums of powers of eigenvalues. -/
theorem eigen_sum (x : Fin N × Fin T → ℝ) :
    ∑ i, (sampleCov_herm x).eigenvalues i = ∑ i, sampleCov x i i ∧
    ∑ i, (sampleCov_herm x).eigenvalues i ^ 2 = ∑ i, ∑ j, sampleCov x i j ^ 2 := by
  have hh := sampleCov_herm x
  have h1 := (sampleCov_herm x).trace_eq_sum_eigenvalues
  simp only [RCLike.ofReal_real_eq_id, id] at h1
  refine ⟨h1.symm, ?_⟩
  have hs : sampleCov x * sampleCov x = Unitary.conjStarAlgAut ℝ _ (sampleCov_herm x).eigenvectorUnitary
      (Matrix.diagonal fun i => (sampleCov_herm x).eigenvalues i ^ 2) := by
    have hsp := (sampleCov_herm x).spectral_theorem
    calc sampleCov x * sampleCov x = _ := congrArg₂ (· * ·) hsp hsp
      _ = _ := by
        rw [← map_mul, Matrix.diagonal_mul_diagonal]
        congr 2
        funext i
        simp [pow_two]
  have ht : (sampleCov x * sampleCov x).trace = ∑ i, (sampleCov_herm x).eigenvalues i ^ 2 := by
    rw [hs, Unitary.conjStarAlgAut_apply, Matrix.trace_mul_comm, ← mul_assoc]
    simp [Matrix.trace_diagonal]
  rw [← ht]
  simp only [Matrix.trace, Matrix.diag_apply, Matrix.mul_apply]
  refine Finset.sum_congr rfl fun i _ => Finset.sum_congr rfl fun j _ => ?_
  have : sampleCov x j i = sampleCov x i j := by
    have := congrFun (congrFun hh i) j
    simpa using this
  rw [this, pow_two]

/-- C38. What the density describes: for independent noise its mean is the expected mean of the eigenvalues of the sample
covariance matrix, and its second moment is the expected mean square up to `(m - 2 v²) / T`, whatever the number of series. -/
theorem mp_noise (h : Noise P X v m) (hv : 0 < v) (hT : 0 < T) (hN : 0 < N) :
    ∫ ω, (∑ i, (sampleCov_herm fun k => X k ω).eigenvalues i) / N ∂P = ∫ x, x * mpDensity v T N x ∧
    ∫ ω, (∑ i, (sampleCov_herm fun k => X k ω).eigenvalues i ^ 2) / N ∂P =
      (∫ x, x ^ 2 * mpDensity v T N x) + (m - 2 * v ^ 2) / T := by
  have hTp : (T : ℝ) ≠ 0 := by exact_mod_cast hT.ne'
  have hNp : (N : ℝ) ≠ 0 := by exact_mod_cast hN.ne'
  rw [mp_mean hv hT hN, mp_second hv hT hN]
  simp only [eigen_sum]
  rw [integral_div, integral_div, integral_finsetSum _ fun i _ => (h.entry_l2 i i).integrable one_le_two,
    integral_finsetSum _ fun i _ => integrable_finsetSum _ fun j _ => (h.entry_l2 i j).integrable_sq]
  simp only [h.entry_mean hT, if_true, Finset.sum_const, Finset.card_univ, Fintype.card_fin, nsmul_eq_mul]
  refine ⟨by field_simp, ?_⟩
  have e : ∀ i : Fin N, ∫ ω, ∑ j, sampleCov (fun k => X k ω) i j ^ 2 ∂P = N * (v ^ 2 / T) + (v ^ 2 + (m - v ^ 2) / T - v ^ 2 / T) := by
    intro i
    rw [integral_finsetSum _ fun j _ => (h.entry_l2 i j).integrable_sq]
    simp only [h.entry_sq hT]
    have e1 : ∀ j : Fin N, (if i = j then v ^ 2 + (m - v ^ 2) / T else v ^ 2 / T) =
        v ^ 2 / T + if i = j then v ^ 2 + (m - v ^ 2) / T - v ^ 2 / T else 0 := by
      intro j
      split_ifs <;> ring
    simp only [e1, Finset.sum_add_distrib, Finset.sum_const, Finset.card_univ, Fintype.card_fin, nsmul_eq_mul,
      Finset.sum_ite_eq, Finset.mem_univ, if_true]
  simp only [e, Finset.sum_const, Finset.card_univ, Fintype.card_fin, nsmul_eq_mul]
  field_simp
  ring

/-- Normal noise. -/
theorem noise_gauss (N T : Nat) : Noise (Measure.pi fun _ : Fin N × Fin T => gaussianReal 0 1) (fun k ω => ω k) 1 3 := by
  have hlaw : ∀ k : Fin N × Fin T, (Measure.pi fun _ : Fin N × Fin T => gaussianReal 0 1).map (fun ω => ω k) = gaussianReal 0 1 :=
    fun k => (measurePreserving_eval (fun _ : Fin N × Fin T => gaussianReal 0 1) k).map_eq
  have hm : ∀ k : Fin N × Fin T, Measurable fun ω : Fin N × Fin T → ℝ => ω k := fun k => measurable_pi_apply k
  have key : ∀ (k : Fin N × Fin T) (f : ℝ → ℝ), Continuous f →
      ∫ ω, f (ω k) ∂(Measure.pi fun _ : Fin N × Fin T => gaussianReal 0 1) = ∫ x, f x ∂gaussianReal 0 1 := by
    intro k f hf
    conv_rhs => rw [← hlaw k]
    rw [integral_map (hm k).aemeasurable hf.aestronglyMeasurable]
  refine ⟨hm, iIndepFun_pi (X := fun _ x => x) fun _ => aemeasurable_id, fun k => ?_, fun k => ?_, fun k => ?_, fun k => ?_⟩
  · have : Integrable (fun x : ℝ => x ^ 4) (gaussianReal 0 1) := by
      have := (memLp_id_gaussianReal (μ := 0) (v := 1) 4).integrable_norm_pow (by norm_num)
      have e : (fun x : ℝ => ‖id x‖ ^ 4) = fun x => x ^ 4 := by
        funext x
        rw [id, Real.norm_eq_abs, show (4 : ℕ) = 2 * 2 from rfl, pow_mul, sq_abs, ← pow_mul]
      rw [← e]
      exact this
    rw [← hlaw k] at this
    exact this.comp_measurable (hm k)
  · rw [key k (fun x => x) continuous_id, integral_id_gaussianReal]
  · rw [key k (fun x => x ^ 2) (by fun_prop)]
    have := variance_id_gaussianReal (μ := 0) (v := 1)
    rw [variance_eq_sub (memLp_id_gaussianReal 2)] at this
    simpa using this
  · rw [key k (fun x => x ^ 4) (by fun_prop), gauss_fourth]

/-- C38. For standard normal noise the second moments differ by `1 / T`. -/
example {N T : Nat} (hT : 0 < T) (hN : 0 < N) :
    ∫ ω, (∑ i, (sampleCov_herm fun k : Fin N × Fin T => ω k).eigenvalues i ^ 2) / N
      ∂(Measure.pi fun _ : Fin N × Fin T => gaussianReal 0 1) = (∫ x, x ^ 2 * mpDensity 1 T N x) + 1 / T := by
  rw [(mp_noise (noise_gauss N T) one_pos hT hN).2]
  norm_num

end Random

end Verif.Cov
