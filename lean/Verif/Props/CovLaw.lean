import Verif.Spec.CovLaw
import Verif.Lemmas.PolyNull
import Verif.Lemmas.SimLaw
import Verif.Props.Cov
import Mathlib.Probability.Moments.MGFAnalytic
import Mathlib.Probability.Moments.Variance
import Mathlib.LinearAlgebra.Matrix.MvPolynomial
import Mathlib.LinearAlgebra.Matrix.ToLinearEquiv
import Mathlib.Analysis.Calculus.IteratedDeriv.Lemmas

/-!
# C87: random covariance matrices
-/

namespace Verif.Cov

open MeasureTheory ProbabilityTheory Sim

theorem gauss_fourth : ∫ x, x ^ 4 ∂gaussianReal 0 1 = 3 := by
  have h1 := iteratedDeriv_mgf_zero (X := id) (μ := gaussianReal 0 1)
    (by rw [integrableExpSet_id_gaussianReal, interior_univ]; trivial) 4
  have hm : mgf id (gaussianReal 0 1) = fun t : ℝ => Real.exp (t ^ 2 / 2) := by
    rw [mgf_id_gaussianReal]
    funext t
    norm_num
  have d : ∀ (q q' : ℝ → ℝ), (∀ t, HasDerivAt q (q' t) t) →
      deriv (fun t => q t * Real.exp (t ^ 2 / 2)) = fun t => (q' t + q t * t) * Real.exp (t ^ 2 / 2) := by
    intro q q' hq
    funext t
    have he : HasDerivAt (fun t : ℝ => Real.exp (t ^ 2 / 2)) (Real.exp (t ^ 2 / 2) * t) t := by
      have h2 : HasDerivAt (fun t : ℝ => t ^ 2 / 2) t t := by
        have := (hasDerivAt_pow 2 t).div_const 2
        simpa using this
      exact h2.exp
    have h3 : HasDerivAt (fun t => q t * Real.exp (t ^ 2 / 2)) _ t := (hq t).mul he
    rw [h3.deriv]
    ring
  have e0 : (fun t : ℝ => Real.exp (t ^ 2 / 2)) = fun t => (fun _ => (1 : ℝ)) t * Real.exp (t ^ 2 / 2) := by funext t; simp
  have e1 := d (fun _ => 1) (fun _ => 0) fun t => hasDerivAt_const t 1
  have e2 := d (fun t => t) (fun _ => 1) fun t => hasDerivAt_id t
  have e3 := d (fun t => 1 + t * t) (fun t => 2 * t) fun t => by
    have h2 : HasDerivAt (fun t : ℝ => 1 + t * t) (1 * t + t * 1) t := ((hasDerivAt_id t).mul (hasDerivAt_id t)).const_add 1
    rwa [show 1 * t + t * 1 = 2 * t by ring] at h2
  have e4 := d (fun t => 3 * t + t * t * t) (fun t => 3 + 3 * t * t) fun t => by
    have h2 : HasDerivAt (fun t : ℝ => 3 * t + t * t * t) (3 * 1 + ((1 * t + t * 1) * t + t * t * 1)) t :=
      ((hasDerivAt_id t).const_mul 3).add (((hasDerivAt_id t).mul (hasDerivAt_id t)).mul (hasDerivAt_id t))
    rwa [show 3 * 1 + ((1 * t + t * 1) * t + t * t * 1) = 3 + 3 * t * t by ring] at h2
  have x1 : iteratedDeriv 1 (fun t : ℝ => Real.exp (t ^ 2 / 2)) = fun t => t * Real.exp (t ^ 2 / 2) := by
    rw [iteratedDeriv_one, e0, e1]
    funext t; ring
  have x2 : iteratedDeriv 2 (fun t : ℝ => Real.exp (t ^ 2 / 2)) = fun t => (1 + t * t) * Real.exp (t ^ 2 / 2) := by
    rw [iteratedDeriv_succ, x1, e2]
  have x3 : iteratedDeriv 3 (fun t : ℝ => Real.exp (t ^ 2 / 2)) = fun t => (3 * t + t * t * t) * Real.exp (t ^ 2 / 2) := by
    rw [iteratedDeriv_succ, x2, e3]
    funext t; ring
  have x4 : iteratedDeriv 4 (fun t : ℝ => Real.exp (t ^ 2 / 2)) = fun t => (3 + 3 * t * t + (3 * t + t * t * t) * t) * Real.exp (t ^ 2 / 2) := by
    rw [iteratedDeriv_succ, x3, e4]
  rw [hm, x4] at h1
  simp at h1
  exact h1.symm

variable {Ω : Type*} [MeasurableSpace Ω] {P : Measure Ω} {n : Nat} {ζ : Fin (2 * n) × Fin n → Ω → ℝ}

theorem randomCov_apply (x : Matrix (Fin (2 * n)) (Fin n) ℝ) (i j : Fin n) : randomCov x i j = ∑ k, x k i * x k j := by
  unfold randomCov
  rw [Matrix.mul_apply]
  rfl

theorem scale_sq (hn : 0 < n) : (Real.sqrt 2 / (2 * n)) ^ 2 = 1 / (2 * (n : ℝ) ^ 2) := by
  rw [div_pow, Real.sq_sqrt (by norm_num)]
  have : (n : ℝ) ≠ 0 := by exact_mod_cast hn.ne'
  field_simp

theorem prod_mean (h : StdNormal P ζ) (a b : Fin (2 * n) × Fin n) : ∫ ω, ζ a ω * ζ b ω ∂P = if a = b then 1 else 0 := by
  have : Nonempty (Fin (2 * n) × Fin n) := ⟨a⟩
  have := h.prob
  have hc := h.cov a b
  rw [covariance_eq_sub (h.memLp a) (h.memLp b), h.mean, h.mean, mul_zero, sub_zero] at hc
  exact hc

/-- The mean of the matrix is the identity divided by the dimension. -/
theorem random_cov_mean (h : StdNormal P ζ) (i j : Fin n) :
    ∫ ω, randomCov (scaledDraws ζ ω) i j ∂P = if i = j then 1 / (n : ℝ) else 0 := by
  have hn : 0 < n := Fin.pos i
  have e : ∀ ω, randomCov (scaledDraws ζ ω) i j = ∑ k, (Real.sqrt 2 / (2 * n)) ^ 2 * (ζ (k, i) ω * ζ (k, j) ω) := fun ω => by
    rw [randomCov_apply]
    refine Finset.sum_congr rfl fun k _ => ?_
    unfold scaledDraws
    ring
  simp only [e]
  have hi : ∀ k : Fin (2 * n), Integrable (fun ω => (Real.sqrt 2 / (2 * n)) ^ 2 * (ζ (k, i) ω * ζ (k, j) ω)) P := fun k =>
    ((h.memLp (k, i)).integrable_mul (h.memLp (k, j))).const_mul _
  rw [integral_finsetSum _ fun k _ => hi k]
  simp only [integral_const_mul, prod_mean h, Prod.mk.injEq, true_and]
  rw [Finset.sum_const, Finset.card_univ, Fintype.card_fin, nsmul_eq_mul, scale_sq hn]
  have : (n : ℝ) ≠ 0 := by exact_mod_cast hn.ne'
  split
  · push_cast
    field_simp
  · simp

omit [MeasurableSpace Ω] in
theorem trace_eq (ω : Ω) : (randomCov (scaledDraws ζ ω)).trace = (Real.sqrt 2 / (2 * n)) ^ 2 * ∑ a, ζ a ω ^ 2 := by
  unfold Matrix.trace
  simp only [Matrix.diag_apply, randomCov_apply]
  rw [Finset.sum_comm, Fintype.sum_prod_type, Finset.mul_sum]
  refine Finset.sum_congr rfl fun k _ => ?_
  rw [Finset.mul_sum]
  refine Finset.sum_congr rfl fun i _ => ?_
  unfold scaledDraws
  ring

theorem sq_memLp (h : StdNormal P ζ) (a : Fin (2 * n) × Fin n) : MemLp (fun ω => ζ a ω ^ 2) 2 P := by
  have h4 : MemLp (ζ a) 4 P := by
    have := memLp_id_gaussianReal (μ := 0) (v := 1) 4
    rw [← (h.law a).map_eq] at this
    exact this.comp_of_map (h.law a).aemeasurable
  have hm : AEStronglyMeasurable (fun ω => ζ a ω ^ 2) P := h4.aestronglyMeasurable.pow 2
  rw [memLp_two_iff_integrable_sq hm]
  refine (h4.integrable_norm_pow (p := 4) (by norm_num)).congr (ae_of_all _ fun ω => ?_)
  show ‖ζ a ω‖ ^ 4 = (ζ a ω ^ 2) ^ 2
  rw [Real.norm_eq_abs, ← pow_mul, show 4 = 2 * 2 by norm_num, pow_mul, sq_abs, pow_mul]

theorem sq_variance (h : StdNormal P ζ) (a : Fin (2 * n) × Fin n) : Var[fun ω => ζ a ω ^ 2; P] = 2 := by
  have : Nonempty (Fin (2 * n) × Fin n) := ⟨a⟩
  have := h.prob
  rw [variance_eq_sub (sq_memLp h a)]
  have e1 : ∫ ω, ζ a ω ^ 2 ∂P = 1 := by
    have := prod_mean h a a
    simpa [pow_two] using this
  have e2 : ∫ ω, ((fun ω => ζ a ω ^ 2) ^ 2) ω ∂P = 3 := by
    rw [← gauss_fourth, ← (h.law a).integral_comp (f := fun x : ℝ => x ^ 4) (Continuous.aestronglyMeasurable (by fun_prop))]
    refine integral_congr_ae (ae_of_all _ fun ω => ?_)
    simp only [Pi.pow_apply, Function.comp_apply]
    ring
  rw [e1, e2]
  norm_num

/-- The sum of the variances has mean `1` and variance `1 / dim ^ 2`. -/
theorem random_cov_trace (h : StdNormal P ζ) (hn : 0 < n) :
    ∫ ω, (randomCov (scaledDraws ζ ω)).trace ∂P = 1 ∧ Var[fun ω => (randomCov (scaledDraws ζ ω)).trace; P] = 1 / (n : ℝ) ^ 2 := by
  have hn' : (n : ℝ) ≠ 0 := by exact_mod_cast hn.ne'
  have : Nonempty (Fin (2 * n) × Fin n) := ⟨⟨0, by omega⟩, ⟨0, hn⟩⟩
  have := h.prob
  constructor
  · unfold Matrix.trace
    simp only [Matrix.diag_apply]
    rw [integral_finsetSum]
    · simp only [random_cov_mean h, if_true]
      rw [Finset.sum_const, Finset.card_univ, Fintype.card_fin, nsmul_eq_mul]
      field_simp
    · intro i _
      simp only [randomCov_apply, scaledDraws]
      refine integrable_finsetSum _ fun k _ => ?_
      exact (((h.memLp (k, i)).const_mul _).integrable_mul ((h.memLp (k, i)).const_mul _))
  · simp only [trace_eq]
    rw [variance_const_mul]
    have hv : Var[fun ω => ∑ a, ζ a ω ^ 2; P] = ∑ a, Var[fun ω => ζ a ω ^ 2; P] := by
      have := IndepFun.variance_sum (X := fun a ω => ζ a ω ^ 2) (s := Finset.univ) (μ := P) (fun a _ => sq_memLp h a)
        (fun a _ b _ hab => (h.indep.indepFun hab).comp (φ := fun x : ℝ => x ^ 2) (ψ := fun x : ℝ => x ^ 2) (by fun_prop) (by fun_prop))
      rw [← this]
      congr 1
      funext ω
      simp
    rw [hv]
    simp only [sq_variance h]
    rw [Finset.sum_const, Finset.card_univ, Fintype.card_prod, Fintype.card_fin, Fintype.card_fin, nsmul_eq_mul, scale_sq hn]
    push_cast
    field_simp

/-- The sum of the variances is near `1`, the more so the larger the dimension. -/
theorem random_cov_trace_near (h : StdNormal P ζ) (hn : 0 < n) {ε : ℝ} (hε : 0 < ε) :
    P {ω | ε ≤ |(randomCov (scaledDraws ζ ω)).trace - 1|} ≤ ENNReal.ofReal (1 / ((n : ℝ) ^ 2 * ε ^ 2)) := by
  have : Nonempty (Fin (2 * n) × Fin n) := ⟨⟨0, by omega⟩, ⟨0, hn⟩⟩
  have := h.prob
  obtain ⟨h1, h2⟩ := random_cov_trace h hn
  have hm : MemLp (fun ω => (randomCov (scaledDraws ζ ω)).trace) 2 P := by
    simp only [trace_eq]
    exact (memLp_finsetSum _ fun a _ => sq_memLp h a).const_mul _
  have := meas_ge_le_variance_div_sq hm hε
  rw [h1, h2] at this
  rwa [div_div] at this

/-- A matrix from its list of entries. -/
def grid {m n : Nat} (y : Fin m × Fin n → ℝ) : Matrix (Fin m) (Fin n) ℝ := fun i j => y (i, j)

/-- The matrix is almost surely strictly positive definite. -/
theorem random_cov_strict (h : StdNormal P ζ) : ∀ᵐ ω ∂P, StrictPos (randomCov (scaledDraws ζ ω)) := by
  rcases Nat.eq_zero_or_pos n with hn | hn
  · subst hn
    refine ae_of_all _ fun ω => ⟨(random_cov_valid _).symm, fun v hv => absurd (funext fun i => i.elim0) hv⟩
  have := nullSingletonClass_gaussianReal (μ := 0) (v := 1) one_ne_zero
  let M : Matrix (Fin (2 * n)) (Fin n) (MvPolynomial (Fin (2 * n) × Fin n) ℝ) := fun i j => MvPolynomial.X (i, j)
  have hev : ∀ y : Fin (2 * n) × Fin n → ℝ, MvPolynomial.eval y (M.transpose * M).det = ((grid y).transpose * grid y).det := by
    intro y
    rw [RingHom.map_det]
    congr 1
    ext i j
    rw [RingHom.mapMatrix_apply, Matrix.map_apply, Matrix.mul_apply, Matrix.mul_apply, map_sum]
    refine Finset.sum_congr rfl fun k _ => ?_
    rw [map_mul, show M.transpose i k = MvPolynomial.X (k, i) from rfl, show M k j = MvPolynomial.X (k, j) from rfl,
      MvPolynomial.eval_X, MvPolynomial.eval_X]
    rfl
  have hae := Stat.indep_ae_ne (ξ := ζ) (fun a => h.law a) h.indep (M.transpose * M).det
    (y := fun a => if (a.1 : Nat) = a.2 then 1 else 0) (by
      rw [hev]
      have : ((grid fun a : Fin (2 * n) × Fin n => if (a.1 : Nat) = a.2 then (1 : ℝ) else 0).transpose *
          grid fun a : Fin (2 * n) × Fin n => if (a.1 : Nat) = a.2 then (1 : ℝ) else 0) = 1 := by
        ext i j
        rw [Matrix.mul_apply, Finset.sum_eq_single (⟨i, by omega⟩ : Fin (2 * n))]
        · simp [Matrix.transpose_apply, Matrix.one_apply, Fin.ext_iff, grid]
        · intro b _ hb
          rw [Matrix.transpose_apply, show grid _ b i = if (b : Nat) = i then (1 : ℝ) else 0 from rfl, if_neg, zero_mul]
          intro e
          exact hb (Fin.ext e)
        · simp
      rw [this, Matrix.det_one]
      exact one_ne_zero)
  filter_upwards [hae] with ω hω
  rw [hev] at hω
  refine ⟨(random_cov_valid _).symm, fun v hv => ?_⟩
  have hs : (0 : ℝ) < Real.sqrt 2 / (2 * n) := by
    have : (0 : ℝ) < n := by exact_mod_cast hn
    positivity
  refine lt_of_le_of_ne ((random_cov_valid _).psd v) fun h0 => hv ?_
  unfold randomCov at h0
  rw [← Matrix.mulVec_mulVec, Matrix.dotProduct_mulVec, Matrix.vecMul_transpose, eq_comm, dotProduct_self_eq_zero] at h0
  refine Matrix.eq_zero_of_mulVec_eq_zero hω ?_
  rw [← Matrix.mulVec_mulVec]
  have h1 : (grid fun a => ζ a ω).mulVec v = 0 := by
    funext k
    have := congrFun h0 k
    simp only [Matrix.mulVec, dotProduct, scaledDraws, mul_assoc, Pi.zero_apply, grid] at this ⊢
    rw [← Finset.mul_sum] at this
    exact (mul_eq_zero.mp this).resolve_left hs.ne'
  rw [h1, Matrix.mulVec_zero]

/-- Conversion to correlations keeps that. -/
theorem cov_to_cor_strict {cov : Mat n} (h : StrictPos cov) {reg : ℝ} (hr : 0 < reg) : StrictPos (covToCor cov reg).1 := by
  have hc : IsCov cov := ⟨h.1, fun v => by
    rcases eq_or_ne v 0 with e | e
    · rw [e]; simp
    · exact (h.2 v e).le⟩
  refine ⟨(cov_to_cor_valid hc hr).1.symm, fun x hx => ?_⟩
  have := h.2 (fun i => x i / covStd cov reg i) fun e => hx (funext fun i => by
    have := congrFun e i
    exact (div_eq_zero_iff.mp this).resolve_right (covStd_pos cov hr i).ne')
  rw [quad_eq] at this ⊢
  refine this.trans_eq (Finset.sum_congr rfl fun i _ => Finset.sum_congr rfl fun j _ => ?_)
  have e : (covToCor cov reg).1 i j = cov i j / (covStd cov reg i * covStd cov reg j) := clip1_of_abs (cov_ratio_abs hc hr i j)
  rw [e]
  have h1 := (covStd_pos cov hr i).ne'
  have h2 := (covStd_pos cov hr j).ne'
  field_simp

/-- A random correlation matrix is almost surely strictly positive definite. -/
theorem random_cor_strict (h : StdNormal P ζ) : ∀ᵐ ω ∂P, StrictPos (randomCor (scaledDraws ζ ω)) := by
  filter_upwards [random_cov_strict h] with ω hω
  exact cov_to_cor_strict hω (by unfold covReg; norm_num)

/-- But with positive probability it is no correlation matrix: its diagonal is below one. -/
theorem random_cor_small_diag (h : StdNormal P ζ) (hn : 0 < n) :
    0 < P {ω | ∀ i, randomCor (scaledDraws ζ ω) i i < 1} := by
  have hne : Nonempty (Fin (2 * n) × Fin n) := ⟨⟨0, by omega⟩, ⟨0, hn⟩⟩
  have := h.prob
  have hn' : (0 : ℝ) < n := by exact_mod_cast hn
  have hr : 0 < covReg := by unfold covReg; norm_num
  obtain ⟨δ, hδ, hδ2⟩ : ∃ δ : ℝ, 0 < δ ∧ δ ^ 2 < covReg * n := ⟨Real.sqrt (covReg * n / 2), by positivity, by
    rw [Real.sq_sqrt (by positivity)]
    have : 0 < covReg * n := by positivity
    linarith⟩
  have h1 : P (⋂ a ∈ Finset.univ, ζ a ⁻¹' Set.Ioo (-δ) δ) = ∏ a, P (ζ a ⁻¹' Set.Ioo (-δ) δ) :=
    h.indep.measure_inter_preimage_eq_mul Finset.univ fun a _ => measurableSet_Ioo
  have h2 : ∀ a, 0 < P (ζ a ⁻¹' Set.Ioo (-δ) δ) := fun a => by
    rw [← Measure.map_apply_of_aemeasurable (h.law a).aemeasurable measurableSet_Ioo, (h.law a).map_eq]
    refine pos_iff_ne_zero.mpr fun h0 => ?_
    have := gaussianReal_absolutelyContinuous' 0 one_ne_zero h0
    rw [Real.volume_Ioo, ENNReal.ofReal_eq_zero] at this
    linarith
  have h3 : 0 < P (⋂ a ∈ Finset.univ, ζ a ⁻¹' Set.Ioo (-δ) δ) := by
    rw [h1]
    exact CanonicallyOrderedAdd.prod_pos.mpr fun a _ => h2 a
  refine h3.trans_le (measure_mono fun ω hω => ?_)
  rw [Set.mem_ofPred_eq]
  intro i
  have hd : randomCov (scaledDraws ζ ω) i i < covReg := by
    rw [randomCov_apply]
    have e : ∀ k, scaledDraws ζ ω k i * scaledDraws ζ ω k i ≤ 1 / (2 * (n : ℝ) ^ 2) * δ ^ 2 := fun k => by
      have hb : ζ (k, i) ω ∈ Set.Ioo (-δ) δ := by
        have := Set.mem_iInter₂.mp hω (k, i) (Finset.mem_univ _)
        exact this
      have : scaledDraws ζ ω k i * scaledDraws ζ ω k i = (Real.sqrt 2 / (2 * n)) ^ 2 * ζ (k, i) ω ^ 2 := by unfold scaledDraws; ring
      rw [this, scale_sq hn]
      exact mul_le_mul_of_nonneg_left (sq_le_sq' hb.1.le hb.2.le) (by positivity)
    refine (Finset.sum_le_sum fun k _ => e k).trans_lt ?_
    rw [Finset.sum_const, Finset.card_univ, Fintype.card_fin, nsmul_eq_mul]
    push_cast
    rw [show 2 * (n : ℝ) * (1 / (2 * (n : ℝ) ^ 2) * δ ^ 2) = δ ^ 2 / n by field_simp, div_lt_iff₀ hn']
    exact hδ2
  unfold randomCor
  rw [(cov_to_cor_valid (random_cov_valid _) hr).2.2, max_eq_right hd.le, div_lt_one hr]
  exact hd

/-- There are such draws for every dimension. -/
theorem random_draws_exist (n : Nat) : ∃ (Ω : Type) (_ : MeasurableSpace Ω) (P : Measure Ω) (ζ : Fin (2 * n) × Fin n → Ω → ℝ), StdNormal P ζ := by
  obtain ⟨Ω, mΩ, P, Z, h0, h1, h2, h3⟩ := exists_iid (Fin (2 * n) × Fin n) (gaussianReal 0 1)
  exact ⟨Ω, mΩ, P, Z, h1, h2⟩

/-- In dimension `100` the sum of the variances is between `0.9` and `1.1` with probability at least `0.99`. -/
example : ∃ (Ω : Type) (_ : MeasurableSpace Ω) (P : Measure Ω) (ζ : Fin (2 * 100) × Fin 100 → Ω → ℝ), StdNormal P ζ ∧
    P {ω | 1 / 10 ≤ |(randomCov (scaledDraws ζ ω)).trace - 1|} ≤ ENNReal.ofReal (1 / 100) := by
  obtain ⟨Ω, mΩ, P, ζ, h⟩ := random_draws_exist 100
  refine ⟨Ω, mΩ, P, ζ, h, ?_⟩
  have := random_cov_trace_near h (by norm_num) (ε := 1 / 10) (by norm_num)
  norm_num at this ⊢
  exact this

end Verif.Cov
