import Verif.Model.MatDiv
import Verif.Lemmas.Sim
import Mathlib.Analysis.Matrix.PosDef
import Mathlib.LinearAlgebra.Lagrange
import Mathlib.LinearAlgebra.Matrix.Notation
import Mathlib.Algebra.Order.Star.Real
import Mathlib.Analysis.Complex.ExponentialBounds
import Mathlib.Tactic.FinCases

/-!
# C48: divergences of positive definite matrices
-/

namespace Verif.MatDiv

open Matrix

variable {n : Nat}

/-! ### The check -/

theorem conj_mem_eigvals {M : Matrix (Fin n) (Fin n) ℝ} {z : ℂ} (hz : z ∈ eigvals M) :
    (starRingEnd ℂ) z ∈ eigvals M := by
  unfold eigvals at *
  rw [Matrix.charpoly_map] at *
  have hne : M.charpoly.map (algebraMap ℝ ℂ) ≠ 0 := (M.charpoly_monic.map _).ne_zero
  rw [Polynomial.mem_roots hne, Polynomial.IsRoot.def, Polynomial.eval_map] at *
  have := congrArg (starRingEnd ℂ) hz
  rw [map_zero, Polynomial.hom_eval₂] at this
  have e : (starRingEnd ℂ).comp (algebraMap ℝ ℂ) = algebraMap ℝ ℂ := by
    ext r; simp
  rwa [e] at this

/-- C48. The check of the code: all eigenvalues have a positive real part. Symmetry is not checked. -/
theorem check_iff (M : Matrix (Fin n) (Fin n) ℝ) : allPositive (eigvals M) ↔ ∀ z ∈ eigvals M, 0 < z.re := by
  constructor
  · intro h z hz
    rcases h z hz with h1 | ⟨h1, h2⟩
    · exact h1
    · rcases h _ (conj_mem_eigvals hz) with h3 | ⟨-, h3⟩
      · simpa using h3
      · rw [Complex.conj_im] at h3; linarith
  · exact fun h z hz => .inl (h z hz)

theorem check_det {M : Matrix (Fin n) (Fin n) ℝ} (h : allPositive (eigvals M)) : M.det ≠ 0 := by
  intro h0
  have e : (M.map (algebraMap ℝ ℂ)).det = 0 := by
    have := RingHom.map_det (algebraMap ℝ ℂ) M
    rw [RingHom.mapMatrix_apply, h0, map_zero] at this
    exact this.symm
  rw [Matrix.det_eq_prod_roots_charpoly, Multiset.prod_eq_zero_iff] at e
  have := (check_iff M).mp h 0 e
  simp at this

theorem eigvals_of_isHermitian {M : Matrix (Fin n) (Fin n) ℝ} (h : M.IsHermitian) :
    ∀ z ∈ eigvals M, ∃ i, z = (h.eigenvalues i : ℂ) := by
  intro z hz
  unfold eigvals at hz
  rw [Matrix.charpoly_map, h.charpoly_eq, Polynomial.map_prod] at hz
  simp only [Polynomial.map_sub, Polynomial.map_X, Polynomial.map_C] at hz
  have hz' := Polynomial.isRoot_of_mem_roots hz
  rw [Polynomial.IsRoot.def, Polynomial.eval_prod, Finset.prod_eq_zero_iff] at hz'
  obtain ⟨i, -, hi⟩ := hz'
  rw [Polynomial.eval_sub, Polynomial.eval_X, Polynomial.eval_C, sub_eq_zero] at hi
  exact ⟨i, by rw [hi]; rfl⟩

/-- C48. Positive definite (symmetric) matrices pass the check. -/
theorem posDef_passes {M : Matrix (Fin n) (Fin n) ℝ} (h : M.PosDef) : allPositive (eigvals M) := by
  rw [check_iff]
  intro z hz
  obtain ⟨i, rfl⟩ := eigvals_of_isHermitian h.1 z hz
  rw [Complex.ofReal_re]
  exact h.eigenvalues_pos i

/-- C48. A symmetric matrix that passes the check is positive definite. -/
theorem passes_posDef {M : Matrix (Fin n) (Fin n) ℝ} (hs : M.IsHermitian) (h : allPositive (eigvals M)) : M.PosDef := by
  rw [hs.posDef_iff_eigenvalues_pos]
  intro i
  rw [check_iff] at h
  have : (hs.eigenvalues i : ℂ) ∈ eigvals M := by
    unfold eigvals
    rw [Matrix.charpoly_map]
    rw [Polynomial.mem_roots (M.charpoly_monic.map _).ne_zero, hs.charpoly_eq, Polynomial.map_prod, Polynomial.IsRoot.def,
      Polynomial.eval_prod]
    apply Finset.prod_eq_zero (Finset.mem_univ i)
    simp
  simpa using h _ this

/-- The order of the checks, for a function of two matrices of the same size. -/
theorem divergence_cases (p q : MatArg) (f : (n : Nat) → Matrix (Fin n) (Fin n) ℝ → Matrix (Fin n) (Fin n) ℝ → ℝ) :
    (p = .other → (do assertPositiveDefinite p q; withSizes p q f) = .error .linAlgError) ∧
    (∀ n P, p = .square n P → ¬ allPositive (eigvals P) →
      (do assertPositiveDefinite p q; withSizes p q f) = .error .assertionError) ∧
    (∀ n P, p = .square n P → allPositive (eigvals P) →
      (q = .other → (do assertPositiveDefinite p q; withSizes p q f) = .error .linAlgError) ∧
      (∀ m Q, q = .square m Q → ¬ allPositive (eigvals Q) →
        (do assertPositiveDefinite p q; withSizes p q f) = .error .assertionError) ∧
      (∀ m Q, q = .square m Q → allPositive (eigvals Q) → n ≠ m →
        (do assertPositiveDefinite p q; withSizes p q f) = .error .valueError) ∧
      ∀ Q, q = .square n Q → allPositive (eigvals Q) →
        (do assertPositiveDefinite p q; withSizes p q f) = .ok (f n P Q)) := by
  refine ⟨?_, ?_, ?_⟩
  · rintro rfl; rfl
  · rintro n P rfl h
    unfold assertPositiveDefinite
    dsimp only
    rw [if_neg h]; rfl
  · rintro n P rfl h
    refine ⟨?_, ?_, ?_, ?_⟩
    · rintro rfl
      unfold assertPositiveDefinite
      dsimp only
      rw [if_pos h]; rfl
    · rintro m Q rfl h'
      unfold assertPositiveDefinite
      dsimp only
      rw [if_pos h]
      rw [if_neg h']; rfl
    · rintro m Q rfl h' hne
      unfold assertPositiveDefinite withSizes
      dsimp only
      rw [if_pos h]
      rw [if_pos h', dif_neg hne]; rfl
    · rintro Q rfl h'
      unfold assertPositiveDefinite withSizes
      dsimp only
      rw [if_pos h]
      rw [if_pos h', dif_pos rfl]; rfl

/-- C48. When `log_det_divergence` returns and how it fails: the first argument is checked before the second one; two
acceptable matrices of different sizes fail with `ValueError`. -/
theorem logDet_cases :
    (∀ q, logDetDivergence .other q = .error .linAlgError) ∧
    (∀ n P q, ¬ allPositive (eigvals P) → logDetDivergence (.square n P) q = .error .assertionError) ∧
    (∀ n P, allPositive (eigvals P) →
      logDetDivergence (.square n P) .other = .error .linAlgError ∧
      (∀ m Q, ¬ allPositive (eigvals Q) → logDetDivergence (.square n P) (.square m Q) = .error .assertionError) ∧
      (∀ m Q, allPositive (eigvals Q) → n ≠ m → logDetDivergence (.square n P) (.square m Q) = .error .valueError) ∧
      ∀ Q, allPositive (eigvals Q) → ∃ r, logDetDivergence (.square n P) (.square n Q) = .ok r) := by
  refine ⟨fun q => (divergence_cases _ q _).1 rfl, fun n P q h => (divergence_cases _ q _).2.1 n P rfl h, fun n P h => ⟨?_, ?_, ?_, ?_⟩⟩
  · exact ((divergence_cases _ _ _).2.2 n P rfl h).1 rfl
  · exact fun m Q h' => ((divergence_cases _ _ _).2.2 n P rfl h).2.1 m Q rfl h'
  · exact fun m Q h' hne => ((divergence_cases _ _ _).2.2 n P rfl h).2.2.1 m Q rfl h' hne
  · exact fun Q h' => ⟨_, ((divergence_cases _ _ _).2.2 n P rfl h).2.2.2 Q rfl h'⟩

theorem logDet_eq {P Q : Matrix (Fin n) (Fin n) ℝ} (hP : allPositive (eigvals P)) (hQ : allPositive (eigvals Q)) :
    logDetDivergence (.square n P) (.square n Q) =
      .ok ((P * Q⁻¹).trace - Real.log |(P * Q⁻¹).det| - n) :=
  (((divergence_cases _ _ _).2.2 n P rfl hP).2.2.2 Q rfl hQ)

/-! ### Log-determinant divergence -/

/-- A positive definite matrix is a product `Bᵀ B` with an invertible `B`. -/
theorem posDef_factor {M : Matrix (Fin n) (Fin n) ℝ} (h : M.PosDef) : ∃ B : Matrix (Fin n) (Fin n) ℝ, M = Bᵀ * B ∧ IsUnit B := by
  set U := (h.1.eigenvectorUnitary : Matrix (Fin n) (Fin n) ℝ) with hU
  set d := h.1.eigenvalues with hd
  have hspec : M = U * diagonal d * Uᵀ := by
    have := h.1.spectral_theorem
    rw [Unitary.conjStarAlgAut_apply] at this
    rw [this]
    rfl
  refine ⟨(diagonal fun i => Real.sqrt (d i)) * Uᵀ, ?_, ?_⟩
  · rw [transpose_mul, transpose_transpose, diagonal_transpose, hspec]
    rw [Matrix.mul_assoc U (diagonal fun i => Real.sqrt (d i)), ← Matrix.mul_assoc _ _ Uᵀ, diagonal_mul_diagonal, ← Matrix.mul_assoc]
    congr 3
    funext i
    exact (Real.mul_self_sqrt (h.eigenvalues_pos i).le).symm
  · have hdet : M.det ≠ 0 := h.det_pos.ne'
    rw [Matrix.isUnit_iff_isUnit_det, isUnit_iff_ne_zero]
    intro h0
    apply hdet
    have e : M = ((diagonal fun i => Real.sqrt (d i)) * Uᵀ)ᵀ * ((diagonal fun i => Real.sqrt (d i)) * Uᵀ) := by
      rw [transpose_mul, transpose_transpose, diagonal_transpose, hspec]
      rw [Matrix.mul_assoc U (diagonal fun i => Real.sqrt (d i)), ← Matrix.mul_assoc _ _ Uᵀ, diagonal_mul_diagonal, ← Matrix.mul_assoc]
      congr 3
      funext i
      exact (Real.mul_self_sqrt (h.eigenvalues_pos i).le).symm
    rw [e, det_mul, h0, mul_zero]

/-- The divergence from the identity. -/
theorem logDet_one {M : Matrix (Fin n) (Fin n) ℝ} (h : M.PosDef) :
    0 ≤ M.trace - Real.log |M.det| - n ∧ (M.trace - Real.log |M.det| - n = 0 ↔ M = 1) := by
  have ht : M.trace = ∑ i, h.1.eigenvalues i := by
    have := h.1.trace_eq_sum_eigenvalues
    simpa using this
  have hd : M.det = ∏ i, h.1.eigenvalues i := by
    have := h.1.det_eq_prod_eigenvalues
    simpa using this
  have hp := h.eigenvalues_pos
  have e : M.trace - Real.log |M.det| - n = ∑ i, (h.1.eigenvalues i - 1 - Real.log (h.1.eigenvalues i)) := by
    rw [ht, hd, abs_of_pos (Finset.prod_pos fun i _ => hp i), Real.log_prod (fun i _ => (hp i).ne'),
      Finset.sum_sub_distrib, Finset.sum_sub_distrib]
    simp
    ring
  have hnn : ∀ i ∈ Finset.univ, 0 ≤ h.1.eigenvalues i - 1 - Real.log (h.1.eigenvalues i) := fun i _ => by
    have := Real.log_le_sub_one_of_pos (hp i)
    linarith
  rw [e]
  refine ⟨Finset.sum_nonneg hnn, ?_⟩
  rw [Finset.sum_eq_zero_iff_of_nonneg hnn]
  constructor
  · intro h0
    have h1 : h.1.eigenvalues = fun _ => 1 := by
      funext i
      by_contra hne
      have := Real.log_lt_sub_one_of_pos (hp i) hne
      have := h0 i (Finset.mem_univ i)
      linarith
    have := h.1.spectral_theorem
    rw [Unitary.conjStarAlgAut_apply, h1] at this
    rw [this]
    have hdg : diagonal ((RCLike.ofReal : ℝ → ℝ) ∘ fun _ : Fin n => (1 : ℝ)) = 1 := by
      rw [← diagonal_one]; rfl
    rw [hdg, mul_one]
    exact Unitary.mul_star_self_of_mem h.1.eigenvectorUnitary.2
  · rintro rfl i -
    have hi : h.1.eigenvalues i = 1 := by
      have hm : (h.1.eigenvalues i) ∈ spectrum ℝ (1 : Matrix (Fin n) (Fin n) ℝ) := by
        rw [h.1.spectrum_real_eq_range_eigenvalues]
        exact ⟨i, rfl⟩
      by_contra hne
      apply hm
      have : algebraMap ℝ (Matrix (Fin n) (Fin n) ℝ) (h.1.eigenvalues i) - 1 = (h.1.eigenvalues i - 1) • 1 := by
        rw [Algebra.algebraMap_eq_smul_one, sub_smul, one_smul]
      show IsUnit _
      rw [this]
      exact (isUnit_one).smul (Units.mk0 _ (sub_ne_zero.mpr hne))
    rw [hi]; simp

/-- C48. For positive definite matrices the log-determinant divergence is not negative, and zero exactly for equal
matrices. -/
theorem logDet_nonneg {P Q : Matrix (Fin n) (Fin n) ℝ} (hP : P.PosDef) (hQ : Q.PosDef) :
    ∃ r, logDetDivergence (.square n P) (.square n Q) = .ok r ∧ 0 ≤ r ∧ (r = 0 ↔ P = Q) := by
  refine ⟨_, logDet_eq (posDef_passes hP) (posDef_passes hQ), ?_⟩
  obtain ⟨B, hB, hu⟩ := posDef_factor hQ.inv
  have hdB := (Matrix.isUnit_iff_isUnit_det B).mp hu
  have hM : (B * P * Bᵀ).PosDef := by
    have := hP.mul_mul_conjTranspose_same (B := B) (by
      have hinj := Matrix.vecMul_injective_of_isUnit hu
      exact hinj)
    simpa [conjTranspose_eq_transpose_of_trivial] using this
  have htr : (P * Q⁻¹).trace = (B * P * Bᵀ).trace := by
    rw [hB, ← Matrix.mul_assoc, Matrix.trace_mul_comm, ← Matrix.mul_assoc]
  have hdet : (P * Q⁻¹).det = (B * P * Bᵀ).det := by
    rw [hB, det_mul, det_mul, det_mul, det_mul]; ring
  rw [htr, hdet]
  obtain ⟨h1, h2⟩ := logDet_one hM
  refine ⟨h1, h2.trans ?_⟩
  have hQB : Q = B⁻¹ * (Bᵀ)⁻¹ := by
    have : Q = (Q⁻¹)⁻¹ := (Matrix.nonsing_inv_nonsing_inv Q (isUnit_iff_ne_zero.mpr hQ.det_pos.ne')).symm
    rw [this, hB, Matrix.mul_inv_rev]
  have hdBt : IsUnit (Bᵀ).det := by rwa [det_transpose]
  constructor
  · intro h
    rw [hQB]
    calc P = B⁻¹ * (B * P * Bᵀ) * (Bᵀ)⁻¹ := by
          rw [Matrix.mul_assoc B P, ← Matrix.mul_assoc B⁻¹, Matrix.nonsing_inv_mul _ hdB, Matrix.one_mul, Matrix.mul_assoc,
            Matrix.mul_nonsing_inv _ hdBt, Matrix.mul_one]
      _ = _ := by rw [h, Matrix.mul_one]
  · rintro rfl
    rw [hQB, ← Matrix.mul_assoc, Matrix.mul_nonsing_inv _ hdB, Matrix.one_mul, Matrix.nonsing_inv_mul _ hdBt]

/-- C48. The log-determinant divergence does not change under a common change of coordinates, and inverting the matrices
exchanges its arguments. -/
theorem logDet_invariance {P Q : Matrix (Fin n) (Fin n) ℝ} (hP : P.PosDef) (hQ : Q.PosDef) :
    (∀ A : Matrix (Fin n) (Fin n) ℝ, IsUnit A →
      logDetDivergence (.square n (A * P * Aᵀ)) (.square n (A * Q * Aᵀ)) = logDetDivergence (.square n P) (.square n Q)) ∧
    logDetDivergence (.square n Q⁻¹) (.square n P⁻¹) = logDetDivergence (.square n P) (.square n Q) := by
  have hdP : IsUnit P.det := isUnit_iff_ne_zero.mpr hP.det_pos.ne'
  rw [logDet_eq (posDef_passes hP) (posDef_passes hQ)]
  constructor
  · intro A hA
    have hdA := (Matrix.isUnit_iff_isUnit_det A).mp hA
    have hdAt : IsUnit (Aᵀ).det := by rwa [det_transpose]
    have hc : ∀ {M : Matrix (Fin n) (Fin n) ℝ}, M.PosDef → (A * M * Aᵀ).PosDef := by
      intro M hM
      have := hM.mul_mul_conjTranspose_same (B := A) (Matrix.vecMul_injective_of_isUnit hA)
      simpa [conjTranspose_eq_transpose_of_trivial] using this
    rw [logDet_eq (posDef_passes (hc hP)) (posDef_passes (hc hQ))]
    have e : A * P * Aᵀ * (A * Q * Aᵀ)⁻¹ = A * (P * Q⁻¹) * A⁻¹ := by
      rw [Matrix.mul_inv_rev, Matrix.mul_inv_rev]
      rw [Matrix.mul_assoc (A * P), ← Matrix.mul_assoc (Aᵀ), Matrix.mul_nonsing_inv _ hdAt, Matrix.one_mul,
        ← Matrix.mul_assoc, Matrix.mul_assoc A]
    have et : (A * P * Aᵀ * (A * Q * Aᵀ)⁻¹).trace = (P * Q⁻¹).trace := by
      rw [e, Matrix.trace_mul_comm, ← Matrix.mul_assoc, Matrix.nonsing_inv_mul _ hdA, Matrix.one_mul]
    have ed : (A * P * Aᵀ * (A * Q * Aᵀ)⁻¹).det = (P * Q⁻¹).det := by
      rw [e, det_mul, det_mul, mul_comm, ← mul_assoc, ← det_mul, Matrix.nonsing_inv_mul _ hdA, det_one, one_mul]
    rw [et, ed]
  · rw [logDet_eq (posDef_passes hQ.inv) (posDef_passes hP.inv), Matrix.nonsing_inv_nonsing_inv _ hdP,
      Matrix.trace_mul_comm, Matrix.det_mul_comm]

/-- C48 is false for matrices that are not symmetric, although they pass the check: here both matrices have only the
eigenvalue 1 and the divergence is `-c²`. -/
theorem logDet_negative (c : ℝ) :
    logDetDivergence (.square 2 !![1, 0; -c, 1]) (.square 2 !![1, -c; 0, 1]) = .ok (-c ^ 2) := by
  have hcp : ∀ M : Matrix (Fin 2) (Fin 2) ℝ, M.trace = 2 → M.det = 1 → allPositive (eigvals M) := by
    intro M ht hd
    rw [check_iff]
    intro z hz
    unfold eigvals at hz
    rw [Matrix.charpoly_map] at hz
    have hr := Polynomial.isRoot_of_mem_roots hz
    rw [Matrix.charpoly_fin_two, ht, hd, Polynomial.IsRoot.def] at hr
    simp only [Polynomial.map_add, Polynomial.map_sub, Polynomial.map_pow, Polynomial.map_X, Polynomial.map_mul,
      Polynomial.map_C, Polynomial.eval_add, Polynomial.eval_sub, Polynomial.eval_pow, Polynomial.eval_X,
      Polynomial.eval_mul, Polynomial.eval_C, map_one, map_ofNat, Polynomial.map_one, Polynomial.eval_one, Polynomial.map_ofNat, Polynomial.eval_ofNat] at hr
    have h1 : (z - 1) ^ 2 = 0 := by linear_combination hr
    have h2 : z = 1 := sub_eq_zero.mp ((pow_eq_zero_iff two_ne_zero).mp h1)
    rw [h2]; simp
  have hinv : (!![1, -c; 0, 1] : Matrix (Fin 2) (Fin 2) ℝ)⁻¹ = !![1, c; 0, 1] := by
    apply Matrix.inv_eq_right_inv
    rw [Matrix.mul_fin_two, Matrix.one_fin_two]
    congr <;> ring
  rw [logDet_eq (hcp _ (by simp [Matrix.trace_fin_two]; norm_num) (by simp [Matrix.det_fin_two]))
    (hcp _ (by simp [Matrix.trace_fin_two]; norm_num) (by simp [Matrix.det_fin_two])), hinv, Matrix.mul_fin_two]
  congr 1
  rw [Matrix.trace_fin_two, Matrix.det_fin_two]
  simp
  ring

/-! ### Von Neumann divergence -/

theorem spectral {M : Matrix (Fin n) (Fin n) ℝ} (h : M.IsHermitian) :
    ∃ V : Matrix (Fin n) (Fin n) ℝ, V * Vᵀ = 1 ∧ M = V * diagonal h.eigenvalues * Vᵀ := by
  refine ⟨h.eigenvectorUnitary, Unitary.mul_star_self_of_mem h.eigenvectorUnitary.2, ?_⟩
  have := h.spectral_theorem
  rw [Unitary.conjStarAlgAut_apply] at this
  exact this

theorem aeval_conj {V : Matrix (Fin n) (Fin n) ℝ} (hV : V * Vᵀ = 1) (d : Fin n → ℝ) (f : Polynomial ℝ) :
    Polynomial.aeval (V * diagonal d * Vᵀ) f = V * (diagonal fun i => f.eval (d i)) * Vᵀ := by
  have hV' : Vᵀ * V = 1 := mul_eq_one_comm.mp hV
  induction f using Polynomial.induction_on' with
  | add f g hf hg =>
    rw [map_add, hf, hg, ← Matrix.add_mul, ← Matrix.mul_add, diagonal_add]
    simp
  | monomial k a =>
    have hpow : ∀ k : Nat, (V * diagonal d * Vᵀ) ^ k = V * (diagonal fun i => d i ^ k) * Vᵀ := by
      intro k
      induction k with
      | zero => simp [hV]
      | succ k ih =>
        rw [pow_succ, ih]
        have : V * (diagonal fun i => d i ^ k) * Vᵀ * (V * diagonal d * Vᵀ) =
            V * ((diagonal fun i => d i ^ k) * (Vᵀ * V) * diagonal d) * Vᵀ := by simp only [Matrix.mul_assoc]
        rw [this, hV', Matrix.mul_one, diagonal_mul_diagonal]
        simp only [pow_succ]
    rw [Polynomial.aeval_monomial, hpow, Algebra.algebraMap_eq_smul_one, Matrix.smul_mul, Matrix.one_mul,
      ← Matrix.smul_mul, ← Matrix.mul_smul, ← diagonal_smul]
    congr 3
    funext i
    simp

/-- C48. The assumption on `logm` can be met. -/
theorem logm_exists : ∃ logm, LogmSpec logm := by
  classical
  refine ⟨fun n M => Polynomial.aeval M (Lagrange.interpolate M.charpoly.roots.toFinset id Real.log), ?_⟩
  intro n V d hV hd
  dsimp only
  rw [aeval_conj hV]
  congr 3
  funext i
  apply Lagrange.eval_interpolate_at_node (v := id) (i := d i) Real.log (fun _ _ _ _ h => h)
  have hV' : Vᵀ * V = 1 := mul_eq_one_comm.mp hV
  rw [Multiset.mem_toFinset, Polynomial.mem_roots (Matrix.charpoly_monic _).ne_zero]
  rw [Matrix.charpoly_mul_comm, ← Matrix.mul_assoc, hV', Matrix.one_mul, Matrix.charpoly_diagonal, Polynomial.IsRoot.def,
    Polynomial.eval_prod]
  apply Finset.prod_eq_zero (Finset.mem_univ i)
  simp

theorem scalar_klein {a b : ℝ} (ha : 0 < a) (hb : 0 < b) :
    0 ≤ a * Real.log a - a * Real.log b - a + b ∧ (a * Real.log a - a * Real.log b - a + b = 0 → a = b) := by
  have e : Real.log b - Real.log a = Real.log (b / a) := (Real.log_div hb.ne' ha.ne').symm
  have e2 : a * (b / a - 1) = b - a := by field_simp
  have h := mul_le_mul_of_nonneg_left (Real.log_le_sub_one_of_pos (div_pos hb ha)) ha.le
  rw [e2, ← e] at h
  refine ⟨by linarith [mul_sub a (Real.log b) (Real.log a)], fun h0 => ?_⟩
  by_contra hne
  have h' := mul_lt_mul_of_pos_left (Real.log_lt_sub_one_of_pos (div_pos hb ha)
    (by rw [Ne, div_eq_one_iff_eq ha.ne']; exact fun h => hne h.symm)) ha
  rw [e2, ← e] at h'
  linarith [mul_sub a (Real.log b) (Real.log a)]

theorem vonNeuman_same (logm : (n : Nat) → Matrix (Fin n) (Fin n) ℝ → Matrix (Fin n) (Fin n) ℝ) {P Q : Matrix (Fin n) (Fin n) ℝ}
    (hP : allPositive (eigvals P)) (hQ : allPositive (eigvals Q)) :
    vonNeumanDivergence logm (.square n P) (.square n Q) = .ok ((P * (logm n P - logm n Q)).trace + (-P + Q).trace) := by
  unfold vonNeumanDivergence assertPositiveDefinite
  dsimp only
  rw [if_pos hP, if_pos hQ, dif_pos rfl]
  rfl

/-- C48. When `von_neuman_divergence` returns and how it fails. Unlike the log-determinant divergence it returns a number for matrices of
different sizes if the second one is `1 × 1`. -/
theorem vonNeuman_cases (logm : (n : Nat) → Matrix (Fin n) (Fin n) ℝ → Matrix (Fin n) (Fin n) ℝ) :
    (∀ q, vonNeumanDivergence logm .other q = .error .linAlgError) ∧
    (∀ n P q, ¬ allPositive (eigvals P) → vonNeumanDivergence logm (.square n P) q = .error .assertionError) ∧
    (∀ n P, allPositive (eigvals P) →
      vonNeumanDivergence logm (.square n P) .other = .error .linAlgError ∧
      (∀ m Q, ¬ allPositive (eigvals Q) → vonNeumanDivergence logm (.square n P) (.square m Q) = .error .assertionError) ∧
      (∀ m Q, allPositive (eigvals Q) → ((∃ r, vonNeumanDivergence logm (.square n P) (.square m Q) = .ok r) ↔ n = m ∨ m = 1) ∧
        (¬ (n = m ∨ m = 1) → vonNeumanDivergence logm (.square n P) (.square m Q) = .error .valueError))) := by
  unfold vonNeumanDivergence assertPositiveDefinite
  refine ⟨fun q => rfl, fun n P q h => ?_, fun n P h => ⟨?_, fun m Q h' => ?_, fun m Q h' => ⟨⟨?_, ?_⟩, fun hne => ?_⟩⟩⟩
  · dsimp only; rw [if_neg h]; rfl
  · dsimp only; rw [if_pos h]; rfl
  · dsimp only; rw [if_pos h, if_neg h']; rfl
  · rintro ⟨r, hr⟩
    by_contra hne
    rw [not_or] at hne
    dsimp only at hr
    rw [if_pos h, if_pos h', dif_neg hne.1, dif_neg hne.2] at hr
    cases hr
  · intro hor
    dsimp only
    rw [if_pos h, if_pos h']
    by_cases e : n = m
    · rw [dif_pos e]; exact ⟨_, rfl⟩
    · rw [dif_neg e, dif_pos (hor.resolve_left e)]; exact ⟨_, rfl⟩
  · rw [not_or] at hne
    dsimp only
    rw [if_pos h, if_pos h', dif_neg hne.1, dif_neg hne.2]
    rfl

/-- C48. The value for a `1 × 1` second matrix: the number is set against every entry of the first matrix. -/
theorem vonNeuman_broadcast {logm : (n : Nat) → Matrix (Fin n) (Fin n) ℝ → Matrix (Fin n) (Fin n) ℝ} (hlog : LogmSpec logm) (hn : n ≠ 1)
    {P : Matrix (Fin n) (Fin n) ℝ} (hP : allPositive (eigvals P)) {c : ℝ} (hc : 0 < c) :
    vonNeumanDivergence logm (.square n P) (.square 1 (diagonal fun _ => c)) =
      .ok ((P * logm n P).trace - Real.log c * (∑ i, ∑ j, P i j) - P.trace + n * c) := by
  have hQ : allPositive (eigvals (diagonal fun _ : Fin 1 => c)) := posDef_passes (Matrix.posDef_diagonal_iff.mpr fun _ => hc)
  have hl : logm 1 (diagonal fun _ => c) = diagonal fun _ => Real.log c := by
    have := hlog 1 1 (fun _ => c) (by simp) fun _ => hc
    simpa using this
  unfold vonNeumanDivergence assertPositiveDefinite
  dsimp only
  rw [if_pos hP, if_pos hQ, dif_neg hn, dif_pos rfl]
  refine congrArg Except.ok ?_
  rw [hl, Matrix.mul_sub, Matrix.trace_sub, Matrix.trace_add, Matrix.trace_neg]
  have e1 : (P * Matrix.of fun _ _ : Fin n => (diagonal (fun _ : Fin 1 => Real.log c) : Matrix _ _ ℝ) ⟨0, by omega⟩ ⟨0, by omega⟩).trace =
      Real.log c * ∑ i, ∑ j, P i j := by
    rw [Matrix.trace, Finset.mul_sum]
    refine Finset.sum_congr rfl fun i _ => ?_
    rw [diag_apply, Matrix.mul_apply, Finset.mul_sum]
    refine Finset.sum_congr rfl fun j _ => ?_
    rw [Matrix.of_apply, Matrix.diagonal_apply_eq, mul_comm]
  have e2 : (Matrix.of fun _ _ : Fin n => (diagonal (fun _ : Fin 1 => c) : Matrix _ _ ℝ) ⟨0, by omega⟩ ⟨0, by omega⟩).trace = n * c := by
    rw [Matrix.trace]
    simp [diag_apply]
  rw [e1, e2]
  ring

/-- C48. For positive definite matrices the von Neumann divergence is not negative, and zero exactly for equal
matrices. -/
theorem vonNeuman_nonneg {logm : (n : Nat) → Matrix (Fin n) (Fin n) ℝ → Matrix (Fin n) (Fin n) ℝ} (hlog : LogmSpec logm)
    {P Q : Matrix (Fin n) (Fin n) ℝ} (hP : P.PosDef) (hQ : Q.PosDef) :
    ∃ r, vonNeumanDivergence logm (.square n P) (.square n Q) = .ok r ∧ 0 ≤ r ∧ (r = 0 ↔ P = Q) := by
  refine ⟨_, vonNeuman_same logm (posDef_passes hP) (posDef_passes hQ), ?_⟩
  obtain ⟨U, hU, hPU⟩ := spectral hP.1
  obtain ⟨V, hV, hQV⟩ := spectral hQ.1
  have hp := hP.eigenvalues_pos
  have hq := hQ.eigenvalues_pos
  set a := hP.1.eigenvalues
  set b := hQ.1.eigenvalues
  have hU' : Uᵀ * U = 1 := mul_eq_one_comm.mp hU
  have hV' : Vᵀ * V = 1 := mul_eq_one_comm.mp hV
  have hlp : logm n P = U * (diagonal fun i => Real.log (a i)) * Uᵀ := by
    conv_lhs => rw [hPU]
    exact hlog n U a hU hp
  have hlq : logm n Q = V * (diagonal fun i => Real.log (b i)) * Vᵀ := by
    conv_lhs => rw [hQV]
    exact hlog n V b hV hq
  set W := Uᵀ * V with hW
  have hWW : W * Wᵀ = 1 := by
    rw [hW, transpose_mul, transpose_transpose, Matrix.mul_assoc, ← Matrix.mul_assoc V, hV, Matrix.one_mul, hU']
  have hWW' : Wᵀ * W = 1 := mul_eq_one_comm.mp hWW
  have hrow : ∀ i, ∑ j, W i j ^ 2 = 1 := by
    intro i
    have := congrFun (congrFun hWW i) i
    rw [Matrix.mul_apply, Matrix.one_apply_eq] at this
    rw [← this]
    exact Finset.sum_congr rfl fun j _ => by rw [transpose_apply, sq]
  have hcol : ∀ j, ∑ i, W i j ^ 2 = 1 := by
    intro j
    have := congrFun (congrFun hWW' j) j
    rw [Matrix.mul_apply, Matrix.one_apply_eq] at this
    rw [← this]
    exact Finset.sum_congr rfl fun i _ => by rw [transpose_apply, sq]
  have t1 : (P * logm n P).trace = ∑ i, ∑ j, W i j ^ 2 * (a i * Real.log (a i)) := by
    rw [hlp, hPU]
    have e : U * diagonal a * Uᵀ * (U * (diagonal fun i => Real.log (a i)) * Uᵀ) =
        U * (diagonal a * (Uᵀ * U) * (diagonal fun i => Real.log (a i))) * Uᵀ := by simp only [Matrix.mul_assoc]
    rw [e, hU', Matrix.mul_one, Matrix.trace_mul_comm, ← Matrix.mul_assoc, hU', Matrix.one_mul, diagonal_mul_diagonal,
      Matrix.trace_diagonal]
    refine Finset.sum_congr rfl fun i _ => ?_
    rw [← Finset.sum_mul, hrow, one_mul]
  have t2 : (P * logm n Q).trace = ∑ i, ∑ j, W i j ^ 2 * (a i * Real.log (b j)) := by
    rw [hlq, hPU]
    have e : U * diagonal a * Uᵀ * (V * (diagonal fun i => Real.log (b i)) * Vᵀ) =
        U * (diagonal a * W * (diagonal fun i => Real.log (b i)) * Vᵀ) := by rw [hW]; simp only [Matrix.mul_assoc]
    rw [e, Matrix.trace_mul_comm, Matrix.mul_assoc _ Vᵀ U]
    have e2 : Vᵀ * U = Wᵀ := by rw [hW, transpose_mul, transpose_transpose]
    rw [e2, Matrix.trace]
    refine Finset.sum_congr rfl fun i _ => ?_
    rw [diag_apply, Matrix.mul_apply]
    refine Finset.sum_congr rfl fun j _ => ?_
    rw [Matrix.mul_diagonal, Matrix.diagonal_mul, transpose_apply]
    ring
  have t3 : P.trace = ∑ i, ∑ j, W i j ^ 2 * a i := by
    rw [hPU, Matrix.trace_mul_comm, ← Matrix.mul_assoc, hU', Matrix.one_mul, Matrix.trace_diagonal]
    refine Finset.sum_congr rfl fun i _ => ?_
    rw [← Finset.sum_mul, hrow, one_mul]
  have t4 : Q.trace = ∑ i, ∑ j, W i j ^ 2 * b j := by
    rw [hQV, Matrix.trace_mul_comm, ← Matrix.mul_assoc, hV', Matrix.one_mul, Matrix.trace_diagonal, Finset.sum_comm]
    refine Finset.sum_congr rfl fun i _ => ?_
    rw [← Finset.sum_mul, hcol, one_mul]
  have hD : (P * (logm n P - logm n Q)).trace + (-P + Q).trace =
      ∑ i, ∑ j, W i j ^ 2 * (a i * Real.log (a i) - a i * Real.log (b j) - a i + b j) := by
    rw [Matrix.mul_sub, Matrix.trace_sub, Matrix.trace_add, Matrix.trace_neg, t1, t2, t3, t4]
    simp only [mul_add, mul_sub, Finset.sum_add_distrib, Finset.sum_sub_distrib]
    ring
  have hterm : ∀ i j, 0 ≤ W i j ^ 2 * (a i * Real.log (a i) - a i * Real.log (b j) - a i + b j) := fun i j =>
    mul_nonneg (sq_nonneg _) (scalar_klein (hp i) (hq j)).1
  refine ⟨by rw [hD]; exact Finset.sum_nonneg fun i _ => Finset.sum_nonneg fun j _ => hterm i j, fun h => ?_, fun h => ?_⟩
  · rw [hD, Finset.sum_eq_zero_iff_of_nonneg fun i _ => Finset.sum_nonneg fun j _ => hterm i j] at h
    have hcomm : diagonal a * W = W * diagonal b := by
      ext i j
      rw [Matrix.diagonal_mul, Matrix.mul_diagonal]
      have := (Finset.sum_eq_zero_iff_of_nonneg fun j _ => hterm i j).mp (h i (Finset.mem_univ i)) j (Finset.mem_univ j)
      rcases mul_eq_zero.mp this with h0 | h0
      · rw [(pow_eq_zero_iff two_ne_zero).mp h0]; ring
      · rw [(scalar_klein (hp i) (hq j)).2 h0]; ring
    have hUW : U * W = V := by rw [hW, ← Matrix.mul_assoc, hU, Matrix.one_mul]
    have hWt : Wᵀ * Uᵀ = Vᵀ := by rw [← transpose_mul, hUW]
    calc P = U * (diagonal a * (W * Wᵀ)) * Uᵀ := by rw [hWW, Matrix.mul_one]; exact hPU
      _ = U * (diagonal a * W) * (Wᵀ * Uᵀ) := by simp only [Matrix.mul_assoc]
      _ = (U * W) * diagonal b * (Wᵀ * Uᵀ) := by rw [hcomm]; simp only [Matrix.mul_assoc]
      _ = Q := by rw [hUW, hWt]; exact hQV.symm
  · rw [h, sub_self, Matrix.mul_zero, neg_add_cancel, Matrix.trace_zero, add_zero]

/-- A case: two different positive definite matrices. -/
example : (diagonal ![1, 2] : Matrix (Fin 2) (Fin 2) ℝ).PosDef ∧ (1 : Matrix (Fin 2) (Fin 2) ℝ).PosDef := by
  refine ⟨Matrix.posDef_diagonal_iff.mpr fun i => ?_, Matrix.PosDef.one⟩
  fin_cases i <;> norm_num

/-- The matrix with unit diagonal and correlation `-1/2`. -/
noncomputable def halfCor : Matrix (Fin 2) (Fin 2) ℝ := !![1, -(1 / 2); -(1 / 2), 1]

/-- C48. The divergence of a correlation matrix from a number can be negative. -/
theorem vonNeuman_negative {logm : (n : Nat) → Matrix (Fin n) (Fin n) ℝ → Matrix (Fin n) (Fin n) ℝ} (hlog : LogmSpec logm) :
    halfCor.PosDef ∧ ∃ r < 0, vonNeumanDivergence logm (.square 2 halfCor) (.square 1 (diagonal fun _ => 1 / 2)) = .ok r := by
  have h2 : (0 : ℝ) ≤ 2 := by norm_num
  have hs : Real.sqrt 2 * Real.sqrt 2 = 2 := Real.mul_self_sqrt h2
  have hs0 : Real.sqrt 2 ≠ 0 := (Real.sqrt_pos.mpr (by norm_num)).ne'
  have hi : (Real.sqrt 2)⁻¹ * (Real.sqrt 2)⁻¹ = 1 / 2 := by rw [← mul_inv, hs]; norm_num
  let V : Matrix (Fin 2) (Fin 2) ℝ := !![(Real.sqrt 2)⁻¹, (Real.sqrt 2)⁻¹; (Real.sqrt 2)⁻¹, -(Real.sqrt 2)⁻¹]
  have hV : V * Vᵀ = 1 := by
    ext i j
    fin_cases i <;> fin_cases j <;> simp [V, Matrix.mul_apply, Fin.sum_univ_two, hi] <;> norm_num
  have hform : ∀ a b : ℝ, V * diagonal ![a, b] * Vᵀ = !![(a + b) / 2, (a - b) / 2; (a - b) / 2, (a + b) / 2] := by
    intro a b
    have e : ∀ a : ℝ, (Real.sqrt 2)⁻¹ * a * (Real.sqrt 2)⁻¹ = a / 2 := fun a => by
      rw [mul_right_comm, hi]; ring
    ext i j
    rw [Matrix.mul_apply]
    fin_cases i <;> fin_cases j <;> simp [V, Fin.sum_univ_two, Matrix.mul_diagonal, e] <;> ring
  have hP : halfCor = V * diagonal ![1 / 2, 3 / 2] * Vᵀ := by
    rw [hform]
    unfold halfCor
    norm_num
  have hpd : halfCor.PosDef := by
    have hd : (diagonal ![1 / 2, 3 / 2] : Matrix (Fin 2) (Fin 2) ℝ).PosDef := Matrix.posDef_diagonal_iff.mpr fun i => by
      fin_cases i <;> norm_num
    have hu : IsUnit V := IsUnit.of_mul_eq_one _ hV
    rw [hP, ← Matrix.conjTranspose_eq_transpose_of_trivial]
    exact (Matrix.IsUnit.posDef_star_right_conjugate_iff hu).mpr hd
  refine ⟨hpd, _, ?_, vonNeuman_broadcast hlog (by norm_num) (posDef_passes hpd) (by norm_num)⟩
  have hlg : logm 2 halfCor = V * (diagonal ![Real.log (1 / 2), Real.log (3 / 2)]) * Vᵀ := by
    rw [hP, hlog 2 V ![1 / 2, 3 / 2] hV (fun i => by fin_cases i <;> norm_num)]
    congr 3
    ext i
    fin_cases i <;> rfl
  rw [hlg, hform]
  unfold halfCor
  simp only [Matrix.trace, Matrix.diag_apply, Matrix.mul_apply, Fin.sum_univ_two, Matrix.of_apply, Matrix.cons_val', Matrix.cons_val_zero,
    Matrix.cons_val_one, Matrix.empty_val', Matrix.cons_val_fin_one]
  have l1 : Real.log (1 / 2) = -Real.log 2 := by rw [one_div, Real.log_inv]
  have l2 : Real.log (3 / 2) < 0.42 := by
    rw [Real.log_lt_iff_lt_exp (by norm_num)]
    exact lt_of_lt_of_le (by norm_num) (Real.quadratic_le_exp_of_nonneg (show (0 : ℝ) ≤ 0.42 by norm_num))
  have l3 := Real.log_two_lt_d9
  rw [l1]
  norm_num
  nlinarith

end Verif.MatDiv
