import Verif.Props.MatDivLaws
import Mathlib.Analysis.SpecialFunctions.Trigonometric.DerivHyp

/-!
# C114: the von Neumann divergence under scaling, rotation and grouping, and its size
-/

namespace Verif.MatDiv

open Matrix

variable {n : Nat} {logm : (n : Nat) → Matrix (Fin n) (Fin n) ℝ → Matrix (Fin n) (Fin n) ℝ}

/-- The value of the von Neumann divergence. -/
noncomputable def vn (logm : (n : Nat) → Matrix (Fin n) (Fin n) ℝ → Matrix (Fin n) (Fin n) ℝ) (P Q : Matrix (Fin n) (Fin n) ℝ) : ℝ :=
  (P * (logm n P - logm n Q)).trace + (-P + Q).trace

theorem vonNeuman_vn {P Q : Matrix (Fin n) (Fin n) ℝ} (hP : P.PosDef) (hQ : Q.PosDef) :
    vonNeumanDivergence logm (.square n P) (.square n Q) = .ok (vn logm P Q) :=
  vonNeuman_same logm (posDef_passes hP) (posDef_passes hQ)

theorem orth_square {W : Matrix (Fin n) (Fin n) ℝ} (h : W * Wᵀ = 1) (i : Fin n) : ∑ j, W i j ^ 2 = 1 := by
  have := congrFun (congrFun h i) i
  rw [Matrix.mul_apply, Matrix.one_apply_eq] at this
  rw [← this]
  exact Finset.sum_congr rfl fun j _ => by rw [transpose_apply, sq]

/-- The trace of a product of two functions of matrices. -/
theorem trace_two {U V : Matrix (Fin n) (Fin n) ℝ} (f g : Fin n → ℝ) :
    (U * diagonal f * Uᵀ * (V * diagonal g * Vᵀ)).trace = ∑ i, ∑ j, (Uᵀ * V) i j ^ 2 * (f i * g j) := by
  have e : U * diagonal f * Uᵀ * (V * diagonal g * Vᵀ) = U * (diagonal f * (Uᵀ * V) * diagonal g * Vᵀ) := by
    simp only [Matrix.mul_assoc]
  rw [e, Matrix.trace_mul_comm, Matrix.mul_assoc _ Vᵀ U]
  have e2 : Vᵀ * U = (Uᵀ * V)ᵀ := by rw [transpose_mul, transpose_transpose]
  rw [e2, Matrix.trace]
  refine Finset.sum_congr rfl fun i _ => ?_
  rw [diag_apply, Matrix.mul_apply]
  refine Finset.sum_congr rfl fun j _ => ?_
  rw [Matrix.mul_diagonal, Matrix.diagonal_mul, transpose_apply]
  ring

/-- The divergence and the squared distance as sums over pairs of eigenvalues, with the same weights. -/
theorem vn_eigen (hlog : LogmSpec logm) {P Q : Matrix (Fin n) (Fin n) ℝ} (hP : P.PosDef) (hQ : Q.PosDef) :
    ∃ W : Matrix (Fin n) (Fin n) ℝ,
      vn logm P Q = ∑ i, ∑ j, W i j ^ 2 * (hP.1.eigenvalues i * Real.log (hP.1.eigenvalues i) -
        hP.1.eigenvalues i * Real.log (hQ.1.eigenvalues j) - hP.1.eigenvalues i + hQ.1.eigenvalues j) ∧
      ∑ i, ∑ j, (P i j - Q i j) ^ 2 = ∑ i, ∑ j, W i j ^ 2 * (hP.1.eigenvalues i - hQ.1.eigenvalues j) ^ 2 := by
  obtain ⟨U, hU, hPU⟩ := spectral hP.1
  obtain ⟨V, hV, hQV⟩ := spectral hQ.1
  have hp := hP.eigenvalues_pos
  have hq := hQ.eigenvalues_pos
  set a := hP.1.eigenvalues
  set b := hQ.1.eigenvalues
  have hU' : Uᵀ * U = 1 := mul_eq_one_comm.mp hU
  have hV' : Vᵀ * V = 1 := mul_eq_one_comm.mp hV
  have hlp : logm n P = U * (diagonal fun i => Real.log (a i)) * Uᵀ := by
    conv_lhs => rw [hPU]
    exact hlog n U a hU hp
  have hlq : logm n Q = V * (diagonal fun i => Real.log (b i)) * Vᵀ := by
    conv_lhs => rw [hQV]
    exact hlog n V b hV hq
  have hWW : (Uᵀ * V) * (Uᵀ * V)ᵀ = 1 := by
    rw [transpose_mul, transpose_transpose, Matrix.mul_assoc, ← Matrix.mul_assoc V, hV, Matrix.one_mul, hU']
  have hrow := orth_square hWW
  have hcol : ∀ j, ∑ i, (Uᵀ * V) i j ^ 2 = 1 := by
    intro j
    have h2 : (Uᵀ * V)ᵀ * ((Uᵀ * V)ᵀ)ᵀ = 1 := by rw [transpose_transpose]; exact mul_eq_one_comm.mp hWW
    exact orth_square h2 j
  have one : ∀ f : Fin n → ℝ, ∑ i, f i = ∑ i, ∑ j, (Uᵀ * V) i j ^ 2 * f i := by
    intro f
    refine Finset.sum_congr rfl fun i _ => ?_
    rw [← Finset.sum_mul, hrow, one_mul]
  have two : ∀ f : Fin n → ℝ, ∑ j, f j = ∑ i, ∑ j, (Uᵀ * V) i j ^ 2 * f j := by
    intro f
    rw [Finset.sum_comm]
    refine Finset.sum_congr rfl fun i _ => ?_
    rw [← Finset.sum_mul, hcol, one_mul]
  have self : ∀ {U : Matrix (Fin n) (Fin n) ℝ}, U * Uᵀ = 1 → ∀ f g : Fin n → ℝ,
      (U * diagonal f * Uᵀ * (U * diagonal g * Uᵀ)).trace = ∑ i, f i * g i := by
    intro U hU f g
    rw [trace_two, mul_eq_one_comm.mp hU]
    refine Finset.sum_congr rfl fun i _ => ?_
    rw [Finset.sum_eq_single i]
    · rw [one_apply_eq]; ring
    · intro j _ hj
      rw [one_apply_ne hj.symm]; ring
    · simp
  have tr : ∀ {U : Matrix (Fin n) (Fin n) ℝ}, U * Uᵀ = 1 → ∀ f : Fin n → ℝ, (U * diagonal f * Uᵀ).trace = ∑ i, f i := by
    intro U hU f
    rw [Matrix.trace_mul_comm, ← Matrix.mul_assoc, mul_eq_one_comm.mp hU, Matrix.one_mul, Matrix.trace_diagonal]
  refine ⟨Uᵀ * V, ?_, ?_⟩
  · unfold vn
    rw [Matrix.mul_sub, Matrix.trace_sub, Matrix.trace_add, Matrix.trace_neg, hlp, hlq]
    conv_lhs => rw [hPU, hQV]
    rw [self hU, trace_two, tr hU, tr hV, one, one a, two b]
    simp only [mul_add, mul_sub, Finset.sum_add_distrib, Finset.sum_sub_distrib]
    ring
  · have h1 : ∑ i, ∑ j, (P i j - Q i j) ^ 2 = ((P - Q) * (P - Q)).trace := by
      rw [Matrix.trace]
      refine Finset.sum_congr rfl fun i _ => ?_
      rw [diag_apply, Matrix.mul_apply]
      refine Finset.sum_congr rfl fun j _ => ?_
      have tP := congrFun (congrFun (posDef_transpose hP) i) j
      have tQ := congrFun (congrFun (posDef_transpose hQ) i) j
      rw [transpose_apply] at tP tQ
      rw [Matrix.sub_apply, Matrix.sub_apply, tP, tQ, sq]
    have h2 : ((P - Q) * (P - Q)).trace = (P * P).trace - 2 * (P * Q).trace + (Q * Q).trace := by
      rw [Matrix.mul_sub, Matrix.sub_mul, Matrix.sub_mul, Matrix.trace_sub, Matrix.trace_sub, Matrix.trace_sub, Matrix.trace_mul_comm Q P]
      ring
    rw [h1, h2]
    conv_lhs => rw [hPU, hQV]
    rw [self hU, self hV, trace_two, one, two fun i => b i * b i, Finset.mul_sum, ← Finset.sum_sub_distrib, ← Finset.sum_add_distrib]
    refine Finset.sum_congr rfl fun i _ => ?_
    rw [Finset.mul_sum, ← Finset.sum_sub_distrib, ← Finset.sum_add_distrib]
    refine Finset.sum_congr rfl fun j _ => ?_
    ring

theorem log_lower {x : ℝ} (h0 : 0 ≤ x) (h1 : x < 1) : x + x ^ 2 / 2 ≤ -Real.log (1 - x) := by
  have h := Real.hasSum_pow_div_log_of_abs_lt_one (x := x) (by rw [abs_of_nonneg h0]; exact h1)
  have := sum_le_hasSum (Finset.range 2) (fun i _ => by positivity) h
  norm_num [Finset.sum_range_succ] at this
  linarith

theorem log_upper {s : ℝ} (hs : 1 ≤ s) : Real.log s ≤ (s - s⁻¹) / 2 := by
  have h : Real.log s ≤ Real.sinh (Real.log s) := Real.self_le_sinh_iff.mpr (Real.log_nonneg hs)
  rwa [Real.sinh_eq, Real.exp_log (by linarith), Real.exp_neg, Real.exp_log (by linarith)] at h

/-- Between quadratic bounds. -/
theorem klein_lower {a b M : ℝ} (ha : 0 < a) (hb : 0 < b) (haM : a ≤ M) (hbM : b ≤ M) :
    (a - b) ^ 2 / (2 * M) ≤ a * Real.log a - a * Real.log b - a + b := by
  have hM : 0 < M := by linarith
  rcases le_total b a with h | h
  · have hx : 1 - (a - b) / a = b / a := by field_simp; ring
    have := log_lower (x := (a - b) / a) (div_nonneg (by linarith) ha.le) (by rw [div_lt_one ha]; linarith)
    rw [hx, Real.log_div hb.ne' ha.ne'] at this
    have h2 := mul_le_mul_of_nonneg_left this ha.le
    have e : a * ((a - b) / a + ((a - b) / a) ^ 2 / 2) = (a - b) + (a - b) ^ 2 / (2 * a) := by field_simp
    rw [e] at h2
    have h3 : (a - b) ^ 2 / (2 * M) ≤ (a - b) ^ 2 / (2 * a) := div_le_div_of_nonneg_left (sq_nonneg _) (by linarith) (by linarith)
    linarith
  · have := log_upper (s := b / a) (by rw [le_div_iff₀ ha]; linarith)
    rw [Real.log_div hb.ne' ha.ne', inv_div] at this
    have h2 := mul_le_mul_of_nonneg_left this ha.le
    have e : a * ((b / a - a / b) / 2) = b - a - (a - b) ^ 2 / (2 * b) := by field_simp; ring
    have e' : a * ((b / a - a / b) / 2) = (b - a ^ 2 / b) / 2 := by field_simp
    have h3 : (a - b) ^ 2 / (2 * M) ≤ (a - b) ^ 2 / (2 * b) := div_le_div_of_nonneg_left (sq_nonneg _) (by linarith) (by linarith)
    linarith

theorem klein_upper {a b m : ℝ} (ha : 0 < a) (hm : 0 < m) (hmb : m ≤ b) :
    a * Real.log a - a * Real.log b - a + b ≤ (a - b) ^ 2 / m := by
  have hb : 0 < b := by linarith
  have h := mul_le_mul_of_nonneg_left (Real.log_le_sub_one_of_pos (div_pos ha hb)) ha.le
  rw [Real.log_div ha.ne' hb.ne'] at h
  have e : a * (a / b - 1) = (a - b) ^ 2 / b + a - b := by field_simp; ring
  rw [e] at h
  have h3 : (a - b) ^ 2 / b ≤ (a - b) ^ 2 / m := div_le_div_of_nonneg_left (sq_nonneg _) hm hmb
  linarith

theorem eigen_form {P : Matrix (Fin n) (Fin n) ℝ} (hP : P.IsHermitian) (i : Fin n) :
    ∃ w : Fin n → ℝ, w ⬝ᵥ w = 1 ∧ w ⬝ᵥ P *ᵥ w = hP.eigenvalues i := by
  obtain ⟨V, hV, hPV⟩ := spectral hP
  have hV' : Vᵀ * V = 1 := mul_eq_one_comm.mp hV
  refine ⟨fun j => V j i, ?_, ?_⟩
  · have := congrFun (congrFun hV' i) i
    rw [Matrix.mul_apply, one_apply_eq] at this
    exact this
  · have h1 : (fun j => V j i) ⬝ᵥ P *ᵥ (fun j => V j i) = (Vᵀ * P * V) i i := by
      rw [Matrix.mul_assoc, Matrix.mul_apply]
      rfl
    have e : Vᵀ * P * V = diagonal hP.eigenvalues := by
      conv_lhs => rw [hPV]
      have : Vᵀ * (V * diagonal hP.eigenvalues * Vᵀ) * V = (Vᵀ * V) * diagonal hP.eigenvalues * (Vᵀ * V) := by simp only [Matrix.mul_assoc]
      rw [this, hV', Matrix.one_mul, Matrix.mul_one]
    rw [h1, e, diagonal_apply_eq]

/-- C114. The divergence is at least the squared distance of the matrices over twice the largest variance of a portfolio of norm one. -/
theorem vonNeuman_lower (hlog : LogmSpec logm) {P Q : Matrix (Fin n) (Fin n) ℝ} (hP : P.PosDef) (hQ : Q.PosDef) {M : ℝ}
    (h1 : ∀ w : Fin n → ℝ, w ⬝ᵥ P *ᵥ w ≤ M * (w ⬝ᵥ w)) (h2 : ∀ w : Fin n → ℝ, w ⬝ᵥ Q *ᵥ w ≤ M * (w ⬝ᵥ w)) :
    ∃ r, vonNeumanDivergence logm (.square n P) (.square n Q) = .ok r ∧ (∑ i, ∑ j, (P i j - Q i j) ^ 2) / (2 * M) ≤ r := by
  refine ⟨_, vonNeuman_vn hP hQ, ?_⟩
  obtain ⟨W, e1, e2⟩ := vn_eigen hlog hP hQ
  rw [e1, e2, Finset.sum_div]
  refine Finset.sum_le_sum fun i _ => ?_
  rw [Finset.sum_div]
  refine Finset.sum_le_sum fun j _ => ?_
  rw [mul_div_assoc]
  refine mul_le_mul_of_nonneg_left (klein_lower (hP.eigenvalues_pos i) (hQ.eigenvalues_pos j) ?_ ?_) (sq_nonneg _)
  · obtain ⟨w, hw, e⟩ := eigen_form hP.1 i
    rw [← e]
    simpa [hw] using h1 w
  · obtain ⟨w, hw, e⟩ := eigen_form hQ.1 j
    rw [← e]
    simpa [hw] using h2 w

/-- C114. The divergence is at most the squared distance of the matrices over the smallest variance of a portfolio of norm one under the
second matrix. -/
theorem vonNeuman_upper (hlog : LogmSpec logm) {P Q : Matrix (Fin n) (Fin n) ℝ} (hP : P.PosDef) (hQ : Q.PosDef) {m : ℝ} (hm : 0 < m)
    (h : ∀ w : Fin n → ℝ, m * (w ⬝ᵥ w) ≤ w ⬝ᵥ Q *ᵥ w) :
    ∃ r, vonNeumanDivergence logm (.square n P) (.square n Q) = .ok r ∧ r ≤ (∑ i, ∑ j, (P i j - Q i j) ^ 2) / m := by
  refine ⟨_, vonNeuman_vn hP hQ, ?_⟩
  obtain ⟨W, e1, e2⟩ := vn_eigen hlog hP hQ
  rw [e1, e2, Finset.sum_div]
  refine Finset.sum_le_sum fun i _ => ?_
  rw [Finset.sum_div]
  refine Finset.sum_le_sum fun j _ => ?_
  rw [mul_div_assoc]
  refine mul_le_mul_of_nonneg_left (klein_upper (hP.eigenvalues_pos i) hm ?_) (sq_nonneg _)
  obtain ⟨w, hw, e⟩ := eigen_form hQ.1 j
  rw [← e]
  simpa [hw] using h w

/-- The variance of a portfolio is at most the sum of the variances, for weights of norm one. -/
theorem form_le_trace {P : Matrix (Fin n) (Fin n) ℝ} (hP : P.PosDef) (w : Fin n → ℝ) : w ⬝ᵥ P *ᵥ w ≤ P.trace * (w ⬝ᵥ w) := by
  obtain ⟨B, hB, -⟩ := posDef_factor hP
  have e1 : w ⬝ᵥ P *ᵥ w = ∑ i, (∑ j, B i j * w j) ^ 2 := by
    rw [hB, ← Matrix.mulVec_mulVec, Matrix.dotProduct_mulVec, Matrix.vecMul_transpose]
    simp only [dotProduct, Matrix.mulVec, sq]
  have e2 : P.trace = ∑ i, ∑ j, B i j ^ 2 := by
    rw [hB, Matrix.trace, Finset.sum_comm]
    refine Finset.sum_congr rfl fun i _ => ?_
    rw [diag_apply, Matrix.mul_apply]
    exact Finset.sum_congr rfl fun j _ => by rw [transpose_apply, sq]
  have e3 : w ⬝ᵥ w = ∑ j, w j ^ 2 := Finset.sum_congr rfl fun j _ => (sq _).symm
  rw [e1, e2, e3, Finset.sum_mul]
  exact Finset.sum_le_sum fun i _ => Finset.sum_mul_sq_le_sq_mul_sq _ _ _

/-- C114. Correlation matrices of `n` assets differ in each entry by at most the root of `n` times the divergence. -/
theorem vonNeuman_correlations (hlog : LogmSpec logm) {P Q : Matrix (Fin n) (Fin n) ℝ} (hP : P.PosDef) (hQ : Q.PosDef)
    (h1 : ∀ i, P i i = 1) (h2 : ∀ i, Q i i = 1) (i j : Fin n) :
    ∃ r, vonNeumanDivergence logm (.square n P) (.square n Q) = .ok r ∧ |P i j - Q i j| ≤ Real.sqrt (n * r) := by
  have tr : ∀ {M : Matrix (Fin n) (Fin n) ℝ}, (∀ i, M i i = 1) → M.trace = n := by
    intro M hM
    simp [Matrix.trace, hM]
  obtain ⟨r, hr, hl⟩ := vonNeuman_lower hlog hP hQ (M := n) (fun w => by rw [← tr h1]; exact form_le_trace hP w)
    (fun w => by rw [← tr h2]; exact form_le_trace hQ w)
  refine ⟨r, hr, Real.abs_le_sqrt ?_⟩
  have hn : (0 : ℝ) < n := by
    have : 0 < n := i.pos
    exact_mod_cast this
  rw [div_le_iff₀ (by linarith)] at hl
  rcases eq_or_ne i j with rfl | hij
  · rw [h1, h2, sub_self]
    have : 0 ≤ ∑ i, ∑ j, (P i j - Q i j) ^ 2 := Finset.sum_nonneg fun i _ => Finset.sum_nonneg fun j _ => sq_nonneg _
    nlinarith
  · have hs : (P j i - Q j i) ^ 2 = (P i j - Q i j) ^ 2 := by
      have tP := congrFun (congrFun (posDef_transpose hP) i) j
      have tQ := congrFun (congrFun (posDef_transpose hQ) i) j
      rw [transpose_apply] at tP tQ
      rw [tP, tQ]
    have hrow : ∀ k l, (P k l - Q k l) ^ 2 ≤ ∑ j, (P k j - Q k j) ^ 2 := fun k l =>
      Finset.single_le_sum (f := fun j => (P k j - Q k j) ^ 2) (fun j _ => sq_nonneg _) (Finset.mem_univ l)
    have h3 : (∑ k, (P i k - Q i k) ^ 2) + ∑ k, (P j k - Q j k) ^ 2 ≤ ∑ i, ∑ j, (P i j - Q i j) ^ 2 := by
      rw [← Finset.sum_pair (f := fun i => ∑ j, (P i j - Q i j) ^ 2) hij]
      exact Finset.sum_le_sum_of_subset_of_nonneg (Finset.subset_univ _) fun i _ _ => Finset.sum_nonneg fun j _ => sq_nonneg _
    have h4 := hrow i j
    have h5 := hrow j i
    linarith

/-- C114. The divergence has the unit of the matrices. -/
theorem vonNeuman_scale (hlog : LogmSpec logm) {P Q : Matrix (Fin n) (Fin n) ℝ} (hP : P.PosDef) (hQ : Q.PosDef) {c : ℝ} (hc : 0 < c) :
    ∃ r, vonNeumanDivergence logm (.square n P) (.square n Q) = .ok r ∧
      vonNeumanDivergence logm (.square n (c • P)) (.square n (c • Q)) = .ok (c * r) := by
  have key : ∀ {M : Matrix (Fin n) (Fin n) ℝ}, M.PosDef → logm n (c • M) = logm n M + Real.log c • 1 := by
    intro M hM
    obtain ⟨V, hV, hMV⟩ := spectral hM.1
    have hp := hM.eigenvalues_pos
    set d := hM.1.eigenvalues
    have e : c • M = V * diagonal (fun i => c * d i) * Vᵀ := by
      conv_lhs => rw [hMV]
      rw [← Matrix.smul_mul, ← Matrix.mul_smul, ← diagonal_smul]
      rfl
    have e1 : logm n M = V * (diagonal fun i => Real.log (d i)) * Vᵀ := by
      conv_lhs => rw [hMV]
      exact hlog n V d hV hp
    rw [e, hlog n V _ hV fun i => mul_pos hc (hp i), e1]
    have e2 : (diagonal fun i => Real.log (c * d i)) = (diagonal fun i => Real.log (d i)) + Real.log c • (1 : Matrix (Fin n) (Fin n) ℝ) := by
      rw [← diagonal_one, ← diagonal_smul, diagonal_add]
      congr 1
      funext i
      rw [Real.log_mul hc.ne' (hp i).ne', Pi.smul_apply, smul_eq_mul, mul_one, add_comm]
    rw [e2, Matrix.mul_add, Matrix.add_mul, Matrix.mul_smul, Matrix.mul_one, Matrix.smul_mul, hV]
  refine ⟨_, vonNeuman_vn hP hQ, ?_⟩
  rw [vonNeuman_vn (hP.smul hc) (hQ.smul hc)]
  congr 1
  unfold vn
  rw [key hP, key hQ, add_sub_add_right_eq_sub, Matrix.smul_mul, trace_smul, ← smul_neg, ← smul_add, trace_smul, smul_eq_mul, smul_eq_mul]
  ring

/-- C114. The divergence does not change under a common rotation, in particular under reordering of the assets. -/
theorem vonNeuman_rotate (hlog : LogmSpec logm) {P Q : Matrix (Fin n) (Fin n) ℝ} (hP : P.PosDef) (hQ : Q.PosDef)
    {O : Matrix (Fin n) (Fin n) ℝ} (hO : O * Oᵀ = 1) :
    vonNeumanDivergence logm (.square n (O * P * Oᵀ)) (.square n (O * Q * Oᵀ)) = vonNeumanDivergence logm (.square n P) (.square n Q) := by
  have hO' : Oᵀ * O = 1 := mul_eq_one_comm.mp hO
  have hu : IsUnit O := ⟨⟨O, Oᵀ, hO, hO'⟩, rfl⟩
  have hinj := Matrix.vecMul_injective_of_isUnit hu
  have key : ∀ {M : Matrix (Fin n) (Fin n) ℝ}, M.PosDef → logm n (O * M * Oᵀ) = O * logm n M * Oᵀ := by
    intro M hM
    obtain ⟨V, hV, hMV⟩ := spectral hM.1
    have hp := hM.eigenvalues_pos
    set d := hM.1.eigenvalues
    have e1 : logm n M = V * (diagonal fun i => Real.log (d i)) * Vᵀ := by
      conv_lhs => rw [hMV]
      exact hlog n V d hV hp
    have e : O * M * Oᵀ = (O * V) * diagonal d * (O * V)ᵀ := by
      conv_lhs => rw [hMV]
      rw [transpose_mul]
      simp only [Matrix.mul_assoc]
    have hOV : (O * V) * (O * V)ᵀ = 1 := by
      rw [transpose_mul, Matrix.mul_assoc, ← Matrix.mul_assoc V, hV, Matrix.one_mul, hO]
    rw [e, hlog n _ d hOV hp, e1, transpose_mul]
    simp only [Matrix.mul_assoc]
  have htr : ∀ M : Matrix (Fin n) (Fin n) ℝ, (O * M * Oᵀ).trace = M.trace := by
    intro M
    rw [Matrix.trace_mul_comm, ← Matrix.mul_assoc, hO', Matrix.one_mul]
  rw [vonNeuman_vn (posDef_combine hP hinj) (posDef_combine hQ hinj), vonNeuman_vn hP hQ]
  congr 1
  unfold vn
  rw [key hP, key hQ]
  have e1 : O * P * Oᵀ * (O * logm n P * Oᵀ - O * logm n Q * Oᵀ) = O * (P * (logm n P - logm n Q)) * Oᵀ := by
    have : O * logm n P * Oᵀ - O * logm n Q * Oᵀ = O * (logm n P - logm n Q) * Oᵀ := by rw [Matrix.mul_sub, Matrix.sub_mul]
    rw [this]
    have e2 : O * P * Oᵀ * (O * (logm n P - logm n Q) * Oᵀ) = O * (P * ((Oᵀ * O) * (logm n P - logm n Q))) * Oᵀ := by simp only [Matrix.mul_assoc]
    rw [e2, hO', Matrix.one_mul]
  have e3 : -(O * P * Oᵀ) + O * Q * Oᵀ = O * (-P + Q) * Oᵀ := by
    rw [Matrix.mul_add, Matrix.add_mul, Matrix.mul_neg, Matrix.neg_mul]
  rw [e1, e3, htr, htr]

/-- C114. The divergences of groups of assets without correlation between them add up. -/
theorem vonNeuman_blocks (hlog : LogmSpec logm) {m : Nat} {P Q : Matrix (Fin n) (Fin n) ℝ} {P' Q' : Matrix (Fin m) (Fin m) ℝ}
    (hP : P.PosDef) (hQ : Q.PosDef) (hP' : P'.PosDef) (hQ' : Q'.PosDef) :
    ∃ r s, vonNeumanDivergence logm (.square n P) (.square n Q) = .ok r ∧ vonNeumanDivergence logm (.square m P') (.square m Q') = .ok s ∧
      vonNeumanDivergence logm (.square (n + m) (blocks P P')) (.square (n + m) (blocks Q Q')) = .ok (r + s) := by
  have hdiag : ∀ (d : Fin n → ℝ) (d' : Fin m → ℝ),
      blocks (diagonal d) (diagonal d') = diagonal (Sum.elim d d' ∘ finSumFinEquiv.symm) := by
    intro d d'
    unfold blocks
    rw [fromBlocks_diagonal, submatrix_diagonal_equiv]
  have key : ∀ {M : Matrix (Fin n) (Fin n) ℝ} {M' : Matrix (Fin m) (Fin m) ℝ}, M.PosDef → M'.PosDef →
      logm (n + m) (blocks M M') = blocks (logm n M) (logm m M') := by
    intro M M' hM hM'
    obtain ⟨V, hV, hMV⟩ := spectral hM.1
    obtain ⟨V', hV', hMV'⟩ := spectral hM'.1
    have hp := hM.eigenvalues_pos
    have hp' := hM'.eigenvalues_pos
    set d := hM.1.eigenvalues
    set d' := hM'.1.eigenvalues
    have e : blocks M M' = blocks V V' * diagonal (Sum.elim d d' ∘ finSumFinEquiv.symm) * (blocks V V')ᵀ := by
      rw [← hdiag, blocks_transpose, blocks_mul, blocks_mul, ← hMV, ← hMV']
    have hVV : blocks V V' * (blocks V V')ᵀ = 1 := by rw [blocks_transpose, blocks_mul, hV, hV', blocks_one]
    have e1 : logm n M = V * (diagonal fun i => Real.log (d i)) * Vᵀ := by
      conv_lhs => rw [hMV]
      exact hlog n V d hV hp
    have e1' : logm m M' = V' * (diagonal fun i => Real.log (d' i)) * V'ᵀ := by
      conv_lhs => rw [hMV']
      exact hlog m V' d' hV' hp'
    have hpos : ∀ i, 0 < (Sum.elim d d' ∘ finSumFinEquiv.symm) i := by
      intro i
      rw [Function.comp_apply]
      rcases finSumFinEquiv.symm i with j | j
      · exact hp j
      · exact hp' j
    rw [e, hlog (n + m) _ _ hVV hpos, e1, e1', ← blocks_mul, ← blocks_mul, hdiag, blocks_transpose]
    congr 3
    funext i
    rw [Function.comp_apply, Function.comp_apply]
    rcases finSumFinEquiv.symm i with j | j <;> rfl
  have hsub : ∀ (A B : Matrix (Fin n) (Fin n) ℝ) (A' B' : Matrix (Fin m) (Fin m) ℝ), blocks A A' - blocks B B' = blocks (A - B) (A' - B') := by
    intro A B A' B'
    unfold blocks
    ext i j
    simp only [Matrix.sub_apply, submatrix_apply]
    rcases finSumFinEquiv.symm i with k | k <;> rcases finSumFinEquiv.symm j with l | l <;> simp
  refine ⟨_, _, vonNeuman_vn hP hQ, vonNeuman_vn hP' hQ', ?_⟩
  rw [vonNeuman_vn (blocks_posDef hP hP') (blocks_posDef hQ hQ')]
  congr 1
  unfold vn
  rw [key hP hP', key hQ hQ', hsub, blocks_mul, blocks_trace, neg_add_eq_sub, neg_add_eq_sub, neg_add_eq_sub, hsub, blocks_trace]
  ring

/-- A `1 × 1` matrix. -/
def num (a : ℝ) : Matrix (Fin 1) (Fin 1) ℝ := of fun _ _ => a

theorem num_posDef {a : ℝ} (ha : 0 < a) : (num a).PosDef := by
  have e : num a = diagonal fun _ => a := by
    ext i j
    simp [num, Subsingleton.elim i j]
  rw [e]
  exact Matrix.posDef_diagonal_iff.mpr fun _ => ha

theorem vn_num (hlog : LogmSpec logm) {a b : ℝ} (ha : 0 < a) (hb : 0 < b) :
    vonNeumanDivergence logm (.square 1 (num a)) (.square 1 (num b)) = .ok (a * (Real.log a - Real.log b) - a + b) := by
  have hl : ∀ {a : ℝ}, 0 < a → logm 1 (num a) = num (Real.log a) := by
    intro a ha
    have := hlog 1 1 (fun _ => a) (by simp) fun _ => ha
    have e : ∀ c : ℝ, (diagonal fun _ => c : Matrix (Fin 1) (Fin 1) ℝ) = num c := by
      intro c
      ext i j
      simp [num, Subsingleton.elim i j]
    rw [transpose_one, Matrix.one_mul, Matrix.mul_one, Matrix.one_mul, Matrix.mul_one, e, e] at this
    exact this
  rw [vonNeuman_vn (num_posDef ha) (num_posDef hb)]
  congr 1
  unfold vn
  rw [hl ha, hl hb, trace_fin_one, trace_fin_one, Matrix.mul_apply, Fin.sum_univ_one]
  simp [num]
  ring

/-- C114, negative. Neither divergence is symmetric, and both violate the triangle inequality. -/
theorem divergence_no_metric (hlog : LogmSpec logm) :
    (∃ r s t u, logDetDivergence (.square 1 (num 4)) (.square 1 (num 1)) = .ok r ∧
      logDetDivergence (.square 1 (num 4)) (.square 1 (num 2)) = .ok s ∧
      logDetDivergence (.square 1 (num 2)) (.square 1 (num 1)) = .ok t ∧
      logDetDivergence (.square 1 (num 1)) (.square 1 (num 4)) = .ok u ∧ s + t < r ∧ u < r) ∧
    ∃ r s t u, vonNeumanDivergence logm (.square 1 (num 4)) (.square 1 (num 1)) = .ok r ∧
      vonNeumanDivergence logm (.square 1 (num 4)) (.square 1 (num 2)) = .ok s ∧
      vonNeumanDivergence logm (.square 1 (num 2)) (.square 1 (num 1)) = .ok t ∧
      vonNeumanDivergence logm (.square 1 (num 1)) (.square 1 (num 4)) = .ok u ∧ s + t < r ∧ u < r := by
  have h4 : Real.log 4 = 2 * Real.log 2 := by
    rw [show (4 : ℝ) = 2 ^ 2 by norm_num, Real.log_pow]; norm_num
  have hl1 := Real.log_two_gt_d9
  have hl2 := Real.log_two_lt_d9
  have ld' : ∀ {a b : ℝ}, 0 < a → 0 < b → logDetDivergence (.square 1 (num a)) (.square 1 (num b)) = .ok (a / b - Real.log (a / b) - 1) := by
    intro a b ha hb
    rw [logDet_ld (num_posDef ha) (num_posDef hb)]
    have := ld_one_one (a := a) hb
    rw [abs_of_pos (div_pos ha hb)] at this
    rw [← this]
    rfl
  refine ⟨⟨_, _, _, _, ld' (by norm_num) (by norm_num), ld' (by norm_num) (by norm_num), ld' (by norm_num) (by norm_num),
    ld' (by norm_num) (by norm_num), ?_, ?_⟩, ⟨_, _, _, _, vn_num hlog (by norm_num) (by norm_num), vn_num hlog (by norm_num) (by norm_num),
    vn_num hlog (by norm_num) (by norm_num), vn_num hlog (by norm_num) (by norm_num), ?_, ?_⟩⟩
  · norm_num [h4]
    linarith
  · have : Real.log (1 / 4) = -Real.log 4 := by rw [one_div, Real.log_inv]
    rw [this, div_one, h4]
    linarith
  · norm_num [h4]
    linarith
  · norm_num [h4]
    linarith

/-- C114. From the matrix of uncorrelated assets, the divergence of a correlation matrix is minus the logarithm of its determinant. -/
theorem logDet_uncorrelated {P : Matrix (Fin n) (Fin n) ℝ} (hP : P.PosDef) (h1 : ∀ i, P i i = 1) :
    logDetDivergence (.square n P) (.square n 1) = .ok (-Real.log P.det) := by
  rw [logDet_ld hP PosDef.one]
  congr 1
  have ht : P.trace = n := by simp [Matrix.trace, h1]
  unfold ld
  rw [inv_one, Matrix.mul_one, ht, abs_of_pos hP.det_pos]
  ring

/-- Cases: two correlation matrices of two assets; three assets of which two are kept; a portfolio of both. -/
example : ∃ r s, logDetDivergence (.square 2 halfCor) (.square 2 1) = .ok r ∧
    logDetDivergence (.square 1 (halfCor.submatrix ![1] ![1])) (.square 1 ((1 : Matrix (Fin 2) (Fin 2) ℝ).submatrix ![1] ![1])) = .ok s ∧ s ≤ r := by
  obtain ⟨logm, hlog⟩ := logm_exists
  obtain ⟨r, s, h1, h2, h3, -⟩ := logDet_subset (vonNeuman_negative hlog).1 PosDef.one (e := ![1]) (Function.injective_of_subsingleton _)
  exact ⟨r, s, h1, h2, h3⟩

example (hlog : LogmSpec logm) : ∃ r, vonNeumanDivergence logm (.square 2 halfCor) (.square 2 1) = .ok r ∧ 1 / 8 ≤ r := by
  obtain ⟨r, h1, h2⟩ := vonNeuman_correlations hlog (vonNeuman_negative hlog).1 PosDef.one (fun i => by fin_cases i <;> simp [halfCor])
    (fun i => one_apply_eq i) 0 1
  refine ⟨r, h1, ?_⟩
  have h3 : |halfCor 0 1 - (1 : Matrix (Fin 2) (Fin 2) ℝ) 0 1| = 1 / 2 := by
    norm_num [halfCor, abs_of_neg]
  rw [h3] at h2
  have h4 := Real.le_sqrt' (by norm_num : (0 : ℝ) < 1 / 2) |>.mp h2
  push_cast at h4
  linarith

end Verif.MatDiv
