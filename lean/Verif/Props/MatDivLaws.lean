import Verif.Props.MatDiv
import Mathlib.Analysis.Matrix.Order
import Mathlib.LinearAlgebra.Matrix.SchurComplement

/-!
# C114: what the matrix divergences say about subsets, portfolios, scales and blocks
-/

namespace Verif.MatDiv

open Matrix

variable {n k : Nat}

/-- The value of the log-determinant divergence. -/
noncomputable def ld (P Q : Matrix (Fin n) (Fin n) ℝ) : ℝ := (P * Q⁻¹).trace - Real.log |(P * Q⁻¹).det| - n

theorem logDet_ld {P Q : Matrix (Fin n) (Fin n) ℝ} (hP : P.PosDef) (hQ : Q.PosDef) :
    logDetDivergence (.square n P) (.square n Q) = .ok (ld P Q) := logDet_eq (posDef_passes hP) (posDef_passes hQ)

theorem ld_nonneg {P Q : Matrix (Fin n) (Fin n) ℝ} (hP : P.PosDef) (hQ : Q.PosDef) : 0 ≤ ld P Q := by
  obtain ⟨r, h1, h2, -⟩ := logDet_nonneg hP hQ
  rw [logDet_ld hP hQ] at h1
  rw [Except.ok.inj h1]
  exact h2

/-- Covariances of linear combinations. -/
theorem posDef_combine {P : Matrix (Fin n) (Fin n) ℝ} (hP : P.PosDef) {A : Matrix (Fin k) (Fin n) ℝ}
    (hA : Function.Injective A.vecMul) : (A * P * Aᵀ).PosDef := by
  have := hP.mul_mul_conjTranspose_same (B := A) hA
  rwa [conjTranspose_eq_transpose_of_trivial] at this

theorem posDef_transpose {P : Matrix (Fin n) (Fin n) ℝ} (hP : P.PosDef) : Pᵀ = P := by
  have := hP.1.eq
  rwa [conjTranspose_eq_transpose_of_trivial] at this

/-- The exact decomposition: what the linear combinations see, and the rest. -/
theorem ld_split {P Q : Matrix (Fin n) (Fin n) ℝ} (hP : P.PosDef) (hQ : Q.PosDef) {A : Matrix (Fin k) (Fin n) ℝ}
    (hA : Function.Injective A.vecMul) :
    ∃ R : Matrix (Fin n) (Fin n) ℝ, R.PosDef ∧ ld P Q = ld (A * P * Aᵀ) (A * Q * Aᵀ) + ld P R := by
  have hp := posDef_combine hP hA
  have hq := posDef_combine hQ hA
  set p := A * P * Aᵀ with ep
  set q := A * Q * Aᵀ with eq
  have dQ : IsUnit Q.det := isUnit_iff_ne_zero.mpr hQ.det_pos.ne'
  have dq : IsUnit q.det := isUnit_iff_ne_zero.mpr hq.det_pos.ne'
  have dp : IsUnit p.det := isUnit_iff_ne_zero.mpr hp.det_pos.ne'
  have tQ := posDef_transpose hQ
  have tqi := posDef_transpose hq.inv
  set S := Q⁻¹ + Aᵀ * (p⁻¹ - q⁻¹) * A with hS
  have hSdet : S.det = Q.det⁻¹ * (p.det⁻¹ * q.det) := by
    have e : S = Q⁻¹ * (1 + (Q * Aᵀ) * ((p⁻¹ - q⁻¹) * A)) := by
      rw [hS, Matrix.mul_add, Matrix.mul_one, Matrix.mul_assoc Q, ← Matrix.mul_assoc Q⁻¹, Matrix.nonsing_inv_mul _ dQ, Matrix.one_mul,
        ← Matrix.mul_assoc Aᵀ]
    have e2 : (1 : Matrix (Fin k) (Fin k) ℝ) + ((p⁻¹ - q⁻¹) * A) * (Q * Aᵀ) = p⁻¹ * q := by
      rw [Matrix.mul_assoc, ← Matrix.mul_assoc A, ← eq, Matrix.sub_mul, Matrix.nonsing_inv_mul _ dq]
      abel
    rw [e, det_mul, det_one_add_mul_comm, e2, det_mul, det_nonsing_inv, det_nonsing_inv, Ring.inverse_eq_inv']
  have hSpos : S.PosDef := by
    have hT : (Q⁻¹ - Aᵀ * q⁻¹ * A).PosSemidef := by
      have := hQ.inv.posSemidef.conjTranspose_mul_mul_same (1 - Q * Aᵀ * q⁻¹ * A)
      rw [conjTranspose_eq_transpose_of_trivial] at this
      have e : (1 - Q * Aᵀ * q⁻¹ * A)ᵀ * Q⁻¹ * (1 - Q * Aᵀ * q⁻¹ * A) = Q⁻¹ - Aᵀ * q⁻¹ * A := by
        have et : (1 - Q * Aᵀ * q⁻¹ * A)ᵀ = 1 - Aᵀ * q⁻¹ * A * Q := by
          rw [transpose_sub, transpose_one, transpose_mul, transpose_mul, transpose_mul, transpose_transpose, tQ, tqi]
          simp only [Matrix.mul_assoc]
        have e1 : (1 - Aᵀ * q⁻¹ * A * Q) * Q⁻¹ = Q⁻¹ - Aᵀ * q⁻¹ * A := by
          rw [Matrix.sub_mul, Matrix.one_mul, Matrix.mul_assoc _ Q, Matrix.mul_nonsing_inv _ dQ, Matrix.mul_one]
        have e2 : Q⁻¹ * (Q * Aᵀ * q⁻¹ * A) = Aᵀ * q⁻¹ * A := by
          rw [Matrix.mul_assoc, Matrix.mul_assoc, ← Matrix.mul_assoc, Matrix.nonsing_inv_mul _ dQ, Matrix.one_mul, Matrix.mul_assoc]
        have e3 : Aᵀ * q⁻¹ * A * (Q * Aᵀ * q⁻¹ * A) = Aᵀ * q⁻¹ * A := by
          have : Aᵀ * q⁻¹ * A * (Q * Aᵀ * q⁻¹ * A) = Aᵀ * q⁻¹ * (A * Q * Aᵀ) * q⁻¹ * A := by simp only [Matrix.mul_assoc]
          rw [this, ← eq, Matrix.mul_assoc _ q⁻¹ q, Matrix.nonsing_inv_mul _ dq, Matrix.mul_one]
        rw [et, e1, Matrix.mul_sub, Matrix.mul_one, Matrix.sub_mul, e2, e3]
        abel
      rwa [e] at this
    have hp2 : (Aᵀ * p⁻¹ * A).PosSemidef := by
      have := hp.inv.posSemidef.conjTranspose_mul_mul_same A
      rwa [conjTranspose_eq_transpose_of_trivial] at this
    have hs : S.PosSemidef := by
      have := hT.add hp2
      have e : Q⁻¹ - Aᵀ * q⁻¹ * A + Aᵀ * p⁻¹ * A = S := by
        rw [hS, Matrix.mul_sub, Matrix.sub_mul]; abel
      rwa [e] at this
    refine hs.posDef_iff_isUnit.mpr ?_
    rw [Matrix.isUnit_iff_isUnit_det, hSdet, isUnit_iff_ne_zero]
    have := hQ.det_pos
    have := hp.det_pos
    have := hq.det_pos
    positivity
  refine ⟨S⁻¹, hSpos.inv, ?_⟩
  have dS : IsUnit S.det := isUnit_iff_ne_zero.mpr hSpos.det_pos.ne'
  unfold ld
  rw [Matrix.nonsing_inv_nonsing_inv _ dS]
  have ht : (P * S).trace = (P * Q⁻¹).trace + (k - (p * q⁻¹).trace) := by
    rw [hS, Matrix.mul_add, trace_add]
    congr 1
    have e : P * (Aᵀ * (p⁻¹ - q⁻¹) * A) = (P * Aᵀ * (p⁻¹ - q⁻¹)) * A := by simp only [Matrix.mul_assoc]
    rw [e, Matrix.trace_mul_comm, ← Matrix.mul_assoc, ← Matrix.mul_assoc, ← ep, Matrix.mul_sub, trace_sub, Matrix.mul_nonsing_inv _ dp,
      trace_one, Fintype.card_fin]
  have hd : Real.log |(P * S).det| = Real.log |(P * Q⁻¹).det| - Real.log |(p * q⁻¹).det| := by
    rw [det_mul, det_mul, det_mul, hSdet, det_nonsing_inv, det_nonsing_inv, Ring.inverse_eq_inv',
      ← Real.log_div]
    · congr 1
      rw [← abs_div]
      congr 1
      have := hQ.det_pos.ne'
      have := hp.det_pos.ne'
      have := hq.det_pos.ne'
      field_simp
    · have := hQ.det_pos.ne'
      have := hP.det_pos.ne'
      positivity
    · have := hp.det_pos.ne'
      have := hq.det_pos.ne'
      positivity
  rw [ht, hd]
  ring

/-- C114. Linear combinations (portfolios) of the assets have a divergence at most that of the assets. -/
theorem logDet_portfolios {P Q : Matrix (Fin n) (Fin n) ℝ} (hP : P.PosDef) (hQ : Q.PosDef) {A : Matrix (Fin k) (Fin n) ℝ}
    (hA : Function.Injective A.vecMul) :
    ∃ r s, logDetDivergence (.square n P) (.square n Q) = .ok r ∧
      logDetDivergence (.square k (A * P * Aᵀ)) (.square k (A * Q * Aᵀ)) = .ok s ∧ s ≤ r := by
  refine ⟨_, _, logDet_ld hP hQ, logDet_ld (posDef_combine hP hA) (posDef_combine hQ hA), ?_⟩
  obtain ⟨R, hR, e⟩ := ld_split hP hQ hA
  rw [e]
  linarith [ld_nonneg hP hR]

/-- The selection of some of the assets, as a matrix. -/
def pick (e : Fin k → Fin n) : Matrix (Fin k) (Fin n) ℝ := (1 : Matrix (Fin n) (Fin n) ℝ).submatrix e id

theorem pick_conj (e : Fin k → Fin n) (P : Matrix (Fin n) (Fin n) ℝ) : pick e * P * (pick e)ᵀ = P.submatrix e e := by
  unfold pick
  ext i j
  rw [Matrix.mul_apply]
  simp [Matrix.mul_apply, Matrix.one_apply]

theorem pick_injective {e : Fin k → Fin n} (he : Function.Injective e) : Function.Injective (pick e).vecMul := by
  intro v w h
  funext i
  have h1 : ∀ u : Fin k → ℝ, (pick e).vecMul u (e i) = u i := by
    intro u
    simp [pick, Matrix.vecMul, dotProduct, Matrix.one_apply, he.eq_iff]
  rw [← h1 v, ← h1 w]
  exact congrFun h (e i)

/-- C114. Leaving out assets does not increase the divergence, and their order does not matter. -/
theorem logDet_subset {P Q : Matrix (Fin n) (Fin n) ℝ} (hP : P.PosDef) (hQ : Q.PosDef) {e : Fin k → Fin n} (he : Function.Injective e) :
    ∃ r s, logDetDivergence (.square n P) (.square n Q) = .ok r ∧
      logDetDivergence (.square k (P.submatrix e e)) (.square k (Q.submatrix e e)) = .ok s ∧ s ≤ r ∧ (Function.Surjective e → s = r) := by
  obtain ⟨r, s, h1, h2, h3⟩ := logDet_portfolios hP hQ (pick_injective he)
  rw [pick_conj, pick_conj] at h2
  refine ⟨r, s, h1, h2, h3, fun hs => ?_⟩
  set f := Equiv.ofBijective e ⟨he, hs⟩ with hf
  obtain ⟨r', s', h1', h2', h3'⟩ := logDet_portfolios (hP.submatrix he) (hQ.submatrix he) (pick_injective f.symm.injective)
  rw [pick_conj, pick_conj] at h2'
  have hid : ∀ M : Matrix (Fin n) (Fin n) ℝ, (M.submatrix e e).submatrix f.symm f.symm = M := by
    intro M
    ext i j
    show M (f (f.symm i)) (f (f.symm j)) = M i j
    rw [f.apply_symm_apply, f.apply_symm_apply]
  rw [hid, hid, h1] at h2'
  rw [h2] at h1'
  have a := Except.ok.inj h1'
  have b := Except.ok.inj h2'
  linarith

theorem ld_one_one {a b : ℝ} (hb : 0 < b) :
    ld (of fun _ _ : Fin 1 => a) (of fun _ _ : Fin 1 => b) = a / b - Real.log |a / b| - 1 := by
  have hi : (of fun _ _ : Fin 1 => b)⁻¹ = of fun _ _ : Fin 1 => b⁻¹ := by
    refine Matrix.inv_eq_right_inv ?_
    ext i j
    simp [Matrix.mul_apply, Matrix.one_apply, Subsingleton.elim i j, hb.ne']
  unfold ld
  rw [hi]
  have hm : (of fun _ _ : Fin 1 => a) * (of fun _ _ : Fin 1 => b⁻¹) = of fun _ _ : Fin 1 => a / b := by
    ext i j
    simp [Matrix.mul_apply, div_eq_mul_inv]
  rw [hm, det_fin_one, trace_fin_one]
  simp

theorem sqrt_dist {x : ℝ} (hx : 0 < x) : (Real.sqrt x - 1) ^ 2 ≤ x - Real.log x - 1 := by
  have hs := Real.sqrt_pos.mpr hx
  have e := Real.sq_sqrt hx.le
  have h := Real.log_le_sub_one_of_pos hs
  have h2 : Real.log x = 2 * Real.log (Real.sqrt x) := by
    conv_lhs => rw [← e]
    rw [Real.log_pow]; norm_num
  rw [h2]
  nlinarith

/-- C114. The volatilities of every portfolio under the two matrices have a ratio that differs from one by at most the root of the
divergence. -/
theorem logDet_volatility {P Q : Matrix (Fin n) (Fin n) ℝ} (hP : P.PosDef) (hQ : Q.PosDef) {w : Fin n → ℝ} (hw : w ≠ 0) :
    ∃ r, logDetDivergence (.square n P) (.square n Q) = .ok r ∧
      |Real.sqrt (w ⬝ᵥ P *ᵥ w) / Real.sqrt (w ⬝ᵥ Q *ᵥ w) - 1| ≤ Real.sqrt r := by
  set A : Matrix (Fin 1) (Fin n) ℝ := of fun _ => w with hA
  have hinj : Function.Injective A.vecMul := by
    intro u v h
    obtain ⟨j, hj⟩ : ∃ j, w j ≠ 0 := by
      by_contra hc
      push Not at hc
      exact hw (funext hc)
    have := congrFun h j
    simp only [hA, Matrix.vecMul, dotProduct, Fin.sum_univ_one, of_apply] at this
    funext i
    rw [Subsingleton.elim i 0]
    exact mul_right_cancel₀ hj this
  have hc : ∀ M : Matrix (Fin n) (Fin n) ℝ, A * M * Aᵀ = of fun _ _ : Fin 1 => w ⬝ᵥ M *ᵥ w := by
    intro M
    ext i j
    rw [Matrix.mul_assoc, Matrix.mul_apply]
    simp [hA, dotProduct, Matrix.mulVec, Matrix.mul_apply]
  have pos : ∀ {M : Matrix (Fin n) (Fin n) ℝ}, M.PosDef → 0 < w ⬝ᵥ M *ᵥ w := by
    intro M hM
    have := hM.dotProduct_mulVec_pos hw
    rwa [star_trivial] at this
  obtain ⟨r, s, h1, h2, h3⟩ := logDet_portfolios hP hQ hinj
  refine ⟨r, h1, ?_⟩
  rw [logDet_ld (posDef_combine hP hinj) (posDef_combine hQ hinj), hc, hc, ld_one_one (pos hQ), abs_of_pos (div_pos (pos hP) (pos hQ))] at h2
  have hs := Except.ok.inj h2
  rw [← Real.sqrt_div (pos hP).le]
  apply Real.abs_le_sqrt
  refine (sqrt_dist (div_pos (pos hP) (pos hQ))).trans ?_
  linarith

/-- The divergence as a sum over the eigenvalues of one matrix relative to the other. -/
theorem ld_eigen {P Q : Matrix (Fin n) (Fin n) ℝ} (hP : P.PosDef) (hQ : Q.PosDef) :
    ∃ (d : Fin n → ℝ) (w : Fin n → Fin n → ℝ), (∀ i, 0 < d i) ∧ ld P Q = ∑ i, (d i - 1 - Real.log (d i)) ∧
      ∀ i, w i ⬝ᵥ P *ᵥ w i = d i ∧ w i ⬝ᵥ Q *ᵥ w i = 1 := by
  obtain ⟨B, hB, hu⟩ := posDef_factor hQ.inv
  have hdB := (Matrix.isUnit_iff_isUnit_det B).mp hu
  have hdBt : IsUnit (Bᵀ).det := by rwa [det_transpose]
  have hQB : Q = B⁻¹ * (Bᵀ)⁻¹ := by
    have : Q = (Q⁻¹)⁻¹ := (Matrix.nonsing_inv_nonsing_inv Q (isUnit_iff_ne_zero.mpr hQ.det_pos.ne')).symm
    rw [this, hB, Matrix.mul_inv_rev]
  have hBQ : B * Q * Bᵀ = 1 := by
    rw [hQB, ← Matrix.mul_assoc, Matrix.mul_nonsing_inv _ hdB, Matrix.one_mul, Matrix.nonsing_inv_mul _ hdBt]
  have hM : (B * P * Bᵀ).PosDef := by
    have := hP.mul_mul_conjTranspose_same (B := B) (Matrix.vecMul_injective_of_isUnit hu)
    rwa [conjTranspose_eq_transpose_of_trivial] at this
  have hp := hM.eigenvalues_pos
  obtain ⟨V, hV, hMV⟩ := spectral hM.1
  have hV' : Vᵀ * V = 1 := mul_eq_one_comm.mp hV
  set d := hM.1.eigenvalues with hd
  refine ⟨d, fun i => Bᵀ *ᵥ (fun j => V j i), hp, ?_, ?_⟩
  · have htr : (P * Q⁻¹).trace = (B * P * Bᵀ).trace := by
      rw [hB, ← Matrix.mul_assoc, Matrix.trace_mul_comm, ← Matrix.mul_assoc]
    have hdet : (P * Q⁻¹).det = (B * P * Bᵀ).det := by
      rw [hB, det_mul, det_mul, det_mul, det_mul]; ring
    have ht : (B * P * Bᵀ).trace = ∑ i, d i := by
      have := hM.1.trace_eq_sum_eigenvalues
      simpa using this
    have hdt : (B * P * Bᵀ).det = ∏ i, d i := by
      have := hM.1.det_eq_prod_eigenvalues
      simpa using this
    unfold ld
    rw [htr, hdet, ht, hdt, abs_of_pos (Finset.prod_pos fun i _ => hp i), Real.log_prod (fun i _ => (hp i).ne'),
      Finset.sum_sub_distrib, Finset.sum_sub_distrib]
    simp
    ring
  · intro i
    have key : ∀ M : Matrix (Fin n) (Fin n) ℝ,
        (Bᵀ *ᵥ fun j => V j i) ⬝ᵥ M *ᵥ (Bᵀ *ᵥ fun j => V j i) = (Vᵀ * (B * M * Bᵀ) * V) i i := by
      intro M
      have h1 : ∀ N : Matrix (Fin n) (Fin n) ℝ, (fun j => V j i) ⬝ᵥ N *ᵥ (fun j => V j i) = (Vᵀ * N * V) i i := by
        intro N
        rw [Matrix.mul_assoc, Matrix.mul_apply]
        rfl
      rw [← h1, Matrix.mulVec_mulVec, Matrix.dotProduct_mulVec, Matrix.mulVec_transpose, Matrix.vecMul_vecMul, ← Matrix.dotProduct_mulVec,
        Matrix.mul_assoc]
    constructor
    · dsimp only
      rw [key, hMV]
      have e : Vᵀ * (V * diagonal d * Vᵀ) * V = (Vᵀ * V) * diagonal d * (Vᵀ * V) := by simp only [Matrix.mul_assoc]
      rw [e, hV', Matrix.one_mul, Matrix.mul_one, diagonal_apply_eq]
    · dsimp only
      rw [key, hBQ, Matrix.mul_one, hV', one_apply_eq]

/-- C114. If the variance of every portfolio changes by at most the fraction `δ`, the divergence of `n` assets is at most
`n * δ ^ 2 / (1 - δ)`. -/
theorem logDet_close {P Q : Matrix (Fin n) (Fin n) ℝ} (hP : P.PosDef) (hQ : Q.PosDef) {δ : ℝ} (h1 : δ < 1)
    (h : ∀ w : Fin n → ℝ, |w ⬝ᵥ P *ᵥ w - w ⬝ᵥ Q *ᵥ w| ≤ δ * (w ⬝ᵥ Q *ᵥ w)) :
    ∃ r, logDetDivergence (.square n P) (.square n Q) = .ok r ∧ r ≤ n * (δ ^ 2 / (1 - δ)) := by
  refine ⟨_, logDet_ld hP hQ, ?_⟩
  obtain ⟨d, w, hd, e, hw⟩ := ld_eigen hP hQ
  rw [e]
  have : ∀ i ∈ Finset.univ, d i - 1 - Real.log (d i) ≤ δ ^ 2 / (1 - δ) := by
    intro i _
    have hi := h (w i)
    rw [(hw i).1, (hw i).2, mul_one, abs_le] at hi
    have hlog : 1 - (d i)⁻¹ ≤ Real.log (d i) := Real.one_sub_inv_le_log_of_pos (hd i)
    have h2 : d i - 1 - Real.log (d i) ≤ (d i - 1) ^ 2 / d i := by
      have e : (d i - 1) ^ 2 / d i = d i - 1 - (1 - (d i)⁻¹) := by
        have := (hd i).ne'
        field_simp
      rw [e]
      linarith
    refine h2.trans ?_
    have h3 : (d i - 1) ^ 2 ≤ δ ^ 2 := sq_le_sq' (by linarith) (by linarith)
    exact div_le_div₀ (sq_nonneg _) h3 (by linarith) (by linarith)
  refine (Finset.sum_le_card_nsmul _ _ _ this).trans ?_
  rw [Finset.card_univ, Fintype.card_fin, nsmul_eq_mul]

/-- Two groups of assets without correlation between them. -/
def blocks {m : Nat} (P : Matrix (Fin n) (Fin n) ℝ) (P' : Matrix (Fin m) (Fin m) ℝ) : Matrix (Fin (n + m)) (Fin (n + m)) ℝ :=
  (fromBlocks P 0 0 P').submatrix finSumFinEquiv.symm finSumFinEquiv.symm

theorem blocks_mul {m : Nat} (P Q : Matrix (Fin n) (Fin n) ℝ) (P' Q' : Matrix (Fin m) (Fin m) ℝ) :
    blocks P P' * blocks Q Q' = blocks (P * Q) (P' * Q') := by
  unfold blocks
  rw [submatrix_mul_equiv, fromBlocks_multiply]
  simp

theorem blocks_one {m : Nat} : blocks (1 : Matrix (Fin n) (Fin n) ℝ) (1 : Matrix (Fin m) (Fin m) ℝ) = 1 := by
  unfold blocks
  rw [fromBlocks_one, submatrix_one_equiv]

theorem blocks_trace {m : Nat} (P : Matrix (Fin n) (Fin n) ℝ) (P' : Matrix (Fin m) (Fin m) ℝ) :
    (blocks P P').trace = P.trace + P'.trace := by
  unfold blocks Matrix.trace
  rw [← finSumFinEquiv.sum_comp, Fintype.sum_sum_type]
  simp

theorem blocks_det {m : Nat} (P : Matrix (Fin n) (Fin n) ℝ) (P' : Matrix (Fin m) (Fin m) ℝ) :
    (blocks P P').det = P.det * P'.det := by
  unfold blocks
  rw [det_submatrix_equiv_self, det_fromBlocks_zero₁₂]

theorem blocks_transpose {m : Nat} (P : Matrix (Fin n) (Fin n) ℝ) (P' : Matrix (Fin m) (Fin m) ℝ) :
    (blocks P P')ᵀ = blocks Pᵀ P'ᵀ := by
  unfold blocks
  rw [transpose_submatrix, fromBlocks_transpose]
  simp

theorem blocks_posDef {m : Nat} {P : Matrix (Fin n) (Fin n) ℝ} {P' : Matrix (Fin m) (Fin m) ℝ} (hP : P.PosDef) (hP' : P'.PosDef) :
    (blocks P P').PosDef := by
  obtain ⟨B, hB, hu⟩ := posDef_factor hP
  obtain ⟨C, hC, hv⟩ := posDef_factor hP'
  have e : blocks P P' = (blocks B C)ᵀ * blocks B C := by rw [blocks_transpose, blocks_mul, ← hB, ← hC]
  rw [e]
  have := Matrix.PosDef.conjTranspose_mul_self (blocks B C) (Matrix.mulVec_injective_of_isUnit (by
    rw [Matrix.isUnit_iff_isUnit_det, blocks_det]
    exact ((Matrix.isUnit_iff_isUnit_det _).mp hu).mul ((Matrix.isUnit_iff_isUnit_det _).mp hv)))
  rwa [conjTranspose_eq_transpose_of_trivial] at this

/-- C114. The divergences of groups of assets without correlation between them add up. -/
theorem logDet_blocks {m : Nat} {P Q : Matrix (Fin n) (Fin n) ℝ} {P' Q' : Matrix (Fin m) (Fin m) ℝ} (hP : P.PosDef) (hQ : Q.PosDef)
    (hP' : P'.PosDef) (hQ' : Q'.PosDef) :
    ∃ r s, logDetDivergence (.square n P) (.square n Q) = .ok r ∧ logDetDivergence (.square m P') (.square m Q') = .ok s ∧
      logDetDivergence (.square (n + m) (blocks P P')) (.square (n + m) (blocks Q Q')) = .ok (r + s) := by
  refine ⟨_, _, logDet_ld hP hQ, logDet_ld hP' hQ', ?_⟩
  rw [logDet_ld (blocks_posDef hP hP') (blocks_posDef hQ hQ')]
  congr 1
  have hi : (blocks Q Q')⁻¹ = blocks Q⁻¹ Q'⁻¹ := by
    refine Matrix.inv_eq_right_inv ?_
    rw [blocks_mul, Matrix.mul_nonsing_inv _ (isUnit_iff_ne_zero.mpr hQ.det_pos.ne'),
      Matrix.mul_nonsing_inv _ (isUnit_iff_ne_zero.mpr hQ'.det_pos.ne'), blocks_one]
  unfold ld
  rw [hi, blocks_mul, blocks_trace, blocks_det, abs_mul, Real.log_mul, Nat.cast_add]
  · ring
  all_goals
    rw [abs_ne_zero, det_mul, det_nonsing_inv, Ring.inverse_eq_inv']
  · exact mul_ne_zero hP.det_pos.ne' (inv_ne_zero hQ.det_pos.ne')
  · exact mul_ne_zero hP'.det_pos.ne' (inv_ne_zero hQ'.det_pos.ne')

/-- C114. A common unit does not matter. -/
theorem logDet_scale {P Q : Matrix (Fin n) (Fin n) ℝ} (hP : P.PosDef) (hQ : Q.PosDef) {c : ℝ} (hc : 0 < c) :
    logDetDivergence (.square n (c • P)) (.square n (c • Q)) = logDetDivergence (.square n P) (.square n Q) := by
  have hs := Real.sqrt_pos.mpr hc
  have e : ∀ M : Matrix (Fin n) (Fin n) ℝ, c • M = (Real.sqrt c • (1 : Matrix (Fin n) (Fin n) ℝ)) * M * (Real.sqrt c • 1)ᵀ := by
    intro M
    rw [transpose_smul, transpose_one, Matrix.smul_mul, Matrix.one_mul, Matrix.mul_smul, Matrix.mul_one, smul_smul, Real.mul_self_sqrt hc.le]
  rw [e P, e Q]
  refine (logDet_invariance hP hQ).1 _ ?_
  exact (isUnit_one).smul (Units.mk0 _ hs.ne')

end Verif.MatDiv
