import Verif.Spec.SimLaw
import Verif.Spec.SimFit
import Verif.Lemmas.SimFit
import Mathlib.Analysis.Matrix.LDL
import Mathlib.LinearAlgebra.Matrix.Block

/-!
# There is a function that meets the specification of `np.linalg.cholesky`
-/

namespace Verif.Sim

open Matrix

theorem lower_factor {m : Nat} {S : Matrix (Fin m) (Fin m) ℝ} (hS : S.PosDef) :
    ∃ L : Matrix (Fin m) (Fin m) ℝ, (∀ i j, i < j → L i j = 0) ∧ (∀ i, 0 < L i i) ∧ L * L.transpose = S := by
  have htri : (LDL.lowerInv hS).BlockTriangular OrderDual.toDual := fun i j hij => LDL.lowerInv_triangular hS hij
  have hlow : (LDL.lower hS).BlockTriangular OrderDual.toDual := blockTriangular_inv_of_blockTriangular htri
  have hunit : IsUnit (LDL.lowerInv hS) := isUnit_of_invertible _
  have hlu : IsUnit (LDL.lower hS) := by
    rw [LDL.lower]
    exact (Matrix.isUnit_nonsing_inv_iff).mpr hunit
  have hd0 : ∀ i, LDL.lower hS i i ≠ 0 := by
    have := (Matrix.isUnit_iff_isUnit_det _).mp hlu
    rw [Matrix.det_of_isLowerTriangular _ hlow, isUnit_iff_ne_zero, Finset.prod_ne_zero_iff] at this
    exact fun i => this i (Finset.mem_univ _)
  have hdiag : (LDL.diag hS).PosDef := by
    rw [LDL.diag_eq_lowerInv_conj]
    exact hS.mul_mul_conjTranspose_same (Matrix.vecMul_injective_of_isUnit hunit)
  have hpos : ∀ i, 0 < LDL.diagEntries hS i := fun i => by
    have := hdiag.diag_pos (i := i)
    simpa [LDL.diag] using this
  set w : Fin m → ℝ := fun i => Real.sqrt (LDL.diagEntries hS i) * (if 0 < LDL.lower hS i i then 1 else -1) with hw
  have hww : ∀ i, w i * w i = LDL.diagEntries hS i := fun i => by
    simp only [hw]
    split_ifs
    · rw [mul_one, Real.mul_self_sqrt (hpos i).le]
    · rw [mul_neg_one, neg_mul_neg, Real.mul_self_sqrt (hpos i).le]
  refine ⟨LDL.lower hS * Matrix.diagonal w, fun i j hij => ?_, fun i => ?_, ?_⟩
  · rw [Matrix.mul_diagonal, hlow hij, zero_mul]
  · rw [Matrix.mul_diagonal]
    simp only [hw]
    have hs := Real.sqrt_pos.mpr (hpos i)
    split_ifs with h
    · rw [mul_one]; exact mul_pos h hs
    · have : LDL.lower hS i i < 0 := lt_of_le_of_ne (not_lt.mp h) (hd0 i)
      rw [mul_neg_one, mul_neg]
      have := mul_neg_of_neg_of_pos this hs
      linarith
  · conv_rhs => rw [← LDL.lower_conj_diag hS]
    rw [Matrix.transpose_mul, Matrix.diagonal_transpose, ← Matrix.mul_assoc, Matrix.mul_assoc (LDL.lower hS),
      Matrix.diagonal_mul_diagonal]
    congr 2
    rw [LDL.diag]
    congr 1
    exact funext hww

/-- The matrix that `np.linalg.cholesky` reads: the lower triangle. -/
def symOf (A : Arr) : Matrix (Fin A.rows) (Fin A.rows) ℝ := Matrix.of fun i j => A.get (max i j : ℕ) (min i j : ℕ)

open Classical in
/-- A Cholesky factorisation. -/
noncomputable def exactChol (A : Arr) : Option Arr :=
  if h : (symOf A).PosDef then
    some ⟨A.rows, A.rows, fun k => if hk : k / A.rows < A.rows then
      Classical.choose (lower_factor h) ⟨k / A.rows, hk⟩ ⟨k % A.rows, Nat.mod_lt _ (lt_of_le_of_lt (Nat.zero_le _) hk)⟩ else 0⟩
  else none

theorem exactChol_get {A L : Arr} (h : exactChol A = some L) : L.rows = A.rows ∧ L.cols = A.rows ∧
    ∃ M : Matrix (Fin A.rows) (Fin A.rows) ℝ, (∀ i j, i < j → M i j = 0) ∧ (∀ i, 0 < M i i) ∧ M * M.transpose = symOf A ∧
      ∀ i j : Fin A.rows, L.get i j = M i j := by
  unfold exactChol at h
  split at h
  · rename_i hp
    cases h
    obtain ⟨h1, h2, h3⟩ := Classical.choose_spec (lower_factor hp)
    refine ⟨rfl, rfl, _, h1, h2, h3, fun i j => ?_⟩
    have e1 : (i * A.rows + j : ℕ) / A.rows = i := by
      rw [Nat.mul_comm, Nat.mul_add_div (by have := i.2; omega), Nat.div_eq_of_lt j.2, add_zero]
    have e2 : (i * A.rows + j : ℕ) % A.rows = j := by
      rw [Nat.mul_comm, Nat.mul_add_mod, Nat.mod_eq_of_lt j.2]
    simp only [Arr.get, e1, e2, Fin.is_lt, dite_true, Fin.eta]
  · cases h

theorem exactChol_factor : CholFactor exactChol := by
  intro A L hsq h
  obtain ⟨h1, h2, M, m1, m2, m3, m4⟩ := exactChol_get h
  refine ⟨h1, h2, fun i j hij hj => ?_, fun i hi => ?_, fun i j hji hi => ?_⟩
  · rw [m4 ⟨i, by omega⟩ ⟨j, hj⟩]
    exact m1 _ _ hij
  · rw [m4 ⟨i, hi⟩ ⟨i, hi⟩]
    exact m2 _
  · have e := congrFun (congrFun m3 ⟨i, hi⟩) ⟨j, by omega⟩
    rw [Matrix.mul_apply] at e
    simp only [symOf, Matrix.transpose_apply, Matrix.of_apply, max_eq_left hji, min_eq_right hji] at e
    rw [← e, Finset.sum_range]
    exact Finset.sum_congr rfl fun k _ => by rw [m4 ⟨i, hi⟩ k, m4 ⟨j, by omega⟩ k]

theorem exactChol_total : CholTotal exactChol := by
  intro A hsq hsym
  have hs : symOf A = Matrix.of fun i j : Fin A.rows => A.get i j := by
    ext i j
    simp only [symOf, Matrix.of_apply]
    rcases le_total i j with h | h
    · have h' : (i : ℕ) ≤ j := h
      rw [max_eq_right h', min_eq_left h', hsym _ j.2 _ i.2]
    · have h' : (j : ℕ) ≤ i := h
      rw [max_eq_left h', min_eq_right h']
  have hherm : (symOf A).IsHermitian := by
    ext i j
    rw [hs]
    simp only [Matrix.conjTranspose_apply, Matrix.of_apply, star_trivial]
    exact hsym _ j.2 _ i.2
  have hform : ∀ c : Nat → ℝ, ∑ i ∈ Finset.range A.rows, ∑ j ∈ Finset.range A.rows, c i * c j * A.get i j =
      (fun i : Fin A.rows => c i) ⬝ᵥ (symOf A *ᵥ fun i : Fin A.rows => c i) := fun c => by
    rw [hs, Finset.sum_range]
    simp only [dotProduct, Matrix.mulVec, Matrix.of_apply, Finset.mul_sum]
    refine Finset.sum_congr rfl fun i _ => ?_
    rw [Finset.sum_range]
    exact Finset.sum_congr rfl fun j _ => by ring
  have hiff : exactChol A ≠ none ↔ (symOf A).PosDef := by
    unfold exactChol
    split
    · rename_i h; simp [h]
    · rename_i h; simp [h]
  rw [hiff, Matrix.posDef_iff_dotProduct_mulVec]
  constructor
  · rintro ⟨-, h⟩ c ⟨j, hj, hc⟩
    rw [hform]
    have := h (x := fun i : Fin A.rows => c i) (fun h0 => hc (congrFun h0 ⟨j, hj⟩))
    simpa using this
  · intro h
    refine ⟨hherm, fun x hx => ?_⟩
    obtain ⟨i, hi⟩ := Function.ne_iff.mp hx
    have := h (fun k => if hk : k < A.rows then x ⟨k, hk⟩ else 0) ⟨i, i.2, by simpa using hi⟩
    rw [hform] at this
    simpa using this

/-- The specifications of `np.linalg.cholesky` can be met together. -/
theorem chol_exists : ∃ chol, CholTotal chol ∧ CholFactor chol :=
  ⟨exactChol, exactChol_total, exactChol_factor⟩

end Verif.Sim
