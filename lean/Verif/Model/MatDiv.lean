import Verif.Prelude
import Mathlib.LinearAlgebra.Matrix.Charpoly.Eigs
import Mathlib.LinearAlgebra.Matrix.NonsingularInverse
import Mathlib.Analysis.Complex.Polynomial.Basic
import Mathlib.Analysis.SpecialFunctions.Log.Basic

/-!
# `quantfinlib/distance/matrix_divergence.py`

Arithmetic is exact. `np.linalg.eigvals` is the multiset of complex roots of the characteristic polynomial. Stacks of matrices (arrays of
three or more dimensions), which numpy would accept, are not modelled.
-/

namespace Verif.MatDiv

open Matrix

/-- An argument: a square matrix of finite numbers, or anything else `np.linalg.eigvals` rejects with `LinAlgError`
(other shapes, entries that are not finite). -/
inductive MatArg
  | square (n : Nat) (M : Matrix (Fin n) (Fin n) ℝ)
  | other

/-- `np.linalg.eigvals` -/
noncomputable def eigvals {n : Nat} (M : Matrix (Fin n) (Fin n) ℝ) : Multiset ℂ :=
  (M.map (algebraMap ℝ ℂ)).charpoly.roots

/-- `np.all(eigvals > 0)`: complex numbers are compared by their real parts, then by their imaginary parts. For real
eigenvalues this is the order of the real numbers. -/
def allPositive (e : Multiset ℂ) : Prop := ∀ z ∈ e, 0 < z.re ∨ (z.re = 0 ∧ 0 < z.im)

open Classical in
/-- `_assert_positive_definite` (`matrix_divergence.py:7-9`). The second matrix is looked at only if the first passes. -/
noncomputable def assertPositiveDefinite : MatArg → MatArg → Py Unit
  | .other, _ => .error .linAlgError
  | .square _ p, q =>
    if allPositive (eigvals p) then
      match q with
      | .other => .error .linAlgError
      | .square _ q => if allPositive (eigvals q) then .ok () else .error .assertionError
    else .error .assertionError

/-- The matrix product of two square matrices fails for different sizes. -/
noncomputable def withSizes (p q : MatArg)
    (f : (n : Nat) → Matrix (Fin n) (Fin n) ℝ → Matrix (Fin n) (Fin n) ℝ → ℝ) : Py ℝ :=
  match p, q with
  | .square n p, .square m q => if h : n = m then .ok (f n p (q.submatrix (Fin.cast h) (Fin.cast h))) else .error .valueError
  | _, _ => .error .linAlgError

/-- `log_det_divergence` (`matrix_divergence.py:12-36`). `slogdet` gives the logarithm of the absolute determinant. -/
noncomputable def logDetDivergence (p q : MatArg) : Py ℝ := do
  assertPositiveDefinite p q
  withSizes p q fun n p q =>
    let pqInv := p * q⁻¹
    pqInv.trace - Real.log |pqInv.det| - n

/-- `von_neuman_divergence` (`matrix_divergence.py:39-62`); `logm` is `scipy.linalg.logm`. For matrices of different sizes the sums fail,
except that a `1 × 1` second matrix is broadcast to the size of the first; a `1 × 1` first matrix passes the subtraction but not the
matrix product. -/
noncomputable def vonNeumanDivergence (logm : (n : Nat) → Matrix (Fin n) (Fin n) ℝ → Matrix (Fin n) (Fin n) ℝ)
    (p q : MatArg) : Py ℝ := do
  assertPositiveDefinite p q
  match p, q with
  | .square n p, .square m q =>
    if h : n = m then
      let q := q.submatrix (Fin.cast h) (Fin.cast h)
      .ok ((p * (logm n p - logm n q)).trace + (-p + q).trace)
    else if h : m = 1 then
      let z : Fin m := ⟨0, by omega⟩
      .ok ((p * (logm n p - Matrix.of fun _ _ => logm m q z z)).trace + (-p + Matrix.of fun _ _ => q z z).trace)
    else .error .valueError
  | _, _ => .error .linAlgError

/-- What is assumed of `scipy.linalg.logm`: on a positive definite symmetric matrix it takes the logarithms of the
eigenvalues. -/
def LogmSpec (logm : (n : Nat) → Matrix (Fin n) (Fin n) ℝ → Matrix (Fin n) (Fin n) ℝ) : Prop :=
  ∀ (n : Nat) (V : Matrix (Fin n) (Fin n) ℝ) (d : Fin n → ℝ), V * Vᵀ = 1 → (∀ i, 0 < d i) →
    logm n (V * diagonal d * Vᵀ) = V * (diagonal fun i => Real.log (d i)) * Vᵀ

end Verif.MatDiv
