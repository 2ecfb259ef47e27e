import Verif.Spec.Sim

/-!
# Specification vocabulary for calibration
-/

namespace Verif.Sim

/-- Change of column `j` from row `t` to row `t + 1`. -/
def inc (x : Arr) (j t : Nat) : ℝ := x.get (t + 1) j - x.get t j

/-- Log-return of column `j` from row `t` to row `t + 1`. -/
noncomputable def logInc (x : Arr) (j t : Nat) : ℝ := Real.log (x.get (t + 1) j) - Real.log (x.get t j)

/-- All `n` values of a sequence agree. -/
def Constant (n : Nat) (f : Nat → ℝ) : Prop := ∀ i < n, ∀ k < n, f i = f k

/-- No non-trivial linear combination of the `v` sequences is constant over the `n` observations. -/
def NotCollinear (v n : Nat) (f : Nat → Nat → ℝ) : Prop :=
  ∀ c : Nat → ℝ, Constant n (fun t => ∑ j ∈ Finset.range v, c j * f j t) → ∀ j < v, c j = 0

/-- `np.linalg.cholesky` succeeds exactly on the positive definite matrices (in exact arithmetic). -/
def CholTotal (chol : Arr → Option Arr) : Prop :=
  ∀ A : Arr, A.rows = A.cols → (∀ i < A.rows, ∀ j < A.rows, A.get i j = A.get j i) →
    (chol A ≠ none ↔ ∀ c : Nat → ℝ, (∃ j < A.rows, c j ≠ 0) →
      0 < ∑ i ∈ Finset.range A.rows, ∑ j ∈ Finset.range A.rows, c i * c j * A.get i j)

/-- `np.linalg.cholesky` keeps the shape. -/
def CholShape (chol : Arr → Option Arr) : Prop :=
  ∀ A L : Arr, chol A = some L → L.rows = A.rows ∧ L.cols = A.cols

end Verif.Sim
