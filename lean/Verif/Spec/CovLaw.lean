import Verif.Spec.SimLaw
import Verif.Model.Cov

/-!
# Random covariance matrices
-/

namespace Verif.Cov

/-- `np.random.normal(scale=2**0.5 / rows, size=(rows, dim))` with `rows = 2 * dim` (`cov.py:413-414`), from standard normal
draws. -/
noncomputable def scaledDraws {Ω : Type*} {n : Nat} (ζ : Fin (2 * n) × Fin n → Ω → ℝ) (ω : Ω) : Matrix (Fin (2 * n)) (Fin n) ℝ :=
  fun i j => Real.sqrt 2 / (2 * n) * ζ (i, j) ω

/-- Strictly positive definite. -/
def StrictPos {n : Nat} (C : Mat n) : Prop := C.IsSymm ∧ ∀ v : Fin n → ℝ, v ≠ 0 → 0 < dotProduct v (C.mulVec v)

end Verif.Cov
