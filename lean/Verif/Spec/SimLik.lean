import Verif.Spec.Cov
import Verif.Spec.SimFit
import Mathlib.LinearAlgebra.Matrix.NonsingularInverse
import Mathlib.Analysis.SpecialFunctions.Trigonometric.Basic

/-!
# Specification vocabulary for likelihoods
-/

namespace Verif.Sim

open Verif.Cov (Mat Pair)

/-- The logarithm of the density of the normal distribution with mean `μ` and covariance matrix `S`. -/
noncomputable def logDensity {d : Nat} (μ : Fin d → ℝ) (S : Mat d) (y : Fin d → ℝ) : ℝ :=
  -(1 / 2) * (d * Real.log (2 * Real.pi) + Real.log S.det + dotProduct (y - μ) (S⁻¹.mulVec (y - μ)))

/-- The covariance matrix with standard deviations `s` and correlations `c`. -/
noncomputable def covOf (d : Nat) (s : Nat → ℝ) (c : Arr) : Mat d := fun i j => s i * s j * c.get i j

/-- A symmetric array of the given size. -/
structure SymArr (d : Nat) (c : Arr) : Prop where
  rows : c.rows = d
  cols : c.cols = d
  symm : ∀ i < d, ∀ j < d, c.get i j = c.get j i

/-- `eigh` in every dimension. -/
def EighAll (eigh : (d : Nat) → Mat d → List (Pair d)) : Prop := ∀ d, Verif.Cov.EighSpec (eigh d)

end Verif.Sim
