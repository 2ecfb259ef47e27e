import Verif.Spec.Cov

/-!
# One correlated pair among uncorrelated assets
-/

namespace Verif.Cov

/-- The first two of `N + 2` assets have correlation `ρ`, the others are uncorrelated. -/
def pairCor (N : Nat) (ρ : ℝ) : Mat (N + 2) := fun i j =>
  if i = j then 1 else if (i = 0 ∧ j = 1) ∨ (i = 1 ∧ j = 0) then ρ else 0

end Verif.Cov
