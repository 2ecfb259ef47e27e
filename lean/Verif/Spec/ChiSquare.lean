import Mathlib.Probability.Distributions.Gaussian.Real
import Mathlib.MeasureTheory.Constructions.Pi

/-!
# The chi-square distribution
-/

namespace Verif.Stat

open MeasureTheory ProbabilityTheory

/-- The distribution of the sum of the squares of `k` independent standard normal variables. -/
noncomputable def chiSquare (k : Nat) : Measure ℝ := (Measure.pi fun _ : Fin k => gaussianReal 0 1).map fun x => ∑ i, x i ^ 2

end Verif.Stat
