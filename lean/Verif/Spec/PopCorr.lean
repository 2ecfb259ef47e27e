import Mathlib.Probability.Moments.Variance
import Mathlib.Probability.Moments.Covariance

/-!
# The correlation and the rank correlation of two random variables
-/

namespace Verif.Stat

open MeasureTheory ProbabilityTheory

/-- The covariance divided by the standard deviations. -/
noncomputable def popCorr {Ω : Type*} [MeasurableSpace Ω] (P : Measure Ω) (f g : Ω → ℝ) : ℝ := cov[f, g; P] / (√Var[f; P] * √Var[g; P])

/-- The rank of a number in a law: the probability of smaller numbers and half the probability of the number. -/
noncomputable def grade (μ : Measure ℝ) (v : ℝ) : ℝ := (μ.real (Set.Iio v) + μ.real (Set.Iic v)) / 2

/-- The correlation of the ranks of two random variables, each in its own law. -/
noncomputable def rankCorr {Ω : Type*} [MeasurableSpace Ω] (P : Measure Ω) (f g : Ω → ℝ) : ℝ :=
  popCorr P (fun ω => grade (P.map f) (f ω)) fun ω => grade (P.map g) (g ω)

end Verif.Stat
