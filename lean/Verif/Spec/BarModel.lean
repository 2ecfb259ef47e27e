import Verif.Spec.LongSample
import Mathlib.Probability.Moments.Variance

/-!
# Independent price bars
-/

namespace Verif.Stat

open MeasureTheory ProbabilityTheory

/-- The logarithm of the open over the previous close. -/
def on (x : Fin 4 → ℝ) : ℝ := x 0
/-- The logarithm of the high over the open. -/
def up (x : Fin 4 → ℝ) : ℝ := x 1
/-- The logarithm of the low over the open. -/
def dn (x : Fin 4 → ℝ) : ℝ := x 2
/-- The logarithm of the close over the open. -/
def oc (x : Fin 4 → ℝ) : ℝ := x 3

/-- Positive prices of bars whose four log ratios are independent from bar to bar and identically distributed, with finite
variances. -/
structure BarModel {Ω : Type*} [MeasurableSpace Ω] (P : Measure Ω) (X : Nat → Ω → Fin 4 → ℝ) (O H L C : Ω → Nat → ℝ) : Prop where
  iid : IID P X
  sq : ∀ k, MemLp (fun ω => X 0 ω k) 2 P
  pos : ∀ ω t, 0 < O ω t
  opens : ∀ ω t, O ω (t + 1) = C ω t * Real.exp (on (X (t + 1) ω))
  high : ∀ ω t, H ω t = O ω t * Real.exp (up (X t ω))
  low : ∀ ω t, L ω t = O ω t * Real.exp (dn (X t ω))
  close : ∀ ω t, C ω t = O ω t * Real.exp (oc (X t ω))

end Verif.Stat
