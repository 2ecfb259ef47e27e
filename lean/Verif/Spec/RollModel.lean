import Verif.Spec.LongSample
import Mathlib.Probability.Moments.Variance

/-!
# Roll's model of transaction prices
-/

namespace Verif.Stat

open MeasureTheory ProbabilityTheory

/-- The logarithm of the price of trade `t` is the efficient log price `m t` plus half the spread `s` times the direction
of the trade. `X t` holds the change of the efficient log price and the direction at time `t`; the pairs are independent
and identically distributed, with finite variances. -/
structure RollModel {Ω : Type*} [MeasurableSpace Ω] (P : Measure Ω) (X : Nat → Ω → ℝ × ℝ) (m price : Ω → Nat → ℝ) (s : ℝ) : Prop where
  iid : IID P X
  innovation : MemLp (fun ω => (X 0 ω).1) 2 P
  direction : MemLp (fun ω => (X 0 ω).2) 2 P
  step : ∀ ω t, m ω (t + 1) = m ω t + (X (t + 1) ω).1
  pos : ∀ ω t, 0 < price ω t
  trade : ∀ ω t, Real.log (price ω t) = m ω t + s / 2 * (X t ω).2

end Verif.Stat
