import Verif.Spec.LongSample

/-!
# Order flow
-/

namespace Verif.Stat

open MeasureTheory ProbabilityTheory

/-- Prices that move by `impact * side * volume` plus noise, where side, volume and noise are independent from trade to trade
and identically distributed. -/
structure FlowModel {Ω : Type*} [MeasurableSpace Ω] (P : Measure Ω) (side volume noise : Nat → Ω → ℝ) (price : Ω → Nat → ℝ)
    (impact : ℝ) : Prop where
  iid : IID P fun t ω => (side t ω, volume t ω, noise t ω)
  sides : ∀ᵐ ω ∂P, side 0 ω = 1 ∨ side 0 ω = -1
  volumes : ∀ᵐ ω ∂P, 0 < volume 0 ω
  step : ∀ ω t, price ω (t + 1) = price ω t + (impact * side (t + 1) ω * volume (t + 1) ω + noise (t + 1) ω)
  moves : ∀ᵐ ω ∂P, impact * side 0 ω * volume 0 ω + noise 0 ω ≠ 0

/-- Positive prices whose log returns and traded values are independent from bar to bar and identically distributed. -/
structure ValueModel {Ω : Type*} [MeasurableSpace Ω] (P : Measure Ω) (ret value : Nat → Ω → ℝ) (price volume : Ω → Nat → ℝ) : Prop where
  iid : IID P fun t ω => (ret t ω, value t ω)
  pos : ∀ ω t, 0 < price ω t
  values : ∀ᵐ ω ∂P, 0 < value 0 ω
  step : ∀ ω t, price ω (t + 1) = price ω t * Real.exp (ret (t + 1) ω)
  traded : ∀ ω t, volume ω t * price ω t = value t ω

end Verif.Stat
