import Verif.Model.Cusum
import Verif.Spec.SimLaw

/-!
# Random prices and decisions of the CUSUM test
-/

namespace Verif.Cusum

open Verif Verif.Sim MeasureTheory

/-- The prices up to time `t`. -/
def observed (X : Nat → ℝ) (t : Nat) : Ser := (List.range (t + 1)).map fun i => .fin (X i)

/-- The test rejects at the last price of the series: the statistic exceeds its critical value there. -/
def RejectsLast (y : Ser) : Prop :=
  ∃ s c : ℝ, (test y).1[y.length - 1]? = some (.fin s) ∧ (test y).2[y.length - 1]? = some (.fin c) ∧ c < s

/-- Positive prices whose log returns are independent normal variables with mean `m` and standard deviation `|s|`. -/
structure LogWalk {Ω : Type*} [MeasurableSpace Ω] (P : Measure Ω) (ζ : Nat → Ω → ℝ) (X : Ω → Nat → ℝ) (m s : ℝ) : Prop where
  normal : StdNormal P ζ
  pos : ∀ ω t, 0 < X ω t
  ret : ∀ ω t, Real.log (X ω (t + 1)) - Real.log (X ω t) = m + s * ζ t ω

end Verif.Cusum
