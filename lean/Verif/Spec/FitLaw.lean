import Verif.Spec.SimLaw
import Verif.Spec.SimFit
import Verif.Model.SimFit
import Mathlib.Topology.Instances.Real.Lemmas

/-!
# Calibration on longer and longer samples
-/

namespace Verif.Sim

open Filter Topology

/-- Calibration succeeds on all sufficiently long samples, and the estimate `e` then converges to `l`. -/
def FitTendsto {α : Type*} (fit : Nat → Py α) (e : α → Option ℝ) (l : ℝ) : Prop :=
  ∃ d : Nat → ℝ, (∀ᶠ s in atTop, ∃ r, fit s = .ok r ∧ e r = some (d s)) ∧ Tendsto d atTop (𝓝 l)

/-- The drift of a column. -/
def driftAt (c : Nat) (r : BMFit) : Option ℝ := (r.drift[c]?).join

/-- The volatility of a column. -/
def volAt (c : Nat) (r : BMFit) : Option ℝ := (r.vol[c]?).join

/-- The correlation of two columns. -/
def corAt (c c' : Nat) (r : BMFit) : Option ℝ := r.cor.map fun C => C.get c c'

/-- The long-run mean. -/
def ouMeanAt (r : OUFit) : Option ℝ := some r.mean

/-- The mean reversion rate. -/
def ouRateAt (r : OUFit) : Option ℝ := some r.mrr

/-- The volatility of a column of an Ornstein-Uhlenbeck fit. -/
def ouVolAt (c : Nat) (r : OUFit) : Option ℝ := (r.vol[c]?).join

/-- The correlation of two columns of an Ornstein-Uhlenbeck fit. -/
def ouCorAt (c c' : Nat) (r : OUFit) : Option ℝ := r.cor.map fun C => C.get c c'

/-- No combination of the shocks of the variates vanishes. -/
def Nonsingular (L : Option Arr) (v : Nat) : Prop :=
  ∀ x : Fin v → ℝ, (∀ i : Fin v, ∑ j : Fin v, corOf L v i j * x j = 0) → x = 0

end Verif.Sim
