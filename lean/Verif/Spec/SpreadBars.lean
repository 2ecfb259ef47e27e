import Verif.Spec.LongSample
import Mathlib.Probability.Moments.Variance
import Mathlib.Probability.Moments.Covariance

/-!
# Price bars with a bid-ask spread

An efficient log price moves overnight and during the day; the open and the close are trades at half the spread above or
below it.
-/

namespace Verif.Stat.Spread

open MeasureTheory ProbabilityTheory

/-- Change of the efficient log price from the end of the previous bar to the start of the bar. -/
def night (x : Fin 6 → ℝ) : ℝ := x 0
/-- Log high over the efficient log price at the start of the bar. -/
def up (x : Fin 6 → ℝ) : ℝ := x 1
/-- Log low over the efficient log price at the start of the bar. -/
def dn (x : Fin 6 → ℝ) : ℝ := x 2
/-- Change of the efficient log price during the bar. -/
def day (x : Fin 6 → ℝ) : ℝ := x 3
/-- Direction of the trade at the open (`1` for a buy, `-1` for a sell). -/
def qo (x : Fin 6 → ℝ) : ℝ := x 4
/-- Direction of the trade at the close. -/
def qc (x : Fin 6 → ℝ) : ℝ := x 5
/-- Centre of the range of the bar, over the efficient log price at its start. -/
noncomputable def mid (x : Fin 6 → ℝ) : ℝ := (up x + dn x) / 2

/-- The bar with one of the directions reversed. -/
def turn (k : Fin 6) (x : Fin 6 → ℝ) : Fin 6 → ℝ := Function.update x k (-x k)

/-- Bars that are independent from each other and identically distributed, with finite variances; no bar is a single price.
`eff` is the efficient log price at the end of the previous bar. -/
structure Bars {Ω : Type*} [MeasurableSpace Ω] (P : Measure Ω) (X : Nat → Ω → Fin 6 → ℝ) (eff O H L C : Ω → Nat → ℝ)
    (s : ℝ) : Prop where
  iid : IID P X
  sq : ∀ k, MemLp (fun ω => X 0 ω k) 2 P
  range : ∀ᵐ ω ∂P, dn (X 0 ω) < up (X 0 ω)
  step : ∀ ω t, eff ω (t + 1) = eff ω t + night (X t ω) + day (X t ω)
  pos : ∀ ω t, 0 < O ω t ∧ 0 < H ω t ∧ 0 < L ω t ∧ 0 < C ω t
  opens : ∀ ω t, Real.log (O ω t) = eff ω t + night (X t ω) + s / 2 * qo (X t ω)
  high : ∀ ω t, Real.log (H ω t) = eff ω t + night (X t ω) + up (X t ω)
  low : ∀ ω t, Real.log (L ω t) = eff ω t + night (X t ω) + dn (X t ω)
  close : ∀ ω t, Real.log (C ω t) = eff ω t + night (X t ω) + day (X t ω) + s / 2 * qc (X t ω)

/-- How often the open differs from the high, plus how often it differs from the low. -/
noncomputable def openOff {Ω : Type*} [MeasurableSpace Ω] (P : Measure Ω) (x : Ω → Fin 6 → ℝ) (s : ℝ) : ℝ :=
  P.real {ω | s / 2 * qo (x ω) ≠ up (x ω)} + P.real {ω | s / 2 * qo (x ω) ≠ dn (x ω)}

/-- How often the close differs from the high, plus how often it differs from the low. -/
noncomputable def closeOff {Ω : Type*} [MeasurableSpace Ω] (P : Measure Ω) (x : Ω → Fin 6 → ℝ) (s : ℝ) : ℝ :=
  P.real {ω | day (x ω) + s / 2 * qc (x ω) ≠ up (x ω)} + P.real {ω | day (x ω) + s / 2 * qc (x ω) ≠ dn (x ω)}

/-- Buys and sells at the open and at the close are equally likely, whatever else happens in the bar. -/
structure Fair {Ω : Type*} [MeasurableSpace Ω] (P : Measure Ω) (x : Ω → Fin 6 → ℝ) : Prop where
  sides : ∀ᵐ ω ∂P, (qo (x ω) = 1 ∨ qo (x ω) = -1) ∧ (qc (x ω) = 1 ∨ qc (x ω) = -1)
  opens : IdentDistrib (fun ω => turn 4 (x ω)) x P P
  closes : IdentDistrib (fun ω => turn 5 (x ω)) x P P

end Verif.Stat.Spread
