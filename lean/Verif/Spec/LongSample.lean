import Verif.Prelude
import Verif.Model.Series
import Mathlib.Probability.IdentDistrib
import Mathlib.Probability.Independence.Basic

/-!
# Estimates from long samples
-/

namespace Verif.Stat

open MeasureTheory ProbabilityTheory Filter Topology

/-- Independent random elements with a common law. -/
structure IID {Ω E : Type*} [MeasurableSpace Ω] [MeasurableSpace E] (P : Measure Ω) (X : Nat → Ω → E) : Prop where
  indep : iIndepFun X P
  ident : ∀ t, IdentDistrib (X t) (X 0) P P

/-- The call succeeds and its value at position `t` is a number at a distance less than `ε` from `c`. -/
def Near (u : Py Ser) (t : Nat) (c ε : ℝ) : Prop := ∃ v r, u = .ok v ∧ v[t]? = some (.fin r) ∧ |r - c| < ε

/-- The series of the first `n` values. -/
def first (X : Nat → ℝ) (n : Nat) : Ser := (List.range n).map fun i => .fin (X i)

/-- An estimate with a window of length `w` from the series `x ω` of which `n` values are known; its value at position `t`
is correct in the limit of long windows: the windows that begin at a given position give it almost surely, and windows at
other places give it in probability. `lag` values before the window are used as well. -/
structure Consistent {Ω : Type*} [MeasurableSpace Ω] (P : Measure Ω) (est : Ω → Nat → Nat → Py Ser) (lag : Nat) (c : ℝ) : Prop where
  sure : ∀ᵐ ω ∂P, ∀ a, ∀ n : Nat → Nat, (∀ w, w + lag + a ≤ n w) → ∀ ε > 0, ∀ᶠ w in atTop, Near (est ω (n w) w) (w + lag + a - 1) c ε
  prob : ∀ t n : Nat → Nat, (∀ w, w + lag ≤ t w + 1) → (∀ w, t w < n w) → ∀ ε > 0,
    Tendsto (fun w => P {ω | ¬ Near (est ω (n w) w) (t w) c ε}) atTop (𝓝 0)

end Verif.Stat
