import Verif.Spec.LongSample
import Mathlib.Analysis.SpecialFunctions.Log.Basic
import Mathlib.MeasureTheory.Measure.Real

/-!
# Information measures of random variables with bounded values

The range of a random variable is cut into `B` cells of equal width, as for a histogram whose range is known.
-/

namespace Verif.Stat

open MeasureTheory

variable {Ω : Type*} [MeasurableSpace Ω]

/-- The left end of cell `k` of `[a, b]`. -/
noncomputable def edge (a b : ℝ) (B k : Nat) : ℝ := a + k * ((b - a) / B)

/-- Cell `k` of `[a, b]`; the last one contains the right end. -/
def cell (a b : ℝ) (B k : Nat) : Set ℝ := {v | edge a b B k ≤ v ∧ (v < edge a b B (k + 1) ∨ k + 1 = B)}

/-- `X` takes values in `[a, b]`, comes arbitrarily close to both ends, and does not hit the border of two cells. -/
structure Cells (P : Measure Ω) (X : Ω → ℝ) (a b : ℝ) (B : Nat) : Prop where
  lt : a < b
  pos : 0 < B
  mem : ∀ᵐ ω ∂P, X ω ∈ Set.Icc a b
  left : ∀ ε > 0, P {ω | X ω < a + ε} ≠ 0
  right : ∀ ε > 0, P {ω | b - ε < X ω} ≠ 0
  border : ∀ k, 0 < k → k < B → P {ω | X ω = edge a b B k} = 0

/-- The probability of a cell. -/
noncomputable def cellProb (P : Measure Ω) (X : Ω → ℝ) (a b : ℝ) (B k : Nat) : ℝ := P.real {ω | X ω ∈ cell a b B k}

/-- The probability of a pair of cells. -/
noncomputable def cellProb2 (P : Measure Ω) (X Y : Ω → ℝ) (a b a' b' : ℝ) (B i j : Nat) : ℝ :=
  P.real {ω | X ω ∈ cell a b B i ∧ Y ω ∈ cell a' b' B j}

/-- Shannon's mutual information of a table `r` with margins `p` and `q`. -/
noncomputable def tableInfo (B : Nat) (p q : Nat → ℝ) (r : Nat → Nat → ℝ) : ℝ :=
  ∑ i ∈ Finset.range B, ∑ j ∈ Finset.range B, r i j * Real.log (r i j / (p i * q j))

/-- Shannon's entropy of a table of probabilities. -/
noncomputable def tableEntropy (B : Nat) (p : Nat → ℝ) : ℝ := ∑ i ∈ Finset.range B, -(p i * Real.log (p i))

/-- The divergence of Kullback and Leibler of two tables. -/
noncomputable def tableDiv (B : Nat) (p q : Nat → ℝ) : ℝ := ∑ i ∈ Finset.range B, p i * Real.log (p i / q i)

end Verif.Stat
