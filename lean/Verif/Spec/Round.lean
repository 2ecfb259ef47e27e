import Mathlib.Analysis.Real.Sqrt
import Mathlib.Order.Monotone.Basic

/-!
# What the theorems about rounding use
-/

namespace Verif.Round

/-- The unit roundoff of 64-bit floats. -/
noncomputable def u64 : ℝ := 1 / 2 ^ 53

/-- A rounding of the real numbers to floats: monotone, odd, a projection, with relative error at most `2^-53`, exact on integers up to
`2^53` and compatible with doubling. -/
structure Rounding (fl : ℝ → ℝ) : Prop where
  mono : Monotone fl
  neg : ∀ x, fl (-x) = -fl x
  idem : ∀ x, fl (fl x) = fl x
  rel : ∀ x, |fl x - x| ≤ u64 * |x|
  int : ∀ n : ℤ, |n| ≤ 2 ^ 53 → fl n = n
  two : ∀ x, fl (2 * x) = 2 * fl x

end Verif.Round
