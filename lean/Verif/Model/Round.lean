import Mathlib.Analysis.Real.Sqrt
import Mathlib.Data.Int.Log
import Mathlib.Algebra.Order.Archimedean.Basic
import Mathlib.Algebra.Order.Floor.Ring
import Mathlib.Algebra.Ring.Int.Parity

/-!
# Rounding of 64-bit floats

`b64` is IEEE 754 rounding to nearest, ties to even, with a significand of 53 bits. The exponent is not bounded: overflow and
underflow are left out. A float operation computes the exact result of the operation and rounds it.
-/

namespace Verif.Round

/-- Rounding of a real number to the nearest integer, ties to the even one. -/
noncomputable def rne (x : ℝ) : ℤ :=
  if Int.fract x < 1 / 2 then ⌊x⌋ else if 1 / 2 < Int.fract x then ⌊x⌋ + 1 else if Even ⌊x⌋ then ⌊x⌋ else ⌊x⌋ + 1

/-- The exponent of the last bit of the significand of `x`. -/
noncomputable def ulpExp (x : ℝ) : ℤ := Int.log 2 |x| - 52

/-- Rounding to a 64-bit float. -/
noncomputable def b64 (x : ℝ) : ℝ := rne (x / 2 ^ ulpExp x) * 2 ^ ulpExp x

end Verif.Round
