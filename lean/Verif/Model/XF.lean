import Mathlib.Data.Real.Basic
import Mathlib.Analysis.Real.Sqrt
import Mathlib.Analysis.SpecialFunctions.Log.Basic

/-!
# Idealised floats

A 64-bit float is `nan`, one of the infinities or a real number; rounding, overflow and the sign of zero are
not modelled (a zero divisor counts as `+0.0`). The operations are those of IEEE 754 / numpy.
-/

namespace Verif

/-- A float. -/
inductive XF
  | nan
  | pinf
  | ninf
  | fin (r : ℝ)

namespace XF

open Classical

/-- `-a`. -/
def neg : XF → XF
  | nan => nan
  | pinf => ninf
  | ninf => pinf
  | fin r => fin (-r)

/-- `a + b`: opposite infinities give `nan`. -/
def add : XF → XF → XF
  | fin a, fin b => fin (a + b)
  | pinf, pinf => pinf
  | ninf, ninf => ninf
  | pinf, fin _ => pinf
  | fin _, pinf => pinf
  | ninf, fin _ => ninf
  | fin _, ninf => ninf
  | _, _ => nan

/-- An infinity with the sign of `r`, `nan` for zero: the product of an infinity and a number. -/
noncomputable def infSign (r : ℝ) : XF := if 0 < r then pinf else if r < 0 then ninf else nan

/-- `a * b`: zero times an infinity is `nan`. -/
noncomputable def mul : XF → XF → XF
  | fin a, fin b => fin (a * b)
  | pinf, pinf => pinf
  | ninf, ninf => pinf
  | pinf, ninf => ninf
  | ninf, pinf => ninf
  | pinf, fin r => infSign r
  | fin r, pinf => infSign r
  | ninf, fin r => infSign (-r)
  | fin r, ninf => infSign (-r)
  | _, _ => nan

/-- `a / b` as numpy does it: a number over zero is an infinity, `0/0` and infinity over infinity are `nan`. -/
noncomputable def div : XF → XF → XF
  | fin a, fin b => if b = 0 then infSign a else fin (a / b)
  | fin _, pinf => fin 0
  | fin _, ninf => fin 0
  | pinf, fin b => if b < 0 then ninf else pinf
  | ninf, fin b => if b < 0 then pinf else ninf
  | _, _ => nan

noncomputable instance : Neg XF := ⟨neg⟩
noncomputable instance : Add XF := ⟨add⟩
noncomputable instance : Sub XF := ⟨fun a b => add a (neg b)⟩
noncomputable instance : Mul XF := ⟨mul⟩
noncomputable instance : Div XF := ⟨div⟩

/-- `abs(a)`. -/
noncomputable def abs : XF → XF
  | nan => nan
  | pinf => pinf
  | ninf => pinf
  | fin r => fin |r|

/-- `a < b`: false when one of them is `nan`. -/
def lt : XF → XF → Prop
  | fin a, fin b => a < b
  | ninf, fin _ => True
  | ninf, pinf => True
  | fin _, pinf => True
  | _, _ => False

/-- `a == b`: false when one of them is `nan`. -/
def eq : XF → XF → Prop
  | fin a, fin b => a = b
  | pinf, pinf => True
  | ninf, ninf => True
  | _, _ => False

/-- `np.log(a)`. -/
noncomputable def log : XF → XF
  | fin r => if 0 < r then fin (Real.log r) else if r = 0 then ninf else nan
  | pinf => pinf
  | _ => nan

/-- `np.exp(a)`. -/
noncomputable def exp : XF → XF
  | fin r => fin (Real.exp r)
  | pinf => pinf
  | ninf => fin 0
  | nan => nan

/-- `np.sqrt(a)`. -/
noncomputable def sqrt : XF → XF
  | fin r => if r < 0 then nan else fin (Real.sqrt r)
  | pinf => pinf
  | _ => nan

/-- `np.sign(a)`. -/
noncomputable def sign : XF → XF
  | fin r => if 0 < r then fin 1 else if r < 0 then fin (-1) else fin 0
  | pinf => fin 1
  | ninf => fin (-1)
  | nan => nan

/-- The number, if it is one (`np.isfinite`). -/
def real? : XF → Option ℝ
  | fin r => some r
  | _ => none

end XF

end Verif
