import Verif.Prelude
import Verif.Model.XF

/-!
# pandas series

A float series is the list of its values; the index of the inputs is taken to be the same for all arguments of
a call (which is what `numpy_io_support` produces for arrays of equal length), and names are left out.
Window functions of pandas: `Series.rolling(window)` (fixed integer window, `min_periods = window`),
`Series.ewm(...)` (`adjust=True`, `ignore_na=False`), both of which replace infinities by NaN first
(`BaseWindow._prep_values`), `shift`, `diff`, `where`, row-wise `max`.
-/

namespace Verif

open Classical

/-- The values of a float series. -/
abbrev Ser := List XF

namespace Ser

/-- An elementwise operation on two series whose indices are the first so many integers: the result is indexed
by the union, and where one of the operands has no value the result is NaN. -/
def op2 (f : XF → XF → XF) : Ser → Ser → Ser
  | a :: x, b :: y => f a b :: op2 f x y
  | [], y => y.map fun _ => .nan
  | x, [] => x.map fun _ => .nan

/-- `x.shift(k)`. -/
def shift (k : Int) (x : Ser) : Ser :=
  (List.range x.length).map fun t : Nat =>
    if 0 ≤ (t : Int) - k then (x[((t : Int) - k).toNat]?).getD .nan else .nan

/-- `x.diff(k)`. -/
noncomputable def diff (k : Int) (x : Ser) : Ser := op2 (· - ·) x (shift k x)

/-- `x.where(mask, 0)` with the mask computed elementwise from the series `d`. -/
noncomputable def whereZero (p : XF → Prop) (d x : Ser) : Ser := op2 (fun c v => if p c then v else .fin 0) d x

/-- The finite values in the window of length `w` that ends at position `t`: what a rolling aggregation sees. -/
def win (w : Nat) (x : Ser) (t : Nat) : List ℝ := ((x.take (t + 1)).drop (t + 1 - w)).filterMap XF.real?

/-- The rolling aggregation at position `t`: NaN with fewer than `w` observations in the window. -/
noncomputable def rollAt (w : Nat) (f : List ℝ → XF) (x : Ser) (t : Nat) : XF :=
  if w ≤ (win w x t).length then f (win w x t) else .nan

/-- `x.rolling(w).agg()`; a negative window raises ValueError. -/
noncomputable def rolling (w : Int) (f : List ℝ → XF) (x : Ser) : Py Ser :=
  if w < 0 then .error .valueError
  else .ok ((List.range x.length).map fun t : Nat => rollAt w.toNat f x t)

/-- The mean of the observations in a window; NaN without any. -/
noncomputable def meanF (v : List ℝ) : XF := if v = [] then .nan else .fin (v.sum / v.length)

/-- Sum of squared deviations from the mean. -/
noncomputable def ssd (v : List ℝ) : ℝ := (v.map fun a => (a - v.sum / v.length) ^ 2).sum

/-- The sample variance (`ddof=1`) of the observations in a window; NaN with fewer than two. -/
noncomputable def varF (v : List ℝ) : XF := if v.length ≤ 1 then .nan else .fin (ssd v / ((v.length : ℝ) - 1))

/-- The sample standard deviation of the observations in a window. -/
noncomputable def stdF (v : List ℝ) : XF := (varF v).sqrt

/-- The sum of the observations in a window. -/
noncomputable def sumF (v : List ℝ) : XF := .fin v.sum

/-- The largest observation in a window. -/
noncomputable def maxF (v : List ℝ) : XF :=
  match v with
  | [] => .nan
  | a :: l => .fin (l.foldl max a)

/-- The smallest observation in a window. -/
noncomputable def minF (v : List ℝ) : XF :=
  match v with
  | [] => .nan
  | a :: l => .fin (l.foldl min a)

/-- The loop of `ewm(alpha).mean()` (pandas `aggregations.ewm`, `adjust=True`, `ignore_na=False`): the state is the
weighted mean and the weight behind it (`none` before the first observation) and the number of observations. -/
noncomputable def ewmGo (α : ℝ) (minp : Nat) : Option (ℝ × ℝ) → Nat → Ser → Ser
  | _, _, [] => []
  | none, nobs, v :: x =>
    match v.real? with
    | none => .nan :: ewmGo α minp none nobs x
    | some c => (if minp ≤ nobs + 1 then .fin c else .nan) :: ewmGo α minp (some (c, 1)) (nobs + 1) x
  | some (m, wt), nobs, v :: x =>
    match v.real? with
    | none => (if minp ≤ nobs then .fin m else .nan) :: ewmGo α minp (some (m, wt * (1 - α))) nobs x
    | some c =>
      (if minp ≤ nobs + 1 then .fin ((wt * (1 - α) * m + c) / (wt * (1 - α) + 1)) else .nan) ::
        ewmGo α minp (some ((wt * (1 - α) * m + c) / (wt * (1 - α) + 1), wt * (1 - α) + 1)) (nobs + 1) x

/-- `x.ewm(alpha=α, min_periods=p).mean()`: `min_periods` is at least one. -/
noncomputable def ewmMean (α : ℝ) (p : Int) (x : Ser) : Ser := ewmGo α (max p 1).toNat none 0 x

/-- The state of the loop of `ewm(alpha).var()` (pandas `aggregations.ewmcov` with both series equal): the weighted
mean (`none` before the first observation), the biased variance, the sum of the weights, the sum of their squares
and the weight behind the mean. -/
structure VarSt where
  mean : Option ℝ
  cov : ℝ
  sw : ℝ
  sw2 : ℝ
  ow : ℝ

/-- One round of the loop of `ewmcov`. -/
noncomputable def varStep (α : ℝ) (s : VarSt) (v : XF) : VarSt :=
  match s.mean, v.real? with
  | none, none => s
  | none, some c => { s with mean := some c }
  | some _, none =>
    { s with sw := s.sw * (1 - α), sw2 := s.sw2 * (1 - α) ^ 2, ow := s.ow * (1 - α) }
  | some m, some c =>
    let ow := s.ow * (1 - α)
    let m' := (ow * m + c) / (ow + 1)
    { mean := some m'
      cov := (ow * (s.cov + (m - m') ^ 2) + (c - m') ^ 2) / (ow + 1)
      sw := s.sw * (1 - α) + 1
      sw2 := s.sw2 * (1 - α) ^ 2 + 1
      ow := ow + 1 }

/-- What the loop of `ewmcov` writes with `bias=False` (NaN unless the correction has a positive denominator;
before the first observation the count of observations is zero, so NaN as well). -/
noncomputable def varOut (s : VarSt) : XF :=
  match s.mean with
  | none => .nan
  | some _ => if 0 < s.sw ^ 2 - s.sw2 then .fin (s.sw ^ 2 / (s.sw ^ 2 - s.sw2) * s.cov) else .nan

/-- The loop of `ewm(alpha).var()`. -/
noncomputable def ewmVarGo (α : ℝ) : VarSt → Ser → Ser
  | _, [] => []
  | s, v :: x => varOut (varStep α s v) :: ewmVarGo α (varStep α s v) x

/-- `x.ewm(alpha=α).std()`. -/
noncomputable def ewmStd (α : ℝ) (x : Ser) : Ser := (ewmVarGo α ⟨none, 0, 1, 1, 1⟩ x).map XF.sqrt

/-- `ewm(span=s)`: the smoothing factor, ValueError unless `s >= 1`. -/
noncomputable def spanAlpha (s : ℝ) : Py ℝ := if s < 1 then .error .valueError else .ok (2 / (s + 1))

/-- `ewm(alpha=1/w)`: ZeroDivisionError for zero, ValueError unless `0 < 1/w <= 1`. -/
noncomputable def invAlpha (w : ℝ) : Py ℝ :=
  if w = 0 then .error .zeroDivisionError
  else if 1 / w ≤ 0 ∨ 1 < 1 / w then .error .valueError else .ok (1 / w)

/-- The larger of two floats, skipping NaN (`DataFrame.max(axis=1)` uses it column by column). -/
noncomputable def maxSkip : XF → XF → XF
  | .nan, b => b
  | a, .nan => a
  | a, b => if XF.lt a b then b else a

end Ser

end Verif
