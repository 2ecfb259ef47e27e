import Verif.Model.Indicators
import Verif.Model.Round

/-!
# Rolling means and variances as pandas computes them

`Series.rolling(w).mean()`, `.var()` and `.std()` go through the series once: the value that leaves the window is taken out
of the running sum (or mean and sum of squares) and the new one is put in, with Kahan compensations, one for additions and one
for removals (`pandas/_libs/window/aggregations.pyx`, `roll_mean` and `roll_var`). Every operation is rounded by `fl`. A
window of one value starts afresh at every position. Infinities count as missing (`BaseWindow._prep_values`); the zero has no
sign. Used by `rolling_mean`, `rolling_std` (`_base.py:54`, `_base.py:74`) and by every other rolling mean or variance.
-/

namespace Verif.Roll

open Verif

variable (fl : ℝ → ℝ)

/-- The variables of `roll_mean`. -/
structure MeanSt where
  nobs : Nat
  sum : ℝ
  ca : ℝ
  cr : ℝ
  neg : Nat
  same : Nat
  prev : XF

/-- The start of a window; `prev_value` is its first value. -/
noncomputable def MeanSt.fresh (v : XF) : MeanSt := ⟨0, 0, 0, 0, 0, 0, v⟩

open Classical in
/-- `add_mean` -/
noncomputable def MeanSt.add (s : MeanSt) (v : XF) : MeanSt :=
  match v.real? with
  | none => s
  | some v =>
    let y := fl (v - s.ca)
    let t := fl (s.sum + y)
    { nobs := s.nobs + 1, sum := t, ca := fl (fl (t - s.sum) - y), cr := s.cr, neg := if v < 0 then s.neg + 1 else s.neg,
      same := if s.prev = .fin v then s.same + 1 else 1, prev := .fin v }

open Classical in
/-- `remove_mean` -/
noncomputable def MeanSt.remove (s : MeanSt) (v : XF) : MeanSt :=
  match v.real? with
  | none => s
  | some v =>
    let y := fl (-v - s.cr)
    let t := fl (s.sum + y)
    { s with nobs := s.nobs - 1, sum := t, cr := fl (fl (t - s.sum) - y), neg := if v < 0 then s.neg - 1 else s.neg }

open Classical in
/-- `calc_mean` -/
noncomputable def MeanSt.calc (s : MeanSt) (w : Nat) : XF :=
  if w ≤ s.nobs ∧ 0 < s.nobs then
    let r := fl (s.sum / s.nobs)
    if s.nobs ≤ s.same then s.prev
    else if s.neg = 0 ∧ r < 0 then .fin 0
    else if s.neg = s.nobs ∧ 0 < r then .fin 0
    else .fin r
  else .nan

/-- The value of a series at a position. -/
def at_ (x : Ser) (t : Nat) : XF := x.getD t .nan

/-- The state of `roll_mean` after position `t` (`1 ≤ w`). -/
noncomputable def meanSt (w : Nat) (x : Ser) : Nat → MeanSt
  | 0 => (MeanSt.fresh (at_ x 0)).add fl (at_ x 0)
  | t + 1 =>
    if w ≤ 1 then (MeanSt.fresh (at_ x (t + 1))).add fl (at_ x (t + 1))
    else (if w ≤ t + 1 then (meanSt w x t).remove fl (at_ x (t + 1 - w)) else meanSt w x t).add fl (at_ x (t + 1))

/-- `x.rolling(w).mean()` -/
noncomputable def rollingMeanR (x : Ser) (w : Int) : Py Ser :=
  if w < 0 then .error .valueError
  else .ok ((List.range x.length).map fun t : Nat => if w = 0 then .nan else (meanSt fl w.toNat x t).calc fl w.toNat)

/-- The variables of `roll_var`. -/
structure VarSt where
  nobs : Nat
  mean : ℝ
  ssq : ℝ
  ca : ℝ
  cr : ℝ
  same : Nat
  prev : XF

/-- The start of a window. -/
noncomputable def VarSt.fresh (v : XF) : VarSt := ⟨0, 0, 0, 0, 0, 0, v⟩

open Classical in
/-- `add_var` -/
noncomputable def VarSt.add (s : VarSt) (v : XF) : VarSt :=
  match v.real? with
  | none => s
  | some v =>
    let pm := fl (s.mean - s.ca)
    let y := fl (v - s.ca)
    let t := fl (y - s.mean)
    let m := fl (s.mean + fl (t / (s.nobs + 1 : Nat)))
    { nobs := s.nobs + 1, mean := m, ssq := fl (s.ssq + fl (fl (v - pm) * fl (v - m))), ca := fl (fl (t + s.mean) - y),
      cr := s.cr, same := if s.prev = .fin v then s.same + 1 else 1, prev := .fin v }

/-- `remove_var` -/
noncomputable def VarSt.remove (s : VarSt) (v : XF) : VarSt :=
  match v.real? with
  | none => s
  | some v =>
    if s.nobs - 1 = 0 then { s with nobs := s.nobs - 1, mean := 0, ssq := 0 }
    else
      let pm := fl (s.mean - s.cr)
      let y := fl (v - s.cr)
      let t := fl (y - s.mean)
      let m := fl (s.mean - fl (t / (s.nobs - 1 : Nat)))
      { s with nobs := s.nobs - 1, mean := m, ssq := fl (s.ssq - fl (fl (v - pm) * fl (v - m))), cr := fl (fl (t + s.mean) - y) }

/-- `calc_var` with `ddof=1` -/
noncomputable def VarSt.calc (s : VarSt) (w : Nat) : XF :=
  if w ≤ s.nobs ∧ 1 < s.nobs then
    if s.nobs = 1 ∨ s.nobs ≤ s.same then .fin 0 else .fin (fl (s.ssq / (s.nobs - 1 : Nat)))
  else .nan

/-- The state of `roll_var` after position `t` (`1 ≤ w`). -/
noncomputable def varSt (w : Nat) (x : Ser) : Nat → VarSt
  | 0 => (VarSt.fresh (at_ x 0)).add fl (at_ x 0)
  | t + 1 =>
    if w ≤ 1 then (VarSt.fresh (at_ x (t + 1))).add fl (at_ x (t + 1))
    else (if w ≤ t + 1 then (varSt w x t).remove fl (at_ x (t + 1 - w)) else varSt w x t).add fl (at_ x (t + 1))

/-- `x.rolling(w).var()` -/
noncomputable def rollingVarR (x : Ser) (w : Int) : Py Ser :=
  if w < 0 then .error .valueError
  else .ok ((List.range x.length).map fun t : Nat => if w = 0 then .nan else (varSt fl w.toNat x t).calc fl w.toNat)

open Classical in
/-- `zsqrt` of pandas: the root, 0 for negative numbers. -/
noncomputable def zsqrt : XF → XF
  | .fin r => if r < 0 then .fin 0 else .fin (fl (Real.sqrt r))
  | x => x.sqrt

/-- `x.rolling(w).std()` -/
noncomputable def rollingStdR (x : Ser) (w : Int) : Py Ser := do
  let v ← rollingVarR fl x w
  .ok (v.map (zsqrt fl))

end Verif.Roll
