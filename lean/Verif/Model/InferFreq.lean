import Verif.Model.Timeseries
import Mathlib.Data.Finset.Sort
import Mathlib.Data.Finset.Dedup
import Mathlib.Algebra.Order.Group.Int

/-!
# `pd.infer_freq` (pandas 2.2, `pandas/tseries/frequencies.py`, class `_FrequencyInferer`)

`SimBase` reads the step size of dated data through this function (`quantfinlib/sim/_base.py:131`, `:173-177`),
so it is written out here, function by function, for a `DatetimeIndex` of at least three timestamps in
nanoseconds without time zone and without `NaT`. It is a transcription of pandas, not of the repository.
-/

namespace Verif.TS

/-- Nanoseconds per hour (`pph`). -/
def nsPerHour : Int := 3600000000000

/-- `unique_deltas`: the different first differences, increasing. -/
def uniqueDeltas (l : List Int) : List Int := (npDiff l).toFinset.sort (· ≤ ·)

/-- The day number of a timestamp. -/
def dayOf (t : Int) : Int := t / nsPerDay

open Classical in
/-- The month (counted as in `monthStart`) that contains a day. -/
noncomputable def monthOf (day : Int) : Int :=
  if h : ∃ n, monthStart n ≤ day ∧ day < monthStart (n + 1) then h.choose else 0

/-- `fields["Y"]`, `fields["M"]`: month 0 is March of year 0. -/
noncomputable def yearField (t : Int) : Int := (monthOf (dayOf t) + 2) / 12
noncomputable def monthField (t : Int) : Int := (monthOf (dayOf t) + 2) % 12 + 1

/-- `fields["D"]` -/
noncomputable def dayField (t : Int) : Int := dayOf t - monthStart (monthOf (dayOf t)) + 1

/-- `get_days_in_month` -/
noncomputable def daysInMonth (t : Int) : Int :=
  monthStart (monthOf (dayOf t) + 1) - monthStart (monthOf (dayOf t))

/-- `index.dayofweek`: Monday is 0; 1970-01-01 was a Thursday. -/
def weekday (t : Int) : Int := (dayOf t + 3) % 7

/-- The answers of `month_position_check`: calendar or business, start or end. -/
inductive Pos | ce | be | cs | bs
  deriving DecidableEq

open Classical in
/-- `month_position_check` -/
noncomputable def monthPosition (ts : List Int) : Option Pos :=
  if ∀ t ∈ ts, dayField t = daysInMonth t then some .ce
  else if ∀ t ∈ ts, dayField t = daysInMonth t ∨ (daysInMonth t - dayField t < 3 ∧ weekday t = 4) then some .be
  else if ∀ t ∈ ts, dayField t = 1 then some .cs
  else if ∀ t ∈ ts, dayField t = 1 ∨ (dayField t ≤ 3 ∧ weekday t = 0) then some .bs
  else none

/-- The dictionaries of `_get_annual_rule`, `_get_quarterly_rule` and `_get_monthly_rule`. -/
def Pos.annual : Pos → String | .cs => "YS" | .bs => "BYS" | .ce => "YE" | .be => "BYE"
def Pos.quarterly : Pos → String | .cs => "QS" | .bs => "BQS" | .ce => "QE" | .be => "BQE"
def Pos.monthly : Pos → String | .cs => "MS" | .bs => "BMS" | .ce => "ME" | .be => "BME"

/-- `MONTH_ALIASES` -/
def monthAlias (m : Int) : String :=
  ["JAN", "FEB", "MAR", "APR", "MAY", "JUN", "JUL", "AUG", "SEP", "OCT", "NOV", "DEC"].getD (m - 1).toNat ""

/-- `int_to_weekday` -/
def weekdayAlias (d : Int) : String := ["MON", "TUE", "WED", "THU", "FRI", "SAT", "SUN"].getD d.toNat ""

/-- `_maybe_add_count` -/
def addCount (base : String) (count : Int) : String := if count = 1 then base else toString count ++ base

/-- `mdiffs`, `ydiffs` -/
noncomputable def monthDiffs (ts : List Int) : List Int :=
  uniqueDeltas (ts.map fun t => yearField t * 12 + monthField t)
noncomputable def yearDiffs (ts : List Int) : List Int := uniqueDeltas (ts.map yearField)

/-- `_get_annual_rule` -/
noncomputable def annualRule (ts : List Int) : Option Pos :=
  if 1 < (yearDiffs ts).length then none
  else if 1 < (ts.map monthField).toFinset.card then none
  else monthPosition ts

/-- `_get_quarterly_rule` -/
noncomputable def quarterlyRule (ts : List Int) : Option Pos :=
  if 1 < (monthDiffs ts).length then none
  else if (monthDiffs ts).headD 0 % 3 ≠ 0 then none
  else monthPosition ts

/-- `_get_monthly_rule` -/
noncomputable def monthlyRule (ts : List Int) : Option Pos :=
  if 1 < (monthDiffs ts).length then none
  else monthPosition ts

/-- `_get_daily_rule`: `d` is the only step, in days. -/
def dailyRule (first d : Int) : String :=
  if d % 7 = 0 then addCount ("W-" ++ weekdayAlias (weekday first)) (d / 7) else addCount "D" d

/-- The loop of `_is_business_daily` from a weekday on: each step of one or three days reaches a weekday. -/
def businessWalk : Int → List Int → Bool
  | _, [] => true
  | w, s :: rest =>
    let w' := (w + s) % 7
    ((w' = 0 && s = 3) || (0 < w' && w' ≤ 4 && s = 1)) && businessWalk w' rest

/-- `_is_business_daily` -/
def isBusinessDaily (ts : List Int) : Bool :=
  uniqueDeltas ts = [nsPerDay, 3 * nsPerDay] &&
    businessWalk (weekday (ts.headD 0)) ((npDiff ts).map (· / nsPerDay))

/-- `_get_wom_rule` -/
noncomputable def womRule (ts : List Int) : Option String :=
  if 1 < (ts.map weekday).toFinset.card then none
  else
    match (((ts.map fun t => (dayField t - 1) / 7).filter (· < 4)).toFinset).sort (· ≤ ·) with
    | [w] => some ("WOM-" ++ toString (w + 1) ++ weekdayAlias (weekday (ts.headD 0)))
    | _ => none

/-- The month of the alias of a quarterly rule (`mod_dict`). -/
def quarterMonth (m : Int) : Int := if m % 3 = 0 then 12 else if m % 3 = 2 then 11 else 10

/-- `_infer_daily_rule` -/
noncomputable def inferDaily (ts : List Int) : Option String :=
  let first := ts.headD 0
  match annualRule ts with
  | some p => some (addCount (p.annual ++ "-" ++ monthAlias (monthField first)) ((yearDiffs ts).headD 0))
  | none =>
    match quarterlyRule ts with
    | some p =>
      some (addCount (p.quarterly ++ "-" ++ monthAlias (quarterMonth (monthField first))) ((monthDiffs ts).headD 0 / 3))
    | none =>
      match monthlyRule ts with
      | some p => some (addCount p.monthly ((monthDiffs ts).headD 0))
      | none =>
        if (uniqueDeltas ts).length = 1 then some (dailyRule first ((uniqueDeltas ts).headD 0 / nsPerDay))
        else if isBusinessDaily ts then some "B"
        else womRule ts

/-- The intraday part of `get_freq`: `d` is the only step. -/
def inferIntraday (d : Int) : String :=
  if d % nsPerHour = 0 then addCount "h" (d / nsPerHour)
  else if d % 60000000000 = 0 then addCount "min" (d / 60000000000)
  else if d % 1000000000 = 0 then addCount "s" (d / 1000000000)
  else if d % 1000000 = 0 then addCount "ms" (d / 1000000)
  else if d % 1000 = 0 then addCount "us" (d / 1000)
  else addCount "ns" d

/-- The lists `hour_deltas` of a business-hour index. -/
def businessHours (ts : List Int) : Prop :=
  uniqueDeltas ts = [nsPerHour, 17 * nsPerHour] ∨ uniqueDeltas ts = [nsPerHour, 65 * nsPerHour] ∨
    uniqueDeltas ts = [nsPerHour, 17 * nsPerHour, 65 * nsPerHour]

open Classical in
/-- `get_freq`: `None` unless the dates increase or decrease without repetition. -/
noncomputable def inferFreq (ts : List Int) : Option String :=
  if ¬ ((ts.Pairwise (· ≤ ·) ∨ ts.Pairwise (· ≥ ·)) ∧ ts.Nodup) then none
  else
    let delta := (uniqueDeltas ts).headD 0
    if delta ≠ 0 ∧ delta % nsPerDay = 0 then inferDaily ts
    else if businessHours ts then some "bh"
    else if (uniqueDeltas ts).length ≠ 1 then none
    else some (inferIntraday delta)

end Verif.TS
