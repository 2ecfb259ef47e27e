import Verif.Model.InferFreq
import Mathlib.Logic.Function.Iterate

/-!
# `pd.date_range` (pandas 2.2) with a start, a number of periods and one of the frequencies `D`, `B`, `ME`, `MS`

`SimBase._make_date_time_index` (`quantfinlib/sim/_base.py:262-272`) labels samples with it. Like `Model/InferFreq`
this is a transcription of pandas (`DatetimeArray._generate_range`, `pandas/_libs/tslibs/offsets.pyx`), without
time zones; other frequencies are a parameter.
-/

namespace Verif.TS

/-- An offset: `rollforward` and `_apply`. -/
structure Offset where
  roll : Int → Int
  next : Int → Int

/-- `date_range(start, freq=o, periods=n)`: the start rolled forward, then one step at a time. -/
def Offset.range (o : Offset) (start : Int) (n : Nat) : List Int :=
  (List.range n).map fun i => o.next^[i] (o.roll start)

/-- `Day` -/
def offD : Offset := ⟨id, fun t => t + nsPerDay⟩

/-- `BusinessDay`: from a Friday or Saturday on to the next Monday. -/
def offB : Offset :=
  ⟨fun t => if weekday t = 5 then t + 2 * nsPerDay else if weekday t = 6 then t + nsPerDay else t,
   fun t => if weekday t = 4 then t + 3 * nsPerDay else if weekday t = 5 then t + 2 * nsPerDay else t + nsPerDay⟩

/-- The timestamp on another day at the same time. -/
def onDay (day t : Int) : Int := day * nsPerDay + t % nsPerDay

/-- `MonthEnd`: the last day of this month; the step leads from a last day to that of the next month. -/
noncomputable def offME : Offset :=
  ⟨fun t => onDay (monthStart (monthOf (dayOf t) + 1) - 1) t,
   fun t => if dayField t = daysInMonth t then onDay (monthStart (monthOf (dayOf t) + 2) - 1) t
     else onDay (monthStart (monthOf (dayOf t) + 1) - 1) t⟩

/-- `MonthBegin`: the first day of this month or of the next; the step leads to that of the next month. -/
noncomputable def offMS : Offset :=
  ⟨fun t => if dayField t = 1 then t else onDay (monthStart (monthOf (dayOf t) + 1)) t,
   fun t => onDay (monthStart (monthOf (dayOf t) + 1)) t⟩

/-- `pd.date_range`; other frequencies are left open. -/
noncomputable def dateRange (other : Int → String → Nat → Py (List Int)) (start : Int) (freq : String) (n : Nat) :
    Py (List Int) :=
  if freq = "D" then .ok (offD.range start n)
  else if freq = "B" then .ok (offB.range start n)
  else if freq = "ME" then .ok (offME.range start n)
  else if freq = "MS" then .ok (offMS.range start n)
  else other start freq n

end Verif.TS
