import Verif.Prelude
import Mathlib.Data.Real.Basic
import Mathlib.Data.Rat.Floor

/-!
# `quantfinlib/_datatypes/timeseries.py`: frequency inference

A `DatetimeIndex` is the list of its timestamps in nanoseconds since 1970-01-01 (no `NaT`, no time zone,
`index.freq` not set, so that `is_*_start` / `is_*_end` refer to the plain calendar).
-/

namespace Verif.TS

/-- Nanoseconds per day. -/
def nsPerDay : Int := 86400000000000

/-- Day number (since 1970-01-01) of the first day of month `n` of the proleptic Gregorian calendar, where
month 0 is March of year 0. A year of this count runs from March to February, so the leap day comes last. -/
def monthStart (n : Int) : Int :=
  365 * (n / 12) + n / 12 / 4 - n / 12 / 100 + n / 12 / 400 + (153 * (n % 12) + 2) / 5 - 719468

/-- The timestamp falls on the first day of a month (`DatetimeIndex.is_month_start`). -/
def isMonthStart (t : Int) : Prop := ∃ n, t / nsPerDay = monthStart n

/-- First day of January, April, July or October. -/
def isQuarterStart (t : Int) : Prop := ∃ n, t / nsPerDay = monthStart n ∧ n % 3 = 1

/-- First day of January. -/
def isYearStart (t : Int) : Prop := ∃ n, t / nsPerDay = monthStart n ∧ n % 12 = 10

/-- The next day starts a month (`DatetimeIndex.is_month_end`). -/
def isMonthEnd (t : Int) : Prop := isMonthStart (t + nsPerDay)

/-- The next day starts a quarter. -/
def isQuarterEnd (t : Int) : Prop := isQuarterStart (t + nsPerDay)

/-- The next day starts a year. -/
def isYearEnd (t : Int) : Prop := isYearStart (t + nsPerDay)

open Classical in
/-- `flags.sum()` -/
noncomputable def countFlag (p : Int → Prop) (l : List Int) : Nat := l.countP fun t => decide (p t)

/-- `(count >= 2) and (len(dt_ndx) - count <= 2)` (`timeseries.py:82-108`). -/
def dominates (count len : Nat) : Prop := 2 ≤ count ∧ (len : Int) - count ≤ 2

/-- The frequency codes that can be returned. -/
inductive Freq | YE | YS | QE | QS | ME | MS | D | B | W
  deriving DecidableEq, Repr

/-- The string of a code. -/
def Freq.code : Freq → String
  | .YE => "YE" | .YS => "YS" | .QE => "QE" | .QS => "QS" | .ME => "ME" | .MS => "MS"
  | .D => "D" | .B => "B" | .W => "W"

/-- The number of deltas equal to `d` days (`delta_counts.get(pd.Timedelta(days=d), 0)`). -/
def countDelta (d : Int) (deltas : List Int) : Nat := deltas.countP fun x => x = d * nsPerDay

/-- The number of deltas with `.dt.days` in `{1, 3}` (`timeseries.py:118`): `days` is the floor. -/
def countWeekday (deltas : List Int) : Nat := deltas.countP fun x => x / nsPerDay = 1 ∨ x / nsPerDay = 3

open Classical in
/-- `time_series_freq` (`timeseries.py:71-128`) of the timestamps of an index. The comparison
`count / len >= 0.9` is exact instead of rounded. -/
noncomputable def freqOfIndex (idx : List Int) : Option Freq :=
  let deltas := npDiff idx
  if deltas.length < 2 then none
  else if dominates (countFlag isYearEnd idx) idx.length then some .YE
  else if dominates (countFlag isYearStart idx) idx.length then some .YS
  else if dominates (countFlag isQuarterEnd idx) idx.length then some .QE
  else if dominates (countFlag isQuarterStart idx) idx.length then some .QS
  else if dominates (countFlag isMonthEnd idx) idx.length then some .ME
  else if dominates (countFlag isMonthStart idx) idx.length then some .MS
  else if (deltas.length : Int) - countDelta 1 deltas ≤ 2 then some .D
  else if (9 / 10 : ℚ) ≤ (countWeekday deltas : ℚ) / deltas.length then some .B
  else if dominates (countDelta 7 deltas) deltas.length then some .W
  else none

/-- What `time_series_freq` can be called with (`timeseries.py:61-69`). -/
inductive TsObj
  | datetimeIndex (idx : List Int)
  | pandasWithDatetimeIndex (idx : List Int)
  | pandasOther
  | other

/-- `time_series_freq` (`timeseries.py:6-128`). -/
noncomputable def timeSeriesFreq : TsObj → Option Freq
  | .datetimeIndex idx => freqOfIndex idx
  | .pandasWithDatetimeIndex idx => freqOfIndex idx
  | .pandasOther => none
  | .other => none

/-- `_time_series_freq_to_duration_map` (`timeseries.py:132-145`). -/
noncomputable def durationMap : List (String × ℝ) :=
  [("D", 1 / 365), ("B", 1 / 252), ("W", 7 / 365), ("M", 1 / 12), ("ME", 1 / 12), ("MS", 1 / 12),
   ("Q", 1 / 4), ("QE", 1 / 4), ("QS", 1 / 4), ("Y", 1), ("YE", 1), ("YS", 1)]

/-- `time_series_freq_to_duration` (`timeseries.py:148-199`). -/
noncomputable def freqToDuration (freq : String) : Option ℝ := durationMap.lookup freq

end Verif.TS
