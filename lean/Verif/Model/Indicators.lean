import Verif.Model.Series

/-!
# Technical indicators

`quantfinlib/feature/indicators/_base.py`, `_bands.py`, `_macd.py` and `_rsi.py`. Names of the returned series
(`rename`) are left out.
-/

namespace Verif

namespace Ind

open Ser

/-- `_base.py:38-54`, `rolling_mean`. -/
noncomputable def rollingMean (ts : Ser) (window : Int) : Py Ser := rolling window meanF ts

/-- `_base.py:58-74`, `rolling_std`. -/
noncomputable def rollingStd (ts : Ser) (window : Int) : Py Ser := rolling window stdF ts

/-- `_base.py:78-94`, `rolling_max`. -/
noncomputable def rollingMax (ts : Ser) (window : Int) : Py Ser := rolling window maxF ts

/-- `_base.py:98-114`, `rolling_min`. -/
noncomputable def rollingMin (ts : Ser) (window : Int) : Py Ser := rolling window minF ts

/-- `_base.py:118-134`, `ewm_mean`. -/
noncomputable def ewmMean (ts : Ser) (span : ℝ) : Py Ser := do
  let α ← spanAlpha span
  return Ser.ewmMean α 0 ts

/-- `_base.py:138-154`, `ewm_std`. -/
noncomputable def ewmStd (ts : Ser) (span : ℝ) : Py Ser := do
  let α ← spanAlpha span
  return Ser.ewmStd α ts

/-- `_base.py:178-181`, the true range inside `average_true_range`. -/
noncomputable def trueRange (high low close : Ser) : Ser :=
  let tr1 := op2 (· - ·) high low
  let tr2 := (op2 (· - ·) high (shift 1 close)).map XF.abs
  let tr3 := (op2 (· - ·) low (shift 1 close)).map XF.abs
  op2 maxSkip (op2 maxSkip tr1 tr2) tr3

/-- `_base.py:158-182`, `average_true_range`. -/
noncomputable def averageTrueRange (high low close : Ser) (window : ℝ) : Py Ser := do
  let α ← invAlpha window
  return Ser.ewmMean α 0 (trueRange high low close)

/-- `_base.py:186-202`, `rolling_mom`: division by the window, so that window zero gives NaN. -/
noncomputable def rollingMom (ts : Ser) (window : Int) : Ser := (diff window ts).map (· / .fin window)

/-- `_base.py:206-222`, `ewm_mom`. -/
noncomputable def ewmMom (ts : Ser) (span : ℝ) (minPeriods : Int) : Py Ser := do
  let α ← spanAlpha span
  return Ser.ewmMean α minPeriods (diff 1 ts)

/-- `_macd.py:9-29`, `macd`. -/
noncomputable def macd (ts : Ser) (fast slow : ℝ) : Py Ser := do
  let emaFast ← ewmMean ts fast
  let emaSlow ← ewmMean ts slow
  return op2 (· - ·) emaFast emaSlow

/-- `_macd.py:33-55`, `macd_signal`. -/
noncomputable def macdSignal (ts : Ser) (fast slow signal : ℝ) : Py Ser := do
  let macdLine ← macd ts fast slow
  let signalLine ← ewmMean macdLine signal
  return op2 (· - ·) macdLine signalLine

/-- `delta.where(delta > 0, 0)` (`_rsi.py:24-25`, `_rsi.py:47-48`). -/
noncomputable def gains (ts : Ser) : Ser :=
  whereZero (fun d => XF.lt (.fin 0) d) (diff 1 ts) (diff 1 ts)

/-- `(-delta).where(delta < 0, 0)` (`_rsi.py:26`, `_rsi.py:49`). -/
noncomputable def losses (ts : Ser) : Ser :=
  whereZero (fun d => XF.lt d (.fin 0)) (diff 1 ts) ((diff 1 ts).map (- ·))

/-- `100.0 * (up / (up + down))` (`_rsi.py:27`, `_rsi.py:50`). -/
noncomputable def rsiOf (up down : Ser) : Ser := (op2 (· / ·) up (op2 (· + ·) up down)).map (.fin 100 * ·)

/-- `_rsi.py:8-27`, `rsi`. -/
noncomputable def rsi (ts : Ser) (period : Int) : Py Ser := do
  let up ← rolling period meanF (gains ts)
  let down ← rolling period meanF (losses ts)
  return rsiOf up down

/-- `_rsi.py:31-50`, `ewm_rsi`. -/
noncomputable def ewmRsi (ts : Ser) (period : ℝ) : Py Ser := do
  let α ← spanAlpha period
  return rsiOf (Ser.ewmMean α 0 (gains ts)) (Ser.ewmMean α 0 (losses ts))

/-- `_bands.py:40-61`, an instance of `GenericBands` (the three series have the same length; the base name is
left out). -/
structure Bands where
  ts : Ser
  mean : Ser
  std : Ser
  mult : ℝ

namespace Bands

/-- `rolling_std * multiplier`. -/
noncomputable def halfWidth (b : Bands) : Ser := b.std.map (· * .fin b.mult)

/-- `2 * rolling_std * multiplier`. -/
noncomputable def width (b : Bands) : Ser := b.std.map fun s => .fin 2 * s * .fin b.mult

/-- `_bands.py:66-75`, `upper`. -/
noncomputable def upper (b : Bands) : Ser := op2 (· + ·) b.mean b.halfWidth

/-- `_bands.py:77-86`, `lower`. -/
noncomputable def lower (b : Bands) : Ser := op2 (· - ·) b.mean b.halfWidth

/-- `_bands.py:88-97`, `middle`. -/
def middle (b : Bands) : Ser := b.mean

/-- `_bands.py:99-108`, `bandwidth`. -/
noncomputable def bandwidth (b : Bands) : Ser := op2 (· / ·) b.width b.middle

/-- `_bands.py:110-119`, `percent_b`. -/
noncomputable def percentB (b : Bands) : Ser := op2 (· / ·) (op2 (· - ·) b.ts b.lower) b.width

end Bands

/-- `_bands.py:125-142`, `BollingerBands`. -/
noncomputable def bollinger (ts : Ser) (window : Int) (mult : ℝ) : Py Bands := do
  let m ← rollingMean ts window
  let s ← rollingStd ts window
  return ⟨ts, m, s, mult⟩

/-- `_bands.py:148-163`, `EwmBollingerBands`. -/
noncomputable def ewmBollinger (ts : Ser) (window : ℝ) (mult : ℝ) : Py Bands := do
  let m ← ewmMean ts window
  let s ← ewmStd ts window
  return ⟨ts, m, s, mult⟩

/-- `_bands.py:169-204`, `KeltnerBands`. -/
noncomputable def keltner (high low close : Ser) (windowAtr window : ℝ) (mult : ℝ) : Py Bands := do
  let m ← ewmMean close window
  let s ← averageTrueRange high low close windowAtr
  return ⟨close, m, s, mult⟩

/-- `_bands.py:210-225`, `DonchianBands`. -/
noncomputable def donchian (ts : Ser) (window : Int) : Py Bands := do
  let ub ← rollingMax ts window
  let lb ← rollingMin ts window
  return ⟨ts, (op2 (· + ·) ub lb).map (· / .fin 2), (op2 (· - ·) ub lb).map (· / .fin 2), 1⟩

/-- An argument of a decorated function that is annotated as a series: an array, a series (with its index) or
something else. -/
inductive Arg (ι : Type)
  | nd (v : Ser)
  | ser (index : ι) (v : Ser)
  | other

/-- `_base.py:21-26`: the arguments that are arrays, in order; TypeError at the first one that is neither an array
nor a series. -/
def npArgs {ι : Type} : List (Arg ι) → Py (List Ser)
  | [] => .ok []
  | .nd v :: l => do
    let r ← npArgs l
    return v :: r
  | .ser _ _ :: l => npArgs l
  | .other :: _ => .error .typeError

/-- `pd.Series(a)` for arrays; series are kept. -/
def toSer {ι : Type} (rng : Nat → ι) : Arg ι → ι × Ser
  | .nd v => (rng v.length, v)
  | .ser i v => (i, v)
  | .other => (rng 0, [])

/-- `_base.py:10-34`, `numpy_io_support`: `func` takes the series-valued parameters (its other arguments are fixed).
`rng n` is the index `0 … n-1`. Binding errors (missing or unknown parameters) are not modelled. -/
def numpyIoSupport {ι : Type} (rng : Nat → ι) (func : List (ι × Ser) → Py (ι × Ser)) (args : List (Arg ι)) :
    Py (Arg ι) := do
  let np ← npArgs args
  if np.length = 0 then
    let r ← func (args.map (toSer rng))
    return .ser r.1 r.2
  else if np.length = args.length then
    let r ← func (args.map (toSer rng))
    return .nd r.2
  else .error .typeError

end Ind

end Verif
