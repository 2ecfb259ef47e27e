import Verif.Model.RollR
import Verif.Model.RoundSum

/-!
# Indicators with rounding after every operation

The relative strength index, Bollinger, Donchian bands and exponential averages on top of the running algorithms of pandas
(`Model/RollR`), with every operation rounded by `fl`.
-/

namespace Verif.Roll

open Verif Ser Round

variable (fl : ℝ → ℝ)

/-- `ts.diff()` (`_rsi.py:24`, `_rsi.py:47`). -/
noncomputable def diffR (x : Ser) : Ser := op2 (fun a b => rnd fl (a - b)) x (shift 1 x)

/-- `delta.where(delta > 0, 0)` (`_rsi.py:25`, `_rsi.py:48`). -/
noncomputable def gainsR (x : Ser) : Ser := whereZero (fun d => XF.lt (.fin 0) d) (diffR fl x) (diffR fl x)

/-- `(-delta).where(delta < 0, 0)` (`_rsi.py:26`, `_rsi.py:49`). -/
noncomputable def lossesR (x : Ser) : Ser := whereZero (fun d => XF.lt d (.fin 0)) (diffR fl x) ((diffR fl x).map (- ·))

/-- `_rsi.py:8-27`, `rsi`. -/
noncomputable def rsiR (x : Ser) (period : Int) : Py Ser := do
  let up ← rollingMeanR fl (gainsR fl x) period
  let down ← rollingMeanR fl (lossesR fl x) period
  return rsiOfR fl up down

/-- `_bands.py:125-142`, `BollingerBands`. -/
noncomputable def bollingerR (x : Ser) (window : Int) (mult : ℝ) : Py Ind.Bands := do
  let m ← rollingMeanR fl x window
  let s ← rollingStdR fl x window
  return ⟨x, m, s, mult⟩

/-- `_bands.py:210-225`, `DonchianBands`; maxima and minima are not rounded. -/
noncomputable def donchianR (x : Ser) (window : Int) : Py Ind.Bands := do
  let ub ← Ind.rollingMax x window
  let lb ← Ind.rollingMin x window
  return ⟨x, (op2 (fun a b => rnd fl (a + b)) ub lb).map (fun v => rnd fl (v / .fin 2)),
    (op2 (fun a b => rnd fl (a - b)) ub lb).map (fun v => rnd fl (v / .fin 2)), 1⟩

open Classical in
/-- The loop of `ewm(...).mean()` (pandas `aggregations.ewm`, `adjust=True`, `ignore_na=False`) with the factor `f` of the old
weights: the mean is left alone if the new value equals it. -/
noncomputable def ewmGoR (f : ℝ) (minp : Nat) : Option (ℝ × ℝ) → Nat → Ser → Ser
  | _, _, [] => []
  | none, nobs, v :: x =>
    match v.real? with
    | none => .nan :: ewmGoR f minp none nobs x
    | some c => (if minp ≤ nobs + 1 then .fin c else .nan) :: ewmGoR f minp (some (c, 1)) (nobs + 1) x
  | some (m, wt), nobs, v :: x =>
    match v.real? with
    | none => (if minp ≤ nobs then .fin m else .nan) :: ewmGoR f minp (some (m, fl (wt * f))) nobs x
    | some c =>
      let a := fl (wt * f)
      let m' := if m = c then m else fl (fl (fl (a * m) + c) / fl (a + 1))
      (if minp ≤ nobs + 1 then .fin m' else .nan) :: ewmGoR f minp (some (m', fl (a + 1))) (nobs + 1) x

/-- `x.ewm(...).mean()` with the factor `f`. -/
noncomputable def ewmMeanR (f : ℝ) (p : Int) (x : Ser) : Ser := ewmGoR fl f (max p 1).toNat none 0 x

/-- `ewm(span=s)`: `com = (s - 1) / 2`, `alpha = 1 / (1 + com)`, and the factor `1 - alpha` (pandas `get_center_of_mass` and
`aggregations.ewm`); ValueError unless `s >= 1`. -/
noncomputable def spanFactorR (s : ℝ) : Py ℝ :=
  if s < 1 then .error .valueError else .ok (fl (1 - fl (1 / fl (1 + fl (fl (s - 1) / 2)))))

/-- `_base.py:118-134`, `ewm_mean`. -/
noncomputable def emaR (x : Ser) (span : ℝ) : Py Ser := do
  let f ← spanFactorR fl span
  return ewmMeanR fl f 0 x

/-- `_rsi.py:31-50`, `ewm_rsi`. -/
noncomputable def ewmRsiR (x : Ser) (period : ℝ) : Py Ser := do
  let f ← spanFactorR fl period
  return rsiOfR fl (ewmMeanR fl f 0 (gainsR fl x)) (ewmMeanR fl f 0 (lossesR fl x))

/-- `_macd.py:9-29`, `macd`. -/
noncomputable def macdR (x : Ser) (fast slow : ℝ) : Py Ser := do
  let a ← emaR fl x fast
  let b ← emaR fl x slow
  return op2 (fun a b => rnd fl (a - b)) a b

end Verif.Roll
