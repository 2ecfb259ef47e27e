import Verif.Model.IndR
import Verif.Model.Micro

/-!
# Microstructure features with rounding after every operation

As `Model/Micro`, on top of the running algorithms of pandas (`Model/RollR`), with every operation rounded by `fl`; roots,
logarithms and exponentials are rounded once.
-/

namespace Verif.Roll

open Verif Ser Round

variable (fl : ℝ → ℝ)

open Classical in
/-- `calc_sum` of pandas; `roll_sum` keeps the same running sum, compensations and run of equal values as `roll_mean`. -/
noncomputable def MeanSt.calcSum (s : MeanSt) (w : Nat) : XF :=
  if w ≤ s.nobs then (if s.nobs ≤ s.same then rnd fl (s.prev * .fin s.nobs) else .fin s.sum) else .nan

/-- `x.rolling(w).sum()` for `w ≥ 1`. -/
noncomputable def rollingSumR (x : Ser) (w : Nat) : Ser := (List.range x.length).map fun t => (meanSt fl w x t).calcSum fl w

/-- `a ** 2.0`. -/
noncomputable def sqR (v : XF) : XF := rnd fl (v * v)

/-- `np.log(x / y)`. -/
noncomputable def logRatioR (x y : Ser) : Ser := (op2 (fun a b => rnd fl (a / b)) x y).map fun v => rnd fl v.log

/-- A product of two series. -/
noncomputable def mulR (x y : Ser) : Ser := op2 (fun a b => rnd fl (a * b)) x y

/-- A quotient of two series. -/
noncomputable def divR (x y : Ser) : Ser := op2 (fun a b => rnd fl (a / b)) x y

/-- A sum of two series. -/
noncomputable def addR (x y : Ser) : Ser := op2 (fun a b => rnd fl (a + b)) x y

/-- A difference of two series. -/
noncomputable def subR (x y : Ser) : Ser := op2 (fun a b => rnd fl (a - b)) x y

/-- `k * x` -/
noncomputable def scaleR (k : ℝ) (x : Ser) : Ser := x.map fun v => rnd fl (.fin k * v)

/-- `_price_sequences.py:10-31`, `get_close_close_volatility`. -/
noncomputable def closeCloseR (c : Ser) (w : Int) : Py Ser := rollingVarR fl (divR fl c (shift 1 c)) w

/-- `4.0 * np.log(2.0)` -/
noncomputable def parkR : ℝ := fl (4 * fl (Real.log 2))

/-- `_price_sequences.py:35-58`, `get_high_low_volatility`. -/
noncomputable def highLowR (h l : Ser) (w : Int) : Py Ser := do
  let m ← rollingMeanR fl ((logRatioR fl h l).map (sqR fl)) w
  return m.map fun v => rnd fl (v / .fin (parkR fl))

/-- `2 * np.log(2) - 1` -/
noncomputable def gkR : ℝ := fl (fl (2 * fl (Real.log 2)) - 1)

/-- `_price_sequences.py:62-94`, `get_garman_klass_volatility`. -/
noncomputable def garmanKlassR (h l o c : Ser) (w : Int) : Py Ser := do
  let a ← rollingMeanR fl (scaleR fl (1 / 2) ((logRatioR fl h l).map (sqR fl))) w
  let b ← rollingMeanR fl (scaleR fl (gkR fl) ((logRatioR fl c o).map (sqR fl))) w
  return subR fl a b

/-- `_price_sequences.py:98-129`, `get_rogers_satchell_volatility`. -/
noncomputable def rogersSatchellR (h l o c : Ser) (w : Int) : Py Ser :=
  rollingMeanR fl (addR fl (mulR fl (logRatioR fl h c) (logRatioR fl h o)) (mulR fl (logRatioR fl l c) (logRatioR fl l o))) w

/-- `0.34 / (1.34 + (window + 1) / (window - 1))` (`_price_sequences.py:162`). -/
noncomputable def yzCoeffR (w : Int) : Py ℝ :=
  if w = 1 then .error .zeroDivisionError
  else .ok (fl (fl 0.34 / fl (fl 1.34 + fl (((w : ℝ) + 1) / ((w : ℝ) - 1)))))

/-- `_price_sequences.py:133-171`, `get_yang_zhang_volatility`. -/
noncomputable def yangZhangR (h l o c : Ser) (w : Int) : Py Ser := do
  let k ← yzCoeffR fl w
  let overnight ← rollingMeanR fl ((logRatioR fl o (shift 1 c)).map (sqR fl)) w
  let openToClose ← rollingMeanR fl ((logRatioR fl c (shift 1 o)).map (sqR fl)) w
  let rs ← rogersSatchellR fl h l o c w
  return addR fl (addR fl overnight (scaleR fl k openToClose)) (scaleR fl (fl (1 - k)) rs)

/-- `_price_sequences.py:440-445`, `_get_gamma`. -/
noncomputable def gammaR (h l : Ser) : Py Ser := do
  let h2 ← rolling 2 maxF h
  let l2 ← rolling 2 minF l
  return (logRatioR fl h2 l2).map (sqR fl)

/-- `_price_sequences.py:448-453`, `_get_beta`. -/
noncomputable def betaR (h l : Ser) (w : Int) : Py Ser :=
  rollingMeanR fl (rollingSumR fl ((logRatioR fl h l).map (sqR fl)) 2) w

/-- `3 - 2.0 * 2**0.5` -/
noncomputable def denR : ℝ := fl (3 - fl (2 * fl (Real.sqrt 2)))

/-- `_price_sequences.py:456-462`, `_get_alpha`. -/
noncomputable def alphaR (beta gamma : Ser) : Ser :=
  let first := beta.map fun b => rnd fl (rnd fl (.fin (fl (fl (Real.sqrt 2) - 1)) * rnd fl b.sqrt) / .fin (denR fl))
  let second := gamma.map fun g => -(rnd fl (rnd fl (g / .fin (denR fl))).sqrt)
  (subR fl first second).map Micro.clamp

/-- `2 * (np.exp(alpha) - 1) / (np.exp(alpha) + 1)` (`_price_sequences.py:233`). -/
noncomputable def spreadOfR (a : XF) : XF :=
  rnd fl (rnd fl (.fin 2 * rnd fl (rnd fl a.exp - .fin 1)) / rnd fl (rnd fl a.exp + .fin 1))

/-- `_price_sequences.py:208-234`, `get_cowrin_schultz_spread`. -/
noncomputable def corwinSchultzR (h l : Ser) (w : Int) : Py Ser := do
  let b ← betaR fl h l w
  let g ← gammaR fl h l
  return (alphaR fl b g).map (spreadOfR fl)

/-- `_price_sequences.py:465-472`, `_get_sigma`. -/
noncomputable def sigmaR (beta gamma : Ser) : Ser :=
  let k2 := fl (Real.sqrt (fl (8 / fl Real.pi)))
  let first := beta.map fun b => rnd fl (rnd fl (.fin (fl (fl (1 / Real.sqrt 2) - 1)) * rnd fl b.sqrt) / .fin (fl (k2 * denR fl)))
  let second := gamma.map fun g => rnd fl (rnd fl (g / .fin (fl (fl (k2 ^ 2) * denR fl)))).sqrt
  (addR fl first second).map Micro.clamp

/-- `_price_sequences.py:175-204`, `get_becker_parkinson_volatility`. -/
noncomputable def beckerParkinsonR (h l : Ser) (w : Int) : Py Ser := do
  let b ← betaR fl h l w
  let g ← gammaR fl h l
  return sigmaR fl b g

/-- `x + 0 * y`, the first argument of `cov` as pandas prepares it: missing where `x` or `y` is not a number. -/
def maskF (a b : XF) : XF :=
  match a, b with
  | .fin r, .fin _ => .fin r
  | _, _ => .nan

/-- `x.rolling(w).cov(y)`: three rolling means, and the number of values, which is `w` in a window without missing values. -/
noncomputable def rollingCovR (w : Int) (x y : Ser) : Py Ser := do
  let mxy ← rollingMeanR fl (mulR fl (op2 maskF x y) (op2 maskF y x)) w
  let mx ← rollingMeanR fl (op2 maskF x y) w
  let my ← rollingMeanR fl (op2 maskF y x) w
  return (subR fl mxy (mulR fl mx my)).map fun v => rnd fl (v * rnd fl (.fin w / .fin (w - 1)))

/-- `_price_sequences.py:397-404`, `_roll_measure`, and `get_roll_measure` (373-394). -/
noncomputable def rollMeasureR (c : Ser) (w : Int) : Py Ser := do
  let d := diffR fl (c.map fun v => rnd fl v.log)
  let cov ← rollingCovR fl w d (shift 1 d)
  return cov.map fun v => rnd fl (.fin 2 * rnd fl v.abs.sqrt)

/-- `_price_sequences.py:408-434`, `get_roll_impact`. -/
noncomputable def rollImpactR (c volume : Ser) (w : Int) : Py Ser := do
  let r ← rollMeasureR fl c w
  return divR fl r (mulR fl volume c)

/-- The bars of `get_vpin`: `(buy_volume - sell_volume).abs() / volume`. -/
noncomputable def imbalanceR (volume buy : Ser) : Ser :=
  divR fl ((subR fl buy (subR fl volume buy)).map XF.abs) volume

/-- `_sequential_trade_models.py:10-34`, `get_vpin`. -/
noncomputable def vpinR (volume buy : Ser) (w : Int) : Py Ser := rollingMeanR fl (imbalanceR fl volume buy) w

/-- `_sequential_trade_models.py:38-79`, `estimate_buy_volume`; `cdf` is scipy's, with its rounding. -/
noncomputable def estimateBuyVolumeR (cdf : XF → XF) (c volume sigmaP : Ser) : Ser :=
  mulR fl volume ((divR fl (diffR fl c) sigmaP).map cdf)

/-- `_strategic_trade_models.py:10-46`, `get_kyle_lambda`. -/
noncomputable def kyleR (c volume : Ser) (w : Int) : Py Ser :=
  rollingMeanR fl (divR fl (diffR fl c) (mulR fl ((diffR fl c).map XF.sign) volume)) w

/-- `x.pct_change()` -/
noncomputable def pctChangeR (x : Ser) : Ser :=
  (divR fl (ffillGo .nan x) (shift 1 (ffillGo .nan x))).map fun v => rnd fl (v - .fin 1)

/-- `_strategic_trade_models.py:50-83`, `get_amihud_lambda`. -/
noncomputable def amihudR (c volume : Ser) (w : Int) : Py Ser :=
  rollingMeanR fl (divR fl ((pctChangeR fl c).map XF.abs) (mulR fl volume c)) w

/-- `_strategic_trade_models.py:87-124`, `get_hasbrouck_lambda`. -/
noncomputable def hasbrouckR (c volume : Ser) (w : Int) : Py Ser :=
  rollingMeanR fl (divR fl (logRatioR fl c (shift 1 c))
    (mulR fl ((logRatioR fl c (shift 1 c)).map XF.sign) ((mulR fl volume c).map fun v => rnd fl v.sqrt))) w

end Verif.Roll
