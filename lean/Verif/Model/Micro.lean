import Verif.Model.Series
import Mathlib.Analysis.SpecialFunctions.Trigonometric.Basic

/-!
# Microstructure features

`quantfinlib/feature/micro_structure`. As for the indicators, all series of a call have the same index; the decorator
`numpy_io_support` is modelled in `Verif.Model.Indicators`. Windows are Python integers.
-/

namespace Verif

open Classical

namespace Ser

/-- `a ** 2.0`. -/
noncomputable def sqF (v : XF) : XF := v * v

/-- `np.log(x / y)`. -/
noncomputable def logRatio (x y : Ser) : Ser := (op2 (· / ·) x y).map XF.log

/-- `x.ffill()`, what `pct_change` does first (pandas 2: `fill_method="pad"`); the first argument is the last value
seen. -/
def ffillGo : XF → Ser → Ser
  | _, [] => []
  | last, .nan :: x => last :: ffillGo last x
  | _, v :: x => v :: ffillGo v x

/-- `x.pct_change()`. -/
noncomputable def pctChange (x : Ser) : Ser :=
  (op2 (· / ·) (ffillGo .nan x) (shift 1 (ffillGo .nan x))).map (· - .fin 1)

/-- The pairs of finite values in the window of length `w` that ends at `t`. -/
def win2 (w : Nat) (x y : Ser) (t : Nat) : List (ℝ × ℝ) :=
  (((x.zip y).take (t + 1)).drop (t + 1 - w)).filterMap fun p => p.1.real?.bind fun a => p.2.real?.map fun b => (a, b)

/-- pandas `cov_func`: `(mean(x*y) - mean(x)*mean(y)) * (n / (n - 1))`. -/
noncomputable def covF (v : List (ℝ × ℝ)) : XF :=
  let n : ℝ := v.length
  (.fin ((v.map fun p => p.1 * p.2).sum / n - (v.map Prod.fst).sum / n * ((v.map Prod.snd).sum / n)) : XF) *
    (.fin n / .fin (n - 1))

/-- `x.rolling(w).cov(y)`: positions where one of the series is not a number are missing in both. -/
noncomputable def rollingCov (w : Int) (x y : Ser) : Py Ser :=
  if w < 0 then .error .valueError
  else .ok ((List.range (x.zip y).length).map fun t : Nat =>
    if w.toNat ≤ (win2 w.toNat x y t).length ∧ 0 < (win2 w.toNat x y t).length then covF (win2 w.toNat x y t) else .nan)

end Ser

namespace Micro

open Ser

/-- `_price_sequences.py:10-31`, `get_close_close_volatility`. -/
noncomputable def closeClose (c : Ser) (w : Int) : Py Ser := rolling w varF (op2 (· / ·) c (shift 1 c))

/-- `_price_sequences.py:35-58`, `get_high_low_volatility`. -/
noncomputable def highLow (h l : Ser) (w : Int) : Py Ser := do
  let m ← rolling w meanF ((logRatio h l).map sqF)
  return m.map (· / .fin (4 * Real.log 2))

/-- `_price_sequences.py:62-94`, `get_garman_klass_volatility`. -/
noncomputable def garmanKlass (h l o c : Ser) (w : Int) : Py Ser := do
  let returnsSq := (logRatio h l).map fun v => .fin (1 / 2) * sqF v
  let returnsCloseOpen := (logRatio c o).map fun v => .fin (2 * Real.log 2 - 1) * sqF v
  let a ← rolling w meanF returnsSq
  let b ← rolling w meanF returnsCloseOpen
  return op2 (· - ·) a b

/-- `_price_sequences.py:98-129`, `get_rogers_satchell_volatility`. -/
noncomputable def rogersSatchell (h l o c : Ser) (w : Int) : Py Ser :=
  rolling w meanF (op2 (· + ·) (op2 (· * ·) (logRatio h c) (logRatio h o)) (op2 (· * ·) (logRatio l c) (logRatio l o)))

/-- `_price_sequences.py:162`: `0.34 / (1.34 + (window + 1) / (window - 1))`; the outer divisor is never zero for an
integer window. -/
noncomputable def yzCoeff (w : Int) : Py ℝ :=
  if w = 1 then .error .zeroDivisionError
  else .ok (0.34 / (1.34 + ((w : ℝ) + 1) / ((w : ℝ) - 1)))

/-- `_price_sequences.py:133-171`, `get_yang_zhang_volatility`. -/
noncomputable def yangZhang (h l o c : Ser) (w : Int) : Py Ser := do
  let k ← yzCoeff w
  let overnight ← rolling w meanF ((logRatio o (shift 1 c)).map sqF)
  let openToClose ← rolling w meanF ((logRatio c (shift 1 o)).map sqF)
  let rs ← rogersSatchell h l o c w
  return op2 (· + ·) (op2 (· + ·) overnight (openToClose.map (.fin k * ·))) (rs.map (.fin (1 - k) * ·))

/-- `_price_sequences.py:440-445`, `_get_gamma`. -/
noncomputable def gamma (h l : Ser) : Py Ser := do
  let h2 ← rolling 2 maxF h
  let l2 ← rolling 2 minF l
  return (logRatio h2 l2).map sqF

/-- `_price_sequences.py:448-453`, `_get_beta`. -/
noncomputable def beta (h l : Ser) (w : Int) : Py Ser := do
  let s ← rolling 2 sumF ((logRatio h l).map sqF)
  rolling w meanF s

/-- `x[x < 0] = 0`. -/
noncomputable def clamp (v : XF) : XF := if XF.lt v (.fin 0) then .fin 0 else v

/-- `3 - 2 * 2**0.5`. -/
noncomputable def den : ℝ := 3 - 2 * Real.sqrt 2

/-- `_price_sequences.py:456-462`, `_get_alpha`, including the sign of the second term (`alpha -= -(…)`). The arguments of
`**0.5` are squares or means of squares, so it is the square root. -/
noncomputable def alpha (beta gamma : Ser) : Ser :=
  let first := beta.map fun b => .fin (Real.sqrt 2 - 1) * b.sqrt / .fin den
  let second := gamma.map fun g => -(g / .fin den).sqrt
  (op2 (· - ·) first second).map clamp

/-- `_price_sequences.py:465-472`, `_get_sigma`. -/
noncomputable def sigma (beta gamma : Ser) : Ser :=
  let k2 := Real.sqrt (8 / Real.pi)
  let first := beta.map fun b => .fin (1 / Real.sqrt 2 - 1) * b.sqrt / .fin (k2 * den)
  let second := gamma.map fun g => (g / .fin (k2 ^ 2 * den)).sqrt
  (op2 (· + ·) first second).map clamp

/-- `_price_sequences.py:175-204`, `get_becker_parkinson_volatility`. -/
noncomputable def beckerParkinson (h l : Ser) (w : Int) : Py Ser := do
  let b ← beta h l w
  let g ← gamma h l
  return sigma b g

/-- `_price_sequences.py:233`: `2 * (np.exp(alpha) - 1) / (np.exp(alpha) + 1)`. -/
noncomputable def spreadOf (a : XF) : XF := .fin 2 * (a.exp - .fin 1) / (a.exp + .fin 1)

/-- `_price_sequences.py:208-234`, `get_cowrin_schultz_spread`. -/
noncomputable def corwinSchultz (h l : Ser) (w : Int) : Py Ser := do
  let b ← beta h l w
  let g ← gamma h l
  return (alpha b g).map spreadOf

/-- `_price_sequences.py:397-404`, `_roll_measure`; `get_roll_measure` (373-394) is the same function. -/
noncomputable def rollMeasure (c : Ser) (w : Int) : Py Ser := do
  let d := diff 1 (c.map XF.log)
  let cov ← rollingCov w d (shift 1 d)
  return cov.map fun v => .fin 2 * v.abs.sqrt

/-- `_price_sequences.py:408-434`, `get_roll_impact`. -/
noncomputable def rollImpact (c volume : Ser) (w : Int) : Py Ser := do
  let r ← rollMeasure c w
  return op2 (· / ·) r (op2 (· * ·) volume c)

/-! ## EDGE -/

/-- `a.mean()` of a float array (NaN for an empty one). -/
noncomputable def mean (a : Ser) : XF := a.foldl (· + ·) (.fin 0) / .fin a.length

/-- `a.var()` of a float array. -/
noncomputable def var (a : Ser) : XF := mean (a.map fun v => sqF (v - mean a))

/-- `a.mean()` of a boolean array. -/
noncomputable def bmean (a : List Prop) : XF := .fin ((a.filter fun p => decide p).length : ℝ) / .fin a.length

/-- One bar as seen by `_edge_spread`: the logarithms of its open, high, low and close and of the high, low and close of
the previous bar, with the two mid prices. -/
structure Bar where
  o : XF
  h : XF
  l : XF
  h1 : XF
  l1 : XF
  c1 : XF

/-- `p_m`. -/
noncomputable def Bar.m (b : Bar) : XF := (b.h + b.l) / .fin 2
/-- `m1`. -/
noncomputable def Bar.m1 (b : Bar) : XF := (b.h1 + b.l1) / .fin 2
/-- `tau`. -/
def Bar.tau (b : Bar) : Prop := ¬ XF.eq b.h b.l ∨ ¬ XF.eq b.l b.c1
/-- `phi1` … `phi4`. -/
def Bar.phi1 (b : Bar) : Prop := ¬ XF.eq b.o b.h ∧ b.tau
def Bar.phi2 (b : Bar) : Prop := ¬ XF.eq b.o b.l ∧ b.tau
def Bar.phi3 (b : Bar) : Prop := ¬ XF.eq b.c1 b.h1 ∧ b.tau
def Bar.phi4 (b : Bar) : Prop := ¬ XF.eq b.c1 b.l1 ∧ b.tau
/-- `r1` … `r5`. -/
noncomputable def Bar.r1 (b : Bar) : XF := b.m - b.o
noncomputable def Bar.r2 (b : Bar) : XF := b.o - b.m1
noncomputable def Bar.r3 (b : Bar) : XF := b.m - b.c1
noncomputable def Bar.r4 (b : Bar) : XF := b.c1 - b.m1
noncomputable def Bar.r5 (b : Bar) : XF := b.o - b.c1
/-- `tau` as a number. -/
noncomputable def Bar.tauF (b : Bar) : XF := if b.tau then .fin 1 else .fin 0

/-- `_price_sequences.py:317-323`: the pairs of consecutive bars (the close of the last bar is not used). -/
noncomputable def barsOf (h l o c : Ser) : List Bar :=
  (List.range (h.length - 1)).map fun i : Nat =>
    ⟨((o[i + 1]?).getD .nan).log, ((h[i + 1]?).getD .nan).log, ((l[i + 1]?).getD .nan).log,
      ((h[i]?).getD .nan).log, ((l[i]?).getD .nan).log, ((c[i]?).getD .nan).log⟩

/-- `_price_sequences.py:345-347`, `d1`, `d3`, `d5`: `r - tau * r.mean() / pt` at one bar. -/
noncomputable def demean (bs : List Bar) (pt : XF) (r : Bar → XF) (b : Bar) : XF :=
  r b - b.tauF * mean (bs.map r) / pt

/-- `_price_sequences.py:349`, `x1`. -/
noncomputable def edgeX1 (bs : List Bar) (pt po pc : XF) : Ser :=
  bs.map fun b => -(.fin 4) / po * demean bs pt Bar.r1 b * b.r2 - .fin 4 / pc * demean bs pt Bar.r3 b * b.r4

/-- `_price_sequences.py:350`, `x2`. -/
noncomputable def edgeX2 (bs : List Bar) (pt po pc : XF) : Ser :=
  bs.map fun b => -(.fin 4) / po * demean bs pt Bar.r1 b * b.r5 - .fin 4 / pc * demean bs pt Bar.r5 b * b.r4

/-- `_price_sequences.py:352-358`, `s2`. -/
noncomputable def edgeS2 (x1 x2 : Ser) : XF := (var x2 * mean x1 + var x1 * mean x2) / (var x1 + var x2)

/-- `_price_sequences.py:360-362`. -/
noncomputable def signRoot (sign : Bool) (s2 : XF) : XF :=
  if sign = true ∧ XF.lt s2 (.fin 0) then -s2.abs.sqrt else s2.abs.sqrt

/-- `_price_sequences.py:325-366`: the spread from the bars. -/
noncomputable def edgeBars (bs : List Bar) (sign : Bool) : XF :=
  let pt := bmean (bs.map Bar.tau)
  let po := bmean (bs.map Bar.phi1) + bmean (bs.map Bar.phi2)
  let pc := bmean (bs.map Bar.phi3) + bmean (bs.map Bar.phi4)
  if XF.eq pt (.fin 0) ∨ XF.eq po (.fin 0) ∨ XF.eq pc (.fin 0) then .nan
  else signRoot sign (edgeS2 (edgeX1 bs pt po pc) (edgeX2 bs pt po pc))

/-- `_price_sequences.py:289-369`, `_edge_spread`. -/
noncomputable def edgeOne (h l o c : Ser) (sign : Bool) : XF := edgeBars (barsOf h l o c) sign

/-- `price_df.iloc[i : i + w]`, one column. -/
def slice (i w : Nat) (x : Ser) : Ser := (x.drop i).take w

/-- `_price_sequences.py:238-286`, `get_edge_spread` for series of one length with unique index labels (`reindex` raises
ValueError on duplicates). A window below one gives more estimates than labels: ValueError. -/
noncomputable def edgeSpread (h l o c : Ser) (w : Int) (sign : Bool) : Py Ser :=
  if w ≤ 0 then .error .valueError
  else .ok ((List.range h.length).map fun t : Nat =>
    if w.toNat ≤ t + 1 then
      edgeOne (slice (t + 1 - w.toNat) w.toNat h) (slice (t + 1 - w.toNat) w.toNat l)
        (slice (t + 1 - w.toNat) w.toNat o) (slice (t + 1 - w.toNat) w.toNat c) sign
    else .nan)

/-! ## Trade models -/

/-- `_sequential_trade_models.py:10-34`, `get_vpin`. -/
noncomputable def vpin (volume buy : Ser) (w : Int) : Py Ser :=
  let sell := op2 (· - ·) volume buy
  rolling w meanF (op2 (· / ·) ((op2 (· - ·) buy sell).map XF.abs) volume)

/-- `_sequential_trade_models.py:38-79`, `estimate_buy_volume`; `cdf` is `scipy.stats.t.cdf(·, df=0.25)`. -/
noncomputable def estimateBuyVolume (cdf : XF → XF) (c volume sigmaP : Ser) : Ser :=
  op2 (· * ·) volume ((op2 (· / ·) (diff 1 c) sigmaP).map cdf)

/-- `_strategic_trade_models.py:10-46`, `get_kyle_lambda`. -/
noncomputable def kyle (c volume : Ser) (w : Int) : Py Ser :=
  let d := diff 1 c
  rolling w meanF (op2 (· / ·) d (op2 (· * ·) (d.map XF.sign) volume))

/-- `_strategic_trade_models.py:50-83`, `get_amihud_lambda`. -/
noncomputable def amihud (c volume : Ser) (w : Int) : Py Ser :=
  rolling w meanF (op2 (· / ·) ((pctChange c).map XF.abs) (op2 (· * ·) volume c))

/-- `_strategic_trade_models.py:87-124`, `get_hasbrouck_lambda`. -/
noncomputable def hasbrouck (c volume : Ser) (w : Int) : Py Ser :=
  let d := logRatio c (shift 1 c)
  rolling w meanF (op2 (· / ·) d (op2 (· * ·) (d.map XF.sign) ((op2 (· * ·) volume c).map XF.sqrt)))

end Micro

end Verif
