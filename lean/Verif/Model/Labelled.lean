import Verif.Model.Indicators
import Verif.Model.Micro
import Mathlib.Data.Finset.Sort

/-!
# Labelled series

`Verif.Model.Series` takes all series of a call to have one index. Here a series carries its labels and the arithmetic of
pandas aligns them. Labels are elements of a linear order; a series may repeat labels as long as all series of the call have
the same index (with different indexes pandas forms all pairs of equal labels; that is not modelled).
-/

namespace Verif

open Classical

variable {ι : Type} [LinearOrder ι]

/-- A float series with its index. -/
abbrev LSer (ι : Type) := List (ι × XF)

namespace LSer

/-- `a.index`. -/
def idx (a : LSer ι) : List ι := a.map Prod.fst

/-- `a.values`. -/
def vals (a : LSer ι) : Ser := a.map Prod.snd

/-- `a.get(l, nan)`. -/
noncomputable def get (a : LSer ι) (l : ι) : XF := ((a.find? fun p => decide (p.1 = l)).map Prod.snd).getD .nan

/-- `a.reindex(i)` for unique labels. -/
noncomputable def reindex (i : List ι) (a : LSer ι) : LSer ι := i.map fun l => (l, a.get l)

/-- `Index.union(other, sort=None)` (also `join(how="outer")`) for unique labels: equal indexes and an empty partner are
returned as they are, otherwise the labels are sorted. -/
noncomputable def union (i j : List ι) : List ι :=
  if i = j then i else if j = [] then i else if i = [] then j else (i.toFinset ∪ j.toFinset).sort

/-- `Index.union(other, sort=False)` for unique labels: new labels are appended. -/
noncomputable def unionKeep (i j : List ι) : List ι := if i = j then i else i ++ j.filter fun l => decide (l ∉ i)

/-- A binary operation of pandas on two series: equal indexes are kept, otherwise both operands are extended to the union. -/
noncomputable def op2 (f : XF → XF → XF) (a b : LSer ι) : LSer ι :=
  if a.idx = b.idx then a.idx.zip (List.zipWith f a.vals b.vals)
  else (union a.idx b.idx).map fun l => (l, f (a.get l) (b.get l))

/-- A method of one series that keeps the index (`shift`, `diff`, `abs`, `rolling(…).mean()`, a numpy ufunc, …). -/
def lift (g : Ser → Ser) (a : LSer ι) : LSer ι := a.idx.zip (g a.vals)

/-- The same for a method that may raise. -/
def liftPy (g : Ser → Py Ser) (a : LSer ι) : Py (LSer ι) := do
  let r ← g a.vals
  return a.idx.zip r

/-- `np.log(a / b)`. -/
noncomputable def logRatio (a b : LSer ι) : LSer ι := lift (·.map XF.log) (op2 (· / ·) a b)

/-- The index of `pd.concat(…, axis=1)` for two series: the labels are sorted only if all indexes are `DatetimeIndex`
(pandas `union_indexes(sort=False)`), otherwise new labels are appended. -/
noncomputable def concatIdx (dates : Bool) (i j : List ι) : List ι := if dates then union i j else unionKeep i j

/-- `pd.concat([a, b, c], axis=1).max(axis=1)`. -/
noncomputable def concatMax (dates : Bool) (a b c : LSer ι) : LSer ι :=
  if a.idx = b.idx ∧ b.idx = c.idx then a.idx.zip (List.zipWith Ser.maxSkip (List.zipWith Ser.maxSkip a.vals b.vals) c.vals)
  else (concatIdx dates (concatIdx dates a.idx b.idx) c.idx).map fun l =>
    (l, Ser.maxSkip (Ser.maxSkip (a.get l) (b.get l)) (c.get l))

/-! ## Indicators -/

/-- `indicators/_base.py:178-181`, the true range. -/
noncomputable def trueRange (dates : Bool) (high low close : LSer ι) : LSer ι :=
  let tr1 := op2 (· - ·) high low
  let tr2 := lift (·.map XF.abs) (op2 (· - ·) high (lift (Ser.shift 1) close))
  let tr3 := lift (·.map XF.abs) (op2 (· - ·) low (lift (Ser.shift 1) close))
  concatMax dates tr1 tr2 tr3

/-- `indicators/_base.py:158-182`, `average_true_range`. -/
noncomputable def averageTrueRange (dates : Bool) (high low close : LSer ι) (window : ℝ) : Py (LSer ι) := do
  let α ← Ser.invAlpha window
  return lift (Ser.ewmMean α 0) (trueRange dates high low close)

/-- `indicators/_bands.py:40-61`, an instance of `GenericBands`; users may pass any three series. -/
structure Bands (ι : Type) where
  ts : LSer ι
  mean : LSer ι
  std : LSer ι
  mult : ℝ

namespace Bands

/-- `indicators/_bands.py:66-75`, `upper`. -/
noncomputable def upper (b : Bands ι) : LSer ι := op2 (· + ·) b.mean (lift (·.map (· * .fin b.mult)) b.std)

/-- `indicators/_bands.py:77-86`, `lower`. -/
noncomputable def lower (b : Bands ι) : LSer ι := op2 (· - ·) b.mean (lift (·.map (· * .fin b.mult)) b.std)

/-- `indicators/_bands.py:99-108`, `bandwidth`. -/
noncomputable def bandwidth (b : Bands ι) : LSer ι := op2 (· / ·) (lift (·.map fun s => .fin 2 * s * .fin b.mult) b.std) b.mean

/-- `indicators/_bands.py:110-119`, `percent_b`. -/
noncomputable def percentB (b : Bands ι) : LSer ι :=
  op2 (· / ·) (op2 (· - ·) b.ts b.lower) (lift (·.map fun s => .fin 2 * s * .fin b.mult) b.std)

end Bands

/-- `indicators/_bands.py:169-204`, `KeltnerBands`. -/
noncomputable def keltner (dates : Bool) (high low close : LSer ι) (windowAtr window mult : ℝ) : Py (Bands ι) := do
  let m ← liftPy (Ind.ewmMean · window) close
  let s ← averageTrueRange dates high low close windowAtr
  return ⟨close, m, s, mult⟩

/-! ## Microstructure -/

/-- `micro_structure/_price_sequences.py:35-58`, `get_high_low_volatility`. -/
noncomputable def highLow (h l : LSer ι) (w : Int) : Py (LSer ι) := do
  let m ← liftPy (Ser.rolling w Ser.meanF) (lift (·.map Ser.sqF) (logRatio h l))
  return lift (·.map (· / .fin (4 * Real.log 2))) m

/-- `_price_sequences.py:62-94`, `get_garman_klass_volatility`. -/
noncomputable def garmanKlass (h l o c : LSer ι) (w : Int) : Py (LSer ι) := do
  let returnsSq := lift (·.map fun v => .fin (1 / 2) * Ser.sqF v) (logRatio h l)
  let returnsCloseOpen := lift (·.map fun v => .fin (2 * Real.log 2 - 1) * Ser.sqF v) (logRatio c o)
  let a ← liftPy (Ser.rolling w Ser.meanF) returnsSq
  let b ← liftPy (Ser.rolling w Ser.meanF) returnsCloseOpen
  return op2 (· - ·) a b

/-- `_price_sequences.py:98-129`, `get_rogers_satchell_volatility`. -/
noncomputable def rogersSatchell (h l o c : LSer ι) (w : Int) : Py (LSer ι) :=
  liftPy (Ser.rolling w Ser.meanF)
    (op2 (· + ·) (op2 (· * ·) (logRatio h c) (logRatio h o)) (op2 (· * ·) (logRatio l c) (logRatio l o)))

/-- `_price_sequences.py:133-171`, `get_yang_zhang_volatility`. -/
noncomputable def yangZhang (h l o c : LSer ι) (w : Int) : Py (LSer ι) := do
  let k ← Micro.yzCoeff w
  let overnight ← liftPy (Ser.rolling w Ser.meanF) (lift (·.map Ser.sqF) (logRatio o (lift (Ser.shift 1) c)))
  let openToClose ← liftPy (Ser.rolling w Ser.meanF) (lift (·.map Ser.sqF) (logRatio c (lift (Ser.shift 1) o)))
  let rs ← rogersSatchell h l o c w
  return op2 (· + ·) (op2 (· + ·) overnight (lift (·.map (.fin k * ·)) openToClose)) (lift (·.map (.fin (1 - k) * ·)) rs)

/-- `_price_sequences.py:440-445`, `_get_gamma`. -/
noncomputable def gamma (h l : LSer ι) : Py (LSer ι) := do
  let h2 ← liftPy (Ser.rolling 2 Ser.maxF) h
  let l2 ← liftPy (Ser.rolling 2 Ser.minF) l
  return lift (·.map Ser.sqF) (logRatio h2 l2)

/-- `_price_sequences.py:448-453`, `_get_beta`. -/
noncomputable def beta (h l : LSer ι) (w : Int) : Py (LSer ι) := do
  let s ← liftPy (Ser.rolling 2 Ser.sumF) (lift (·.map Ser.sqF) (logRatio h l))
  liftPy (Ser.rolling w Ser.meanF) s

/-- `_price_sequences.py:456-462`, `_get_alpha`. The in-place `-=` would put the result on the index of `beta`; here `beta`
and `gamma` have the same index. -/
noncomputable def alpha (beta gamma : LSer ι) : LSer ι :=
  lift (·.map Micro.clamp) (op2 (· - ·) (lift (·.map fun b => .fin (Real.sqrt 2 - 1) * b.sqrt / .fin Micro.den) beta)
    (lift (·.map fun g => -(g / .fin Micro.den).sqrt) gamma))

/-- `_price_sequences.py:465-472`, `_get_sigma`. -/
noncomputable def sigma (beta gamma : LSer ι) : LSer ι :=
  let k2 := Real.sqrt (8 / Real.pi)
  lift (·.map Micro.clamp) (op2 (· + ·) (lift (·.map fun b => .fin (1 / Real.sqrt 2 - 1) * b.sqrt / .fin (k2 * Micro.den)) beta)
    (lift (·.map fun g => (g / .fin (k2 ^ 2 * Micro.den)).sqrt) gamma))

/-- `_price_sequences.py:175-204`, `get_becker_parkinson_volatility`. -/
noncomputable def beckerParkinson (h l : LSer ι) (w : Int) : Py (LSer ι) := do
  let b ← beta h l w
  let g ← gamma h l
  return sigma b g

/-- `_price_sequences.py:208-234`, `get_cowrin_schultz_spread`. -/
noncomputable def corwinSchultz (h l : LSer ι) (w : Int) : Py (LSer ι) := do
  let b ← beta h l w
  let g ← gamma h l
  return lift (·.map Micro.spreadOf) (alpha b g)

/-- `_price_sequences.py:408-434`, `get_roll_impact`. -/
noncomputable def rollImpact (c volume : LSer ι) (w : Int) : Py (LSer ι) := do
  let r ← liftPy (Micro.rollMeasure · w) c
  return op2 (· / ·) r (op2 (· * ·) volume c)

/-- `_price_sequences.py:274`: the index of `price_df` (a dict of series: `union_indexes(sort=True)`). -/
noncomputable def frameIdx (h l o c : LSer ι) : List ι := union (union (union o.idx h.idx) l.idx) c.idx

/-- A column of `price_df`. -/
noncomputable def column (i : List ι) (a : LSer ι) : Ser := if a.idx = i then a.vals else (a.reindex i).vals

/-- `_price_sequences.py:281-283`: the estimates of all full windows. -/
noncomputable def edgeWindows (h l o c : Ser) (w : Nat) (sign : Bool) : Ser :=
  (List.range (h.length + 1 - w)).map fun i : Nat =>
    Micro.edgeOne (Micro.slice i w h) (Micro.slice i w l) (Micro.slice i w o) (Micro.slice i w c) sign

/-- `_price_sequences.py:284-287`: the estimates get the labels from the last one of the first window on and are put back on
the whole index. `reindex` raises ValueError if the labels of the estimates repeat (unless the index is the same). -/
noncomputable def edgePlace (i : List ι) (w : Nat) (u : Ser) : Py (LSer ι) :=
  let src : LSer ι := (i.drop (w - 1)).zip u
  if src.idx = i then .ok src
  else if src.idx.Nodup then .ok (src.reindex i)
  else .error .valueError

/-- `_price_sequences.py:238-287`, `get_edge_spread`. A window below one gives more estimates than labels: ValueError. -/
noncomputable def edgeSpread (h l o c : LSer ι) (w : Int) (sign : Bool) : Py (LSer ι) :=
  let i := frameIdx h l o c
  if w ≤ 0 then .error .valueError
  else edgePlace i w.toNat (edgeWindows (column i h) (column i l) (column i o) (column i c) w.toNat sign)

/-- `_sequential_trade_models.py:10-34`, `get_vpin`. -/
noncomputable def vpin (volume buy : LSer ι) (w : Int) : Py (LSer ι) :=
  let sell := op2 (· - ·) volume buy
  liftPy (Ser.rolling w Ser.meanF) (op2 (· / ·) (lift (·.map XF.abs) (op2 (· - ·) buy sell)) volume)

/-- A series times an array (`volume * t.cdf(…)`): by position; an array of one element is repeated, any other length
raises ValueError. -/
noncomputable def mulArray (a : LSer ι) (x : Ser) : Py (LSer ι) :=
  if x.length = a.length then .ok (a.idx.zip (List.zipWith (· * ·) a.vals x))
  else match x with
    | [v] => .ok (lift (·.map (· * v)) a)
    | _ => .error .valueError

/-- `_sequential_trade_models.py:38-79`, `estimate_buy_volume`; `scipy.stats.t.cdf` returns an array, without labels. -/
noncomputable def estimateBuyVolume (cdf : XF → XF) (c volume sigmaP : LSer ι) : Py (LSer ι) :=
  mulArray volume ((op2 (· / ·) (lift (Ser.diff 1) c) sigmaP).vals.map cdf)

/-- `_strategic_trade_models.py:10-46`, `get_kyle_lambda`. -/
noncomputable def kyle (c volume : LSer ι) (w : Int) : Py (LSer ι) :=
  let d := lift (Ser.diff 1) c
  liftPy (Ser.rolling w Ser.meanF) (op2 (· / ·) d (op2 (· * ·) (lift (·.map XF.sign) d) volume))

/-- `_strategic_trade_models.py:50-83`, `get_amihud_lambda`. -/
noncomputable def amihud (c volume : LSer ι) (w : Int) : Py (LSer ι) :=
  liftPy (Ser.rolling w Ser.meanF) (op2 (· / ·) (lift (·.map XF.abs) (lift Ser.pctChange c)) (op2 (· * ·) volume c))

/-- `_strategic_trade_models.py:87-124`, `get_hasbrouck_lambda`. -/
noncomputable def hasbrouck (c volume : LSer ι) (w : Int) : Py (LSer ι) :=
  let d := logRatio c (lift (Ser.shift 1) c)
  liftPy (Ser.rolling w Ser.meanF)
    (op2 (· / ·) d (op2 (· * ·) (lift (·.map XF.sign) d) (lift (·.map XF.sqrt) (op2 (· * ·) volume c))))

end LSer

end Verif
