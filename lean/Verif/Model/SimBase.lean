import Verif.Model.SimCore
import Verif.Model.Timeseries

/-!
# `quantfinlib/sim/_base.py`: the bookkeeping around fitting and sampling

`SimBase` records facts about the data of the last `fit`/`nll`/`aic`/`bic` call and uses them to label later
samples. The numerical parts (`_fit_np`, `_nll`, `_path_sample_np`) are parameters (`ModelOps`), so everything
proved here holds for every model class; `pd.infer_freq` and `pd.date_range` are parameters too (`Pandas`).

Not modelled: arrays with three or more dimensions, nested lists, `bool`s, time zones, `NaT`, labels other than
strings, integers and `None`.
-/

namespace Verif.Sim

/-- A column label or series name. -/
inductive Label
  | none
  | str (s : String)
  | int (n : Nat)
  deriving DecidableEq

/-- The formatting `f"{label}"`. -/
def Label.render : Label → String
  | .none => "None"
  | .str s => s
  | .int n => n.repr

/-- The index of a pandas object: a `DatetimeIndex` (timestamps, name) or another kind. -/
inductive PIndex
  | dates (ts : List Int) (name : Option String)
  | plain

/-- The objects accepted by `fit`, `nll` and as `x0`. -/
inductive SimData
  | int (n : Int)
  | float (r : ℝ)
  | list (l : List ℝ)
  | nd0 (r : ℝ)
  | nd1 (l : List ℝ)
  | nd2 (a : Arr)
  | series (l : List ℝ) (name : Label) (index : PIndex)
  | frame (a : Arr) (columns : List Label) (index : PIndex)
  | other

/-- `type(x)` as far as it is used. -/
inductive Container | int | float | list | ndarray | series | frame | other
  deriving DecidableEq

def SimData.container : SimData → Container
  | .int _ => .int | .float _ => .float | .list _ => .list
  | .nd0 _ => .ndarray | .nd1 _ => .ndarray | .nd2 _ => .ndarray
  | .series .. => .series | .frame .. => .frame | .other => .other

/-- `_get_column_names` (`_base.py:40-46`). -/
def SimData.columnNames : SimData → Option (List Label)
  | .frame _ c _ => some c
  | .series _ n _ => some [n]
  | _ => none

/-- `_get_date_time_index` (`_base.py:49-54`). -/
def SimData.dateIndex : SimData → Option (List Int × Option String)
  | .series _ _ (.dates ts n) => some (ts, n)
  | .frame _ _ (.dates ts n) => some (ts, n)
  | _ => none

/-- `_to_numpy(x)` followed by `values.reshape(-1, 1)` for one dimension and the access `values.shape[1]`
(`_base.py:25-37`, `:164-167`). A list becomes one row; a 0-d array has no `shape[1]`. -/
noncomputable def SimData.toMatrix : SimData → Py Arr
  | .int n => .ok (Arr.ofList 1 1 [(n : ℝ)])
  | .float r => .ok (Arr.ofList 1 1 [r])
  | .list l => .ok (Arr.ofList 1 l.length l)
  | .nd0 _ => .error .indexError
  | .nd1 l => .ok (Arr.ofList l.length 1 l)
  | .nd2 a => .ok a
  | .series l _ _ => .ok (Arr.ofList l.length 1 l)
  | .frame a _ _ => .ok a
  | .other => .error .valueError

/-- All values of an array in row-major order (`reshape(1, -1)`). -/
def Arr.flat (a : Arr) : List ℝ := (List.range (a.rows * a.cols)).map a.data

/-- `_to_numpy(x0).reshape(1, -1)` (`_base.py:220-223`). -/
noncomputable def SimData.toRow : SimData → Py (List ℝ)
  | .int n => .ok [(n : ℝ)]
  | .float r => .ok [r]
  | .list l => .ok l
  | .nd0 r => .ok [r]
  | .nd1 l => .ok l
  | .nd2 a => .ok (Arr.flat a)
  | .series l _ _ => .ok l
  | .frame a _ _ => .ok (Arr.flat a)
  | .other => .error .valueError

/-- The pandas functions used: `inferFreq` for at least three dates; `dateRange start freq periods`. -/
structure Pandas where
  inferFreq : List Int → Option String
  dateRange : Int → String → Nat → Py (List Int)

/-- `_DateTimeIndexInfo` (`_base.py:119-133`). -/
structure IndexInfo where
  has : Bool
  name : Option String
  min : Option Int
  max : Option Int
  freq : Option String
  deriving DecidableEq

/-- The object for data without dates. -/
def IndexInfo.empty : IndexInfo := ⟨false, none, none, none, none⟩

/-- `_DateTimeIndexInfo(x)`: `pd.infer_freq` raises `ValueError` for fewer than three dates. -/
def indexInfo (pd : Pandas) (x : SimData) : Py IndexInfo :=
  match x.dateIndex with
  | none => .ok .empty
  | some (ts, name) =>
    if ts.length < 3 then .error .valueError
    else .ok ⟨true, name, listMin? ts, listMax? ts, pd.inferFreq ts⟩

/-- The `fit_*` attributes (`_base.py:137-153`). -/
structure FitState where
  container : Option Container
  columns : Option (List Label)
  index : IndexInfo
  numCols : Option Nat
  numRows : Option Nat
  x0 : Option (List ℝ)
  xn : Option (List ℝ)
  dt : Option ℝ

/-- After `__init__`. -/
def FitState.init : FitState := ⟨none, none, .empty, none, none, none, none, none⟩

/-- The choice of `dt` while fitting (`_base.py:172-180`). -/
noncomputable def resolveDt (freq : Option String) : Option ℝ → Py ℝ
  | some d => .ok d
  | none =>
    match freq with
    | none => .ok (1 / 252)
    | some f =>
      match TS.freqToDuration f with
      | none => .error .valueError
      | some d => .ok d

/-- `_preprocess_fit_x_and_dt` (`_base.py:155-182`): the attributes are written one after the other, so an
exception leaves those written before. -/
noncomputable def preprocessFit (pd : Pandas) (s : FitState) (x : SimData) (dt : Option ℝ) :
    FitState × Py (Arr × ℝ) :=
  let s1 := { s with container := some x.container, columns := x.columnNames }
  match indexInfo pd x with
  | .error e => (s1, .error e)
  | .ok info =>
    let s2 := { s1 with index := info }
    match x.toMatrix with
    | .error e => (s2, .error e)
    | .ok a =>
      let s3 := { s2 with numCols := some a.cols }
      if a.rows = 0 then (s3, .error .indexError)
      else
        let s4 := { s3 with x0 := some (a.row 0), xn := some (a.row (a.rows - 1)), numRows := some a.rows }
        match resolveDt info.freq dt with
        | .error e => (s4, .error e)
        | .ok d => ({ s4 with dt := some d }, .ok (a, d))

/-- The argument `x0` of `path_sample`. -/
inductive X0Arg
  | none
  | str (s : String)
  | data (x : SimData)

/-- The start row and the default of `label_start` (`_base.py:194-223`). -/
noncomputable def resolveX0 (s : FitState) (x0Default : ℝ) (need : Bool) (labelStart : Option Int) :
    X0Arg → Py (List ℝ × Option Int)
  | .none =>
    match s.x0 with
    | some v => .ok (v, if need && labelStart.isNone then s.index.min else labelStart)
    | none => .ok ([x0Default], labelStart)
  | .str t =>
    if t = "first" then
      match s.x0 with
      | none => .error .valueError
      | some v => .ok (v, if need && labelStart.isNone then s.index.min else labelStart)
    else if t = "last" then
      match s.x0, s.xn with
      | some _, some v => .ok (v, if need && labelStart.isNone then s.index.max else labelStart)
      | some _, none => .error .attributeError
      | none, _ => .error .valueError
    else .error .valueError
  | .data x => do
    let v ← x.toRow
    .ok (v, labelStart)

/-- The step size of a sample (`_base.py:225-232`). -/
noncomputable def resolveSimDt (s : FitState) (dt : Option ℝ) : Py ℝ :=
  let d : Option ℝ := match dt with
    | some d => some d
    | none => if s.x0.isSome then s.dt else some (1 / 252)
  match d with
  | none => .error .assertionError
  | some d => open Classical in if 0 < d then .ok d else .error .assertionError

/-- `_preprocess_sim_path_args` (`_base.py:184-238`). -/
noncomputable def preprocessSim (s : FitState) (x0Default : ℝ) (x0 : X0Arg) (dt : Option ℝ)
    (labelStart : Option Int) (labelFreq : Option String) :
    Py (List ℝ × ℝ × Option Int × Option String) := do
  let need := labelStart.isSome || labelFreq.isSome || s.index.has
  let (v, ls) ← resolveX0 s x0Default need labelStart x0
  let d ← resolveSimDt s dt
  .ok (v, d, ls, if need && labelFreq.isNone then s.index.freq else labelFreq)

/-- `f"{c}_{i}"` -/
def suffixed (c : Label) (i : Nat) : Label := .str (c.render ++ "_" ++ i.repr)

/-- The variate names (`_base.py:245-255`). -/
def baseColumns (s : FitState) (numBase : Int) : Option (List Label) → Py (List Label)
  | some c => if (c.length : Int) = numBase then .ok c else .error .assertionError
  | none =>
    match s.columns with
    | some (a :: l) => if ((a :: l).length : Int) = numBase then .ok (a :: l) else .error .assertionError
    | _ =>
      if 1 < numBase then .ok ((List.range numBase.toNat).map fun i => .str ("S" ++ i.repr))
      else .ok [.str "S"]

/-- `_make_columns_names` (`_base.py:240-260`). -/
def makeColumnNames (s : FitState) (numTarget : Nat) (numPaths : Int) (columns : Option (List Label)) :
    Py (List Label) := do
  if numPaths = 0 then .error .zeroDivisionError
  else
    let numBase := (numTarget : Int).fdiv numPaths
    if (numTarget : Int) ≠ numPaths * numBase then .error .assertionError
    else
      let base ← baseColumns s numBase columns
      if numPaths = 1 then .ok base
      else .ok ((List.range numPaths.toNat).flatMap fun i => base.map fun c => suffixed c i)

/-- `_make_date_time_index` (`_base.py:262-272`). -/
def makeDateIndex (pd : Pandas) (s : FitState) (numRows : Nat) (labelStart : Option Int)
    (labelFreq : Option String) : Py (List Int) :=
  match labelStart.or s.index.min, labelFreq.or s.index.freq with
  | some a, some f => pd.dateRange a f numRows
  | _, _ => .error .assertionError

/-- The result of `path_sample`. -/
inductive Out
  | nd (a : Arr)
  | series (l : List ℝ) (index : List Int) (indexName : Option String) (name : Label)
  | frame (a : Arr) (columns : List Label) (index : List Int) (indexName : Option String)

/-- `need_date_time_index` (`_base.py:284`). -/
def needDates (s : FitState) (labelStart : Option Int) (labelFreq : Option String) : Bool :=
  s.index.has || labelStart.isSome || labelFreq.isSome

/-- `need_columns` (`_base.py:286-291`). -/
def needColumns (s : FitState) (labelStart : Option Int) (labelFreq : Option String)
    (columns : Option (List Label)) : Bool :=
  needDates s labelStart labelFreq || s.container == some .series || s.container == some .frame || columns.isSome

/-- The labelled object (`_base.py:299-308`): `len(columns) == 1` and the container decide between `Series`
and `DataFrame`. -/
def labelled (s : FitState) (a : Arr) (names : List Label) (idx : List Int) : Out :=
  if names.length = 1 ∧ (s.container = some .series ∨ s.container = none) then
    .series (Arr.flat a) idx s.index.name (names.headD .none)
  else .frame a names idx s.index.name

/-- Dropping the first row (`_base.py:310-317`): `.iloc[1:, :]` on a `Series` is an `IndexingError`. -/
def dropFirst : Out → Py Out
  | .nd a => .ok (.nd a.tail)
  | .series .. => .error .indexingError
  | .frame a c i n => .ok (.frame a.tail c i.tail n)

/-- `_format_ans` (`_base.py:274-317`). Without dates the variable `index` is never assigned. -/
def formatAns (pd : Pandas) (s : FitState) (a : Arr) (labelStart : Option Int) (labelFreq : Option String)
    (columns : Option (List Label)) (includeX0 : Bool) (numPaths : Int) : Py Out :=
  let finish : Out → Py Out := fun o => if includeX0 then .ok o else dropFirst o
  if needDates s labelStart labelFreq then do
    let idx ← makeDateIndex pd s a.rows labelStart labelFreq
    let names ← makeColumnNames s a.cols numPaths columns
    finish (labelled s a names idx)
  else if needColumns s labelStart labelFreq columns then do
    let _ ← makeColumnNames s a.cols numPaths columns
    .error .unboundLocalError
  else finish (.nd a)

/-- The numerical parts of a model class with parameters of type `P`. `fitNp` may have changed the parameters
when it raises. -/
structure ModelOps (P : Type) where
  x0Default : ℝ
  sample : P → List ℝ → ℝ → Int → Int → Py Arr
  fitNp : P → Arr → ℝ → P × Py Unit
  nllNp : P → Arr → ℝ → Py ℝ
  numParams : P → ℝ

/-- A model object. -/
structure Obj (P : Type) where
  params : P
  state : FitState

/-- The arguments of `path_sample` (`_base.py:335-346`). -/
structure SampleArgs where
  x0 : X0Arg := .none
  dt : Option ℝ := none
  numSteps : Int := 252
  numPaths : Int := 1
  labelStart : Option Int := none
  labelFreq : Option String := none
  columns : Option (List Label) := none
  includeX0 : Bool := true

variable {P : Type}

/-- `path_sample` (`_base.py:335-391`). -/
noncomputable def pathSample (pd : Pandas) (m : ModelOps P) (o : Obj P) (g : SampleArgs) : Py Out := do
  let (v, d, ls, lf) ← preprocessSim o.state m.x0Default g.x0 g.dt g.labelStart g.labelFreq
  let a ← m.sample o.params v d g.numSteps g.numPaths
  formatAns pd o.state a ls lf g.columns g.includeX0 g.numPaths

/-- `fit` (`_base.py:397-417`). -/
noncomputable def fit (pd : Pandas) (m : ModelOps P) (o : Obj P) (x : SimData) (dt : Option ℝ) : Obj P × Py Unit :=
  match preprocessFit pd o.state x dt with
  | (s, .error e) => (⟨o.params, s⟩, .error e)
  | (s, .ok (a, d)) => (⟨(m.fitNp o.params a d).1, s⟩, (m.fitNp o.params a d).2)

/-- `x.shape[0]` of the caller's object (`_base.py:458`, `:477`): lists and numbers have no `shape`, a 0-d
array has an empty one (not reached). -/
def SimData.shape0 : SimData → Py Nat
  | .nd0 _ => .error .indexError
  | .nd1 l => .ok l.length
  | .nd2 a => .ok a.rows
  | .series l _ _ => .ok l.length
  | .frame a _ _ => .ok a.rows
  | _ => .error .attributeError

/-- The three scores. -/
inductive Score | nll | aic | bic
  deriving DecidableEq

/-- The value of a score from the number of samples and the likelihood (`_base.py:439`, `:459`, `:478`). -/
noncomputable def scoreValue (k : ℝ) (n : Nat) (l : ℝ) : Score → ℝ
  | .nll => l
  | .aic => 2 * k + 2 * l * n
  | .bic => 2 * Real.log n * k + 2 * l * n

/-- `nll`, `aic`, `bic` (`_base.py:422-478`). -/
noncomputable def score (pd : Pandas) (m : ModelOps P) (k : Score) (o : Obj P) (x : SimData) (dt : Option ℝ) :
    Obj P × Py ℝ :=
  match preprocessFit pd o.state x dt with
  | (s, .error e) => (⟨o.params, s⟩, .error e)
  | (s, .ok (a, d)) =>
    (⟨o.params, s⟩, do
      let n ← (if k = .nll then .ok 0 else x.shape0)
      let l ← m.nllNp o.params a d
      .ok (scoreValue (m.numParams o.params) n l k))

end Verif.Sim
