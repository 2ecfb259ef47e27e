import Verif.Model.KFold

/-!
# `quantfinlib/train_test_split/walk_forward.py`

`WalkForward.split` is a Python generator that changes its object (`n_splits`, `_finalized_splits`) while
it is driven, and that need not terminate. It is modelled by its `next` step: `wfNext` takes the object
state and the generator state and returns the result of one `next(gen)` call with the new states.

Simplifications: `train_window` and `test_window` are integers or `pd.Timedelta`s (the constructor does
not check them; other types fail in the arithmetic of lines 115-123). `freq` is a valid pandas unit,
represented by its length in nanoseconds. Adding a number to a time stamp, or a `Timedelta` to an integer
label, is a `TypeError`. The warning of `get_n_splits` is not modelled.
-/

namespace Verif.Split

/-- The attributes of a `WalkForward` object that never change after construction (`:54-66`). -/
structure WFCfg where
  nEmbargo : Delta
  nPurge : Delta
  trainWindow : Delta
  testWindow : Delta
  rolling : Bool
  freq : Option Nat
  deriving DecidableEq, Repr

/-- The `split_type` constructor argument. -/
inductive SplitType
  | expanding | rolling | other
  deriving DecidableEq, Repr

/-- `_to_timedelta` (`:154-156`). `pd.Timedelta` of a `Timedelta` ignores the unit. -/
def toTimedelta (u : Nat) : Delta → Delta
  | .int k => .td (k * u)
  | .td t => .td t

/-- `WalkForward.__init__` (`:45-66`). -/
def wfInit (nEmbargo nPurge : DeltaArg) (trainWindow testWindow : Delta) (splitType : SplitType)
    (freq : Option Nat) : Py WFCfg := do
  let ep ← baseInit nEmbargo nPurge
  match splitType with
  | .other => .error .valueError
  | .expanding | .rolling =>
    match freq with
    | none => .ok ⟨ep.1, ep.2, trainWindow, testWindow, splitType == .rolling, none⟩
    | some u =>
      .ok ⟨toTimedelta u ep.1, ep.2, toTimedelta u trainWindow, toTimedelta u testWindow,
        splitType == .rolling, some u⟩

/-- The attributes that `split` changes (`:60-61`). -/
structure WFObj where
  nSplits : Nat
  finalized : Bool
  deriving DecidableEq, Repr

/-- The object after construction (`:60-61`). -/
def WFObj.init : WFObj := ⟨0, false⟩

/-- `get_n_splits` (`:76-84`). -/
def WFObj.getNSplits (o : WFObj) : Nat := if o.finalized then o.nSplits else 0

/-- The local variables of the loop (`:113-123`). -/
structure LoopVars where
  trainStart : Int
  trainEnd : Int
  testStart : Int
  testEnd : Int
  deriving DecidableEq, Repr

/-- `groups[i]` for a position `i ≥ 0`. For a `Series` this is a label lookup in the `RangeIndex`. -/
def groupAt (g : GArr) (i : Nat) : Py Int :=
  match g.kind with
  | .seriesInt | .seriesTime => if i < g.vals.length then pyGet g.vals i else .error .keyError
  | _ => pyGet g.vals i

/-- `groups[-1]`. A `Series` with a `RangeIndex` has no label `-1`. -/
def groupLast (g : GArr) : Py Int :=
  match g.kind with
  | .seriesInt | .seriesTime => .error .keyError
  | _ => pyLast g.vals

/-- A window length as an amount in label units (integers resp. nanoseconds); `TypeError` when labels,
window and `time_unit` do not fit together in `label + window - time_unit` (`:116`, `:120`, `:123`). -/
def windowAmount (kind : GKind) (freq : Option Nat) (w : Delta) : Py Int :=
  match kind, freq, w with
  | .ndarray, none, .int k | .seriesInt, none, .int k => .ok k
  | .seriesTime, some _, .td t | .dtIndex, some _, .td t => .ok t
  | _, _, _ => .error .typeError

/-- `time_unit` (`:110`). -/
def timeUnit (freq : Option Nat) : Int := match freq with
  | some u => u
  | none => 1

/-- The local variables before the loop (`:113-123`). -/
def wfStart (c : WFCfg) (g : GArr) : Py LoopVars := do
  let s ← groupAt g 0
  let a ← windowAmount g.kind c.freq c.trainWindow
  let te ← groupAt g (searchLeft g.vals (s + a - timeUnit c.freq))
  let ts ← groupAt g (searchRight g.vals (s + a - timeUnit c.freq))
  let b ← windowAmount g.kind c.freq c.testWindow
  let tn ← groupAt g (searchLeft g.vals (ts + b - timeUnit c.freq))
  .ok ⟨s, te, ts, tn⟩

/-- `n_embargo > 0` (`:127-129`). -/
def Delta.pos : Delta → Bool
  | .int k => decide (0 < k)
  | .td t => decide (0 < t)

/-- The pair computed in a loop iteration (`:125-136`). -/
def wfSplit (c : WFCfg) (n : Nat) (g : GArr) (v : LoopVars) : Py TrainTest := do
  let indices := List.range n
  let train ← npMask indices
    (g.vals.map fun x => decide (v.trainStart ≤ x) && decide (x ≤ v.trainEnd))
  let test ← npMask indices
    (g.vals.map fun x => decide (v.testStart ≤ x) && decide (x ≤ v.testEnd))
  if c.nEmbargo.pos then do
    let train ← embargo train test indices g c.nEmbargo
    .ok (train, test)
  else .ok (train, test)

/-- The update of the local variables (`:144-151`). -/
def wfAdvance (c : WFCfg) (g : GArr) (v : LoopVars) : Py LoopVars := do
  let b ← windowAmount g.kind c.freq c.testWindow
  let s := if c.rolling then v.trainStart + b else v.trainStart
  let te ← groupAt g (searchLeft g.vals (v.trainEnd + b))
  let ts ← groupAt g (searchLeft g.vals (v.testStart + b))
  let last ← groupLast g
  let tn ← groupAt g (searchLeft g.vals (min (v.testEnd + b) last))
  .ok ⟨s, te, ts, tn⟩

/-- A `split` generator: not started, suspended at the `yield`, or finished. -/
inductive WFGen
  | fresh
  | suspended (v : LoopVars)
  | done
  deriving DecidableEq, Repr

/-- The result of `next(gen)`. -/
inductive NextRes
  | yielded (s : TrainTest)
  | stopped
  | raised (e : PyErr)
  deriving DecidableEq, Repr

/-- The `while` test and, if it holds, the iteration up to the `yield` (`:124-137`). -/
def wfEnter (c : WFCfg) (n : Nat) (g : GArr) (v : LoopVars) : NextRes × WFGen :=
  match groupLast g with
  | .error e => (.raised e, .done)
  | .ok last =>
    if v.trainEnd < last then
      match wfSplit c n g v with
      | .error e => (.raised e, .done)
      | .ok s => (.yielded s, .suspended v)
    else (.stopped, .done)

/-- The first `next` (`:106-137`). -/
def wfBegin (c : WFCfg) (X : XArg) (y : YArg) (groups : Option GroupsArg) : NextRes × WFGen :=
  match baseSplit X y groups with
  | .error e => (.raised e, .done)
  | .ok n =>
    match wfStart c (groupsOrArange n groups) with
    | .error e => (.raised e, .done)
    | .ok v => wfEnter c n (groupsOrArange n groups) v

/-- Resumption after the `yield`, once the counter was increased (`:139-151` and back to `:124`). The
object is returned because `_finalized_splits` may be set. -/
def wfResume (c : WFCfg) (n : Nat) (g : GArr) (v : LoopVars) (o : WFObj) : NextRes × WFGen × WFObj :=
  match groupLast g with
  | .error e => (.raised e, .done, o)
  | .ok last =>
    if last ≤ v.testEnd then (.stopped, .done, { o with finalized := true })
    else
      match wfAdvance c g v with
      | .error e => (.raised e, .done, o)
      | .ok v' => ((wfEnter c n g v').1, (wfEnter c n g v').2, o)

/-- The number of rows of `X`. (Only used when `baseSplit` has accepted `X`.) -/
def xRows : XArg → Nat
  | .ndarray n | .dataFrame n => n
  | .other => 0

/-- One call `next(gen)` of a generator obtained by `split(X, y, groups)` (`:86-151`). -/
def wfNext (c : WFCfg) (X : XArg) (y : YArg) (groups : Option GroupsArg) (o : WFObj) :
    WFGen → NextRes × WFGen × WFObj
  | .fresh => ((wfBegin c X y groups).1, (wfBegin c X y groups).2, o)
  | .suspended v =>
    wfResume c (xRows X) (groupsOrArange (xRows X) groups) v { o with nSplits := o.nSplits + 1 }
  | .done => (.stopped, .done, o)

/-- Driving a generator by at most `fuel` calls of `next`: the yielded pairs, the result that ended it
(`none`: not ended yet) and the final object. -/
def wfDrive (c : WFCfg) (X : XArg) (y : YArg) (groups : Option GroupsArg) :
    Nat → WFObj → WFGen → List TrainTest × Option NextRes × WFObj
  | 0, o, _ => ([], none, o)
  | fuel + 1, o, gen =>
    match wfNext c X y groups o gen with
    | (.yielded s, gen', o') =>
      let r := wfDrive c X y groups fuel o' gen'
      (s :: r.1, r.2)
    | (res, _, o') => ([], some res, o')

/-! ### Histories of generators on one object (`n_splits` and `_finalized_splits` are shared) -/

/-- What a client can do with one `WalkForward` object. -/
inductive WFEvent
  /-- `split(X, y, groups)`: creates a generator; the new one gets the next number. -/
  | split (X : XArg) (y : YArg) (groups : Option GroupsArg)
  /-- `next` on generator number `i` -/
  | next (i : Nat)
  deriving Repr, DecidableEq

/-- A generator with its arguments. -/
structure WFLive where
  X : XArg
  y : YArg
  groups : Option GroupsArg
  gen : WFGen
  deriving Repr, DecidableEq

/-- An object and the generators created from it. -/
structure WFWorld where
  obj : WFObj
  gens : List WFLive
  deriving Repr, DecidableEq

/-- The world after construction. -/
def WFWorld.init : WFWorld := ⟨.init, []⟩

/-- One client action; returns the result of `next`, if it was one. -/
def WFWorld.step (c : WFCfg) (w : WFWorld) : WFEvent → Option NextRes × WFWorld
  | .split X y gs => (none, ⟨w.obj, w.gens ++ [⟨X, y, gs, .fresh⟩]⟩)
  | .next i =>
    match w.gens[i]? with
    | none => (none, w)
    | some l =>
      let r := wfNext c l.X l.y l.groups w.obj l.gen
      (some r.1, ⟨r.2.2, w.gens.set i { l with gen := r.2.1 }⟩)

/-- A history: the results of all actions and the final world. -/
def WFWorld.run (c : WFCfg) : WFWorld → List WFEvent → List (Option NextRes) × WFWorld
  | w, [] => ([], w)
  | w, e :: es =>
    let r := w.step c e
    let rest := WFWorld.run c r.2 es
    (r.1 :: rest.1, rest.2)

end Verif.Split
