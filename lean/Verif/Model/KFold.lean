import Verif.Model.SplitBase

/-!
# `quantfinlib/train_test_split/kfoldpe.py`

`TimeAwareKFold`. The constructor result is a `KFoldCfg`; `split` is a generator, modelled by the run
`GenRun` that driving it to the end produces.

Simplification: `freq` is a valid pandas unit, represented by its length in nanoseconds.
-/

namespace Verif.Split

/-- The attributes of a `TimeAwareKFold` object (`kfoldpe.py:86-90`). -/
structure KFoldCfg where
  nFolds : Nat
  nEmbargo : Delta
  nPurge : Delta
  lookForward : Bool
  freq : Option Nat
  deriving DecidableEq, Repr

/-- The `n_folds` constructor argument: an `Integral` or something else. -/
inductive FoldsArg
  | int (k : Int)
  | other
  deriving DecidableEq, Repr

/-- `TimeAwareKFold.__init__` (`kfoldpe.py:73-90`). -/
def kfoldInit (nFolds : FoldsArg) (nEmbargo nPurge : DeltaArg) (lookForward : Bool)
    (freq : Option Nat) : Py KFoldCfg := do
  let ep ← baseInit nEmbargo nPurge
  match nFolds with
  | .other => .error .valueError
  | .int k =>
    if k < 2 then .error .valueError
    else .ok ⟨k.toNat, ep.1, ep.2, lookForward, freq⟩

/-- `TimeAwareKFold.get_n_splits` (`kfoldpe.py:92-105`). -/
def KFoldCfg.getNSplits (c : KFoldCfg) : Nat :=
  if c.lookForward then c.nFolds - 1 else c.nFolds

/-- `_validate_split_settings` (`kfoldpe.py:13-41`). A `Timedelta` cannot be compared with the sample
count (and not be added to an integer): `TypeError` on line 37. -/
def validateSplitSettings (nSamples nFolds : Nat) (nEmbargo nPurge : Delta) : Py Unit :=
  if nSamples < nFolds then .error .valueError
  else
    match nPurge, nEmbargo with
    | .int p, .int e =>
      if p + e ≥ (nSamples : Int) then .error .valueError
      else
        let maxTrain : Int := (nSamples - nSamples / nFolds : Int)
        if p > maxTrain ∨ e > maxTrain ∨ e + p > maxTrain then .error .valueError else .ok ()
    | _, _ => .error .typeError

/-- `groups[groups > g][0]` (`kfoldpe.py:188`). For a `Series` the key `0` is a label; the selected
rows do not contain label `0` (row 0 holds the smallest label), hence `KeyError`. -/
def nextGroup (groups : GArr) (g : Int) : Py Int :=
  match groups.kind with
  | .seriesInt | .seriesTime => .error .keyError
  | _ => do
    let sel ← npMask groups.vals (groups.vals.map fun x => decide (g < x))
    pyGet sel 0

/-- One pass of the loop of `_modify_fold_bounds` (`kfoldpe.py:184-190`) from the current row `b0` on.
The loop body for `fold` only touches the rows `fold` and `fold + 1`, so the loop is a recursion on the
remaining rows that carries the current row. -/
def modifyFrom (groups : GArr) (b0 : Nat × Nat) : List (Nat × Nat) → Py (List (Nat × Nat))
  | [] => .ok [b0]
  | b1 :: rest => do
    let lastCurr ← pyGet groups.vals b0.2
    let firstNext ← pyGet groups.vals b1.1
    if lastCurr = firstNext then
      let next ← nextGroup groups lastCurr
      let e ← pyLast (npWhere (groups.vals.map fun x => decide (x = lastCurr)))
      let s ← pyGet (npWhere (groups.vals.map fun x => decide (x = next))) 0
      let tail ← modifyFrom groups (s, b1.2) rest
      .ok ((b0.1, e) :: tail)
    else
      let tail ← modifyFrom groups b1 rest
      .ok (b0 :: tail)

/-- `_modify_fold_bounds` (`kfoldpe.py:163-191`). -/
def modifyFoldBounds (groups : GArr) : List (Nat × Nat) → Py (List (Nat × Nat))
  | [] => .ok []
  | b :: rest => modifyFrom groups b rest

/-- `_get_train_index_per_split` (`kfoldpe.py:194-221`). -/
def getTrainIndex (indices testIndex : List Nat) (groups : GArr) (lookForward : Bool) :
    Py (List Nat) :=
  let train := npSetdiff1d indices testIndex
  if lookForward then do
    let t0 ← pyGet testIndex 0
    let g0 ← pyGet groups.vals t0
    let later ← npMask indices (groups.vals.map fun x => decide (g0 < x))
    .ok (npSetdiff1d train later)
  else .ok train

/-- One split: a training and a test index array. -/
abbrev TrainTest := List Nat × List Nat

/-- The body of the `for` loop (`kfoldpe.py:150-160`). -/
def kfoldOne (indices : List Nat) (groups : GArr) (lookForward : Bool) (nEmbargo nPurge : Delta)
    (test : List Nat) : Py TrainTest := do
  let t0 ← getTrainIndex indices test groups lookForward
  let t1 ← purge t0 test indices groups nPurge
  let t2 ← embargo t1 test indices groups nEmbargo
  .ok (t2, test)

/-- The `for` loop of the generator: yields until an iteration raises. -/
def kfoldLoop (f : List Nat → Py TrainTest) : List (List Nat) → GenRun TrainTest
  | [] => ⟨[], none⟩
  | t :: ts =>
    match f t with
    | .error e => ⟨[], some e⟩
    | .ok s => let r := kfoldLoop f ts; ⟨s :: r.yields, r.err⟩

/-- The first and last element of each section (`kfoldpe.py:145`). -/
def sectionBounds (secs : List (List Nat)) : Py (List (Nat × Nat)) :=
  secs.mapM fun s => do
    let a ← pyGet s 0
    let b ← pyLast s
    .ok (a, b)

/-- Lines 133-138: the lengths used by the loop. `pd.Timedelta(k, unit=freq)` is `k` units. With a
`freq`, the stored lengths are integers here (otherwise line 132 already raised). -/
def effectiveDelta (hasGroups : Bool) (freq : Option Nat) (d : Delta) : Delta :=
  match hasGroups, freq, d with
  | true, some u, .int k => .td (k * u)
  | _, _, d => d

/-- `groups` with the default of lines 139-140. (`.other` was rejected by `baseSplit` before.) -/
def groupsOrArange (n : Nat) (groups : Option GroupsArg) : GArr :=
  match groups with
  | some (.arr g) => g
  | _ => ⟨.ndarray, (List.range n).map Int.ofNat⟩

/-- `TimeAwareKFold.split` (`kfoldpe.py:107-160`). -/
def KFoldCfg.split (c : KFoldCfg) (X : XArg) (y : YArg) (groups : Option GroupsArg) :
    GenRun TrainTest :=
  let pre : Py (List (List Nat) × List Nat × GArr × Delta × Delta) := do
    let n ← baseSplit X y groups
    validateSplitSettings n c.nFolds c.nEmbargo c.nPurge
    let ne := effectiveDelta groups.isSome c.freq c.nEmbargo
    let np := effectiveDelta groups.isSome c.freq c.nPurge
    let g := groupsOrArange n groups
    let indices := List.range n
    if g.vals.length ≠ indices.length then .error .assertionError
    else do
      let bounds ← sectionBounds (npArraySplit indices c.nFolds)
      let bounds ← modifyFoldBounds g bounds
      let tests := bounds.map fun b => npArange b.1 (b.2 + 1)
      let tests := if c.lookForward then tests.drop 1 else tests
      .ok (tests, indices, g, ne, np)
  match pre with
  | .error e => .fail e
  | .ok (tests, indices, g, ne, np) =>
    kfoldLoop (kfoldOne indices g c.lookForward ne np) tests

end Verif.Split
