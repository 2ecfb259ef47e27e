import Verif.Model.WalkForward
import Mathlib.Data.Real.Basic
import Mathlib.Algebra.Order.Archimedean.Real.Basic

/-!
# `quantfinlib/train_test_split/walk_forward.py` with windows that are floats

The constructor does not check the windows (`:54-57`), and `label + window - time_unit` (`:115-123`, `:146-151`) is defined
for floats, so `train_window=0.7 * len(X)` is accepted. This model has `freq=None` (with `freq` the windows become
`pd.Timedelta`s in the constructor, `:63-66`, `:154-156`, which `Model/WalkForward` has).

Simplifications: the floats are finite; labels are smaller than `2 ^ 53`, so that their conversion inside `np.searchsorted` is
exact; the sum of a label and a float window is one rounded addition `fl`. The counter of the object is left out, since it does not
influence the splits.
-/

namespace Verif.Split

/-- A window: an integer or a float. -/
inductive Win
  | int (k : Int)
  | flt (r : ℝ)

/-- `label + window`. -/
noncomputable def Win.plus (fl : ℝ → ℝ) (w : Win) (x : ℝ) : ℝ := match w with
  | .int k => x + k
  | .flt r => fl (x + r)

/-- `… - time_unit`, after the window was added (`:110`, `:116`). -/
noncomputable def Win.lessUnit (fl : ℝ → ℝ) (w : Win) (x : ℝ) : ℝ := match w with
  | .int _ => x - 1
  | .flt _ => fl (x - 1)

open Classical in
/-- `np.searchsorted(groups, v, side="left")`. -/
noncomputable def leftOf (vals : List Int) (v : ℝ) : Nat := (vals.takeWhile fun x : Int => decide ((x : ℝ) < v)).length

open Classical in
/-- `np.searchsorted(groups, v, side="right")`. -/
noncomputable def rightOf (vals : List Int) (v : ℝ) : Nat := (vals.takeWhile fun x : Int => decide ((x : ℝ) ≤ v)).length

/-- The attributes (`:54-62`). -/
structure WFCfgF where
  nEmbargo : Delta
  trainWindow : Win
  testWindow : Win
  rolling : Bool

/-- `WalkForward.__init__` without `freq` (`:45-62`). -/
def wfInitF (nEmbargo nPurge : DeltaArg) (trainWindow testWindow : Win) (splitType : SplitType) : Py WFCfgF := do
  let ep ← baseInit nEmbargo nPurge
  match splitType with
  | .other => .error .valueError
  | .expanding | .rolling => .ok ⟨ep.1, trainWindow, testWindow, splitType == .rolling⟩

/-- The local variables of the loop. Only the start of a rolling training set need not be a label (`:145`). -/
structure FVars where
  trainStart : ℝ
  trainEnd : Int
  testStart : Int
  testEnd : Int

/-- A number can be added to integers, not to time stamps. -/
def numeric (kind : GKind) : Py Unit := match kind with
  | .ndarray | .seriesInt => .ok ()
  | .seriesTime | .dtIndex => .error .typeError

/-- The local variables before the loop (`:113-123`). -/
noncomputable def wfStartF (fl : ℝ → ℝ) (c : WFCfgF) (g : GArr) : Py FVars := do
  let s ← groupAt g 0
  numeric g.kind
  let te ← groupAt g (leftOf g.vals (c.trainWindow.lessUnit fl (c.trainWindow.plus fl s)))
  let ts ← groupAt g (rightOf g.vals (c.trainWindow.lessUnit fl (c.trainWindow.plus fl s)))
  let tn ← groupAt g (leftOf g.vals (c.testWindow.lessUnit fl (c.testWindow.plus fl ts)))
  .ok ⟨s, te, ts, tn⟩

open Classical in
/-- The pair computed in a loop iteration (`:125-136`). -/
noncomputable def wfSplitF (c : WFCfgF) (n : Nat) (g : GArr) (v : FVars) : Py TrainTest := do
  let indices := List.range n
  let train ← npMask indices (g.vals.map fun x : Int => decide (v.trainStart ≤ (x : ℝ)) && decide (x ≤ v.trainEnd))
  let test ← npMask indices (g.vals.map fun x => decide (v.testStart ≤ x) && decide (x ≤ v.testEnd))
  if c.nEmbargo.pos then do
    let train ← embargo train test indices g c.nEmbargo
    .ok (train, test)
  else .ok (train, test)

/-- The update of the local variables (`:144-151`). -/
noncomputable def wfAdvanceF (fl : ℝ → ℝ) (c : WFCfgF) (g : GArr) (v : FVars) : Py FVars := do
  let s := if c.rolling then c.testWindow.plus fl v.trainStart else v.trainStart
  let te ← groupAt g (leftOf g.vals (c.testWindow.plus fl v.trainEnd))
  let ts ← groupAt g (leftOf g.vals (c.testWindow.plus fl v.testStart))
  let last ← groupLast g
  let tn ← groupAt g (leftOf g.vals (min (c.testWindow.plus fl v.testEnd) last))
  .ok ⟨s, te, ts, tn⟩

/-- A `split` generator. -/
inductive FGen
  | fresh
  | suspended (v : FVars)
  | done

/-- The `while` test and, if it holds, the iteration up to the `yield` (`:124-137`). -/
noncomputable def wfEnterF (c : WFCfgF) (n : Nat) (g : GArr) (v : FVars) : NextRes × FGen :=
  match groupLast g with
  | .error e => (.raised e, .done)
  | .ok last =>
    if v.trainEnd < last then
      match wfSplitF c n g v with
      | .error e => (.raised e, .done)
      | .ok s => (.yielded s, .suspended v)
    else (.stopped, .done)

/-- One call `next(gen)` of a generator obtained by `split(X, y, groups)` (`:86-151`). -/
noncomputable def wfNextF (fl : ℝ → ℝ) (c : WFCfgF) (X : XArg) (y : YArg) (groups : Option GroupsArg) : FGen → NextRes × FGen
  | .fresh =>
    match baseSplit X y groups with
    | .error e => (.raised e, .done)
    | .ok n =>
      match wfStartF fl c (groupsOrArange n groups) with
      | .error e => (.raised e, .done)
      | .ok v => wfEnterF c n (groupsOrArange n groups) v
  | .suspended v =>
    match groupLast (groupsOrArange (xRows X) groups) with
    | .error e => (.raised e, .done)
    | .ok last =>
      if last ≤ v.testEnd then (.stopped, .done)
      else
        match wfAdvanceF fl c (groupsOrArange (xRows X) groups) v with
        | .error e => (.raised e, .done)
        | .ok v' => wfEnterF c (xRows X) (groupsOrArange (xRows X) groups) v'
  | .done => (.stopped, .done)

/-- Driving a generator by at most `fuel` calls of `next`: the yielded pairs and the result that ended it. -/
noncomputable def wfDriveF (fl : ℝ → ℝ) (c : WFCfgF) (X : XArg) (y : YArg) (groups : Option GroupsArg) : Nat → FGen → List TrainTest × Option NextRes
  | 0, _ => ([], none)
  | fuel + 1, gen =>
    match wfNextF fl c X y groups gen with
    | (.yielded s, gen') =>
      let r := wfDriveF fl c X y groups fuel gen'
      (s :: r.1, r.2)
    | (res, _) => ([], some res)

end Verif.Split
