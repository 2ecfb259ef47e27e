import Verif.Prelude

/-!
# `quantfinlib/train_test_split/_base.py`

Dynamically typed arguments are inductive types. Group labels are integers: for `ndarray` groups the
integer labels themselves, for time-valued groups the time stamp in nanoseconds.

Simplifications: `ndarray` groups hold integers (int64 overflow is not modelled); a `Series` of groups
has the default `RangeIndex`, so that label based access with the positions `0 … n-1` is positional.
-/

namespace Verif.Split

/-- The run-time type of a `groups` argument that passes the `isinstance` test of `_base.py:172`. -/
inductive GKind
  /-- `np.ndarray` of integers -/
  | ndarray
  /-- `pd.Series` of integers -/
  | seriesInt
  /-- `pd.Series` of time stamps -/
  | seriesTime
  /-- `pd.DatetimeIndex` -/
  | dtIndex
  deriving DecidableEq, Repr

/-- A `groups` object: its type and its values. -/
structure GArr where
  kind : GKind
  vals : List Int
  deriving DecidableEq, Repr

/-- A `groups` argument that is not `None`. -/
inductive GroupsArg
  | arr (g : GArr)
  /-- an object of any other type -/
  | other
  deriving DecidableEq, Repr

/-- The `X` argument; `n` is `X.shape[0]`. -/
inductive XArg
  | ndarray (n : Nat)
  | dataFrame (n : Nat)
  | other
  deriving DecidableEq, Repr

/-- The `y` argument (its values are never used). -/
inductive YArg
  | none | ndarray | series | other
  deriving DecidableEq, Repr

/-- A purge / embargo length: an `Integral` or a `pd.Timedelta` (in nanoseconds). -/
inductive Delta
  | int (k : Int)
  | td (ns : Int)
  deriving DecidableEq, Repr

/-- A constructor argument for a purge / embargo length: possibly of another type. -/
inductive DeltaArg
  | ok (d : Delta)
  | other
  deriving DecidableEq, Repr

/-- `d < 0` resp. `d < pd.Timedelta(0)`. -/
def Delta.neg : Delta → Bool
  | .int k => decide (k < 0)
  | .td ns => decide (ns < 0)

/-- `np.all(np.diff(groups) >= 0)` and `groups.is_monotonic_increasing`. -/
def isSortedAsc (l : List Int) : Bool := (npDiff l).all (fun d => decide (0 ≤ d))

/-- `BaseCV.__init__` (`_base.py:137-151`); returns the stored `(n_embargo, n_purge)`.
All type checks come before the sign checks; the sign checks of lines 142-149 all raise
`ValueError`, so their order is not observable. -/
def baseInit (nEmbargo nPurge : DeltaArg) : Py (Delta × Delta) :=
  match nEmbargo with
  | .other => .error .typeError
  | .ok e =>
    match nPurge with
    | .other => .error .typeError
    | .ok p => if e.neg || p.neg then .error .valueError else .ok (e, p)

/-- The checks of `BaseCV.split` (`_base.py:168-177`); returns `X.shape[0]`. -/
def baseSplit (X : XArg) (y : YArg) (groups : Option GroupsArg) : Py Nat :=
  match X with
  | .other => .error .typeError
  | .ndarray n | .dataFrame n =>
    if y = .other then .error .typeError
    else
      match groups with
      | some .other => .error .typeError
      | some (.arr g) => if isSortedAsc g.vals then .ok n else .error .valueError
      | none => .ok n

/-- `_validate_purge_embargo_inputs` (`_base.py:13-49`). -/
def validatePE (groups : GArr) (d : Delta) : Py Unit :=
  match d, groups.kind with
  | .int k, .ndarray =>
    if k < 0 then .error .valueError
    else if isSortedAsc groups.vals then .ok () else .error .valueError
  | .td ns, .seriesInt | .td ns, .seriesTime | .td ns, .dtIndex =>
    if ns < 0 then .error .valueError
    else if isSortedAsc groups.vals then .ok () else .error .valueError
  | _, _ => .error .typeError

/-- The extreme label of `groups[test_index]` (`.max()` / `.min()`). On an empty selection numpy
raises `ValueError`, pandas returns a missing value (`none`), which compares `False` with everything. -/
def extreme (kind : GKind) (m : Option Int) : Py (Option Int) :=
  match m, kind with
  | some v, _ => .ok (some v)
  | none, .ndarray => .error .valueError
  | none, _ => .ok none

/-- The arithmetic `label ± delta` after `_validate_purge_embargo_inputs` accepted the pair of types:
integer labels in a `Series` cannot be combined with a `Timedelta` (`TypeError`). -/
def deltaAmount (kind : GKind) : Delta → Py Int
  | .int k => .ok k
  | .td ns => if kind = .seriesInt then .error .typeError else .ok ns

/-- The mask of `_base.py:86`; `none` is a missing value, for which every comparison is `False`. -/
def purgeHit (maxTest : Option Int) (k g : Int) : Bool :=
  match maxTest with
  | some m => decide (g ≤ m + k) && decide (m < g)
  | none => false

/-- The mask of `_base.py:127`. -/
def embargoHit (minTest : Option Int) (k g : Int) : Bool :=
  match minTest with
  | some m => decide (m - k ≤ g) && decide (g < m)
  | none => false

/-- `_purge` (`_base.py:52-90`). -/
def purge (trainIndex testIndex indices : List Nat) (groups : GArr) (nPurge : Delta) :
    Py (List Nat) := do
  validatePE groups nPurge
  let maxTest ← extreme groups.kind (listMax? (← npTake groups.vals testIndex))
  let k ← deltaAmount groups.kind nPurge
  let purged ← npMask indices (groups.vals.map (purgeHit maxTest k))
  let train := npSetdiff1d trainIndex purged
  if train.length = 0 then .error .valueError
  else .ok (npSetdiff1d train purged)

/-- `_embargo` (`_base.py:93-131`). -/
def embargo (trainIndex testIndex indices : List Nat) (groups : GArr) (nEmbargo : Delta) :
    Py (List Nat) := do
  validatePE groups nEmbargo
  let minTest ← extreme groups.kind (listMin? (← npTake groups.vals testIndex))
  let k ← deltaAmount groups.kind nEmbargo
  let embargoed ← npMask indices (groups.vals.map (embargoHit minTest k))
  let train := npSetdiff1d trainIndex embargoed
  if train.length = 0 then .error .valueError
  else .ok train

end Verif.Split
