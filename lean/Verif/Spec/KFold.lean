import Verif.Model.KFold
import Mathlib.Order.Bounds.Basic

/-!
# Specification vocabulary for the cross-validation splitters

Independent of the helper functions of the model: labels, label sets, extreme labels.
-/

namespace Verif.Split

/-- The label of sample `i`. -/
def label (vals : List Int) (i : Nat) : Int := vals.getD i 0

/-- The number of samples of an `X` argument (`none`: not an array). -/
def XArg.rows : XArg → Option Nat
  | .ndarray n | .dataFrame n => some n
  | .other => none

/-- The group object in force: the argument, or `0, 1, 2, …` if it is `None`. -/
def groupsInForce (n : Nat) : Option GroupsArg → GArr
  | some (.arr g) => g
  | _ => ⟨.ndarray, (List.range n).map Int.ofNat⟩

/-- The set of labels occurring in an index list. -/
def labelsOf (vals : List Int) (idx : List Nat) : Set Int := {x | ∃ i ∈ idx, x = label vals i}

/-- A purge/embargo length in label units: the integer itself, or that many `freq` units in
nanoseconds when time-valued groups are used together with `freq`. -/
def inLabelUnits (freq : Option Nat) (groups : Option GroupsArg) : Delta → Int
  | .int k => match groups, freq with
    | some _, some u => k * u
    | _, _ => k
  | .td ns => ns

/-- The last index of section `f` of an even division of `n` samples into `k` consecutive sections, the
first `n % k` sections being one larger. -/
def evenEnd (n k f : Nat) : Nat := (f + 1) * (n / k) + min (f + 1) (n % k) - 1

/-- Membership in test fold `f`: the samples whose label lies after the label at the end of section
`f - 1` (no lower limit for `f = 0`) and not after the label at the end of section `f`. -/
def InFold (vals : List Int) (n k f : Nat) (i : Nat) : Prop :=
  i < n ∧ (∀ f', f = f' + 1 → label vals (evenEnd n k f') < label vals i) ∧
    label vals i ≤ label vals (evenEnd n k f)

/-- The set of labels occurring in a set of samples. -/
def labelSet (vals : List Int) (T : Set Nat) : Set Int := label vals '' T

/-- Membership in the training set for the test set `T`, as the documentation describes it: a sample
outside the test set whose label is not among the `p` labels after the last test label, not among the
`e` labels before the first test label and, when looking forward only, not after the first test
label. -/
def InTrain (vals : List Int) (n : Nat) (p e : Int) (lookForward : Bool) (T : Set Nat) (i : Nat) :
    Prop :=
  i < n ∧ i ∉ T ∧
  (∀ m, IsGreatest (labelSet vals T) m → ¬ (m < label vals i ∧ label vals i ≤ m + p)) ∧
  (∀ m, IsLeast (labelSet vals T) m → ¬ (m - e ≤ label vals i ∧ label vals i < m)) ∧
  (lookForward = true → ∀ m, IsLeast (labelSet vals T) m → label vals i ≤ m)

/-- The documented requirements on a call, for integer purge `p` and embargo `e`: array-like arguments of
equal length, sorted groups, at least as many samples as folds, and purge and embargo small enough. -/
structure Accepted (c : KFoldCfg) (p e : Int) (X : XArg) (y : YArg) (gs : Option GroupsArg) (n : Nat) :
    Prop where
  rows : X.rows = some n
  yok : y ≠ .other
  gok : gs ≠ some .other
  len : (groupsInForce n gs).vals.length = n
  sorted : (groupsInForce n gs).vals.Pairwise (· ≤ ·)
  folds : c.nFolds ≤ n
  sum : p + e < n
  maxTrain : p + e ≤ (n : Int) - (n / c.nFolds : Nat)

end Verif.Split
