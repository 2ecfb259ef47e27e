import Verif.Spec.KFold
import Verif.Model.WalkForward

/-!
# Specification vocabulary for `WalkForward`
-/

namespace Verif.Split

/-- The labels are exactly the `G` values `g0, g0 + u, …, g0 + (G-1)·u` (each at least once). -/
def Gapless (vals : List Int) (g0 : Int) (u G : Nat) : Prop :=
  ∀ x, x ∈ vals ↔ ∃ k < G, x = g0 + (k * u : Nat)

/-- Labels, `freq` and the unit fit together: integer labels without `freq` (unit 1), or a
`DatetimeIndex` with a `freq` of `u` nanoseconds. -/
def Fits (g : GArr) (freq : Option Nat) (u : Nat) : Prop :=
  (g.kind = .ndarray ∧ freq = none ∧ u = 1) ∨ (g.kind = .dtIndex ∧ freq = some u ∧ 0 < u)

/-- The training samples of split `k`: windows of `a` training and `b` test labels, embargo `e`. -/
def InWFTrain (vals : List Int) (n : Nat) (g0 : Int) (u a b e : Nat) (rolling : Bool) (k i : Nat) : Prop :=
  i < n ∧ g0 + u * (if rolling then k * b else 0) ≤ label vals i ∧
    label vals i < g0 + u * (a + k * b - e)

/-- The test samples of split `k`. -/
def InWFTest (vals : List Int) (n : Nat) (g0 : Int) (u a b : Nat) (k i : Nat) : Prop :=
  i < n ∧ g0 + u * (a + k * b) ≤ label vals i ∧ label vals i < g0 + u * (a + (k + 1) * b)

/-- `s` is split number `k` of the documented scheme, as strictly increasing index lists. -/
def IsWFSplit (vals : List Int) (n : Nat) (g0 : Int) (u a b e : Nat) (rolling : Bool) (k : Nat)
    (s : TrainTest) : Prop :=
  s.1.Pairwise (· < ·) ∧ s.2.Pairwise (· < ·) ∧
    (∀ i, i ∈ s.1 ↔ InWFTrain vals n g0 u a b e rolling k i) ∧
    (∀ i, i ∈ s.2 ↔ InWFTest vals n g0 u a b k i)

/-- An accepted call with gapless groups: `n` samples, `G` labels `g0, g0 + u, …`. -/
structure GaplessCall (X : XArg) (y : YArg) (gs : Option GroupsArg) (freq : Option Nat) (n : Nat)
    (g0 : Int) (u G : Nat) : Prop where
  rows : X.rows = some n
  yok : y ≠ .other
  gok : gs ≠ some .other
  len : (groupsInForce n gs).vals.length = n
  sorted : (groupsInForce n gs).vals.Pairwise (· ≤ ·)
  fits : Fits (groupsInForce n gs) freq u
  gapless : Gapless (groupsInForce n gs).vals g0 u G

end Verif.Split
