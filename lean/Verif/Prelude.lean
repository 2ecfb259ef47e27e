import Mathlib.Data.List.Sort
import Mathlib.Data.List.Dedup
import Mathlib.Tactic.Common

/-!
# Python exceptions and numpy list primitives

The part of Python / numpy that the integer-valued code of the package relies on.
Everything here is computable, so concrete instances can be evaluated by the kernel.
-/

namespace Verif

/-- The Python exception classes raised in the modelled code. -/
inductive PyErr
  | typeError | valueError | indexError | keyError | assertionError | attributeError
  | unboundLocalError | zeroDivisionError | notImplementedError | overflowError
  | fileNotFoundError | linAlgError | indexingError
  deriving DecidableEq, Repr

/-- A Python computation: a value or a raised exception. -/
abbrev Py (α : Type _) := Except PyErr α

/-- What a generator does when it is driven to its end: the values it yielded, and the exception
that ended it (`none` if it returned normally). -/
structure GenRun (α : Type _) where
  yields : List α
  err : Option PyErr
  deriving Repr, DecidableEq

/-- A generator whose body raised before the first `yield`. -/
def GenRun.fail {α : Type _} (e : PyErr) : GenRun α := ⟨[], some e⟩

/-- `l[i]` for a non-negative position: `IndexError` beyond the end. -/
def pyGet {α : Type _} (l : List α) (i : Nat) : Py α :=
  match l[i]? with
  | some a => .ok a
  | none => .error .indexError

/-- `l[-1]`. -/
def pyLast {α : Type _} (l : List α) : Py α :=
  match l.getLast? with
  | some a => .ok a
  | none => .error .indexError

/-- `np.unique`: the sorted distinct elements. -/
def npUnique (l : List Nat) : List Nat := l.dedup.insertionSort (· ≤ ·)

/-- `np.setdiff1d(a, b)`: the sorted distinct elements of `a` that are not in `b`. -/
def npSetdiff1d (a b : List Nat) : List Nat := (npUnique a).filter (fun i => !b.contains i)

/-- Select the elements at the `True` positions. -/
def maskZip {α : Type _} : List α → List Bool → List α
  | a :: l, true :: m => a :: maskZip l m
  | _ :: l, false :: m => maskZip l m
  | _, _ => []

/-- `a[mask]` for a boolean mask: `IndexError` when the lengths differ. -/
def npMask {α : Type _} (l : List α) (m : List Bool) : Py (List α) :=
  if l.length = m.length then .ok (maskZip l m) else .error .indexError

/-- `np.where(mask)[0]`. -/
def npWhere (m : List Bool) : List Nat := maskZip (List.range m.length) m

/-- `np.diff`. -/
def npDiff : List Int → List Int
  | a :: b :: l => (b - a) :: npDiff (b :: l)
  | _ => []

/-- `np.arange(a, b)`. -/
def npArange (a b : Nat) : List Nat := List.range' a (b - a)

/-- Fancy indexing `a[idx]` with an integer array. -/
def npTake {α : Type _} (l : List α) (idx : List Nat) : Py (List α) := idx.mapM (pyGet l)

/-- The section sizes of `np.array_split(a, k)` with `n = len(a)`:
`extras = n % k` sections of size `n // k + 1`, then `k - extras` sections of size `n // k`. -/
def splitSizes (n k : Nat) : List Nat :=
  List.replicate (n % k) (n / k + 1) ++ List.replicate (k - n % k) (n / k)

/-- Cut a list into consecutive pieces of the given sizes. -/
def splitBySizes {α : Type _} : List α → List Nat → List (List α)
  | _, [] => []
  | l, s :: ss => l.take s :: splitBySizes (l.drop s) ss

/-- `np.array_split(l, k)` for `k ≥ 1`. -/
def npArraySplit {α : Type _} (l : List α) (k : Nat) : List (List α) :=
  splitBySizes l (splitSizes l.length k)

/-- `max` of a list of integers, `none` for the empty list. -/
def listMax? : List Int → Option Int
  | [] => none
  | a :: l => some (l.foldl max a)

/-- `min` of a list of integers, `none` for the empty list. -/
def listMin? : List Int → Option Int
  | [] => none
  | a :: l => some (l.foldl min a)

/-- `np.searchsorted(a, v, side="left")`: the number of elements `< v` at the front
(for a sorted array: the first position whose element is `≥ v`). -/
def searchLeft (l : List Int) (v : Int) : Nat := (l.takeWhile (· < v)).length

/-- `np.searchsorted(a, v, side="right")`: for a sorted array the first position whose element
is `> v`. -/
def searchRight (l : List Int) (v : Int) : Nat := (l.takeWhile (· ≤ v)).length

end Verif
