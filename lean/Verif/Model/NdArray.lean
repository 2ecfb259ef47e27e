import Verif.Prelude
import Mathlib.Data.Real.Basic
import Mathlib.Algebra.BigOperators.Group.Finset.Basic

/-!
# Two-dimensional numpy arrays over the (idealised) floats

An array is its shape and its memory, stored row by row (C order). Memory positions beyond the shape are
never looked at by the modelled code. A row vector of shape `(1, m)` is a list.
-/

namespace Verif

/-- A 2-d array: shape and row-major memory. -/
structure Arr where
  rows : Nat
  cols : Nat
  data : Nat → ℝ

namespace Arr

/-- `a[i, j]` (positions assumed in range). -/
def get (a : Arr) (i j : Nat) : ℝ := a.data (i * a.cols + j)

/-- `np.zeros(shape=(r, c))`; negative dimensions are a `ValueError`. -/
def zeros (r c : Int) : Py Arr :=
  if r < 0 ∨ c < 0 then .error .valueError else .ok ⟨r.toNat, c.toNat, fun _ => 0⟩

/-- `a[1:, :]`, a contiguous view. -/
def tail (a : Arr) : Arr := ⟨a.rows - 1, a.cols, fun k => a.data (k + a.cols)⟩

/-- The array after the view `a[1:, :]` (possibly reshaped) has been overwritten by `b`: same memory. -/
def setTail (a b : Arr) : Arr :=
  ⟨a.rows, a.cols, fun k => if k < a.cols then a.data k else b.data (k - a.cols)⟩

/-- `a.reshape(-1, v)`: `ValueError` when `v` is 0 or does not divide the size. -/
def reshapeCols (a : Arr) (v : Nat) : Py Arr :=
  if v = 0 then .error .valueError
  else if a.rows * a.cols % v = 0 then .ok ⟨a.rows * a.cols / v, v, a.data⟩
  else .error .valueError

/-- `np.cumsum(a, axis=0)`. -/
def cumsum (a : Arr) : Arr :=
  ⟨a.rows, a.cols, fun k => ∑ i ∈ Finset.range (k / a.cols + 1), a.get i (k % a.cols)⟩

/-- An elementwise function, e.g. `np.exp(a)`. -/
def map (f : ℝ → ℝ) (a : Arr) : Arr := ⟨a.rows, a.cols, fun k => f (a.data k)⟩

/-- Column `j` as a list. -/
def col (a : Arr) (j : Nat) : List ℝ := (List.range a.rows).map fun i => a.get i j

/-- Row `i` as a list. -/
def row (a : Arr) (i : Nat) : List ℝ := (List.range a.cols).map fun j => a.get i j

/-- An array from a list of length `rows * cols`. -/
def ofList (rows cols : Nat) (l : List ℝ) : Arr := ⟨rows, cols, fun k => l.getD k 0⟩

end Arr

/-- Entry `j` of a row vector of shape `(1, m)` under broadcasting: a vector of length one is repeated. -/
def bentry (l : List ℝ) (j : Nat) : ℝ := if l.length = 1 then l.getD 0 0 else l.getD j 0

/-- Broadcasting a row vector `(1, m)` into an existing array with `v` columns (in-place `*=`, `+=`):
`ValueError` unless `m = v` or `m = 1`. -/
def bcastTo (l : List ℝ) (v : Nat) : Py (Nat → ℝ) :=
  if l.length = v ∨ l.length = 1 then .ok (bentry l) else .error .valueError

/-- A binary operation on row vectors `(1, m)`, `(1, n)`: `ValueError` unless the lengths agree or one
of them is 1. -/
def bzip (f : ℝ → ℝ → ℝ) (l m : List ℝ) : Py (List ℝ) :=
  if l.length = m.length then .ok (List.zipWith f l m)
  else if l.length = 1 then .ok (m.map (f (l.getD 0 0)))
  else if m.length = 1 then .ok (l.map fun x => f x (m.getD 0 0))
  else .error .valueError

end Verif
