import Verif.Model.NdArray
import Mathlib.Analysis.SpecialFunctions.Sqrt

/-!
# `quantfinlib/sim/_base.py`: building a correlation matrix from its upper triangle
-/

namespace Verif.Sim

open Classical in
/-- `_triangular_index` (`_base.py:78-86`), with an exact square root instead of `math.sqrt`; `int(n)` of a
non-negative whole number. -/
noncomputable def triangularIndex (T : Nat) : Py Nat :=
  let n : ℝ := (-1 + Real.sqrt (1 + 8 * (T : ℝ))) / 2
  if ∃ k : ℤ, n = k then .ok ⌊n⌋.toNat else .error .valueError

/-- The argument of `_make_cor_from_upper_tri` after `_to_numpy` (`_base.py:25-37`, `:92`): a list and a
number are two-dimensional, a Series and a 1-d array are not. -/
inductive TriArg
  | array2d (rows cols : Nat) (data : List ℝ)
  | arrayOther
  | inconvertible

/-- `_to_numpy` of a list. -/
def TriArg.ofList (l : List ℝ) : TriArg := .array2d 1 l.length l

/-- `matrix[i, j] = v; matrix[j, i] = v` (`_base.py:112-113`). -/
def setBoth (m : Nat → Nat → ℝ) (i j : Nat) (v : ℝ) : Nat → Nat → ℝ := fun a b =>
  if (a = i ∧ b = j) ∨ (a = j ∧ b = i) then v else m a b

/-- The inner loop `for j in range(i + 1, num_dims)` (`_base.py:111-114`): the next column is `j`, `k`
iterations are left. -/
def triInner (values : List ℝ) (i : Nat) : Nat → Nat → (Nat → Nat → ℝ) × Nat → Py ((Nat → Nat → ℝ) × Nat)
  | _, 0, st => .ok st
  | j, k + 1, st => do
    let v ← pyGet values st.2
    triInner values i (j + 1) k (setBoth st.1 i j v, st.2 + 1)

/-- The outer loop `for i in range(num_dims)` (`_base.py:109-114`): the next row is `i`, `k` rows are left. -/
def triOuter (values : List ℝ) (n : Nat) : Nat → Nat → (Nat → Nat → ℝ) × Nat → Py ((Nat → Nat → ℝ) × Nat)
  | _, 0, st => .ok st
  | i, k + 1, st => do
    let st ← triInner values i (i + 1) (n - (i + 1)) (setBoth st.1 i i 1, st.2)
    triOuter values n (i + 1) k st

/-- `_make_cor_from_upper_tri` (`_base.py:89-116`): size and entries. -/
noncomputable def corFromUpperTri : TriArg → Py (Nat × (Nat → Nat → ℝ))
  | .inconvertible => .error .valueError
  | .arrayOther => .error .assertionError
  | .array2d r c data =>
    if r = 1 ∨ c = 1 then do
      let k ← triangularIndex data.length
      let st ← triOuter data (k + 1) 0 (k + 1) (fun _ _ => 0, 0)
      .ok (k + 1, st.1)
    else .error .valueError

end Verif.Sim
