import Verif.Model.NdArray
import Verif.Model.DotTree
import Mathlib.Analysis.Real.Sqrt

/-!
# `np.linalg.cholesky` with rounding after every operation

The constructors and fits of `quantfinlib/sim` factor a correlation matrix with it (`_bm.py:155`, `:184`, `_gbm.py:163`, `:192`, `_ou.py:185`,
`:241`). LAPACK's `potrf` computes the factor entry by entry from the lower triangle; the order and fusion of the sums (`ord`) and
whether an entry is divided by the diagonal or multiplied with its reciprocal (`recip`) depend on blocking and on the kernel.
Overflow and special numbers are left out.
-/

namespace Verif.Sim

open Round

variable (fl : ℝ → ℝ) (ord : Nat → Nat → List (ℝ × ℝ) → DotTree) (recip : Nat → Nat → Bool)

/-- The products in `a[i, j] - sum(L[i, k] * L[j, k] for k in range(j))`. -/
def cholPairs (a L : Nat → Nat → ℝ) (i j : Nat) : List (ℝ × ℝ) :=
  (a i j, 1) :: (List.range j).map fun k => (-L i k, L j k)

/-- This difference, computed. -/
noncomputable def cholRest (a L : Nat → Nat → ℝ) (i j : Nat) : ℝ := (ord i j (cholPairs a L i j)).eval fl

/-- An entry below the diagonal. -/
noncomputable def cholQuot (i j : Nat) (s d : ℝ) : ℝ := if recip i j then fl (s * fl (1 / d)) else fl (s / d)

/-- Column `j`, or failure (`LinAlgError`) if the number under the root is not positive. -/
noncomputable def cholCol (a L : Nat → Nat → ℝ) (j : Nat) : Option (Nat → Nat → ℝ) :=
  open Classical in
  if 0 < cholRest fl ord a L j j then
    some fun i k =>
      if k = j then
        if i = j then fl (Real.sqrt (cholRest fl ord a L j j))
        else if j < i then cholQuot fl recip i j (cholRest fl ord a L i j) (fl (Real.sqrt (cholRest fl ord a L j j)))
        else 0
      else L i k
  else none

/-- The first columns. -/
noncomputable def cholCols (a : Nat → Nat → ℝ) : Nat → Option (Nat → Nat → ℝ)
  | 0 => some fun _ _ => 0
  | j + 1 => (cholCols a j).bind fun L => cholCol fl ord recip a L j

/-- `np.linalg.cholesky` of a square matrix (`_bm.py:155`). -/
noncomputable def cholR (A : Arr) : Option Arr :=
  (cholCols fl ord recip A.get A.rows).map fun L => ⟨A.rows, A.rows, fun k => L (k / A.rows) (k % A.rows)⟩

end Verif.Sim
