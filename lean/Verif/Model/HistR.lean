import Verif.Model.Info
import Verif.Model.Round

/-!
# `quantfinlib/distance/information.py` with the bin edges of numpy

`np.histogram(x, b)` and `np.histogram2d(x, y, b)` with every operation on the edges and positions rounded by `fl`. The edges are
those of `np.linspace`; the first function guesses the bin of a value and corrects the guess by one, the second one searches
the edges. Entropies of the counts are exact. Recent versions of numpy refuse edges that are not increasing; this is not
part of the model (`edge_strict` shows when it does not happen). The number of bins is given.
-/

namespace Verif.Info

variable (fl : ℝ → ℝ)

open Classical in
/-- `_get_outer_edges` of numpy for a non-empty sample. -/
noncomputable def outerR (x : List ℝ) : ℝ × ℝ :=
  if lo x = hi x then (fl (lo x - 1 / 2), fl (hi x + 1 / 2)) else (lo x, hi x)

/-- `np.linspace(a, b, n + 1)[k]` -/
noncomputable def edgeR (a b : ℝ) (n k : Nat) : ℝ := if k = n then b else fl (fl (k * fl (fl (b - a) / n)) + a)

/-- The guess of `np.histogram`: `((v - a) / (b - a)) * n` cut to an integer; the right end belongs to the last bin. -/
noncomputable def guessR (a b : ℝ) (n : Nat) (v : ℝ) : Nat :=
  let i := ⌊fl (fl (fl (v - a) / fl (b - a)) * n)⌋₊
  if i = n then n - 1 else i

open Classical in
/-- The bin of a value in `np.histogram`: the guess, corrected by comparison with the edges around it. -/
noncomputable def binR1 (a b : ℝ) (n : Nat) (v : ℝ) : Nat :=
  let i := guessR fl a b n v
  let j := if v < edgeR fl a b n i then i - 1 else i
  if edgeR fl a b n (j + 1) ≤ v ∧ j ≠ n - 1 then j + 1 else j

open Classical in
/-- The bin of a value in `np.histogram2d`: `np.searchsorted(edges, v, side='right')`, one less on the right end; numbers
start with 1 because of the bin for values to the left of all edges. -/
noncomputable def binR2 (a b : ℝ) (n : Nat) (v : ℝ) : Nat :=
  let c := ((List.range (n + 1)).filter fun k => edgeR fl a b n k ≤ v).length
  (if v = b then c - 1 else c) - 1

/-- `np.histogram(x, b)[0]` -/
noncomputable def histR (b : Nat) (x : List ℝ) : List Nat :=
  (List.range b).map fun k => (x.map (binR1 fl (outerR fl x).1 (outerR fl x).2 b)).count k

/-- `np.histogram2d(x, y, b)[0]`, flattened. -/
noncomputable def hist2R (b : Nat) (x y : List ℝ) : List Nat :=
  (List.range b).flatMap fun i => (List.range b).map fun j =>
    ((x.map (binR2 fl (outerR fl x).1 (outerR fl x).2 b)).zip (y.map (binR2 fl (outerR fl y).1 (outerR fl y).2 b))).count (i, j)

/-- `compute_entropies` (`information.py:55-81`). -/
noncomputable def computeEntropiesR (x y : List XF) (bins : Int) : Py (ℝ × ℝ × ℝ) := do
  validate1D x
  validate1D y
  match finiteList x, finiteList y with
  | some x, some y =>
    if x.length ≠ y.length then .error .valueError
    else if bins < 1 then .error .valueError
    else
      let b := bins.toNat
      .ok (entropy (normalise (histR fl b x)), entropy (normalise (histR fl b y)), entropy (normalise (hist2R fl b x y)))
  | _, _ => .error .valueError

/-- `mutual_info` (`information.py:84-138`) with a given number of bins. -/
noncomputable def mutualInfoR (bins : Int) (norm : Bool) (x y : List XF) : Py XF := do
  validate1D x
  validate1D y
  let (hx, hy, hxy) ← computeEntropiesR fl x y bins
  let mi := hx + hy - hxy
  if norm then .ok (divX mi (Real.sqrt (hx * hy))) else .ok (.fin mi)

/-- `var_info` (`information.py:141-190`) with a given number of bins. -/
noncomputable def varInfoR (bins : Int) (norm : Bool) (x y : List XF) : Py XF := do
  validate1D x
  validate1D y
  let (hx, hy, hxy) ← computeEntropiesR fl x y bins
  let vi := 2 * hxy - hx - hy
  if norm then .ok (divX vi hxy) else .ok (.fin vi)

end Verif.Info
