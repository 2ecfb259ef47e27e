import Verif.Model.CorrDist
import Mathlib.Analysis.SpecialFunctions.Log.NegMulLog
import Mathlib.Analysis.SpecialFunctions.Pow.Real
import Mathlib.Algebra.Order.Round

/-!
# `quantfinlib/distance/information.py` and the information part of `distance_matrix.py`

Arithmetic is exact. A histogram with `b` bins over the range of the sample is computed from the position
`floor((v - lo) / (hi - lo) * b)` of each value, the last bin including its right end; this is what the edges of
`np.histogram` and `np.histogram2d` give without rounding. Samples are lists of floats; series and arrays are treated
alike. `bins` is an integer or `None`.
-/

namespace Verif.Info

open Verif.Dist (corrcoef CorrArg)

/-! ### Histograms -/

/-- `x.min()` -/
noncomputable def lo (x : List ℝ) : ℝ := x.tail.foldl min (x.headD 0)

/-- `x.max()` -/
noncomputable def hi (x : List ℝ) : ℝ := x.tail.foldl max (x.headD 0)

open Classical in
/-- The range of the histogram of a non-empty sample: its range, widened by a half on each side if it is one point. -/
noncomputable def outer (x : List ℝ) : ℝ × ℝ :=
  if lo x = hi x then (lo x - 1 / 2, hi x + 1 / 2) else (lo x, hi x)

/-- The bin of a value. -/
noncomputable def binOf (b : Nat) (x : List ℝ) (v : ℝ) : Nat :=
  min ⌊(v - (outer x).1) / ((outer x).2 - (outer x).1) * b⌋₊ (b - 1)

/-- `np.histogram(x, b)[0]` -/
noncomputable def hist (b : Nat) (x : List ℝ) : List Nat :=
  (List.range b).map fun k => (x.map (binOf b x)).count k

/-- `np.histogram2d(x, y, b)[0]`, flattened; the samples have the same length. -/
noncomputable def hist2 (b : Nat) (x y : List ℝ) : List Nat :=
  (List.range b).flatMap fun i => (List.range b).map fun j => ((x.map (binOf b x)).zip (y.map (binOf b y))).count (i, j)

/-- `hist / hist.sum()` -/
noncomputable def normalise (h : List Nat) : List ℝ := h.map fun c : Nat => (c : ℝ) / (h.sum : ℝ)

/-- `scipy.stats.entropy(pk)`, which normalises its argument. -/
noncomputable def entropy (pk : List ℝ) : ℝ := (pk.map fun p => Real.negMulLog (p / pk.sum)).sum

/-! ### Float helpers -/

/-- The real numbers of a sample, if it has no `nan` and no infinity. -/
def finiteList : List XF → Option (List ℝ)
  | [] => some []
  | .fin r :: l => (finiteList l).map (r :: ·)
  | _ :: _ => none

open Classical in
/-- `a / b` of two numpy floats. -/
noncomputable def divX (a b : ℝ) : XF :=
  if b = 0 then (if a = 0 then .nan else if 0 < a then .pinf else .ninf) else .fin (a / b)

open Classical in
/-- `round(x)`: to the nearest integer, halves to the even neighbour. -/
noncomputable def pyRound (x : ℝ) : Int :=
  if x - ⌊x⌋ = 1 / 2 then (if ⌊x⌋ % 2 = 0 then ⌊x⌋ else ⌊x⌋ + 1) else round x

/-! ### Number of bins -/

/-- The value that is rounded in the univariate case (`information.py:47-48`). -/
noncomputable def uniValue (n : Nat) : ℝ :=
  let z : ℝ := (8 + 324 * n + 12 * (36 * n + 729 * (n : ℝ) ^ 2) ^ (0.5 : ℝ)) ^ (1 / 3.0 : ℝ)
  z / 6.0 + 2.0 / (3 * z) + 1.0 / 3

/-- The value that is rounded in the bivariate case (`information.py:51`), for a correlation other than 1 and -1. -/
noncomputable def bivValue (n : Nat) (corr : ℝ) : ℝ :=
  (2 : ℝ) ^ (-0.5 : ℝ) * (1 + (1 + 24 * n / (1.0 - corr ^ 2)) ^ (0.5 : ℝ)) ^ (0.5 : ℝ)

open Classical in
/-- `_get_optimal_nb_bins` (`information.py:25-52`). `round(nan)` raises `ValueError`, `round(inf)` (correlation 1 or
-1, the division gives infinity for a numpy float and `n > 0`) raises `OverflowError`. -/
noncomputable def optimalBins (n : Nat) : Option XF → Py Int
  | none => .ok (pyRound (uniValue n))
  | some (.fin c) => if c ^ 2 = 1 then (if n = 0 then .error .valueError else .error .overflowError)
    else .ok (pyRound (bivValue n c))
  | some _ => .error .valueError

open Classical in
/-- `_get_nb_bins_from_xy` (`information.py:13-22`) for two finite samples. -/
noncomputable def binsFromXY (x y : List ℝ) : Py Int := do
  let c ← corrcoef x y
  match c with
  | .fin r => if r = 1 ∨ |r - 1| < 1 / 10 ^ 5 then optimalBins x.length none else optimalBins x.length (some (.fin r))
  | c => optimalBins x.length (some c)

/-! ### Measures -/

/-- The checks of `validate_series_or_1Darray` (`util/_validate.py:11-44`) that remain for a one-dimensional sample. -/
def validate1D (x : List XF) : Py Unit := if x.length < 2 then .error .valueError else .ok ()

/-- `compute_entropies` (`information.py:55-81`): `ValueError` for different lengths, for less than one bin and for
samples that are not finite. -/
noncomputable def computeEntropies (x y : List XF) (bins : Int) : Py (ℝ × ℝ × ℝ) := do
  validate1D x
  validate1D y
  match finiteList x, finiteList y with
  | some x, some y =>
    if x.length ≠ y.length then .error .valueError
    else if bins < 1 then .error .valueError
    else
      let b := bins.toNat
      .ok (entropy (normalise (hist b x)), entropy (normalise (hist b y)), entropy (normalise (hist2 b x y)))
  | _, _ => .error .valueError

/-- `if bins is None: bins = _get_nb_bins_from_xy(x, y)` (`information.py:131, 183, 212`). With a value that is not
finite the correlation is `nan` and the rounding fails. -/
noncomputable def resolveBins (x y : List XF) : Option Int → Py Int
  | some b => .ok b
  | none => match finiteList x, finiteList y with
    | some x, some y => binsFromXY x y
    | _, _ => .error .valueError

/-- `mutual_info` (`information.py:84-138`). -/
noncomputable def mutualInfo (bins : Option Int) (norm : Bool) (x y : List XF) : Py XF := do
  validate1D x
  validate1D y
  let b ← resolveBins x y bins
  let (hx, hy, hxy) ← computeEntropies x y b
  let mi := hx + hy - hxy
  if norm then .ok (divX mi (Real.sqrt (hx * hy))) else .ok (.fin mi)

/-- `var_info` (`information.py:141-190`). -/
noncomputable def varInfo (bins : Option Int) (norm : Bool) (x y : List XF) : Py XF := do
  validate1D x
  validate1D y
  let b ← resolveBins x y bins
  let (hx, hy, hxy) ← computeEntropies x y b
  let vi := 2 * hxy - hx - hy
  if norm then .ok (divX vi hxy) else .ok (.fin vi)

open Classical in
/-- One term of the divergence (`information.py:223`). -/
noncomputable def klTerm (px py : ℝ) : ℝ := if px ≠ 0 ∧ py ≠ 0 then px * Real.log (px / py) else 0

/-- `kl_divergence_xy` (`information.py:193-224`). The samples may have different lengths if `bins` is given. -/
noncomputable def klDivergence (bins : Option Int) (x y : List XF) : Py ℝ := do
  validate1D x
  validate1D y
  let b ← resolveBins x y bins
  match finiteList x, finiteList y with
  | some x, some y =>
    if b < 1 then .error .valueError
    else .ok (List.zipWith klTerm (normalise (hist b.toNat x)) (normalise (hist b.toNat y))).sum
  | _, _ => .error .valueError

/-! ### `distance_matrix.py` -/

/-- The two functions accepted by `_get_info_distance_matrix` (`distance_matrix.py:35`). -/
inductive InfoFn
  | mi
  | vi
  deriving DecidableEq

/-- `partial(func, **kwargs)`. -/
noncomputable def InfoFn.call (bins : Option Int) (norm : Bool) : InfoFn → List XF → List XF → Py XF
  | .mi => mutualInfo bins norm
  | .vi => varInfo bins norm

/-- `itertools.combinations(np.arange(m), 2)` -/
def combos (m : Nat) : List (Nat × Nat) := (List.range m).flatMap fun i => ((List.range m).filter (i < ·)).map fun j => (i, j)

/-- `res[i, j] = v; res[j, i] = v` -/
def setSym (res : Nat → Nat → XF) (i j : Nat) (v : XF) : Nat → Nat → XF :=
  fun a b => if (a = i ∧ b = j) ∨ (a = j ∧ b = i) then v else res a b

/-- The loop of `_get_info_distance_matrix` (`distance_matrix.py:42-45`). -/
def infoLoop (f : List XF → List XF → Py XF) (col : Nat → List XF) : List (Nat × Nat) → (Nat → Nat → XF) →
    Py (Nat → Nat → XF)
  | [], res => .ok res
  | (i, j) :: ps, res => do
    let v ← f (col i) (col j)
    infoLoop f col ps (setSym res i j v)

/-- `_get_info_distance_matrix` (`distance_matrix.py:32-50`) of a table given by its columns. The validation needs at
least two columns. -/
noncomputable def infoDistanceMatrix (fn : InfoFn) (bins : Option Int) (norm : Bool) (cols : List (List XF)) :
    Py (Nat → Nat → XF) := do
  if cols.length < 2 then .error .valueError
  else
    let res ← infoLoop (fn.call bins norm) (fun i => cols.getD i []) (combos cols.length) fun _ _ => .fin 0
    .ok (if fn = .mi then fun i j => if i = j then .fin 1 else res i j else res)

/-- `get_info_distance_matrix` (`distance_matrix.py:58-82`) with `_check_info_method` (53-55). -/
noncomputable def getInfoDistanceMatrix (method : String) (bins : Option Int) (norm : Bool) (cols : List (List XF)) :
    Py (Nat → Nat → XF) :=
  if method = "mutual_info" then infoDistanceMatrix .mi bins norm cols
  else if method = "var_info" then infoDistanceMatrix .vi bins norm cols
  else .error .assertionError

end Verif.Info
