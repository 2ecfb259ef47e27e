import Verif.Model.HistR
import Verif.Model.RoundSum

/-!
# `quantfinlib/distance/information.py` with rounded entropies

As `HistR`, with every operation on the counts rounded by `fl` as well. `ln` is the logarithm as computed and `ord` the order in which
`np.sum` adds. Sums of counts are exact (they are integers below `2 ^ 53`). The number of bins is given.
-/

namespace Verif.Info

open Round

variable (fl ln : ℝ → ℝ) (ord : List ℝ → SumTree)

/-- `hist / hist.sum()` (`information.py:77-79, 219-220`) -/
noncomputable def normaliseR (h : List Nat) : List ℝ := h.map fun c : Nat => fl ((c : ℝ) / (h.sum : ℝ))

open Classical in
/-- `scipy.special.entr` of a number that is not negative. -/
noncomputable def entrR (q : ℝ) : ℝ := if q = 0 then 0 else fl (-q * ln q)

/-- `scipy.stats.entropy(pk)`: normalises once more, then adds the terms. -/
noncomputable def entropyR (pk : List ℝ) : ℝ :=
  (ord (pk.map fun p => entrR fl ln (fl (p / (ord pk).eval fl)))).eval fl

/-- `compute_entropies` (`information.py:55-81`). -/
noncomputable def computeEntropiesF (x y : List XF) (bins : Int) : Py (ℝ × ℝ × ℝ) := do
  validate1D x
  validate1D y
  match finiteList x, finiteList y with
  | some x, some y =>
    if x.length ≠ y.length then .error .valueError
    else if bins < 1 then .error .valueError
    else
      let b := bins.toNat
      .ok (entropyR fl ln ord (normaliseR fl (histR fl b x)), entropyR fl ln ord (normaliseR fl (histR fl b y)),
        entropyR fl ln ord (normaliseR fl (hist2R fl b x y)))
  | _, _ => .error .valueError

/-- `mutual_info` (`information.py:84-138`) with a given number of bins. -/
noncomputable def mutualInfoF (bins : Int) (norm : Bool) (x y : List XF) : Py XF := do
  validate1D x
  validate1D y
  let (hx, hy, hxy) ← computeEntropiesF fl ln ord x y bins
  let mi := fl (fl (hx + hy) - hxy)
  if norm then .ok (rnd fl (divX mi (fl (Real.sqrt (fl (hx * hy)))))) else .ok (.fin mi)

/-- `var_info` (`information.py:141-190`) with a given number of bins. -/
noncomputable def varInfoF (bins : Int) (norm : Bool) (x y : List XF) : Py XF := do
  validate1D x
  validate1D y
  let (hx, hy, hxy) ← computeEntropiesF fl ln ord x y bins
  let vi := fl (fl (fl (2 * hxy) - hx) - hy)
  if norm then .ok (rnd fl (divX vi hxy)) else .ok (.fin vi)

open Classical in
/-- One term of the divergence (`information.py:223`). -/
noncomputable def klTermR (px py : ℝ) : ℝ := if px ≠ 0 ∧ py ≠ 0 then fl (px * ln (fl (px / py))) else 0

/-- `kl_divergence_xy` (`information.py:193-224`) with a given number of bins. -/
noncomputable def klDivergenceF (bins : Int) (x y : List XF) : Py ℝ := do
  validate1D x
  validate1D y
  match finiteList x, finiteList y with
  | some x, some y =>
    if bins < 1 then .error .valueError
    else .ok ((ord (List.zipWith (klTermR fl ln) (normaliseR fl (histR fl bins.toNat x)) (normaliseR fl (histR fl bins.toNat y)))).eval fl)
  | _, _ => .error .valueError

/-! ### The order of `np.sum` -/

/-- From left to right, starting from a partial sum. -/
def seqFrom : SumTree → List ℝ → SumTree
  | t, [] => t
  | t, x :: l => seqFrom (.node t (.leaf x)) l

/-- From left to right. -/
def npSeq : List ℝ → SumTree
  | [] => .leaf 0
  | x :: l => seqFrom (.leaf x) l

/-- One of the eight running sums: the values at the positions `j, j + 8, j + 16, …` of the complete blocks of eight. -/
def npEighth (l : List ℝ) (j : Nat) : SumTree := npSeq ((List.range (l.length / 8)).map fun i => l.getD (8 * i + j) 0)

/-- Eight running sums, added in pairs, then the values after the last complete block. -/
def npBlock (l : List ℝ) : SumTree :=
  let e := npEighth l
  seqFrom (.node (.node (.node (e 0) (e 1)) (.node (e 2) (e 3))) (.node (.node (e 4) (e 5)) (.node (e 6) (e 7))))
    (l.drop (8 * (l.length / 8)))

/-- `pairwise_sum` of numpy, for a contiguous array: fewer than 8 values from left to right, up to 128 with eight running sums, more in two
halves. The number bounds the depth of the recursion. -/
def npTree : Nat → List ℝ → SumTree
  | 0, l => npSeq l
  | f + 1, l =>
    if l.length < 8 then npSeq l
    else if l.length ≤ 128 then npBlock l
    else
      let m := l.length / 2 - l.length / 2 % 8
      .node (npTree f (l.take m)) (npTree f (l.drop m))

/-- The order in which `np.sum` adds a contiguous array. -/
def npSum (l : List ℝ) : SumTree := npTree l.length l

end Verif.Info
