import Verif.Model.CorrDist

/-!
# `DataFrame.corr` as used by `_calculate_correlation` (`distance_matrix.py:85-93`)

pandas computes the correlation of two columns from the rows in which both are finite (`nancorr` and `nancorr_spearman` of
`pandas/_libs/algos.pyx`, version 2.2). The recurrence of Welford is written with a rounding `fl` of every operation; without
rounding it is `id`. Simplification: for Spearman's correlation the table has no infinite entries (pandas ranks infinite values
together with the finite ones when they stand in the same rows).
-/

namespace Verif.Dist

/-- Column `j` of a table. -/
def Table.col (m : Table) (j : Nat) : List XF := (List.range m.rows).map fun i => m.at_ i j

/-- The rows in which both columns are finite: `mask[i, xi] and mask[i, yi]`. -/
def complete : List XF → List XF → List (ℝ × ℝ)
  | .fin a :: x, .fin b :: y => (a, b) :: complete x y
  | _ :: x, _ :: y => complete x y
  | _, _ => []

/-- The variables of the loop in `nancorr`: `nobs`, `meanx`, `meany`, `ssqdmx`, `ssqdmy`, `covxy`. -/
structure Welford where
  n : Nat
  mx : ℝ
  my : ℝ
  sx : ℝ
  sy : ℝ
  sxy : ℝ

/-- The body of the loop. -/
noncomputable def Welford.step (fl : ℝ → ℝ) (w : Welford) (p : ℝ × ℝ) : Welford :=
  let dx := fl (p.1 - w.mx)
  let dy := fl (p.2 - w.my)
  let mx := fl (w.mx + fl (fl (1 / (w.n + 1 : ℕ)) * dx))
  let my := fl (w.my + fl (fl (1 / (w.n + 1 : ℕ)) * dy))
  ⟨w.n + 1, mx, my, fl (w.sx + fl (fl (p.1 - mx) * dx)), fl (w.sy + fl (fl (p.2 - my) * dy)), fl (w.sxy + fl (fl (p.1 - mx) * dy))⟩

/-- The loop. -/
noncomputable def welford (fl : ℝ → ℝ) (l : List (ℝ × ℝ)) : Welford := l.foldl (Welford.step fl) ⟨0, 0, 0, 0, 0, 0⟩

open Classical in
/-- One entry of `nancorr(mat, minp=min_periods)`. The product of the sums of squares is negative only for a wrong `fl`. -/
noncomputable def pearsonR (fl : ℝ → ℝ) (minp : Int) (x y : List XF) : XF :=
  let w := welford fl (complete x y)
  if (w.n : Int) < minp then .nan
  else if fl (Real.sqrt (fl (w.sx * w.sy))) = 0 then .nan
  else .fin (min (max (fl (w.sxy / fl (Real.sqrt (fl (w.sx * w.sy))))) (-1)) 1)

open Classical in
/-- `rank_1d`: the average rank of a value among the values of a list. -/
noncomputable def rank (l : List ℝ) (v : ℝ) : ℝ := l.countP (fun w => decide (w < v)) + ((l.countP fun w => decide (w = v)) + 1) / 2

/-- The ranks of a list. -/
noncomputable def ranks (l : List ℝ) : List ℝ := l.map (rank l)

/-- The sum of products of deviations of ranks from `mean = (nobs + 1) / 2`. -/
noncomputable def rankSum (fl : ℝ → ℝ) (n : Nat) (x y : List ℝ) : ℝ :=
  (List.zipWith (fun a b => fl (fl (a - (n + 1 : ℝ) / 2) * fl (b - (n + 1 : ℝ) / 2))) x y).foldl (fun s p => fl (s + p)) 0

open Classical in
/-- One entry of `nancorr_spearman(mat, minp=min_periods)`; it is not clipped. -/
noncomputable def spearmanR (fl : ℝ → ℝ) (minp : Int) (x y : List XF) : XF :=
  let c := complete x y
  let rx := ranks (c.map (·.1))
  let ry := ranks (c.map (·.2))
  let d := fl (Real.sqrt (fl (rankSum fl c.length rx rx * rankSum fl c.length ry ry)))
  if (c.length : Int) < minp then .nan
  else if d = 0 then .nan
  else .fin (fl (rankSum fl c.length rx ry / d))

/-- `DataFrame.corr(method, min_periods)`: computed below the diagonal and mirrored. -/
noncomputable def pdCorrR (fl : ℝ → ℝ) (minp : Int) (m : Table) (method : String) : Table :=
  ⟨m.cols, m.cols, fun i j =>
    if method = "pearson" then pearsonR fl minp (m.col (max i j)) (m.col (min i j))
    else spearmanR fl minp (m.col (max i j)) (m.col (min i j))⟩

/-- `DataFrame.corr(method, min_periods)` without rounding. -/
noncomputable def pdCorr (minp : Int) : Table → String → Table := pdCorrR id minp

end Verif.Dist
