import Verif.Model.SimFit
import Verif.Model.RoundSum
import Verif.Model.DotTree

/-!
# Calibration of the Brownian models with rounding after every operation

As `SimFit`, with every operation rounded by `fl`. `np.mean` and `np.std` add in an order that may depend on the column, `np.corrcoef`
computes its own means and its scalar products in a way that may depend on the entry.
-/

namespace Verif.Sim

open Round

variable (fl : ℝ → ℝ)

/-- How the columns are summed. -/
structure FitOrders where
  /-- The sum in `np.mean` and `np.std`. -/
  mean : Nat → List ℝ → SumTree
  /-- The sum of squares in `np.std`. -/
  sq : Nat → List ℝ → SumTree
  /-- The sum in `np.corrcoef`. -/
  avg : Nat → List ℝ → SumTree
  /-- The scalar products in `np.corrcoef`. -/
  dot : Nat → List (ℝ × ℝ) → DotTree

/-- `np.diff` of a column (`_bm.py:168`). -/
noncomputable def diffsR : List ℝ → List ℝ
  | a :: b :: l => fl (b - a) :: diffsR (b :: l)
  | _ => []

/-- `np.log(x[1:] / x[:-1])` of a column (`_gbm.py:176`). -/
noncomputable def logRatiosR : List ℝ → List ℝ
  | a :: b :: l => fl (Real.log (fl (b / a))) :: logRatiosR (b :: l)
  | _ => []

/-- The sum of a column divided by its length. -/
noncomputable def lmeanR (ord : List ℝ → SumTree) (l : List ℝ) : ℝ := fl ((ord l).eval fl / l.length)

/-- `np.mean`: `nan` for an empty column. -/
noncomputable def npMeanR (ord : List ℝ → SumTree) (l : List ℝ) : Option ℝ := if l = [] then none else some (lmeanR fl ord l)

/-- The squares that `np.std` adds. -/
noncomputable def devSqR (ord : List ℝ → SumTree) (l : List ℝ) : List ℝ := l.map fun x => fl (fl (x - lmeanR fl ord l) ^ 2)

/-- `np.std(ddof=1)`: `nan` with fewer than two values. -/
noncomputable def npStd1R (ord sq : List ℝ → SumTree) (l : List ℝ) : Option ℝ :=
  if l.length ≤ 1 then none else some (fl (Real.sqrt (fl ((sq (devSqR fl ord l)).eval fl / (l.length - 1)))))

/-- The deviations in `np.cov`. -/
noncomputable def devR (avg : List ℝ → SumTree) (l : List ℝ) : List ℝ := l.map fun x => fl (x - lmeanR fl avg l)

/-- Entry `(i, j)` of `np.cov(…, rowvar=False)`: the scalar product times the rounded `1 / (n - 1)`. -/
noncomputable def covR (o : FitOrders) (cols : List (List ℝ)) (i j : Nat) : ℝ :=
  let l := cols.getD i []
  let m := cols.getD j []
  fl ((o.dot (i * cols.length + j) ((devR fl (o.avg i) l).zip (devR fl (o.avg j) m))).eval fl * fl (1 / (l.length - 1)))

/-- `np.corrcoef(…, rowvar=False)` of columns with at least two rows and positive variance: `c /= stddev[:, None]`,
`c /= stddev[None, :]`, clip. (The last `else` is outside the matrix and never read.) -/
noncomputable def corrcoefR (o : FitOrders) (cols : List (List ℝ)) : Arr :=
  ⟨cols.length, cols.length, fun k =>
    let i := k / cols.length
    let j := k % cols.length
    let sd := fun a => fl (Real.sqrt (covR fl o cols a a))
    if i < cols.length then clip1 (fl (fl (covR fl o cols i j / sd i) / sd j)) else 0⟩

open Classical in
/-- The common part of `BrownianMotion._fit_np` (`_bm.py:165-188`) and `GeometricBrownianMotion._fit_np` (`_gbm.py:173-196`). A variance
that `np.corrcoef` computes as zero (its sums may be rounded differently from those of `np.std`) gives `nan`, which `cholesky` rejects. -/
noncomputable def fitIncrementsR (o : FitOrders) (chol : Arr → Option Arr) (dx : List (List ℝ)) (dt : ℝ) : Py BMFit :=
  let drift := dx.mapIdx fun j l => (npMeanR fl (o.mean j) l).map fun m => fl (m / dt)
  let vol := dx.mapIdx fun j l => (npStd1R fl (o.mean j) (o.sq j) l).map fun s => fl (s / fl (Real.sqrt dt))
  if 1 < dx.length then
    if some 0 ∈ vol then .error .valueError
    else if none ∈ vol then .error .linAlgError
    else if ∃ j < dx.length, covR fl o dx j j = 0 then .error .linAlgError
    else match chol (corrcoefR fl o dx) with
      | none => .error .linAlgError
      | some L => .ok ⟨drift, vol, some (corrcoefR fl o dx), some L⟩
  else .ok ⟨drift, vol, none, none⟩

/-- `BrownianMotion._fit_np` (`_bm.py:165-188`). -/
noncomputable def bmFitR (o : FitOrders) (chol : Arr → Option Arr) (x : Arr) (dt : ℝ) : Py BMFit :=
  fitIncrementsR fl o chol ((columns x).map (diffsR fl)) dt

/-- `GeometricBrownianMotion._fit_np` (`_gbm.py:173-196`), for positive data. -/
noncomputable def gbmFitR (o : FitOrders) (chol : Arr → Option Arr) (x : Arr) (dt : ℝ) : Py BMFit :=
  fitIncrementsR fl o chol ((columns x).map (logRatiosR fl)) dt

end Verif.Sim
