import Verif.Model.SimCore
import Mathlib.Analysis.SpecialFunctions.Trigonometric.Basic

/-!
# `quantfinlib/sim`: calibration (`_fit_np`) and likelihood (`_nll`) of the path models

A statistic that is `nan` because there are too few rows is `none`. `np.linalg.cholesky` is a parameter
(`none` = `LinAlgError`; a matrix containing `nan` is always a `LinAlgError`). `np.linalg.lstsq` is exact:
its rank test uses no tolerance.
-/

namespace Verif.Sim

/-- `np.diff` of a column. -/
def diffs : List ℝ → List ℝ
  | a :: b :: l => (b - a) :: diffs (b :: l)
  | _ => []

/-- `np.log(x[1:] / x[:-1])` of a column (`_gbm.py:176`). -/
noncomputable def logRatios : List ℝ → List ℝ
  | a :: b :: l => Real.log (b / a) :: logRatios (b :: l)
  | _ => []

/-- Arithmetic mean of a non-empty list. -/
noncomputable def lmean (l : List ℝ) : ℝ := l.sum / l.length

/-- Sum of squared deviations from the mean. -/
noncomputable def sqDev (l : List ℝ) : ℝ := (l.map fun x => (x - lmean l) ^ 2).sum

/-- `np.mean`: `nan` for an empty column. -/
noncomputable def npMean (l : List ℝ) : Option ℝ := if l = [] then none else some (lmean l)

/-- `np.std(ddof=1)`: `nan` with fewer than two values. -/
noncomputable def npStd1 (l : List ℝ) : Option ℝ :=
  if l.length ≤ 1 then none else some (Real.sqrt (sqDev l / (l.length - 1)))

/-- Sum of products of deviations. -/
noncomputable def crossDev (l m : List ℝ) : ℝ :=
  (List.zipWith (fun x y => (x - lmean l) * (y - lmean m)) l m).sum

/-- `np.clip(x, -1, 1)` -/
noncomputable def clip1 (x : ℝ) : ℝ := max (-1) (min 1 x)

/-- `np.corrcoef(…, rowvar=False)` of columns with at least two rows and positive variance. -/
noncomputable def corrcoef (cols : List (List ℝ)) : Arr :=
  ⟨cols.length, cols.length, fun k =>
    let l := cols.getD (k / cols.length) []
    let m := cols.getD (k % cols.length) []
    clip1 (crossDev l m / Real.sqrt (sqDev l) / Real.sqrt (sqDev m))⟩

/-- A column whose sample standard deviation is zero or `nan`. -/
def badColumn (l : List ℝ) : Prop := npStd1 l = some 0 ∨ npStd1 l = none

/-- The fitted attributes of `BrownianMotion` / `GeometricBrownianMotion`. -/
structure BMFit where
  drift : List (Option ℝ)
  vol : List (Option ℝ)
  cor : Option Arr
  L : Option Arr

open Classical in
/-- The common part of `BrownianMotion._fit_np` (`_bm.py:165-188`) and `GeometricBrownianMotion._fit_np`
(`_gbm.py:173-196`), from the columns of increments. For several columns: a zero volatility is a
`ValueError`; a `nan` volatility (fewer than three rows) leads to a correlation matrix of `nan`s, which
`cholesky` rejects. -/
noncomputable def fitIncrements (chol : Arr → Option Arr) (dx : List (List ℝ)) (dt : ℝ) : Py BMFit :=
  let drift := dx.map fun l => (npMean l).map (· / dt)
  let vol := dx.map fun l => (npStd1 l).map (· / Real.sqrt dt)
  if 1 < dx.length then
    if some 0 ∈ vol then .error .valueError
    else if none ∈ vol then .error .linAlgError
    else match chol (corrcoef dx) with
      | none => .error .linAlgError
      | some L => .ok ⟨drift, vol, some (corrcoef dx), some L⟩
  else .ok ⟨drift, vol, none, none⟩

/-- The columns of a data matrix. -/
def columns (x : Arr) : List (List ℝ) := (List.range x.cols).map x.col

/-- `BrownianMotion._fit_np` (`_bm.py:165-188`). -/
noncomputable def bmFit (chol : Arr → Option Arr) (x : Arr) (dt : ℝ) : Py BMFit :=
  fitIncrements chol ((columns x).map diffs) dt

/-- `GeometricBrownianMotion._fit_np` (`_gbm.py:173-196`), for positive data. -/
noncomputable def gbmFit (chol : Arr → Option Arr) (x : Arr) (dt : ℝ) : Py BMFit :=
  fitIncrements chol ((columns x).map logRatios) dt

/-! ### Ornstein–Uhlenbeck -/

open Classical in
/-- `np.linalg.lstsq(np.vstack([x, 1]).T, y)[0]` (`_ou.py:215-218`): the least-squares line; for a constant
`x` the solution of minimal norm; for no data zero. -/
noncomputable def lstsqLine (x y : List ℝ) : ℝ × ℝ :=
  if x = [] then (0, 0)
  else if sqDev x = 0 then
    (lmean x * lmean y / (lmean x ^ 2 + 1), lmean y / (lmean x ^ 2 + 1))
  else (crossDev x y / sqDev x, lmean y - crossDev x y / sqDev x * lmean x)

/-- `SLOPE_TOL` (`_ou.py:199`). -/
noncomputable def slopeTol : ℝ := 1 / 10 ^ 8

open Classical in
/-- Slope and intercept of one column (`_ou.py:210-230`), for at least two rows. -/
noncomputable def ouLine (c : List ℝ) : ℝ × ℝ :=
  let ab := lstsqLine c.dropLast c.tail
  if ab.1 ≤ slopeTol then (slopeTol, lmean c.tail) else ab

/-- The residuals of one column (`_ou.py:233-236`). -/
noncomputable def ouResiduals (c : List ℝ) : List ℝ :=
  List.zipWith (fun x y => y - ((ouLine c).1 * x + (ouLine c).2)) c.dropLast c.tail

/-- The fitted attributes of `OrnsteinUhlenbeck`: `mean` and `mrr` are scalars. -/
structure OUFit where
  mean : ℝ
  mrr : ℝ
  vol : List (Option ℝ)
  cor : Option Arr
  L : Option Arr

open Classical in
/-- `OrnsteinUhlenbeck._fit_np` (`_ou.py:197-253`) for data with at least two rows. After the loop `slope`
and `intercept` are those of the last column; without columns they are unbound. -/
noncomputable def ouFit (chol : Arr → Option Arr) (x : Arr) (dt : ℝ) : Py OUFit :=
  let res := (columns x).map ouResiduals
  let fitted (cor L : Option Arr) : Py OUFit :=
    match (columns x).getLast? with
    | none => .error .unboundLocalError
    | some c =>
      let slope := (ouLine c).1
      let mrr := -Real.log slope / dt
      .ok ⟨(ouLine c).2 / (1 - slope), mrr,
        res.map fun r => (npStd1 r).map fun s => Real.sqrt ((2 * mrr * s ^ 2) / (1 - slope ^ 2)), cor, L⟩
  if 1 < x.cols then
    if ∃ r ∈ res, badColumn r then .error .linAlgError
    else match chol (corrcoef res) with
      | none => .error .linAlgError
      | some L => fitted (some (corrcoef res)) (some L)
  else fitted none none

/-- The parameters of the object after `fit` (`_ou.py:249-251`), when no statistic is `nan`. -/
def OUFit.params (f : OUFit) (vol : List ℝ) : OUParams := ⟨.scalar f.mean, .scalar f.mrr, vol, f.L⟩

/-! ### Likelihood without correlation (`cor is None`) -/

/-- `norm(loc=m, scale=s).logpdf(x)` for `s > 0`. -/
noncomputable def normLogpdf (m s x : ℝ) : ℝ := -(x - m) ^ 2 / (2 * s ^ 2) - Real.log s - Real.log (2 * Real.pi) / 2

/-- `-1 * np.sum(var.logpdf(dx))` for one column of increments. -/
noncomputable def nllCol (m s : ℝ) (dx : List ℝ) : ℝ := -(dx.map (normLogpdf m s)).sum

/-- `BrownianMotion._nll` (`_bm.py:220-231`) for one variate. -/
noncomputable def bmNll (drift vol dt : ℝ) (x : List ℝ) : ℝ :=
  nllCol (drift * dt) (vol * Real.sqrt dt) (diffs x)

/-- `GeometricBrownianMotion._nll` (`_gbm.py:233-243`) for one variate. Note the mean: no factor `dt`. -/
noncomputable def gbmNll (drift vol dt : ℝ) (x : List ℝ) : ℝ :=
  nllCol (drift - 0.5 * vol ^ 2) (vol * Real.sqrt dt) (logRatios x)

end Verif.Sim
