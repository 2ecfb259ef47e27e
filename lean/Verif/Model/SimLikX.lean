import Verif.Model.SimLik
import Verif.Model.SimX

/-!
# `quantfinlib/sim`: likelihood and Ornstein–Uhlenbeck calibration on floats with special values

`SimLik` and `SimFit` compute with real numbers. Here the three `_nll` methods and `OrnsteinUhlenbeck._fit_np` are modelled on floats:
missing or non-positive data, special parameters. On ordinary numbers they agree with the other model (`Props/SimXLik.lean`). `dt` is a
positive number. A correlation matrix has numbers only: the constructor and `fit` decompose it (`cholesky`), which fails otherwise.
-/

namespace Verif.Sim

open Verif.Cov (Mat Pair)

open Classical in
/-- scipy's `norm(loc=m, scale=s).logpdf(x)`: `nan` unless the scale is positive. -/
noncomputable def normLogpdfX (m s x : XF) : XF :=
  if XF.lt (.fin 0) s then
    -((x - m) / s * ((x - m) / s)) / .fin 2 - .fin (Real.log (2 * Real.pi) / 2) - s.log
  else .nan

/-- Entry `j` of row `i` under broadcasting: a single column is repeated. -/
def xbcol (a : XArr) (i j : Nat) : XF := if a.cols = 1 then a.get i 0 else a.get i j

/-- `-1 * np.sum(norm(loc=mean_, scale=std_).logpdf(dx))` (`_bm.py:229-231`). -/
noncomputable def normNllX (mean std : List XF) (dx : XArr) : Py XF := do
  let c ← bdim dx.cols mean.length
  let c ← bdim c std.length
  .ok (.fin (-1) * xsum ((List.range (dx.rows * c)).map fun k =>
    normLogpdfX (xentry mean (k % c)) (xentry std (k % c)) (xbcol dx (k / c) (k % c))))

/-- scipy's `multivariate_normal._logpdf`: the deviations are multiplied with the scaled eigenvectors, squared and summed. -/
noncomputable def mvnLogpdfX {d : Nat} (ps : List (Pair d)) (dev : Fin d → XF) : XF :=
  .fin (-(1 / 2)) * (.fin (d * Real.log (2 * Real.pi) + (ps.map fun p => Real.log p.1).sum) +
    xsum (ps.map fun p =>
      xsum ((List.finRange d).map fun k => dev k * .fin (p.2 k * Real.sqrt (1 / p.1))) *
      xsum ((List.finRange d).map fun k => dev k * .fin (p.2 k * Real.sqrt (1 / p.1)))))

/-- The numbers of a list without special values. -/
def reals (l : List XF) : List ℝ := l.map fun x => x.real?.getD 0

/-- The decomposition of the covariance matrix and the sum of the logarithmic densities, for scales that are numbers. -/
noncomputable def mvnSumX (eigh : (d : Nat) → Mat d → List (Pair d)) (mean : List XF) (std : List ℝ) (cor : Arr) (dx : XArr) :
    Py XF := do
  let _ ← psdCheck (eigh std.length (covMat std.length std cor))
  if dx.cols = std.length ∨ dx.cols = 1 then
    .ok (.fin (-1) * xsum ((List.range dx.rows).map fun i =>
      mvnLogpdfX (eigh std.length (covMat std.length std cor)) fun k => xbcol dx i k - mean.getD k .nan))
  else .error .valueError

open Classical in
/-- `-1 * np.sum(multivariate_normal(mean=mean_, cov=D @ cor @ D).logpdf(dx))` (`_bm.py:225-231`). A scale that is not a number gives
a covariance matrix with special values, which scipy's `eigh` refuses with a `ValueError`. -/
noncomputable def mvnNllX (eigh : (d : Nat) → Mat d → List (Pair d)) (mean std : List XF) (cor : Arr) (dx : XArr) : Py XF :=
  if ¬ (cor.rows = std.length ∧ cor.cols = std.length) then .error .valueError
  else if mean.length ≠ std.length ∨ std.length = 0 then .error .valueError
  else if ∃ s ∈ std, s.real? = none then .error .valueError
  else mvnSumX eigh mean (reals std) cor dx

/-- The common last part of the three `_nll` methods (`_bm.py:225-231`, `_gbm.py:238-243`, `_ou.py:299-306`). -/
noncomputable def gaussNllX (eigh : (d : Nat) → Mat d → List (Pair d)) (mean std : List XF) (cor : Option Arr) (dx : XArr) :
    Py XF :=
  match cor with
  | none => normNllX mean std dx
  | some c => mvnNllX eigh mean std c dx

/-- `np.diff(x, axis=0)` -/
noncomputable def diffRowsX (x : XArr) : XArr := ⟨x.rows - 1, x.cols, fun k => x.data (k + x.cols) - x.data k⟩

/-- `np.log(x[1:, ...] / x[:-1, ...])` -/
noncomputable def logRatioRowsX (x : XArr) : XArr := ⟨x.rows - 1, x.cols, fun k => (x.data (k + x.cols) / x.data k).log⟩

/-- `BrownianMotion._nll` (`_bm.py:220-231`). -/
noncomputable def bmNllX (eigh : (d : Nat) → Mat d → List (Pair d)) (drift vol : List XF) (cor : Option Arr) (x : XArr)
    (dt : ℝ) : Py XF :=
  gaussNllX eigh (drift.map (· * .fin dt)) (vol.map (· * .fin (Real.sqrt dt))) cor (diffRowsX x)

/-- `GeometricBrownianMotion._nll` (`_gbm.py:233-243`). -/
noncomputable def gbmNllX (eigh : (d : Nat) → Mat d → List (Pair d)) (drift vol : List XF) (cor : Option Arr) (x : XArr)
    (dt : ℝ) : Py XF := do
  let m ← xzip (fun d v => d - .fin (1 / 2) * (v * v)) drift vol
  gaussNllX eigh m (vol.map (· * .fin (Real.sqrt dt))) cor (logRatioRowsX x)

/-- `x[1:, ...] - mrr_factor * x[:-1, ...]` (`_ou.py:297`) -/
noncomputable def ouRowsX (factor : List XF) (x : XArr) : Py XArr := do
  let c ← bdim factor.length x.cols
  let c ← bdim x.cols c
  .ok ⟨x.rows - 1, c, fun k => xbcol x (k / c + 1) (k % c) - xentry factor (k % c) * xbcol x (k / c) (k % c)⟩

/-- `OrnsteinUhlenbeck._nll` (`_ou.py:289-306`). After `fit` the mean and the rate are scalars: lists of length one. -/
noncomputable def ouNllX (eigh : (d : Nat) → Mat d → List (Pair d)) (mean mrr vol : List XF) (cor : Option Arr) (x : XArr)
    (dt : ℝ) : Py XF := do
  let factor := mrr.map fun r => (-r * .fin dt).exp
  let m ← xzip (fun m f => m * (.fin 1 - f)) mean factor
  let s ← xzip (fun v r => (v * v / (.fin 2 * r) * (.fin 1 - (.fin (-2) * r * .fin dt).exp)).sqrt) vol mrr
  let dx ← ouRowsX factor x
  gaussNllX eigh m s cor dx

/-- `aic` (`_base.py:441-459`) of a likelihood, `k` parameters and `n` rows. -/
noncomputable def aicX (k : ℝ) (n : Nat) (nll : XF) : XF := .fin (2 * k) + .fin 2 * nll * .fin n

/-- `bic` (`_base.py:461-478`). -/
noncomputable def bicX (k : ℝ) (n : Nat) (nll : XF) : XF := .fin (2 * Real.log n * k) + .fin 2 * nll * .fin n

/-! ### Calibration of `OrnsteinUhlenbeck` -/

/-- What `np.linalg.lstsq(np.vstack([x, 1]).T, y, rcond=None)[0]` does: on numbers the least-squares line; on special values LAPACK
either reports that its iteration did not converge or returns `nan`. -/
structure Lstsq (lsq : List XF → List XF → Py (XF × XF)) : Prop where
  num : ∀ x y : List ℝ, x.length = y.length → lsq (x.map .fin) (y.map .fin) = .ok (.fin (lstsqLine x y).1, .fin (lstsqLine x y).2)
  special : ∀ x y : List XF, (∃ a, (a ∈ x ∨ a ∈ y) ∧ a.real? = none) →
    lsq x y = .error .linAlgError ∨ lsq x y = .ok (.nan, .nan)

open Classical in
/-- Slope and intercept of one column (`_ou.py:210-230`). -/
noncomputable def ouLineX (lsq : List XF → List XF → Py (XF × XF)) (c : List XF) : Py (XF × XF) := do
  let ab ← lsq c.dropLast c.tail
  .ok (if XF.lt ab.1 (.fin slopeTol) ∨ XF.eq ab.1 (.fin slopeTol) then (.fin slopeTol, xmean c.tail) else ab)

/-- The residuals of one column (`_ou.py:233-236`). -/
noncomputable def ouResidualsX (ab : XF × XF) (c : List XF) : List XF :=
  List.zipWith (fun x y => y - (ab.1 * x + ab.2)) c.dropLast c.tail

/-- The loop over the columns (`_ou.py:209-236`): the lines and the residuals. -/
noncomputable def ouLinesX (lsq : List XF → List XF → Py (XF × XF)) : List (List XF) → Py (List (XF × XF) × List (List XF))
  | [] => .ok ([], [])
  | c :: cs => do
    let ab ← ouLineX lsq c
    let r ← ouLinesX lsq cs
    .ok (ab :: r.1, ouResidualsX ab c :: r.2)

/-- The correlation part (`_ou.py:238-244`). -/
noncomputable def ouCorX (chol : Arr → Option Arr) (res : List (List XF)) : Py (Option Arr × Option Arr) :=
  if 1 < res.length then
    match xchol chol res with
    | none => .error .linAlgError
    | some cL => .ok (some cL.1, some cL.2)
  else .ok (none, none)

/-- `OrnsteinUhlenbeck._fit_np` (`_ou.py:197-253`): the parameters, the correlation matrix and its factor. No rows: the shape of
the residuals is negative. -/
noncomputable def ouFitFullX (lsq : List XF → List XF → Py (XF × XF)) (chol : Arr → Option Arr) (x : XArr) (dt : ℝ) :
    Py (OUFitX × Option Arr × Option Arr) :=
  if x.rows = 0 then .error .valueError
  else do
    let lr ← ouLinesX lsq x.columns
    let cL ← ouCorX chol lr.2
    match lr.1.getLast? with
    | none => .error .unboundLocalError
    | some ab =>
      let mrr := -ab.1.log / .fin dt
      .ok (⟨ab.2 / (.fin 1 - ab.1), mrr, lr.2.map fun r =>
        ((.fin 2 * mrr * (xstd1 r * xstd1 r)) / (.fin 1 - ab.1 * ab.1)).sqrt⟩, cL)

end Verif.Sim
