import Verif.Model.SimFit
import Verif.Model.Cov
import Verif.Model.XF

/-!
# `quantfinlib/sim`: the likelihood (`_nll`) for any number of variates, and the parameter count

`Model/SimFit.lean` has the likelihood of one variate; here are the complete methods with their shapes. The data are
finite numbers and `dt > 0`; the data of the geometric model are positive. `scipy.stats.multivariate_normal` decomposes
its covariance matrix with `eigh`, which is a parameter; its rank test is exact (no tolerance).
-/

namespace Verif.Sim

open Verif.Cov (Mat Pair)

/-- The broadcast of two dimensions: equal, or one of them is 1. -/
def bdim (a b : Nat) : Py Nat :=
  if a = b then .ok a else if a = 1 then .ok b else if b = 1 then .ok a else .error .valueError

/-- Entry `j` of row `i` under broadcasting: a single column is repeated. -/
def bcol (a : Arr) (i j : Nat) : ℝ := if a.cols = 1 then a.get i 0 else a.get i j

open Classical in
/-- `-1 * np.sum(norm(loc=mean_, scale=std_).logpdf(dx))` (`_bm.py:229-231`). `(x - loc) / scale` is broadcast; a scale
that is not positive gives `nan`. -/
noncomputable def normNll (mean std : List ℝ) (dx : Arr) : Py XF := do
  let c ← bdim dx.cols mean.length
  let c ← bdim c std.length
  if dx.rows ≠ 0 ∧ ∃ j < c, bentry std j ≤ 0 then .ok .nan
  else .ok (.fin (-∑ i ∈ Finset.range dx.rows, ∑ j ∈ Finset.range c,
    normLogpdf (bentry mean j) (bentry std j) (bcol dx i j)))

/-- `D @ self.cor @ D` with `D = np.diag(std_)` (`_bm.py:226-227`), as `eigh` sees it: only the lower triangle is read. -/
noncomputable def covMat (d : Nat) (std : List ℝ) (cor : Arr) : Mat d := fun i j =>
  std.getD (max i j : Fin _) 0 * cor.get (max i j : Fin _) (min i j : Fin _) * std.getD (min i j : Fin _) 0

open Classical in
/-- scipy's `_PSD`: a negative eigenvalue is a `ValueError`, a zero eigenvalue a `LinAlgError`. -/
noncomputable def psdCheck {d : Nat} (ps : List (Pair d)) : Py Unit :=
  if ∃ p ∈ ps, p.1 < 0 then .error .valueError
  else if ∃ p ∈ ps, p.1 = 0 then .error .linAlgError
  else .ok ()

/-- scipy's `multivariate_normal._logpdf`: rank, logarithm of the pseudo-determinant and squared Mahalanobis distance from
the eigenvalues and eigenvectors. -/
noncomputable def mvnLogpdf {d : Nat} (ps : List (Pair d)) (dev : Fin d → ℝ) : ℝ :=
  -(1 / 2) * (d * Real.log (2 * Real.pi) + (ps.map fun p => Real.log p.1).sum +
    (ps.map fun p => dotProduct dev p.2 ^ 2 / p.1).sum)

/-- `-1 * np.sum(multivariate_normal(mean=mean_, cov=D @ cor @ D).logpdf(dx))` (`_bm.py:225-231`): the matrix products
need a square `cor` of the size of `std_`; the mean must have that size; no variates at all fail in the tolerance of
`_PSD`; a single column of data is broadcast against the mean, and the product of the deviations with the eigenvectors
needs the right number of columns. -/
noncomputable def mvnNll (eigh : (d : Nat) → Mat d → List (Pair d)) (mean std : List ℝ) (cor dx : Arr) : Py XF :=
  if ¬ (cor.rows = std.length ∧ cor.cols = std.length) then .error .valueError
  else if mean.length ≠ std.length ∨ std.length = 0 then .error .valueError
  else do
    let _ ← psdCheck (eigh std.length (covMat std.length std cor))
    if dx.cols = std.length ∨ dx.cols = 1 then
      .ok (.fin (-∑ i ∈ Finset.range dx.rows,
        mvnLogpdf (eigh std.length (covMat std.length std cor)) fun k => bcol dx i k - mean.getD k 0))
    else .error .valueError

/-- The common last part of the three `_nll` methods (`_bm.py:225-231`, `_gbm.py:238-243`, `_ou.py:299-306`). -/
noncomputable def gaussNll (eigh : (d : Nat) → Mat d → List (Pair d)) (mean std : List ℝ) (cor : Option Arr) (dx : Arr) :
    Py XF :=
  match cor with
  | none => normNll mean std dx
  | some c => mvnNll eigh mean std c dx

/-- `np.diff(x, axis=0)` -/
def diffRows (x : Arr) : Arr := ⟨x.rows - 1, x.cols, fun k => x.data (k + x.cols) - x.data k⟩

/-- `np.log(x[1:, ...] / x[:-1, ...])` -/
noncomputable def logRatioRows (x : Arr) : Arr := ⟨x.rows - 1, x.cols, fun k => Real.log (x.data (k + x.cols) / x.data k)⟩

/-- `BrownianMotion._nll` (`_bm.py:220-231`). -/
noncomputable def bmNllFull (eigh : (d : Nat) → Mat d → List (Pair d)) (drift vol : List ℝ) (cor : Option Arr) (x : Arr)
    (dt : ℝ) : Py XF :=
  gaussNll eigh (drift.map (· * dt)) (vol.map (· * Real.sqrt dt)) cor (diffRows x)

/-- `GeometricBrownianMotion._nll` (`_gbm.py:233-243`). -/
noncomputable def gbmNllFull (eigh : (d : Nat) → Mat d → List (Pair d)) (drift vol : List ℝ) (cor : Option Arr) (x : Arr)
    (dt : ℝ) : Py XF := do
  let m ← bzip (fun d v => d - 0.5 * v ^ 2) drift vol
  gaussNll eigh m (vol.map (· * Real.sqrt dt)) cor (logRatioRows x)

/-- `x[1:, ...] - mrr_factor * x[:-1, ...]` (`_ou.py:297`) -/
noncomputable def ouRows (factor : List ℝ) (x : Arr) : Py Arr := do
  let c ← bdim factor.length x.cols
  let c ← bdim x.cols c
  .ok ⟨x.rows - 1, c, fun k => bcol x (k / c + 1) (k % c) - bentry factor (k % c) * bcol x (k / c) (k % c)⟩

open Classical in
/-- `OrnsteinUhlenbeck._nll` (`_ou.py:289-306`). A mean reversion rate of zero makes the scale `nan`: the univariate
likelihood is then `nan`, and the multivariate one is refused because the matrix is not finite. -/
noncomputable def ouNllFull (eigh : (d : Nat) → Mat d → List (Pair d)) (p : OUParams) (cor : Option Arr) (x : Arr)
    (dt : ℝ) : Py XF := do
  let factor := p.mrr.toRow.map fun r => Real.exp (-r * dt)
  let m ← bzip (fun m f => m * (1 - f)) p.mean.toRow factor
  let s ← bzip (fun v r => Real.sqrt (v ^ 2 / (2 * r) * (1 - Real.exp (-2 * r * dt)))) p.vol p.mrr.toRow
  let dx ← ouRows factor x
  if 0 ∈ p.mrr.toRow then
    if cor = none then (normNll m (s.map fun _ => 1) dx).map fun v => if dx.rows = 0 then v else .nan
    else .error .valueError
  else gaussNll eigh m s cor dx

/-! ### The number of parameters -/

/-- `len` of an array of shape `(1, n)`: the number of its rows. -/
def rowLen (_ : List ℝ) : ℝ := 1

/-- `num_parameters_` of the Brownian models (`_bm.py:157-159`, `_gbm.py:165-167`). -/
noncomputable def bmNumParams (drift vol : List ℝ) (cor : Option Arr) : ℝ :=
  rowLen drift + rowLen vol + if cor.isSome then rowLen drift * (rowLen drift - 1) / 2 else 0

/-- `num_parameters_` of the Ornstein-Uhlenbeck model (`_ou.py:187-189`). -/
noncomputable def ouNumParams (mean mrr vol : List ℝ) (cor : Option Arr) : ℝ :=
  rowLen mean + rowLen mrr + rowLen vol + if cor.isSome then rowLen mean * (rowLen mean - 1) / 2 else 0

end Verif.Sim
