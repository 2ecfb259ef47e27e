import Verif.Model.SimCore
import Verif.Model.RoundSum
import Verif.Model.DotTree

/-!
# The samplers with rounding after every operation

As `SimCore`, with every operation rounded by `fl`; `exp`, `log` and roots are rounded once, `x ** 2` is one product and `dt ** 0.5`
a root. The scalar products of `ans @ L.T` are computed in a way `ord` that may depend on the entry and the numbers (BLAS adds in
blocks and may fuse products and sums).
Draws, factors, starting values and parameters are taken as they are.
-/

namespace Verif.Sim

open Round

variable (fl : ℝ → ℝ) (ord : Nat → List (ℝ × ℝ) → DotTree)

/-- `ans @ L.T` (`_base.py:70-71`). -/
noncomputable def mulLTR (ans L : Arr) : Py Arr :=
  if L.cols = ans.cols ∧ L.rows = ans.cols then
    .ok ⟨ans.rows, ans.cols, fun k =>
      (ord k ((List.range ans.cols).map fun m => (ans.get (k / ans.cols) m, L.get (k % ans.cols) m))).eval fl⟩
  else .error .valueError

/-- `if L is not None: ans[:, :] = ans[:, :] @ L.T` (`_base.py:70-71`). -/
noncomputable def applyLR (a : Arr) : Option Arr → Py Arr
  | none => .ok a
  | some L => mulLTR fl ord a L

/-- `_fill_with_correlated_noise` (`_base.py:57-75`). -/
noncomputable def fillNoiseR (ans : Arr) (loc scale : List ℝ) (L : Option Arr) (z : Nat → ℝ) : Py Arr := do
  let a ← applyLR fl ord ⟨ans.rows, ans.cols, z⟩ L
  let s ← bcastTo scale a.cols
  let m ← bcastTo loc a.cols
  .ok ⟨a.rows, a.cols, fun k => fl (fl (a.data k * s (k % a.cols)) + m (k % a.cols))⟩

/-- The array before compounding (`_bm.py:203-213`, `_gbm.py:211-226`). -/
noncomputable def incrementsR (v : Nat) (loc scale : List ℝ) (L : Option Arr) (x0 : List ℝ) (numSteps numPaths : Int)
    (z : Nat → ℝ) : Py Arr := do
  let ans ← Arr.zeros (numSteps + 1) (v * numPaths)
  let ans ← setX0 ans x0
  let dx ← ans.tail.reshapeCols v
  let dx ← fillNoiseR fl ord dx loc scale L z
  .ok (ans.setTail dx)

/-- `BrownianMotion._path_sample_np` (`_bm.py:190-218`). -/
noncomputable def bmSampleR (p : BMParams) (x0 : List ℝ) (dt : ℝ) (numSteps numPaths : Int) (z : Nat → ℝ) : Py Arr := do
  let ans ← incrementsR fl ord p.drift.length (p.drift.map fun d => fl (d * dt))
    (p.vol.map fun s => fl (s * fl (Real.sqrt dt))) p.L x0 numSteps numPaths z
  .ok (cumsumR fl ans)

/-- `GeometricBrownianMotion._path_sample_np` (`_gbm.py:198-231`). -/
noncomputable def gbmSampleR (p : BMParams) (x0 : List ℝ) (dt : ℝ) (numSteps numPaths : Int) (z : Nat → ℝ) : Py Arr := do
  let ans ← Arr.zeros (numSteps + 1) (p.drift.length * numPaths)
  let _ ← setX0 ans (x0.map fun x => fl (Real.log x))
  let _ ← ans.tail.reshapeCols p.drift.length
  let loc ← bzip (fun d v => fl (fl (d - fl (0.5 * fl (v ^ 2))) * dt)) p.drift p.vol
  let ans ← incrementsR fl ord p.drift.length loc (p.vol.map fun s => fl (s * fl (Real.sqrt dt))) p.L
    (x0.map fun x => fl (Real.log x)) numSteps numPaths z
  .ok ((cumsumR fl ans).map fun x => fl (Real.exp x))

/-- One iteration of the loop `ans[i + 1, :] += ans[i, :] * mrr_factor` (`_ou.py:285`). -/
noncomputable def ouStepR (f : Nat → ℝ) (a : Arr) (i : Nat) : Arr :=
  ⟨a.rows, a.cols, fun k =>
    if k / a.cols = i + 1 then fl (a.data k + fl (a.data (k - a.cols) * f (k % a.cols))) else a.data k⟩

/-- The loop (`_ou.py:284-285`). -/
noncomputable def ouLoopR (f : Nat → ℝ) (a : Arr) : Nat → Arr
  | 0 => a
  | n + 1 => ouStepR fl f (ouLoopR f a n) n

/-- `mrr_factor` (`_ou.py:265`). -/
noncomputable def ouFactorR (r dt : ℝ) : ℝ := fl (Real.exp (fl (-r * dt)))

/-- `mean_term` (`_ou.py:266`). -/
noncomputable def ouMeanR (m f : ℝ) : ℝ := fl (m * fl (1 - f))

/-- `scale_factor` (`_ou.py:267`). -/
noncomputable def ouScaleR (v r dt : ℝ) : ℝ :=
  fl (Real.sqrt (fl (fl (fl (v ^ 2) / fl (2 * r)) * fl (1 - fl (Real.exp (fl (fl (-2 * r) * dt)))))))

/-- `OrnsteinUhlenbeck._path_sample_np` (`_ou.py:255-287`). -/
noncomputable def ouSampleR (p : OUParams) (x0 : List ℝ) (dt : ℝ) (numSteps numPaths : Int) (z : Nat → ℝ) : Py Arr := do
  let factor := p.mrr.toRow.map fun r => ouFactorR fl r dt
  let meanTerm ← bzip (ouMeanR fl) p.mean.toRow factor
  let scale ← bzip (fun v r => ouScaleR fl v r dt) p.vol p.mrr.toRow
  let v ← p.mean.shape1
  let ans ← incrementsR fl ord v meanTerm scale p.L x0 numSteps numPaths z
  if ans.rows ≤ 1 then .ok ans
  else do
    let f ← bcastTo factor ans.cols
    .ok (ouLoopR fl f ans (ans.rows - 1))

end Verif.Sim
