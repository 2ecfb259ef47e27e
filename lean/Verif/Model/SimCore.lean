import Verif.Model.NdArray
import Mathlib.Analysis.SpecialFunctions.Log.Basic
import Mathlib.Analysis.SpecialFunctions.Pow.Real

/-!
# `quantfinlib/sim`: the samplers `_path_sample_np` of the path models

Random draws: `rng.normal(size=shape)` fills an array row by row from a stream of numbers, so a call is a
function of that stream `z : ℕ → ℝ` (with `random_state=None` any stream is possible). Floats are reals:
the logarithm of a non-positive number, a division by zero and the square root of a negative number, which
give `nan`/`inf` in numpy, are outside the model (theorems that need it have hypotheses).
-/

namespace Verif.Sim

/-- `SimBase.set_x0` (`_base.py:319-322`). `x0` is the already flattened `(1, -1)` row. The tile count is
computed first (`ZeroDivisionError` for an empty `x0`), then row 0 is looked up (`IndexError`), then the
assignment is broadcast (`ValueError`). -/
def setX0 (ans : Arr) (x0 : List ℝ) : Py Arr :=
  if x0.length = 0 then .error .zeroDivisionError
  else if ans.rows = 0 then .error .indexError
  else if ans.cols / x0.length * x0.length = ans.cols then
    .ok ⟨ans.rows, ans.cols, fun k => if k < ans.cols then x0.getD (k % x0.length) 0 else ans.data k⟩
  else .error .valueError

/-- The product `ans @ L.T` of `_fill_with_correlated_noise` (`_base.py:70-71`), assigned back to `ans`.
`L` comes from `np.linalg.cholesky`, so it is square. -/
def mulLT (ans L : Arr) : Py Arr :=
  if L.cols = ans.cols ∧ L.rows = ans.cols then
    .ok ⟨ans.rows, ans.cols, fun k =>
      ∑ m ∈ Finset.range ans.cols, ans.get (k / ans.cols) m * L.get (k % ans.cols) m⟩
  else .error .valueError

/-- `if L is not None: ans[:, :] = ans[:, :] @ L.T` (`_base.py:70-71`). -/
def applyL (a : Arr) : Option Arr → Py Arr
  | none => .ok a
  | some L => mulLT a L

/-- `_fill_with_correlated_noise` (`_base.py:57-75`) with `loc` and `scale` given. -/
def fillNoise (ans : Arr) (loc scale : List ℝ) (L : Option Arr) (z : Nat → ℝ) : Py Arr := do
  let a ← applyL ⟨ans.rows, ans.cols, z⟩ L
  let s ← bcastTo scale a.cols
  let m ← bcastTo loc a.cols
  .ok ⟨a.rows, a.cols, fun k => a.data k * s (k % a.cols) + m (k % a.cols)⟩

/-- The parameters of a `BrownianMotion` or `GeometricBrownianMotion` object (`_bm.py:146-157`,
`_gbm.py:154-165`): `drift` and `vol` are rows `(1, n)`; `L_` is the Cholesky factor. -/
structure BMParams where
  drift : List ℝ
  vol : List ℝ
  L : Option Arr

/-- The array before compounding: row 0 is `x0`, the rest is noise (`_bm.py:203-213`,
`_gbm.py:211-226`). -/
def increments (v : Nat) (loc scale : List ℝ) (L : Option Arr) (x0 : List ℝ) (numSteps numPaths : Int)
    (z : Nat → ℝ) : Py Arr := do
  let ans ← Arr.zeros (numSteps + 1) (v * numPaths)
  let ans ← setX0 ans x0
  let dx ← ans.tail.reshapeCols v
  let dx ← fillNoise dx loc scale L z
  .ok (ans.setTail dx)

/-- `BrownianMotion._path_sample_np` (`_bm.py:190-218`). -/
noncomputable def bmSample (p : BMParams) (x0 : List ℝ) (dt : ℝ) (numSteps numPaths : Int)
    (z : Nat → ℝ) : Py Arr := do
  let ans ← increments p.drift.length (p.drift.map (· * dt)) (p.vol.map (· * Real.sqrt dt)) p.L x0
    numSteps numPaths z
  .ok ans.cumsum

/-- `GeometricBrownianMotion._path_sample_np` (`_gbm.py:198-231`). `np.zeros` and `set_x0` come before
the broadcasting of `loc`, so their errors win. -/
noncomputable def gbmSample (p : BMParams) (x0 : List ℝ) (dt : ℝ) (numSteps numPaths : Int)
    (z : Nat → ℝ) : Py Arr := do
  let ans ← Arr.zeros (numSteps + 1) (p.drift.length * numPaths)
  let _ ← setX0 ans (x0.map Real.log)
  let _ ← ans.tail.reshapeCols p.drift.length
  let loc ← bzip (fun d v => (d - 0.5 * v ^ 2) * dt) p.drift p.vol
  let ans ← increments p.drift.length loc (p.vol.map (· * Real.sqrt dt)) p.L (x0.map Real.log)
    numSteps numPaths z
  .ok (ans.cumsum.map Real.exp)

/-- An attribute of an `OrnsteinUhlenbeck` object: a `(1, n)` row after `__init__`, a numpy scalar after
`fit` (`_ou.py:175-177`, `:249-251`). -/
inductive OUAttr
  | row (l : List ℝ)
  | scalar (r : ℝ)

/-- The parameters of an `OrnsteinUhlenbeck` object. -/
structure OUParams where
  mean : OUAttr
  mrr : OUAttr
  vol : List ℝ
  L : Option Arr

/-- As a row for broadcasting. -/
def OUAttr.toRow : OUAttr → List ℝ
  | .row l => l
  | .scalar r => [r]

/-- `attr.shape[1]`: a numpy scalar has the empty shape, so this is an `IndexError`. -/
def OUAttr.shape1 : OUAttr → Py Nat
  | .row l => .ok l.length
  | .scalar _ => .error .indexError

/-- One iteration of the OU loop: `ans[i + 1, :] += ans[i, :] * mrr_factor` (`_ou.py:285`). -/
def ouStep (f : Nat → ℝ) (a : Arr) (i : Nat) : Arr :=
  ⟨a.rows, a.cols, fun k =>
    if k / a.cols = i + 1 then a.data k + a.data (k - a.cols) * f (k % a.cols) else a.data k⟩

/-- The OU loop `for i in range(n)` (`_ou.py:284-285`). -/
def ouLoop (f : Nat → ℝ) (a : Arr) : Nat → Arr
  | 0 => a
  | n + 1 => ouStep f (ouLoop f a n) n

/-- `OrnsteinUhlenbeck._path_sample_np` (`_ou.py:255-287`). -/
noncomputable def ouSample (p : OUParams) (x0 : List ℝ) (dt : ℝ) (numSteps numPaths : Int)
    (z : Nat → ℝ) : Py Arr := do
  let factor := p.mrr.toRow.map fun r => Real.exp (-r * dt)
  let meanTerm ← bzip (fun m f => m * (1 - f)) p.mean.toRow factor
  let scale ← bzip (fun v r => Real.sqrt (v ^ 2 / (2 * r) * (1 - Real.exp (-2 * r * dt)))) p.vol p.mrr.toRow
  let v ← p.mean.shape1
  let ans ← increments v meanTerm scale p.L x0 numSteps numPaths z
  if ans.rows ≤ 1 then .ok ans
  else do
    let f ← bcastTo factor ans.cols
    .ok (ouLoop f ans (ans.rows - 1))

end Verif.Sim
