import Verif.Model.SimFit
import Verif.Model.XF

/-!
# `quantfinlib/sim`: samplers and calibration on floats with special values

`SimCore` and `SimFit` compute with real numbers. Here the same functions are modelled on floats with `nan` and infinities: missing or
non-positive data, special initial values, special parameters, a mean reversion rate of zero and a regression slope of one. On ordinary
numbers they agree with the other model (`Props/SimX.lean`). `dt` is a positive number (`_base.py:231-232`); draws and correlation
factors are numbers. `np.linalg.cholesky` of a matrix with a special value raises `LinAlgError`, as in LAPACK.
-/

namespace Verif.Sim

/-- A 2-d array of floats: shape and row-major memory. -/
structure XArr where
  rows : Nat
  cols : Nat
  data : Nat → XF

namespace XArr

/-- An array of numbers. -/
def ofArr (a : Arr) : XArr := ⟨a.rows, a.cols, fun k => .fin (a.data k)⟩

/-- `a[i, j]` -/
def get (a : XArr) (i j : Nat) : XF := a.data (i * a.cols + j)

/-- `np.zeros(shape=(r, c))` -/
def zeros (r c : Int) : Py XArr :=
  if r < 0 ∨ c < 0 then .error .valueError else .ok ⟨r.toNat, c.toNat, fun _ => .fin 0⟩

/-- `a[1:, :]` -/
def tail (a : XArr) : XArr := ⟨a.rows - 1, a.cols, fun k => a.data (k + a.cols)⟩

/-- The array after the view `a[1:, :]` has been overwritten by `b`. -/
def setTail (a b : XArr) : XArr := ⟨a.rows, a.cols, fun k => if k < a.cols then a.data k else b.data (k - a.cols)⟩

/-- `a.reshape(-1, v)` -/
def reshapeCols (a : XArr) (v : Nat) : Py XArr :=
  if v = 0 then .error .valueError
  else if a.rows * a.cols % v = 0 then .ok ⟨a.rows * a.cols / v, v, a.data⟩
  else .error .valueError

/-- The sum of the first entries of a column, from the top. -/
noncomputable def cumCol (a : XArr) (j : Nat) : Nat → XF
  | 0 => a.get 0 j
  | i + 1 => cumCol a j i + a.get (i + 1) j

/-- `np.cumsum(a, axis=0)` -/
noncomputable def cumsum (a : XArr) : XArr := ⟨a.rows, a.cols, fun k => cumCol a (k % a.cols) (k / a.cols)⟩

/-- An elementwise function. -/
def map (f : XF → XF) (a : XArr) : XArr := ⟨a.rows, a.cols, fun k => f (a.data k)⟩

/-- Column `j`. -/
def col (a : XArr) (j : Nat) : List XF := (List.range a.rows).map fun i => a.get i j

/-- The columns. -/
def columns (a : XArr) : List (List XF) := (List.range a.cols).map a.col

end XArr

/-- Entry `j` of a row under broadcasting. -/
def xentry (l : List XF) (j : Nat) : XF := if l.length = 1 then l.getD 0 .nan else l.getD j .nan

/-- Broadcasting a row into an array with `v` columns. -/
def xbcast (l : List XF) (v : Nat) : Py (Nat → XF) :=
  if l.length = v ∨ l.length = 1 then .ok (xentry l) else .error .valueError

/-- A binary operation on rows. -/
def xzip (f : XF → XF → XF) (l m : List XF) : Py (List XF) :=
  if l.length = m.length then .ok (List.zipWith f l m)
  else if l.length = 1 then .ok (m.map (f (l.getD 0 .nan)))
  else if m.length = 1 then .ok (l.map fun x => f x (m.getD 0 .nan))
  else .error .valueError

/-- `SimBase.set_x0` (`_base.py:319-322`). -/
def setX0X (ans : XArr) (x0 : List XF) : Py XArr :=
  if x0.length = 0 then .error .zeroDivisionError
  else if ans.rows = 0 then .error .indexError
  else if ans.cols / x0.length * x0.length = ans.cols then
    .ok ⟨ans.rows, ans.cols, fun k => if k < ans.cols then x0.getD (k % x0.length) .nan else ans.data k⟩
  else .error .valueError

/-- `_fill_with_correlated_noise` (`_base.py:57-75`): the draws and the correlation factor are numbers. -/
noncomputable def fillNoiseX (ans : XArr) (loc scale : List XF) (L : Option Arr) (z : Nat → ℝ) : Py XArr := do
  let a ← applyL ⟨ans.rows, ans.cols, z⟩ L
  let s ← xbcast scale a.cols
  let m ← xbcast loc a.cols
  .ok ⟨a.rows, a.cols, fun k => .fin (a.data k) * s (k % a.cols) + m (k % a.cols)⟩

/-- The attributes of a `BrownianMotion` or `GeometricBrownianMotion` object. -/
structure BMParamsX where
  drift : List XF
  vol : List XF
  L : Option Arr

/-- The array before compounding (`_bm.py:203-213`, `_gbm.py:211-226`). -/
noncomputable def incrementsX (v : Nat) (loc scale : List XF) (L : Option Arr) (x0 : List XF) (numSteps numPaths : Int)
    (z : Nat → ℝ) : Py XArr := do
  let ans ← XArr.zeros (numSteps + 1) (v * numPaths)
  let ans ← setX0X ans x0
  let dx ← ans.tail.reshapeCols v
  let dx ← fillNoiseX dx loc scale L z
  .ok (ans.setTail dx)

/-- `BrownianMotion._path_sample_np` (`_bm.py:190-218`). -/
noncomputable def bmSampleX (p : BMParamsX) (x0 : List XF) (dt : ℝ) (numSteps numPaths : Int) (z : Nat → ℝ) : Py XArr := do
  let ans ← incrementsX p.drift.length (p.drift.map (· * .fin dt)) (p.vol.map (· * .fin (Real.sqrt dt))) p.L x0 numSteps numPaths z
  .ok ans.cumsum

/-- `GeometricBrownianMotion._path_sample_np` (`_gbm.py:198-231`). -/
noncomputable def gbmSampleX (p : BMParamsX) (x0 : List XF) (dt : ℝ) (numSteps numPaths : Int) (z : Nat → ℝ) : Py XArr := do
  let ans ← XArr.zeros (numSteps + 1) (p.drift.length * numPaths)
  let _ ← setX0X ans (x0.map XF.log)
  let _ ← ans.tail.reshapeCols p.drift.length
  let loc ← xzip (fun d v => (d - .fin (1 / 2) * (v * v)) * .fin dt) p.drift p.vol
  let ans ← incrementsX p.drift.length loc (p.vol.map (· * .fin (Real.sqrt dt))) p.L (x0.map XF.log) numSteps numPaths z
  .ok (ans.cumsum.map XF.exp)

/-- The attributes of an `OrnsteinUhlenbeck` object after `__init__`. -/
structure OUParamsX where
  mean : List XF
  mrr : List XF
  vol : List XF
  L : Option Arr

/-- One iteration of the loop `ans[i + 1, :] += ans[i, :] * mrr_factor` (`_ou.py:285`). -/
noncomputable def ouStepX (f : Nat → XF) (a : XArr) (i : Nat) : XArr :=
  ⟨a.rows, a.cols, fun k => if k / a.cols = i + 1 then a.data k + a.data (k - a.cols) * f (k % a.cols) else a.data k⟩

/-- The loop (`_ou.py:284-285`). -/
noncomputable def ouLoopX (f : Nat → XF) (a : XArr) : Nat → XArr
  | 0 => a
  | n + 1 => ouStepX f (ouLoopX f a n) n

/-- `OrnsteinUhlenbeck._path_sample_np` (`_ou.py:255-287`). -/
noncomputable def ouSampleX (p : OUParamsX) (x0 : List XF) (dt : ℝ) (numSteps numPaths : Int) (z : Nat → ℝ) : Py XArr := do
  let factor := p.mrr.map fun r => (-r * .fin dt).exp
  let meanTerm ← xzip (fun m f => m * (.fin 1 - f)) p.mean factor
  let scale ← xzip (fun v r => (v * v / (.fin 2 * r) * (.fin 1 - (.fin (-2) * r * .fin dt).exp)).sqrt) p.vol p.mrr
  let ans ← incrementsX p.mean.length meanTerm scale p.L x0 numSteps numPaths z
  if ans.rows ≤ 1 then .ok ans
  else do
    let f ← xbcast factor ans.cols
    .ok (ouLoopX f ans (ans.rows - 1))

/-! ### Calibration -/

/-- `np.diff` of a column. -/
noncomputable def diffsX : List XF → List XF
  | a :: b :: l => (b - a) :: diffsX (b :: l)
  | _ => []

/-- `np.log(x[1:] / x[:-1])` of a column. -/
noncomputable def logRatiosX : List XF → List XF
  | a :: b :: l => (b / a).log :: logRatiosX (b :: l)
  | _ => []

/-- `np.sum` -/
noncomputable def xsum (l : List XF) : XF := l.foldl (· + ·) (.fin 0)

/-- `np.mean` -/
noncomputable def xmean (l : List XF) : XF := xsum l / .fin l.length

/-- Products of deviations from the means, summed. -/
noncomputable def xcross (l m : List XF) : XF := xsum (List.zipWith (fun x y => (x - xmean l) * (y - xmean m)) l m)

/-- `np.std(ddof=1)`: the divisor is `max(n - 1, 0)`. -/
noncomputable def xstd1 (l : List XF) : XF := (xcross l l / .fin ((l.length - 1 : ℕ) : ℝ)).sqrt

/-- `np.clip(x, -1, 1)` -/
noncomputable def xclip : XF → XF
  | .nan => .nan
  | .pinf => .fin 1
  | .ninf => .fin (-1)
  | .fin r => .fin (clip1 r)

/-- An entry of `np.corrcoef(dx, rowvar=False)`. The divisor `n - 1` of the covariances cancels and is left out. -/
noncomputable def xcor (dx : List (List XF)) (i j : Nat) : XF :=
  xclip (xcross (dx.getD i []) (dx.getD j []) / (xcross (dx.getD i []) (dx.getD i [])).sqrt / (xcross (dx.getD j []) (dx.getD j [])).sqrt)

open Classical in
/-- `self.cor = np.corrcoef(…)` and `np.linalg.cholesky(self.cor)`. -/
noncomputable def xchol (chol : Arr → Option Arr) (dx : List (List XF)) : Option (Arr × Arr) :=
  if ∀ i < dx.length, ∀ j < dx.length, (xcor dx i j).real? ≠ none then
    let c : Arr := ⟨dx.length, dx.length, fun k => ((xcor dx (k / dx.length) (k % dx.length)).real?).getD 0⟩
    (chol c).map fun L => (c, L)
  else none

/-- The fitted attributes. -/
structure BMFitX where
  drift : List XF
  vol : List XF
  cor : Option Arr
  L : Option Arr

open Classical in
/-- The common part of `BrownianMotion._fit_np` (`_bm.py:165-188`) and `GeometricBrownianMotion._fit_np` (`_gbm.py:173-196`). -/
noncomputable def fitIncrementsX (chol : Arr → Option Arr) (dx : List (List XF)) (dt : ℝ) : Py BMFitX :=
  let drift := dx.map fun l => xmean l / .fin dt
  let vol := dx.map fun l => xstd1 l / .fin (Real.sqrt dt)
  if 1 < dx.length then
    if ∃ v ∈ vol, XF.eq v (.fin 0) then .error .valueError
    else match xchol chol dx with
      | none => .error .linAlgError
      | some (c, L) => .ok ⟨drift, vol, some c, some L⟩
  else .ok ⟨drift, vol, none, none⟩

/-- `BrownianMotion._fit_np` (`_bm.py:165-188`). -/
noncomputable def bmFitX (chol : Arr → Option Arr) (x : XArr) (dt : ℝ) : Py BMFitX :=
  fitIncrementsX chol (x.columns.map diffsX) dt

/-- `GeometricBrownianMotion._fit_np` (`_gbm.py:173-196`). -/
noncomputable def gbmFitX (chol : Arr → Option Arr) (x : XArr) (dt : ℝ) : Py BMFitX :=
  fitIncrementsX chol (x.columns.map logRatiosX) dt

/-- The fitted attributes of `OrnsteinUhlenbeck`. -/
structure OUFitX where
  mean : XF
  mrr : XF
  vol : List XF

/-- The parameters from slope, intercept and residual deviations (`_ou.py:246-251`). -/
noncomputable def ouFinish (slope intercept : ℝ) (std : List XF) (dt : ℝ) : OUFitX :=
  let mrr := -(XF.fin slope).log / .fin dt
  ⟨.fin intercept / (.fin 1 - .fin slope), mrr, std.map fun s => ((.fin 2 * mrr * (s * s)) / (.fin 1 - .fin (slope ^ 2))).sqrt⟩

/-- `OrnsteinUhlenbeck._fit_np` (`_ou.py:197-253`) on one column of at least two numbers, slopes of one included. -/
noncomputable def ouFitX (c : List ℝ) (dt : ℝ) : OUFitX :=
  ouFinish (ouLine c).1 (ouLine c).2 [xstd1 ((ouResiduals c).map .fin)] dt

end Verif.Sim
