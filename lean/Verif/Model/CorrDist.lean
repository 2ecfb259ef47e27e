import Verif.Prelude
import Verif.Model.XF
import Mathlib.Analysis.Real.Sqrt

/-!
# `quantfinlib/distance/correlation.py` and the correlation part of `distance_matrix.py`

Values are idealised floats (`XF`); after clipping they are `Option ℝ`, where `none` is `nan`. A table is its number of
rows and columns with a function giving the entries. Labels of data frames are not modelled: the code hands them
through pandas operations that keep them.
-/

namespace Verif.Dist

/-- The methods of `_conversion_function` (`correlation.py:42-50`). -/
inductive Method
  | angular
  | absAngular
  | squaredAngular
  deriving DecidableEq

/-- A two-dimensional table of floats. -/
structure Table where
  rows : Nat
  cols : Nat
  at_ : Nat → Nat → XF

/-- The argument `corr`: a number, an array that has not two dimensions, a matrix, a data frame, a list of lists of
equal lengths, or a value that is not numeric (a string, `None`). -/
inductive CorrArg
  | scalar (x : XF)
  | oddArray
  | array (m : Table)
  | frame (m : Table)
  | nested (m : Table)
  | otherValue

/-- The result: a number, a matrix or a data frame; `none` is `nan`. -/
inductive DistRes
  | scalar (x : Option ℝ)
  | array (r c : Nat) (m : Nat → Nat → Option ℝ)
  | frame (r c : Nat) (m : Nat → Nat → Option ℝ)

/-- `np.clip(values, lo, hi)` (`correlation.py:15-17`). -/
noncomputable def clipX (lo hi : ℝ) : XF → Option ℝ
  | .nan => none
  | .pinf => some hi
  | .ninf => some lo
  | .fin r => some (min (max r lo) hi)

/-- The square root of a float: `nan` below zero. -/
noncomputable def sqrtO (y : ℝ) : Option ℝ := if y < 0 then none else some (Real.sqrt y)

/-- `_conversion_function` (`correlation.py:42-50`) of a number. The branch raising `NotImplementedError` is not
reachable from the three public functions. -/
noncomputable def convert (meth : Method) (x : ℝ) : Option ℝ :=
  match meth with
  | .angular => sqrtO ((1 - x) / 2)
  | .absAngular => sqrtO (1 - |x|)
  | .squaredAngular => sqrtO (1 - x ^ 2)

/-- One element of `np.isclose(a, b)` with the default tolerances. -/
def isClose : XF → XF → Prop
  | .fin a, .fin b => |a - b| ≤ 1 / 10 ^ 8 + 1 / 10 ^ 5 * |b|
  | .pinf, .pinf => True
  | .ninf, .ninf => True
  | _, _ => False

/-- `_validate_correlation_matrix` (`correlation.py:20-26`) of a matrix. -/
def ValidMatrix (m : Table) : Prop :=
  m.rows = m.cols ∧ (∀ i j, i < m.rows → j < m.rows → isClose (m.at_ i j) (m.at_ j i)) ∧
  ∀ i, i < m.rows → m.at_ i i = .fin 1

/-- One element of the distance before the diagonal is fixed (`correlation.py:34-36`). -/
noncomputable def distOf (meth : Method) (x : XF) : Option ℝ :=
  ((clipX (-1) 1 x).bind (convert meth)).map fun d => min (max d 0) 1

open Classical in
/-- `_convert_correlation_to_distance` (`correlation.py:29-39`), the body of `corr_to_angular_dist`,
`corr_to_abs_angular_dist` and `corr_to_squared_angular_dist` (`correlation.py:53-107`). Only arrays are validated. The
second type test (line 37) sees the result of `np.clip`, which is an array also for a list of lists; a data frame does
not get its diagonal fixed. -/
noncomputable def corrToDistance (meth : Method) : CorrArg → Py DistRes
  | .scalar x => .ok (.scalar (distOf meth x))
  | .oddArray => .error .assertionError
  | .array m =>
    if ValidMatrix m then
      .ok (.array m.rows m.cols fun i j => if i = j then some 0 else distOf meth (m.at_ i j))
    else .error .assertionError
  | .frame m => .ok (.frame m.rows m.cols fun i j => distOf meth (m.at_ i j))
  | .nested m => .ok (.array m.rows m.cols fun i j => if i = j then some 0 else distOf meth (m.at_ i j))
  | .otherValue => .error .typeError

/-! ### Pairs of samples -/

/-- The mean of a list. -/
noncomputable def mean (l : List ℝ) : ℝ := l.sum / l.length

/-- `sum((x - mean(x)) * (y - mean(y)))`. -/
noncomputable def coSum (x y : List ℝ) : ℝ := (List.zipWith (fun a b => (a - mean x) * (b - mean y)) x y).sum

/-- `np.corrcoef(x, y)[0, 1]` for one-dimensional arrays of finite numbers: `ValueError` for different lengths, `nan`
if a sample is constant (or has fewer than two elements), otherwise the sample correlation clipped to `[-1, 1]`. The
factor `1 / (n - 1)` of the covariances cancels. -/
noncomputable def corrcoef (x y : List ℝ) : Py XF :=
  if x.length ≠ y.length then .error .valueError
  else if coSum x x = 0 ∨ coSum y y = 0 then .ok .nan
  else .ok (.fin (min (max (coSum x y / (Real.sqrt (coSum x x) * Real.sqrt (coSum y y))) (-1)) 1))

/-- `pair_angular_distance`, `pair_abs_angular_distance` and `pair_squared_angular_distance`
(`correlation.py:110-164`). -/
noncomputable def pairDistance (meth : Method) (x y : List ℝ) : Py (Option ℝ) := do
  let c ← corrcoef x y
  .ok (distOf meth c)

/-! ### `distance_matrix.py` -/

/-- The keys of `CORR_TO_DIST_METHOD_MAP` (`distance_matrix.py:25-29`), also the names accepted by
`_check_corr_to_dist_method` (`distance_matrix.py:101-107`). -/
def parseMethod (s : String) : Option Method :=
  if s = "angular" then some .angular
  else if s = "abs_angular" then some .absAngular
  else if s = "squared_angular" then some .squaredAngular
  else none

/-- `validate_frame_or_2Darray` (`util/_validate.py:47-80`): a data frame or a matrix with at least two columns. -/
def validate2D : CorrArg → Py Unit
  | .scalar _ => .error .valueError
  | .nested _ => .error .valueError
  | .otherValue => .error .valueError
  | .oddArray => .error .valueError
  | .array m => if m.cols < 2 then .error .valueError else .ok ()
  | .frame m => if m.cols < 2 then .error .valueError else .ok ()

/-- `corr_to_dist` (`distance_matrix.py:144-162`). -/
noncomputable def corrToDist (corr : CorrArg) (method : String) : Py DistRes := do
  validate2D corr
  match parseMethod method with
  | none => .error .assertionError
  | some meth => corrToDistance meth corr

/-- `_calculate_correlation` (`distance_matrix.py:85-93`). `pdCorr` is `DataFrame.corr` with the given method and
keyword arguments. -/
def calculateCorrelation (pdCorr : Table → String → Table) (x : CorrArg) (method : String) : Py CorrArg := do
  validate2D x
  match x with
  | .array m => .ok (.array (pdCorr m method))
  | .frame m => .ok (.frame (pdCorr m method))
  | _ => .error .valueError

/-- `get_corr_distance_matrix` (`distance_matrix.py:110-141`) with `_check_corr_calculation_method` (96-98). -/
noncomputable def corrDistanceMatrix (pdCorr : Table → String → Table) (transformer : Option (CorrArg → CorrArg))
    (x : CorrArg) (corrMethod method : String) : Py DistRes := do
  if corrMethod = "pearson" ∨ corrMethod = "spearman" then
    let corr ← calculateCorrelation pdCorr x corrMethod
    corrToDist (match transformer with | none => corr | some f => f corr) method
  else .error .assertionError

end Verif.Dist
