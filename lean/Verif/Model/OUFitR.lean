import Verif.Model.FitR

/-!
# Calibration of the Ornstein–Uhlenbeck process with rounding after every operation

As `ouFit` of `SimFit`, with every operation rounded by `fl`. The line found by `np.linalg.lstsq` (a singular value decomposition) is
an arbitrary function `lsq` of the data, which may depend on the column. A last slope of exactly one, for which the code divides by
zero and the parameters are infinite or `nan`, is outside the model (see C97 for it).
-/

namespace Verif.Sim

open Round

variable (fl : ℝ → ℝ)

open Classical in
/-- Slope and intercept of one column (`_ou.py:210-230`); `SLOPE_TOL` is the float next to `1e-8`. -/
noncomputable def ouLineR (lsq : List ℝ → List ℝ → ℝ × ℝ) (avg : List ℝ → SumTree) (c : List ℝ) : ℝ × ℝ :=
  let ab := lsq c.dropLast c.tail
  if ab.1 ≤ fl slopeTol then (fl slopeTol, lmeanR fl avg c.tail) else ab

/-- The residuals of one column (`_ou.py:233-236`). -/
noncomputable def ouResidualsR (lsq : List ℝ → List ℝ → ℝ × ℝ) (avg : List ℝ → SumTree) (c : List ℝ) : List ℝ :=
  List.zipWith (fun x y => fl (y - fl (fl ((ouLineR fl lsq avg c).1 * x) + (ouLineR fl lsq avg c).2))) c.dropLast c.tail

/-- `-np.log(slope) / dt` (`_ou.py:249`). -/
noncomputable def ouRateR (s dt : ℝ) : ℝ := fl (-fl (Real.log s) / dt)

/-- `intercept / (1 - slope)` (`_ou.py:250`). -/
noncomputable def ouLevelR (s b : ℝ) : ℝ := fl (b / fl (1 - s))

/-- `np.sqrt((2 * mrr * res_std**2) / (1 - slope**2))` (`_ou.py:251`). -/
noncomputable def ouVolR (s r σ : ℝ) : ℝ := fl (Real.sqrt (fl (fl (fl (2 * r) * fl (σ ^ 2)) / fl (1 - fl (s ^ 2)))))

/-- The residuals of all columns (`_ou.py:208-236`); `avg j` is the order in which the mean of column `j` is computed. -/
noncomputable def ouResColsR (lsq : Nat → List ℝ → List ℝ → ℝ × ℝ) (avg : Nat → List ℝ → SumTree) (x : Arr) : List (List ℝ) :=
  (columns x).mapIdx fun j c => ouResidualsR fl (lsq j) (avg j) c

open Classical in
/-- `OrnsteinUhlenbeck._fit_np` (`_ou.py:197-253`) for data with at least two rows. -/
noncomputable def ouFitR (lsq : Nat → List ℝ → List ℝ → ℝ × ℝ) (avg : Nat → List ℝ → SumTree) (o : FitOrders) (chol : Arr → Option Arr)
    (x : Arr) (dt : ℝ) : Py OUFit :=
  let res := ouResColsR fl lsq avg x
  let fitted (cor L : Option Arr) : Py OUFit :=
    match (columns x).getLast? with
    | none => .error .unboundLocalError
    | some c =>
      let ab := ouLineR fl (lsq (x.cols - 1)) (avg (x.cols - 1)) c
      let mrr := ouRateR fl ab.1 dt
      .ok ⟨ouLevelR fl ab.1 ab.2, mrr, res.mapIdx fun j r => (npStd1R fl (o.mean j) (o.sq j) r).map (ouVolR fl ab.1 mrr), cor, L⟩
  if 1 < x.cols then
    if ∃ j < x.cols, covR fl o res j j = 0 then .error .linAlgError
    else match chol (corrcoefR fl o res) with
      | none => .error .linAlgError
      | some L => fitted (some (corrcoefR fl o res)) (some L)
  else fitted none none

end Verif.Sim
