import Verif.Model.CorrDist
import Verif.Model.Cov

/-!
# Conversions with rounding after every operation

The functions of `distance/correlation.py` and `math/cov.py` that consist of single float operations, for a rounding `fl`: every
operation computes the exact result and rounds it. Comparisons, `abs`, `max`, `clip` and negation are exact.
-/

namespace Verif.Round

open Verif.Dist (Method sqrtO clipX)
open Verif.Cov (Mat)
open Verif.Sim (clip1)

variable {n : Nat} (fl : ℝ → ℝ)

/-- `_conversion_function` (`correlation.py:42-50`) of a number. -/
noncomputable def convertR (meth : Method) (x : ℝ) : Option ℝ :=
  match meth with
  | .angular => (sqrtO (fl (fl (1 - x) / 2))).map fl
  | .absAngular => (sqrtO (fl (1 - |x|))).map fl
  | .squaredAngular => (sqrtO (fl (1 - fl (x ^ 2)))).map fl

/-- One element of the distance (`correlation.py:34-36`). -/
noncomputable def distOfR (meth : Method) (x : XF) : Option ℝ :=
  ((clipX (-1) 1 x).bind (convertR fl meth)).map fun d => min (max d 0) 1

/-- `std` of `_cov_to_cor` (`cov.py:75`). -/
noncomputable def covStdR (cov : Mat n) (reg : ℝ) (i : Fin n) : ℝ := fl (Real.sqrt (max (cov i i) reg))

/-- `_cov_to_cor` (`cov.py:59-79`). -/
noncomputable def covToCorR (cov : Mat n) (reg : ℝ) : Mat n × (Fin n → ℝ) :=
  (fun i j => clip1 (fl (cov i j / fl (covStdR fl cov reg i * covStdR fl cov reg j))), covStdR fl cov reg)

/-- `_cor_to_cov` (`cov.py:82-98`). -/
noncomputable def corToCovR (cor : Mat n) (std : Fin n → ℝ) : Mat n := fun i j => fl (cor i j * fl (std i * std j))

end Verif.Round
