import Verif.Model.FitR
import Verif.Model.SimR
import Verif.Model.SimBase
import Mathlib.Analysis.SpecialFunctions.Trigonometric.Basic

/-!
# Likelihoods with rounding after every operation

As `bmNll`, `gbmNll` of `SimFit`, `ouNllFull` and `scoreValue` of `SimBase`, with every operation rounded by `fl`; `ord` is the order of the sum.
`norm.logpdf` is written out as in scipy: the argument is standardised, the logarithm of the standard normal density taken, and the
logarithm of the scale subtracted.
-/

namespace Verif.Sim

open Round

variable (fl : ℝ → ℝ)

/-- scipy's `_norm_pdf_logC = np.log(np.sqrt(2 * np.pi))`. -/
noncomputable def logCR : ℝ := fl (Real.log (fl (Real.sqrt (fl (2 * fl Real.pi)))))

/-- `norm(loc=m, scale=s).logpdf(x)` for `s > 0`: `_norm_logpdf((x - m) / s) - np.log(s)`, `_norm_logpdf(z) = -z**2 / 2.0 - _norm_pdf_logC`. -/
noncomputable def logpdfR (m s x : ℝ) : ℝ :=
  let z := fl (fl (x - m) / s)
  fl (fl (fl (-fl (z ^ 2) / 2) - logCR fl) - fl (Real.log s))

/-- `-1 * np.sum(var.logpdf(dx))` for one column of increments (`_bm.py:231`, `_gbm.py:243`). -/
noncomputable def nllColR (ord : List ℝ → SumTree) (m s : ℝ) (dx : List ℝ) : ℝ := -(ord (dx.map (logpdfR fl m s))).eval fl

/-- `BrownianMotion._nll` (`_bm.py:220-231`) for one variate and positive volatility. -/
noncomputable def bmNllR (ord : List ℝ → SumTree) (drift vol dt : ℝ) (x : List ℝ) : ℝ :=
  nllColR fl ord (fl (drift * dt)) (fl (vol * fl (Real.sqrt dt))) (diffsR fl x)

/-- `GeometricBrownianMotion._nll` (`_gbm.py:232-243`) for one variate and positive volatility. -/
noncomputable def gbmNllR (ord : List ℝ → SumTree) (drift vol dt : ℝ) (x : List ℝ) : ℝ :=
  nllColR fl ord (fl (drift - fl (0.5 * fl (vol ^ 2)))) (fl (vol * fl (Real.sqrt dt))) (logRatiosR fl x)

/-- `OrnsteinUhlenbeck._nll` (`_ou.py:289-306`) for one variate, positive rate and volatility. -/
noncomputable def ouNllR (ord : List ℝ → SumTree) (mean r vol dt : ℝ) (x : List ℝ) : ℝ :=
  let f := ouFactorR fl r dt
  nllColR fl ord (ouMeanR fl mean f) (ouScaleR fl vol r dt) (List.zipWith (fun a b => fl (b - fl (f * a))) x.dropLast x.tail)

/-- `-1 * np.sum(norm(loc=mean_, scale=std_).logpdf(dx))` for increments `dx` with `n` rows and `d` columns: the mean and the scale belong
to the column, the densities are added up in any order (`_bm.py:230-231`, `_gbm.py:242-243`, `_ou.py:305-306`). -/
noncomputable def nllMatR (ord : List ℝ → SumTree) (m s : Nat → ℝ) (n d : Nat) (dx : Nat → Nat → ℝ) : ℝ :=
  -(ord ((List.range (n * d)).map fun i => logpdfR fl (m (i % d)) (s (i % d)) (dx (i / d) (i % d)))).eval fl

/-- `BrownianMotion._nll` (`_bm.py:220-231`) without `cor`, for one drift and one positive volatility per column. -/
noncomputable def bmNllMatR (ord : List ℝ → SumTree) (drift vol : List ℝ) (dt : ℝ) (x : Arr) : ℝ :=
  nllMatR fl ord (fun j => fl (drift.getD j 0 * dt)) (fun j => fl (vol.getD j 0 * fl (Real.sqrt dt))) (x.rows - 1) x.cols
    fun t j => fl (x.get (t + 1) j - x.get t j)

/-- `GeometricBrownianMotion._nll` (`_gbm.py:232-243`) without `cor`, for one drift and one positive volatility per column. -/
noncomputable def gbmNllMatR (ord : List ℝ → SumTree) (drift vol : List ℝ) (dt : ℝ) (x : Arr) : ℝ :=
  nllMatR fl ord (fun j => fl (drift.getD j 0 - fl (0.5 * fl (vol.getD j 0 ^ 2)))) (fun j => fl (vol.getD j 0 * fl (Real.sqrt dt)))
    (x.rows - 1) x.cols fun t j => fl (Real.log (fl (x.get (t + 1) j / x.get t j)))

/-- `OrnsteinUhlenbeck._nll` (`_ou.py:289-306`) without `cor`, for one mean, positive rate and positive volatility per column. -/
noncomputable def ouNllMatR (ord : List ℝ → SumTree) (mean mrr vol : List ℝ) (dt : ℝ) (x : Arr) : ℝ :=
  nllMatR fl ord (fun j => ouMeanR fl (mean.getD j 0) (ouFactorR fl (mrr.getD j 0) dt)) (fun j => ouScaleR fl (vol.getD j 0) (mrr.getD j 0) dt)
    (x.rows - 1) x.cols fun t j => fl (x.get (t + 1) j - fl (ouFactorR fl (mrr.getD j 0) dt * x.get t j))

/-- The value of a score from the number `k` of parameters, of samples and the likelihood (`_base.py:439`, `:459`, `:478`). -/
noncomputable def scoreValueR (k n : Nat) (l : ℝ) : Score → ℝ
  | .nll => l
  | .aic => fl (2 * k + fl (fl (2 * l) * n))
  | .bic => fl (fl (fl (2 * fl (Real.log n)) * k) + fl (fl (2 * l) * n))

end Verif.Sim
