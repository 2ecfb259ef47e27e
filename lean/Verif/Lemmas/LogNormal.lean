import Verif.Spec.SimLaw
import Mathlib.Probability.Distributions.Gaussian.IsGaussianProcess.Basic
import Mathlib.Probability.Moments.Basic
import Mathlib.Probability.Moments.Covariance

/-!
# Moments of exponentials of Gaussian variables
-/

namespace Verif.Sim

open MeasureTheory ProbabilityTheory

variable {Ω : Type*} [MeasurableSpace Ω] {P : Measure Ω} {X Y : Ω → ℝ}

theorem exp_integrable (h : HasGaussianLaw X P) : Integrable (fun ω => Real.exp (X ω)) P := by
  have hP := h.isProbabilityMeasure
  have hm := mgf_gaussianReal h.map_eq_gaussianReal 1
  by_contra hn
  have : mgf X P 1 = 0 := by
    unfold mgf
    rw [integral_undef]
    simpa using hn
  rw [this] at hm
  exact absurd hm (Real.exp_pos _).ne

theorem exp_mean (h : HasGaussianLaw X P) : ∫ ω, Real.exp (X ω) ∂P = Real.exp (∫ ω, X ω ∂P + Var[X; P] / 2) := by
  have hm := mgf_gaussianReal h.map_eq_gaussianReal 1
  unfold mgf at hm
  simp only [one_mul, mul_one, one_pow] at hm
  rw [hm, Real.coe_toNNReal _ (variance_nonneg _ _)]

theorem exp_memLp (h : HasGaussianLaw X P) : MemLp (fun ω => Real.exp (X ω)) 2 P := by
  have hP := h.isProbabilityMeasure
  refine (memLp_two_iff_integrable_sq (Real.measurable_exp.comp_aemeasurable h.aemeasurable).aestronglyMeasurable).mpr ?_
  have h2 : HasGaussianLaw (fun ω => (2 : ℝ) * X ω) P := h.fun_smul 2
  have := exp_integrable h2
  refine this.congr (.of_forall fun ω => ?_)
  show Real.exp (2 * X ω) = Real.exp (X ω) ^ 2
  rw [← Real.exp_nat_mul]
  norm_num

theorem exp_cov (h : HasGaussianLaw (fun ω => (X ω, Y ω)) P) :
    cov[fun ω => Real.exp (X ω), fun ω => Real.exp (Y ω); P] =
      (∫ ω, Real.exp (X ω) ∂P) * (∫ ω, Real.exp (Y ω) ∂P) * (Real.exp cov[X, Y; P] - 1) := by
  have hP := h.isProbabilityMeasure
  have hX := h.fst
  have hY := h.snd
  have hS : HasGaussianLaw (fun ω => X ω + Y ω) P := h.fun_add
  rw [covariance_eq_sub (exp_memLp hX) (exp_memLp hY)]
  have e : ∫ ω, ((fun ω => Real.exp (X ω)) * fun ω => Real.exp (Y ω)) ω ∂P = ∫ ω, Real.exp (X ω + Y ω) ∂P := by
    refine integral_congr_ae (.of_forall fun ω => ?_)
    simp only [Pi.mul_apply, Real.exp_add]
  have hv := variance_fun_add hX.memLp_two hY.memLp_two
  rw [e, exp_mean hS, exp_mean hX, exp_mean hY, integral_add hX.integrable hY.integrable, hv, mul_sub, mul_one,
    ← Real.exp_add, ← Real.exp_add]
  congr 2
  ring

end Verif.Sim
