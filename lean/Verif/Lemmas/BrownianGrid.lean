import Verif.Lemmas.SimLaw
import Verif.Lemmas.LogNormal
import Mathlib.Probability.Distributions.Gaussian.IsGaussianProcess.Independence
import Mathlib.Probability.ConditionalExpectation
import Mathlib.MeasureTheory.Function.ConditionalExpectation.PullOut

/-!
# Consequences of the moments of a Brownian grid
-/

namespace Verif.Sim

open MeasureTheory ProbabilityTheory

variable {Ω : Type*} [MeasurableSpace Ω] {P : Measure Ω} {s n v : Nat}

omit [MeasurableSpace Ω] in
theorem history_adapted (X : Idx n v s → Ω → ℝ) {t : Fin (s + 1)} {τ : Idx n v s} (h : τ.2.2 ≤ t) :
    Measurable[history X t] (X τ) := by
  have h1 : Measurable[history X t] fun ω (τ : {τ : Idx n v s // τ.2.2 ≤ t}) => X τ ω := comap_measurable _
  have h2 : Measurable fun f : {τ : Idx n v s // τ.2.2 ≤ t} → ℝ => f ⟨τ, h⟩ := measurable_pi_apply _
  exact h2.comp h1

theorem history_le {X : Idx n v s → Ω → ℝ} (hX : ∀ τ, Measurable (X τ)) (t : Fin (s + 1)) :
    history X t ≤ ‹MeasurableSpace Ω› := by
  have : Measurable fun ω (τ : {τ : Idx n v s // τ.2.2 ≤ t}) => X τ ω := measurable_pi_lambda _ fun τ => hX _
  exact this.comap_le

namespace BrownianGrid

variable {X : Idx n v s → Ω → ℝ} {x m : Fin n → Fin v → ℝ} {C : Fin v → Fin v → ℝ}

theorem memLp (h : BrownianGrid P X x m C) (τ : Idx n v s) : MemLp (X τ) 2 P := (h.gaussian.hasGaussianLaw_eval τ).memLp_two

/-- The law of one value. -/
theorem marginal (h : BrownianGrid P X x m C) (q : Fin n) (j : Fin v) (t : Fin (s + 1)) :
    HasLaw (X (q, j, t)) (gaussianReal (x q j + m q j * t) (C j j * t).toNNReal) P := by
  have hg := h.gaussian.hasGaussianLaw_eval (q, j, t)
  refine ⟨hg.aemeasurable, ?_⟩
  rw [hg.map_eq_gaussianReal, h.mean, ← covariance_self hg.aemeasurable, h.cov]
  simp

/-- The law of an increment. -/
theorem increment (h : BrownianGrid P X x m C) (q : Fin n) (j : Fin v) {t t' : Fin (s + 1)} (ht : t ≤ t') :
    HasLaw (fun ω => X (q, j, t') ω - X (q, j, t) ω)
      (gaussianReal (m q j * (t' - t : ℕ)) (C j j * (t' - t : ℕ)).toNNReal) P := by
  have hP := h.gaussian.isProbabilityMeasure
  have hg := h.gaussian.hasGaussianLaw_fun_sub (s := (q, j, t')) (t := (q, j, t))
  have hi : ∀ τ, Integrable (X τ) P := fun τ => (h.memLp τ).integrable (by norm_num)
  have htt : ((t' - t : ℕ) : ℝ) = t' - t := by rw [Nat.cast_sub (Fin.le_def.mp ht)]
  refine ⟨hg.aemeasurable, ?_⟩
  rw [hg.map_eq_gaussianReal, integral_sub (hi _) (hi _), h.mean, h.mean, variance_fun_sub (h.memLp _) (h.memLp _),
    ← covariance_self (h.memLp _).aemeasurable, ← covariance_self (h.memLp _).aemeasurable, h.cov, h.cov, h.cov, htt]
  simp only [if_true, min_self, min_eq_right ht]
  congr 1
  · ring
  · congr 1; ring

/-- Different paths are independent. -/
theorem paths_independent (h : BrownianGrid P X x m C) : iIndepFun (fun (q : Fin n) ω (τ : Fin v × Fin (s + 1)) => X (q, τ) ω) P := by
  refine IsGaussianProcess.iIndepFun_of_covariance_eq_zero (T := Fin n) (S := fun _ => Fin v × Fin (s + 1))
    (X := fun q τ => X (q, τ)) ?_ (fun q τ => (h.memLp _).aemeasurable) fun q q' hq τ τ' => ?_
  · exact h.gaussian.comp_right fun y : (_ : Fin n) × (Fin v × Fin (s + 1)) => ((y.1, y.2) : Idx n v s)
  · rw [h.cov, if_neg hq]

/-- The increments after row `t` are independent of the rows up to `t`. -/
theorem increments_independent (h : BrownianGrid P X x m C) (t : Fin (s + 1)) :
    IndepFun (fun ω (τ : {τ : Idx n v s // τ.2.2 ≤ t}) => X τ ω)
      (fun ω (τ : {τ : Idx n v s // t ≤ τ.2.2}) => X τ ω - X (τ.1.1, τ.1.2.1, t) ω) P := by
  have hP : ∀ τ : Idx n v s, IsProbabilityMeasure P := fun τ => h.gaussian.isProbabilityMeasure
  refine IsGaussianProcess.indepFun_of_covariance_eq_zero (X := fun (τ : {τ : Idx n v s // τ.2.2 ≤ t}) ω => X τ ω)
    (Y := fun (τ : {τ : Idx n v s // t ≤ τ.2.2}) ω => X τ ω - X (τ.1.1, τ.1.2.1, t) ω)
    ?_ (fun τ => (h.memLp _).aemeasurable) (fun τ => ((h.memLp _).sub (h.memLp _)).aemeasurable) fun τ τ' => ?_
  · classical
    refine h.gaussian.of_isGaussianProcess fun y => ?_
    rcases y with τ | τ
    · exact ⟨{τ.1}, ContinuousLinearMap.proj ⟨τ.1, by simp⟩, fun ω => rfl⟩
    · exact ⟨{τ.1, (τ.1.1, τ.1.2.1, t)}, ContinuousLinearMap.proj ⟨τ.1, by simp⟩ -
        ContinuousLinearMap.proj ⟨(τ.1.1, τ.1.2.1, t), by simp⟩, fun ω => rfl⟩
  · have := hP τ
    rw [covariance_fun_sub_right (h.memLp _) (h.memLp _) (h.memLp _), h.cov, h.cov]
    simp only
    rw [min_eq_left τ.2, min_eq_left (τ.2.trans τ'.2), sub_self]

/-- Two such families with the same parameters have the same law. -/
theorem sameLaw (h : BrownianGrid P X x m C) {Ω' : Type*} [MeasurableSpace Ω'] {Q : Measure Ω'} {Y : Idx n v s → Ω' → ℝ}
    (h' : BrownianGrid Q Y x m C) : SameLaw X P Y Q :=
  sameLaw_of_moments h.gaussian h'.gaussian (fun τ => by rw [h.mean, h'.mean]) fun τ τ' => by rw [h.cov, h'.cov]

/-- Every `k`-th row of such a family. -/
theorem thin {k : Nat} {X : Idx n v (s * k) → Ω → ℝ} (h : BrownianGrid P X x m C) :
    BrownianGrid P (fun (τ : Idx n v s) => X (τ.1, τ.2.1, ⟨τ.2.2 * k, by
      have := Nat.mul_le_mul_right k (Nat.le_of_lt_succ τ.2.2.2); omega⟩)) x (fun q j => m q j * k) fun i j => C i j * k := by
  refine ⟨h.gaussian.comp_right fun τ : Idx n v s => ((τ.1, τ.2.1, ⟨τ.2.2 * k, by
      have := Nat.mul_le_mul_right k (Nat.le_of_lt_succ τ.2.2.2); omega⟩) : Idx n v (s * k)), fun τ => ?_, fun τ τ' => ?_⟩
  · rw [h.mean]
    push_cast
    ring
  · rw [h.cov]
    simp only
    split_ifs with hq
    · rcases le_total τ.2.2 τ'.2.2 with hl | hl
      · rw [min_eq_left hl, min_eq_left (Fin.le_def.mpr (Nat.mul_le_mul_right k (Fin.le_def.mp hl)))]
        push_cast
        ring
      · rw [min_eq_right hl, min_eq_right (Fin.le_def.mpr (Nat.mul_le_mul_right k (Fin.le_def.mp hl)))]
        push_cast
        ring
    · rfl

/-- A function of an increment is forecast by its expectation, whatever (a function of) the history is. -/
theorem forecast (h : BrownianGrid P X x m C) (hX : ∀ τ, Measurable (X τ)) {g φ : ℝ → ℝ} (hg : Measurable g)
    (hφ : Measurable φ) (q : Fin n) (j : Fin v) {t t' : Fin (s + 1)} (ht : t ≤ t') :
    P[fun ω => φ (X (q, j, t') ω - X (q, j, t) ω) | history (fun τ ω => g (X τ ω)) t] =ᵐ[P]
      fun _ => ∫ ω, φ (X (q, j, t') ω - X (q, j, t) ω) ∂P := by
  have hP := h.gaussian.isProbabilityMeasure
  have hφ' : Measurable fun (f : {τ : Idx n v s // τ.2.2 ≤ t} → ℝ) τ => g (f τ) :=
    measurable_pi_lambda _ fun τ => hg.comp (measurable_pi_apply τ)
  have hψ : Measurable fun (f : {τ : Idx n v s // t ≤ τ.2.2} → ℝ) => f ⟨(q, j, t'), ht⟩ := measurable_pi_apply _
  have hi := (h.increments_independent t).comp hφ' hψ
  have hm : Measurable fun ω => X (q, j, t') ω - X (q, j, t) ω := (hX _).sub (hX _)
  refine condExp_indep_eq (m₁ := MeasurableSpace.comap (fun ω => X (q, j, t') ω - X (q, j, t) ω) inferInstance) ?_ ?_ ?_ ?_
  · exact hm.comap_le
  · exact (measurable_pi_lambda _ fun τ => hg.comp (hX _)).comap_le
  · exact (hφ.comp (comap_measurable _)).stronglyMeasurable
  · exact ((IndepFun_iff_Indep _ _ _).mp hi).symm

end BrownianGrid

end Verif.Sim
