import Verif.Lemmas.SimLaw
import Mathlib.Probability.Distributions.Gaussian.IsGaussianProcess.Independence
import Mathlib.Probability.StrongLaw

/-!
# Statistics of the shocks of a sample
-/

namespace Verif.Sim

open MeasureTheory ProbabilityTheory Filter Topology

variable {Ω : Type*} [MeasurableSpace Ω] {P : Measure Ω} {z : Ω → Nat → ℝ} {n v : Nat}

theorem driven_self {L : Option Arr} {q : Fin n} {j : Fin v} (t : Nat) (x : Nat → ℝ) :
    shock L v x (t * n + q) j = 0 + ∑ u ∈ Finset.range (t + 1), (if u = t then 1 else 0) * shock L v x (u * n + q) j := by
  simp [Finset.sum_ite_eq']

/-- The shocks are jointly Gaussian, with mean zero, correlated within a path and a step only. -/
theorem shocks (hz : Draws P z) (L : Option Arr) :
    IsGaussianProcess (fun (τ : Nat × Fin n × Fin v) ω => shock L v (z ω) (τ.1 * n + τ.2.1) τ.2.2) P ∧
    (∀ τ : Nat × Fin n × Fin v, ∫ ω, shock L v (z ω) (τ.1 * n + τ.2.1) τ.2.2 ∂P = 0) ∧
    ∀ τ τ' : Nat × Fin n × Fin v, cov[fun ω => shock L v (z ω) (τ.1 * n + τ.2.1) τ.2.2,
      fun ω => shock L v (z ω) (τ'.1 * n + τ'.2.1) τ'.2.2; P] =
        if τ.2.1 = τ'.2.1 ∧ τ.1 = τ'.1 then corOf L v τ.2.2 τ'.2.2 else 0 := by
  obtain ⟨h1, h2, h3⟩ := driven hz L (T := Nat × Fin n × Fin v) (fun τ => τ.2.1) (fun τ => τ.2.2) (fun τ => τ.1 + 1) (fun _ => 0)
    (fun τ u => if u = τ.1 then 1 else 0) (Y := fun τ ω => shock L v (z ω) (τ.1 * n + τ.2.1) τ.2.2)
    fun τ ω => driven_self τ.1 (z ω)
  refine ⟨h1, h2, fun τ τ' => ?_⟩
  rw [h3]
  by_cases hq : τ.2.1 = τ'.2.1
  · by_cases ht : τ.1 = τ'.1
    · rw [if_pos hq, if_pos ⟨hq, ht⟩, ht]
      simp [Finset.sum_ite_eq']
    · rw [if_pos hq, if_neg (by tauto)]
      have : ∀ u ∈ Finset.range (min (τ.1 + 1) (τ'.1 + 1)), (if u = τ.1 then (1 : ℝ) else 0) * (if u = τ'.1 then 1 else 0) = 0 := by
        intro u _
        by_cases h : u = τ.1
        · rw [if_neg (fun e : u = τ'.1 => ht (h.symm.trans e)), mul_zero]
        · rw [if_neg h, zero_mul]
      rw [Finset.sum_eq_zero this, mul_zero]
  · rw [if_neg hq, if_neg (by tauto)]

/-- The strong law of large numbers for a function of two shocks of the same step. -/
theorem shocks_slln (hz : Draws P z) (L : Option Arr) (y y' : Fin n × Fin v) {g : ℝ → ℝ → ℝ}
    (hg : Measurable fun x : ℝ × ℝ => g x.1 x.2)
    (hint : Integrable (fun ω => g (shock L v (z ω) (0 * n + y.1) y.2) (shock L v (z ω) (0 * n + y'.1) y'.2)) P) :
    ∀ᵐ ω ∂P, Tendsto (fun s : Nat => mean s fun t => g (shock L v (z ω) (t * n + y.1) y.2) (shock L v (z ω) (t * n + y'.1) y'.2))
      atTop (𝓝 (∫ ω, g (shock L v (z ω) (0 * n + y.1) y.2) (shock L v (z ω) (0 * n + y'.1) y'.2) ∂P)) := by
  obtain ⟨h1, h2, h3⟩ := shocks hz L (n := n)
  have hind : iIndepFun (fun (t : Nat) ω (y : Fin n × Fin v) => shock L v (z ω) (t * n + y.1) y.2) P := by
    refine IsGaussianProcess.iIndepFun_of_covariance_eq_zero (T := Nat) (S := fun _ => Fin n × Fin v)
      (X := fun t y ω => shock L v (z ω) (t * n + y.1) y.2) ?_ (fun t y => (h1.aemeasurable (t, y))) fun t t' ht y y' => ?_
    · exact h1.comp_right fun y : (_ : Nat) × (Fin n × Fin v) => ((y.1, y.2) : Nat × Fin n × Fin v)
    · exact (h3 (t, y) (t', y')).trans (if_neg (by tauto))
  have hlaw : ∀ t, SameLaw (fun (y : Fin n × Fin v) ω => shock L v (z ω) (t * n + y.1) y.2) P
      (fun (y : Fin n × Fin v) ω => shock L v (z ω) (0 * n + y.1) y.2) P := fun t => by
    refine sameLaw_of_moments (h1.comp_right fun y : Fin n × Fin v => (t, y)) (h1.comp_right fun y : Fin n × Fin v => (0, y))
      (fun y => (h2 (t, y)).trans (h2 (0, y)).symm) fun y y' => ?_
    refine (h3 (t, y) (t, y')).trans (Eq.trans ?_ (h3 (0, y) (0, y')).symm)
    simp
  have hG : Measurable fun f : Fin n × Fin v → ℝ => g (f y) (f y') := by
    have h : Measurable fun f : Fin n × Fin v → ℝ => (f y, f y') := (measurable_pi_apply y).prodMk (measurable_pi_apply y')
    exact hg.comp h
  refine strong_law_ae_real (fun t ω => g (shock L v (z ω) (t * n + y.1) y.2) (shock L v (z ω) (t * n + y'.1) y'.2)) hint ?_ ?_
  · intro t t' ht
    exact (hind.indepFun ht).comp hG hG
  · intro t
    have ha : ∀ t, AEMeasurable (fun ω => (Finset.univ : Finset (Fin n × Fin v)).restrict
        fun y => shock L v (z ω) (t * n + y.1) y.2) P := fun t => aemeasurable_pi_lambda _ fun y => h1.aemeasurable (t, y.1)
    have hi : IdentDistrib (fun ω => (Finset.univ : Finset (Fin n × Fin v)).restrict fun y => shock L v (z ω) (t * n + y.1) y.2)
      (fun ω => (Finset.univ : Finset (Fin n × Fin v)).restrict fun y => shock L v (z ω) (0 * n + y.1) y.2) P P :=
      ⟨ha t, ha 0, hlaw t _⟩
    have hG' : Measurable fun (f : ((Finset.univ : Finset (Fin n × Fin v)) : Type) → ℝ) => g (f ⟨y, by simp⟩) (f ⟨y', by simp⟩) := by
      have h : Measurable fun (f : ((Finset.univ : Finset (Fin n × Fin v)) : Type) → ℝ) =>
          (f ⟨y, by simp⟩, f ⟨y', by simp⟩) := (measurable_pi_apply _).prodMk (measurable_pi_apply _)
      exact hg.comp h
    exact hi.comp hG'

theorem scov_eq {s : Nat} (hs : 1 ≤ s) (f g : Nat → ℝ) :
    scov s 1 f g = (s : ℝ) / (s - 1) * (mean s (fun t => f t * g t) - mean s f * mean s g) := by
  have h0 : (s : ℝ) ≠ 0 := by positivity
  unfold scov
  have : ∑ i ∈ Finset.range s, (f i - mean s f) * (g i - mean s g) =
      s * (mean s (fun t => f t * g t) - mean s f * mean s g) := by
    have e : ∀ i ∈ Finset.range s, (f i - mean s f) * (g i - mean s g) =
      f i * g i - mean s g * f i - mean s f * g i + mean s f * mean s g := fun i _ => by ring
    rw [Finset.sum_congr rfl e, Finset.sum_add_distrib, Finset.sum_sub_distrib, Finset.sum_sub_distrib, ← Finset.mul_sum,
      ← Finset.mul_sum, Finset.sum_const, Finset.card_range, nsmul_eq_mul]
    have a1 : ∑ i ∈ Finset.range s, f i = s * mean s f := by unfold mean; field_simp
    have a2 : ∑ i ∈ Finset.range s, g i = s * mean s g := by unfold mean; field_simp
    have a3 : ∑ i ∈ Finset.range s, f i * g i = s * mean s (fun t => f t * g t) := by unfold mean; field_simp
    rw [a1, a2, a3]
    ring
  rw [this]
  ring

theorem tendsto_ratio : Tendsto (fun s : Nat => (s : ℝ) / (s - 1)) atTop (𝓝 1) := by
  have h := tendsto_natCast_div_add_atTop (-1 : ℝ)
  simpa [sub_eq_add_neg] using h

theorem scov_tendsto {f g : Nat → ℝ} {a b c : ℝ} (hf : Tendsto (fun s => mean s f) atTop (𝓝 a))
    (hg : Tendsto (fun s => mean s g) atTop (𝓝 b)) (hfg : Tendsto (fun s => mean s fun t => f t * g t) atTop (𝓝 c)) :
    Tendsto (fun s => scov s 1 f g) atTop (𝓝 (c - a * b)) := by
  have h := tendsto_ratio.mul (hfg.sub (hf.mul hg))
  rw [one_mul] at h
  refine h.congr' ?_
  filter_upwards [eventually_ge_atTop 1] with s hs
  exact (scov_eq hs f g).symm

/-- Sample means of shocks tend to zero, sample covariances to the covariance, almost surely. -/
theorem shocks_consistent (hz : Draws P z) (L : Option Arr) (y y' : Fin n × Fin v) :
    ∀ᵐ ω ∂P, Tendsto (fun s => mean s fun t => shock L v (z ω) (t * n + y.1) y.2) atTop (𝓝 0) ∧
      Tendsto (fun s => scov s 1 (fun t => shock L v (z ω) (t * n + y.1) y.2) fun t => shock L v (z ω) (t * n + y'.1) y'.2)
        atTop (𝓝 (if y.1 = y'.1 then corOf L v y.2 y'.2 else 0)) := by
  obtain ⟨h1, h2, h3⟩ := shocks hz L (n := n)
  have hP := h1.isProbabilityMeasure
  have hL : ∀ τ : Nat × Fin n × Fin v, MemLp (fun ω => shock L v (z ω) (τ.1 * n + τ.2.1) τ.2.2) 2 P := fun τ =>
    (h1.hasGaussianLaw_eval τ).memLp_two
  have hi : ∀ τ : Nat × Fin n × Fin v, Integrable (fun ω => shock L v (z ω) (τ.1 * n + τ.2.1) τ.2.2) P := fun τ =>
    (hL τ).integrable (by norm_num)
  have s1 := shocks_slln hz L y y (g := fun a _ => a) measurable_fst (hi (0, y))
  have s2 := shocks_slln hz L y' y' (g := fun a _ => a) measurable_fst (hi (0, y'))
  have s3 := shocks_slln hz L y y' (g := fun a b => a * b) (measurable_fst.mul measurable_snd)
    ((hL (0, y)).integrable_mul (hL (0, y')))
  have e1 : ∫ ω, shock L v (z ω) (0 * n + y.1) y.2 ∂P = 0 := h2 (0, y)
  have e2 : ∫ ω, shock L v (z ω) (0 * n + y'.1) y'.2 ∂P = 0 := h2 (0, y')
  have e3 : ∫ ω, shock L v (z ω) (0 * n + y.1) y.2 * shock L v (z ω) (0 * n + y'.1) y'.2 ∂P =
      if y.1 = y'.1 then corOf L v y.2 y'.2 else 0 := by
    have := covariance_eq_sub (hL (0, y)) (hL (0, y'))
    rw [h3 (0, y) (0, y'), h2 (0, y)] at this
    have hz0 : ∀ x : ℝ, 0 * x = 0 := zero_mul
    rw [hz0, sub_zero] at this
    simp only [and_true] at this
    exact this.symm
  rw [e1] at s1
  rw [e2] at s2
  rw [e3] at s3
  filter_upwards [s1, s2, s3] with ω w1 w2 w3
  refine ⟨w1, ?_⟩
  simpa using scov_tendsto w1 w2 w3

/-- The expectation of a sample covariance of shocks is the covariance. -/
theorem shocks_unbiased (hz : Draws P z) (L : Option Arr) (y y' : Fin n × Fin v) {s : Nat} (hs : 2 ≤ s) :
    ∫ ω, scov s 1 (fun t => shock L v (z ω) (t * n + y.1) y.2) (fun t => shock L v (z ω) (t * n + y'.1) y'.2) ∂P =
      if y.1 = y'.1 then corOf L v y.2 y'.2 else 0 := by
  have hs0 : (s : ℝ) ≠ 0 := by positivity
  have hs1 : (s : ℝ) - 1 ≠ 0 := by
    have : (2 : ℝ) ≤ s := by exact_mod_cast hs
    linarith
  obtain ⟨h1, h2, h3⟩ := driven hz L (T := Fin s × Fin n × Fin v) (fun τ => τ.2.1) (fun τ => τ.2.2) (fun _ => s) (fun _ => 0)
    (fun τ u => (if u = τ.1 then 1 else 0) - 1 / s)
    (Y := fun τ ω => shock L v (z ω) (τ.1 * n + τ.2.1) τ.2.2 - mean s fun t => shock L v (z ω) (t * n + τ.2.1) τ.2.2)
    fun τ ω => by
      simp only [sub_mul, Finset.sum_sub_distrib, ite_mul, one_mul, zero_mul, Finset.sum_ite_eq']
      rw [if_pos (Finset.mem_range.mpr τ.1.2), ← Finset.mul_sum, zero_add]
      unfold mean
      ring
  have hL : ∀ τ : Fin s × Fin n × Fin v, MemLp (fun ω => shock L v (z ω) (τ.1 * n + τ.2.1) τ.2.2 -
      mean s fun t => shock L v (z ω) (t * n + τ.2.1) τ.2.2) 2 P := fun τ => (h1.hasGaussianLaw_eval τ).memLp_two
  have hP : IsProbabilityMeasure P := StdNormal.prob hz
  have hw : ∀ i : Fin s, ∑ u ∈ Finset.range s, ((if u = (i : ℕ) then (1 : ℝ) else 0) - 1 / s) * ((if u = (i : ℕ) then 1 else 0) - 1 / s) =
      1 - 1 / s := fun i => by
    have e : ∀ u ∈ Finset.range s, ((if u = (i : ℕ) then (1 : ℝ) else 0) - 1 / s) * ((if u = (i : ℕ) then 1 else 0) - 1 / s) =
        (if u = (i : ℕ) then 1 - 2 / (s : ℝ) else 0) + 1 / s ^ 2 := fun u _ => by
      split_ifs <;> field_simp <;> ring
    rw [Finset.sum_congr rfl e, Finset.sum_add_distrib, Finset.sum_ite_eq', if_pos (Finset.mem_range.mpr i.2), Finset.sum_const,
      Finset.card_range, nsmul_eq_mul]
    field_simp
    ring
  have hprod : ∀ i : Fin s, ∫ ω, (shock L v (z ω) (i * n + y.1) y.2 - mean s fun t => shock L v (z ω) (t * n + y.1) y.2) *
      (shock L v (z ω) (i * n + y'.1) y'.2 - mean s fun t => shock L v (z ω) (t * n + y'.1) y'.2) ∂P =
      if y.1 = y'.1 then corOf L v y.2 y'.2 * (1 - 1 / s) else 0 := fun i => by
    have := covariance_eq_sub (hL (i, y)) (hL (i, y'))
    rw [h3 (i, y) (i, y'), h2 (i, y), zero_mul, sub_zero] at this
    simp only [min_self, hw] at this
    exact this.symm
  unfold scov
  rw [integral_div]
  have e : ∀ ω, ∑ i ∈ Finset.range s, (shock L v (z ω) (i * n + y.1) y.2 - mean s fun t => shock L v (z ω) (t * n + y.1) y.2) *
      (shock L v (z ω) (i * n + y'.1) y'.2 - mean s fun t => shock L v (z ω) (t * n + y'.1) y'.2) =
      ∑ i : Fin s, (shock L v (z ω) (i * n + y.1) y.2 - mean s fun t => shock L v (z ω) (t * n + y.1) y.2) *
      (shock L v (z ω) (i * n + y'.1) y'.2 - mean s fun t => shock L v (z ω) (t * n + y'.1) y'.2) := fun ω =>
    Finset.sum_range _
  simp only [e]
  rw [integral_finsetSum _ fun i _ => by exact (hL (i, y)).integrable_mul (hL (i, y')), Finset.sum_congr rfl fun i _ => hprod i,
    Finset.sum_const, Finset.card_univ, Fintype.card_fin, nsmul_eq_mul]
  split_ifs
  · field_simp
  · simp

end Verif.Sim
