import Verif.Lemmas.AR1

/-!
# Shocks of different steps
-/

namespace Verif.Sim

open MeasureTheory ProbabilityTheory Filter Topology

/-- The number of `t < s` in a residue class. -/
def classCount (M r s : Nat) : Nat := (s + M - 1 - r) / M

theorem classCount_of_mod {M r s : Nat} (hr : r < M) (h : s % M = r) : s = r + classCount M r s * M := by
  have h1 := Nat.div_add_mod s M
  rw [h] at h1
  have : classCount M r s = s / M := by
    unfold classCount
    have e : s + M - 1 - r = (M - 1) + M * (s / M) := by omega
    rw [e, Nat.add_mul_div_left _ _ (by omega), Nat.div_eq_of_lt (by omega), zero_add]
  rw [this, mul_comm]
  omega

theorem classCount_succ {M r : Nat} (hr : r < M) (s : Nat) :
    classCount M r (s + 1) = classCount M r s + if s % M = r then 1 else 0 := by
  unfold classCount
  have e : s + 1 + M - 1 - r = s + M - 1 - r + 1 := by omega
  rw [e, Nat.succ_div]
  congr 1
  have e2 : s + M - 1 - r + 1 = s + M - r := by omega
  rw [e2]
  have : M ∣ s + M - r ↔ s % M = r := by
    have h1 := Nat.div_add_mod s M
    constructor
    · rintro ⟨c, hc⟩
      have h2 : s = r + M * (c - 1) := by
        cases c with
        | zero => omega
        | succ c =>
          rw [Nat.mul_succ] at hc
          simp only [Nat.add_sub_cancel]
          omega
      rw [h2, Nat.add_mul_mod_self_left, Nat.mod_eq_of_lt hr]
    · intro h
      exact ⟨s / M + 1, by rw [Nat.mul_succ]; omega⟩
  simp only [this]

theorem class_sum {M r : Nat} (hr : r < M) (f : Nat → ℝ) (s : Nat) :
    ∑ t ∈ Finset.range s, (if t % M = r then f t else 0) = ∑ i ∈ Finset.range (classCount M r s), f (r + i * M) := by
  induction s with
  | zero =>
    have : classCount M r 0 = 0 := by
      unfold classCount
      exact Nat.div_eq_of_lt (by omega)
    rw [this]
    simp
  | succ s ih =>
    rw [Finset.sum_range_succ, ih, classCount_succ hr]
    by_cases h : s % M = r
    · rw [if_pos h, if_pos h, Finset.sum_range_succ, ← classCount_of_mod hr h]
    · rw [if_neg h, if_neg h, add_zero, add_zero]

theorem classCount_le {M r s : Nat} (hM : 0 < M) (hs : 1 ≤ s) : classCount M r s ≤ s := by
  unfold classCount
  refine Nat.div_le_of_le_mul ?_
  obtain ⟨M, rfl⟩ : ∃ k, M = k + 1 := ⟨M - 1, by omega⟩
  have : M ≤ M * s := Nat.le_mul_of_pos_right _ hs
  rw [Nat.succ_mul]
  omega

theorem classCount_tendsto {M r : Nat} (hr : r < M) : Tendsto (classCount M r) atTop atTop := by
  rw [tendsto_atTop]
  intro b
  filter_upwards [eventually_ge_atTop (b * M)] with s hs
  unfold classCount
  rw [Nat.le_div_iff_mul_le (by omega)]
  omega

/-- Averages tend to zero if they do along each residue class. -/
theorem mean_merge {M : Nat} (hM : 0 < M) {f : Nat → ℝ}
    (h : ∀ r < M, Tendsto (fun m => mean m fun i => f (r + i * M)) atTop (𝓝 0)) : Tendsto (fun s => mean s f) atTop (𝓝 0) := by
  have key : ∀ r < M, Tendsto (fun s => mean s fun t => if t % M = r then f t else 0) atTop (𝓝 0) := by
    intro r hr
    have h1 := ((h r hr).comp (classCount_tendsto hr)).norm
    rw [norm_zero] at h1
    refine squeeze_zero_norm' ?_ h1
    filter_upwards [eventually_ge_atTop 1] with s hs
    unfold mean
    simp only [Function.comp, Real.norm_eq_abs, abs_div, Nat.abs_cast, class_sum hr]
    by_cases hc : classCount M r s = 0
    · simp [hc]
    · refine div_le_div_of_nonneg_left (abs_nonneg _) ?_ ?_
      · exact_mod_cast Nat.pos_of_ne_zero hc
      · exact_mod_cast classCount_le hM hs
  have hsum := tendsto_finsetSum (Finset.range M) fun r hr => key r (Finset.mem_range.mp hr)
  rw [Finset.sum_const_zero] at hsum
  refine hsum.congr fun s => ?_
  unfold mean
  rw [← Finset.sum_div, Finset.sum_comm]
  congr 1
  refine Finset.sum_congr rfl fun t _ => ?_
  rw [Finset.sum_ite_eq, if_pos (Finset.mem_range.mpr (Nat.mod_lt _ hM))]

variable {Ω : Type*} [MeasurableSpace Ω] {P : Measure Ω} {z : Ω → Nat → ℝ} {n v : Nat}

/-- The shocks of a column look like noise, almost surely. -/
theorem shocks_noise (hz : Draws P z) (L : Option Arr) (y : Fin n × Fin v) :
    ∀ᵐ ω ∂P, Noise (fun t => shock L v (z ω) (t * n + y.1) y.2) (corOf L v y.2 y.2) := by
  obtain ⟨h1, h2, h3⟩ := shocks hz L (n := n)
  have hP := h1.isProbabilityMeasure
  have hL : ∀ τ : Nat × Fin n × Fin v, MemLp (fun ω => shock L v (z ω) (τ.1 * n + τ.2.1) τ.2.2) 2 P := fun τ =>
    (h1.hasGaussianLaw_eval τ).memLp_two
  have hprod : ∀ t t', ∫ ω, shock L v (z ω) (t * n + y.1) y.2 * shock L v (z ω) (t' * n + y.1) y.2 ∂P =
      if t = t' then corOf L v y.2 y.2 else 0 := fun t t' => by
    have := covariance_eq_sub (hL (t, y)) (hL (t', y))
    rw [h3 (t, y) (t', y), h2 (t, y)] at this
    have hz0 : ∀ x : ℝ, 0 * x = 0 := zero_mul
    rw [hz0, sub_zero] at this
    simp only [true_and] at this
    exact this.symm
  have hind : iIndepFun (fun (t : Nat) ω => shock L v (z ω) (t * n + y.1) y.2) P := by
    have h : iIndepFun (fun (t : Nat) ω (_ : Unit) => shock L v (z ω) (t * n + y.1) y.2) P := by
      refine IsGaussianProcess.iIndepFun_of_covariance_eq_zero (T := Nat) (S := fun _ => Unit)
        (X := fun t _ ω => shock L v (z ω) (t * n + y.1) y.2) ?_ (fun t _ => (h1.aemeasurable (t, y))) fun t t' ht _ _ => ?_
      · exact h1.comp_right fun u : (_ : Nat) × Unit => ((u.1, y) : Nat × Fin n × Fin v)
      · exact (h3 (t, y) (t', y)).trans (if_neg (by tauto))
    have hm : Measurable fun f : Unit → ℝ => f () := measurable_pi_apply ()
    exact h.comp (fun _ f => f ()) fun _ => hm
  have s1 := (shocks_consistent hz L y y)
  have s2 := shocks_slln hz L y y (g := fun a b => a * b) (measurable_fst.mul measurable_snd)
    ((hL (0, y)).integrable_mul (hL (0, y)))
  rw [hprod 0 0, if_pos rfl] at s2
  have s3 : ∀ k, ∀ᵐ ω ∂P, Tendsto (fun s => mean s fun t => shock L v (z ω) (t * n + y.1) y.2 *
      shock L v (z ω) ((t + k + 1) * n + y.1) y.2) atTop (𝓝 0) := by
    intro k
    have hcl : ∀ r, ∀ᵐ ω ∂P, Tendsto (fun m => mean m fun i => shock L v (z ω) ((r + i * (k + 2)) * n + y.1) y.2 *
        shock L v (z ω) ((r + i * (k + 2) + k + 1) * n + y.1) y.2) atTop (𝓝 0) := by
      intro r
      have hlim := strong_law_ae_real (fun i ω => shock L v (z ω) ((r + i * (k + 2)) * n + y.1) y.2 *
        shock L v (z ω) ((r + i * (k + 2) + k + 1) * n + y.1) y.2)
        ((hL (r + 0 * (k + 2), y)).integrable_mul (hL (r + 0 * (k + 2) + k + 1, y))) ?_ ?_
      · rw [hprod, if_neg (by omega)] at hlim
        exact hlim
      · intro i i' hi
        have hne : i * (k + 2) + (k + 2) ≤ i' * (k + 2) ∨ i' * (k + 2) + (k + 2) ≤ i * (k + 2) := by
          rcases Nat.lt_or_gt_of_ne hi with hlt | hlt
          · left
            rw [← Nat.succ_mul]
            exact Nat.mul_le_mul_right _ hlt
          · right
            rw [← Nat.succ_mul]
            exact Nat.mul_le_mul_right _ hlt
        exact hind.indepFun_mul_mul₀ (fun t => h1.aemeasurable (t, y)) _ _ _ _ (by omega) (by omega) (by omega) (by omega)
      · intro i
        have hlaw : SameLaw (fun (b : Fin 2) ω => shock L v (z ω) ((r + i * (k + 2) + b * (k + 1)) * n + y.1) y.2) P
            (fun (b : Fin 2) ω => shock L v (z ω) ((r + 0 * (k + 2) + b * (k + 1)) * n + y.1) y.2) P := by
          refine sameLaw_of_moments (h1.comp_right fun b : Fin 2 => (r + i * (k + 2) + b * (k + 1), y))
            (h1.comp_right fun b : Fin 2 => (r + 0 * (k + 2) + b * (k + 1), y)) 
            (fun b => (h2 (r + i * (k + 2) + b * (k + 1), y)).trans (h2 (r + 0 * (k + 2) + b * (k + 1), y)).symm) fun b b' => ?_
          refine (h3 (r + i * (k + 2) + b * (k + 1), y) (r + i * (k + 2) + b' * (k + 1), y)).trans (Eq.trans ?_
            (h3 (r + 0 * (k + 2) + b * (k + 1), y) (r + 0 * (k + 2) + b' * (k + 1), y)).symm)
          simp
        have ha : ∀ i : Nat, AEMeasurable (fun ω => (Finset.univ : Finset (Fin 2)).restrict
            fun b : Fin 2 => shock L v (z ω) ((r + i * (k + 2) + b * (k + 1)) * n + y.1) y.2) P := fun i =>
          aemeasurable_pi_lambda _ fun b => h1.aemeasurable (r + i * (k + 2) + b.1 * (k + 1), y)
        have hi : IdentDistrib (fun ω => (Finset.univ : Finset (Fin 2)).restrict
            fun b : Fin 2 => shock L v (z ω) ((r + i * (k + 2) + b * (k + 1)) * n + y.1) y.2)
          (fun ω => (Finset.univ : Finset (Fin 2)).restrict
            fun b : Fin 2 => shock L v (z ω) ((r + 0 * (k + 2) + b * (k + 1)) * n + y.1) y.2) P P := ⟨ha i, ha 0, hlaw _⟩
        have hG : Measurable fun (f : ((Finset.univ : Finset (Fin 2)) : Type) → ℝ) => f ⟨0, by simp⟩ * f ⟨1, by simp⟩ :=
          (measurable_pi_apply _).mul (measurable_pi_apply _)
        have := hi.comp hG
        simpa [Function.comp_def, Finset.restrict, add_assoc] using this
    have hall := ae_all_iff.mpr hcl
    filter_upwards [hall] with ω hω
    exact mean_merge (M := k + 2) (by omega) fun r _ => hω r
  filter_upwards [s1, s2, ae_all_iff.mpr s3] with ω w1 w2 w3
  exact ⟨w1.1, w2, w3⟩

end Verif.Sim
