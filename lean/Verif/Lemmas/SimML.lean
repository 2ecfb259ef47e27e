import Verif.Props.SimLik
import Verif.Props.MatDiv

/-!
# The likelihood of normal observations as a function of mean and covariance
-/

namespace Verif.Sim

open Verif.Cov Matrix

variable {d n : Nat}

/-- The mean vector of `n` observations. -/
noncomputable def obsMean (n : Nat) (Y : Nat → Fin d → ℝ) : Fin d → ℝ := fun k => (∑ t ∈ Finset.range n, Y t k) / n

/-- The covariance matrix of `n` observations, with divisor `n`. -/
noncomputable def obsCov (n : Nat) (Y : Nat → Fin d → ℝ) : Mat d := fun i j =>
  (∑ t ∈ Finset.range n, (Y t i - obsMean n Y i) * (Y t j - obsMean n Y j)) / n

/-- The negative log-likelihood of `n` observations. -/
noncomputable def obsNll (n : Nat) (Y : Nat → Fin d → ℝ) (μ : Fin d → ℝ) (S : Mat d) : ℝ :=
  -∑ t ∈ Finset.range n, logDensity μ S (Y t)

theorem obs_dev_sum (hn : 0 < n) (Y : Nat → Fin d → ℝ) (k : Fin d) : ∑ t ∈ Finset.range n, (Y t k - obsMean n Y k) = 0 := by
  rw [Finset.sum_sub_distrib, Finset.sum_const, Finset.card_range, nsmul_eq_mul]
  unfold obsMean
  have : (n : ℝ) ≠ 0 := by exact_mod_cast hn.ne'
  field_simp
  ring

theorem obs_quad (hn : 0 < n) (Y : Nat → Fin d → ℝ) (W : Mat d) (μ : Fin d → ℝ) :
    ∑ t ∈ Finset.range n, dotProduct (Y t - μ) (W.mulVec (Y t - μ)) =
      n * (obsCov n Y * W).trace + n * dotProduct (obsMean n Y - μ) (W.mulVec (obsMean n Y - μ)) := by
  have hn0 : (n : ℝ) ≠ 0 := by exact_mod_cast hn.ne'
  have hq : ∀ u : Fin d → ℝ, dotProduct u (W.mulVec u) = ∑ i, ∑ j, W i j * (u i * u j) := by
    intro u
    unfold dotProduct mulVec dotProduct
    refine Finset.sum_congr rfl fun i _ => ?_
    rw [Finset.mul_sum]
    exact Finset.sum_congr rfl fun j _ => by ring
  have htr : (obsCov n Y * W).trace = ∑ i, ∑ j, W i j * obsCov n Y j i := by
    unfold trace
    simp only [diag_apply, mul_apply]
    rw [Finset.sum_comm]
    exact Finset.sum_congr rfl fun i _ => Finset.sum_congr rfl fun j _ => by ring
  simp only [hq]
  rw [htr, Finset.sum_comm, Finset.mul_sum, Finset.mul_sum, ← Finset.sum_add_distrib]
  refine Finset.sum_congr rfl fun i _ => ?_
  rw [Finset.sum_comm, Finset.mul_sum, Finset.mul_sum, ← Finset.sum_add_distrib]
  refine Finset.sum_congr rfl fun j _ => ?_
  rw [← Finset.mul_sum]
  have hs : ∑ t ∈ Finset.range n, (Y t - μ) i * (Y t - μ) j =
      n * obsCov n Y j i + n * ((obsMean n Y - μ) i * (obsMean n Y - μ) j) := by
    have e : ∀ t, (Y t - μ) i * (Y t - μ) j = (Y t j - obsMean n Y j) * (Y t i - obsMean n Y i) +
        (obsMean n Y j - μ j) * (Y t i - obsMean n Y i) + (obsMean n Y i - μ i) * (Y t j - obsMean n Y j) +
        (obsMean n Y i - μ i) * (obsMean n Y j - μ j) := by
      intro t
      simp only [Pi.sub_apply]
      ring
    simp only [e, Finset.sum_add_distrib, ← Finset.mul_sum, obs_dev_sum hn, Finset.sum_const, Finset.card_range, nsmul_eq_mul]
    unfold obsCov
    simp only [Pi.sub_apply]
    field_simp
    ring
  rw [hs]
  ring

theorem obsNll_eq (hn : 0 < n) (Y : Nat → Fin d → ℝ) (μ : Fin d → ℝ) (S : Mat d) :
    obsNll n Y μ S = n / 2 * (d * Real.log (2 * Real.pi) + Real.log S.det + (obsCov n Y * S⁻¹).trace +
      dotProduct (obsMean n Y - μ) (S⁻¹.mulVec (obsMean n Y - μ))) := by
  unfold obsNll logDensity
  rw [← Finset.mul_sum, Finset.sum_add_distrib, obs_quad hn, Finset.sum_const, Finset.card_range, nsmul_eq_mul]
  ring

/-- The excess of the negative log-likelihood over its minimum. -/
theorem obsNll_excess (hn : 0 < n) (Y : Nat → Fin d → ℝ) (μ : Fin d → ℝ) {S : Mat d} (hS : S.PosDef)
    (hC : (obsCov n Y).PosDef) :
    obsNll n Y μ S = n / 2 * (d * Real.log (2 * Real.pi) + Real.log (obsCov n Y).det + d) +
      n / 2 * ((obsCov n Y * S⁻¹).trace - Real.log (obsCov n Y * S⁻¹).det - d) +
      n / 2 * dotProduct (obsMean n Y - μ) (S⁻¹.mulVec (obsMean n Y - μ)) := by
  rw [obsNll_eq hn, det_mul, det_nonsing_inv, Ring.inverse_eq_inv', Real.log_mul hC.det_pos.ne' (inv_ne_zero hS.det_pos.ne'),
    Real.log_inv]
  ring

theorem divergence_nonneg {P Q : Mat d} (hP : P.PosDef) (hQ : Q.PosDef) :
    0 ≤ (P * Q⁻¹).trace - Real.log (P * Q⁻¹).det - d ∧ ((P * Q⁻¹).trace - Real.log (P * Q⁻¹).det - d = 0 ↔ P = Q) := by
  obtain ⟨r, h1, h2, h3⟩ := MatDiv.logDet_nonneg hP hQ
  rw [MatDiv.logDet_eq (MatDiv.posDef_passes hP) (MatDiv.posDef_passes hQ)] at h1
  cases h1
  rw [Real.log_abs] at h2 h3
  exact ⟨h2, h3⟩

/-- The unique minimum: mean and covariance of the observations. -/
theorem obsNll_min (hn : 0 < n) (Y : Nat → Fin d → ℝ) (hC : (obsCov n Y).PosDef) :
    obsNll n Y (obsMean n Y) (obsCov n Y) = n / 2 * (d * Real.log (2 * Real.pi) + Real.log (obsCov n Y).det + d) ∧
    ∀ (μ : Fin d → ℝ) (S : Mat d), S.PosDef →
      obsNll n Y (obsMean n Y) (obsCov n Y) ≤ obsNll n Y μ S ∧
      (obsNll n Y μ S = obsNll n Y (obsMean n Y) (obsCov n Y) ↔ μ = obsMean n Y ∧ S = obsCov n Y) := by
  have hn0 : (0 : ℝ) < n := by exact_mod_cast hn
  have h0 : obsNll n Y (obsMean n Y) (obsCov n Y) =
      n / 2 * (d * Real.log (2 * Real.pi) + Real.log (obsCov n Y).det + d) := by
    rw [obsNll_excess hn Y _ hC hC, (divergence_nonneg hC hC).2.mpr rfl, sub_self, zero_dotProduct]
    ring
  refine ⟨h0, fun μ S hS => ?_⟩
  have hd := divergence_nonneg hC hS
  have hq : 0 ≤ dotProduct (obsMean n Y - μ) (S⁻¹.mulVec (obsMean n Y - μ)) ∧
      (dotProduct (obsMean n Y - μ) (S⁻¹.mulVec (obsMean n Y - μ)) = 0 → μ = obsMean n Y) := by
    by_cases hz : obsMean n Y - μ = 0
    · rw [hz, zero_dotProduct]
      exact ⟨le_refl _, fun _ => (sub_eq_zero.mp hz).symm⟩
    · have := hS.inv.dotProduct_mulVec_pos hz
      rw [star_trivial] at this
      exact ⟨this.le, fun h => absurd h this.ne'⟩
  rw [h0, obsNll_excess hn Y μ hS hC]
  constructor
  · have h1 := mul_nonneg (half_pos hn0).le hd.1
    have h2 := mul_nonneg (half_pos hn0).le hq.1
    linarith
  · constructor
    · intro h
      have h1 := mul_nonneg (half_pos hn0).le hd.1
      have h2 := mul_nonneg (half_pos hn0).le hq.1
      have e1 : (n : ℝ) / 2 * ((obsCov n Y * S⁻¹).trace - Real.log (obsCov n Y * S⁻¹).det - d) = 0 := by linarith
      have e2 : (n : ℝ) / 2 * dotProduct (obsMean n Y - μ) (S⁻¹.mulVec (obsMean n Y - μ)) = 0 := by linarith
      rcases mul_eq_zero.mp e1 with e | e
      · linarith [half_pos hn0]
      · rcases mul_eq_zero.mp e2 with e' | e'
        · linarith [half_pos hn0]
        · exact ⟨hq.2 e', (hd.2.mp e).symm⟩
    · rintro ⟨rfl, rfl⟩
      rw [hd.2.mpr rfl, sub_self, zero_dotProduct]
      ring

/-- The value at a multiple of the covariance. -/
theorem obsNll_scaled (hn : 0 < n) (Y : Nat → Fin d → ℝ) (hC : (obsCov n Y).PosDef) {k : ℝ} (hk : 0 < k) :
    obsNll n Y (obsMean n Y) (k • obsCov n Y) =
      n / 2 * (d * Real.log (2 * Real.pi) + Real.log (k • obsCov n Y).det + d / k) := by
  rw [obsNll_eq hn, sub_self, zero_dotProduct]
  have : IsUnit (obsCov n Y).det := isUnit_iff_ne_zero.mpr hC.det_pos.ne'
  have hi : (k • obsCov n Y)⁻¹ = k⁻¹ • (obsCov n Y)⁻¹ := by
    apply Matrix.inv_eq_right_inv
    rw [smul_mul_smul_comm, mul_inv_cancel₀ hk.ne', one_smul, mul_nonsing_inv _ this]
  rw [hi, Matrix.mul_smul, mul_nonsing_inv _ this, trace_smul, trace_one, Fintype.card_fin, smul_eq_mul]
  ring

end Verif.Sim
