import Verif.Lemmas.SimLaw
import Mathlib.Probability.BorelCantelli
import Mathlib.Probability.StrongLaw
import Mathlib.Analysis.PSeries

/-!
# Large values of independent standard normal variables
-/

namespace Verif.Sim

open MeasureTheory ProbabilityTheory Filter Topology
open scoped ENNReal

/-- A lower bound for the tail: the density at `x + 1`. -/
theorem gauss_tail {x : ℝ} (hx : 0 ≤ x) :
    ENNReal.ofReal ((Real.sqrt (2 * Real.pi))⁻¹ * Real.exp (-(x + 1) ^ 2 / 2)) ≤ gaussianReal 0 1 (Set.Ioi x) := by
  rw [gaussianReal_apply 0 one_ne_zero]
  calc ENNReal.ofReal ((Real.sqrt (2 * Real.pi))⁻¹ * Real.exp (-(x + 1) ^ 2 / 2))
      = ∫⁻ _ in Set.Ioc x (x + 1), ENNReal.ofReal ((Real.sqrt (2 * Real.pi))⁻¹ * Real.exp (-(x + 1) ^ 2 / 2)) := by
        rw [setLIntegral_const, Real.volume_Ioc]
        simp
    _ ≤ ∫⁻ y in Set.Ioc x (x + 1), gaussianPDF 0 1 y := by
        refine setLIntegral_mono' measurableSet_Ioc fun y hy => ?_
        rw [gaussianPDF, gaussianPDFReal]
        refine ENNReal.ofReal_le_ofReal ?_
        simp only [NNReal.coe_one, mul_one, sub_zero]
        refine mul_le_mul_of_nonneg_left (Real.exp_le_exp.mpr ?_) (by positivity)
        have := hy.1
        have := hy.2
        have : y ^ 2 ≤ (x + 1) ^ 2 := pow_le_pow_left₀ (by linarith) hy.2 2
        linarith
    _ ≤ ∫⁻ y in Set.Ioi x, gaussianPDF 0 1 y :=
        lintegral_mono_set Set.Ioc_subset_Ioi_self

variable {Ω : Type*} [MeasurableSpace Ω] {P : Measure Ω} {ζ : Nat → Ω → ℝ}

/-- Levels that grow more slowly than `sqrt (2 log t)` are exceeded infinitely often, almost surely. -/
theorem infinitely_often (h : StdNormal P ζ) {r : Nat → ℝ}
    (hr : ∀ᶠ t : Nat in atTop, 0 ≤ r t ∧ (r t + 1) ^ 2 ≤ 2 * Real.log (t + 1)) :
    ∀ᵐ ω ∂P, ∃ᶠ t in atTop, r t < ζ t ω := by
  have hP := h.prob
  let ξ : Nat → Ω → ℝ := fun t => (h.law t).aemeasurable.mk
  have hm : ∀ t, Measurable (ξ t) := fun t => (h.law t).aemeasurable.measurable_mk
  have he : ∀ t, ζ t =ᵐ[P] ξ t := fun t => (h.law t).aemeasurable.ae_eq_mk
  have hi : iIndepFun ξ P := h.indep.congr he
  have hl : ∀ t, P {ω | r t < ξ t ω} = gaussianReal 0 1 (Set.Ioi (r t)) := fun t => by
    rw [← (h.law t).map_eq, Measure.map_congr (he t), Measure.map_apply (hm t) measurableSet_Ioi]
    rfl
  have hS : ∀ t, MeasurableSet {ω | r t < ξ t ω} := fun t => hm t measurableSet_Ioi
  have hind : iIndepSet (fun t => {ω | r t < ξ t ω}) P := by
    rw [iIndepSet_iff_meas_biInter hS]
    intro S
    have := hi.measure_inter_preimage_eq_mul S (sets := fun t => Set.Ioi (r t)) fun _ _ => measurableSet_Ioi
    exact this
  have hsum : ∑' t, P {ω | r t < ξ t ω} = ∞ := by
    by_contra hne
    have hs := ENNReal.summable_toReal hne
    set c := (Real.sqrt (2 * Real.pi))⁻¹ with hc
    have hc0 : 0 < c := by positivity
    have hs' : Summable fun t : Nat => c * (1 / ((t : ℝ) + 1)) := by
      refine Summable.of_norm_bounded_eventually_nat hs ?_
      filter_upwards [hr] with t ht
      rw [Real.norm_of_nonneg (by positivity)]
      have hb : ENNReal.ofReal (c * (1 / ((t : ℝ) + 1))) ≤ P {ω | r t < ξ t ω} := by
        rw [hl t]
        refine le_trans (ENNReal.ofReal_le_ofReal ?_) (gauss_tail ht.1)
        refine mul_le_mul_of_nonneg_left ?_ hc0.le
        have h1 : 1 / ((t : ℝ) + 1) = Real.exp (-Real.log (t + 1)) := by
          rw [Real.exp_neg, Real.exp_log (by positivity), one_div]
        rw [h1]
        exact Real.exp_le_exp.mpr (by linarith [ht.2])
      have := ENNReal.toReal_mono (measure_ne_top P _) hb
      rwa [ENNReal.toReal_ofReal (by positivity)] at this
    have h2 := (summable_mul_left_iff hc0.ne').mp hs'
    have h3 : Summable fun t : Nat => 1 / ((t : ℝ)) := by
      rw [← summable_nat_add_iff 1]
      simpa using h2
    exact Real.not_summable_one_div_natCast h3
  have h1 := measure_limsup_eq_one hS hind hsum
  have h2 : ∀ᵐ ω ∂P, ω ∈ limsup (fun t => {ω | r t < ξ t ω}) atTop := by
    rw [← prob_compl_eq_zero_iff₀ (MeasurableSet.measurableSet_limsup hS).nullMeasurableSet] at h1
    exact h1
  have h3 : ∀ᵐ ω ∂P, ∀ t, ζ t ω = ξ t ω := ae_all_iff.mpr he
  filter_upwards [h2, h3] with ω a b
  rw [mem_limsup_iff_frequently_mem] at a
  exact a.mono fun t ht => by rw [b t]; exact ht

end Verif.Sim
