import Verif.Spec.CusumLaw
import Verif.Lemmas.GaussTail
import Verif.Props.Cusum
import Verif.Props.SimLawFit
import Mathlib.MeasureTheory.Function.ConvergenceInDistribution
import Mathlib.Analysis.SpecialFunctions.Log.Summable

/-!
# C82: the CUSUM test on random prices
-/

namespace Verif.Props.CusumLaw

open Verif Cusum Props.Cusum Sim MeasureTheory ProbabilityTheory Filter Topology

theorem observed_length (X : Nat → ℝ) (t : Nat) : (observed X t).length = t + 1 := by simp [observed]

theorem prices_observed {X : Nat → ℝ} (hX : ∀ i, 0 < X i) (t : Nat) : Prices (observed X t) X t := fun i hi => by
  refine ⟨?_, hX i⟩
  rw [observed, List.getElem?_map, List.getElem?_range (by omega)]
  rfl

/-- A departure above the largest critical value is a rejection. -/
theorem rejects_of {X : Nat → ℝ} (hX : ∀ i, 0 < X i) {t n : Nat} (hn : n < t) (hd : dev X t ≠ 0)
    (h : Real.sqrt (4.6 + Real.log t) < dep X t n) : RejectsLast (observed X t) := by
  obtain ⟨k, -, hmax, -, h1, -⟩ := cusum_spec (by omega) (prices_observed hX t) hd
  obtain ⟨c, hc, -, hc2⟩ := crit_range (y := observed X t) (t := t) (by omega) (by rw [observed_length]; omega)
  refine ⟨_, c, ?_, ?_, lt_of_le_of_lt hc2 (lt_of_lt_of_le h (hmax n hn))⟩
  · rw [observed_length]; exact h1
  · rw [observed_length]; exact hc

variable {Ω : Type*} [MeasurableSpace Ω] {P : Measure Ω} {ζ : Nat → Ω → ℝ} {X : Ω → Nat → ℝ} {m s : ℝ}

theorem std_sq (h : StdNormal P ζ) (t : Nat) : ∫ ω, ζ t ω ^ 2 ∂P = 1 := by
  have hP := h.prob
  have h1 := h.cov t t
  rw [covariance_eq_sub (h.memLp t) (h.memLp t), if_pos rfl, h.mean] at h1
  simp only [mul_zero, sub_zero] at h1
  rw [← h1]
  exact integral_congr_ae (ae_of_all _ fun ω => by simp [pow_two])

/-- Strong law for a function of the returns. -/
theorem slln (h : StdNormal P ζ) {g : ℝ → ℝ} (hg : Measurable g) (hi : Integrable (fun ω => g (ζ 0 ω)) P) :
    ∀ᵐ ω ∂P, Tendsto (fun t : Nat => (∑ i ∈ Finset.range t, g (ζ i ω)) / t) atTop (𝓝 (∫ ω, g (ζ 0 ω) ∂P)) := by
  refine strong_law_ae_real (fun t ω => g (ζ t ω)) hi (fun i j hij => ?_) fun i => ?_
  · exact (h.indep.indepFun hij).comp hg hg
  · have : IdentDistrib (ζ i) (ζ 0) P P :=
      ⟨(h.law i).aemeasurable, (h.law 0).aemeasurable, (h.law i).map_eq.trans (h.law 0).map_eq.symm⟩
    exact this.comp hg

/-- The mean return and the mean squared return of a long sample. -/
theorem return_limits (h : LogWalk P ζ X m s) :
    ∀ᵐ ω ∂P, Tendsto (fun t : Nat => (Real.log (X ω t) - Real.log (X ω 0)) / t) atTop (𝓝 m) ∧
      Tendsto (fun t => dev (X ω) t) atTop (𝓝 (Real.sqrt (m ^ 2 + s ^ 2))) := by
  have hP := h.normal.prob
  have hz : Integrable (ζ 0) P := (h.normal.memLp 0).integrable (by norm_num)
  have hz2 : Integrable (fun ω => ζ 0 ω ^ 2) P := (h.normal.memLp 0).integrable_sq
  have i1 : Integrable (fun ω => m + s * ζ 0 ω) P := (integrable_const m).add (hz.const_mul s)
  have e2 : (fun ω => (m + s * ζ 0 ω) ^ 2) = fun ω => m ^ 2 + 2 * m * s * ζ 0 ω + s ^ 2 * ζ 0 ω ^ 2 := by
    funext ω; ring
  have i2 : Integrable (fun ω => (m + s * ζ 0 ω) ^ 2) P := by
    rw [e2]
    exact ((integrable_const _).add (hz.const_mul _)).add (hz2.const_mul _)
  have v1 : ∫ ω, (m + s * ζ 0 ω) ∂P = m := by
    rw [integral_add (integrable_const m) (hz.const_mul s), integral_const, integral_const_mul, h.normal.mean]
    simp
  have v2 : ∫ ω, (m + s * ζ 0 ω) ^ 2 ∂P = m ^ 2 + s ^ 2 := by
    have i3 : Integrable (fun ω => m ^ 2 + 2 * m * s * ζ 0 ω) P := (integrable_const _).add (hz.const_mul _)
    rw [e2, integral_add i3 (hz2.const_mul _), integral_add (integrable_const _) (hz.const_mul _), integral_const,
      integral_const_mul, integral_const_mul, h.normal.mean, std_sq h.normal]
    simp
  have l1 := slln h.normal (g := fun x => m + s * x) (by fun_prop) i1
  have l2 := slln h.normal (g := fun x => (m + s * x) ^ 2) (by fun_prop) i2
  rw [v1] at l1
  rw [v2] at l2
  filter_upwards [l1, l2] with ω h1 h2
  constructor
  · refine h1.congr fun t => ?_
    rw [← Finset.sum_range_sub (fun i => Real.log (X ω i))]
    simp only [h.ret]
  · refine (h2.sqrt).congr fun t => ?_
    rw [dev]
    simp only [h.ret]

/-- C82. The deviation estimate of the test converges to the root mean square of the returns, which is the volatility only
without a trend. -/
theorem deviation_limit (h : LogWalk P ζ X m s) :
    ∀ᵐ ω ∂P, Tendsto (fun t => dev (X ω) t) atTop (𝓝 (Real.sqrt (m ^ 2 + s ^ 2))) :=
  (return_limits h).mono fun _ h => h.2

theorem crit_growth : Tendsto (fun t : Nat => Real.sqrt (4.6 + Real.log t) / Real.sqrt t) atTop (𝓝 0) := by
  have h1 : Tendsto (fun t : Nat => (4.6 + Real.log t) / (t : ℝ)) atTop (𝓝 0) := by
    have a : Tendsto (fun t : Nat => (4.6 : ℝ) / (t : ℝ)) atTop (𝓝 0) := tendsto_const_div_atTop_nhds_zero_nat _
    have b : Tendsto (fun t : Nat => Real.log t / (t : ℝ)) atTop (𝓝 0) := by
      have := (Real.isLittleO_log_id_atTop.tendsto_div_nhds_zero).comp tendsto_natCast_atTop_atTop
      exact this
    have := a.add b
    rw [add_zero] at this
    refine this.congr fun t => ?_
    rw [add_div]
  have h2 := h1.sqrt
  rw [Real.sqrt_zero] at h2
  refine h2.congr fun t => ?_
  rw [Real.sqrt_div' _ (Nat.cast_nonneg t)]

/-- C82. An upward trend is detected: almost surely the test rejects at every time from some time on. -/
theorem trend_detected (h : LogWalk P ζ X m s) (hm : 0 < m) :
    ∀ᵐ ω ∂P, ∀ᶠ t in atTop, RejectsLast (observed (X ω) t) := by
  have hS : 0 < Real.sqrt (m ^ 2 + s ^ 2) := Real.sqrt_pos.mpr (by positivity)
  filter_upwards [return_limits h] with ω ⟨h1, h2⟩
  have h3 := h1.div h2 hS.ne'
  have hlt : 0 < m / Real.sqrt (m ^ 2 + s ^ 2) := by positivity
  filter_upwards [crit_growth.eventually_lt h3 hlt, h2.eventually_const_lt hS, eventually_gt_atTop 0] with t a b c
  have ht : (0 : ℝ) < t := by exact_mod_cast c
  have hq : 0 < Real.sqrt t := Real.sqrt_pos.mpr ht
  refine rejects_of (h.pos ω) c b.ne' ?_
  rw [dep, Nat.cast_zero, sub_zero]
  have e : (Real.log (X ω t) - Real.log (X ω 0)) / (dev (X ω) t * Real.sqrt t) =
      (Real.log (X ω t) - Real.log (X ω 0)) / t / dev (X ω) t * Real.sqrt t := by
    rw [div_div, div_mul_eq_mul_div, div_eq_div_iff (mul_pos b hq).ne' (mul_pos ht b).ne']
    have : Real.sqrt t * Real.sqrt t = t := Real.mul_self_sqrt ht.le
    linear_combination (-(Real.log (X ω t) - Real.log (X ω 0)) * dev (X ω) t) * this
  rw [e, ← div_lt_iff₀ hq]
  exact a

/-- The levels that a single return has to exceed. -/
theorem levels {a b : ℝ} (ha : 0 < a) (ha2 : a < Real.sqrt 2) :
    ∀ᶠ t : Nat in atTop, 0 ≤ a * Real.sqrt (4.6 + Real.log (t + 1 : ℕ)) + b ∧
      (a * Real.sqrt (4.6 + Real.log (t + 1 : ℕ)) + b + 1) ^ 2 ≤ 2 * Real.log (t + 1) := by
  have hlog : Tendsto (fun t : Nat => Real.log (t + 1 : ℕ)) atTop atTop :=
    Real.tendsto_log_atTop.comp (tendsto_natCast_atTop_atTop.comp (tendsto_add_atTop_nat 1))
  have hu : Tendsto (fun t : Nat => Real.sqrt (Real.log (t + 1 : ℕ))) atTop atTop := Real.tendsto_sqrt_atTop.comp hlog
  have hd : 0 < Real.sqrt 2 - a := by linarith
  filter_upwards [hu.eventually_ge_atTop ((a * Real.sqrt 4.6 + |b| + 1) / (Real.sqrt 2 - a)), hu.eventually_ge_atTop (|b| / a),
    hlog.eventually_ge_atTop 0] with t h1 h2 h0
  have hb := neg_abs_le b
  have hb' := le_abs_self b
  rw [div_le_iff₀ hd] at h1
  rw [div_le_iff₀ ha] at h2
  set u := Real.sqrt (Real.log (t + 1 : ℕ)) with hu'
  have hul : u ≤ Real.sqrt (4.6 + Real.log (t + 1 : ℕ)) := Real.sqrt_le_sqrt (by linarith)
  have huu : Real.sqrt (4.6 + Real.log (t + 1 : ℕ)) ≤ Real.sqrt 4.6 + u := by
    refine Real.sqrt_le_iff.mpr ⟨by positivity, ?_⟩
    rw [add_sq, Real.sq_sqrt (by norm_num), hu', Real.sq_sqrt h0]
    have : 0 ≤ Real.sqrt 4.6 * Real.sqrt (Real.log (t + 1 : ℕ)) := by positivity
    linarith
  have l1 := mul_le_mul_of_nonneg_left hul ha.le
  have l2 := mul_le_mul_of_nonneg_left huu ha.le
  have hnn : 0 ≤ a * Real.sqrt (4.6 + Real.log (t + 1 : ℕ)) + b := by nlinarith
  refine ⟨hnn, ?_⟩
  have hle : a * Real.sqrt (4.6 + Real.log (t + 1 : ℕ)) + b + 1 ≤ Real.sqrt 2 * u := by nlinarith
  have hsq := pow_le_pow_left₀ (by linarith) hle 2
  refine hsq.trans (le_of_eq ?_)
  rw [mul_pow, Real.sq_sqrt (by norm_num), hu', Real.sq_sqrt h0]
  push_cast
  ring

/-- C82 (defect). False alarms: without a trend, and even with a falling trend, the test rejects in favour of an explosion
infinitely often, almost surely. The size of a sequence of decisions is one, not five percent. -/
theorem false_alarms (h : LogWalk P ζ X m s) (hms : |m| < s) :
    ∀ᵐ ω ∂P, ∃ᶠ t in atTop, RejectsLast (observed (X ω) t) := by
  have hs : 0 < s := lt_of_le_of_lt (abs_nonneg m) hms
  have hm2 : m ^ 2 < s ^ 2 := by rw [← sq_abs m]; exact pow_lt_pow_left₀ hms (abs_nonneg m) (by norm_num)
  have hS0 : 0 < Real.sqrt (m ^ 2 + s ^ 2) := Real.sqrt_pos.mpr (by positivity)
  have hS : Real.sqrt (m ^ 2 + s ^ 2) < Real.sqrt 2 * s := by
    rw [← Real.sqrt_sq hs.le, ← Real.sqrt_mul (by norm_num)]
    rw [Real.sqrt_sq hs.le]
    exact Real.sqrt_lt_sqrt (by positivity) (by linarith)
  obtain ⟨c, hc1, hc2⟩ := exists_between hS
  have hc0 : 0 < c := hS0.trans hc1
  have hio := infinitely_often h.normal (r := fun t => c / s * Real.sqrt (4.6 + Real.log (t + 1 : ℕ)) + -m / s)
    (levels (by positivity) (by rw [div_lt_iff₀ hs]; exact hc2))
  filter_upwards [deviation_limit h, hio] with ω h1 h2
  have h3 := (tendsto_add_atTop_iff_nat 1).mpr h1
  have key : ∃ᶠ t in atTop, RejectsLast (observed (X ω) (t + 1)) := by
    refine (h2.and_eventually ((h3.eventually_lt_const hc1).and (h3.eventually_const_lt hS0))).mono fun t ht => ?_
    obtain ⟨a, b, d⟩ := ht
    refine rejects_of (h.pos ω) (Nat.lt_succ_self t) d.ne' ?_
    rw [dep]
    simp only [h.ret]
    have e : ((t + 1 : ℕ) : ℝ) - t = 1 := by push_cast; ring
    rw [e, Real.sqrt_one, mul_one, lt_div_iff₀ d]
    have l : Real.sqrt (4.6 + Real.log (t + 1 : ℕ)) * dev (X ω) (t + 1) ≤ Real.sqrt (4.6 + Real.log (t + 1 : ℕ)) * c :=
      mul_le_mul_of_nonneg_left b.le (Real.sqrt_nonneg _)
    refine lt_of_le_of_lt l ?_
    have a' : (c / s * Real.sqrt (4.6 + Real.log (t + 1 : ℕ)) + -m / s) * s < ζ t ω * s := mul_lt_mul_of_pos_right a hs
    have : (c / s * Real.sqrt (4.6 + Real.log (t + 1 : ℕ)) + -m / s) * s = c * Real.sqrt (4.6 + Real.log (t + 1 : ℕ)) - m := by
      field_simp
      ring
    rw [this] at a'
    linarith
  exact (tendsto_add_atTop_nat 1).frequently (p := fun t => RejectsLast (observed (X ω) t)) key

/-! ## The distribution of a departure -/

theorem log_diff (h : LogWalk P ζ X m s) {n t : Nat} (hn : n ≤ t) (ω : Ω) :
    Real.log (X ω t) - Real.log (X ω n) = ((t : ℝ) - n) * m + s * ∑ i ∈ Finset.Ico n t, ζ i ω := by
  rw [telescope (fun i => Real.log (X ω i)) hn]
  simp only [h.ret]
  rw [Finset.sum_add_distrib, ← Finset.mul_sum, Finset.sum_const, Nat.card_Ico, nsmul_eq_mul, Nat.cast_sub hn]

/-- C82. With the true volatility, a departure without trend is standard normal, as the documentation says. -/
theorem departure_law (h : LogWalk P ζ X 0 s) (hs : 0 < s) {n t : Nat} (hn : n < t) :
    HasLaw (fun ω => (Real.log (X ω t) - Real.log (X ω n)) / (s * Real.sqrt ((t : ℝ) - n))) (gaussianReal 0 1) P := by
  have hd : (0 : ℝ) < (t : ℝ) - n := sub_pos.mpr (by exact_mod_cast hn)
  have hq := Real.sqrt_pos.mpr hd
  have e : (fun ω => (Real.log (X ω t) - Real.log (X ω n)) / (s * Real.sqrt ((t : ℝ) - n))) =
      fun ω => 0 + ∑ i ∈ Finset.Ico n t, (1 / Real.sqrt ((t : ℝ) - n)) * ζ i ω := by
    funext ω
    rw [log_diff h hn.le, ← Finset.mul_sum]
    field_simp
    ring
  rw [e]
  have hg := (gaussian_affine h.normal (T := Unit) (fun _ => Finset.Ico n t) (fun _ => 0)
    (fun _ _ => 1 / Real.sqrt ((t : ℝ) - n))).hasGaussianLaw_eval ()
  refine ⟨hg.aemeasurable, ?_⟩
  rw [hg.map_eq_gaussianReal, h.normal.mean_affine, ← covariance_self hg.aemeasurable, h.normal.cov_affine]
  congr 1
  rw [Finset.sum_const, Nat.card_Ico, nsmul_eq_mul, Nat.cast_sub hn.le, ← sq, div_pow, one_pow, Real.sq_sqrt hd.le,
    mul_one_div_cancel hd.ne']
  simp

/-- C82 (defect). The departure that the test computes is never standard normal, whatever the prices: it is at most `sqrt t`. -/
theorem departure_not_normal (X : Ω → Nat → ℝ) {n t : Nat} (hn : n < t) :
    ¬ HasLaw (fun ω => dep (X ω) t n) (gaussianReal 0 1) P := by
  intro h
  have h1 := gauss_tail (Real.sqrt_nonneg (t : ℝ))
  rw [← h.map_eq, Measure.map_apply_of_aemeasurable h.aemeasurable measurableSet_Ioi] at h1
  have h2 : (fun ω => dep (X ω) t n) ⁻¹' Set.Ioi (Real.sqrt t) = ∅ := by
    ext ω
    simp only [Set.mem_preimage, Set.mem_Ioi, Set.mem_empty_iff_false, iff_false, not_lt]
    exact (abs_le.mp (dep_bound hn)).2
  rw [h2, measure_empty, nonpos_iff_eq_zero, ENNReal.ofReal_eq_zero] at h1
  have : 0 < (Real.sqrt (2 * Real.pi))⁻¹ * Real.exp (-(Real.sqrt t + 1) ^ 2 / 2) := by positivity
  linarith

theorem log_price_aem (h : LogWalk P ζ X m s) (t : Nat) : AEMeasurable (fun ω => Real.log (X ω t) - Real.log (X ω 0)) P := by
  have e : (fun ω => Real.log (X ω t) - Real.log (X ω 0)) = fun ω => ((t : ℝ) - (0 : ℕ)) * m + s * ∑ i ∈ Finset.Ico 0 t, ζ i ω :=
    funext fun ω => log_diff h (Nat.zero_le t) ω
  rw [e]
  exact aemeasurable_const.add (aemeasurable_const.mul (Finset.aemeasurable_fun_sum _ fun i _ => (h.normal.law i).aemeasurable))

theorem dev_aem (h : LogWalk P ζ X m s) (t : Nat) : AEMeasurable (fun ω => dev (X ω) t) P := by
  unfold dev
  simp only [h.ret]
  refine (AEMeasurable.div_const (Finset.aemeasurable_fun_sum _ fun i _ => ?_) _).sqrt
  exact (aemeasurable_const.add (aemeasurable_const.mul (h.normal.law i).aemeasurable)).pow_const 2

/-- C82. Without trend the departure from a fixed time is asymptotically standard normal. -/
theorem departure_asymptotic [IsProbabilityMeasure P] (h : LogWalk P ζ X 0 s) (hs : 0 < s) (n : Nat) :
    TendstoInDistribution (fun k ω => dep (X ω) (n + 1 + k) n) atTop (id : ℝ → ℝ) (fun _ : Nat => P) (gaussianReal 0 1) := by
  have hl := fun k => departure_law h hs (n := n) (t := n + 1 + k) (by omega)
  have h1 : TendstoInDistribution (fun (k : Nat) ω =>
      (Real.log (X ω (n + 1 + k)) - Real.log (X ω n)) / (s * Real.sqrt (((n + 1 + k : ℕ) : ℝ) - n))) atTop (id : ℝ → ℝ)
      (fun _ : Nat => P) (gaussianReal 0 1) := by
    refine tendstoInDistribution_of_identDistrib 0 (fun k => ?_) ?_
    · exact ⟨(hl 0).aemeasurable, (hl k).aemeasurable, (hl 0).map_eq.trans (hl k).map_eq.symm⟩
    · exact ⟨(hl 0).aemeasurable, aemeasurable_id, by rw [(hl 0).map_eq, Measure.map_id]⟩
  have h2 : ∀ᵐ ω ∂P, Tendsto (fun k => s / dev (X ω) (n + 1 + k)) atTop (𝓝 1) := by
    filter_upwards [deviation_limit h] with ω hω
    have e : Real.sqrt (0 ^ 2 + s ^ 2) = s := by rw [zero_pow two_ne_zero, zero_add, Real.sqrt_sq hs.le]
    rw [e] at hω
    have h3 : Tendsto (fun k => dev (X ω) (n + 1 + k)) atTop (𝓝 s) := by
      have := (tendsto_add_atTop_iff_nat (n + 1)).mpr hω
      simpa only [Nat.add_comm] using this
    have := (tendsto_const_nhds (x := s)).div h3 hs.ne'
    rwa [div_self hs.ne'] at this
  have h4 : ∀ k, AEMeasurable (fun ω => s / dev (X ω) (n + 1 + k)) P := fun k => aemeasurable_const.div (dev_aem h _)
  have h3 : TendstoInMeasure P (fun k ω => s / dev (X ω) (n + 1 + k)) atTop fun _ => (1 : ℝ) :=
    tendstoInMeasure_of_tendsto_ae (fun k => (h4 k).aestronglyMeasurable) h2
  have h5 := h1.continuous_comp_prodMk_of_tendstoInMeasure_const (g := fun x : ℝ × ℝ => x.1 * x.2) (by fun_prop) h3 h4
  refine h5.congr (fun k => ae_of_all _ fun ω => ?_) (ae_of_all _ fun x => by simp)
  simp only [dep]
  rw [div_mul_div_comm]
  by_cases hd : dev (X ω) (n + 1 + k) = 0
  · simp [hd]
  · rw [mul_comm _ s, mul_assoc s, mul_div_mul_left _ _ hs.ne', mul_comm (Real.sqrt _)]

/-! ## Simulated prices -/

/-- The shocks of one variate of one path are independent standard normal variables. -/
theorem shock_std {z : Ω → Nat → ℝ} (hz : Draws P z) {L : Option Arr} {v n : Nat} (q : Fin n) (j : Fin v)
    (hL : corOf L v j j = 1) : StdNormal P fun t ω => shock L v (z ω) (t * n + q) j := by
  obtain ⟨h1, h2, h3⟩ := shocks hz L (n := n) (v := v)
  constructor
  · intro t
    have hg := h1.hasGaussianLaw_eval (t, q, j)
    refine ⟨hg.aemeasurable, ?_⟩
    have hv := h3 (t, q, j) (t, q, j)
    rw [covariance_self hg.aemeasurable, if_pos ⟨rfl, rfl⟩, hL] at hv
    exact (hg.map_eq_gaussianReal).trans (by rw [hv, h2 (t, q, j)]; simp)
  · have := IsGaussianProcess.iIndepFun_of_covariance_eq_zero (T := Nat) (S := fun _ => Unit)
      (X := fun t _ ω => shock L v (z ω) (t * n + q) j) (P := P)
      (h1.comp_right fun y : (_ : Nat) × Unit => ((y.1, q, j) : Nat × Fin n × Fin v))
      (fun t _ => h1.aemeasurable (t, q, j)) fun t t' ht _ _ => (h3 (t, q, j) (t', q, j)).trans (if_neg (by tauto))
    exact this.comp (fun _ f => f ()) fun _ => measurable_pi_apply ()

variable {z : Ω → Nat → ℝ} {p : BMParams} {x0 : List ℝ} {dt : ℝ} {n : Nat}

/-- The price of variate `j` of path `q` of a geometric model at row `t`, whatever the number of simulated rows. -/
noncomputable def gbmPrice (p : BMParams) (x0 : List ℝ) (dt : ℝ) (n q j : Nat) (x : Nat → ℝ) (t : Nat) : ℝ :=
  Real.exp (Real.log (start x0 p.drift.length q j) + (bentry p.drift j - bentry p.vol j ^ 2 / 2) * dt * t +
    ∑ u ∈ Finset.range t, bentry p.vol j * Real.sqrt dt * shock p.L p.drift.length x (u * n + q) j)

theorem gbm_walk (hz : Draws P z) (q : Fin n) (j : Fin p.drift.length) (hL : corOf p.L p.drift.length j j = 1) :
    LogWalk P (fun t ω => shock p.L p.drift.length (z ω) (t * n + q) j) (fun ω => gbmPrice p x0 dt n q j (z ω))
      ((bentry p.drift j - bentry p.vol j ^ 2 / 2) * dt) (bentry p.vol j * Real.sqrt dt) := by
  refine ⟨shock_std hz q j hL, fun ω t => Real.exp_pos _, fun ω t => ?_⟩
  rw [gbmPrice, gbmPrice, Real.log_exp, Real.log_exp, Finset.sum_range_succ]
  push_cast
  ring

theorem gbm_observed {s : Nat} {x : Nat → ℝ} {a : Arr} (hx : ∀ x ∈ x0, 0 < x) (h : gbmSample p x0 dt s n x = .ok a) {q j : Nat}
    (hq : q < n) (hj : j < p.drift.length) :
    (a.col (q * p.drift.length + j)).map XF.fin = observed (gbmPrice p x0 dt n q j x) s := by
  have hr : a.rows = s + 1 := (gbm_paths h hx).1.1
  rw [Arr.col, observed, List.map_map, hr]
  refine List.map_congr_left fun t _ => ?_
  rw [Function.comp_apply, gbmPrice, ← gbm_closed hx h hq hj, path, Real.exp_log ((gbm_paths h hx).2.2.1 _ _)]

/-- C82. Simulated geometric paths whose log prices rise on average are flagged at their last row, almost surely for every
sufficiently long simulation. -/
theorem gbm_trend_detected (hz : Draws P z) (hdt : 0 < dt) (hx : ∀ x ∈ x0, 0 < x) {a : Nat → Ω → Arr}
    (h : ∀ (s : Nat) ω, gbmSample p x0 dt s n (z ω) = .ok (a s ω)) (q : Fin n) (j : Fin p.drift.length)
    (hL : corOf p.L p.drift.length j j = 1) (hd : bentry p.vol j ^ 2 / 2 < bentry p.drift j) :
    ∀ᵐ ω ∂P, ∀ᶠ s in atTop, RejectsLast (((a s ω).col (q * p.drift.length + j)).map XF.fin) := by
  have := trend_detected (gbm_walk (x0 := x0) (dt := dt) hz q j hL) (mul_pos (sub_pos.mpr hd) hdt)
  filter_upwards [this] with ω hω
  filter_upwards [hω] with s hs
  rw [gbm_observed hx (h s ω) q.2 j.2]
  exact hs

/-- C82 (defect). Simulated geometric paths are flagged at infinitely many lengths, almost surely, even if they fall on average;
the step only has to be so small that the volatility of a step exceeds its trend. -/
theorem gbm_false_alarms (hz : Draws P z) (hdt : 0 < dt) (hx : ∀ x ∈ x0, 0 < x) {a : Nat → Ω → Arr}
    (h : ∀ (s : Nat) ω, gbmSample p x0 dt s n (z ω) = .ok (a s ω)) (q : Fin n) (j : Fin p.drift.length)
    (hL : corOf p.L p.drift.length j j = 1)
    (hd : |bentry p.drift j - bentry p.vol j ^ 2 / 2| * Real.sqrt dt < bentry p.vol j) :
    ∀ᵐ ω ∂P, ∃ᶠ s in atTop, RejectsLast (((a s ω).col (q * p.drift.length + j)).map XF.fin) := by
  have hq := Real.sqrt_pos.mpr hdt
  have hlt : |(bentry p.drift j - bentry p.vol j ^ 2 / 2) * dt| < bentry p.vol j * Real.sqrt dt := by
    rw [abs_mul, abs_of_pos hdt]
    have := mul_lt_mul_of_pos_right hd hq
    rwa [mul_assoc, Real.mul_self_sqrt hdt.le] at this
  have := false_alarms (gbm_walk (x0 := x0) (dt := dt) hz q j hL) hlt
  filter_upwards [this] with ω hω
  refine hω.mono fun s hs => ?_
  rw [gbm_observed hx (h s ω) q.2 j.2]
  exact hs

/-- Concrete case: two paths of one variate with drift -5% and volatility 20%, daily steps, start 100. The prices fall on average,
and the hypotheses of `gbm_false_alarms` hold. -/
example : ∃ (Ω : Type) (_ : MeasurableSpace Ω) (P : Measure Ω) (z : Ω → Nat → ℝ) (a : Nat → Ω → Arr), Draws P z ∧
    (∀ (s : Nat) ω, gbmSample ⟨[-(1 / 20)], [1 / 5], none⟩ [100] (1 / 252) s 2 (z ω) = .ok (a s ω)) ∧
    ∀ᵐ ω ∂P, ∃ᶠ s in atTop, RejectsLast (((a s ω).col 1).map XF.fin) := by
  obtain ⟨Ω, m, P, z, hz, -⟩ := draws_exist
  have h : ∀ (s : Nat) ω, ∃ a, gbmSample ⟨[-(1 / 20)], [1 / 5], none⟩ [100] (1 / 252) s 2 (z ω) = .ok a := fun s ω =>
    (gbm_succeeds_iff s 2).mpr ((bm_succeeds_iff s 2).mpr ⟨by simp, by norm_num, by simp, by simp, by simp, by simp, by simp⟩)
  choose a ha using h
  refine ⟨Ω, m, P, z, a, hz, ha, ?_⟩
  have := gbm_false_alarms hz (by norm_num) (by simp) ha (1 : Fin 2) (0 : Fin 1) (by simp [corOf]) (by
    have h1 : Real.sqrt (1 / 252) ≤ 1 := Real.sqrt_le_one.mpr (by norm_num)
    have h2 : |bentry [-(1 / 20 : ℝ)] 0 - bentry [(1 / 5 : ℝ)] 0 ^ 2 / 2| = 7 / 100 := by
      simp only [bentry, List.length_singleton, if_true, List.getD_cons_zero]
      norm_num [abs_of_neg]
    have h3 : bentry [(1 / 5 : ℝ)] 0 = 1 / 5 := by simp [bentry]
    simp only [Fin.val_zero]
    rw [h2, h3]
    linarith)
  simpa using this

end Verif.Props.CusumLaw
