import Verif.Props.IndLaw
import Mathlib.Analysis.SpecificLimits.Normed

/-!
# C104: what the exponentially weighted indicators estimate
-/

namespace Verif.Props.IndLaw

open Verif Ser Ind Stat Sim IndRolling IndEwm IndRsi MicroRollLaw MicroVolLaw MeasureTheory ProbabilityTheory Filter Topology

/-- The sum of the weights up to position `t`. -/
noncomputable def total (q : ℝ) (t : Nat) : ℝ := ∑ i ∈ Finset.range (t + 1), q ^ (t - i)

/-- The weighted mean of the values up to position `t`. -/
noncomputable def avg (q : ℝ) (y : Nat → ℝ) (t : Nat) : ℝ := (∑ i ∈ Finset.range (t + 1), q ^ (t - i) * y i) / total q t

theorem total_eq (q : ℝ) (t : Nat) : total q t = ∑ k ∈ Finset.range (t + 1), q ^ k := by
  rw [total, ← Finset.sum_range_reflect (fun k => q ^ k)]
  refine Finset.sum_congr rfl fun i hi => ?_
  rw [show t + 1 - 1 - i = t - i by omega]

theorem total_pos {q : ℝ} (hq : 0 ≤ q) (t : Nat) : 0 < total q t := by
  rw [total, Finset.sum_range_succ]
  have : 0 ≤ ∑ i ∈ Finset.range t, q ^ (t - i) := Finset.sum_nonneg fun i _ => pow_nonneg hq _
  simp only [Nat.sub_self, pow_zero]
  linarith

theorem total_lt {q : ℝ} (hq : 0 < q) {t : Nat} (ht : 1 ≤ t) : total (q ^ 2) t < total q t ^ 2 := by
  have h1 : total (q ^ 2) t = ∑ i ∈ Finset.range (t + 1), (q ^ (t - i)) ^ 2 :=
    Finset.sum_congr rfl fun i _ => by rw [← pow_mul, ← pow_mul, mul_comm]
  have h2 : total q t ^ 2 = ∑ i ∈ Finset.range (t + 1), q ^ (t - i) * total q t := by
    rw [← Finset.sum_mul, pow_two]; rfl
  rw [h1, h2]
  have hs : ∀ i ∈ Finset.range (t + 1), q ^ (t - i) ≤ total q t := fun i hi =>
    Finset.single_le_sum (f := fun i => q ^ (t - i)) (fun j _ => pow_nonneg hq.le _) hi
  refine Finset.sum_lt_sum (fun i hi => ?_) ⟨t, Finset.mem_range.mpr (by omega), ?_⟩
  · rw [pow_two]
    exact mul_le_mul_of_nonneg_left (hs i hi) (pow_nonneg hq.le _)
  · have : 1 < total q t := by
      rw [total, Finset.sum_range_succ, Nat.sub_self, pow_zero]
      have : 0 < ∑ i ∈ Finset.range t, q ^ (t - i) :=
        Finset.sum_pos (fun i _ => pow_pos hq _) ⟨0, Finset.mem_range.mpr (by omega)⟩
      linarith
    simpa using this

theorem num_first (Y : Nat → ℝ) {n i : Nat} (h : i < n) : num (first Y n) i = some (Y i) := by
  rw [num, first, List.getElem?_map, List.getElem?_range h]
  rfl

theorem wsumTo_first (q : ℝ) (g : ℝ → ℝ) (Y : Nat → ℝ) {n t : Nat} (h : t < n) :
    wsumTo q g (first Y n) t = ∑ i ∈ Finset.range (t + 1), q ^ (t - i) * g (Y i) := by
  refine Finset.sum_congr rfl fun i hi => ?_
  have := Finset.mem_range.mp hi
  rw [num_first Y (by omega)]
  rfl

theorem wmean_first (q : ℝ) (Y : Nat → ℝ) {n t : Nat} (h : t < n) : wmean q (first Y n) t = avg q Y t := by
  rw [wmean, wsumTo_first _ _ _ h, wsumTo_first _ _ _ h, avg, total]
  simp only [mul_one]

/-- The exponentially weighted mean of a series of numbers. -/
theorem ewmMean_first {span : ℝ} (hs : 1 ≤ span) (Y : Nat → ℝ) {n t : Nat} (h : t < n) :
    ∃ u, Ind.ewmMean (first Y n) span = .ok u ∧ u[t]? = some (.fin (avg (decay span) Y t)) := by
  refine ⟨_, ewmMean_eq hs _, ?_⟩
  have hn : (num (first Y n) t).isSome := by rw [num_first Y h]; rfl
  rw [ewm_mean_formula hs (ewmMean_eq hs _) (by simpa [first] using h) ⟨t, le_rfl, hn⟩ (.inr hn), wmean_first _ _ h]

variable {Ω : Type*} [MeasurableSpace Ω] {P : Measure Ω} {X : Nat → Ω → ℝ} {S : Ω → Nat → ℝ}

theorem avg_eq_sum (q : ℝ) (y : Nat → ℝ) (t : Nat) :
    avg q y t = ∑ i ∈ Finset.range (t + 1), q ^ (t - i) / total q t * y i := by
  rw [avg, Finset.sum_div]
  exact Finset.sum_congr rfl fun i _ => by ring

theorem avg_const {q : ℝ} (hq : 0 ≤ q) (c : ℝ) (t : Nat) : avg q (fun _ => c) t = c := by
  rw [avg, ← Finset.sum_mul]
  exact mul_div_cancel_left₀ _ (total_pos hq t).ne'

/-- The expectation of a weighted mean is the weighted mean of the expectations. -/
theorem integral_avg (q : ℝ) (Y : Nat → Ω → ℝ) (t : Nat) (hY : ∀ i ≤ t, Integrable (Y i) P) :
    Integrable (fun ω => avg q (fun i => Y i ω) t) P ∧
      ∫ ω, avg q (fun i => Y i ω) t ∂P = avg q (fun i => ∫ ω, Y i ω ∂P) t := by
  have hi : ∀ i ∈ Finset.range (t + 1), Integrable (fun ω => q ^ (t - i) / total q t * Y i ω) P := fun i hi =>
    (hY i (by have := Finset.mem_range.mp hi; omega)).const_mul _
  simp only [avg_eq_sum]
  refine ⟨integrable_finsetSum _ hi, ?_⟩
  rw [integral_finsetSum _ hi]
  exact Finset.sum_congr rfl fun i _ => integral_const_mul _ _

/-- The variance of a weighted mean of independent values with a common law. -/
theorem variance_avg (h : IID P X) (h2 : MemLp (X 0) 2 P) (q : ℝ) (t : Nat) :
    MemLp (fun ω => avg q (fun i => X i ω) t) 2 P ∧
      Var[fun ω => avg q (fun i => X i ω) t; P] = Var[X 0; P] * (total (q ^ 2) t / total q t ^ 2) := by
  have hP := h.indep.isProbabilityMeasure
  have hm : ∀ i, MemLp (X i) 2 P := fun i => (h.ident i).memLp_iff.mpr h2
  have hi : ∀ i ∈ Finset.range (t + 1), MemLp (fun ω => q ^ (t - i) / total q t * X i ω) 2 P := fun i _ =>
    (hm i).const_mul _
  have e : (fun ω => avg q (fun i => X i ω) t) = ∑ i ∈ Finset.range (t + 1), fun ω => q ^ (t - i) / total q t * X i ω := by
    funext ω
    rw [avg_eq_sum, Finset.sum_apply]
  rw [e]
  refine ⟨memLp_finsetSum' _ hi, ?_⟩
  rw [IndepFun.variance_sum hi]
  · rw [show total (q ^ 2) t = ∑ i ∈ Finset.range (t + 1), (q ^ 2) ^ (t - i) from rfl, Finset.sum_div, Finset.mul_sum]
    refine Finset.sum_congr rfl fun i _ => ?_
    rw [variance_const_mul, (h.ident i).variance_eq, div_pow, ← pow_mul, ← pow_mul, mul_comm 2]
    ring
  · intro i _ j _ hij
    exact (h.indep.indepFun hij).comp (measurable_const_mul _) (measurable_const_mul _)

theorem total_tendsto {q : ℝ} (h0 : 0 ≤ q) (h1 : q < 1) : Tendsto (total q) atTop (𝓝 (1 - q)⁻¹) := by
  have := (hasSum_geometric_of_lt_one h0 h1).tendsto_sum_nat.comp (tendsto_add_atTop_nat 1)
  exact this.congr fun t => (total_eq q t).symm

/-- In the long run the weights are worth `span` values. -/
theorem weights_tendsto {span : ℝ} (hs : 1 ≤ span) :
    Tendsto (fun t => total (decay span ^ 2) t / total (decay span) t ^ 2) atTop (𝓝 (1 / span)) := by
  have h0 := decay_nonneg hs
  have h1 := decay_lt_one hs
  have l1 := total_tendsto h0 h1
  have l2 := total_tendsto (q := decay span ^ 2) (by positivity) (by nlinarith)
  have hne : (1 - decay span) ≠ 0 := by linarith
  have := l2.div (l1.pow 2) (pow_ne_zero 2 (inv_ne_zero hne))
  have e : (1 - decay span ^ 2)⁻¹ / (1 - decay span)⁻¹ ^ 2 = 1 / span := by
    have hp : (1 + decay span) ≠ 0 := by linarith
    have e1 : (1 - decay span ^ 2)⁻¹ / (1 - decay span)⁻¹ ^ 2 = (1 - decay span) / (1 + decay span) := by
      rw [show 1 - decay span ^ 2 = (1 - decay span) * (1 + decay span) by ring]
      field_simp
    rw [e1]
    have hs' : span + 1 ≠ 0 := by linarith
    have hs0 : span ≠ 0 := by linarith
    have a : 1 - decay span = 2 / (span + 1) := by rw [decay]; field_simp; ring
    have b : 1 + decay span = 2 * span / (span + 1) := by rw [decay]; field_simp; ring
    rw [a, b]
    field_simp
  rw [e] at this
  exact this

/-- The exponentially weighted mean of independent values with a common law is unbiased at every position; its variance
tends to the variance of the values over the span, not to zero. -/
theorem ewmMean_law {span : ℝ} (hs : 1 ≤ span) (h : IID P X) (h2 : MemLp (X 0) 2 P) :
    ∃ Y : Nat → Ω → ℝ,
      (∀ n t ω, t < n → ∃ u, Ind.ewmMean (first (fun i => X i ω) n) span = .ok u ∧ u[t]? = some (.fin (Y t ω))) ∧
      (∀ t, ∫ ω, Y t ω ∂P = ∫ ω, X 0 ω ∂P) ∧
      (∀ t, Var[Y t; P] = Var[X 0; P] * (total (decay span ^ 2) t / total (decay span) t ^ 2)) ∧
      Tendsto (fun t => Var[Y t; P]) atTop (𝓝 (Var[X 0; P] / span)) := by
  have hP := h.indep.isProbabilityMeasure
  have hi : ∀ i, Integrable (X i) P := fun i => (h.ident i).integrable_iff.mpr (h2.integrable (by norm_num))
  refine ⟨fun t ω => avg (decay span) (fun i => X i ω) t, fun n t ω ht => ewmMean_first hs _ ht, fun t => ?_,
    fun t => (variance_avg h h2 _ t).2, ?_⟩
  · rw [(integral_avg _ X t fun i _ => hi i).2, ← avg_const (decay_nonneg hs) (∫ ω, X 0 ω ∂P) t]
    congr 1
    funext i
    exact (h.ident i).integral_eq
  · have := (weights_tendsto hs).const_mul Var[X 0; P]
    rw [mul_one_div] at this
    exact this.congr fun t => ((variance_avg h h2 _ t).2).symm

theorem sum_sq_avg {q : ℝ} (hq : 0 ≤ q) (y : Nat → ℝ) (c : ℝ) (t : Nat) :
    ∑ i ∈ Finset.range (t + 1), q ^ (t - i) * (y i - avg q y t) ^ 2 =
      ∑ i ∈ Finset.range (t + 1), q ^ (t - i) * (y i - c) ^ 2 - total q t * (avg q y t - c) ^ 2 := by
  have e : ∑ i ∈ Finset.range (t + 1), q ^ (t - i) * y i = total q t * avg q y t := by
    rw [avg, mul_div_cancel₀ _ (total_pos hq t).ne']
  have h1 : ∀ d, ∑ i ∈ Finset.range (t + 1), q ^ (t - i) * (y i - d) ^ 2 =
      ∑ i ∈ Finset.range (t + 1), q ^ (t - i) * y i ^ 2 - 2 * d * (total q t * avg q y t) + d ^ 2 * total q t := by
    intro d
    rw [← e, total, Finset.mul_sum, Finset.mul_sum, ← Finset.sum_sub_distrib, ← Finset.sum_add_distrib]
    exact Finset.sum_congr rfl fun i _ => by ring
  rw [h1, h1]
  ring

theorem wvar_first (q : ℝ) (Y : Nat → ℝ) {n t : Nat} (h : t < n) :
    wvar q (first Y n) t = total q t * (∑ i ∈ Finset.range (t + 1), q ^ (t - i) * (Y i - avg q Y t) ^ 2) /
      (total q t ^ 2 - total (q ^ 2) t) := by
  rw [wvar, wsumTo_first _ _ _ h, wsumTo_first _ _ _ h, wsumTo_first _ _ _ h, wmean_first _ _ h]
  simp only [mul_one]
  rfl

theorem count_first (Y : Nat → ℝ) {n t : Nat} (h : t < n) : count (first Y n) t = t + 1 := by
  rw [count, Finset.filter_true_of_mem, Finset.card_range]
  intro i hi
  have := Finset.mem_range.mp hi
  rw [num_first Y (by omega)]
  rfl

/-- The square of the exponentially weighted standard deviation of independent values with a common law is unbiased for
their variance from the second position on, and the standard deviation itself is too small on average. -/
theorem ewmStd_law {span : ℝ} (hs : 1 < span) (h : IID P X) (h2 : MemLp (X 0) 2 P) :
    ∃ Y : Nat → Ω → ℝ,
      (∀ n t ω, t < n → 1 ≤ t → ∃ u, Ind.ewmStd (first (fun i => X i ω) n) span = .ok u ∧ u[t]? = some (.fin (Y t ω))) ∧
      (∀ t, 1 ≤ t → ∫ ω, Y t ω ^ 2 ∂P = Var[X 0; P]) ∧ (∀ t, 1 ≤ t → ∫ ω, Y t ω ∂P ≤ Real.sqrt Var[X 0; P]) := by
  have hP := h.indep.isProbabilityMeasure
  set q := decay span with hq
  have hq0 : 0 < q := decay_pos hs
  have hm : ∀ i, MemLp (X i) 2 P := fun i => (h.ident i).memLp_iff.mpr h2
  have hi : ∀ i, Integrable (X i) P := fun i => (hm i).integrable (by norm_num)
  set μ := ∫ ω, X 0 ω ∂P with hμ
  have hmean : ∀ i, ∫ ω, X i ω ∂P = μ := fun i => (h.ident i).integral_eq
  set V : Nat → Ω → ℝ := fun t ω => total q t * (∑ i ∈ Finset.range (t + 1), q ^ (t - i) * (X i ω - avg q (fun i => X i ω) t) ^ 2) /
      (total q t ^ 2 - total (q ^ 2) t) with hV
  have hval : ∀ n t ω, t < n → 1 ≤ t → ∃ u, Ind.ewmStd (first (fun i => X i ω) n) span = .ok u ∧
      u[t]? = some (.fin (Real.sqrt (V t ω))) ∧ 0 ≤ V t ω := by
    intro n t ω hn ht
    obtain ⟨u, hu⟩ := (IndCausal.ok_iff (first (fun i => X i ω) n) [] [] [] 0 span 1 1 meanF).2.2.2.1.2 hs.le
    have hf := (ewm_std_formula hs hu (t := t) (by simpa [first] using hn)).1 (by rw [count_first _ hn]; omega)
    rw [wvar_first _ _ hn] at hf
    exact ⟨u, hu, hf⟩
  have hsq : ∀ t, Integrable (fun ω => (avg q (fun i => X i ω) t - μ) ^ 2) P := fun t =>
    ((variance_avg h h2 q t).1.sub (memLp_const μ)).integrable_sq
  have hsqi : ∀ i, Integrable (fun ω => (X i ω - μ) ^ 2) P := fun i => ((hm i).sub (memLp_const μ)).integrable_sq
  have ei : ∀ i, ∫ ω, (X i ω - μ) ^ 2 ∂P = Var[X 0; P] := by
    intro i
    rw [← (h.ident i).variance_eq, variance_eq_integral (hm i).aemeasurable, hmean i]
  have ea : ∀ t, ∫ ω, (avg q (fun i => X i ω) t - μ) ^ 2 ∂P = Var[X 0; P] * (total (q ^ 2) t / total q t ^ 2) := by
    intro t
    rw [← (variance_avg h h2 q t).2, variance_eq_integral (variance_avg h h2 q t).1.aemeasurable]
    have : ∫ ω, avg q (fun i => X i ω) t ∂P = μ := by
      rw [(integral_avg _ X t fun i _ => hi i).2]
      simp only [hmean]
      exact avg_const hq0.le _ _
    rw [this]
  have hint : ∀ t, Integrable (V t) P ∧ (1 ≤ t → ∫ ω, V t ω ∂P = Var[X 0; P]) := by
    intro t
    have hsum : ∀ i ∈ Finset.range (t + 1), Integrable (fun ω => q ^ (t - i) * (X i ω - μ) ^ 2) P := fun i _ =>
      (hsqi i).const_mul _
    have e : V t = fun ω => total q t * (∑ i ∈ Finset.range (t + 1), q ^ (t - i) * (X i ω - μ) ^ 2 -
        total q t * (avg q (fun i => X i ω) t - μ) ^ 2) / (total q t ^ 2 - total (q ^ 2) t) := by
      funext ω
      simp only [hV]
      rw [sum_sq_avg hq0.le _ μ]
    rw [e]
    have h1 : Integrable (fun ω => ∑ i ∈ Finset.range (t + 1), q ^ (t - i) * (X i ω - μ) ^ 2) P := integrable_finsetSum _ hsum
    have h3 : Integrable (fun ω => total q t * (avg q (fun i => X i ω) t - μ) ^ 2) P := (hsq t).const_mul _
    refine ⟨((h1.sub h3).const_mul _).div_const _, fun ht => ?_⟩
    rw [integral_div, integral_const_mul, integral_sub h1 h3, integral_finsetSum _ hsum, integral_const_mul, ea]
    simp only [integral_const_mul, ei]
    rw [← Finset.sum_mul]
    have hT := (total_pos hq0.le t).ne'
    have hD : total q t ^ 2 - total (q ^ 2) t ≠ 0 := by
      have := total_lt hq0 ht
      linarith
    rw [show ∑ i ∈ Finset.range (t + 1), q ^ (t - i) = total q t from rfl]
    field_simp
  have hVn : ∀ t, 1 ≤ t → ∀ ω, 0 ≤ V t ω := fun t ht ω => (hval (t + 1) t ω (by omega) ht).choose_spec.2.2
  refine ⟨fun t ω => Real.sqrt (V t ω), fun n t ω hn ht => ?_, fun t ht => ?_, fun t ht => ?_⟩
  · obtain ⟨u, h1, h3, -⟩ := hval n t ω hn ht
    exact ⟨u, h1, h3⟩
  · rw [← (hint t).2 ht]
    exact integral_congr_ae (ae_of_all _ fun ω => Real.sq_sqrt (hVn t ht ω))
  · have hL : MemLp (fun ω => Real.sqrt (V t ω)) 2 P := by
      rw [memLp_two_iff_integrable_sq (Real.continuous_sqrt.comp_aestronglyMeasurable (hint t).1.aestronglyMeasurable)]
      refine (hint t).1.congr (ae_of_all _ fun ω => ?_)
      exact (Real.sq_sqrt (hVn t ht ω)).symm
    have hv := variance_nonneg (fun ω => Real.sqrt (V t ω)) P
    rw [variance_eq_sub hL] at hv
    have e : ∫ ω, ((fun ω => Real.sqrt (V t ω)) ^ 2) ω ∂P = Var[X 0; P] := by
      rw [← (hint t).2 ht]
      exact integral_congr_ae (ae_of_all _ fun ω => Real.sq_sqrt (hVn t ht ω))
    rw [e] at hv
    exact Real.le_sqrt_of_sq_le (by linarith)

/-- How many steps a weighted mean lies behind. -/
noncomputable def delay (q : ℝ) (t : Nat) : ℝ := (∑ k ∈ Finset.range (t + 1), (k : ℝ) * q ^ k) / total q t

theorem avg_linear {q : ℝ} (hq : 0 ≤ q) (a b : ℝ) (t : Nat) : avg q (fun i => a + b * i) t = a + b * t - b * delay q t := by
  have hT := (total_pos hq t).ne'
  have e : ∑ k ∈ Finset.range (t + 1), (k : ℝ) * q ^ k = ∑ i ∈ Finset.range (t + 1), q ^ (t - i) * ((t : ℝ) - i) := by
    rw [← Finset.sum_range_reflect]
    refine Finset.sum_congr rfl fun i hi => ?_
    have := Finset.mem_range.mp hi
    rw [show t + 1 - 1 - i = t - i by omega, Nat.cast_sub (by omega)]
    ring
  have e2 : ∑ i ∈ Finset.range (t + 1), q ^ (t - i) * (a + b * i) =
      (a + b * t) * total q t - b * ∑ i ∈ Finset.range (t + 1), q ^ (t - i) * ((t : ℝ) - i) := by
    rw [total, Finset.mul_sum, Finset.mul_sum, ← Finset.sum_sub_distrib]
    exact Finset.sum_congr rfl fun i _ => by ring
  rw [avg, delay, e, e2]
  field_simp

/-- The delay tends to half the span less one. -/
theorem delay_tendsto {span : ℝ} (hs : 1 ≤ span) : Tendsto (delay (decay span)) atTop (𝓝 ((span - 1) / 2)) := by
  have h0 := decay_nonneg hs
  have h1 := decay_lt_one hs
  have l1 := total_tendsto h0 h1
  have hn : ‖decay span‖ < 1 := by rwa [Real.norm_of_nonneg h0]
  have l2 := (hasSum_coe_mul_geometric_of_norm_lt_one hn).tendsto_sum_nat.comp (tendsto_add_atTop_nat 1)
  have hne : (1 - decay span) ≠ 0 := by linarith
  have := l2.div l1 (inv_ne_zero hne)
  have e : decay span / (1 - decay span) ^ 2 / (1 - decay span)⁻¹ = (span - 1) / 2 := by
    have e1 : decay span / (1 - decay span) ^ 2 / (1 - decay span)⁻¹ = decay span / (1 - decay span) := by field_simp
    have hs' : span + 1 ≠ 0 := by linarith
    have a : 1 - decay span = 2 / (span + 1) := by rw [decay]; field_simp; ring
    rw [e1, a, decay]
    field_simp
  rw [e] at this
  exact this

/-- On prices whose expectation grows by `b` per step, MACD is on average `b` times half the difference of the spans in
the long run, and the exponentially weighted mean lies `(span - 1) / 2` steps behind. -/
theorem macd_law {fast slow a b : ℝ} (hf : 1 ≤ fast) (hs : 1 ≤ slow) (hi : ∀ t, Integrable (fun ω => S ω t) P)
    (hm : ∀ t : Nat, ∫ ω, S ω t ∂P = a + b * t) :
    ∃ Y M : Nat → Ω → ℝ,
      (∀ n t ω, t < n → ∃ u, macd (first (S ω) n) fast slow = .ok u ∧ u[t]? = some (.fin (Y t ω))) ∧
      (∀ n t ω, t < n → ∃ u, Ind.ewmMean (first (S ω) n) slow = .ok u ∧ u[t]? = some (.fin (M t ω))) ∧
      Tendsto (fun t => ∫ ω, Y t ω ∂P) atTop (𝓝 (b * (slow - fast) / 2)) ∧
      Tendsto (fun t => ∫ ω, S ω t ∂P - ∫ ω, M t ω ∂P) atTop (𝓝 (b * ((slow - 1) / 2))) := by
  have hI : ∀ q t, Integrable (fun ω => avg q (S ω) t) P ∧ (0 ≤ q → ∫ ω, avg q (S ω) t ∂P = a + b * t - b * delay q t) := by
    intro q t
    have := integral_avg q (fun i ω => S ω i) t fun i _ => hi i
    refine ⟨this.1, fun hq => ?_⟩
    rw [← avg_linear hq, this.2]
    simp only [hm]
  refine ⟨fun t ω => avg (decay fast) (S ω) t - avg (decay slow) (S ω) t, fun t ω => avg (decay slow) (S ω) t,
    fun n t ω ht => ?_, fun n t ω ht => ewmMean_first hs _ ht, ?_, ?_⟩
  · obtain ⟨u, hu, eu⟩ := ewmMean_first hf (S ω) ht
    obtain ⟨v, hv, ev⟩ := ewmMean_first hs (S ω) ht
    refine ⟨op2 (· - ·) u v, ?_, ?_⟩
    · rw [macd, hu, hv]; rfl
    · rw [op2_get _ eu ev, XF.sub_fin]
  · have := ((delay_tendsto hs).sub (delay_tendsto hf)).const_mul b
    have e : b * ((slow - 1) / 2 - (fast - 1) / 2) = b * (slow - fast) / 2 := by ring
    rw [e] at this
    refine this.congr fun t => ?_
    rw [integral_sub (hI _ t).1 (hI _ t).1, (hI _ t).2 (decay_nonneg hf), (hI _ t).2 (decay_nonneg hs)]
    ring
  · refine ((delay_tendsto hs).const_mul b).congr fun t => ?_
    rw [hm, (hI _ t).2 (decay_nonneg hs)]
    ring

theorem diff_first (h : Walk P X S) (ω : Ω) (n : Nat) : diff 1 (first (S ω) (n + 1)) = .nan :: first (fun i => X (i + 1) ω) n := by
  apply List.ext_getElem?
  intro t
  by_cases ht : t < n + 1
  · rw [diff_get (by simpa [first] using ht)]
    cases t with
    | zero => rfl
    | succ s =>
      simp only [List.getElem?_cons_succ, first, List.getElem?_map]
      rw [List.getElem?_range (show s < n by omega), List.getElem?_range ht, List.getElem?_range (show s < n + 1 by omega)]
      simp only [Option.map_some, Option.getD_some, XF.sub_fin, h.step, add_sub_cancel_left]
  · have hl : (diff 1 (first (S ω) (n + 1))).length = n + 1 := by rw [diff_length]; simp [first]
    rw [List.getElem?_eq_none (by omega), List.getElem?_eq_none (by simp [first]; omega)]

theorem ewmMean_nan_cons (α : ℝ) (p : Int) (x : Ser) : Ser.ewmMean α p (.nan :: x) = .nan :: Ser.ewmMean α p x := by
  rw [Ser.ewmMean, Ser.ewmMean, ewmGo]
  rfl

/-- Exponentially weighted momentum of prices with independent changes: from position `max(min_periods, 1)` on it is
unbiased for the mean change. -/
theorem ewmMom_law {span : ℝ} (hs : 1 ≤ span) (h : Walk P X S) (hi : Integrable (X 0) P) :
    ∃ Y : Nat → Ω → ℝ, (∀ (p : Int) (n t : Nat) ω, t < n → 1 ≤ t → p ≤ t →
        ∃ u, ewmMom (first (S ω) n) span p = .ok u ∧ u[t]? = some (.fin (Y t ω))) ∧
      ∀ t, 1 ≤ t → ∫ ω, Y t ω ∂P = ∫ ω, X 0 ω ∂P := by
  have hI : ∀ i, Integrable (X i) P := fun i => (h.iid.ident i).integrable_iff.mpr hi
  refine ⟨fun t ω => avg (decay span) (fun i => X (i + 1) ω) (t - 1), fun p n t ω hn ht hp => ?_, fun t _ => ?_⟩
  · obtain ⟨m, rfl⟩ : ∃ m, n = m + 1 := ⟨n - 1, by omega⟩
    obtain ⟨s, rfl⟩ : ∃ s, t = s + 1 := ⟨t - 1, by omega⟩
    refine ⟨Ser.ewmMean (2 / (span + 1)) p (diff 1 (first (S ω) (m + 1))), ?_, ?_⟩
    · rw [ewmMom, spanAlpha, if_neg (not_lt.mpr hs)]; rfl
    · have hsm : s < m := by omega
      have hlen : s < (first (fun i => X (i + 1) ω) m).length := by simpa [first] using hsm
      obtain ⟨u, hu, eu⟩ := ewmMean_first hs (fun i => X (i + 1) ω) hsm
      rw [ewmMean_eq hs] at hu
      cases hu
      rw [ewmMean_get _ _ _ hlen, nobs_take hlen, count_first _ hsm] at eu
      rw [diff_first h, ewmMean_nan_cons, List.getElem?_cons_succ, ewmMean_get _ _ _ hlen, nobs_take hlen, count_first _ hsm]
      rcases hst : ewmSt (2 / (span + 1)) ((first (fun i => X (i + 1) ω) m).take (s + 1)) with _ | ⟨c, w⟩
      · rw [hst] at eu
        cases eu
      · rw [hst] at eu
        simp only [ewmOut] at eu ⊢
        rw [if_pos (by omega)] at eu
        rw [if_pos (by omega), eu]
        rfl
  · rw [(integral_avg _ (fun i => X (i + 1)) _ fun i _ => hI _).2, ← avg_const (decay_nonneg hs) (∫ ω, X 0 ω ∂P) (t - 1)]
    congr 1
    funext i
    exact (h.iid.ident _).integral_eq

/-- The expectation of a walk is linear. -/
theorem walk_mean (h : Walk P X S) (hi : Integrable (X 0) P) (h0 : Integrable (fun ω => S ω 0) P) (t : Nat) :
    Integrable (fun ω => S ω t) P ∧ ∫ ω, S ω t ∂P = ∫ ω, S ω 0 ∂P + (∫ ω, X 0 ω ∂P) * t := by
  have hI : ∀ i, Integrable (X i) P := fun i => (h.iid.ident i).integrable_iff.mpr hi
  induction t with
  | zero => exact ⟨h0, by simp⟩
  | succ t ih =>
    simp only [h.step]
    refine ⟨ih.1.add (hI _), ?_⟩
    rw [integral_add ih.1 (hI _), ih.2, (h.iid.ident (t + 1)).integral_eq]
    push_cast
    ring

/-- On a walk MACD estimates the drift times half the difference of the spans. -/
theorem macd_walk {fast slow : ℝ} (hf : 1 ≤ fast) (hs : 1 ≤ slow) (h : Walk P X S) (hi : Integrable (X 0) P)
    (h0 : Integrable (fun ω => S ω 0) P) :
    ∃ Y : Nat → Ω → ℝ,
      (∀ n t ω, t < n → ∃ u, macd (first (S ω) n) fast slow = .ok u ∧ u[t]? = some (.fin (Y t ω))) ∧
      Tendsto (fun t => ∫ ω, Y t ω ∂P) atTop (𝓝 ((∫ ω, X 0 ω ∂P) * (slow - fast) / 2)) := by
  obtain ⟨Y, M, h1, -, h3, -⟩ := macd_law hf hs (fun t => (walk_mean h hi h0 t).1) fun t => (walk_mean h hi h0 t).2
  exact ⟨Y, h1, h3⟩

end Verif.Props.IndLaw
