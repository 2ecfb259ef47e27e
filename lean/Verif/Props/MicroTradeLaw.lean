import Verif.Spec.TradeModel
import Verif.Props.MicroVolLaw
import Verif.Props.MicroTrade
import Mathlib.Probability.CDF

/-!
# C86: what the price impact measures estimate
-/

namespace Verif.Props.MicroTradeLaw

open Verif Ser Micro Stat Sim IndRolling MicroTrade MicroRollLaw MicroVolLaw MeasureTheory ProbabilityTheory Filter Topology

variable {Ω : Type*} [MeasurableSpace Ω] {P : Measure Ω}

theorem kyle_total (c v : Ser) (w : Nat) : ∃ u, kyle c v w = .ok u := ⟨_, rolling_ok (Int.natCast_nonneg w) _ _⟩
theorem amihud_total (c v : Ser) (w : Nat) : ∃ u, amihud c v w = .ok u := ⟨_, rolling_ok (Int.natCast_nonneg w) _ _⟩
theorem hasbrouck_total (c v : Ser) (w : Nat) : ∃ u, hasbrouck c v w = .ok u := ⟨_, rolling_ok (Int.natCast_nonneg w) _ _⟩
theorem vpin_total (v b : Ser) (w : Nat) : ∃ u, vpin v b w = .ok u := ⟨_, rolling_ok (Int.natCast_nonneg w) _ _⟩

section Kyle

variable {side volume noise : Nat → Ω → ℝ} {price : Ω → Nat → ℝ} {impact : ℝ}

/-- Kyle's lambda: the mean of the absolute price change per unit of volume. -/
theorem kyle_limit (h : FlowModel P side volume noise price impact)
    (hint : Integrable (fun ω => |impact * side 0 ω * volume 0 ω + noise 0 ω| / volume 0 ω) P) :
    Consistent P (fun ω n w => kyle (first (price ω) n) (first (fun t => volume t ω) n) w) 1
      (∫ ω, |impact * side 0 ω * volume 0 ω + noise 0 ω| / volume 0 ω ∂P) := by
  have hm : Measurable fun x : ℝ × ℝ × ℝ => |impact * x.1 * x.2.1 + x.2.2| / x.2.1 := by fun_prop
  have hm1 : Measurable fun y : Fin 2 → ℝ × ℝ × ℝ => |impact * (y 1).1 * (y 1).2.1 + (y 1).2.2| / (y 1).2.1 :=
    hm.comp (measurable_pi_apply 1)
  have hid := (h.iid.ident 1).comp hm
  have hv := h.iid.ae_all (s := {x | 0 < x.2.1}) (measurableSet_lt measurable_const (by fun_prop)) h.volumes
  have hn := h.iid.ae_all (s := {x | impact * x.1 * x.2.1 + x.2.2 ≠ 0})
    (measurableSet_eq_fun (by fun_prop) measurable_const).compl h.moves
  have e : ∫ ω, |impact * side 1 ω * volume 1 ω + noise 1 ω| / volume 1 ω ∂P =
    ∫ ω, |impact * side 0 ω * volume 0 ω + noise 0 ω| / volume 0 ω ∂P := hid.integral_eq
  rw [← e]
  refine consistent_mean_ae h.iid hm1 (hid.integrable_iff.mpr hint) ⟨1, ?_⟩
  filter_upwards [hv, hn] with ω hv hn w hw n t ht htn
  obtain ⟨u, hu⟩ := kyle_total (first (price ω) n) (first (fun t => volume t ω) n) w
  refine ⟨u, hu, ?_⟩
  have hstep : ∀ i ∈ Finset.Ico (t + 1 - w) (t + 1), price ω i - price ω (i - 1) = impact * side i ω * volume i ω + noise i ω := by
    intro i hi
    rw [Finset.mem_Ico] at hi
    obtain ⟨k, rfl⟩ : ∃ k, i = k + 1 := ⟨i - 1, by omega⟩
    rw [Nat.add_sub_cancel, h.step]
    ring
  rw [kyle_spec hw hu (obs_first (by omega) htn) (obs_first (by omega) htn)
    (fun i hi e => hn i (by rw [← hstep i hi, e, sub_self])) fun i _ => (hv i).ne']
  rw [meanOf_eq _ (by omega)]
  congr 2
  unfold Sim.mean
  congr 1
  refine Finset.sum_congr rfl fun j hj => ?_
  rw [Finset.mem_range] at hj
  show |price ω (j + (t + 1 - w)) - price ω (j + (t + 1 - w) - 1)| / volume (j + (t + 1 - w)) ω = _
  rw [hstep _ (by rw [Finset.mem_Ico]; omega), show j + (t + 1 - w) = j + 1 + (t + 1 - w - 1) by omega]
  rfl

/-- Without noise it finds the price impact, though not its sign. -/
theorem kyle_exact (h : FlowModel P side volume noise price impact) (h0 : ∀ᵐ ω ∂P, noise 0 ω = 0) :
    Consistent P (fun ω n w => kyle (first (price ω) n) (first (fun t => volume t ω) n) w) 1 |impact| := by
  have := h.iid.indep.isProbabilityMeasure
  have e : (fun ω => |impact * side 0 ω * volume 0 ω + noise 0 ω| / volume 0 ω) =ᵐ[P] fun _ => |impact| := by
    filter_upwards [h0, h.sides, h.volumes] with ω h0 hs hv
    rw [h0, add_zero, abs_mul, abs_mul, abs_of_pos hv, mul_div_cancel_right₀ _ hv.ne']
    rcases hs with e | e <;> simp [e]
  have := kyle_limit h ((integrable_congr e).mpr (integrable_const _))
  rwa [integral_congr_ae e, integral_const, probReal_univ, one_smul] at this

/-- With noise that has nothing to do with the side of the trade the limit is at least the price impact, with equality only if
the noise never turns the price against the trade. -/
theorem kyle_bias (h : FlowModel P side volume noise price impact)
    (hint : Integrable (fun ω => |impact * side 0 ω * volume 0 ω + noise 0 ω| / volume 0 ω) P)
    (hn : Integrable (fun ω => side 0 ω * noise 0 ω / volume 0 ω) P) (h0 : ∫ ω, side 0 ω * noise 0 ω / volume 0 ω ∂P = 0) :
    impact ≤ ∫ ω, |impact * side 0 ω * volume 0 ω + noise 0 ω| / volume 0 ω ∂P ∧
      (impact = ∫ ω, |impact * side 0 ω * volume 0 ω + noise 0 ω| / volume 0 ω ∂P ↔
        ∀ᵐ ω ∂P, 0 ≤ side 0 ω * (impact * side 0 ω * volume 0 ω + noise 0 ω)) := by
  have := h.iid.indep.isProbabilityMeasure
  have hi : Integrable (fun ω => impact + side 0 ω * noise 0 ω / volume 0 ω) P := (integrable_const _).add hn
  have e : ∫ ω, (impact + side 0 ω * noise 0 ω / volume 0 ω) ∂P = impact := by
    rw [integral_add (integrable_const _) hn, h0, integral_const, probReal_univ, one_smul, add_zero]
  have hrew : ∀ᵐ ω ∂P, |impact * side 0 ω * volume 0 ω + noise 0 ω| / volume 0 ω - (impact + side 0 ω * noise 0 ω / volume 0 ω) =
      (|side 0 ω * (impact * side 0 ω * volume 0 ω + noise 0 ω)| - side 0 ω * (impact * side 0 ω * volume 0 ω + noise 0 ω)) / volume 0 ω := by
    filter_upwards [h.sides, h.volumes] with ω hs hv
    have h1 : |side 0 ω| = 1 := by rcases hs with e | e <;> simp [e]
    have h2 : side 0 ω * side 0 ω = 1 := by rcases hs with e | e <;> simp [e]
    rw [abs_mul, h1, one_mul]
    field_simp
    linear_combination (impact * volume 0 ω) * h2
  have hpos : 0 ≤ᵐ[P] fun ω => |impact * side 0 ω * volume 0 ω + noise 0 ω| / volume 0 ω - (impact + side 0 ω * noise 0 ω / volume 0 ω) := by
    filter_upwards [hrew, h.volumes] with ω hr hv
    rw [hr]
    exact div_nonneg (sub_nonneg.mpr (le_abs_self _)) hv.le
  have hd : ∫ ω, (|impact * side 0 ω * volume 0 ω + noise 0 ω| / volume 0 ω - (impact + side 0 ω * noise 0 ω / volume 0 ω)) ∂P =
      (∫ ω, |impact * side 0 ω * volume 0 ω + noise 0 ω| / volume 0 ω ∂P) - impact := by rw [integral_sub hint hi, e]
  refine ⟨by have := integral_nonneg_of_ae hpos; rw [hd] at this; linarith, ?_⟩
  have hz := integral_eq_zero_iff_of_nonneg_ae hpos (hint.sub hi)
  rw [hd] at hz
  rw [eq_comm, ← sub_eq_zero, hz]
  constructor
  · intro h1
    filter_upwards [h1, hrew, h.volumes] with ω h1 hr hv
    rw [h1] at hr
    have h3 : |side 0 ω * (impact * side 0 ω * volume 0 ω + noise 0 ω)| - side 0 ω * (impact * side 0 ω * volume 0 ω + noise 0 ω) = 0 := by
      rcases div_eq_zero_iff.mp hr.symm with h4 | h4
      · exact h4
      · exact absurd h4 hv.ne'
    exact abs_eq_self.mp (sub_eq_zero.mp h3)
  · intro h1
    filter_upwards [h1, hrew] with ω h1 hr
    rw [hr, abs_of_nonneg h1, sub_self, zero_div]
    rfl

theorem coin_ae : ∀ᵐ x ∂coin, x = 1 ∨ x = -1 := by
  rw [coin, ae_add_measure_iff]
  constructor
  · refine Measure.ae_smul_measure ?_ _
    rw [ae_dirac_eq]
    exact .inl rfl
  · refine Measure.ae_smul_measure ?_ _
    rw [ae_dirac_eq]
    exact .inr rfl

/-- Trades of unit volume with price impact `1` and noise of `2` or `-2`, both by independent fair coins. -/
theorem exists_flow : ∃ (Ω : Type) (_ : MeasurableSpace Ω) (P : Measure Ω) (side volume noise : Nat → Ω → ℝ) (price : Ω → Nat → ℝ),
    FlowModel P side volume noise price 1 ∧ HasLaw (fun ω => (side 0 ω, noise 0 ω / 2)) (coin.prod coin) P ∧ ∀ t ω, volume t ω = 1 := by
  obtain ⟨Ω, mΩ, P, X, h0, h1, h2, h3⟩ := exists_iid Nat (coin.prod coin)
  have hx : IID P X := ⟨h2, fun t => ⟨(h0 t).aemeasurable, (h0 0).aemeasurable, (h1 t).map_eq.trans (h1 0).map_eq.symm⟩⟩
  have l1 : HasLaw (fun ω => (X 0 ω).1) coin P := (measurePreserving_fst.hasLaw).fun_comp (h1 0)
  have l2 : HasLaw (fun ω => (X 0 ω).2) coin P := (measurePreserving_snd.hasLaw).fun_comp (h1 0)
  have a1 : ∀ᵐ ω ∂P, (X 0 ω).1 = 1 ∨ (X 0 ω).1 = -1 := ae_of_ae_map l1.aemeasurable (l1.map_eq ▸ coin_ae)
  have a2 : ∀ᵐ ω ∂P, (X 0 ω).2 = 1 ∨ (X 0 ω).2 = -1 := ae_of_ae_map l2.aemeasurable (l2.map_eq ▸ coin_ae)
  refine ⟨Ω, mΩ, P, fun t ω => (X t ω).1, fun _ _ => 1, fun t ω => 2 * (X t ω).2,
    fun ω t => ∑ i ∈ Finset.range t, ((X (i + 1) ω).1 + 2 * (X (i + 1) ω).2),
    ⟨hx.comp (g := fun x : ℝ × ℝ => (x.1, (1 : ℝ), 2 * x.2)) (by fun_prop), a1, ae_of_all _ fun _ => one_pos, fun ω t => ?_, ?_⟩, ?_, fun _ _ => rfl⟩
  · rw [Finset.sum_range_succ]
    ring
  · filter_upwards [a1, a2] with ω e1 e2
    rcases e1 with e1 | e1 <;> rcases e2 with e2 | e2 <;> rw [e1, e2] <;> norm_num
  · have e : (fun ω => ((X 0 ω).1, 2 * (X 0 ω).2 / 2)) = X 0 := by
      funext ω
      rw [mul_div_cancel_left₀ _ (two_ne_zero)]
    rw [e]
    exact h1 0

/-- There Kyle's lambda tends to `2`, twice the price impact. -/
example : ∃ (Ω : Type) (_ : MeasurableSpace Ω) (P : Measure Ω) (side volume noise : Nat → Ω → ℝ) (price : Ω → Nat → ℝ),
    FlowModel P side volume noise price 1 ∧
      Consistent P (fun ω n w => kyle (first (price ω) n) (first (fun t => volume t ω) n) w) 1 2 := by
  obtain ⟨Ω, mΩ, P, side, volume, noise, price, h, hl, hv⟩ := exists_flow
  refine ⟨Ω, mΩ, P, side, volume, noise, price, h, ?_⟩
  have hm : Measurable fun x : ℝ × ℝ => |x.1 + 2 * x.2| := by fun_prop
  have hi : Integrable (fun x : ℝ × ℝ => |x.1 + 2 * x.2|) (coin.prod coin) := by
    have i1 : Integrable (fun x : ℝ × ℝ => x.1) (coin.prod coin) := (coin_integrable id).comp_fst _
    have i2 : Integrable (fun x : ℝ × ℝ => x.2) (coin.prod coin) := (coin_integrable id).comp_snd _
    exact (i1.add (i2.const_mul 2)).abs
  have e : (fun ω => |1 * side 0 ω * volume 0 ω + noise 0 ω| / volume 0 ω) =
      fun ω => (fun x : ℝ × ℝ => |x.1 + 2 * x.2|) (side 0 ω, noise 0 ω / 2) := by
    funext ω
    simp only [hv]
    rw [div_one, one_mul, mul_one, show (2 : ℝ) * (noise 0 ω / 2) = noise 0 ω by ring]
  have h1 := kyle_limit h (by
    rw [e]
    exact (hl.map_eq ▸ hi).comp_aemeasurable hl.aemeasurable)
  have e3 := hl.integral_comp hm.aestronglyMeasurable
  rw [Function.comp_def] at e3
  rw [e, e3, integral_prod _ hi, coin_integral, coin_integral, coin_integral] at h1
  have e2 : ((|(1 : ℝ) + 2 * 1| + |(1 : ℝ) + 2 * -1|) / 2 + (|(-1 : ℝ) + 2 * 1| + |(-1 : ℝ) + 2 * -1|) / 2) / 2 = 2 := by
    norm_num
  rwa [e2] at h1

end Kyle

section Value

variable {ret value : Nat → Ω → ℝ} {price volume : Ω → Nat → ℝ}

/-- Amihud's lambda: the mean absolute gross return per unit of traded value. -/
theorem amihud_limit (h : ValueModel P ret value price volume)
    (hint : Integrable (fun ω => |Real.exp (ret 0 ω) - 1| / value 0 ω) P) :
    Consistent P (fun ω n w => amihud (first (price ω) n) (first (volume ω) n) w) 1
      (∫ ω, |Real.exp (ret 0 ω) - 1| / value 0 ω ∂P) := by
  have hm : Measurable fun x : ℝ × ℝ => |Real.exp x.1 - 1| / x.2 := by fun_prop
  have hm1 : Measurable fun y : Fin 2 → ℝ × ℝ => |Real.exp (y 1).1 - 1| / (y 1).2 := hm.comp (measurable_pi_apply 1)
  have hid := (h.iid.ident 1).comp hm
  have hv := h.iid.ae_all (s := {x | 0 < x.2}) (measurableSet_lt measurable_const (by fun_prop)) h.values
  have e : ∫ ω, |Real.exp (ret 1 ω) - 1| / value 1 ω ∂P = ∫ ω, |Real.exp (ret 0 ω) - 1| / value 0 ω ∂P := hid.integral_eq
  rw [← e]
  refine consistent_mean_ae h.iid hm1 (hid.integrable_iff.mpr hint) ⟨1, ?_⟩
  filter_upwards [hv] with ω hv w hw n t ht htn
  obtain ⟨u, hu⟩ := amihud_total (first (price ω) n) (first (volume ω) n) w
  refine ⟨u, hu, ?_⟩
  have hne : ∀ i, volume ω i ≠ 0 := fun i e => (hv i).ne' (by show value i ω = 0; rw [← h.traded, e, zero_mul])
  rw [amihud_spec hw hu (obs_first (by omega) htn) (obs_first (by omega) htn) (fun i _ => (h.pos ω i).ne') fun i _ => hne i]
  rw [meanOf_eq _ (by omega)]
  congr 2
  unfold Sim.mean
  congr 1
  refine Finset.sum_congr rfl fun j hj => ?_
  show |price ω (j + (t + 1 - w)) / price ω (j + (t + 1 - w) - 1) - 1| / (volume ω (j + (t + 1 - w)) * price ω (j + (t + 1 - w))) = _
  rw [h.traded, show j + (t + 1 - w) = j + 1 + (t + 1 - w - 1) by omega,
    show j + 1 + (t + 1 - w - 1) - 1 = j + (t + 1 - w - 1) by omega, show j + 1 + (t + 1 - w - 1) = j + (t + 1 - w - 1) + 1 by omega,
    h.step, mul_div_cancel_left₀ _ (h.pos ω _).ne', show j + (t + 1 - w - 1) + 1 = j + 1 + (t + 1 - w - 1) by omega]
  rfl

/-- Hasbrouck's lambda: the mean absolute log return per square root of the traded value. -/
theorem hasbrouck_limit (h : ValueModel P ret value price volume) (hr : ∀ᵐ ω ∂P, ret 0 ω ≠ 0)
    (hint : Integrable (fun ω => |ret 0 ω| / Real.sqrt (value 0 ω)) P) :
    Consistent P (fun ω n w => hasbrouck (first (price ω) n) (first (volume ω) n) w) 1
      (∫ ω, |ret 0 ω| / Real.sqrt (value 0 ω) ∂P) := by
  have hm : Measurable fun x : ℝ × ℝ => |x.1| / Real.sqrt x.2 := by fun_prop
  have hm1 : Measurable fun y : Fin 2 → ℝ × ℝ => |(y 1).1| / Real.sqrt (y 1).2 := hm.comp (measurable_pi_apply 1)
  have hid := (h.iid.ident 1).comp hm
  have hv := h.iid.ae_all (s := {x | 0 < x.2}) (measurableSet_lt measurable_const (by fun_prop)) h.values
  have hn := h.iid.ae_all (s := {x | x.1 ≠ 0}) (measurableSet_eq_fun (by fun_prop) measurable_const).compl hr
  have e : ∫ ω, |ret 1 ω| / Real.sqrt (value 1 ω) ∂P = ∫ ω, |ret 0 ω| / Real.sqrt (value 0 ω) ∂P := hid.integral_eq
  rw [← e]
  refine consistent_mean_ae h.iid hm1 (hid.integrable_iff.mpr hint) ⟨1, ?_⟩
  filter_upwards [hv, hn] with ω hv hn w hw n t ht htn
  obtain ⟨u, hu⟩ := hasbrouck_total (first (price ω) n) (first (volume ω) n) w
  refine ⟨u, hu, ?_⟩
  have hstep : ∀ i, 1 ≤ i → price ω i / price ω (i - 1) = Real.exp (ret i ω) := by
    intro i hi
    obtain ⟨k, rfl⟩ : ∃ k, i = k + 1 := ⟨i - 1, by omega⟩
    rw [Nat.add_sub_cancel, h.step, mul_div_cancel_left₀ _ (h.pos ω k).ne']
  have hpv : ∀ i, 0 < volume ω i := fun i => by
    have h1 : 0 < volume ω i * price ω i := by rw [h.traded]; exact hv i
    exact pos_of_mul_pos_left h1 (h.pos ω i).le
  have hch : ∀ i ∈ Finset.Ico (t + 1 - w) (t + 1), price ω i ≠ price ω (i - 1) := by
    intro i hi e
    rw [Finset.mem_Ico] at hi
    have h1 := hstep i (by omega)
    rw [e, div_self (h.pos ω _).ne'] at h1
    exact hn i ((Real.exp_eq_one_iff _).mp h1.symm)
  rw [hasbrouck_spec hw hu (obs_first (by omega) htn) (obs_first (by omega) htn) hch (fun i _ => h.pos ω i) fun i _ => hpv i]
  rw [meanOf_eq _ (by omega)]
  congr 2
  unfold Sim.mean
  congr 1
  refine Finset.sum_congr rfl fun j hj => ?_
  show |Real.log (price ω (j + (t + 1 - w)) / price ω (j + (t + 1 - w) - 1))| /
    Real.sqrt (volume ω (j + (t + 1 - w)) * price ω (j + (t + 1 - w))) = _
  rw [h.traded, hstep _ (by omega), Real.log_exp, show j + (t + 1 - w) = j + 1 + (t + 1 - w - 1) by omega]
  rfl

/-- Standard normal log returns at unit traded value. -/
theorem exists_value : ∃ (Ω : Type) (_ : MeasurableSpace Ω) (P : Measure Ω) (ret value : Nat → Ω → ℝ) (price volume : Ω → Nat → ℝ),
    ValueModel P ret value price volume ∧ HasLaw (ret 0) (gaussianReal 0 1) P ∧ ∀ t ω, value t ω = 1 := by
  obtain ⟨Ω, mΩ, P, Z, h0, h1, h2, h3⟩ := exists_iid Nat (gaussianReal 0 1)
  have hx : IID P Z := ⟨h2, fun t => ⟨(h0 t).aemeasurable, (h0 0).aemeasurable, (h1 t).map_eq.trans (h1 0).map_eq.symm⟩⟩
  refine ⟨Ω, mΩ, P, Z, fun _ _ => 1, fun ω t => Real.exp (∑ i ∈ Finset.range t, Z (i + 1) ω),
    fun ω t => (Real.exp (∑ i ∈ Finset.range t, Z (i + 1) ω))⁻¹,
    ⟨hx.comp (g := fun x : ℝ => (x, (1 : ℝ))) (by fun_prop), fun _ _ => Real.exp_pos _, ae_of_all _ fun _ => one_pos,
      fun ω t => by simp only [Finset.sum_range_succ, Real.exp_add], fun ω t => inv_mul_cancel₀ (Real.exp_pos _).ne'⟩, h1 0, fun _ _ => rfl⟩

/-- There Hasbrouck's lambda tends to the mean absolute return. -/
example : ∃ (Ω : Type) (_ : MeasurableSpace Ω) (P : Measure Ω) (price volume : Ω → Nat → ℝ),
    Consistent P (fun ω n w => hasbrouck (first (price ω) n) (first (volume ω) n) w) 1 (∫ x, |x| ∂gaussianReal 0 1) := by
  obtain ⟨Ω, mΩ, P, ret, value, price, volume, h, hl, hv⟩ := exists_value
  refine ⟨Ω, mΩ, P, price, volume, ?_⟩
  have e : (fun ω => |ret 0 ω| / Real.sqrt (value 0 ω)) = fun ω => |ret 0 ω| := by
    funext ω
    rw [hv, Real.sqrt_one, div_one]
  have i : Integrable (fun x : ℝ => |x|) (gaussianReal 0 1) := (memLp_id_gaussianReal (μ := 0) (v := 1) 1).integrable (by norm_num) |>.abs
  have := nullSingletonClass_gaussianReal (μ := 0) (v := 1) one_ne_zero
  have hr : ∀ᵐ ω ∂P, ret 0 ω ≠ 0 := by
    refine ae_of_ae_map (p := fun x => x ≠ 0) hl.aemeasurable ?_
    rw [hl.map_eq, ae_iff]
    simp
  have h1 := hasbrouck_limit h hr (by
    rw [e]
    exact (hl.map_eq ▸ i).comp_aemeasurable hl.aemeasurable)
  rw [e] at h1
  have e2 : ∫ ω, |ret 0 ω| ∂P = ∫ x, |x| ∂gaussianReal 0 1 :=
    hl.integral_comp (f := fun x : ℝ => |x|) (Continuous.aestronglyMeasurable (by fun_prop))
  rwa [e2] at h1

end Value

section Vpin

/-- VPIN: the mean share of the imbalance in the volume. -/
theorem vpin_limit {volume buy : Nat → Ω → ℝ} (h : IID P fun t ω => (volume t ω, buy t ω)) (hv : ∀ᵐ ω ∂P, 0 < volume 0 ω)
    (hint : Integrable (fun ω => |buy 0 ω - (volume 0 ω - buy 0 ω)| / volume 0 ω) P) :
    Consistent P (fun ω n w => vpin (first (fun t => volume t ω) n) (first (fun t => buy t ω) n) w) 0
      (∫ ω, |buy 0 ω - (volume 0 ω - buy 0 ω)| / volume 0 ω ∂P) := by
  have hm : Measurable fun x : ℝ × ℝ => |x.2 - (x.1 - x.2)| / x.1 := by fun_prop
  have hm1 : Measurable fun y : Fin 1 → ℝ × ℝ => |(y 0).2 - ((y 0).1 - (y 0).2)| / (y 0).1 := hm.comp (measurable_pi_apply 0)
  have hv := h.ae_all (s := {x | 0 < x.1}) (measurableSet_lt measurable_const (by fun_prop)) hv
  refine consistent_mean_ae h (lag := 0) hm1 hint ⟨1, ?_⟩
  filter_upwards [hv] with ω hv w hw n t ht htn
  obtain ⟨u, hu⟩ := vpin_total (first (fun t => volume t ω) n) (first (fun t => buy t ω) n) w
  refine ⟨u, hu, ?_⟩
  rw [vpin_spec hw hu (obs_first (by omega) htn) (obs_first (by omega) htn) fun i _ => (hv i).ne']
  rw [meanOf_eq _ (by omega)]
  rfl

/-- A continuous distribution function applied to its own random variable is uniform. -/
theorem map_cdf (μ : Measure ℝ) [IsProbabilityMeasure μ] (hc : Continuous (cdf μ)) :
    μ.map (cdf μ) = volume.restrict (Set.Icc (0 : ℝ) 1) := by
  have hm : Measurable (cdf μ) := hc.measurable
  have : IsProbabilityMeasure (μ.map (cdf μ)) := Measure.isProbabilityMeasure_map hm.aemeasurable
  have : IsProbabilityMeasure (volume.restrict (Set.Icc (0 : ℝ) 1)) := ⟨by simp⟩
  refine Measure.eq_of_cdf _ _ (StieltjesFunction.ext fun u => ?_)
  rw [cdf_eq_real, cdf_eq_real, map_measureReal_apply hm measurableSet_Iic, measureReal_restrict_apply measurableSet_Iic]
  rcases lt_or_ge u 0 with hu | hu
  · have e1 : cdf μ ⁻¹' Set.Iic u = ∅ := Set.eq_empty_of_forall_notMem fun x hx => absurd (hx.trans_lt hu) (not_lt.mpr (cdf_nonneg μ x))
    have e2 : Set.Iic u ∩ Set.Icc (0 : ℝ) 1 = ∅ := Set.eq_empty_of_forall_notMem fun x hx => absurd (hx.1.trans_lt hu) (not_lt.mpr hx.2.1)
    rw [e1, e2, measureReal_empty, measureReal_empty]
  rcases le_or_gt 1 u with hu1 | hu1
  · have e1 : cdf μ ⁻¹' Set.Iic u = Set.univ := Set.eq_univ_of_forall fun x => (cdf_le_one μ x).trans hu1
    have e2 : Set.Iic u ∩ Set.Icc (0 : ℝ) 1 = Set.Icc 0 1 := Set.inter_eq_right.mpr fun x hx => hx.2.trans hu1
    rw [e1, e2, probReal_univ, Real.volume_real_Icc]
    simp
  have e2 : Set.Iic u ∩ Set.Icc (0 : ℝ) 1 = Set.Icc 0 u := by
    ext x
    simp only [Set.mem_inter_iff, Set.mem_Iic, Set.mem_Icc]
    constructor
    · rintro ⟨h1, h2, -⟩; exact ⟨h2, h1⟩
    · rintro ⟨h1, h2⟩; exact ⟨h2, h1, h2.trans hu1.le⟩
  rw [e2, Real.volume_real_Icc, sub_zero, max_eq_left hu]
  have hcl : IsClosed (cdf μ ⁻¹' Set.Iic u) := isClosed_Iic.preimage hc
  have hlow : ∀ x y, x ≤ y → y ∈ cdf μ ⁻¹' Set.Iic u → x ∈ cdf μ ⁻¹' Set.Iic u := fun x y h1 h2 => (monotone_cdf μ h1).trans h2
  obtain ⟨B, hB⟩ := ((tendsto_cdf_atTop μ).eventually (lt_mem_nhds hu1)).exists
  have hbd : BddAbove (cdf μ ⁻¹' Set.Iic u) := ⟨B, fun x hx => by
    by_contra hc
    exact absurd (hlow B x (not_le.mp hc).le hx) (not_le.mpr hB)⟩
  rcases Set.eq_empty_or_nonempty (cdf μ ⁻¹' Set.Iic u) with he | hne
  · rw [he, measureReal_empty]
    by_contra hc
    have hu0 : 0 < u := lt_of_le_of_ne hu hc
    obtain ⟨b, hb⟩ := ((tendsto_cdf_atBot μ).eventually (gt_mem_nhds hu0)).exists
    have : b ∈ cdf μ ⁻¹' Set.Iic u := hb.le
    rw [he] at this
    exact this
  · have hq : sSup (cdf μ ⁻¹' Set.Iic u) ∈ cdf μ ⁻¹' Set.Iic u := hcl.csSup_mem hne hbd
    have e : cdf μ ⁻¹' Set.Iic u = Set.Iic (sSup (cdf μ ⁻¹' Set.Iic u)) :=
      Set.Subset.antisymm (fun x hx => le_csSup hbd hx) fun x hx => hlow x _ hx hq
    have h1 : cdf μ (sSup (cdf μ ⁻¹' Set.Iic u)) = u := by
      refine le_antisymm hq ?_
      have ht : Tendsto (cdf μ) (𝓝[>] sSup (cdf μ ⁻¹' Set.Iic u)) (𝓝 (cdf μ (sSup (cdf μ ⁻¹' Set.Iic u)))) :=
        (hc.tendsto _).mono_left nhdsWithin_le_nhds
      refine ge_of_tendsto ht ?_
      filter_upwards [self_mem_nhdsWithin] with x hx
      by_contra hc
      exact absurd (le_csSup hbd (show x ∈ cdf μ ⁻¹' Set.Iic u from (not_le.mp hc).le)) (not_le.mpr hx)
    rw [e, ← cdf_eq_real, h1]

/-- A law without atoms has a continuous distribution function. -/
theorem continuous_cdf (μ : Measure ℝ) [IsProbabilityMeasure μ] [NullSingletonClass μ] : Continuous (cdf μ) := by
  refine continuous_iff_continuousAt.mpr fun a => continuousAt_iff_continuous_left'_right'.mpr ⟨?_, ?_⟩
  · refine ((cdf μ).mono.continuousWithinAt_Iio_iff_leftLim_eq).mpr ?_
    have h := (cdf μ).measure_singleton a
    rw [measure_cdf, measure_singleton, eq_comm, ENNReal.ofReal_eq_zero] at h
    exact le_antisymm ((cdf μ).mono.leftLim_le le_rfl) (by linarith)
  · exact ((cdf μ).right_continuous a).mono Set.Ioi_subset_Ici_self

/-- So its mean distance from one half is one quarter. -/
theorem cdf_spread (μ : Measure ℝ) [IsProbabilityMeasure μ] (hc : Continuous (cdf μ)) : ∫ x, |2 * cdf μ x - 1| ∂μ = 1 / 2 := by
  have h1 : ∫ x, |2 * cdf μ x - 1| ∂μ = ∫ u, |2 * u - 1| ∂(μ.map (cdf μ)) :=
    (integral_map (f := fun u : ℝ => |2 * u - 1|) hc.measurable.aemeasurable
      (Continuous.aestronglyMeasurable (by fun_prop))).symm
  rw [h1, map_cdf μ hc, integral_Icc_eq_integral_Ioc, ← intervalIntegral.integral_of_le zero_le_one,
    ← intervalIntegral.integral_add_adjacent_intervals (b := 1 / 2) (Continuous.intervalIntegrable (by fun_prop) _ _)
      (Continuous.intervalIntegrable (by fun_prop) _ _)]
  have e1 : ∫ u in (0 : ℝ)..(1 / 2), |2 * u - 1| = ∫ u in (0 : ℝ)..(1 / 2), (1 - 2 * u) := by
    refine intervalIntegral.integral_congr fun u hu => ?_
    rw [Set.uIcc_of_le (by norm_num)] at hu
    show |2 * u - 1| = 1 - 2 * u
    rw [abs_of_nonpos (by linarith [hu.2])]
    ring
  have e2 : ∫ u in (1 / 2 : ℝ)..1, |2 * u - 1| = ∫ u in (1 / 2 : ℝ)..1, (2 * u - 1) := by
    refine intervalIntegral.integral_congr fun u hu => ?_
    rw [Set.uIcc_of_le (by norm_num)] at hu
    exact abs_of_nonneg (by linarith [hu.1])
  rw [e1, e2, intervalIntegral.integral_sub (by simp) (Continuous.intervalIntegrable (by fun_prop) _ _),
    intervalIntegral.integral_sub (Continuous.intervalIntegrable (by fun_prop) _ _) (by simp),
    intervalIntegral.integral_const_mul, intervalIntegral.integral_const_mul, integral_id, integral_id]
  norm_num

/-- VPIN from the estimated buy volume of prices with independent increments: it does not depend on the volumes at all. -/
theorem vpin_estimate_limit {F : XF → XF} {p : ℝ → ℝ} (hF : ∀ x, F (.fin x) = .fin (p x)) (hp : Measurable p)
    {z : Nat → Ω → ℝ} (h : IID P z) {price volume : Ω → Nat → ℝ} {σ : ℝ} (hσ : σ ≠ 0)
    (hstep : ∀ ω t, price ω (t + 1) = price ω t + σ * z (t + 1) ω) (hv : ∀ ω t, 0 < volume ω t)
    (hint : Integrable (fun ω => |2 * p (z 0 ω) - 1|) P) :
    Consistent P (fun ω n w => vpin (first (volume ω) n)
      (estimateBuyVolume F (first (price ω) n) (first (volume ω) n) (first (fun _ => σ) n)) w) 1 (∫ ω, |2 * p (z 0 ω) - 1| ∂P) := by
  have hm : Measurable fun x : ℝ => |2 * p x - 1| := by fun_prop
  have hm1 : Measurable fun y : Fin 2 → ℝ => |2 * p (y 1) - 1| := hm.comp (measurable_pi_apply 1)
  have hid := (h.ident 1).comp hm
  have e : ∫ ω, |2 * p (z 1 ω) - 1| ∂P = ∫ ω, |2 * p (z 0 ω) - 1| ∂P := hid.integral_eq
  rw [← e]
  refine consistent_mean_ae h hm1 (hid.integrable_iff.mpr hint) ⟨1, ae_of_all _ fun ω w hw n t ht htn => ?_⟩
  obtain ⟨u, hu⟩ := vpin_total (first (volume ω) n)
    (estimateBuyVolume F (first (price ω) n) (first (volume ω) n) (first (fun _ => σ) n)) w
  refine ⟨u, hu, ?_⟩
  have hc : Obs (first (price ω) n) (price ω) (w + 1) t := obs_first (by omega) htn
  have hV : Obs (first (volume ω) n) (volume ω) w t := obs_first (by omega) htn
  have hs : Obs (first (fun _ => σ) n) (fun _ => σ) w t := obs_first (by omega) htn
  have hd : Obs (diff 1 (first (price ω) n)) (fun i => price ω i - price ω (i - 1)) w t :=
    obs_op2 (obs_sub hc (Nat.le_succ w)) (obs_shift hc) fun i _ => XF.sub_fin _ _
  have hb : Obs (estimateBuyVolume F (first (price ω) n) (first (volume ω) n) (first (fun _ => σ) n))
      (fun i => volume ω i * p ((price ω i - price ω (i - 1)) / σ)) w t :=
    obs_op2 hV (obs_map (y := fun i => (price ω i - price ω (i - 1)) / σ) (obs_op2 hd hs fun i _ => XF.div_fin hσ) fun i _ => hF _)
      fun i _ => XF.mul_fin _ _
  rw [vpin_spec hw hu hV hb fun i _ => (hv ω i).ne']
  rw [meanOf_eq _ (by omega)]
  congr 2
  unfold Sim.mean
  congr 1
  refine Finset.sum_congr rfl fun j hj => ?_
  show |volume ω (j + (t + 1 - w)) * p ((price ω (j + (t + 1 - w)) - price ω (j + (t + 1 - w) - 1)) / σ) -
    (volume ω (j + (t + 1 - w)) - volume ω (j + (t + 1 - w)) * p ((price ω (j + (t + 1 - w)) - price ω (j + (t + 1 - w) - 1)) / σ))| /
      volume ω (j + (t + 1 - w)) = |2 * p (z (j + 1 + (t + 1 - w - 1)) ω) - 1|
  have e1 : (price ω (j + (t + 1 - w)) - price ω (j + (t + 1 - w) - 1)) / σ = z (j + 1 + (t + 1 - w - 1)) ω := by
    rw [show j + (t + 1 - w) - 1 = j + (t + 1 - w - 1) by omega, show j + (t + 1 - w) = j + (t + 1 - w - 1) + 1 by omega, hstep,
      show j + (t + 1 - w - 1) + 1 = j + 1 + (t + 1 - w - 1) by omega]
    field_simp
    ring
  rw [e1]
  have hp := hv ω (j + (t + 1 - w))
  rw [show volume ω (j + (t + 1 - w)) * p (z (j + 1 + (t + 1 - w - 1)) ω) - (volume ω (j + (t + 1 - w)) -
    volume ω (j + (t + 1 - w)) * p (z (j + 1 + (t + 1 - w - 1)) ω)) =
      (2 * p (z (j + 1 + (t + 1 - w - 1)) ω) - 1) * volume ω (j + (t + 1 - w)) by ring, abs_mul, abs_of_pos hp, mul_div_cancel_right₀ _ hp.ne']

/-- If the distribution function is the one of the price increments then VPIN tends to one half, whatever their law is: such a
VPIN carries no information on the order flow. -/
theorem vpin_matched {F : XF → XF} {μ : Measure ℝ} [IsProbabilityMeasure μ] (hc : Continuous (cdf μ))
    (hF : ∀ x, F (.fin x) = .fin (cdf μ x)) {z : Nat → Ω → ℝ} (h : IID P z) (hz : HasLaw (z 0) μ P)
    {price volume : Ω → Nat → ℝ} {σ : ℝ} (hσ : σ ≠ 0)
    (hstep : ∀ ω t, price ω (t + 1) = price ω t + σ * z (t + 1) ω) (hv : ∀ ω t, 0 < volume ω t) :
    Consistent P (fun ω n w => vpin (first (volume ω) n)
      (estimateBuyVolume F (first (price ω) n) (first (volume ω) n) (first (fun _ => σ) n)) w) 1 (1 / 2) := by
  have hm : Measurable fun x => |2 * cdf μ x - 1| := by have := hc.measurable; fun_prop
  have := h.indep.isProbabilityMeasure
  have hi : Integrable (fun ω => |2 * cdf μ (z 0 ω) - 1|) P :=
    Integrable.of_bound (hm.comp_aemeasurable hz.aemeasurable).aestronglyMeasurable 1 (ae_of_all _ fun ω => by
      rw [Real.norm_eq_abs, abs_abs, abs_le]
      constructor <;> linarith [cdf_nonneg μ (z 0 ω), cdf_le_one μ (z 0 ω)])
  have h1 := vpin_estimate_limit hF hc.measurable h hσ hstep hv hi
  have e : ∫ ω, |2 * cdf μ (z 0 ω) - 1| ∂P = 1 / 2 := by
    rw [← cdf_spread μ hc]
    exact hz.integral_comp hm.aestronglyMeasurable
  rwa [e] at h1

/-- A VPIN of one half from prices with standard normal increments. -/
example : ∃ (Ω : Type) (_ : MeasurableSpace Ω) (P : Measure Ω) (F : XF → XF) (price volume : Ω → Nat → ℝ),
    Consistent P (fun ω n w => vpin (first (volume ω) n)
      (estimateBuyVolume F (first (price ω) n) (first (volume ω) n) (first (fun _ => 1) n)) w) 1 (1 / 2) := by
  obtain ⟨Ω, mΩ, P, Z, h0, h1, h2, h3⟩ := exists_iid Nat (gaussianReal 0 1)
  have hx : IID P Z := ⟨h2, fun t => ⟨(h0 t).aemeasurable, (h0 0).aemeasurable, (h1 t).map_eq.trans (h1 0).map_eq.symm⟩⟩
  have := nullSingletonClass_gaussianReal (μ := 0) (v := 1) one_ne_zero
  refine ⟨Ω, mΩ, P, fun v => match v with | .fin x => .fin (cdf (gaussianReal 0 1) x) | _ => .nan,
    fun ω t => ∑ i ∈ Finset.range t, Z (i + 1) ω, fun _ _ => 1,
    vpin_matched (μ := gaussianReal 0 1) ?_ (fun _ => rfl) hx (h1 0) one_ne_zero (fun ω t => by rw [Finset.sum_range_succ, one_mul])
      fun _ _ => one_pos⟩
  exact continuous_cdf _

end Vpin

end Verif.Props.MicroTradeLaw
