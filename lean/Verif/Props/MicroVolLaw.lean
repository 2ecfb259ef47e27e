import Verif.Spec.BarModel
import Verif.Props.MicroRollLaw

/-!
# C84: what the volatility estimators estimate
-/

namespace Verif.Props.MicroVolLaw

open Verif Ser Micro Stat Sim IndRolling MicroVol MicroRollLaw MeasureTheory ProbabilityTheory Filter Topology

section

variable {Ω E : Type*} [MeasurableSpace Ω] [MeasurableSpace E] {P : Measure Ω} {X : Nat → Ω → E}

theorem measurable_block {k : Nat} {g : (Fin k → E) → ℝ} (hg : Measurable g) (j : Nat) :
    Measurable fun x : Nat → E => g fun i : Fin k => x (j + i) :=
  hg.comp (measurable_pi_lambda _ fun i => measurable_pi_apply (j + (i : Nat)))

/-- Consistency of a rolling mean, up to a null set. -/
theorem consistent_mean_ae (h : IID P X) {lag : Nat} {g : (Fin (lag + 1) → E) → ℝ} (hg : Measurable g)
    (hint : Integrable (fun ω => g fun i => X i ω) P) {est : Ω → Nat → Nat → Py Ser}
    (heq : ∃ w₀, ∀ᵐ ω ∂P, ∀ w ≥ w₀, ∀ n t, w + lag ≤ t + 1 → t < n →
      ∃ v, est ω n w = .ok v ∧ v[t]? = some (.fin (Sim.mean w fun j => g fun i => X (j + i + (t + 1 - w - lag)) ω))) :
    Consistent P est lag (∫ ω, g (fun i => X i ω) ∂P) :=
  consistent_of_ae h (F := fun w x => Sim.mean w fun j => g fun i => x (j + i))
    (fun w => measurable_mean (fun j => measurable_block hg j) w) (h.block (Nat.succ_pos lag) hg hint) heq

/-- Consistency of a rolling mean. -/
theorem consistent_mean (h : IID P X) {lag : Nat} {g : (Fin (lag + 1) → E) → ℝ} (hg : Measurable g)
    (hint : Integrable (fun ω => g fun i => X i ω) P) {est : Ω → Nat → Nat → Py Ser}
    (heq : ∀ᶠ w in atTop, ∀ ω n t, w + lag ≤ t + 1 → t < n →
      ∃ v, est ω n w = .ok v ∧ v[t]? = some (.fin (Sim.mean w fun j => g fun i => X (j + i + (t + 1 - w - lag)) ω))) :
    Consistent P est lag (∫ ω, g (fun i => X i ω) ∂P) :=
  consistent_of h (F := fun w x => Sim.mean w fun j => g fun i => x (j + i))
    (fun w => measurable_mean (fun j => measurable_block hg j) w) (h.block (Nat.succ_pos lag) hg hint) heq

end

theorem stdOf_sq (f : Nat → ℝ) {w t : Nat} (hw : 2 ≤ w) (ht : w ≤ t + 1) :
    stdOf f w t ^ 2 = scov w 1 (fun j => f (j + (t + 1 - w))) fun j => f (j + (t + 1 - w)) := by
  rw [← covOf_eq f f ht, MicroRoll.covOf, stdOf, Real.sq_sqrt]
  · simp only [pow_two]
  · have : (2 : ℝ) ≤ w := by exact_mod_cast hw
    exact div_nonneg (Finset.sum_nonneg fun i _ => sq_nonneg _) (by linarith)

variable {Ω : Type*} [MeasurableSpace Ω] {P : Measure Ω} {X : Nat → Ω → Fin 4 → ℝ} {O H L C : Ω → Nat → ℝ}

theorem closes_pos (h : BarModel P X O H L C) (ω : Ω) (t : Nat) : 0 < C ω t := by
  rw [h.close]; exact mul_pos (h.pos ω t) (Real.exp_pos _)

theorem highs_pos (h : BarModel P X O H L C) (ω : Ω) (t : Nat) : 0 < H ω t := by
  rw [h.high]; exact mul_pos (h.pos ω t) (Real.exp_pos _)

theorem lows_pos (h : BarModel P X O H L C) (ω : Ω) (t : Nat) : 0 < L ω t := by
  rw [h.low]; exact mul_pos (h.pos ω t) (Real.exp_pos _)

theorem log_ratios (h : BarModel P X O H L C) (ω : Ω) (t : Nat) :
    Real.log (H ω t / L ω t) = up (X t ω) - dn (X t ω) ∧ Real.log (C ω t / O ω t) = oc (X t ω) ∧
      Real.log (H ω t / C ω t) = up (X t ω) - oc (X t ω) ∧ Real.log (H ω t / O ω t) = up (X t ω) ∧
      Real.log (L ω t / C ω t) = dn (X t ω) - oc (X t ω) ∧ Real.log (L ω t / O ω t) = dn (X t ω) := by
  have hO := (h.pos ω t).ne'
  have lH : Real.log (H ω t) = Real.log (O ω t) + up (X t ω) := by
    rw [h.high, Real.log_mul hO (Real.exp_ne_zero _), Real.log_exp]
  have lL : Real.log (L ω t) = Real.log (O ω t) + dn (X t ω) := by
    rw [h.low, Real.log_mul hO (Real.exp_ne_zero _), Real.log_exp]
  have lC : Real.log (C ω t) = Real.log (O ω t) + oc (X t ω) := by
    rw [h.close, Real.log_mul hO (Real.exp_ne_zero _), Real.log_exp]
  have pH := (highs_pos h ω t).ne'
  have pL := (lows_pos h ω t).ne'
  have pC := (closes_pos h ω t).ne'
  rw [Real.log_div pH pL, Real.log_div pC hO, Real.log_div pH pC, Real.log_div pH hO, Real.log_div pL pC, Real.log_div pL hO,
    lH, lL, lC]
  refine ⟨?_, ?_, ?_, ?_, ?_, ?_⟩ <;> ring

theorem close_ratio (h : BarModel P X O H L C) (ω : Ω) (t : Nat) :
    C ω (t + 1) / C ω t = Real.exp (on (X (t + 1) ω) + oc (X (t + 1) ω)) := by
  rw [h.close ω (t + 1), h.opens, Real.exp_add]
  have := (closes_pos h ω t).ne'
  field_simp

theorem log_overnight (h : BarModel P X O H L C) (ω : Ω) (t : Nat) :
    Real.log (O ω (t + 1) / C ω t) = on (X (t + 1) ω) := by
  rw [h.opens, mul_div_cancel_left₀ _ (closes_pos h ω t).ne', Real.log_exp]

theorem log_two_bars (h : BarModel P X O H L C) (ω : Ω) (t : Nat) :
    Real.log (C ω (t + 1) / O ω t) = oc (X t ω) + on (X (t + 1) ω) + oc (X (t + 1) ω) := by
  have e : C ω (t + 1) / O ω t = Real.exp (oc (X t ω) + on (X (t + 1) ω) + oc (X (t + 1) ω)) := by
    rw [h.close ω (t + 1), h.opens, h.close ω t, Real.exp_add, Real.exp_add]
    have := (h.pos ω t).ne'
    field_simp
  rw [e, Real.log_exp]

theorem highLow_total (h l : Ser) (w : Nat) : ∃ u, highLow h l w = .ok u := by
  rw [highLow, rolling_ok (by omega)]
  exact ⟨_, rfl⟩

theorem garmanKlass_total (h l o c : Ser) (w : Nat) : ∃ u, garmanKlass h l o c w = .ok u := by
  rw [garmanKlass, rolling_ok (by omega), rolling_ok (by omega)]
  exact ⟨_, rfl⟩

theorem rogersSatchell_total (h l o c : Ser) (w : Nat) : ∃ u, rogersSatchell h l o c w = .ok u := by
  rw [rogersSatchell, rolling_ok (by omega)]
  exact ⟨_, rfl⟩

theorem closeClose_total (c : Ser) (w : Nat) : ∃ u, closeClose c w = .ok u := by
  rw [closeClose, rolling_ok (by omega)]
  exact ⟨_, rfl⟩

theorem yangZhang_total (h l o c : Ser) {w : Nat} (hw : 2 ≤ w) : ∃ u, yangZhang h l o c w = .ok u := by
  obtain ⟨r, hr⟩ := rogersSatchell_total h l o c w
  rw [yangZhang, yzCoeff, if_neg (by omega), rolling_ok (by omega), rolling_ok (by omega), hr]
  exact ⟨_, rfl⟩

theorem sq_memLp (h : BarModel P X O H L C) (k : Fin 4) (t : Nat) : MemLp (fun ω => X t ω k) 2 P :=
  ((h.iid.ident t).comp (measurable_pi_apply k)).memLp_iff.mpr (h.sq k)

theorem measurable_on : Measurable on := measurable_pi_apply 0
theorem measurable_up : Measurable up := measurable_pi_apply 1
theorem measurable_dn : Measurable dn := measurable_pi_apply 2
theorem measurable_oc : Measurable oc := measurable_pi_apply 3

/-- Close to close: the variance of the ratio of successive closes (not of the log return). -/
theorem closeClose_limit (h : BarModel P X O H L C)
    (hi : MemLp (fun ω => Real.exp (on (X 0 ω) + oc (X 0 ω))) 2 P) :
    Consistent P (fun ω n w => closeClose (first (C ω) n) w) 1 Var[fun ω => Real.exp (on (X 0 ω) + oc (X 0 ω)); P] := by
  have hP := h.iid.indep.isProbabilityMeasure
  have hm : Measurable fun x : Fin 4 → ℝ => Real.exp (on x + oc x) := (measurable_on.add measurable_oc).exp
  have hid := (h.iid.ident 1).comp hm
  have hi1 : MemLp (fun ω => Real.exp (on (X 1 ω) + oc (X 1 ω))) 2 P := hid.memLp_iff.mpr hi
  have hv : cov[fun ω => Real.exp (on (X 1 ω) + oc (X 1 ω)), fun ω => Real.exp (on (X 1 ω) + oc (X 1 ω)); P] =
      Var[fun ω => Real.exp (on (X 0 ω) + oc (X 0 ω)); P] := by
    rw [covariance_self hi1.aemeasurable]
    exact hid.variance_eq
  refine consistent_of h.iid (F := fun w x => scov w 1 (fun j => Real.exp (on (x (j + 1)) + oc (x (j + 1))))
    fun j => Real.exp (on (x (j + 1)) + oc (x (j + 1)))) (fun w => ?_) ?_ ?_
  · have : ∀ j, Measurable fun x : Nat → Fin 4 → ℝ => Real.exp (on (x (j + 1)) + oc (x (j + 1))) := fun j =>
      hm.comp (measurable_pi_apply (j + 1))
    exact measurable_scov this this w 1
  · have hm2 : Measurable fun x : Fin 2 → Fin 4 → ℝ => Real.exp (on (x 1) + oc (x 1)) := hm.comp (measurable_pi_apply 1)
    have h1 := h.iid.scov (k := 2) (by norm_num) hm2 hm2 hi1 hi1
    have e : cov[fun ω => Real.exp (on (X ((1 : Fin 2) : Nat) ω) + oc (X ((1 : Fin 2) : Nat) ω)),
      fun ω => Real.exp (on (X ((1 : Fin 2) : Nat) ω) + oc (X ((1 : Fin 2) : Nat) ω)); P] = _ := hv
    rw [e] at h1
    exact h1
  · filter_upwards [eventually_ge_atTop 2] with w hw ω n t ht hn
    obtain ⟨u, hu⟩ := closeClose_total (first (C ω) n) w
    refine ⟨u, hu, ?_⟩
    rw [closeClose_spec hw hu (obs_first (by omega) hn) fun i _ => (closes_pos h ω i).ne', stdOf_sq _ hw (by omega)]
    obtain ⟨b, hb⟩ : ∃ b, t + 1 - w = b + 1 := ⟨t + 1 - w - 1, by omega⟩
    have e : (fun j => C ω (j + (t + 1 - w)) / C ω (j + (t + 1 - w) - 1)) =
        fun j => Real.exp (on (X (j + 1 + (t + 1 - w - 1)) ω) + oc (X (j + 1 + (t + 1 - w - 1)) ω)) := by
      funext j
      rw [hb, show j + (b + 1) - 1 = j + b by omega, show j + (b + 1) = j + b + 1 by omega, close_ratio h,
        show j + 1 + (b + 1 - 1) = j + b + 1 by omega]
    rw [e]

/-- High-low: the mean squared log range over `4 log 2`. -/
theorem highLow_limit (h : BarModel P X O H L C) :
    Consistent P (fun ω n w => highLow (first (H ω) n) (first (L ω) n) w) 0
      (∫ ω, (up (X 0 ω) - dn (X 0 ω)) ^ 2 / (4 * Real.log 2) ∂P) := by
  have hm : Measurable fun x : Fin 1 → Fin 4 → ℝ => (up (x 0) - dn (x 0)) ^ 2 / (4 * Real.log 2) :=
    ((((measurable_up.comp (measurable_pi_apply 0)).sub (measurable_dn.comp (measurable_pi_apply 0))).pow_const 2).div_const _)
  refine consistent_mean h.iid hm ?_ ?_
  · have : MemLp (fun ω => up (X 0 ω) - dn (X 0 ω)) 2 P := (sq_memLp h 1 0).sub (sq_memLp h 2 0)
    exact this.integrable_sq.div_const _
  · filter_upwards [eventually_ge_atTop 1] with w hw ω n t ht hn
    obtain ⟨u, hu⟩ := highLow_total (first (H ω) n) (first (L ω) n) w
    refine ⟨u, hu, ?_⟩
    rw [highLow_spec hw hu (obs_first (by omega) hn) (obs_first (by omega) hn) fun i _ => ⟨lows_pos h ω i, highs_pos h ω i⟩,
      meanOf_eq _ (by omega)]
    simp only [(log_ratios h ω _).1]
    congr 2
    unfold Sim.mean
    rw [← Finset.sum_div, div_right_comm]
    rfl

/-- Garman-Klass. -/
theorem garmanKlass_limit (h : BarModel P X O H L C) :
    Consistent P (fun ω n w => garmanKlass (first (H ω) n) (first (L ω) n) (first (O ω) n) (first (C ω) n) w) 0
      (∫ ω, (1 / 2 * (up (X 0 ω) - dn (X 0 ω)) ^ 2 - (2 * Real.log 2 - 1) * oc (X 0 ω) ^ 2) ∂P) := by
  have hm : Measurable fun x : Fin 1 → Fin 4 → ℝ => 1 / 2 * (up (x 0) - dn (x 0)) ^ 2 - (2 * Real.log 2 - 1) * oc (x 0) ^ 2 :=
    ((((measurable_up.comp (measurable_pi_apply 0)).sub (measurable_dn.comp (measurable_pi_apply 0))).pow_const 2).const_mul _).sub
      (((measurable_oc.comp (measurable_pi_apply 0)).pow_const 2).const_mul _)
  refine consistent_mean h.iid hm ?_ ?_
  · have : MemLp (fun ω => up (X 0 ω) - dn (X 0 ω)) 2 P := (sq_memLp h 1 0).sub (sq_memLp h 2 0)
    exact (this.integrable_sq.const_mul _).sub ((sq_memLp h 3 0).integrable_sq.const_mul _)
  · filter_upwards [eventually_ge_atTop 1] with w hw ω n t ht hn
    obtain ⟨u, hu⟩ := garmanKlass_total (first (H ω) n) (first (L ω) n) (first (O ω) n) (first (C ω) n) w
    refine ⟨u, hu, ?_⟩
    rw [garmanKlass_spec hw hu (obs_first (by omega) hn) (obs_first (by omega) hn) (obs_first (by omega) hn)
      (obs_first (by omega) hn) fun i _ => ⟨highs_pos h ω i, lows_pos h ω i, h.pos ω i, closes_pos h ω i⟩, meanOf_eq _ (by omega)]
    simp only [(log_ratios h ω _).1, (log_ratios h ω _).2.1]
    rfl

/-- The Rogers-Satchell statistic of a bar. -/
noncomputable def rs (x : Fin 4 → ℝ) : ℝ := up x * (up x - oc x) + dn x * (dn x - oc x)

theorem measurable_rs : Measurable rs :=
  (measurable_up.mul (measurable_up.sub measurable_oc)).add (measurable_dn.mul (measurable_dn.sub measurable_oc))

theorem rs_integrable (h : BarModel P X O H L C) (t : Nat) : Integrable (fun ω => rs (X t ω)) P := by
  have h1 : MemLp (fun ω => up (X t ω) - oc (X t ω)) 2 P := (sq_memLp h 1 t).sub (sq_memLp h 3 t)
  have h2 : MemLp (fun ω => dn (X t ω) - oc (X t ω)) 2 P := (sq_memLp h 2 t).sub (sq_memLp h 3 t)
  exact ((sq_memLp h 1 t).integrable_mul h1).add ((sq_memLp h 2 t).integrable_mul h2)

theorem rsTerm_eq (h : BarModel P X O H L C) (ω : Ω) (t : Nat) : rsTerm (H ω t) (L ω t) (O ω t) (C ω t) = rs (X t ω) := by
  obtain ⟨-, -, e1, e2, e3, e4⟩ := log_ratios h ω t
  rw [rsTerm, e1, e2, e3, e4, rs]
  ring

/-- Rogers-Satchell. -/
theorem rogersSatchell_limit (h : BarModel P X O H L C) :
    Consistent P (fun ω n w => rogersSatchell (first (H ω) n) (first (L ω) n) (first (O ω) n) (first (C ω) n) w) 0
      (∫ ω, rs (X 0 ω) ∂P) := by
  have hm : Measurable fun x : Fin 1 → Fin 4 → ℝ => rs (x 0) := measurable_rs.comp (measurable_pi_apply 0)
  refine consistent_mean h.iid hm (rs_integrable h 0) ?_
  filter_upwards [eventually_ge_atTop 1] with w hw ω n t ht hn
  obtain ⟨u, hu⟩ := rogersSatchell_total (first (H ω) n) (first (L ω) n) (first (O ω) n) (first (C ω) n) w
  refine ⟨u, hu, ?_⟩
  rw [rogersSatchell_spec hw hu (obs_first (by omega) hn) (obs_first (by omega) hn) (obs_first (by omega) hn)
    (obs_first (by omega) hn) fun i _ => ⟨highs_pos h ω i, lows_pos h ω i, h.pos ω i, closes_pos h ω i⟩, meanOf_eq _ (by omega)]
  simp only [rsTerm_eq h]
  rfl

/-- The limit of the weight of the open-to-close part. -/
noncomputable def K : ℝ := 0.34 / 2.34

theorem yz_weight : Tendsto (fun w : Nat => (0.34 : ℝ) / (1.34 + ((w : ℝ) + 1) / ((w : ℝ) - 1))) atTop (𝓝 K) := by
  have h1 : Tendsto (fun w : Nat => ((w : ℝ) + 1) / ((w : ℝ) - 1)) atTop (𝓝 1) := by
    have h2 : Tendsto (fun w : Nat => (2 : ℝ) / ((w : ℝ) - 1)) atTop (𝓝 0) :=
      tendsto_const_nhds.div_atTop (tendsto_atTop_add_const_right _ (-1) tendsto_natCast_atTop_atTop)
    have h3 := h2.const_add 1
    rw [add_zero] at h3
    refine h3.congr' ?_
    filter_upwards [eventually_ge_atTop 2] with w hw
    have : (2 : ℝ) ≤ w := by exact_mod_cast hw
    have : (w : ℝ) - 1 ≠ 0 := by linarith
    field_simp
    ring
  have h4 := (tendsto_const_nhds (x := (0.34 : ℝ))).div (h1.const_add 1.34) (by norm_num)
  have e : K = 0.34 / (1.34 + 1) := by rw [K]; norm_num
  rw [e]
  exact h4

/-- Yang-Zhang: the middle term is the mean square of a move over two closes-to-opens, from an open to the close of the next
bar. -/
theorem yangZhang_limit (h : BarModel P X O H L C) :
    Consistent P (fun ω n w => yangZhang (first (H ω) n) (first (L ω) n) (first (O ω) n) (first (C ω) n) w) 1
      (∫ ω, on (X 0 ω) ^ 2 ∂P + K * ∫ ω, (oc (X 0 ω) + on (X 1 ω) + oc (X 1 ω)) ^ 2 ∂P + (1 - K) * ∫ ω, rs (X 0 ω) ∂P) := by
  have m1 : Measurable fun x : Fin 2 → Fin 4 → ℝ => on (x 1) ^ 2 := (measurable_on.comp (measurable_pi_apply 1)).pow_const 2
  have m2 : Measurable fun x : Fin 2 → Fin 4 → ℝ => (oc (x 0) + on (x 1) + oc (x 1)) ^ 2 :=
    (((measurable_oc.comp (measurable_pi_apply 0)).add (measurable_on.comp (measurable_pi_apply 1))).add
      (measurable_oc.comp (measurable_pi_apply 1))).pow_const 2
  have m3 : Measurable fun x : Fin 2 → Fin 4 → ℝ => rs (x 1) := measurable_rs.comp (measurable_pi_apply 1)
  refine consistent_of h.iid (F := fun w x => (Sim.mean w fun j => (fun y : Fin 2 → Fin 4 → ℝ => on (y 1) ^ 2) fun i => x (j + i)) +
    0.34 / (1.34 + ((w : ℝ) + 1) / ((w : ℝ) - 1)) *
      (Sim.mean w fun j => (fun y : Fin 2 → Fin 4 → ℝ => (oc (y 0) + on (y 1) + oc (y 1)) ^ 2) fun i => x (j + i)) +
    (1 - 0.34 / (1.34 + ((w : ℝ) + 1) / ((w : ℝ) - 1))) *
      Sim.mean w fun j => (fun y : Fin 2 → Fin 4 → ℝ => rs (y 1)) fun i => x (j + i)) (fun w => ?_) ?_ ?_
  · exact ((measurable_mean (fun j => measurable_block m1 j) w).add
      ((measurable_mean (fun j => measurable_block m2 j) w).const_mul _)).add
      ((measurable_mean (fun j => measurable_block m3 j) w).const_mul _)
  · have i2 : MemLp (fun ω => oc (X 0 ω) + on (X 1 ω) + oc (X 1 ω)) 2 P :=
      ((sq_memLp h 3 0).add (sq_memLp h 0 1)).add (sq_memLp h 3 1)
    have h1 := h.iid.block (k := 2) (by norm_num) m1 (sq_memLp h 0 1).integrable_sq
    have h2 := h.iid.block (k := 2) (by norm_num) m2 i2.integrable_sq
    have h3 := h.iid.block (k := 2) (by norm_num) m3 (rs_integrable h 1)
    have e1 : ∫ ω, on (X ((1 : Fin 2) : Nat) ω) ^ 2 ∂P = ∫ ω, on (X 0 ω) ^ 2 ∂P :=
      ((h.iid.ident 1).comp (measurable_on.pow_const 2)).integral_eq
    have e3 : ∫ ω, rs (X ((1 : Fin 2) : Nat) ω) ∂P = ∫ ω, rs (X 0 ω) ∂P := ((h.iid.ident 1).comp measurable_rs).integral_eq
    rw [e1] at h1
    rw [e3] at h3
    filter_upwards [h1, h2, h3] with ω a1 a2 a3
    exact (a1.add (yz_weight.mul a2)).add ((yz_weight.const_sub 1).mul a3)
  · filter_upwards [eventually_ge_atTop 2] with w hw ω n t ht hn
    obtain ⟨u, hu⟩ := yangZhang_total (first (H ω) n) (first (L ω) n) (first (O ω) n) (first (C ω) n) hw
    refine ⟨u, hu, ?_⟩
    obtain ⟨k, hk, e⟩ := yangZhang_spec hw hu (obs_first (by omega) hn) (obs_first (by omega) hn) (obs_first (by omega) hn)
      (obs_first (by omega) hn) fun i _ => ⟨highs_pos h ω i, lows_pos h ω i, h.pos ω i, closes_pos h ω i⟩
    have hkv : k = 0.34 / (1.34 + ((w : ℝ) + 1) / ((w : ℝ) - 1)) := by
      rw [yzCoeff, if_neg (by omega)] at hk
      have := Except.ok.inj hk
      rw [← this]
      push_cast
      rfl
    rw [e, hkv, meanOf_eq _ (by omega), meanOf_eq _ (by omega), meanOf_eq _ (by omega)]
    obtain ⟨b, hb⟩ : ∃ b, t + 1 - w = b + 1 := ⟨t + 1 - w - 1, by omega⟩
    have q2 : ∀ j, j + (b + 1) = j + b + 1 := fun j => by omega
    have q3 : ∀ j, j + 1 + b = j + b + 1 := fun j => by omega
    rw [hb]
    simp only [q2, Nat.add_sub_cancel, log_overnight h, log_two_bars h, rsTerm_eq h, Fin.val_zero, Fin.val_one, q3, Nat.add_zero]

/-- Compared with the reference estimator, in which the middle term is the variance of the move from the open to the close of
the same bar: for bars without drift the limit is too high by `0.34 / 2.34` times the close-to-close variance. -/
theorem yangZhang_excess (h : BarModel P X O H L C) (h1 : ∫ ω, on (X 0 ω) ∂P = 0) (h2 : ∫ ω, oc (X 0 ω) ∂P = 0) :
    Consistent P (fun ω n w => yangZhang (first (H ω) n) (first (L ω) n) (first (O ω) n) (first (C ω) n) w) 1
      ((Var[fun ω => on (X 0 ω); P] + K * Var[fun ω => oc (X 0 ω); P] + (1 - K) * ∫ ω, rs (X 0 ω) ∂P) +
        K * Var[fun ω => on (X 0 ω) + oc (X 0 ω); P]) := by
  have hP := h.iid.indep.isProbabilityMeasure
  have hs : MemLp (fun ω => on (X 0 ω) + oc (X 0 ω)) 2 P := (sq_memLp h 0 0).add (sq_memLp h 3 0)
  have hs1 : MemLp (fun ω => on (X 1 ω) + oc (X 1 ω)) 2 P := (sq_memLp h 0 1).add (sq_memLp h 3 1)
  have hc : MemLp (fun ω => oc (X 0 ω)) 2 P := sq_memLp h 3 0
  have m0 : ∫ ω, (on (X 0 ω) + oc (X 0 ω)) ∂P = 0 := by
    have i1 : Integrable (fun ω => on (X 0 ω)) P := (sq_memLp h 0 0).integrable (by norm_num)
    have i2 : Integrable (fun ω => oc (X 0 ω)) P := hc.integrable (by norm_num)
    rw [integral_add i1 i2, h1, h2, add_zero]
  have v1 : Var[fun ω => on (X 0 ω); P] = ∫ ω, on (X 0 ω) ^ 2 ∂P :=
    variance_of_integral_eq_zero (sq_memLp h 0 0).aemeasurable h1
  have v2 : Var[fun ω => oc (X 0 ω); P] = ∫ ω, oc (X 0 ω) ^ 2 ∂P := variance_of_integral_eq_zero hc.aemeasurable h2
  have hind : IndepFun (fun ω => oc (X 0 ω)) (fun ω => on (X 1 ω) + oc (X 1 ω)) P :=
    (h.iid.indep.indepFun (show (0 : Nat) ≠ 1 by norm_num)).comp measurable_oc (measurable_on.add measurable_oc)
  have e1 : ∫ ω, (on (X 1 ω) + oc (X 1 ω)) ∂P = 0 := by
    rw [← m0]
    exact ((h.iid.ident 1).comp (measurable_on.add measurable_oc)).integral_eq
  have v3 : ∫ ω, (oc (X 0 ω) + on (X 1 ω) + oc (X 1 ω)) ^ 2 ∂P =
      Var[fun ω => oc (X 0 ω); P] + Var[fun ω => on (X 0 ω) + oc (X 0 ω); P] := by
    have a1 := hind.variance_add hc hs1
    have a2 : Var[fun ω => on (X 1 ω) + oc (X 1 ω); P] = Var[fun ω => on (X 0 ω) + oc (X 0 ω); P] :=
      ((h.iid.ident 1).comp (measurable_on.add measurable_oc)).variance_eq
    rw [← a2, ← a1, variance_of_integral_eq_zero (hc.add hs1).aemeasurable]
    · exact integral_congr_ae (ae_of_all _ fun ω => by simp only [Pi.add_apply]; ring)
    · have i2 : Integrable (fun ω => oc (X 0 ω)) P := hc.integrable (by norm_num)
      have i3 : Integrable (fun ω => on (X 1 ω) + oc (X 1 ω)) P := hs1.integrable (by norm_num)
      have := integral_add i2 i3
      rw [h2, e1, add_zero] at this
      exact this
  have h5 := yangZhang_limit h
  rw [v3, ← v1] at h5
  have e : (Var[fun ω => on (X 0 ω); P] + K * Var[fun ω => oc (X 0 ω); P] + (1 - K) * ∫ ω, rs (X 0 ω) ∂P) +
        K * Var[fun ω => on (X 0 ω) + oc (X 0 ω); P] =
      Var[fun ω => on (X 0 ω); P] + K * (Var[fun ω => oc (X 0 ω); P] + Var[fun ω => on (X 0 ω) + oc (X 0 ω); P]) +
        (1 - K) * ∫ ω, rs (X 0 ω) ∂P := by ring
  rw [e]
  exact h5

/-- Normal log returns with mean `m` and variance `v`: the close-to-close estimate is the variance of a log-normal
variable. It is not the variance of the log return; for prices without drift (`m = -v/2`) it is larger. -/
theorem closeClose_normal (h : BarModel P X O H L C) {m : ℝ} {v : NNReal}
    (hl : HasLaw (fun ω => on (X 0 ω) + oc (X 0 ω)) (gaussianReal m v) P) :
    Consistent P (fun ω n w => closeClose (first (C ω) n) w) 1 (Real.exp (2 * m + v) * (Real.exp v - 1)) ∧
      (2 * m + v = 0 → v ≠ 0 → (v : ℝ) < Real.exp (2 * m + v) * (Real.exp v - 1)) := by
  have hP := h.iid.indep.isProbabilityMeasure
  set Y : Ω → ℝ := fun ω => on (X 0 ω) + oc (X 0 ω) with hY
  have hm := fun t => mgf_gaussianReal hl.map_eq t
  have hint : ∀ t, Integrable (fun ω => Real.exp (t * Y ω)) P := fun t => by
    have := integrable_exp_mul_gaussianReal (μ := m) (v := v) t
    rw [← hl.map_eq] at this
    exact this.comp_aemeasurable hl.aemeasurable
  have e1 : ∀ ω, Real.exp (Y ω) ^ 2 = Real.exp (2 * Y ω) := fun ω => by rw [← Real.exp_nat_mul]; norm_num
  have hL : MemLp (fun ω => Real.exp (Y ω)) 2 P := by
    rw [memLp_two_iff_integrable_sq hl.aemeasurable.exp.aestronglyMeasurable]
    simp only [e1]
    exact hint 2
  have hv : Var[fun ω => Real.exp (Y ω); P] = Real.exp (2 * m + v) * (Real.exp v - 1) := by
    rw [variance_eq_sub hL]
    have a1 : P[(fun ω => Real.exp (Y ω)) ^ 2] = Real.exp (m * 2 + v * 2 ^ 2 / 2) := by
      rw [← hm 2, mgf]
      exact integral_congr_ae (ae_of_all _ fun ω => e1 ω)
    have a2 : P[fun ω => Real.exp (Y ω)] = Real.exp (m * 1 + v * 1 ^ 2 / 2) := by
      rw [← hm 1, mgf]
      simp only [one_mul]
    rw [a1, a2, mul_sub, ← Real.exp_add, ← Real.exp_nat_mul]
    congr 1 <;> · push_cast; ring_nf
  constructor
  · rw [← hv]
    exact closeClose_limit h hL
  · intro h0 hv0
    rw [h0, Real.exp_zero, one_mul]
    have : (v : ℝ) ≠ 0 := by exact_mod_cast hv0
    linarith [Real.add_one_lt_exp this]

/-- A bar that moves straight from its open to its close, by a standard normal log return. -/
noncomputable def straight (z : ℝ) : Fin 4 → ℝ := ![0, max 0 z, min 0 z, z]

theorem exists_bars : ∃ (Ω : Type) (_ : MeasurableSpace Ω) (P : Measure Ω) (X : Nat → Ω → Fin 4 → ℝ) (O H L C : Ω → Nat → ℝ),
    BarModel P X O H L C ∧ (∀ ω t, L ω t ≤ O ω t ∧ O ω t ≤ H ω t ∧ L ω t ≤ C ω t ∧ C ω t ≤ H ω t) ∧
      HasLaw (fun ω => on (X 0 ω) + oc (X 0 ω)) (gaussianReal 0 1) P ∧ (∀ ω, on (X 0 ω) = 0 ∧ rs (X 0 ω) = 0) ∧
      ∃ Z : Nat → Ω → ℝ, StdNormal P Z ∧ ∀ t ω, X t ω = straight (Z t ω) := by
  obtain ⟨Ω, mΩ, P, Z, h0, h1, h2, h3⟩ := exists_iid Nat (gaussianReal 0 1)
  have hm : Measurable straight := by
    refine measurable_pi_lambda _ fun k => ?_
    fin_cases k
    · exact measurable_const
    · exact measurable_const.max measurable_id
    · exact measurable_const.min measurable_id
    · exact measurable_id
  have g2 : MemLp (Z 0) 2 P := by
    have := (h1 0).map_eq ▸ memLp_id_gaussianReal (μ := 0) (v := 1) 2
    exact this.comp_of_map (h1 0).aemeasurable
  have hz : IID P Z := ⟨h2, fun t => ⟨(h0 t).aemeasurable, (h0 0).aemeasurable, (h1 t).map_eq.trans (h1 0).map_eq.symm⟩⟩
  have hO : ∀ ω t, (fun ω t => Real.exp (∑ i ∈ Finset.range t, Z i ω)) ω (t + 1) =
      (fun ω t => Real.exp (∑ i ∈ Finset.range t, Z i ω)) ω t * Real.exp (Z t ω) := fun ω t => by
    simp only [Finset.sum_range_succ, Real.exp_add]
  refine ⟨Ω, mΩ, P, fun t ω => straight (Z t ω), fun ω t => Real.exp (∑ i ∈ Finset.range t, Z i ω),
    fun ω t => Real.exp (∑ i ∈ Finset.range t, Z i ω) * Real.exp (max 0 (Z t ω)),
    fun ω t => Real.exp (∑ i ∈ Finset.range t, Z i ω) * Real.exp (min 0 (Z t ω)),
    fun ω t => Real.exp (∑ i ∈ Finset.range t, Z i ω) * Real.exp (Z t ω),
    ⟨hz.comp hm, fun k => ?_, fun ω t => Real.exp_pos _, fun ω t => ?_, fun _ _ => rfl, fun _ _ => rfl, fun _ _ => rfl⟩, fun ω t => ?_, ?_, ?_, Z, ⟨h1, h2⟩, fun _ _ => rfl⟩
  · have ha : ∀ f : ℝ → ℝ, Measurable f → (∀ x, |f x| ≤ |x|) → MemLp (fun ω => f (Z 0 ω)) 2 P := fun f hf hb =>
      g2.mono (hf.comp (h0 0)).aestronglyMeasurable (ae_of_all _ fun ω => hb _)
    refine ha (fun z => straight z k) ((measurable_pi_apply k).comp hm) fun x => ?_
    fin_cases k
    · simp [straight]
    · show |max 0 x| ≤ |x|
      rcases le_total 0 x with e | e
      · rw [max_eq_right e]
      · rw [max_eq_left e]; simp
    · show |min 0 x| ≤ |x|
      rcases le_total 0 x with e | e
      · rw [min_eq_left e]; simp
      · rw [min_eq_right e]
    · exact le_rfl
  · rw [show on (straight (Z (t + 1) ω)) = 0 from rfl, Real.exp_zero, mul_one]
    exact hO ω t
  · have hp := Real.exp_pos (∑ i ∈ Finset.range t, Z i ω)
    refine ⟨?_, ?_, ?_, ?_⟩
    · exact mul_le_of_le_one_right hp.le (Real.exp_le_one_iff.mpr (min_le_left _ _))
    · exact le_mul_of_one_le_right hp.le (Real.one_le_exp (le_max_left _ _))
    · exact mul_le_mul_of_nonneg_left (Real.exp_le_exp.mpr (min_le_right _ _)) hp.le
    · exact mul_le_mul_of_nonneg_left (Real.exp_le_exp.mpr (le_max_right _ _)) hp.le
  · have e : (fun ω => on (straight (Z 0 ω)) + oc (straight (Z 0 ω))) = Z 0 := by
      funext ω
      exact zero_add _
    rw [e]
    exact h1 0
  · refine fun ω => ⟨rfl, ?_⟩
    show max 0 (Z 0 ω) * (max 0 (Z 0 ω) - Z 0 ω) + min 0 (Z 0 ω) * (min 0 (Z 0 ω) - Z 0 ω) = 0
    rcases le_total 0 (Z 0 ω) with e | e
    · rw [max_eq_right e, min_eq_left e]; ring
    · rw [max_eq_left e, min_eq_right e]; ring

/-- On such bars the Yang-Zhang estimate tends to `2 * 0.34 / 2.34`, twice what the reference estimator gives. -/
example : ∃ (Ω : Type) (_ : MeasurableSpace Ω) (P : Measure Ω) (O H L C : Ω → Nat → ℝ),
    Consistent P (fun ω n w => yangZhang (first (H ω) n) (first (L ω) n) (first (O ω) n) (first (C ω) n) w) 1 (2 * K) := by
  obtain ⟨Ω, mΩ, P, X, O, H, L, C, h, -, hl, h0, -⟩ := exists_bars
  have e0 : (fun ω => on (X 0 ω)) = fun _ => (0 : ℝ) := funext fun ω => (h0 ω).1
  have e1 : (fun ω => on (X 0 ω) + oc (X 0 ω)) = fun ω => oc (X 0 ω) := funext fun ω => by rw [(h0 ω).1, zero_add]
  have e2 : (fun ω => rs (X 0 ω)) = fun _ => (0 : ℝ) := funext fun ω => (h0 ω).2
  have hv := hl.variance_eq
  have hm := hl.integral_eq
  rw [integral_id_gaussianReal] at hm
  rw [variance_id_gaussianReal] at hv
  rw [e1] at hv hm
  have h1 := yangZhang_excess h (by rw [e0]; exact integral_zero _ _) hm
  rw [e0, e1, hv, e2] at h1
  refine ⟨Ω, mΩ, P, O, H, L, C, ?_⟩
  have e : (Var[fun _ => (0 : ℝ); P] + K * ((1 : NNReal) : ℝ) + (1 - K) * ∫ ω, (0 : ℝ) ∂P) + K * ((1 : NNReal) : ℝ) = 2 * K := by
    have : Var[fun _ : Ω => (0 : ℝ); P] = 0 := variance_zero P
    rw [this, integral_zero]
    push_cast
    ring
  rw [e] at h1
  exact h1

end Verif.Props.MicroVolLaw
