import Verif.Props.MicroVolLaw
import Verif.Props.IndRsi
import Verif.Props.IndBands

/-!
# C104: what the technical indicators estimate
-/

namespace Verif.Props.IndLaw

open Verif Ser Ind Stat Sim IndRolling IndEwm IndRsi MicroRollLaw MicroVolLaw MeasureTheory ProbabilityTheory Filter Topology

theorem near_mono {u : Py Ser} {t : Nat} {c ε δ : ℝ} (h : Near u t c ε) (hd : ε ≤ δ) : Near u t c δ := by
  obtain ⟨v, r, h1, h2, h3⟩ := h
  exact ⟨v, r, h1, h2, h3.trans_le hd⟩

section

variable {Ω E : Type*} [MeasurableSpace Ω] [MeasurableSpace E] {P : Measure Ω} {X : Nat → Ω → E}

/-- Consistency of an estimate that is a number on good windows only, where long windows are good. -/
theorem consistent_of_good (h : IID P X) {F : Nat → (Nat → E) → ℝ} (hF : ∀ w, Measurable (F w)) {good : Nat → Set (Nat → E)}
    (hg : ∀ w, MeasurableSet (good w)) {c : ℝ}
    (hlim : ∀ᵐ ω ∂P, Tendsto (fun w => F w fun i => X i ω) atTop (𝓝 c))
    (hgood : ∀ᵐ ω ∂P, ∀ᶠ w in atTop, (fun i => X i ω) ∈ good w) {est : Ω → Nat → Nat → Py Ser} {lag : Nat}
    (heq : ∀ᶠ w in atTop, ∀ ω n t, w + lag ≤ t + 1 → t < n → (fun i => X (i + (t + 1 - w - lag)) ω) ∈ good w →
      ∃ v, est ω n w = .ok v ∧ v[t]? = some (.fin (F w fun i => X (i + (t + 1 - w - lag)) ω))) :
    Consistent P est lag c := by
  classical
  set G : Nat → (Nat → E) → ℝ := fun w x => if x ∈ good w then F w x else c + 1 with hG
  have hGm : ∀ w, Measurable (G w) := fun w => Measurable.ite (hg w) (hF w) measurable_const
  have hGl : ∀ᵐ ω ∂P, Tendsto (fun w => G w fun i => X i ω) atTop (𝓝 c) := by
    filter_upwards [hlim, hgood] with ω h1 h2
    refine h1.congr' ?_
    filter_upwards [h2] with w hw
    simp only [hG, if_pos hw]
  have close : ∀ w (x : Nat → E) (ε : ℝ), ε ≤ 1 → |G w x - c| < ε → x ∈ good w ∧ G w x = F w x := by
    intro w x ε hε hx
    by_cases hm : x ∈ good w
    · exact ⟨hm, if_pos hm⟩
    · simp only [hG, if_neg hm, add_sub_cancel_left, abs_one] at hx
      linarith
  obtain ⟨w₀, h0⟩ := eventually_atTop.mp heq
  constructor
  · filter_upwards [h.from hGm hGl] with ω hω
    intro a n hn ε hε
    have h1 := Metric.tendsto_nhds.mp (hω a) (min ε 1) (lt_min hε one_pos)
    filter_upwards [h1, eventually_ge_atTop w₀, eventually_ge_atTop 1] with w hw hw' h1w
    have e : w + lag + a - 1 + 1 - w - lag = a := by omega
    obtain ⟨c1, c2⟩ := close w _ _ (min_le_right _ _) hw
    obtain ⟨v, hv1, hv2⟩ := h0 w hw' ω (n w) (w + lag + a - 1) (by omega) (by have := hn w; omega) (by rw [e]; exact c1)
    rw [e] at hv2
    refine near_mono ⟨v, _, hv1, hv2, ?_⟩ (min_le_left ε 1)
    rw [← c2]
    exact hw
  · intro t n ht hn ε hε
    have h1 := h.moving hGm hGl (fun w => t w + 1 - w - lag) (lt_min hε one_pos)
    refine tendsto_of_tendsto_of_tendsto_of_le_of_le' tendsto_const_nhds h1 (Eventually.of_forall fun _ => zero_le) ?_
    filter_upwards [eventually_ge_atTop w₀] with w hw
    refine measure_mono fun ω hω => ?_
    by_contra hc
    apply hω
    have hc' : |(G w fun i => X (i + (t w + 1 - w - lag)) ω) - c| < min ε 1 := not_le.mp fun h => hc h
    obtain ⟨c1, c2⟩ := close w _ _ (min_le_right _ _) hc'
    obtain ⟨v, hv1, hv2⟩ := h0 w hw ω (n w) (t w) (ht w) (hn w) c1
    refine near_mono ⟨v, _, hv1, hv2, ?_⟩ (min_le_left ε 1)
    rw [← c2]
    exact hc'

end

theorem first_map (X : Nat → ℝ) (n : Nat) : first X n = ((List.range n).map X).map XF.fin := by
  rw [first, List.map_map]
  rfl

theorem getD_range (X : Nat → ℝ) {n i : Nat} (h : i < n) : ((List.range n).map X).getD i 0 = X i := by
  rw [List.getD_eq_getElem?_getD, List.getElem?_map, List.getElem?_range h]
  rfl

variable {Ω : Type*} [MeasurableSpace Ω] {P : Measure Ω} {X : Nat → Ω → ℝ} {S : Ω → Nat → ℝ}

/-- Prices with independent identically distributed changes. -/
structure Walk (P : Measure Ω) (X : Nat → Ω → ℝ) (S : Ω → Nat → ℝ) : Prop where
  iid : IID P X
  step : ∀ ω t, S ω (t + 1) = S ω t + X (t + 1) ω

theorem integral_pos_part {f : Ω → ℝ} (hf : Integrable f P) :
    ∫ ω, max (f ω) 0 ∂P = (∫ ω, |f ω| ∂P + ∫ ω, f ω ∂P) / 2 ∧
      ∫ ω, max (-f ω) 0 ∂P = (∫ ω, |f ω| ∂P - ∫ ω, f ω ∂P) / 2 := by
  constructor
  · rw [← integral_add hf.abs hf, ← integral_div]
    refine integral_congr_ae (ae_of_all _ fun ω => ?_)
    simp only
    rcases le_total 0 (f ω) with h | h
    · rw [max_eq_left h, abs_of_nonneg h]; ring
    · rw [max_eq_right h, abs_of_nonpos h]; ring
  · rw [← integral_sub hf.abs hf, ← integral_div]
    refine integral_congr_ae (ae_of_all _ fun ω => ?_)
    simp only
    rcases le_total 0 (f ω) with h | h
    · rw [max_eq_right (by linarith), abs_of_nonneg h]; ring
    · rw [max_eq_left (by linarith), abs_of_nonpos h]; ring

/-- The relative strength index over long windows: 50 plus half the mean change over the mean absolute change, in
percent. -/
theorem rsi_limit (h : Walk P X S) (hi : Integrable (X 0) P) (hp : 0 < ∫ ω, |X 0 ω| ∂P) :
    Consistent P (fun ω n w => rsi (first (S ω) n) w) 1 (50 * (1 + (∫ ω, X 0 ω ∂P) / ∫ ω, |X 0 ω| ∂P)) := by
  have hi1 : Integrable (X 1) P := (h.iid.ident 1).integrable_iff.mpr hi
  have e1 : ∫ ω, X 1 ω ∂P = ∫ ω, X 0 ω ∂P := (h.iid.ident 1).integral_eq
  have e2 : ∫ ω, |X 1 ω| ∂P = ∫ ω, |X 0 ω| ∂P := ((h.iid.ident 1).comp measurable_norm).integral_eq
  obtain ⟨p1, p2⟩ := integral_pos_part hi1
  have mU : ∀ j, Measurable fun x : Nat → ℝ => max (x (j + 1)) 0 := fun j => (measurable_pi_apply _).max measurable_const
  have mD : ∀ j, Measurable fun x : Nat → ℝ => max (-x (j + 1)) 0 := fun j => (measurable_pi_apply _).neg.max measurable_const
  have mU' := fun w => measurable_mean mU w
  have mD' := fun w => measurable_mean mD w
  have l1 := h.iid.block (k := 2) (by norm_num) (g := fun x => max (x 1) 0) ((measurable_pi_apply 1).max measurable_const)
    hi1.pos_part
  have l2 := h.iid.block (k := 2) (by norm_num) (g := fun x => max (-x 1) 0)
    ((measurable_pi_apply 1).neg.max measurable_const) hi1.neg_part
  have k1 : ∫ ω, max (X ((1 : Fin 2) : Nat) ω) 0 ∂P = (∫ ω, |X 0 ω| ∂P + ∫ ω, X 0 ω ∂P) / 2 := by rw [← e1, ← e2]; exact p1
  have k2 : ∫ ω, max (-X ((1 : Fin 2) : Nat) ω) 0 ∂P = (∫ ω, |X 0 ω| ∂P - ∫ ω, X 0 ω ∂P) / 2 := by rw [← e1, ← e2]; exact p2
  rw [k1] at l1
  rw [k2] at l2
  refine consistent_of_good h.iid
    (F := fun w x => 100 * (Sim.mean w (fun j => max (x (j + 1)) 0) /
      (Sim.mean w (fun j => max (x (j + 1)) 0) + Sim.mean w fun j => max (-x (j + 1)) 0)))
    (fun w => (((mU' w).div ((mU' w).add (mD' w)))).const_mul 100)
    (good := fun w => {x | Sim.mean w (fun j => max (x (j + 1)) 0) + Sim.mean w (fun j => max (-x (j + 1)) 0) = 0}ᶜ)
    (fun w => (measurableSet_eq_fun ((mU' w).add (mD' w)) measurable_const).compl) ?_ ?_ ?_
  · filter_upwards [l1, l2] with ω a1 a2
    have ha := a1.add a2
    have e : (∫ ω, |X 0 ω| ∂P + ∫ ω, X 0 ω ∂P) / 2 + (∫ ω, |X 0 ω| ∂P - ∫ ω, X 0 ω ∂P) / 2 = ∫ ω, |X 0 ω| ∂P := by ring
    rw [e] at ha
    have := (a1.div ha hp.ne').const_mul 100
    have e' : 100 * ((∫ ω, |X 0 ω| ∂P + ∫ ω, X 0 ω ∂P) / 2 / ∫ ω, |X 0 ω| ∂P) =
        50 * (1 + (∫ ω, X 0 ω ∂P) / ∫ ω, |X 0 ω| ∂P) := by
      field_simp
      ring
    rw [e'] at this
    exact this
  · filter_upwards [l1, l2] with ω a1 a2
    have ha := a1.add a2
    have e : (∫ ω, |X 0 ω| ∂P + ∫ ω, X 0 ω ∂P) / 2 + (∫ ω, |X 0 ω| ∂P - ∫ ω, X 0 ω ∂P) / 2 = ∫ ω, |X 0 ω| ∂P := by ring
    rw [e] at ha
    filter_upwards [ha.eventually_ne hp.ne'] with w hw
    exact hw
  · filter_upwards [eventually_ge_atTop 1] with w hw ω n t ht hn hgood
    obtain ⟨u, hu⟩ := (IndCausal.ok_iff (first (S ω) n) [] [] [] (w : Int) 1 1 1 meanF).2.1.2 (by omega)
    refine ⟨u, hu, ?_⟩
    rw [first_map] at hu
    have hf := (rsi_formula hw hu (by simpa using hn)).2 (by omega)
    obtain ⟨b, hb⟩ : ∃ b, t + 1 - w = b + 1 := ⟨t + 1 - w - 1, by omega⟩
    have hw0 : (w : ℝ) ≠ 0 := by exact_mod_cast (by omega : w ≠ 0)
    have hU : ∑ i ∈ Finset.Ico (t + 1 - w) (t + 1), rise (fun i => ((List.range n).map (S ω)).getD i 0) i =
        w * Sim.mean w fun j => max (X (j + 1 + (t + 1 - w - 1)) ω) 0 := by
      rw [sum_window _ (by omega), Sim.mean, mul_div_cancel₀ _ hw0]
      refine Finset.sum_congr rfl fun j hj => ?_
      have hj' := Finset.mem_range.mp hj
      rw [hb, rise, if_neg (by omega), getD_range _ (by omega), getD_range _ (by omega),
        show j + (b + 1) - 1 = j + b by omega, show j + (b + 1) = j + b + 1 by omega, h.step,
        show j + 1 + (b + 1 - 1) = j + b + 1 by omega, add_sub_cancel_left]
    have hD : ∑ i ∈ Finset.Ico (t + 1 - w) (t + 1), fall (fun i => ((List.range n).map (S ω)).getD i 0) i =
        w * Sim.mean w fun j => max (-X (j + 1 + (t + 1 - w - 1)) ω) 0 := by
      rw [sum_window _ (by omega), Sim.mean, mul_div_cancel₀ _ hw0]
      refine Finset.sum_congr rfl fun j hj => ?_
      have hj' := Finset.mem_range.mp hj
      rw [hb, fall, if_neg (by omega), getD_range _ (by omega), getD_range _ (by omega),
        show j + (b + 1) - 1 = j + b by omega, show j + (b + 1) = j + b + 1 by omega, h.step,
        show j + 1 + (b + 1 - 1) = j + b + 1 by omega]
      congr 1
      ring
    simp only [hU, hD] at hf
    have hne : Sim.mean w (fun j => max (X (j + 1 + (t + 1 - w - 1)) ω) 0) +
        Sim.mean w (fun j => max (-X (j + 1 + (t + 1 - w - 1)) ω) 0) ≠ 0 := hgood
    rw [hf, ← mul_add, if_neg (mul_ne_zero hw0 hne), mul_div_mul_left _ _ hw0]

/-- With changes whose law is symmetric the limit is 50; it is above 50 exactly if prices rise on average, and always
between 0 and 100. -/
theorem rsi_level (hp : 0 < ∫ ω, |X 0 ω| ∂P) :
    (IdentDistrib (X 0) (fun ω => -X 0 ω) P P → 50 * (1 + (∫ ω, X 0 ω ∂P) / ∫ ω, |X 0 ω| ∂P) = 50) ∧
      (50 < 50 * (1 + (∫ ω, X 0 ω ∂P) / ∫ ω, |X 0 ω| ∂P) ↔ 0 < ∫ ω, X 0 ω ∂P) ∧
      0 ≤ 50 * (1 + (∫ ω, X 0 ω ∂P) / ∫ ω, |X 0 ω| ∂P) ∧ 50 * (1 + (∫ ω, X 0 ω ∂P) / ∫ ω, |X 0 ω| ∂P) ≤ 100 := by
  have hb : |∫ ω, X 0 ω ∂P| ≤ ∫ ω, |X 0 ω| ∂P := abs_integral_le_integral_abs
  obtain ⟨b1, b2⟩ := abs_le.mp hb
  refine ⟨fun hs => ?_, ?_, ?_, ?_⟩
  · have := hs.integral_eq
    rw [integral_neg] at this
    have h0 : ∫ ω, X 0 ω ∂P = 0 := by linarith
    rw [h0]; norm_num
  · constructor
    · intro h
      have : 0 < (∫ ω, X 0 ω ∂P) / ∫ ω, |X 0 ω| ∂P := by linarith
      exact (div_pos_iff_of_pos_right hp).mp this
    · intro h
      have := div_pos h hp
      linarith
  · have : -1 ≤ (∫ ω, X 0 ω ∂P) / ∫ ω, |X 0 ω| ∂P := by rw [le_div_iff₀ hp]; linarith
    linarith
  · have : (∫ ω, X 0 ω ∂P) / ∫ ω, |X 0 ω| ∂P ≤ 1 := by rw [div_le_one hp]; linarith
    linarith

theorem walk_sum (h : Walk P X S) (ω : Ω) (a k : Nat) : S ω (a + k) = S ω a + ∑ j ∈ Finset.range k, X (j + 1 + a) ω := by
  induction k with
  | zero => simp
  | succ k ih => rw [← Nat.add_assoc, h.step, ih, Finset.sum_range_succ, show a + k + 1 = k + 1 + a by omega]; ring

/-- Momentum over long windows is the mean change. -/
theorem mom_limit (h : Walk P X S) (hi : Integrable (X 0) P) :
    Consistent P (fun ω n w => .ok (rollingMom (first (S ω) n) w)) 1 (∫ ω, X 0 ω ∂P) := by
  have hi1 : Integrable (X 1) P := (h.iid.ident 1).integrable_iff.mpr hi
  have e1 : ∫ ω, X 1 ω ∂P = ∫ ω, X 0 ω ∂P := (h.iid.ident 1).integral_eq
  rw [← e1]
  refine consistent_mean h.iid (lag := 1) (g := fun x => x 1) (measurable_pi_apply 1) hi1 ?_
  filter_upwards [eventually_ge_atTop 1] with w hw ω n t ht hn
  refine ⟨_, rfl, ?_⟩
  rw [first_map, rollingMom_spec hw (by simpa using hn), dif_pos (by omega)]
  simp only [List.getElem_map, List.getElem_range]
  have e : S ω t = S ω (t - w) + ∑ j ∈ Finset.range w, X (j + 1 + (t - w)) ω := by
    rw [← walk_sum h, show t - w + w = t by omega]
  rw [e, add_sub_cancel_left, Sim.mean, show t + 1 - w - 1 = t - w by omega]
  rfl

/-- The rolling mean of independent values with a common law is their mean. -/
theorem mean_limit (h : IID P X) (hi : Integrable (X 0) P) :
    Consistent P (fun ω n w => rollingMean (first (fun t => X t ω) n) w) 0 (∫ ω, X 0 ω ∂P) := by
  refine consistent_mean h (lag := 0) (g := fun x => x 0) (measurable_pi_apply 0) hi ?_
  filter_upwards [eventually_ge_atTop 1] with w hw ω n t ht hn
  refine ⟨_, rolling_ok (by omega) _ _, ?_⟩
  rw [mean_spec hw (rolling_ok (by omega) _ _) (obs_first (X := fun t => X t ω) (by omega) hn), meanOf_eq _ (by omega)]
  rfl

theorem measurable_std (w : Nat) : Measurable fun x : Nat → ℝ => Real.sqrt (scov w 1 x x) :=
  (measurable_scov (fun i => measurable_pi_apply i) (fun i => measurable_pi_apply i) w 1).sqrt

theorem std_tendsto (h : IID P X) (h2 : MemLp (X 0) 2 P) :
    ∀ᵐ ω ∂P, Tendsto (fun w => Real.sqrt (scov w 1 (fun t => X t ω) fun t => X t ω)) atTop (𝓝 (Real.sqrt Var[X 0; P])) := by
  have h1 := h.scov (k := 1) one_pos (f := fun x => x 0) (g := fun x => x 0) (measurable_pi_apply 0) (measurable_pi_apply 0) h2 h2
  have e : cov[fun ω => X ((0 : Fin 1) : Nat) ω, fun ω => X ((0 : Fin 1) : Nat) ω; P] = Var[X 0; P] :=
    covariance_self h2.aemeasurable
  rw [e] at h1
  filter_upwards [h1] with ω hω
  exact (Real.continuous_sqrt.tendsto _).comp hω

theorem stdOf_eq (f : Nat → ℝ) {w t : Nat} (hw : 2 ≤ w) (ht : w ≤ t + 1) :
    stdOf f w t = Real.sqrt (scov w 1 (fun j => f (j + (t + 1 - w))) fun j => f (j + (t + 1 - w))) := by
  rw [← stdOf_sq f hw ht, Real.sqrt_sq (by exact Real.sqrt_nonneg _)]

/-- The rolling standard deviation of independent values with a common law is their standard deviation. -/
theorem std_limit (h : IID P X) (h2 : MemLp (X 0) 2 P) :
    Consistent P (fun ω n w => rollingStd (first (fun t => X t ω) n) w) 0 (Real.sqrt Var[X 0; P]) := by
  refine consistent_of h measurable_std (std_tendsto h h2) ?_
  filter_upwards [eventually_ge_atTop 2] with w hw ω n t ht hn
  refine ⟨_, rolling_ok (by omega) _ _, ?_⟩
  rw [std_spec hw (rolling_ok (by omega) _ _) (obs_first (X := fun t => X t ω) (by omega) hn), stdOf_eq _ hw (by omega)]
  rfl

theorem bollinger_at {x : Ser} {y : Nat → ℝ} {w t : Nat} (m : ℝ) (hw : 2 ≤ w) (h : Obs x y w t) :
    ∃ b, bollinger x w m = .ok b ∧
      b.upper[t]? = some (.fin (meanOf y w t + stdOf y w t * m)) ∧ b.lower[t]? = some (.fin (meanOf y w t - stdOf y w t * m)) ∧
      (meanOf y w t ≠ 0 → b.bandwidth[t]? = some (.fin (2 * stdOf y w t * m / meanOf y w t))) := by
  obtain ⟨b, hb⟩ := (IndCausal.ok_iff x [] [] [] (w : Int) 1 1 m meanF).2.2.2.2.2.2.2.1.2 (by omega)
  refine ⟨b, hb, ?_⟩
  obtain ⟨a, ha, h'⟩ := bind_ok hb
  obtain ⟨s, hs, h'⟩ := bind_ok h'
  cases h'
  have h1 := mean_spec (by omega) ha h
  have h2 := std_spec hw hs h
  refine ⟨?_, ?_, fun h0 => ?_⟩
  · simp [Bands.upper, Bands.halfWidth, op2_get _ h1 (show (s.map (· * XF.fin m))[t]? = some (.fin (stdOf y w t * m)) by simp [h2])]
  · simp [Bands.lower, Bands.halfWidth, op2_get _ h1 (show (s.map (· * XF.fin m))[t]? = some (.fin (stdOf y w t * m)) by simp [h2])]
  · have : (Bands.width ⟨x, a, s, m⟩)[t]? = some (.fin (2 * stdOf y w t * m)) := by simp [Bands.width, h2]
    exact (op2_get _ this h1).trans (by rw [XF.div_fin h0])

/-- Bollinger bands of independent values with a common law: the mean plus and minus the multiplier times the standard
deviation, and a bandwidth of twice the multiplier times the coefficient of variation. -/
theorem bollinger_limit (h : IID P X) (h2 : MemLp (X 0) 2 P) (m : ℝ) :
    Consistent P (fun ω n w => (bollinger (first (fun t => X t ω) n) w m).map Bands.upper) 0
        (∫ ω, X 0 ω ∂P + Real.sqrt Var[X 0; P] * m) ∧
      Consistent P (fun ω n w => (bollinger (first (fun t => X t ω) n) w m).map Bands.lower) 0
        (∫ ω, X 0 ω ∂P - Real.sqrt Var[X 0; P] * m) ∧
      (∫ ω, X 0 ω ∂P ≠ 0 → Consistent P (fun ω n w => (bollinger (first (fun t => X t ω) n) w m).map Bands.bandwidth) 0
        (2 * Real.sqrt Var[X 0; P] * m / ∫ ω, X 0 ω ∂P)) := by
  have hP := h.indep.isProbabilityMeasure
  have l1 := h.block (k := 1) one_pos (g := fun x => x 0) (measurable_pi_apply 0) (h2.integrable (by norm_num))
  have l1' : ∀ᵐ ω ∂P, Tendsto (fun w => Sim.mean w fun t => X t ω) atTop (𝓝 (∫ ω, X 0 ω ∂P)) := l1
  have l2 := std_tendsto h h2
  have mm : ∀ w, Measurable fun x : Nat → ℝ => Sim.mean w x := fun w => measurable_mean (fun i => measurable_pi_apply i) w
  refine ⟨?_, ?_, fun h0 => ?_⟩
  · refine consistent_of h (F := fun w x => Sim.mean w x + Real.sqrt (scov w 1 x x) * m)
      (fun w => (mm w).add ((measurable_std w).mul_const m)) ?_ ?_
    · filter_upwards [l1', l2] with ω a1 a2
      exact a1.add (a2.mul_const m)
    · filter_upwards [eventually_ge_atTop 2] with w hw ω n t ht hn
      obtain ⟨b, hb, e, -⟩ := bollinger_at m hw (obs_first (X := fun t => X t ω) (show w ≤ t + 1 by omega) hn)
      rw [hb]
      refine ⟨_, rfl, ?_⟩
      rw [e, stdOf_eq _ hw (by omega), meanOf_eq _ (by omega)]
      rfl
  · refine consistent_of h (F := fun w x => Sim.mean w x - Real.sqrt (scov w 1 x x) * m)
      (fun w => (mm w).sub ((measurable_std w).mul_const m)) ?_ ?_
    · filter_upwards [l1', l2] with ω a1 a2
      exact a1.sub (a2.mul_const m)
    · filter_upwards [eventually_ge_atTop 2] with w hw ω n t ht hn
      obtain ⟨b, hb, -, e, -⟩ := bollinger_at m hw (obs_first (X := fun t => X t ω) (show w ≤ t + 1 by omega) hn)
      rw [hb]
      refine ⟨_, rfl, ?_⟩
      rw [e, stdOf_eq _ hw (by omega), meanOf_eq _ (by omega)]
      rfl
  · refine consistent_of_good h (F := fun w x => 2 * Real.sqrt (scov w 1 x x) * m / Sim.mean w x)
      (fun w => (((measurable_std w).const_mul 2).mul_const m).div (mm w)) (good := fun w => {x | Sim.mean w x = 0}ᶜ)
      (fun w => (measurableSet_eq_fun (mm w) measurable_const).compl) ?_ ?_ ?_
    · filter_upwards [l1', l2] with ω a1 a2
      exact ((a2.const_mul 2).mul_const m).div a1 h0
    · filter_upwards [l1'] with ω a1
      filter_upwards [a1.eventually_ne h0] with w hw
      exact hw
    · filter_upwards [eventually_ge_atTop 2] with w hw ω n t ht hn hg
      obtain ⟨b, hb, -, -, e⟩ := bollinger_at m hw (obs_first (X := fun t => X t ω) (show w ≤ t + 1 by omega) hn)
      rw [hb]
      refine ⟨_, rfl, ?_⟩
      rw [stdOf_eq _ hw (by omega), meanOf_eq _ (by omega)] at e
      rw [e hg]
      rfl

/-- Prices with normal changes of mean `a` and unit variance exist. -/
theorem exists_walk (a : ℝ) : ∃ (Ω : Type) (_ : MeasurableSpace Ω) (P : Measure Ω) (X : Nat → Ω → ℝ) (S : Ω → Nat → ℝ),
    Walk P X S ∧ MemLp (X 0) 2 P ∧ ∫ ω, X 0 ω ∂P = a ∧ Var[X 0; P] = 1 ∧ 0 < ∫ ω, |X 0 ω| ∂P := by
  obtain ⟨Ω, mΩ, P, Z, h0, h1, h2, h3⟩ := exists_iid Nat (gaussianReal a 1)
  have g2 : MemLp (Z 0) 2 P := by
    have := (h1 0).map_eq ▸ memLp_id_gaussianReal (μ := a) (v := 1) 2
    exact this.comp_of_map (h1 0).aemeasurable
  have hz : IID P Z := ⟨h2, fun t => ⟨(h0 t).aemeasurable, (h0 0).aemeasurable, (h1 t).map_eq.trans (h1 0).map_eq.symm⟩⟩
  have hm : ∫ ω, Z 0 ω ∂P = a := by
    have := (h1 0).integral_eq
    rw [this, integral_id_gaussianReal]
  have hv : Var[Z 0; P] = 1 := by
    have := (h1 0).variance_eq
    rw [this, variance_id_gaussianReal]
    rfl
  have hP := h2.isProbabilityMeasure
  refine ⟨Ω, mΩ, P, Z, fun ω t => ∑ i ∈ Finset.range (t + 1), Z i ω, ⟨hz, fun ω t => ?_⟩, g2, hm, hv, ?_⟩
  · rw [Finset.sum_range_succ _ (t + 1)]
  · have hn : 0 ≤ ∫ ω, |Z 0 ω| ∂P := integral_nonneg fun ω => abs_nonneg (Z 0 ω)
    rcases hn.lt_or_eq with h | h
    · exact h
    · exfalso
      have hz := (integral_eq_zero_iff_of_nonneg (fun ω => abs_nonneg (Z 0 ω)) (g2.integrable (by norm_num)).abs).mp h.symm
      have : Z 0 =ᵐ[P] 0 := by
        filter_upwards [hz] with ω hω
        exact abs_eq_zero.mp hω
      rw [variance_congr this, variance_zero] at hv
      exact zero_ne_one hv

end Verif.Props.IndLaw
