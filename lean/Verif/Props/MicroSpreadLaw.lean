import Verif.Props.MicroVolLaw
import Verif.Props.MicroSpread
import Verif.Lemmas.GaussTail
import Mathlib.Analysis.Calculus.MeanValue

/-!
# C85: the Corwin-Schultz and Becker-Parkinson estimates do not settle with longer windows
-/

namespace Verif.Props.MicroSpreadLaw

open Verif Ser Micro Stat Sim IndRolling MicroVol MicroSpread MicroRollLaw MicroVolLaw MeasureTheory ProbabilityTheory Filter Topology

/-- The logarithm of the highest high over the lowest low of two successive bars. -/
noncomputable def range2 (x y : Fin 4 → ℝ) : ℝ := max (up x) (oc x + on y + up y) - min (dn x) (oc x + on y + dn y)

theorem measurable_range2 : Measurable fun z : (Fin 4 → ℝ) × (Fin 4 → ℝ) => range2 z.1 z.2 := by
  have hf : Measurable fun z : (Fin 4 → ℝ) × (Fin 4 → ℝ) => z.1 := measurable_fst
  have hs : Measurable fun z : (Fin 4 → ℝ) × (Fin 4 → ℝ) => z.2 := measurable_snd
  have h1 := MicroVolLaw.measurable_up.comp hf
  have h2 := measurable_oc.comp hf
  have h3 := measurable_dn.comp hf
  have h4 := measurable_on.comp hs
  have h5 := MicroVolLaw.measurable_up.comp hs
  have h6 := measurable_dn.comp hs
  exact (h1.max ((h2.add h4).add h5)).sub (h3.min ((h2.add h4).add h6))

/-- The link function does not amplify differences. -/
theorem link_lipschitz (a b : ℝ) : |link a - link b| ≤ |a - b| := by
  have hd : ∀ x, HasDerivAt link (4 * Real.exp x / (Real.exp x + 1) ^ 2) x := fun x => by
    have h0 : Real.exp x + 1 ≠ 0 := by positivity
    have h1 := (((Real.hasDerivAt_exp x).add_const 1).inv h0).const_mul (-4)
    have h2 := h1.const_add 2
    have e : link = fun y => 2 + -4 * (Real.exp y + 1)⁻¹ := by
      funext y
      rw [link_eq, div_eq_mul_inv]
      ring
    rw [e]
    refine h2.congr_deriv ?_
    field_simp
  have h := Convex.norm_image_sub_le_of_norm_hasDerivWithin_le (s := Set.univ) (f := link) (C := 1)
    (fun x _ => (hd x).hasDerivWithinAt) (fun x _ => ?_) convex_univ (Set.mem_univ b) (Set.mem_univ a)
  · simpa using h
  · have h0 : 0 < Real.exp x := Real.exp_pos x
    rw [Real.norm_eq_abs, abs_of_nonneg (by positivity), div_le_one (by positivity)]
    nlinarith [sq_nonneg (Real.exp x - 1)]

variable {Ω : Type*} [MeasurableSpace Ω] {P : Measure Ω} {X : Nat → Ω → Fin 4 → ℝ} {O H L C : Ω → Nat → ℝ}

theorem log_two_bar_range (h : BarModel P X O H L C) (ω : Ω) (t : Nat) :
    Real.log (max (H ω t) (H ω (t + 1)) / min (L ω t) (L ω (t + 1))) = range2 (X t ω) (X (t + 1) ω) := by
  have hO := h.pos ω t
  have e1 : O ω (t + 1) = O ω t * Real.exp (oc (X t ω) + on (X (t + 1) ω)) := by
    rw [h.opens, h.close, mul_assoc, ← Real.exp_add]
  have e2 : max (H ω t) (H ω (t + 1)) = O ω t * Real.exp (max (up (X t ω)) (oc (X t ω) + on (X (t + 1) ω) + up (X (t + 1) ω))) := by
    rw [h.high, h.high, e1, mul_assoc, ← Real.exp_add, ← mul_max_of_nonneg _ _ hO.le, Real.exp_monotone.map_max]
  have e3 : min (L ω t) (L ω (t + 1)) = O ω t * Real.exp (min (dn (X t ω)) (oc (X t ω) + on (X (t + 1) ω) + dn (X (t + 1) ω))) := by
    rw [h.low, h.low, e1, mul_assoc, ← Real.exp_add, ← mul_min_of_nonneg _ _ hO.le, Real.exp_monotone.map_min]
  rw [e2, e3, mul_div_mul_left _ _ hO.ne', ← Real.exp_sub, Real.log_exp, range2]

/-- An estimate whose value at position `t` gets close to a function of the last two bars. -/
def RandomLimit (P : Measure Ω) (est : Ω → Nat → Nat → Py Ser) (T : Ω → Nat → ℝ) : Prop :=
  ∀ t n : Nat → Nat, (∀ w, w ≤ t w) → (∀ w, t w < n w) → ∀ ε > 0,
    Tendsto (fun w => P {ω | ¬ Near (est ω (n w) w) (t w) (T ω (t w)) ε}) atTop (𝓝 0)

theorem near_unique {u : Py Ser} {t : Nat} {a b ε : ℝ} (h1 : Near u t a ε) (h2 : Near u t b ε) : |a - b| < 2 * ε := by
  obtain ⟨v, r, hu, hv, hr⟩ := h1
  obtain ⟨v', r', hu', hv', hr'⟩ := h2
  rw [hu] at hu'
  cases hu'
  rw [hv] at hv'
  cases hv'
  have : |a - b| ≤ |r - a| + |r - b| := by
    rw [abs_sub_comm r a]
    calc |a - b| = |(a - r) + (r - b)| := by congr 1; ring
      _ ≤ _ := abs_add_le _ _
  linarith

/-- If such an estimate is consistent, the function of the last two bars is constant. -/
theorem constant_of_consistent (hX : IID P X) {est : Ω → Nat → Nat → Py Ser} {φ : (Fin 4 → ℝ) → (Fin 4 → ℝ) → ℝ}
    (hφ : Measurable fun z : (Fin 4 → ℝ) × (Fin 4 → ℝ) => φ z.1 z.2)
    (h : RandomLimit P est fun ω t => φ (X (t - 1) ω) (X t ω)) {c : ℝ} (hc : Consistent P est 1 c) :
    ∀ᵐ ω ∂P, φ (X 0 ω) (X 1 ω) = c := by
  have key : ∀ ε > 0, P {ω | 2 * ε ≤ |φ (X 0 ω) (X 1 ω) - c|} = 0 := by
    intro ε hε
    have h1 := h (fun w => w) (fun w => w + 1) (fun w => le_rfl) (fun w => by omega) ε hε
    have h2 := hc.prob (fun w => w) (fun w => w + 1) (fun w => le_rfl) (fun w => by omega) ε hε
    have h3 := h1.add h2
    rw [add_zero] at h3
    refine le_antisymm (ge_of_tendsto h3 ?_) zero_le
    filter_upwards [eventually_ge_atTop 1] with w hw
    have hid : IdentDistrib (fun ω (i : Fin 2) => X i ω) (fun ω (i : Fin 2) => X (w - 1 + i) ω) P P :=
      hX.sub_ident (u := fun i : Fin 2 => (i : Nat)) (v := fun i : Fin 2 => w - 1 + i) (fun i j e => Fin.ext e)
        fun i j e => Fin.ext (Nat.add_left_cancel e)
    have hm : Measurable fun x : Fin 2 → Fin 4 → ℝ => φ (x 0) (x 1) :=
      hφ.comp (f := fun x : Fin 2 → Fin 4 → ℝ => (x 0, x 1)) ((measurable_pi_apply 0).prodMk (measurable_pi_apply 1))
    have e := hid.measure_mem_eq (s := {x | 2 * ε ≤ |φ (x 0) (x 1) - c|}) (measurableSet_le measurable_const (hm.sub_const c).abs)
    have e' : P {ω | 2 * ε ≤ |φ (X 0 ω) (X 1 ω) - c|} = P {ω | 2 * ε ≤ |φ (X (w - 1) ω) (X w ω) - c|} := by
      have hw1 : w - 1 + 1 = w := by omega
      have e2 : ((fun ω (i : Fin 2) => X (w - 1 + i) ω) ⁻¹' {x | 2 * ε ≤ |φ (x 0) (x 1) - c|}) =
          {ω | 2 * ε ≤ |φ (X (w - 1) ω) (X w ω) - c|} := by
        ext ω
        simp only [Set.mem_preimage, Set.mem_ofPred_eq, Fin.val_zero, Fin.val_one, Nat.add_zero, hw1]
      rw [← e2, ← e]
      rfl
    rw [e']
    refine le_trans (measure_mono fun ω hω => ?_) (measure_union_le _ _)
    by_contra hcon
    rw [Set.mem_union, not_or] at hcon
    obtain ⟨q1, q2⟩ := hcon
    simp only [Set.mem_ofPred_eq, not_not] at q1 q2 hω
    exact absurd (near_unique q1 q2) (not_lt.mpr hω)
  have hall : ∀ᵐ ω ∂P, ∀ k : Nat, ¬ 2 * (1 / ((k : ℝ) + 1)) ≤ |φ (X 0 ω) (X 1 ω) - c| := by
    rw [ae_all_iff]
    intro k
    have := key (1 / ((k : ℝ) + 1)) (by positivity)
    rw [ae_iff]
    simpa only [not_not] using this
  filter_upwards [hall] with ω hω
  by_contra hne
  have hpos : 0 < |φ (X 0 ω) (X 1 ω) - c| / 2 := by
    have := abs_pos.mpr (sub_ne_zero.mpr hne)
    linarith
  obtain ⟨k, hk⟩ := exists_nat_one_div_lt hpos
  exact hω k (by linarith)

/-- The mean over the window of the squared log ranges of two successive bars. -/
noncomputable def betaOf (w : Nat) (x : Nat → Fin 4 → ℝ) : ℝ :=
  Sim.mean w fun j => (fun y : Fin 2 → Fin 4 → ℝ => (up (y 0) - dn (y 0)) ^ 2 + (up (y 1) - dn (y 1)) ^ 2) fun i => x (j + i)

theorem measurable_betaOf (w : Nat) : Measurable (betaOf w) := by
  have m : ∀ i : Fin 2, Measurable fun y : Fin 2 → Fin 4 → ℝ => (up (y i) - dn (y i)) ^ 2 := fun i =>
    ((MicroVolLaw.measurable_up.comp (measurable_pi_apply i)).sub (measurable_dn.comp (measurable_pi_apply i))).pow_const 2
  exact measurable_mean (fun j => measurable_block ((m 0).add (m 1)) j) w

/-- Twice the mean squared log range. -/
noncomputable def B (P : Measure Ω) (X : Nat → Ω → Fin 4 → ℝ) : ℝ := 2 * ∫ ω, (up (X 0 ω) - dn (X 0 ω)) ^ 2 ∂P

theorem betaOf_limit (h : BarModel P X O H L C) : ∀ᵐ ω ∂P, Tendsto (fun w => betaOf w fun i => X i ω) atTop (𝓝 (B P X)) := by
  have m : ∀ i : Fin 2, Measurable fun y : Fin 2 → Fin 4 → ℝ => (up (y i) - dn (y i)) ^ 2 := fun i =>
    ((MicroVolLaw.measurable_up.comp (measurable_pi_apply i)).sub (measurable_dn.comp (measurable_pi_apply i))).pow_const 2
  have hi : ∀ t, Integrable (fun ω => (up (X t ω) - dn (X t ω)) ^ 2) P := fun t => by
    have : MemLp (fun ω => up (X t ω) - dn (X t ω)) 2 P := (sq_memLp h 1 t).sub (sq_memLp h 2 t)
    exact this.integrable_sq
  have h1 := h.iid.block (k := 2) (by norm_num) ((m 0).add (m 1)) ((hi 0).add (hi 1))
  have e : ∫ ω, ((fun y : Fin 2 → Fin 4 → ℝ => (up (y 0) - dn (y 0)) ^ 2) + fun y : Fin 2 → Fin 4 → ℝ => (up (y 1) - dn (y 1)) ^ 2) (fun i => X i ω) ∂P = B P X := by
    have e1 := integral_add (hi 0) (hi 1)
    have e2 : ∫ ω, (up (X 1 ω) - dn (X 1 ω)) ^ 2 ∂P = ∫ ω, (up (X 0 ω) - dn (X 0 ω)) ^ 2 ∂P :=
      ((h.iid.ident 1).comp ((MicroVolLaw.measurable_up.sub measurable_dn).pow_const 2)).integral_eq
    rw [e2] at e1
    rw [B, two_mul, ← e1]
    rfl
  rw [e] at h1
  exact h1

/-- An estimate that is a function of the averaged ranges and of the range of the last two bars. -/
theorem random_limit (h : BarModel P X O H L C) {est : Ω → Nat → Nat → Py Ser} {Φ : ℝ → ℝ → ℝ} {κ : ℝ}
    (hm : Measurable fun z : ℝ × ℝ => Φ z.1 z.2) (hΦ : ∀ p q r, |Φ p r - Φ q r| ≤ κ * |p - q|)
    (heq : ∀ w, 1 ≤ w → ∀ ω n t, w ≤ t → t < n → ∃ v, est ω n w = .ok v ∧
      v[t]? = some (.fin (Φ (Real.sqrt (betaOf w fun i => X (i + (t - w)) ω)) (range2 (X (t - 1) ω) (X t ω))))) :
    RandomLimit P est fun ω t => Φ (Real.sqrt (B P X)) (range2 (X (t - 1) ω) (X t ω)) := by
  intro t n ht hn ε hε
  have hr : ∀ w, Measurable fun x : Nat → Fin 4 → ℝ => range2 (x (w - 1)) (x w) := fun w =>
    measurable_range2.comp (f := fun x : Nat → Fin 4 → ℝ => (x (w - 1), x w)) ((measurable_pi_apply _).prodMk (measurable_pi_apply _))
  have hF : ∀ w, Measurable fun x : Nat → Fin 4 → ℝ =>
      Φ (Real.sqrt (betaOf w x)) (range2 (x (w - 1)) (x w)) - Φ (Real.sqrt (B P X)) (range2 (x (w - 1)) (x w)) := fun w =>
    (hm.comp ((measurable_betaOf w).sqrt.prodMk (hr w))).sub (hm.comp (measurable_const.prodMk (hr w)))
  have hlim : ∀ᵐ ω ∂P, Tendsto (fun w => Φ (Real.sqrt (betaOf w fun i => X i ω)) (range2 (X (w - 1) ω) (X w ω)) -
      Φ (Real.sqrt (B P X)) (range2 (X (w - 1) ω) (X w ω))) atTop (𝓝 0) := by
    filter_upwards [betaOf_limit h] with ω hω
    have h1 := ((hω.sqrt.sub_const (Real.sqrt (B P X))).abs).const_mul κ
    rw [sub_self, abs_zero, mul_zero] at h1
    exact squeeze_zero_norm (fun w => hΦ _ _ _) h1
  have h1 := h.iid.moving hF hlim (fun w => t w - w) hε
  refine tendsto_of_tendsto_of_tendsto_of_le_of_le' tendsto_const_nhds h1 (Eventually.of_forall fun _ => zero_le) ?_
  filter_upwards [eventually_ge_atTop 1] with w hw
  refine measure_mono fun ω hω => ?_
  by_contra hc
  apply hω
  have htw := ht w
  obtain ⟨v, hv1, hv2⟩ := heq w hw ω (n w) (t w) htw (hn w)
  refine ⟨v, _, hv1, hv2, ?_⟩
  rw [Set.mem_ofPred_eq, not_le] at hc
  rw [sub_zero, show w - 1 + (t w - w) = t w - 1 by omega, show w + (t w - w) = t w by omega] at hc
  exact hc

theorem beta_total (h l : Ser) (w : Nat) : ∃ u, beta h l w = .ok u := by
  rw [beta, rolling_ok (by omega)]
  exact ⟨_, rolling_ok (Int.natCast_nonneg w) _ _⟩

theorem gamma_total (h l : Ser) : ∃ u, gamma h l = .ok u := by
  rw [gamma, rolling_ok (by omega), rolling_ok (by omega)]
  exact ⟨_, rfl⟩

theorem corwin_total (h l : Ser) (w : Nat) : ∃ u, corwinSchultz h l w = .ok u := by
  obtain ⟨b, hb⟩ := beta_total h l w
  obtain ⟨g, hg⟩ := gamma_total h l
  rw [corwinSchultz, hb, hg]
  exact ⟨_, rfl⟩

theorem becker_total (h l : Ser) (w : Nat) : ∃ u, beckerParkinson h l w = .ok u := by
  obtain ⟨b, hb⟩ := beta_total h l w
  obtain ⟨g, hg⟩ := gamma_total h l
  rw [beckerParkinson, hb, hg]
  exact ⟨_, rfl⟩

theorem meanOf_beta (h : BarModel P X O H L C) {w t : Nat} (ht : w ≤ t) (ω : Ω) :
    meanOf (fun i => Real.log (H ω (i - 1) / L ω (i - 1)) ^ 2 + Real.log (H ω i / L ω i) ^ 2) w t =
      betaOf w fun i => X (i + (t - w)) ω := by
  rw [meanOf_eq _ (by omega), betaOf]
  simp only [(log_ratios h ω _).1]
  have q1 : ∀ j, j + (t + 1 - w) - 1 = j + 0 + (t - w) := fun j => by omega
  have q2 : ∀ j, j + (t + 1 - w) = j + 1 + (t - w) := fun j => by omega
  congr 1
  funext j
  rw [q1, q2]
  rfl

/-- Corwin-Schultz: with long windows the estimate is a function of the range of the last two bars, whose weight does not
shrink. -/
theorem corwin_limit (h : BarModel P X O H L C) :
    RandomLimit P (fun ω n w => corwinSchultz (first (H ω) n) (first (L ω) n) w)
      fun ω t => link ((Real.sqrt (B P X) + |range2 (X (t - 1) ω) (X t ω)|) / (Real.sqrt 2 - 1)) := by
  have hs : 0 < Real.sqrt 2 - 1 := by linarith [sqrt_two_gt]
  have hl : Measurable link := (((Real.measurable_exp.sub_const 1).const_mul 2).div (Real.measurable_exp.add_const 1))
  refine random_limit h (Φ := fun p r => link ((p + |r|) / (Real.sqrt 2 - 1))) (κ := 1 / (Real.sqrt 2 - 1)) ?_ ?_ ?_
  · exact hl.comp ((measurable_fst.add measurable_snd.abs).div_const _)
  · intro p q r
    refine (link_lipschitz _ _).trans (le_of_eq ?_)
    rw [← sub_div, add_sub_add_right_eq_sub, abs_div, abs_of_pos hs, one_div, inv_mul_eq_div]
  · intro w hw ω n t ht hn
    obtain ⟨u, hu⟩ := corwin_total (first (H ω) n) (first (L ω) n) w
    refine ⟨u, hu, ?_⟩
    obtain ⟨b, g, hb, hg, e, -⟩ := corwinSchultz_spec hw hu (obs_first (by omega) hn) (obs_first (by omega) hn)
      fun i _ => ⟨highs_pos h ω i, lows_pos h ω i⟩
    obtain ⟨k, rfl⟩ : ∃ k, t = k + 1 := ⟨t - 1, by omega⟩
    rw [Nat.add_sub_cancel, log_two_bar_range h] at hg
    rw [e, hb, hg, meanOf_beta h ht, Real.sqrt_sq_eq_abs, Nat.add_sub_cancel]

/-- Becker-Parkinson: the same. -/
theorem becker_limit (h : BarModel P X O H L C) :
    RandomLimit P (fun ω n w => beckerParkinson (first (H ω) n) (first (L ω) n) w)
      fun ω t => max 0 ((|range2 (X (t - 1) ω) (X t ω)| - Real.sqrt (B P X) / Real.sqrt 2) /
        (Real.sqrt (8 / Real.pi) * (Real.sqrt 2 - 1))) := by
  have hs : 0 < Real.sqrt 2 - 1 := by linarith [sqrt_two_gt]
  have h2 : 0 < Real.sqrt 2 := by linarith [sqrt_two_gt]
  have hk := k2_pos
  refine random_limit h (Φ := fun p r => max 0 ((|r| - p / Real.sqrt 2) / (Real.sqrt (8 / Real.pi) * (Real.sqrt 2 - 1))))
    (κ := 1 / Real.sqrt 2 / (Real.sqrt (8 / Real.pi) * (Real.sqrt 2 - 1))) ?_ ?_ ?_
  · exact measurable_const.max ((measurable_snd.abs.sub (measurable_fst.div_const _)).div_const _)
  · intro p q r
    refine (abs_max_sub_max_le_max _ _ _ _).trans ?_
    rw [sub_self, abs_zero, max_eq_right (abs_nonneg _), ← sub_div, sub_sub_sub_cancel_left, ← sub_div, abs_div, abs_div,
      abs_of_pos h2, abs_of_pos (mul_pos hk hs), abs_sub_comm]
    exact le_of_eq (by ring)
  · intro w hw ω n t ht hn
    obtain ⟨u, hu⟩ := becker_total (first (H ω) n) (first (L ω) n) w
    refine ⟨u, hu, ?_⟩
    rw [beckerParkinson_spec hw hu (obs_first (by omega) hn) (obs_first (by omega) hn) fun i _ => ⟨highs_pos h ω i, lows_pos h ω i⟩]
    obtain ⟨k, rfl⟩ : ∃ k, t = k + 1 := ⟨t - 1, by omega⟩
    rw [Nat.add_sub_cancel, log_two_bar_range h, meanOf_beta h ht, Real.sqrt_div']
    norm_num

/-- Corwin-Schultz is consistent, for any value, only if the range of two bars is always the same. -/
theorem corwin_inconsistent (h : BarModel P X O H L C) {c : ℝ}
    (hc : Consistent P (fun ω n w => corwinSchultz (first (H ω) n) (first (L ω) n) w) 1 c) :
    ∃ r, ∀ᵐ ω ∂P, |range2 (X 0 ω) (X 1 ω)| = r := by
  have hP := h.iid.indep.isProbabilityMeasure
  have hs : 0 < Real.sqrt 2 - 1 := by linarith [sqrt_two_gt]
  have hl : Measurable link := (((Real.measurable_exp.sub_const 1).const_mul 2).div (Real.measurable_exp.add_const 1))
  have h1 := constant_of_consistent h.iid
    (φ := fun x y => link ((Real.sqrt (B P X) + |range2 x y|) / (Real.sqrt 2 - 1)))
    (hl.comp ((measurable_range2.abs.const_add _).div_const _)) (corwin_limit h) hc
  obtain ⟨ω₀, h0⟩ := h1.exists
  refine ⟨|range2 (X 0 ω₀) (X 1 ω₀)|, ?_⟩
  filter_upwards [h1] with ω hω
  have h2 := link_strictMono.injective (hω.trans h0.symm)
  rw [div_left_inj' hs.ne'] at h2
  linarith

/-- Becker-Parkinson is consistent only if the range of two bars is always the same, or never large enough to give anything
but zero. -/
theorem becker_inconsistent (h : BarModel P X O H L C) {c : ℝ}
    (hc : Consistent P (fun ω n w => beckerParkinson (first (H ω) n) (first (L ω) n) w) 1 c) :
    (∀ᵐ ω ∂P, |range2 (X 0 ω) (X 1 ω)| ≤ Real.sqrt (B P X) / Real.sqrt 2) ∨ ∃ r, ∀ᵐ ω ∂P, |range2 (X 0 ω) (X 1 ω)| = r := by
  have hP := h.iid.indep.isProbabilityMeasure
  have hs : 0 < Real.sqrt 2 - 1 := by linarith [sqrt_two_gt]
  have hk : 0 < Real.sqrt (8 / Real.pi) * (Real.sqrt 2 - 1) := mul_pos k2_pos hs
  have h1 := constant_of_consistent h.iid
    (φ := fun x y => max 0 ((|range2 x y| - Real.sqrt (B P X) / Real.sqrt 2) / (Real.sqrt (8 / Real.pi) * (Real.sqrt 2 - 1))))
    (measurable_const.max ((measurable_range2.abs.sub_const _).div_const _)) (becker_limit h) hc
  by_cases h0 : c = 0
  · left
    filter_upwards [h1] with ω hω
    rw [h0] at hω
    have h2 : (|range2 (X 0 ω) (X 1 ω)| - Real.sqrt (B P X) / Real.sqrt 2) / (Real.sqrt (8 / Real.pi) * (Real.sqrt 2 - 1)) ≤ 0 :=
      hω ▸ le_max_right _ _
    rw [div_nonpos_iff] at h2
    rcases h2 with h2 | h2
    · linarith [h2.2]
    · linarith [h2.1]
  · right
    refine ⟨c * (Real.sqrt (8 / Real.pi) * (Real.sqrt 2 - 1)) + Real.sqrt (B P X) / Real.sqrt 2, ?_⟩
    filter_upwards [h1] with ω hω
    rcases max_choice 0 ((|range2 (X 0 ω) (X 1 ω)| - Real.sqrt (B P X) / Real.sqrt 2) / (Real.sqrt (8 / Real.pi) * (Real.sqrt 2 - 1)))
      with h2 | h2
    · exact absurd (hω.symm.trans h2) h0
    · rw [h2, div_eq_iff hk.ne'] at hω
      linarith

/-- On bars with normal moves neither estimate has a limit. -/
theorem no_limit : ∃ (Ω : Type) (_ : MeasurableSpace Ω) (P : Measure Ω) (X : Nat → Ω → Fin 4 → ℝ) (O H L C : Ω → Nat → ℝ),
    BarModel P X O H L C ∧ (∀ c, ¬ Consistent P (fun ω n w => corwinSchultz (first (H ω) n) (first (L ω) n) w) 1 c) ∧
      ∀ c, ¬ Consistent P (fun ω n w => beckerParkinson (first (H ω) n) (first (L ω) n) w) 1 c := by
  obtain ⟨Ω, mΩ, P, X, O, H, L, C, h, -, -, -, Z, hZ, hX⟩ := exists_bars
  have hP := h.iid.indep.isProbabilityMeasure
  have hr : ∀ ω, |Z 0 ω| ≤ |range2 (X 0 ω) (X 1 ω)| := by
    intro ω
    refine le_trans ?_ (le_abs_self _)
    rw [hX 0, range2]
    have h1 : max 0 (Z 0 ω) ≤ max (up (straight (Z 0 ω))) (oc (straight (Z 0 ω)) + on (X 1 ω) + up (X 1 ω)) := le_max_left _ _
    have h2 : min (dn (straight (Z 0 ω))) (oc (straight (Z 0 ω)) + on (X 1 ω) + dn (X 1 ω)) ≤ min 0 (Z 0 ω) := min_le_left _ _
    have h3 : |Z 0 ω| = max 0 (Z 0 ω) - min 0 (Z 0 ω) := by
      rcases le_total 0 (Z 0 ω) with e | e
      · rw [abs_of_nonneg e, max_eq_right e, min_eq_left e, sub_zero]
      · rw [abs_of_nonpos e, max_eq_left e, min_eq_right e, zero_sub]
    linarith
  have hu : ∀ r, ¬ ∀ᵐ ω ∂P, |Z 0 ω| ≤ r := by
    intro r hr0
    have h1 := gauss_tail (le_max_right r 0)
    have h2 : gaussianReal 0 1 (Set.Ioi (max r 0)) = 0 := by
      rw [← (hZ.law 0).map_eq, Measure.map_apply_of_aemeasurable (hZ.law 0).aemeasurable measurableSet_Ioi]
      refine measure_mono_null (fun ω hω => ?_) (ae_iff.mp hr0)
      have h3 : max r 0 < Z 0 ω := hω
      exact not_le.mpr (lt_of_le_of_lt (le_max_left r 0) (h3.trans_le (le_abs_self _)))
    rw [h2] at h1
    have h4 : 0 < ENNReal.ofReal ((Real.sqrt (2 * Real.pi))⁻¹ * Real.exp (-(max r 0 + 1) ^ 2 / 2)) := by
      rw [ENNReal.ofReal_pos]
      positivity
    exact absurd (h4.trans_le h1) (lt_irrefl _)
  refine ⟨Ω, mΩ, P, X, O, H, L, C, h, fun c hc => ?_, fun c hc => ?_⟩
  · obtain ⟨r, h1⟩ := corwin_inconsistent h hc
    refine hu r ?_
    filter_upwards [h1] with ω hω
    exact (hr ω).trans hω.le
  · rcases becker_inconsistent h hc with h1 | ⟨r, h1⟩
    · refine hu (Real.sqrt (B P X) / Real.sqrt 2) ?_
      filter_upwards [h1] with ω hω
      exact (hr ω).trans hω
    · refine hu r ?_
      filter_upwards [h1] with ω hω
      exact (hr ω).trans hω.le

end Verif.Props.MicroSpreadLaw
