import Verif.Props.MicroEdgeLaw
import Mathlib.Probability.ProbabilityMassFunction.Integrals
import Mathlib.Probability.Distributions.Uniform

/-!
# C115: bars to which the EDGE limits apply
-/

namespace Verif.Props.MicroEdgeLaw

open Verif Ser Micro Stat Stat.Spread MicroEdge MicroRollLaw MeasureTheory ProbabilityTheory Filter Topology

/-- Four coins. -/
abbrev Coins := Bool × Bool × Bool × Bool

/-- The two sides of a coin. -/
def side (b : Bool) : ℝ := if b then 1 else -1

/-- The law of four independent fair coins. -/
noncomputable def coins : Measure Coins := (PMF.uniformOfFintype Coins).toMeasure

instance : IsProbabilityMeasure coins := PMF.toMeasure.isProbabilityMeasure _

theorem coins_integral (f : Coins → ℝ) : ∫ x, f x ∂coins = (∑ x, f x) / 16 := by
  rw [coins, PMF.integral_eq_sum]
  simp only [PMF.uniformOfFintype_apply, smul_eq_mul]
  rw [← Finset.mul_sum]
  simp [Fintype.card_prod]
  ring

theorem coins_map (g : Coins ≃ Coins) : coins.map g = coins := by
  refine Measure.ext_of_singleton fun x => ?_
  rw [Measure.map_apply (measurable_of_finite _) (measurableSet_singleton _)]
  have : g ⁻¹' {x} = {g.symm x} := by
    ext y
    simp [Equiv.eq_symm_apply]
  rw [this, coins, PMF.toMeasure_apply_singleton _ _ (measurableSet_singleton _), PMF.toMeasure_apply_singleton _ _ (measurableSet_singleton _)]
  simp

/-- A bar from four coins; the last two are the directions. -/
noncomputable def bar (f : Bool → Bool → Fin 4 → ℝ) (x : Coins) : Fin 6 → ℝ :=
  ![f x.1 x.2.1 0, f x.1 x.2.1 1, f x.1 x.2.1 2, f x.1 x.2.1 3, side x.2.2.1, side x.2.2.2]

/-- The direction of the open reversed. -/
def turnOpen : Coins ≃ Coins where
  toFun x := (x.1, x.2.1, !x.2.2.1, x.2.2.2)
  invFun x := (x.1, x.2.1, !x.2.2.1, x.2.2.2)
  left_inv x := by simp
  right_inv x := by simp

/-- The direction of the close reversed. -/
def turnClose : Coins ≃ Coins where
  toFun x := (x.1, x.2.1, x.2.2.1, !x.2.2.2)
  invFun x := (x.1, x.2.1, x.2.2.1, !x.2.2.2)
  left_inv x := by simp
  right_inv x := by simp

theorem side_not (b : Bool) : side (!b) = -side b := by cases b <;> simp [side]

/-- Independent bars from coins. -/
theorem exists_coin_bars (f : Bool → Bool → Fin 4 → ℝ) (hf : ∀ a b, f a b 2 < f a b 1) (s : ℝ) :
    ∃ (Ω : Type) (_ : MeasurableSpace Ω) (P : Measure Ω) (Y : Nat → Ω → Coins) (X : Nat → Ω → Fin 6 → ℝ) (eff O H L C : Ω → Nat → ℝ),
      HasLaw (Y 0) coins P ∧ (∀ t ω, X t ω = bar f (Y t ω)) ∧ Bars P X eff O H L C s ∧ Fair P (X 0) := by
  obtain ⟨Ω, mΩ, P, Y, h0, h1, h2, h3⟩ := exists_iid Nat coins
  have hP := h2.isProbabilityMeasure
  have hm : Measurable (bar f) := measurable_of_finite _
  have hid : ∀ t, IdentDistrib (Y t) (Y 0) P P := fun t =>
    ⟨(h0 t).aemeasurable, (h0 0).aemeasurable, (h1 t).map_eq.trans (h1 0).map_eq.symm⟩
  have hiid : IID P Y := ⟨h2, hid⟩
  have hmap : ∀ g : Coins ≃ Coins, IdentDistrib (fun ω => bar f (g (Y 0 ω))) (fun ω => bar f (Y 0 ω)) P P := by
    intro g
    have mg : Measurable g := measurable_of_finite _
    have : IdentDistrib (fun ω => g (Y 0 ω)) (Y 0) P P := by
      refine ⟨mg.comp_aemeasurable (h0 0).aemeasurable, (h0 0).aemeasurable, ?_⟩
      have e : Measure.map (fun ω => g (Y 0 ω)) P = Measure.map g (Measure.map (Y 0) P) :=
        (Measure.map_map mg (h0 0)).symm
      rw [e, (h1 0).map_eq, coins_map]
    exact this.comp hm
  refine ⟨Ω, mΩ, P, Y, fun t ω => bar f (Y t ω),
    fun ω t => ∑ i ∈ Finset.range t, (night (bar f (Y i ω)) + day (bar f (Y i ω))),
    fun ω t => Real.exp (∑ i ∈ Finset.range t, (night (bar f (Y i ω)) + day (bar f (Y i ω))) + night (bar f (Y t ω)) +
      s / 2 * qo (bar f (Y t ω))),
    fun ω t => Real.exp (∑ i ∈ Finset.range t, (night (bar f (Y i ω)) + day (bar f (Y i ω))) + night (bar f (Y t ω)) +
      Spread.up (bar f (Y t ω))),
    fun ω t => Real.exp (∑ i ∈ Finset.range t, (night (bar f (Y i ω)) + day (bar f (Y i ω))) + night (bar f (Y t ω)) +
      dn (bar f (Y t ω))),
    fun ω t => Real.exp (∑ i ∈ Finset.range t, (night (bar f (Y i ω)) + day (bar f (Y i ω))) + night (bar f (Y t ω)) +
      day (bar f (Y t ω)) + s / 2 * qc (bar f (Y t ω))),
    h1 0, fun _ _ => rfl, ⟨hiid.comp hm, fun k => ?_, ?_, fun ω t => ?_, fun ω t => ⟨Real.exp_pos _, Real.exp_pos _, Real.exp_pos _, Real.exp_pos _⟩,
      fun _ _ => Real.log_exp _, fun _ _ => Real.log_exp _, fun _ _ => Real.log_exp _, fun _ _ => Real.log_exp _⟩, ?_, ?_, ?_⟩
  · have mk : Measurable fun x : Coins => bar f x k := measurable_of_finite _
    refine MemLp.of_bound (mk.comp (h0 0)).aestronglyMeasurable (∑ x : Coins, ‖bar f x k‖) (ae_of_all _ fun ω => ?_)
    exact Finset.single_le_sum (f := fun x : Coins => ‖bar f x k‖) (fun _ _ => norm_nonneg _) (Finset.mem_univ (Y 0 ω))
  · exact ae_of_all _ fun ω => hf _ _
  · rw [Finset.sum_range_succ]
    ring
  · refine ae_of_all _ fun ω => ⟨?_, ?_⟩
    · show side _ = 1 ∨ side _ = -1
      unfold side
      split_ifs <;> simp
    · show side _ = 1 ∨ side _ = -1
      unfold side
      split_ifs <;> simp
  · have : (fun ω => turn 4 (bar f (Y 0 ω))) = fun ω => bar f (turnOpen (Y 0 ω)) := by
      funext ω k
      rw [turn]
      fin_cases k <;> simp [bar, turnOpen, side_not]
    rw [this]
    exact hmap turnOpen
  · have : (fun ω => turn 5 (bar f (Y 0 ω))) = fun ω => bar f (turnClose (Y 0 ω)) := by
      funext ω k
      rw [turn]
      fin_cases k <;> simp [bar, turnClose, side_not]
    rw [this]
    exact hmap turnClose

theorem coins_memLp (f : Coins → ℝ) : MemLp f 2 coins :=
  MemLp.of_bound (measurable_of_finite f).aestronglyMeasurable (∑ x : Coins, ‖f x‖)
    (ae_of_all _ fun x => Finset.single_le_sum (f := fun x : Coins => ‖f x‖) (fun _ _ => norm_nonneg _) (Finset.mem_univ x))

theorem coins_cov (f g : Coins → ℝ) : cov[f, g; coins] = (∑ x, f x * g x) / 16 - (∑ x, f x) / 16 * ((∑ x, g x) / 16) := by
  rw [covariance_eq_sub (coins_memLp f) (coins_memLp g), coins_integral, coins_integral, coins_integral]
  rfl

/-- A bar whose range is centred on half the daily change plus `g` times the overnight change. -/
noncomputable def wide (g s : ℝ) (a b : Bool) : Fin 4 → ℝ :=
  ![side a, g * side a + side b / 2 + (|g| + 3 + s), g * side a + side b / 2 - (|g| + 3 + s), side b]

theorem abs_side (b : Bool) : |side b| = 1 := by
  unfold side
  split_ifs <;> simp

/-- For every spread and every covariance of the mid-range with the overnight change there are such bars. -/
theorem exists_wide {s : ℝ} (hs : 0 < s) (g : ℝ) :
    ∃ (Ω : Type) (_ : MeasurableSpace Ω) (P : Measure Ω) (X : Nat → Ω → Fin 6 → ℝ) (eff O H L C : Ω → Nat → ℝ),
      Bars P X eff O H L C s ∧ Fair P (X 0) ∧ Inside P (X 0) s ∧ cov[fun ω => mid (X 0 ω), fun ω => night (X 0 ω); P] = g := by
  obtain ⟨Ω, mΩ, P, Y, X, eff, O, H, L, C, hY, hX, hb, hf⟩ := exists_coin_bars (wide g s) (fun a b => by
    show g * side a + side b / 2 - (|g| + 3 + s) < g * side a + side b / 2 + (|g| + 3 + s)
    linarith [abs_nonneg g]) s
  refine ⟨Ω, mΩ, P, X, eff, O, H, L, C, hb, hf, ae_of_all _ fun ω => ?_, ?_⟩
  · rw [hX]
    obtain ⟨a, b, c, d⟩ := Y 0 ω
    have ga : |g * side a| = |g| := by rw [abs_mul, abs_side, mul_one]
    have l1 := abs_le.mp ga.le
    have l2 := abs_le.mp (abs_side b).le
    have l3 := abs_le.mp (abs_side c).le
    have l4 := abs_le.mp (abs_side d).le
    show (g * side a + side b / 2 - (|g| + 3 + s) < s / 2 * side c ∧ s / 2 * side c < g * side a + side b / 2 + (|g| + 3 + s)) ∧
      g * side a + side b / 2 - (|g| + 3 + s) < side b + s / 2 * side d ∧ side b + s / 2 * side d < g * side a + side b / 2 + (|g| + 3 + s)
    refine ⟨⟨?_, ?_⟩, ?_, ?_⟩ <;> nlinarith
  · simp only [hX]
    rw [hY.covariance_fun_comp (f := fun x => mid (bar (wide g s) x)) (g := fun x => night (bar (wide g s) x))
      (measurable_of_finite _).aemeasurable (measurable_of_finite _).aemeasurable, coins_cov]
    simp only [mid, Spread.up, dn, night, bar, wide, Fintype.sum_prod_type, Fintype.sum_bool, side]
    simp
    ring

/-- On such bars the estimate is the spread. -/
example {s : ℝ} (hs : 0 < s) (sign : Bool) : ∃ (Ω : Type) (_ : MeasurableSpace Ω) (P : Measure Ω) (O H L C : Ω → Nat → ℝ),
    Consistent P (fun ω n w => edgeSpread (first (H ω) n) (first (L ω) n) (first (O ω) n) (first (C ω) n) w sign) 0 s := by
  obtain ⟨Ω, mΩ, P, X, eff, O, H, L, C, hb, hf, hi, hc⟩ := exists_wide hs 0
  exact ⟨Ω, mΩ, P, O, H, L, C, edge_spread hb hf hi hs hc sign⟩

/-- With a spread of one and a covariance of one the signed estimate tends to minus one. -/
example : ∃ (Ω : Type) (_ : MeasurableSpace Ω) (P : Measure Ω) (O H L C : Ω → Nat → ℝ),
    Consistent P (fun ω n w => edgeSpread (first (H ω) n) (first (L ω) n) (first (O ω) n) (first (C ω) n) w true) 0 (-1) := by
  obtain ⟨Ω, mΩ, P, X, eff, O, H, L, C, hb, hf, hi, hc⟩ := exists_wide one_pos 1
  exact ⟨Ω, mΩ, P, O, H, L, C, (edge_mirror hb hf hi one_pos (hc.trans (by norm_num))).2⟩

/-- A bar that moves straight from its open to its close, with trades on both sides all the way. -/
noncomputable def straight (s : ℝ) (a b : Bool) : Fin 4 → ℝ :=
  ![side a, max 0 (side b) + s / 2, min 0 (side b) - s / 2, side b]

/-- On bars that move straight from the open to the close, one in four opens is the high and one in four the low, without
telling anything about the spread. The estimate exceeds the spread by 15 percent. -/
theorem edge_straight {s : ℝ} (hs : 0 < s) (sign : Bool) :
    ∃ (Ω : Type) (_ : MeasurableSpace Ω) (P : Measure Ω) (X : Nat → Ω → Fin 6 → ℝ) (eff O H L C : Ω → Nat → ℝ),
      Bars P X eff O H L C s ∧ Fair P (X 0) ∧ cov[fun ω => mid (X 0 ω), fun ω => night (X 0 ω); P] = 0 ∧
      (∀ ω t, L ω t ≤ O ω t ∧ O ω t ≤ H ω t ∧ L ω t ≤ C ω t ∧ C ω t ≤ H ω t) ∧
      Consistent P (fun ω n w => edgeSpread (first (H ω) n) (first (L ω) n) (first (O ω) n) (first (C ω) n) w sign) 0
        (s * Real.sqrt (4 / 3)) := by
  obtain ⟨Ω, mΩ, P, Y, X, eff, O, H, L, C, hY, hX, hb, hf⟩ := exists_coin_bars (straight s) (fun a b => by
    show min 0 (side b) - s / 2 < max 0 (side b) + s / 2
    linarith [min_le_left 0 (side b), le_max_left 0 (side b)]) s
  have hP := hb.iid.indep.isProbabilityMeasure
  have hc : cov[fun ω => mid (X 0 ω), fun ω => night (X 0 ω); P] = 0 := by
    simp only [hX]
    rw [hY.covariance_fun_comp (f := fun x => mid (bar (straight s) x)) (g := fun x => night (bar (straight s) x))
      (measurable_of_finite _).aemeasurable (measurable_of_finite _).aemeasurable, coins_cov]
    simp only [mid, Spread.up, dn, night, bar, straight, Fintype.sum_prod_type, Fintype.sum_bool, side]
    simp
    norm_num
  have pr : ∀ p : Coins → Prop, P.real {ω | p (Y 0 ω)} = (∑ x, ind (p x)) / 16 := by
    intro p
    rw [← coins_integral, ← integral_ind hY.aemeasurable (MeasurableSet.of_discrete), ← hY.integral_comp]
    · rfl
    · exact (measurable_of_finite _).aestronglyMeasurable
  have ho : openOff P (X 0) s = 3 / 2 := by
    rw [openOff]
    simp only [hX]
    rw [pr fun x => s / 2 * qo (bar (straight s) x) ≠ Spread.up (bar (straight s) x),
      pr fun x => s / 2 * qo (bar (straight s) x) ≠ dn (bar (straight s) x)]
    have t1 : ∀ x, ind (s / 2 * qo (bar (straight s) x) ≠ Spread.up (bar (straight s) x)) = if x.2.2.1 && !x.2.1 then 0 else 1 := by
      rintro ⟨a, b, c, d⟩
      have e : (s / 2 * qo (bar (straight s) (a, b, c, d)) ≠ Spread.up (bar (straight s) (a, b, c, d))) =
        (s / 2 * side c ≠ max 0 (side b) + s / 2) := rfl
      rw [e]
      cases b <;> cases c <;> simp [ind, side] <;> linarith
    have t2 : ∀ x, ind (s / 2 * qo (bar (straight s) x) ≠ dn (bar (straight s) x)) = if !x.2.2.1 && x.2.1 then 0 else 1 := by
      rintro ⟨a, b, c, d⟩
      have e : (s / 2 * qo (bar (straight s) (a, b, c, d)) ≠ dn (bar (straight s) (a, b, c, d))) =
        (s / 2 * side c ≠ min 0 (side b) - s / 2) := rfl
      rw [e]
      cases b <;> cases c <;> simp [ind, side] <;> linarith
    simp only [t1, t2, Fintype.sum_prod_type, Fintype.sum_bool]
    simp
    norm_num
  have hcl : closeOff P (X 0) s = 3 / 2 := by
    rw [closeOff]
    simp only [hX]
    rw [pr fun x => day (bar (straight s) x) + s / 2 * qc (bar (straight s) x) ≠ Spread.up (bar (straight s) x),
      pr fun x => day (bar (straight s) x) + s / 2 * qc (bar (straight s) x) ≠ dn (bar (straight s) x)]
    have t1 : ∀ x, ind (day (bar (straight s) x) + s / 2 * qc (bar (straight s) x) ≠ Spread.up (bar (straight s) x)) =
        if x.2.2.2 && x.2.1 then 0 else 1 := by
      rintro ⟨a, b, c, d⟩
      have e : (day (bar (straight s) (a, b, c, d)) + s / 2 * qc (bar (straight s) (a, b, c, d)) ≠ Spread.up (bar (straight s) (a, b, c, d))) =
        (side b + s / 2 * side d ≠ max 0 (side b) + s / 2) := rfl
      rw [e]
      cases b <;> cases d <;> simp [ind, side] <;> linarith
    have t2 : ∀ x, ind (day (bar (straight s) x) + s / 2 * qc (bar (straight s) x) ≠ dn (bar (straight s) x)) =
        if !x.2.2.2 && !x.2.1 then 0 else 1 := by
      rintro ⟨a, b, c, d⟩
      have e : (day (bar (straight s) (a, b, c, d)) + s / 2 * qc (bar (straight s) (a, b, c, d)) ≠ dn (bar (straight s) (a, b, c, d))) =
        (side b + s / 2 * side d ≠ min 0 (side b) - s / 2) := rfl
      rw [e]
      cases b <;> cases d <;> simp [ind, side] <;> linarith
    simp only [t1, t2, Fintype.sum_prod_type, Fintype.sum_bool]
    simp
    norm_num
  refine ⟨Ω, mΩ, P, X, eff, O, H, L, C, hb, hf, hc, fun ω t => ?_, ?_⟩
  · have lo : ∀ {a b : ℝ}, 0 < a → 0 < b → (Real.log a ≤ Real.log b → a ≤ b) := fun ha hb h => (Real.log_le_log_iff ha hb).mp h
    obtain ⟨p1, p2, p3, p4⟩ := hb.pos ω t
    have x1 := le_max_left 0 (side (Y t ω).2.1)
    have x2 := le_max_right 0 (side (Y t ω).2.1)
    have x3 := min_le_left 0 (side (Y t ω).2.1)
    have x4 := min_le_right 0 (side (Y t ω).2.1)
    have l3 := abs_le.mp (abs_side (Y t ω).2.2.1).le
    have l4 := abs_le.mp (abs_side (Y t ω).2.2.2).le
    have y1 : Spread.up (X t ω) = max 0 (side (Y t ω).2.1) + s / 2 := by rw [hX]; rfl
    have y2 : dn (X t ω) = min 0 (side (Y t ω).2.1) - s / 2 := by rw [hX]; rfl
    have y3 : day (X t ω) = side (Y t ω).2.1 := by rw [hX]; rfl
    have y4 : qo (X t ω) = side (Y t ω).2.2.1 := by rw [hX]; rfl
    have y5 : qc (X t ω) = side (Y t ω).2.2.2 := by rw [hX]; rfl
    refine ⟨lo p3 p1 ?_, lo p1 p2 ?_, lo p3 p4 ?_, lo p4 p2 ?_⟩ <;>
      simp only [hb.opens, hb.high, hb.low, hb.close, y1, y2, y3, y4, y5] <;> nlinarith
  · have := edge_fair hb hf hs.ne' sign
    rw [hc, ho, hcl, mul_zero, sub_zero, root_nonneg (by positivity)] at this
    have e : Real.sqrt (s ^ 2 / (3 / 2) + s ^ 2 / (3 / 2)) = s * Real.sqrt (4 / 3) := by
      rw [show s ^ 2 / (3 / 2) + s ^ 2 / (3 / 2) = s ^ 2 * (4 / 3) by ring, Real.sqrt_mul (sq_nonneg s), Real.sqrt_sq hs.le]
    rwa [e] at this

end Verif.Props.MicroEdgeLaw
