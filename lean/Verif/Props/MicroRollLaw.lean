import Verif.Spec.RollModel
import Verif.Lemmas.BlockLLN
import Verif.Props.MicroRoll
import Mathlib.Probability.Moments.Covariance
import Mathlib.Probability.HasLawExists
import Mathlib.Probability.Distributions.Gaussian.Real

/-!
# C83: what Roll's measure estimates
-/

namespace Verif.Props.MicroRollLaw

open Verif Ser Micro Stat Sim IndRolling MicroRoll MeasureTheory ProbabilityTheory Filter Topology

theorem obs_first {X : Nat → ℝ} {n w t : Nat} (hw : w ≤ t + 1) (ht : t < n) : Obs (first X n) X w t := by
  refine ⟨hw, fun i hi => ?_⟩
  rw [Finset.mem_Ico] at hi
  rw [first, List.getElem?_map, List.getElem?_range (by omega)]
  rfl

theorem sum_window (f : Nat → ℝ) {w t : Nat} (hw : w ≤ t + 1) :
    ∑ i ∈ Finset.Ico (t + 1 - w) (t + 1), f i = ∑ j ∈ Finset.range w, f (j + (t + 1 - w)) := by
  rw [Finset.sum_Ico_eq_sum_range]
  have : t + 1 - (t + 1 - w) = w := by omega
  rw [this]
  exact Finset.sum_congr rfl fun j _ => by rw [Nat.add_comm]

theorem meanOf_eq (f : Nat → ℝ) {w t : Nat} (hw : w ≤ t + 1) :
    meanOf f w t = Sim.mean w fun j => f (j + (t + 1 - w)) := by
  rw [meanOf, sum_window f hw]
  rfl

theorem covOf_eq (f g : Nat → ℝ) {w t : Nat} (hw : w ≤ t + 1) :
    covOf f g w t = scov w 1 (fun j => f (j + (t + 1 - w))) fun j => g (j + (t + 1 - w)) := by
  rw [covOf, sum_window _ hw, meanOf_eq f hw, meanOf_eq g hw]
  rfl

theorem measurable_mean {α : Type*} [MeasurableSpace α] {f : Nat → α → ℝ} (hf : ∀ i, Measurable (f i)) (w : Nat) :
    Measurable fun x => Sim.mean w fun j => f j x :=
  (Finset.measurable_sum _ fun i _ => hf i).div_const _

theorem measurable_scov {α : Type*} [MeasurableSpace α] {f g : Nat → α → ℝ} (hf : ∀ i, Measurable (f i))
    (hg : ∀ i, Measurable (g i)) (w : Nat) (d : ℝ) : Measurable fun x => scov w d (fun j => f j x) fun j => g j x :=
  (Finset.measurable_sum _ fun i _ => ((hf i).sub (measurable_mean hf w)).mul ((hg i).sub (measurable_mean hg w))).div_const _

/-- The change of the log price in Roll's model. -/
noncomputable def change (s : ℝ) (x y : ℝ × ℝ) : ℝ := y.1 + s / 2 * (y.2 - x.2)

theorem measurable_change (s : ℝ) : Measurable fun z : (ℝ × ℝ) × (ℝ × ℝ) => change s z.1 z.2 := by
  unfold change
  fun_prop

variable {Ω : Type*} [MeasurableSpace Ω] {P : Measure Ω} {X : Nat → Ω → ℝ × ℝ} {m price : Ω → Nat → ℝ} {s : ℝ}

theorem log_change (h : RollModel P X m price s) (ω : Ω) (t : Nat) :
    Real.log (price ω (t + 1)) - Real.log (price ω t) = change s (X t ω) (X (t + 1) ω) := by
  rw [h.trade, h.trade, h.step, change]
  ring

theorem roll_total (c : Ser) (w : Nat) : ∃ u, rollMeasure c w = .ok u := by
  rw [rollMeasure, rollingCov, if_neg (by omega)]
  exact ⟨_, rfl⟩

/-- The covariance of successive changes of the log price. -/
theorem change_cov (h : RollModel P X m price s) :
    cov[fun ω => change s (X 1 ω) (X 2 ω), fun ω => change s (X 0 ω) (X 1 ω); P] =
      -(s / 2 * cov[fun ω => (X 0 ω).2, fun ω => (X 0 ω).1; P] + (s / 2) ^ 2 * Var[fun ω => (X 0 ω).2; P]) := by
  have hP := h.iid.indep.isProbabilityMeasure
  have he : ∀ t, MemLp (fun ω => (X t ω).1) 2 P := fun t => ((h.iid.ident t).comp measurable_fst).memLp_iff.mpr h.innovation
  have hq : ∀ t, MemLp (fun ω => (X t ω).2) 2 P := fun t => ((h.iid.ident t).comp measurable_snd).memLp_iff.mpr h.direction
  have hd : ∀ t, MemLp (fun ω => change s (X t ω) (X (t + 1) ω)) 2 P := fun t =>
    (he (t + 1)).add (((hq (t + 1)).sub (hq t)).const_mul (s / 2))
  have z0 : ∀ t u (f g : ℝ × ℝ → ℝ), Measurable f → Measurable g → t ≠ u → MemLp (fun ω => f (X t ω)) 2 P →
      MemLp (fun ω => g (X u ω)) 2 P → cov[fun ω => f (X t ω), fun ω => g (X u ω); P] = 0 :=
    fun t u f g hf hg htu h1 h2 => ((h.iid.indep.indepFun htu).comp hf hg).covariance_eq_zero h1 h2
  have e1 : (fun ω => change s (X 1 ω) (X 2 ω)) = (fun ω => (X 2 ω).1) + ((fun ω => s / 2 * (X 2 ω).2) - fun ω => s / 2 * (X 1 ω).2) := by
    funext ω
    simp only [change, Pi.add_apply, Pi.sub_apply]
    ring
  have e0 : (fun ω => change s (X 0 ω) (X 1 ω)) = (fun ω => (X 1 ω).1) + ((fun ω => s / 2 * (X 1 ω).2) - fun ω => s / 2 * (X 0 ω).2) := by
    funext ω
    simp only [change, Pi.add_apply, Pi.sub_apply]
    ring
  have m2 : ∀ t, MemLp (fun ω => s / 2 * (X t ω).2) 2 P := fun t => (hq t).const_mul _
  have hexp : ∀ Y : Ω → ℝ, MemLp Y 2 P → cov[Y, fun ω => change s (X 0 ω) (X 1 ω); P] =
      cov[Y, fun ω => (X 1 ω).1; P] + (s / 2 * cov[Y, fun ω => (X 1 ω).2; P] - s / 2 * cov[Y, fun ω => (X 0 ω).2; P]) := by
    intro Y hY
    rw [e0, covariance_add_right hY (he 1) ((m2 1).sub (m2 0)), covariance_sub_right hY (m2 1) (m2 0),
      covariance_const_mul_right, covariance_const_mul_right]
  have i1 : cov[fun ω => (X 1 ω).2, fun ω => (X 1 ω).1; P] = cov[fun ω => (X 0 ω).2, fun ω => (X 0 ω).1; P] := by
    rw [covariance_eq_sub (hq 1) (he 1), covariance_eq_sub (hq 0) (he 0)]
    have a1 := ((h.iid.ident 1).comp (measurable_snd.mul measurable_fst)).integral_eq
    have a2 := ((h.iid.ident 1).comp measurable_snd).integral_eq
    have a3 := ((h.iid.ident 1).comp measurable_fst).integral_eq
    simp only [Function.comp_def, Pi.mul_apply] at a1 a2 a3 ⊢
    rw [a1, a2, a3]
  have i2 : cov[fun ω => (X 1 ω).2, fun ω => (X 1 ω).2; P] = Var[fun ω => (X 0 ω).2; P] := by
    rw [covariance_self (hq 1).aemeasurable]
    exact ((h.iid.ident 1).comp measurable_snd).variance_eq
  rw [e1, covariance_add_left (he 2) ((m2 2).sub (m2 1)) (hd 0), covariance_sub_left (m2 2) (m2 1) (hd 0),
    covariance_const_mul_left, covariance_const_mul_left, hexp _ (he 2), hexp _ (hq 2), hexp _ (hq 1),
    z0 2 1 _ _ measurable_fst measurable_fst (by norm_num) (he 2) (he 1), z0 2 1 _ _ measurable_fst measurable_snd (by norm_num) (he 2) (hq 1),
    z0 2 0 _ _ measurable_fst measurable_snd (by norm_num) (he 2) (hq 0), z0 2 1 _ _ measurable_snd measurable_fst (by norm_num) (hq 2) (he 1),
    z0 2 1 _ _ measurable_snd measurable_snd (by norm_num) (hq 2) (hq 1), z0 2 0 _ _ measurable_snd measurable_snd (by norm_num) (hq 2) (hq 0),
    z0 1 0 _ _ measurable_snd measurable_snd (by norm_num) (hq 1) (hq 0), i1, i2]
  ring

/-- The measure, with long windows, in terms of the spread, the variance of the trade direction and its covariance with the
change of the efficient price. A drift of the efficient price has no effect. -/
theorem roll_limit (h : RollModel P X m price s) :
    Consistent P (fun ω n w => rollMeasure (first (price ω) n) w) 2
      (Real.sqrt |s ^ 2 * Var[fun ω => (X 0 ω).2; P] + 2 * s * cov[fun ω => (X 0 ω).2, fun ω => (X 0 ω).1; P]|) := by
  have hP := h.iid.indep.isProbabilityMeasure
  have he : ∀ t, MemLp (fun ω => (X t ω).1) 2 P := fun t => ((h.iid.ident t).comp measurable_fst).memLp_iff.mpr h.innovation
  have hq : ∀ t, MemLp (fun ω => (X t ω).2) 2 P := fun t => ((h.iid.ident t).comp measurable_snd).memLp_iff.mpr h.direction
  have hd : ∀ t, MemLp (fun ω => change s (X t ω) (X (t + 1) ω)) 2 P := fun t =>
    (he (t + 1)).add (((hq (t + 1)).sub (hq t)).const_mul (s / 2))
  have hm : ∀ i j, Measurable fun x : Nat → ℝ × ℝ => change s (x i) (x j) := fun i j =>
    (measurable_change s).comp (f := fun x : Nat → ℝ × ℝ => (x i, x j)) ((measurable_pi_apply i).prodMk (measurable_pi_apply j))
  have hm3 : ∀ i j, Measurable fun x : Fin 3 → ℝ × ℝ => change s (x i) (x j) := fun i j =>
    (measurable_change s).comp (f := fun x : Fin 3 → ℝ × ℝ => (x i, x j)) ((measurable_pi_apply i).prodMk (measurable_pi_apply j))
  refine consistent_of h.iid
    (F := fun w x => 2 * Real.sqrt |scov w 1 (fun j => change s (x (j + 1)) (x (j + 2))) fun j => change s (x j) (x (j + 1))|)
    (fun w => ?_) ?_ ?_
  · exact ((measurable_scov (fun j => hm _ _) (fun j => hm _ _) w 1).abs.sqrt).const_mul 2
  · have h1 := h.iid.scov (k := 3) (by norm_num) (f := fun x => change s (x 1) (x 2)) (g := fun x => change s (x 0) (x 1))
      (hm3 1 2) (hm3 0 1) (hd 1) (hd 0)
    have e := change_cov h
    simp only [Fin.val_zero, Fin.val_one, Fin.val_two] at h1
    rw [e] at h1
    filter_upwards [h1] with ω hω
    have h2 := ((hω.abs.sqrt).const_mul 2)
    have e2 : 2 * Real.sqrt |-(s / 2 * cov[fun ω => (X 0 ω).2, fun ω => (X 0 ω).1; P] + (s / 2) ^ 2 * Var[fun ω => (X 0 ω).2; P])| =
        Real.sqrt |s ^ 2 * Var[fun ω => (X 0 ω).2; P] + 2 * s * cov[fun ω => (X 0 ω).2, fun ω => (X 0 ω).1; P]| := by
      rw [abs_neg]
      have : (2 : ℝ) = Real.sqrt 4 := by
        rw [show (4 : ℝ) = 2 ^ 2 by norm_num, Real.sqrt_sq (by norm_num)]
      nth_rw 1 [this]
      rw [← Real.sqrt_mul (by norm_num), show (4 : ℝ) = |4| by norm_num, ← abs_mul]
      congr 2
      ring
    rw [e2] at h2
    exact h2
  · filter_upwards [eventually_ge_atTop 2] with w hw ω n t ht hn
    obtain ⟨u, hu⟩ := roll_total (first (price ω) n) w
    refine ⟨u, hu, ?_⟩
    rw [roll_spec hw hu (obs_first (by omega) hn) fun i _ => h.pos ω i, covOf_eq _ _ (by omega)]
    congr 5
    congr 1
    · funext j
      obtain ⟨b, hb⟩ : ∃ b, t + 1 - w = b + 2 := ⟨t + 1 - w - 2, by omega⟩
      rw [hb]
      have e2 : j + (b + 2) = (j + b + 1) + 1 := by omega
      have e3 : j + (b + 2) - 1 = j + b + 1 := by omega
      rw [e3, e2, log_change h, show j + 1 + (b + 2 - 2) = j + b + 1 by omega, show j + 2 + (b + 2 - 2) = j + b + 1 + 1 by omega]
    · funext j
      obtain ⟨b, hb⟩ : ∃ b, t + 1 - w = b + 2 := ⟨t + 1 - w - 2, by omega⟩
      rw [hb]
      have e2 : j + (b + 2) - 1 - 1 = j + b := by omega
      have e3 : j + (b + 2) - 1 = j + b + 1 := by omega
      rw [e2, e3, log_change h, show j + (b + 2 - 2) = j + b by omega, show j + 1 + (b + 2 - 2) = j + b + 1 by omega]

/-- Under Roll's assumptions (directions of unit variance, uncorrelated with the efficient price) the measure estimates the
spread. -/
theorem roll_spread (h : RollModel P X m price s) (hs : 0 ≤ s) (hv : Var[fun ω => (X 0 ω).2; P] = 1)
    (hc : cov[fun ω => (X 0 ω).2, fun ω => (X 0 ω).1; P] = 0) :
    Consistent P (fun ω n w => rollMeasure (first (price ω) n) w) 2 s := by
  have h1 := roll_limit h
  rwa [hv, hc, mul_one, mul_zero, add_zero, abs_of_nonneg (sq_nonneg s), Real.sqrt_sq hs] at h1

/-- Buys and sells: if buys and sells are not equally frequent, the spread is underestimated. -/
theorem roll_directions (h : RollModel P X m price s) (hs : 0 ≤ s) (hq : ∀ᵐ ω ∂P, (X 0 ω).2 = 1 ∨ (X 0 ω).2 = -1)
    (hc : cov[fun ω => (X 0 ω).2, fun ω => (X 0 ω).1; P] = 0) :
    Consistent P (fun ω n w => rollMeasure (first (price ω) n) w) 2 (s * Real.sqrt (1 - (∫ ω, (X 0 ω).2 ∂P) ^ 2)) := by
  have hP := h.iid.indep.isProbabilityMeasure
  have hv : Var[fun ω => (X 0 ω).2; P] = 1 - (∫ ω, (X 0 ω).2 ∂P) ^ 2 := by
    rw [variance_eq_sub h.direction]
    congr 1
    have : ∀ᵐ ω ∂P, ((fun ω => (X 0 ω).2) ^ 2) ω = 1 := by
      filter_upwards [hq] with ω hω
      rcases hω with e | e <;> simp [e]
    rw [integral_congr_ae this]
    simp
  have hnn : 0 ≤ 1 - (∫ ω, (X 0 ω).2 ∂P) ^ 2 := hv ▸ variance_nonneg _ _
  have h1 := roll_limit h
  rwa [hv, hc, mul_zero, add_zero, abs_of_nonneg (mul_nonneg (sq_nonneg s) hnn), Real.sqrt_mul (sq_nonneg s), Real.sqrt_sq hs] at h1

/-- Informed trades: if the efficient price moves with the trades, the measure exceeds the spread. -/
theorem roll_informed (h : RollModel P X m price s) (hs : 0 < s) (hv : Var[fun ω => (X 0 ω).2; P] = 1)
    (hc : 0 < cov[fun ω => (X 0 ω).2, fun ω => (X 0 ω).1; P]) :
    ∃ c, s < c ∧ Consistent P (fun ω n w => rollMeasure (first (price ω) n) w) 2 c := by
  refine ⟨_, ?_, roll_limit h⟩
  have : 0 < 2 * s * cov[fun ω => (X 0 ω).2, fun ω => (X 0 ω).1; P] := by positivity
  rw [hv, mul_one]
  refine Real.lt_sqrt_of_sq_lt (lt_of_lt_of_le ?_ (le_abs_self _))
  linarith

/-- Trades against the movement of the price: successive price changes are positively correlated, Roll's formula
`2 sqrt (-cov)` is not defined, and the measure is a number that looks like a spread. -/
theorem roll_sign (h : RollModel P X m price s) (hs : 0 < s) (hv : Var[fun ω => (X 0 ω).2; P] = 1)
    (hc : cov[fun ω => (X 0 ω).2, fun ω => (X 0 ω).1; P] = -s) :
    0 < cov[fun ω => Real.log (price ω 2) - Real.log (price ω 1), fun ω => Real.log (price ω 1) - Real.log (price ω 0); P] ∧
      Consistent P (fun ω n w => rollMeasure (first (price ω) n) w) 2 s := by
  constructor
  · simp only [log_change h ]
    have := change_cov h
    rw [this, hv, hc]
    nlinarith
  · have h1 := roll_limit h
    rw [hv, hc] at h1
    have e : |s ^ 2 * 1 + 2 * s * -s| = s ^ 2 := by
      rw [show s ^ 2 * 1 + 2 * s * -s = -(s ^ 2) by ring, abs_neg, abs_of_nonneg (sq_nonneg s)]
    rwa [e, Real.sqrt_sq hs.le] at h1

/-- Fair coin on `1` and `-1`. -/
noncomputable def coin : Measure ℝ := (1 / 2 : ENNReal) • Measure.dirac 1 + (1 / 2 : ENNReal) • Measure.dirac (-1)

instance : IsProbabilityMeasure coin := ⟨by simp [coin, ENNReal.inv_two_add_inv_two]⟩

theorem coin_integrable (f : ℝ → ℝ) : Integrable f coin :=
  ((integrable_dirac (by simp)).smul_measure (by simp)).add_measure ((integrable_dirac (by simp)).smul_measure (by simp))

theorem coin_integral (f : ℝ → ℝ) : ∫ x, f x ∂coin = (f 1 + f (-1)) / 2 := by
  have i : ∀ a : ℝ, Integrable f ((1 / 2 : ENNReal) • Measure.dirac a) := fun a =>
    (integrable_dirac (by simp)).smul_measure (by simp)
  rw [coin, integral_add_measure (i 1) (i (-1)), integral_smul_measure, integral_smul_measure, integral_dirac, integral_dirac]
  simp
  ring

theorem coin_memLp : MemLp id 2 coin :=
  (memLp_two_iff_integrable_sq measurable_id.aestronglyMeasurable).mpr (coin_integrable _)

theorem coin_variance : Var[id; coin] = 1 := by
  rw [variance_eq_sub coin_memLp]
  have h1 := coin_integral (id ^ 2)
  have h2 := coin_integral id
  rw [h1, h2]
  norm_num

/-- There are such prices, for every spread. -/
theorem exists_roll (s : ℝ) : ∃ (Ω : Type) (_ : MeasurableSpace Ω) (P : Measure Ω) (X : Nat → Ω → ℝ × ℝ) (m price : Ω → Nat → ℝ),
    RollModel P X m price s ∧ Var[fun ω => (X 0 ω).2; P] = 1 ∧ cov[fun ω => (X 0 ω).2, fun ω => (X 0 ω).1; P] = 0 ∧
      Var[fun ω => (X 0 ω).1; P] = 1 := by
  obtain ⟨Ω, mΩ, P, X, h0, h1, h2, h3⟩ := exists_iid Nat ((gaussianReal 0 1).prod coin)
  have l1 : HasLaw (fun ω => (X 0 ω).1) (gaussianReal 0 1) P := (measurePreserving_fst.hasLaw).fun_comp (h1 0)
  have l2 : HasLaw (fun ω => (X 0 ω).2) coin P := (measurePreserving_snd.hasLaw).fun_comp (h1 0)
  have g2 : MemLp id 2 (gaussianReal 0 1) := memLp_id_gaussianReal 2
  refine ⟨Ω, mΩ, P, X, fun ω t => ∑ i ∈ Finset.range t, (X (i + 1) ω).1,
    fun ω t => Real.exp (∑ i ∈ Finset.range t, (X (i + 1) ω).1 + s / 2 * (X t ω).2), ⟨⟨h2, fun t => ?_⟩, ?_, ?_, fun ω t => ?_, ?_, ?_⟩, ?_, ?_, ?_⟩
  · exact ⟨(h0 t).aemeasurable, (h0 0).aemeasurable, (h1 t).map_eq.trans (h1 0).map_eq.symm⟩
  · have := l1.map_eq ▸ g2
    exact this.comp_of_map l1.aemeasurable
  · have := l2.map_eq ▸ coin_memLp
    exact this.comp_of_map l2.aemeasurable
  · rw [Finset.sum_range_succ]
  · exact fun ω t => Real.exp_pos _
  · exact fun ω t => Real.log_exp _
  · exact l2.variance_eq.trans coin_variance
  · rw [(h1 0).covariance_fun_comp (f := Prod.snd) (g := Prod.fst) measurable_snd.aemeasurable measurable_fst.aemeasurable, covariance_comm]
    exact covariance_fst_snd_prod g2 coin_memLp
  · rw [l1.variance_eq]
    simp

/-- A spread of one percent on a random walk is found. -/
example : ∃ (Ω : Type) (_ : MeasurableSpace Ω) (P : Measure Ω) (price : Ω → Nat → ℝ),
    Consistent P (fun ω n w => rollMeasure (first (price ω) n) w) 2 0.01 := by
  obtain ⟨Ω, mΩ, P, X, m, price, h, hv, hc, -⟩ := exists_roll 0.01
  exact ⟨Ω, mΩ, P, price, roll_spread h (by norm_num) hv hc⟩

end Verif.Props.MicroRollLaw
