import Verif.Props.SimLaw

/-!
# The distribution of simulated geometric Brownian paths (C78)
-/

namespace Verif.Sim

open MeasureTheory ProbabilityTheory

variable {Ω : Type*} [MeasurableSpace Ω] {P : Measure Ω} {z : Ω → Nat → ℝ} {p : BMParams} {x0 : List ℝ} {dt : ℝ} {s n v : Nat}
  {a : Ω → Arr}

theorem gbm_closed {z : Nat → ℝ} {a : Arr} (hx : ∀ x ∈ x0, 0 < x) (h : gbmSample p x0 dt s n z = .ok a) {q j : Nat} (hq : q < n)
    (hj : j < p.drift.length) (t : Nat) :
    Real.log (path a p.drift.length q j t) = Real.log (start x0 p.drift.length q j) +
      (bentry p.drift j - bentry p.vol j ^ 2 / 2) * dt * t +
      ∑ u ∈ Finset.range t, bentry p.vol j * Real.sqrt dt * shock p.L p.drift.length z (u * n + q) j := by
  obtain ⟨-, h0, -, hstep⟩ := gbm_paths h hx
  induction t with
  | zero =>
    unfold path start
    rw [h0 _ (by
      have := Nat.mul_le_mul_right p.drift.length (Nat.succ_le_of_lt hq)
      rw [Nat.succ_mul] at this
      rw [Nat.mul_comm p.drift.length n]
      omega)]
    simp
  | succ t ih =>
    rw [hstep t q j hq hj, ih, Finset.sum_range_succ]
    push_cast
    ring

/-- C78. The distribution of the sampled paths of `GeometricBrownianMotion`, for independent standard normal draws and positive
`x0`: the logarithms are jointly Gaussian with mean `log x0 + (drift - vol²/2) t dt` and covariance
`vol_i vol_j (L Lᵀ)_ij min(t, t') dt` within a path, zero between paths. -/
theorem gbm_log_law (hz : Draws P z) (hdt : 0 ≤ dt) (hx : ∀ x ∈ x0, 0 < x) (h : ∀ ω, gbmSample p x0 dt s n (z ω) = .ok (a ω)) :
    BrownianGrid P (fun τ ω => Real.log (value (n := n) (s := s) p.drift.length a τ ω))
      (fun q j => Real.log (start x0 p.drift.length q j))
      (fun _ j => (bentry p.drift j - bentry p.vol j ^ 2 / 2) * dt)
      fun i j => corOf p.L p.drift.length i j * (bentry p.vol i * bentry p.vol j * dt) := by
  obtain ⟨h1, h2, h3⟩ := driven hz p.L (T := Idx n p.drift.length s) (fun τ => τ.1) (fun τ => τ.2.1) (fun τ => τ.2.2)
    (fun τ => Real.log (start x0 p.drift.length τ.1 τ.2.1) + (bentry p.drift τ.2.1 - bentry p.vol τ.2.1 ^ 2 / 2) * dt * τ.2.2)
    (fun τ _ => bentry p.vol τ.2.1 * Real.sqrt dt)
    (Y := fun τ ω => Real.log (value (n := n) (s := s) p.drift.length a τ ω))
    fun τ ω => gbm_closed hx (h ω) τ.1.2 τ.2.1.2 τ.2.2
  refine ⟨h1, fun τ => h2 τ, fun τ τ' => ?_⟩
  rw [h3]
  split_ifs
  · have hs := Real.mul_self_sqrt hdt
    rw [Finset.sum_const, Finset.card_range, nsmul_eq_mul]
    have : ((min τ.2.2 τ'.2.2 : Fin (s + 1)) : ℕ) = min (τ.2.2 : ℕ) τ'.2.2 := by
      rcases le_total τ.2.2 τ'.2.2 with hl | hl
      · rw [min_eq_left hl, min_eq_left (Fin.le_def.mp hl)]
      · rw [min_eq_right hl, min_eq_right (Fin.le_def.mp hl)]
    rw [this]
    linear_combination (corOf p.L p.drift.length τ.2.1 τ'.2.1 * bentry p.vol τ.2.1 * bentry p.vol τ'.2.1 *
      (min (τ.2.2 : ℕ) τ'.2.2 : ℕ)) * hs
  · rfl

omit [MeasurableSpace Ω] in
theorem gbm_pos (hx : ∀ x ∈ x0, 0 < x) (h : ∀ ω, gbmSample p x0 dt s n (z ω) = .ok (a ω)) (τ : Idx n p.drift.length s) (ω : Ω) :
    0 < value p.drift.length a τ ω := (gbm_paths (h ω) hx).2.2.1 _ _

omit [MeasurableSpace Ω] in
theorem gbm_exp (hx : ∀ x ∈ x0, 0 < x) (h : ∀ ω, gbmSample p x0 dt s n (z ω) = .ok (a ω)) (τ : Idx n p.drift.length s) :
    value p.drift.length a τ = fun ω => Real.exp (Real.log (value p.drift.length a τ ω)) :=
  funext fun ω => (Real.exp_log (gbm_pos hx h τ ω)).symm

omit [MeasurableSpace Ω] in
theorem start_pos (hx : ∀ x ∈ x0, 0 < x) (h : ∀ ω, gbmSample p x0 dt s n (z ω) = .ok (a ω)) [Nonempty Ω] (q : Nat) (j : Nat) :
    0 < start x0 p.drift.length q j := by
  obtain ⟨ω⟩ := ‹Nonempty Ω›
  obtain ⟨-, -, -, -, -, hl, -⟩ := (bm_succeeds_iff s n).mp ((gbm_succeeds_iff s n).mp ⟨_, h ω⟩)
  unfold start
  rw [List.getD_eq_getElem _ _ (Nat.mod_lt _ hl)]
  exact hx _ (List.getElem_mem _)

theorem draws_nonempty (hz : Draws P z) : Nonempty Ω :=
  have : IsProbabilityMeasure P := StdNormal.prob hz
  nonempty_of_isProbabilityMeasure P

/-- C78. The expected value, whatever the diagonal `c` of `L Lᵀ` is: `x0 exp((drift + (c - 1) vol²/2) t dt)`. The constructor does
not check that the diagonal of `cor` is one. -/
theorem gbm_mean_any (hz : Draws P z) (hdt : 0 ≤ dt) (hx : ∀ x ∈ x0, 0 < x) (h : ∀ ω, gbmSample p x0 dt s n (z ω) = .ok (a ω))
    {q j t : Nat} (hq : q < n) (hj : j < p.drift.length) (ht : t ≤ s) :
    ∫ ω, path (a ω) p.drift.length q j t ∂P = start x0 p.drift.length q j *
      Real.exp ((bentry p.drift j + (corOf p.L p.drift.length j j - 1) * bentry p.vol j ^ 2 / 2) * (t * dt)) := by
  have hb := gbm_log_law hz hdt hx h
  have := draws_nonempty hz
  have hg := hb.gaussian.hasGaussianLaw_eval ((⟨q, hq⟩, ⟨j, hj⟩, ⟨t, by omega⟩) : Idx n p.drift.length s)
  have e := gbm_exp hx h ((⟨q, hq⟩, ⟨j, hj⟩, ⟨t, by omega⟩) : Idx n p.drift.length s)
  change ∫ ω, value p.drift.length a ((⟨q, hq⟩, ⟨j, hj⟩, ⟨t, by omega⟩) : Idx n p.drift.length s) ω ∂P = _
  rw [e, exp_mean hg, hb.mean, ← covariance_self hg.aemeasurable, hb.cov]
  simp only [if_true, min_self]
  conv_rhs => rw [← Real.exp_log (start_pos hx h q j), ← Real.exp_add]
  congr 1
  ring

/-- C78. With a unit diagonal (or without `cor`) the expected value is `x0 exp(drift t dt)`: `drift` is the growth rate of the
mean, for every step size. -/
theorem gbm_mean (hz : Draws P z) (hdt : 0 ≤ dt) (hx : ∀ x ∈ x0, 0 < x) (h : ∀ ω, gbmSample p x0 dt s n (z ω) = .ok (a ω))
    {q j t : Nat} (hq : q < n) (hj : j < p.drift.length) (ht : t ≤ s) (hL : corOf p.L p.drift.length j j = 1) :
    ∫ ω, path (a ω) p.drift.length q j t ∂P = start x0 p.drift.length q j * Real.exp (bentry p.drift j * (t * dt)) := by
  rw [gbm_mean_any hz hdt hx h hq hj ht, hL]
  simp

/-- C78. The covariance of two values of one path; `i = j`, `t = t'` is the variance
`x0² exp(2 drift t dt) (exp(vol² t dt) - 1)`. -/
theorem gbm_cov (hz : Draws P z) (hdt : 0 ≤ dt) (hx : ∀ x ∈ x0, 0 < x) (h : ∀ ω, gbmSample p x0 dt s n (z ω) = .ok (a ω))
    {q i j t t' : Nat} (hq : q < n) (hi : i < p.drift.length) (hj : j < p.drift.length) (ht : t ≤ s) (ht' : t' ≤ s)
    (hLi : corOf p.L p.drift.length i i = 1) (hLj : corOf p.L p.drift.length j j = 1) :
    cov[fun ω => path (a ω) p.drift.length q i t, fun ω => path (a ω) p.drift.length q j t'; P] =
      start x0 p.drift.length q i * Real.exp (bentry p.drift i * (t * dt)) *
      (start x0 p.drift.length q j * Real.exp (bentry p.drift j * (t' * dt))) *
      (Real.exp (corOf p.L p.drift.length i j * (bentry p.vol i * bentry p.vol j * dt) * min t t') - 1) := by
  have hb := gbm_log_law hz hdt hx h
  have m1 := gbm_mean hz hdt hx h hq hi ht hLi
  have m2 := gbm_mean hz hdt hx h hq hj ht' hLj
  let τ : Idx n p.drift.length s := (⟨q, hq⟩, ⟨i, hi⟩, ⟨t, by omega⟩)
  let τ' : Idx n p.drift.length s := (⟨q, hq⟩, ⟨j, hj⟩, ⟨t', by omega⟩)
  have hg := hb.gaussian.hasGaussianLaw_prodMk (s := τ) (t := τ')
  have hc := exp_cov hg
  rw [← gbm_exp hx h τ, ← gbm_exp hx h τ', hb.cov τ τ', if_pos rfl] at hc
  change cov[value p.drift.length a τ, value p.drift.length a τ'; P] = _
  rw [hc, ← m1, ← m2]
  have : (((min τ.2.2 τ'.2.2 : Fin (s + 1)) : ℕ) : ℝ) = min (t : ℝ) t' := by
    rcases le_total t t' with hl | hl
    · rw [min_eq_left (by exact_mod_cast hl : (t : ℝ) ≤ t'), min_eq_left (Fin.le_def.mpr hl)]
    · rw [min_eq_right (by exact_mod_cast hl : (t' : ℝ) ≤ t), min_eq_right (Fin.le_def.mpr hl)]
  rw [this, Nat.cast_min]
  rfl

theorem gbm_measurable (hm : Measurable z) (hx : ∀ x ∈ x0, 0 < x) (h : ∀ ω, gbmSample p x0 dt s n (z ω) = .ok (a ω))
    (τ : Idx n p.drift.length s) : Measurable fun ω => Real.log (value p.drift.length a τ ω) :=
  measurable_of_closed hm (r := fun u => u * n + τ.1) (j := τ.2.1) fun ω => gbm_closed hx (h ω) τ.1.2 τ.2.1.2 τ.2.2

/-- C78. Forecast: given all rows up to `t`, the expected value of a later row is the value in row `t` times
`exp(drift (t' - t) dt)`. Discounted at the rate `drift` the paths are martingales, as pricing by simulation needs. -/
theorem gbm_forecast (hz : Draws P z) (hm : Measurable z) (hdt : 0 ≤ dt) (hx : ∀ x ∈ x0, 0 < x)
    (h : ∀ ω, gbmSample p x0 dt s n (z ω) = .ok (a ω)) (q : Fin n) (j : Fin p.drift.length)
    (hL : corOf p.L p.drift.length j j = 1) {t t' : Fin (s + 1)} (ht : t ≤ t') :
    P[value p.drift.length a (q, j, t') | history (value (n := n) (s := s) p.drift.length a) t] =ᵐ[P]
      fun ω => value p.drift.length a (q, j, t) ω * Real.exp (bentry p.drift j * ((t' - t : ℕ) * dt)) := by
  have hb := gbm_log_law hz hdt hx h
  have hX := gbm_measurable hm hx h
  have hP := hb.gaussian.isProbabilityMeasure
  have hV : ∀ τ : Idx n p.drift.length s, Measurable (value p.drift.length a τ) := fun τ => by
    rw [gbm_exp hx h τ]
    exact Real.measurable_exp.comp (hX τ)
  have hi : ∀ τ, Integrable (value p.drift.length a τ) P := fun τ => by
    rw [gbm_exp hx h τ]
    exact exp_integrable (hb.gaussian.hasGaussianLaw_eval τ)
  have hg := hb.gaussian.hasGaussianLaw_fun_sub (s := (q, j, t')) (t := (q, j, t))
  have hf := hb.forecast hX Real.measurable_exp Real.measurable_exp q j ht
  have ex : (fun (τ : Idx n p.drift.length s) ω => Real.exp (Real.log (value p.drift.length a τ ω))) =
      value p.drift.length a := funext fun τ => (gbm_exp hx h τ).symm
  rw [ex] at hf
  have hmt := (history_adapted (value (n := n) (s := s) p.drift.length a) (τ := (q, j, t)) le_rfl).stronglyMeasurable
  have hsplit : value p.drift.length a (q, j, t') = value p.drift.length a (q, j, t) *
      fun ω => Real.exp (Real.log (value p.drift.length a (q, j, t') ω) - Real.log (value p.drift.length a (q, j, t) ω)) := by
    funext ω
    rw [Pi.mul_apply, Real.exp_sub, Real.exp_log (gbm_pos hx h _ ω), Real.exp_log (gbm_pos hx h _ ω),
      mul_div_cancel₀ _ (gbm_pos hx h _ ω).ne']
  have hmean := hb.increment q j ht
  have hm2 : ∫ ω, Real.exp (Real.log (value p.drift.length a (q, j, t') ω) - Real.log (value p.drift.length a (q, j, t) ω)) ∂P =
      Real.exp (bentry p.drift j * ((t' - t : ℕ) * dt)) := by
    rw [exp_mean hg, hmean.integral_eq, integral_id_gaussianReal, hmean.variance_eq, variance_id_gaussianReal, hL,
      Real.coe_toNNReal _ (by have := mul_self_nonneg (bentry p.vol j); positivity)]
    congr 1
    ring
  have hint := hi (q, j, t')
  rw [hsplit] at hint ⊢
  refine (condExp_mul_of_stronglyMeasurable_left hmt hint (exp_integrable hg)).trans ?_
  filter_upwards [hf] with ω hω
  rw [Pi.mul_apply, hω, hm2]

/-- C78. The law does not depend on the step size. -/
theorem gbm_refine {Ω' : Type*} [MeasurableSpace Ω'] {Q : Measure Ω'} {z' : Ω' → Nat → ℝ} {a' : Ω' → Arr} {k : Nat}
    (hz : Draws P z) (hz' : Draws Q z') (hdt : 0 ≤ dt) (hx : ∀ x ∈ x0, 0 < x)
    (h : ∀ ω, gbmSample p x0 (k * dt) s n (z ω) = .ok (a ω)) (h' : ∀ ω, gbmSample p x0 dt (s * k : ℕ) n (z' ω) = .ok (a' ω)) :
    SameLaw (fun (τ : Idx n p.drift.length s) ω => path (a ω) p.drift.length τ.1 τ.2.1 τ.2.2) P
      (fun (τ : Idx n p.drift.length s) ω => path (a' ω) p.drift.length τ.1 τ.2.1 (τ.2.2 * k)) Q := by
  have h1 := gbm_log_law hz (by positivity) hx h
  have h2 := (gbm_log_law hz' hdt hx h').thin
  have e1 : (fun (_ : Fin n) (j : Fin p.drift.length) => (bentry p.drift j - bentry p.vol j ^ 2 / 2) * (k * dt)) =
      fun _ (j : Fin p.drift.length) => (bentry p.drift j - bentry p.vol j ^ 2 / 2) * dt * k := by
    funext _ j; ring
  have e2 : (fun (i j : Fin p.drift.length) => corOf p.L p.drift.length i j * (bentry p.vol i * bentry p.vol j * (k * dt))) =
      fun (i j : Fin p.drift.length) => corOf p.L p.drift.length i j * (bentry p.vol i * bentry p.vol j * dt) * k := by
    funext i j; ring
  rw [e1, e2] at h1
  have h3 := (h1.sameLaw h2).map (g := Real.exp) Real.measurable_exp (fun τ => (h1.memLp τ).aemeasurable)
    fun τ => (h2.memLp τ).aemeasurable
  convert h3 using 3
  · exact (Real.exp_log ((gbm_paths (h _) hx).2.2.1 _ _)).symm
  · exact (Real.exp_log ((gbm_paths (h' _) hx).2.2.1 _ _)).symm

/-- C78. Different paths are independent. -/
theorem gbm_paths_independent (hz : Draws P z) (hdt : 0 ≤ dt) (hx : ∀ x ∈ x0, 0 < x)
    (h : ∀ ω, gbmSample p x0 dt s n (z ω) = .ok (a ω)) :
    iIndepFun (fun (q : Fin n) ω (τ : Fin p.drift.length × Fin (s + 1)) => path (a ω) p.drift.length q τ.1 τ.2) P := by
  have h1 := (gbm_log_law hz hdt hx h).paths_independent
  have h2 := h1.comp (fun _ f τ => Real.exp (f τ)) fun _ =>
    measurable_pi_lambda _ fun τ => Real.measurable_exp.comp (measurable_pi_apply τ)
  convert h2 using 4
  exact (Real.exp_log ((gbm_paths (h _) hx).2.2.1 _ _)).symm

/-- C78. The growth `S_t' / S_t` after row `t` is independent of everything up to row `t`. -/
theorem gbm_growth_independent (hz : Draws P z) (hdt : 0 ≤ dt) (hx : ∀ x ∈ x0, 0 < x)
    (h : ∀ ω, gbmSample p x0 dt s n (z ω) = .ok (a ω)) (t : Fin (s + 1)) :
    IndepFun (fun ω (τ : {τ : Idx n p.drift.length s // τ.2.2 ≤ t}) => value p.drift.length a τ.1 ω)
      (fun ω (τ : {τ : Idx n p.drift.length s // t ≤ τ.2.2}) =>
        value p.drift.length a τ.1 ω / value p.drift.length a (s := s) (τ.1.1, τ.1.2.1, t) ω) P := by
  have h1 := (gbm_log_law hz hdt hx h).increments_independent t
  have m1 : Measurable fun (f : {τ : Idx n p.drift.length s // τ.2.2 ≤ t} → ℝ) τ => Real.exp (f τ) :=
    measurable_pi_lambda _ fun τ => Real.measurable_exp.comp (measurable_pi_apply τ)
  have m2 : Measurable fun (f : {τ : Idx n p.drift.length s // t ≤ τ.2.2} → ℝ) τ => Real.exp (f τ) :=
    measurable_pi_lambda _ fun τ => Real.measurable_exp.comp (measurable_pi_apply τ)
  have h2 := h1.comp m1 m2
  convert h2 using 3
  · exact (Real.exp_log (gbm_pos hx h _ _)).symm
  · simp only [Function.comp, Real.exp_sub]
    rw [Real.exp_log (gbm_pos hx h _ _), Real.exp_log (gbm_pos hx h _ _)]

/-- The hypotheses can be met: three paths of two independent variates. -/
example : ∃ (Ω : Type) (_ : MeasurableSpace Ω) (P : Measure Ω) (z : Ω → Nat → ℝ) (a : Ω → Arr),
    Draws P z ∧ Measurable z ∧ (∀ x ∈ [(10 : ℝ), 20], 0 < x) ∧ (∀ j, corOf none 2 j j = 1) ∧
      ∀ ω, gbmSample ⟨[1, -2], [3], none⟩ [10, 20] (1 / 4) 5 3 (z ω) = .ok (a ω) := by
  obtain ⟨Ω, m, P, z, hz, hm⟩ := draws_exist
  have h : ∀ ω, ∃ a, gbmSample ⟨[1, -2], [3], none⟩ [10, 20] (1 / 4) 5 3 (z ω) = .ok a := fun ω => by
    rw [gbm_succeeds_iff]
    refine (bm_succeeds_iff 5 3).mpr ⟨by norm_num, by norm_num, by simp, by simp, ?_, by simp, by simp⟩
    intro l hl
    cases hl
  choose a ha using h
  exact ⟨Ω, m, P, z, a, hz, hm, by simp, by simp [corOf], ha⟩

end Verif.Sim
