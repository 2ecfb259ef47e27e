import Verif.Lemmas.BrownianGrid
import Verif.Props.SimPaths
import Verif.Model.SimInit
import Mathlib.Probability.BrownianMotion.Basic

/-!
# The distribution of simulated Brownian paths (C77)
-/

namespace Verif.Sim

open MeasureTheory ProbabilityTheory

variable {Ω : Type*} [MeasurableSpace Ω] {P : Measure Ω} {z : Ω → Nat → ℝ} {p : BMParams} {x0 : List ℝ} {dt : ℝ} {s n v : Nat}
  {a : Ω → Arr}

theorem bm_closed {z : Nat → ℝ} {a : Arr} (h : bmSample p x0 dt s n z = .ok a) {q j : Nat} (hq : q < n)
    (hj : j < p.drift.length) (t : Nat) :
    path a p.drift.length q j t = start x0 p.drift.length q j + bentry p.drift j * dt * t +
      ∑ u ∈ Finset.range t, bentry p.vol j * Real.sqrt dt * shock p.L p.drift.length z (u * n + q) j := by
  obtain ⟨-, h0, hstep⟩ := bm_increments h
  induction t with
  | zero =>
    unfold path start
    rw [h0 _ (by
      have := Nat.mul_le_mul_right p.drift.length (Nat.succ_le_of_lt hq)
      rw [Nat.succ_mul] at this
      rw [Nat.mul_comm p.drift.length n]
      omega)]
    simp
  | succ t ih =>
    rw [hstep t q j hq hj, ih, Finset.sum_range_succ]
    push_cast
    ring

/-- C77. The distribution of the sampled paths of `BrownianMotion`, for independent standard normal draws. The values of all
paths, variates and rows are jointly Gaussian; the mean is `x0 + drift t dt`; the covariance of two values of the same path is
`vol_i vol_j (L Lᵀ)_ij min(t, t') dt`, of different paths zero. -/
theorem bm_law (hz : Draws P z) (hdt : 0 ≤ dt) (h : ∀ ω, bmSample p x0 dt s n (z ω) = .ok (a ω)) :
    BrownianGrid P (value (n := n) (s := s) p.drift.length a) (fun q j => start x0 p.drift.length q j)
      (fun _ j => bentry p.drift j * dt)
      fun i j => corOf p.L p.drift.length i j * (bentry p.vol i * bentry p.vol j * dt) := by
  obtain ⟨h1, h2, h3⟩ := driven hz p.L (T := Idx n p.drift.length s) (fun τ => τ.1) (fun τ => τ.2.1) (fun τ => τ.2.2)
    (fun τ => start x0 p.drift.length τ.1 τ.2.1 + bentry p.drift τ.2.1 * dt * τ.2.2)
    (fun τ _ => bentry p.vol τ.2.1 * Real.sqrt dt) (Y := value (n := n) (s := s) p.drift.length a)
    fun τ ω => bm_closed (h ω) τ.1.2 τ.2.1.2 τ.2.2
  refine ⟨h1, fun τ => h2 τ, fun τ τ' => ?_⟩
  rw [h3]
  split_ifs
  · have hs := Real.mul_self_sqrt hdt
    rw [Finset.sum_const, Finset.card_range, nsmul_eq_mul]
    have : ((min τ.2.2 τ'.2.2 : Fin (s + 1)) : ℕ) = min (τ.2.2 : ℕ) τ'.2.2 := by
      rcases le_total τ.2.2 τ'.2.2 with hl | hl
      · rw [min_eq_left hl, min_eq_left (Fin.le_def.mp hl)]
      · rw [min_eq_right hl, min_eq_right (Fin.le_def.mp hl)]
    rw [this]
    linear_combination (corOf p.L p.drift.length τ.2.1 τ'.2.1 * bentry p.vol τ.2.1 * bentry p.vol τ'.2.1 *
      (min (τ.2.2 : ℕ) τ'.2.2 : ℕ)) * hs
  · rfl

theorem bind_ok {α β : Type} {x : Py α} {f : α → Py β} {b : β} (h : (x >>= f) = .ok b) : ∃ a, x = .ok a ∧ f a = .ok b := by
  cases x with
  | error e => cases h
  | ok a => exact ⟨a, rfl, h⟩

theorem initL_cor {chol : Arr → Option Arr} (hc : CholFactor chol) {cor L : Option Arr} (h : initL chol cor = .ok L) {v : Nat}
    (hL : ∀ l ∈ L, l.rows = v ∧ l.cols = v) {i j : Nat} (hi : i < v) (hj : j < v) : corOf L v i j = corEntry cor i j := by
  cases cor with
  | none => cases h; rfl
  | some c =>
    unfold initL at h
    by_cases hsq : c.rows = c.cols
    · simp only [hsq, if_true] at h
      cases hch : chol c with
      | none => rw [hch] at h; cases h
      | some l =>
        rw [hch] at h
        cases h
        obtain ⟨h1, -, -, -, h2⟩ := hc c l hsq hch
        have hv : c.rows = v := h1.symm.trans (hL l rfl).1
        rw [hv] at h2
        show ∑ m ∈ Finset.range v, l.get i m * l.get j m = c.get (max i j) (min i j)
        rcases le_total i j with hij | hij
        · rw [max_eq_right hij, min_eq_left hij, ← h2 j i hij hj]
          exact Finset.sum_congr rfl fun m _ => mul_comm _ _
        · rw [max_eq_left hij, min_eq_right hij, ← h2 i j hij hi]
    · simp only [hsq, if_false] at h
      cases h

/-- C77. The distribution in terms of the arguments of the constructor. -/
theorem bm_law_of_init {chol : Arr → Option Arr} (hc : CholFactor chol) {drift vol : SimData} {cor : Option Arr}
    (hp : bmInit chol drift vol cor = .ok p) (hz : Draws P z) (hdt : 0 ≤ dt)
    (h : ∀ ω, bmSample p x0 dt s n (z ω) = .ok (a ω)) :
    BrownianGrid P (value (n := n) (s := s) p.drift.length a) (fun q j => start x0 p.drift.length q j)
      (fun _ j => bentry p.drift j * dt) (fun i j => corEntry cor i j * (bentry p.vol i * bentry p.vol j * dt)) ∧
    drift.toRow = .ok p.drift ∧ vol.toRow = .ok p.vol := by
  obtain ⟨d, hd, hp⟩ := bind_ok hp
  obtain ⟨w, hw, hp⟩ := bind_ok hp
  obtain ⟨L, hL, hp⟩ := bind_ok hp
  cases hp
  refine ⟨?_, hd, hw⟩
  have hP : IsProbabilityMeasure P := (StdNormal.prob hz)
  obtain ⟨ω⟩ : Nonempty Ω := nonempty_of_isProbabilityMeasure P
  obtain ⟨-, -, -, -, hsh, -⟩ := (bm_succeeds_iff s n).mp ⟨_, h ω⟩
  have := bm_law hz hdt h
  refine ⟨this.gaussian, this.mean, fun τ τ' => ?_⟩
  rw [this.cov]
  simp only
  rw [initL_cor hc hL hsh τ.2.1.2 τ'.2.1.2]

/-- C77. Every single value is normal with mean `x0 + drift t dt` and variance `vol² (L Lᵀ)_jj t dt`. -/
theorem bm_marginal (hz : Draws P z) (hdt : 0 ≤ dt) (h : ∀ ω, bmSample p x0 dt s n (z ω) = .ok (a ω)) {q j t : Nat}
    (hq : q < n) (hj : j < p.drift.length) (ht : t ≤ s) :
    HasLaw (fun ω => path (a ω) p.drift.length q j t) (gaussianReal (start x0 p.drift.length q j + bentry p.drift j * dt * t)
      (corOf p.L p.drift.length j j * (bentry p.vol j * bentry p.vol j * dt) * t).toNNReal) P :=
  (bm_law hz hdt h).marginal ⟨q, hq⟩ ⟨j, hj⟩ ⟨t, by omega⟩

/-- C77. The paths of one sample are independent of each other. -/
theorem bm_paths_independent (hz : Draws P z) (hdt : 0 ≤ dt) (h : ∀ ω, bmSample p x0 dt s n (z ω) = .ok (a ω)) :
    iIndepFun (fun (q : Fin n) ω (τ : Fin p.drift.length × Fin (s + 1)) => path (a ω) p.drift.length q τ.1 τ.2) P :=
  (bm_law hz hdt h).paths_independent

/-- C77. The changes after row `t` are independent of everything up to row `t`, and normal with mean `drift (t' - t) dt`. -/
theorem bm_increments_independent (hz : Draws P z) (hdt : 0 ≤ dt) (h : ∀ ω, bmSample p x0 dt s n (z ω) = .ok (a ω))
    (t : Fin (s + 1)) :
    IndepFun (fun ω (τ : {τ : Idx n p.drift.length s // τ.2.2 ≤ t}) => value p.drift.length a τ.1 ω)
      (fun ω (τ : {τ : Idx n p.drift.length s // t ≤ τ.2.2}) =>
        value p.drift.length a τ.1 ω - value p.drift.length a (s := s) (τ.1.1, τ.1.2.1, t) ω) P ∧
    ∀ (q : Fin n) (j : Fin p.drift.length) (t' : Fin (s + 1)), t ≤ t' →
      HasLaw (fun ω => value p.drift.length a (q, j, t') ω - value p.drift.length a (q, j, t) ω)
        (gaussianReal (bentry p.drift j * dt * (t' - t : ℕ))
          (corOf p.L p.drift.length j j * (bentry p.vol j * bentry p.vol j * dt) * (t' - t : ℕ)).toNNReal) P :=
  ⟨(bm_law hz hdt h).increments_independent t, fun q j _ ht => (bm_law hz hdt h).increment q j ht⟩

theorem measurable_of_closed {Y : Ω → ℝ} {L : Option Arr} {v N : Nat} {r : Nat → Nat} {j : Fin v} {m : ℝ} {w : Nat → ℝ}
    (hm : Measurable z) (h : ∀ ω, Y ω = m + ∑ u ∈ Finset.range N, w u * shock L v (z ω) (r u) j) : Measurable Y := by
  rw [funext h]
  refine measurable_const.add (Finset.measurable_fun_sum _ fun u _ => measurable_const.mul ?_)
  simp only [shock_eq]
  exact Finset.measurable_fun_sum _ fun i _ => measurable_const.mul ((measurable_pi_apply _).comp hm)

theorem bm_measurable (hm : Measurable z) (h : ∀ ω, bmSample p x0 dt s n (z ω) = .ok (a ω)) (τ : Idx n p.drift.length s) :
    Measurable (value p.drift.length a τ) :=
  measurable_of_closed hm (r := fun u => u * n + τ.1) (j := τ.2.1) fun ω => bm_closed (h ω) τ.1.2 τ.2.1.2 τ.2.2

/-- C77. Forecast: given all rows up to `t`, the expected value of a later row is the value in row `t` plus the drift. With
zero drift the paths are martingales. -/
theorem bm_forecast (hz : Draws P z) (hm : Measurable z) (hdt : 0 ≤ dt) (h : ∀ ω, bmSample p x0 dt s n (z ω) = .ok (a ω))
    (q : Fin n) (j : Fin p.drift.length) {t t' : Fin (s + 1)} (ht : t ≤ t') :
    P[value p.drift.length a (q, j, t') | history (value (n := n) (s := s) p.drift.length a) t] =ᵐ[P]
      fun ω => value p.drift.length a (q, j, t) ω + bentry p.drift j * dt * (t' - t : ℕ) := by
  have hb := bm_law hz hdt h
  have hX := bm_measurable hm h
  have hP := hb.gaussian.isProbabilityMeasure
  have hi : ∀ τ, Integrable (value p.drift.length a τ) P := fun τ => (hb.memLp τ).integrable (by norm_num)
  have hf := hb.forecast hX measurable_id measurable_id q j ht
  have hle := history_le hX t
  have hmt := (history_adapted (value (n := n) (s := s) p.drift.length a) (τ := (q, j, t)) le_rfl).stronglyMeasurable
  have hsplit : value p.drift.length a (q, j, t') = value p.drift.length a (q, j, t) +
      fun ω => value p.drift.length a (q, j, t') ω - value p.drift.length a (q, j, t) ω := by
    funext ω; simp
  have hmean := (hb.increment q j ht).integral_eq
  rw [integral_id_gaussianReal] at hmean
  rw [hsplit]
  refine (condExp_add (hi _) ((hi _).sub (hi _)) _).trans ?_
  rw [condExp_of_stronglyMeasurable hle hmt (hi _)]
  filter_upwards [hf] with ω hω
  rw [Pi.add_apply]
  refine congrArg _ (hω.trans ?_)
  exact hmean

/-- C77. The law does not depend on the step size: a sample with `k` times as many steps of length `dt`, seen at every `k`-th
row, has the law of a sample with steps of length `k dt`. -/
theorem bm_refine {Ω' : Type*} [MeasurableSpace Ω'] {Q : Measure Ω'} {z' : Ω' → Nat → ℝ} {a' : Ω' → Arr} {k : Nat}
    (hz : Draws P z) (hz' : Draws Q z') (hdt : 0 ≤ dt)
    (h : ∀ ω, bmSample p x0 (k * dt) s n (z ω) = .ok (a ω)) (h' : ∀ ω, bmSample p x0 dt (s * k : ℕ) n (z' ω) = .ok (a' ω)) :
    SameLaw (fun (τ : Idx n p.drift.length s) ω => path (a ω) p.drift.length τ.1 τ.2.1 τ.2.2) P
      (fun (τ : Idx n p.drift.length s) ω => path (a' ω) p.drift.length τ.1 τ.2.1 (τ.2.2 * k)) Q := by
  have h1 := bm_law hz (by positivity) h
  have h2 := (bm_law hz' hdt h').thin
  have e1 : (fun (_ : Fin n) (j : Fin p.drift.length) => bentry p.drift j * (k * dt)) =
      fun _ (j : Fin p.drift.length) => bentry p.drift j * dt * k := by
    funext _ j; ring
  have e2 : (fun (i j : Fin p.drift.length) => corOf p.L p.drift.length i j * (bentry p.vol i * bentry p.vol j * (k * dt))) =
      fun (i j : Fin p.drift.length) => corOf p.L p.drift.length i j * (bentry p.vol i * bentry p.vol j * dt) * k := by
    funext i j; ring
  rw [e1, e2] at h1
  exact h1.sameLaw h2

/-- C77. One variate: the sample has the law of `x0 + drift t + vol B_t` at the times `t = 0, dt, 2 dt, …`, for every process
`B` with the finite-dimensional distributions of Brownian motion. -/
theorem bm_is_brownian {Ω' : Type*} [MeasurableSpace Ω'] {Q : Measure Ω'} {B : NNReal → Ω' → ℝ} (hB : IsPreBrownianReal B Q)
    {μ σ x : ℝ} {dt : NNReal} (hz : Draws P z) (h : ∀ ω, bmSample ⟨[μ], [σ], none⟩ [x] dt s 1 (z ω) = .ok (a ω)) :
    SameLaw (fun (t : Fin (s + 1)) ω => (a ω).get t 0) P (fun (t : Fin (s + 1)) ω => x + μ * (t * dt) + σ * B (t * dt) ω) Q := by
  have h1 := bm_law (n := 1) (p := ⟨[μ], [σ], none⟩) hz dt.2 h
  have e : (fun (t : Fin (s + 1)) ω => (a ω).get t 0) = fun t => value (n := 1) (s := s) 1 a ((0, 0, t) : Idx 1 1 s) := by
    ext t ω
    simp [value, path]
  have gB := hB.isGaussianProcess
  have pB : IsProbabilityMeasure Q := gB.isProbabilityMeasure
  have iB : ∀ t, Integrable (B t) Q := fun t => (gB.hasGaussianLaw_eval t).integrable
  refine sameLaw_of_moments ?_ ?_ (fun t => ?_) fun t t' => ?_
  · rw [e]
    exact h1.gaussian.comp_right fun t : Fin (s + 1) => ((0, 0, t) : Idx 1 1 s)
  · have := ((gB.comp_right fun t : Fin (s + 1) => (t : NNReal) * dt).smul fun _ => σ)
    exact gaussian_const_add this fun t => x + μ * (t * dt)
  · rw [integral_add (integrable_const _) ((iB _).const_mul _), integral_const, integral_const_mul,
      hB.integral_eval]
    rw [congrFun e t]
    refine (h1.mean (0, 0, t)).trans ?_
    simp [start, bentry]
    ring
  · rw [covariance_const_add_left ((iB _).const_mul _), covariance_const_add_right ((iB _).const_mul _),
      covariance_const_mul_left, covariance_const_mul_right, hB.covariance_fun_eval]
    rw [congrFun e t, congrFun e t']
    refine (h1.cov (0, 0, t) (0, 0, t')).trans ?_
    rcases le_total t t' with hl | hl
    · have : (t : NNReal) * dt ≤ t' * dt := by gcongr; exact_mod_cast hl
      rw [min_eq_left this]
      simp [corOf, bentry, min_eq_left hl]
      ring
    · have : (t' : NNReal) * dt ≤ t * dt := by gcongr; exact_mod_cast hl
      rw [min_eq_right this]
      simp [corOf, bentry, min_eq_right hl]
      ring

/-- The hypotheses can be met: three paths of two correlated variates. -/
example : ∃ (Ω : Type) (_ : MeasurableSpace Ω) (P : Measure Ω) (z : Ω → Nat → ℝ) (a : Ω → Arr) (chol : Arr → Option Arr)
    (p : BMParams), Draws P z ∧ Measurable z ∧ CholFactor chol ∧
      bmInit chol (.list [1, -2]) (.float 3) (some (Arr.ofList 2 2 [1, 3 / 5, 3 / 5, 1])) = .ok p ∧
      ∀ ω, bmSample p [10, 20] (1 / 4) 5 3 (z ω) = .ok (a ω) := by
  classical
  obtain ⟨Ω, m, P, z, hz, hm⟩ := draws_exist
  let L : Arr := Arr.ofList 2 2 [1, 0, 3 / 5, 4 / 5]
  let chol : Arr → Option Arr := fun A => if A = Arr.ofList 2 2 [1, 3 / 5, 3 / 5, 1] then some L else none
  have h : ∀ ω, ∃ a, bmSample ⟨[1, -2], [3], some L⟩ [10, 20] (1 / 4) 5 3 (z ω) = .ok a := fun ω => by
    refine (bm_succeeds_iff 5 3).mpr ⟨by norm_num, by norm_num, by simp, by simp, ?_, by simp, by simp⟩
    intro l hl
    cases hl
    exact ⟨rfl, rfl⟩
  choose a ha using h
  refine ⟨Ω, m, P, z, a, chol, _, hz, hm, ?_, ?_, ha⟩
  · intro A l _ hl
    by_cases hA : A = Arr.ofList 2 2 [1, 3 / 5, 3 / 5, 1]
    · simp only [chol, hA, if_true] at hl
      cases hl
      subst hA
      refine ⟨rfl, rfl, ?_, ?_, ?_⟩
      · intro i j hij hj
        change j < 2 at hj
        obtain ⟨rfl, rfl⟩ : i = 0 ∧ j = 1 := by omega
        norm_num [L, Arr.ofList, Arr.get]
      · intro i hi
        change i < 2 at hi
        interval_cases i <;> norm_num [L, Arr.ofList, Arr.get]
      · intro i j hij hi
        change i < 2 at hi
        change ∑ m ∈ Finset.range 2, _ = _
        interval_cases i <;> interval_cases j <;> norm_num [L, Arr.ofList, Arr.get, Finset.sum_range_succ]
    · simp only [chol, hA, if_false] at hl
      cases hl
  · simp [bmInit, initL, SimData.toRow, chol]
    rfl

end Verif.Sim
