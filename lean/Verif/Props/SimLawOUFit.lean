import Verif.Lemmas.OUFitLaw
import Verif.Props.SimLawFit
import Verif.Props.SimLawOU

/-!
# C81: calibration of the Ornstein-Uhlenbeck model on random samples
-/

namespace Verif.Sim

open MeasureTheory ProbabilityTheory Filter Topology

variable {Ω : Type*} [MeasurableSpace Ω] {P : Measure Ω} {z : Ω → Nat → ℝ} {po : OUParams} {μ θ x0 : List ℝ} {dt : ℝ} {n : Nat}
  {chol : Arr → Option Arr} {a : Nat → Ω → Arr}

theorem corOf_pos {L : Option Arr} {v : Nat} (hL : Nonsingular L v) (j : Fin v) : 0 < corOf L v j j := by
  cases L with
  | none => simp [corOf]
  | some l =>
    have h0 : 0 ≤ corOf (some l) v j j := Finset.sum_nonneg fun k _ => mul_self_nonneg _
    refine lt_of_le_of_ne h0 fun he => ?_
    have hz : ∀ k ∈ Finset.range v, l.get j k = 0 := fun k hk =>
      mul_self_eq_zero.mp ((Finset.sum_eq_zero_iff_of_nonneg fun k _ => mul_self_nonneg _).mp he.symm k hk)
    have := hL (fun i => if i = j then 1 else 0) fun i => by
      simp only [mul_ite, mul_one, mul_zero, Finset.sum_ite_eq', Finset.mem_univ, if_true, corOf]
      exact Finset.sum_eq_zero fun k hk => by rw [hz k hk, mul_zero]
    have := congrFun this j
    simp at this

/-- The correlation of the shocks of two columns. -/
noncomputable def colCor (L : Option Arr) (v c c' : Nat) : ℝ := if c / v = c' / v then corOf L v (c % v) (c' % v) else 0

theorem colCor_det {L : Option Arr} {v : Nat} (hL : Nonsingular L v) :
    (Matrix.of fun c c' : Fin (n * v) => colCor L v c c').det ≠ 0 := by
  have h := block_det (n := n) hL
  rw [← Matrix.det_submatrix_equiv_self finProdFinEquiv] 
  convert h using 2
  ext y y'
  have hv : 0 < v := y.2.pos
  simp only [Matrix.submatrix_apply, Matrix.of_apply, colCor, finProdFinEquiv_apply_val]
  rw [Nat.add_mul_div_left _ _ hv, Nat.add_mul_div_left _ _ hv, Nat.add_mul_mod_self_left, Nat.add_mul_mod_self_left,
    Nat.div_eq_of_lt y.2.2, Nat.div_eq_of_lt y'.2.2, Nat.mod_eq_of_lt y.2.2, Nat.mod_eq_of_lt y'.2.2, zero_add, zero_add]
  simp only [Fin.val_inj]

theorem bentry_mem {l : List ℝ} {v j : Nat} (h : l.length = 1 ∨ l.length = v) (hj : j < v) : bentry l j ∈ l := by
  rcases h with hl | hl
  · obtain ⟨r, rfl⟩ := List.length_eq_one_iff.mp hl
    simp [bentry]
  · unfold bentry
    split_ifs with h1
    · rw [List.getD_eq_getElem _ _ (by omega)]
      exact List.getElem_mem _
    · rw [List.getD_eq_getElem _ _ (by omega)]
      exact List.getElem_mem _

theorem rates_pos (hz : Draws P z) (hμ : po.mean = .row μ) (hθ : po.mrr = .row θ) (hpos : ∀ r ∈ θ, 0 < r)
    (h : ∀ (s : Nat) ω, ouSample po x0 dt s n (z ω) = .ok (a s ω)) {j : Nat} (hj : j < μ.length) : 0 < bentry θ j :=
  ou_rates_pos hz hμ hθ hpos (h 0) hj

theorem ouScale_pos {σ r : ℝ} (hσ : σ ≠ 0) (hr : 0 < r) (hdt : 0 < dt) : 0 < ouScale σ r dt := by
  refine Real.sqrt_pos.mpr (mul_pos (by positivity) ?_)
  rw [sub_pos, Real.exp_lt_one_iff]
  nlinarith [mul_pos hr hdt]

theorem ouScale_sq {σ r : ℝ} (hr : 0 < r) (hdt : 0 < dt) :
    ouScale σ r dt * ouScale σ r dt = σ ^ 2 / (2 * r) * (1 - Real.exp (-2 * r * dt)) := by
  refine Real.mul_self_sqrt (mul_nonneg (by positivity) ?_)
  have : Real.exp (-2 * r * dt) < 1 := by
    rw [Real.exp_lt_one_iff]
    nlinarith [mul_pos hr hdt]
  linarith

/-- The columns of longer and longer samples. -/
theorem ou_columns (hz : Draws P z) (hμ : po.mean = .row μ) (hθ : po.mrr = .row θ) (hpos : ∀ r ∈ θ, 0 < r) (hdt : 0 < dt)
    (hL : Nonsingular po.L μ.length) (hvol : ∀ j < μ.length, bentry po.vol j ≠ 0)
    (h : ∀ (s : Nat) ω, ouSample po x0 dt s n (z ω) = .ok (a s ω)) :
    ∀ᵐ ω ∂P, ARColumns (fun s => a s ω) (n * μ.length) (fun c t => (a t ω).get t c)
      (fun c t => shock po.L μ.length (z ω) (t * n + c / μ.length) (c % μ.length)) (fun c => bentry μ (c % μ.length))
      (fun c => Real.exp (-(bentry θ (c % μ.length)) * dt))
      (fun c => ouScale (bentry po.vol (c % μ.length)) (bentry θ (c % μ.length)) dt) (colCor po.L μ.length) := by
  have h1 := fun y : Fin n × Fin μ.length => shocks_noise hz po.L y
  have h2 := fun y y' : Fin n × Fin μ.length => shocks_consistent hz po.L y y'
  simp only [← ae_all_iff] at h1 h2
  have hP : IsProbabilityMeasure P := StdNormal.prob hz
  filter_upwards [h1, h2] with ω w1 w2
  have hsplit : ∀ c < n * μ.length, ∃ y : Fin n × Fin μ.length, (y.1 : ℕ) = c / μ.length ∧ (y.2 : ℕ) = c % μ.length := by
    intro c hc
    have hv : 0 < μ.length := by
      rcases Nat.eq_zero_or_pos μ.length with e | e
      · rw [e, mul_zero] at hc
        omega
      · exact e
    exact ⟨(⟨c / μ.length, Nat.div_lt_of_lt_mul (by rw [mul_comm]; exact hc)⟩, ⟨c % μ.length, Nat.mod_lt _ hv⟩), rfl, rfl⟩
  have hpath : ∀ s t c, c < n * μ.length → t ≤ s → (a s ω).get t c = (a t ω).get t c := by
    intro s t c hc ht
    obtain ⟨y, e1, e2⟩ := hsplit c hc
    have p1 := ou_closed hμ hθ (h s ω) y.1.2 y.2.2 ht
    have p2 := ou_closed hμ hθ (h t ω) y.1.2 y.2.2 le_rfl
    have := p1.trans p2.symm
    unfold path at this
    rw [e1, e2, Nat.div_add_mod'] at this
    exact this
  refine ⟨fun s => ?_, fun c hc t => ?_, fun c hc => ?_, fun c hc c' hc' => ?_, fun c hc => Real.exp_pos _, fun c hc => ?_,
    fun c hc => ?_, fun c hc => ?_, colCor_det hL⟩
  · obtain ⟨⟨r1, r2⟩, -⟩ := ou_inv hμ hθ (h s ω)
    exact ⟨r1, r2.trans (mul_comm _ _), fun t ht c hc => hpath s t c hc ht⟩
  · obtain ⟨y, e1, e2⟩ := hsplit c hc
    obtain ⟨-, -, -, -, -, r3⟩ := ou_inv hμ hθ (h (t + 1) ω)
    have := r3 t y.1 y.2 (by omega) y.1.2 y.2.2
    unfold path at this
    rw [e1, e2, Nat.div_add_mod'] at this
    rw [this, hpath (t + 1) t c hc (by omega)]
    rfl
  · obtain ⟨y, e1, e2⟩ := hsplit c hc
    have := w1 y
    rw [e1, e2] at this
    rw [colCor, if_pos rfl]
    exact this
  · obtain ⟨y, e1, e2⟩ := hsplit c hc
    obtain ⟨y', e1', e2'⟩ := hsplit c' hc'
    have := (w2 y y').2
    simp only [← Fin.val_inj, e1, e2, e1', e2'] at this
    exact this
  · obtain ⟨y, e1, e2⟩ := hsplit c hc
    have := rates_pos hz hμ hθ hpos h y.2.2
    rw [e2] at this
    simp only [Real.exp_lt_one_iff]
    nlinarith [mul_pos this hdt]
  · obtain ⟨y, e1, e2⟩ := hsplit c hc
    have p1 := rates_pos hz hμ hθ hpos h y.2.2
    have p2 := hvol y.2 y.2.2
    rw [e2] at p1 p2
    exact (ouScale_pos p2 p1 hdt).ne'
  · obtain ⟨y, e1, e2⟩ := hsplit c hc
    rw [colCor, if_pos rfl, ← e2]
    exact corOf_pos hL y.2

/-- C81. Calibration on longer and longer samples almost surely succeeds from some length on, if no decay factor
`exp(-mrr dt)` is below the tolerance `1e-8`. Mean and rate converge to those of the last variate; volatilities to those
used for the sample times `ouScale 1 (own rate) / ouScale 1 (last rate)`; correlations to the correlations within a path. -/
theorem ou_fit_limits (hc : CholTotal chol) (hz : Draws P z) (hμ : po.mean = .row μ) (hθ : po.mrr = .row θ)
    (hpos : ∀ r ∈ θ, 0 < r) (hdt : 0 < dt) (htol : ∀ r ∈ θ, 1 / 10 ^ 8 < Real.exp (-r * dt)) (hL : Nonsingular po.L μ.length)
    (hvol : ∀ j < μ.length, bentry po.vol j ≠ 0) (h : ∀ (s : Nat) ω, ouSample po x0 dt s n (z ω) = .ok (a s ω))
    (q q' : Fin n) (i j : Fin μ.length) :
    ∀ᵐ ω ∂P, FitTendsto (fun s => ouFit chol (a s ω) dt) ouMeanAt (bentry μ (μ.length - 1)) ∧
      FitTendsto (fun s => ouFit chol (a s ω) dt) ouRateAt (bentry θ (μ.length - 1)) ∧
      FitTendsto (fun s => ouFit chol (a s ω) dt) (ouVolAt (q * μ.length + i))
        (|bentry po.vol i| * Real.sqrt (corOf po.L μ.length i i) *
          (ouScale 1 (bentry θ i) dt / ouScale 1 (bentry θ (μ.length - 1)) dt)) ∧
      (1 < μ.length * n → FitTendsto (fun s => ouFit chol (a s ω) dt) (ouCorAt (q * μ.length + i) (q' * μ.length + j))
          (if q = q' then corOf po.L μ.length i j /
            (Real.sqrt (corOf po.L μ.length i i) * Real.sqrt (corOf po.L μ.length j j)) else 0)) := by
  have hP : IsProbabilityMeasure P := StdNormal.prob hz
  obtain ⟨ω₀⟩ : Nonempty Ω := nonempty_of_isProbabilityMeasure P
  obtain ⟨-, -, hlen, -⟩ := ou_inv hμ hθ (h 0 ω₀)
  have hv : 0 < μ.length := i.pos
  have hn : 0 < n := q.pos
  have hk : 0 < n * μ.length := Nat.mul_pos hn hv
  have hlast : (n * μ.length - 1) % μ.length = μ.length - 1 := by
    obtain ⟨n, rfl⟩ : ∃ m, n = m + 1 := ⟨n - 1, by omega⟩
    rw [Nat.succ_mul, Nat.add_sub_assoc hv, mul_comm, Nat.mul_add_mod, Nat.mod_eq_of_lt (by omega)]
  have hmod : ∀ (q : Fin n) (i : Fin μ.length), (q * μ.length + i) % μ.length = i := fun q i => by
    rw [mul_comm, Nat.mul_add_mod, Nat.mod_eq_of_lt i.2]
  have hdiv : ∀ (q : Fin n) (i : Fin μ.length), (q * μ.length + i) / μ.length = q := fun q i => by
    rw [mul_comm, Nat.mul_add_div hv, Nat.div_eq_of_lt i.2, add_zero]
  have hlt : ∀ (q : Fin n) (i : Fin μ.length), q * μ.length + i < n * μ.length := fun q i => by
    rw [mul_comm n]
    exact col_lt q.2 i.2
  have hmem : ∀ j < μ.length, bentry θ j ∈ θ := fun j hj => bentry_mem (by tauto) hj
  have rpos := fun (j : Nat) (hj : j < μ.length) => rates_pos hz hμ hθ hpos h hj
  filter_upwards [ou_columns hz hμ hθ hpos hdt hL hvol h] with ω hω
  obtain ⟨l1, l2, l3, l4⟩ := hω.limits hc hk (fun c _ => htol _ (hmem _ (Nat.mod_lt _ hv))) dt
  rw [hlast] at l1 l2 l3
  have elog : ∀ r : ℝ, -Real.log (Real.exp (-r * dt)) / dt = r := fun r => by
    rw [Real.log_exp]
    field_simp
  simp only [elog] at l2 l3
  refine ⟨l1, l2, ?_, fun h1 => ?_⟩
  · have := l3 _ (hlt q i)
    rw [hmod, colCor, if_pos rfl, hmod, ouScale_sq (rpos i i.2) hdt] at this
    have pi := rpos i i.2
    have pl := rpos (μ.length - 1) (by omega)
    have si := ouScale_pos one_ne_zero pi hdt
    have sl := ouScale_pos one_ne_zero pl hdt
    have e : 2 * bentry θ (μ.length - 1) * (bentry po.vol i ^ 2 / (2 * bentry θ i) * (1 - Real.exp (-2 * bentry θ i * dt)) *
        corOf po.L μ.length i i) / (1 - Real.exp (-bentry θ (μ.length - 1) * dt) ^ 2) =
        (|bentry po.vol i| * Real.sqrt (corOf po.L μ.length i i) *
          (ouScale 1 (bentry θ i) dt / ouScale 1 (bentry θ (μ.length - 1)) dt)) ^ 2 := by
      rw [mul_pow, mul_pow, div_pow, sq_abs, Real.sq_sqrt (corOf_pos hL i).le, sq (ouScale 1 (bentry θ i) dt),
        sq (ouScale 1 (bentry θ (μ.length - 1)) dt), ouScale_sq pi hdt, ouScale_sq pl hdt]
      have e2 : Real.exp (-bentry θ (μ.length - 1) * dt) ^ 2 = Real.exp (-2 * bentry θ (μ.length - 1) * dt) := by
        rw [← Real.exp_nat_mul]
        congr 1
        push_cast
        ring
      have hne : 1 - Real.exp (-2 * bentry θ (μ.length - 1) * dt) ≠ 0 := by
        have : Real.exp (-2 * bentry θ (μ.length - 1) * dt) < 1 := by
          rw [Real.exp_lt_one_iff]
          nlinarith [mul_pos pl hdt]
        linarith
      rw [e2]
      field_simp
    rw [e, Real.sqrt_sq (by positivity)] at this
    exact this
  · have := l4 (by rw [mul_comm]; exact h1) _ (hlt q i) _ (hlt q' j)
    simp only [colCor, hmod, hdiv, if_true] at this
    have si := ouScale_pos (hvol i i.2) (rpos i i.2) hdt
    have sj := ouScale_pos (hvol j j.2) (rpos j j.2) hdt
    rw [Real.sqrt_mul (mul_self_nonneg _), Real.sqrt_mul (mul_self_nonneg _), Real.sqrt_mul_self si.le, Real.sqrt_mul_self sj.le,
      mul_mul_mul_comm (ouScale _ _ dt) (Real.sqrt _), mul_div_mul_left _ _ (mul_pos si sj).ne'] at this
    simp only [Fin.val_inj] at this
    by_cases hq : q = q'
    · rw [if_pos hq] at this ⊢
      exact this
    · rw [if_neg hq, zero_div] at this
      rw [if_neg hq]
      exact this

/-- C81. With one rate for all variates calibration is strongly consistent: mean (that of the last variate), rate, volatilities
and correlations converge to the values the sample was drawn with. -/
theorem ou_fit_consistent (hc : CholTotal chol) (hz : Draws P z) {r : ℝ} (hμ : po.mean = .row μ) (hθ : po.mrr = .row [r])
    (hr : 0 < r) (hdt : 0 < dt) (htol : 1 / 10 ^ 8 < Real.exp (-r * dt)) (hL : Nonsingular po.L μ.length)
    (hvol : ∀ j < μ.length, 0 < bentry po.vol j) (hcor : ∀ j : Fin μ.length, corOf po.L μ.length j j = 1)
    (h : ∀ (s : Nat) ω, ouSample po x0 dt s n (z ω) = .ok (a s ω)) (q q' : Fin n) (i j : Fin μ.length) :
    ∀ᵐ ω ∂P, FitTendsto (fun s => ouFit chol (a s ω) dt) ouMeanAt (bentry μ (μ.length - 1)) ∧
      FitTendsto (fun s => ouFit chol (a s ω) dt) ouRateAt r ∧
      FitTendsto (fun s => ouFit chol (a s ω) dt) (ouVolAt (q * μ.length + i)) (bentry po.vol i) ∧
      (1 < μ.length * n → FitTendsto (fun s => ouFit chol (a s ω) dt) (ouCorAt (q * μ.length + i) (q' * μ.length + j))
          (if q = q' then corOf po.L μ.length i j else 0)) := by
  have hb : ∀ j, bentry [r] j = r := fun j => by simp [bentry]
  filter_upwards [ou_fit_limits hc hz hμ hθ (by simpa using hr) hdt (by simpa using htol) hL (fun j hj => (hvol j hj).ne') h q q' i j]
    with ω ⟨h1, h2, h3, h4⟩
  simp only [hb, hcor, Real.sqrt_one, mul_one, div_one, div_self (ouScale_pos one_ne_zero hr hdt).ne',
    abs_of_pos (hvol i i.2)] at h1 h2 h3 h4
  exact ⟨h1, h2, h3, h4⟩

/-- The standard deviation of a step decreases with the rate. -/
theorem ouScale_anti {r r' : ℝ} (hr : 0 < r) (hrr : r < r') (hdt : 0 < dt) : ouScale 1 r' dt < ouScale 1 r dt := by
  have hr' := hr.trans hrr
  unfold ouScale
  have hlt : Real.exp (-2 * r' * dt) < 1 := by
    rw [Real.exp_lt_one_iff]
    nlinarith [mul_pos hr' hdt]
  refine Real.sqrt_lt_sqrt (mul_nonneg (by positivity) (by linarith)) ?_
  have hu : 0 < 2 * r * dt := by positivity
  have hu' : 0 < 2 * r' * dt := by positivity
  have huu : 2 * r * dt < 2 * r' * dt := by nlinarith
  have := strictConvexOn_exp.secant_strict_mono (Set.mem_univ (0 : ℝ)) (Set.mem_univ (-(2 * r' * dt)))
    (Set.mem_univ (-(2 * r * dt))) (by linarith) (by linarith) (by linarith)
  rw [sub_zero, sub_zero, Real.exp_zero, ← neg_div_neg_eq, neg_neg, ← neg_div_neg_eq (_ - _) (-(2 * r * dt)), neg_neg,
    div_lt_div_iff₀ hu' hu] at this
  have e1 : Real.exp (-2 * r * dt) = Real.exp (-(2 * r * dt)) := by congr 1; ring
  have e2 : Real.exp (-2 * r' * dt) = Real.exp (-(2 * r' * dt)) := by congr 1; ring
  rw [e1, e2, one_pow, one_div_mul_eq_div, one_div_mul_eq_div, div_lt_div_iff₀ (by positivity) (by positivity)]
  refine lt_of_mul_lt_mul_right (a := dt) ?_ hdt.le
  linarith

/-- C81 (defect). With different rates the estimates do not converge to the parameters: the one fitted rate is that of the last
variate, and the volatility of a variate with a smaller (larger) rate converges to a value that is too large (too small). -/
theorem ou_fit_inconsistent (hc : CholTotal chol) (hz : Draws P z) (hμ : po.mean = .row μ) (hθ : po.mrr = .row θ)
    (hpos : ∀ r ∈ θ, 0 < r) (hdt : 0 < dt) (htol : ∀ r ∈ θ, 1 / 10 ^ 8 < Real.exp (-r * dt)) (hL : Nonsingular po.L μ.length)
    (hvol : ∀ j < μ.length, 0 < bentry po.vol j) (hcor : ∀ j : Fin μ.length, corOf po.L μ.length j j = 1)
    (h : ∀ (s : Nat) ω, ouSample po x0 dt s n (z ω) = .ok (a s ω)) (q : Fin n) (i : Fin μ.length)
    (hne : bentry θ i ≠ bentry θ (μ.length - 1)) :
    ∃ w, (bentry θ i < bentry θ (μ.length - 1) → bentry po.vol i < w) ∧ (bentry θ (μ.length - 1) < bentry θ i → w < bentry po.vol i) ∧
      w ≠ bentry po.vol i ∧
      ∀ᵐ ω ∂P, FitTendsto (fun s => ouFit chol (a s ω) dt) (ouVolAt (q * μ.length + i)) w ∧
        FitTendsto (fun s => ouFit chol (a s ω) dt) ouRateAt (bentry θ (μ.length - 1)) := by
  have rpos := fun (j : Nat) (hj : j < μ.length) => rates_pos hz hμ hθ hpos h hj
  have pi := rpos i i.2
  have pl := rpos (μ.length - 1) (by have := i.pos; omega)
  have sl := ouScale_pos one_ne_zero pl hdt
  have hv := hvol i i.2
  have up : bentry θ i < bentry θ (μ.length - 1) → bentry po.vol i <
      bentry po.vol i * (ouScale 1 (bentry θ i) dt / ouScale 1 (bentry θ (μ.length - 1)) dt) := fun hlt => by
    have := (one_lt_div sl).mpr (ouScale_anti pi hlt hdt)
    exact lt_mul_of_one_lt_right hv this
  have down : bentry θ (μ.length - 1) < bentry θ i →
      bentry po.vol i * (ouScale 1 (bentry θ i) dt / ouScale 1 (bentry θ (μ.length - 1)) dt) < bentry po.vol i := fun hlt => by
    have := (div_lt_one sl).mpr (ouScale_anti pl hlt hdt)
    exact mul_lt_of_lt_one_right hv this
  refine ⟨_, up, down, ?_, ?_⟩
  · rcases lt_or_gt_of_ne hne with hlt | hlt
    · exact (up hlt).ne'
    · exact (down hlt).ne
  · filter_upwards [ou_fit_limits hc hz hμ hθ hpos hdt htol hL (fun j hj => (hvol j hj).ne') h q q i i] with ω ⟨_, h2, h3, _⟩
    simp only [hcor, Real.sqrt_one, mul_one, abs_of_pos hv] at h3
    exact ⟨h3, h2⟩

/-- C81 (defect). If the rate is so large that `exp(-mrr dt)` is below the tolerance, then on long samples the fitted rate is
always `8 log 10 / dt`, which is too small, and the fitted mean converges to `mean / (1 - 1e-8)`. -/
theorem ou_fit_clamped (hz : Draws P z) {m r σ : ℝ} (hμ : po.mean = .row [m]) (hθ : po.mrr = .row [r]) (hvol : po.vol = [σ])
    (hL : po.L = none) (hr : 0 < r) (hdt : 0 < dt) (htol : Real.exp (-r * dt) < 1 / 10 ^ 8) (hσ : σ ≠ 0)
    (h : ∀ (s : Nat) ω, ouSample po x0 dt s (1 : ℕ) (z ω) = .ok (a s ω)) :
    8 * Real.log 10 / dt < r ∧
    ∀ᵐ ω ∂P, (∀ᶠ s in atTop, ∃ f, ouFit chol (a s ω) dt = .ok f ∧ f.mrr = 8 * Real.log 10 / dt) ∧
      FitTendsto (fun s => ouFit chol (a s ω) dt) ouMeanAt (m / (1 - 1 / 10 ^ 8)) := by
  have hlog : -Real.log slopeTol = 8 * Real.log 10 := by
    unfold slopeTol
    rw [one_div, Real.log_inv, Real.log_pow, neg_neg]
    norm_num
  have hlt : 8 * Real.log 10 / dt < r := by
    rw [div_lt_iff₀ hdt, ← hlog]
    have := Real.log_lt_log (Real.exp_pos _) htol
    rw [Real.log_exp] at this
    unfold slopeTol
    linarith
  refine ⟨hlt, ?_⟩
  have hb : ∀ (x : ℝ) (j : Nat), bentry [x] j = x := fun x j => by simp [bentry]
  have hns : Nonsingular po.L ([m] : List ℝ).length := by
    rw [hL]
    exact nonsingular_of_init (chol := fun _ => none) (cor := none) (by intro A L _ h; cases h) rfl (by simp)
  filter_upwards [ou_columns hz hμ hθ (by simpa using hr) hdt hns (fun j _ => by rw [hvol, hb]; exact hσ) h] with ω hω
  have hω : ARColumns _ 1 _ _ _ _ _ _ := hω
  have := hω.clamped (chol := chol) (by simp only [hb]; exact htol) dt
  rw [hlog] at this
  simp only [hb] at this
  exact this

/-- C81. The round trip in terms of the constructor with one rate. -/
theorem ou_round_trip (hc : CholTotal chol) (hf : CholFactor chol) {mean vol : SimData} {r : ℝ} {cor : Option Arr}
    (hp : ouInit chol mean (.float r) vol cor = .ok po) (hμ : po.mean = .row μ) (hz : Draws P z) (hr : 0 < r) (hdt : 0 < dt)
    (htol : 1 / 10 ^ 8 < Real.exp (-r * dt)) (hvol : ∀ j < μ.length, 0 < bentry po.vol j)
    (hcor : ∀ j < μ.length, corEntry cor j j = 1) (h : ∀ (s : Nat) ω, ouSample po x0 dt s n (z ω) = .ok (a s ω))
    (q q' : Fin n) (i j : Fin μ.length) :
    mean.toRow = .ok μ ∧ vol.toRow = .ok po.vol ∧
    ∀ᵐ ω ∂P, FitTendsto (fun s => ouFit chol (a s ω) dt) ouMeanAt (bentry μ (μ.length - 1)) ∧
      FitTendsto (fun s => ouFit chol (a s ω) dt) ouRateAt r ∧
      FitTendsto (fun s => ouFit chol (a s ω) dt) (ouVolAt (q * μ.length + i)) (bentry po.vol i) ∧
      (1 < μ.length * n → FitTendsto (fun s => ouFit chol (a s ω) dt) (ouCorAt (q * μ.length + i) (q' * μ.length + j))
          (if q = q' then corEntry cor i j else 0)) := by
  obtain ⟨m, hm, hp⟩ := bind_ok hp
  obtain ⟨θ, ht, hp⟩ := bind_ok hp
  obtain ⟨w, hw, hp⟩ := bind_ok hp
  obtain ⟨L, hL, hp⟩ := bind_ok hp
  cases hp
  cases hμ
  cases ht
  refine ⟨hm, hw, ?_⟩
  have hP : IsProbabilityMeasure P := StdNormal.prob hz
  obtain ⟨ω⟩ : Nonempty Ω := nonempty_of_isProbabilityMeasure P
  have hsh : ∀ l ∈ L, l.rows = μ.length ∧ l.cols = μ.length :=
    ((ou_succeeds_iff (s := 0) rfl rfl).mp ⟨_, h 0 ω⟩).2.2.2.1
  have e : ∀ i j : Fin μ.length, corOf L μ.length i j = corEntry cor i j := fun i j => initL_cor hf hL hsh i.2 j.2
  filter_upwards [ou_fit_consistent hc hz rfl rfl hr hdt htol (nonsingular_of_init hf hL hsh) hvol
    (fun j => (e j j).trans (hcor j j.2)) h q q' i j] with ω ⟨h1, h2, h3, h4⟩
  simp only [e] at h4
  exact ⟨h1, h2, h3, h4⟩

/-- The hypotheses can be met: three paths of two correlated variates; two variates with different rates; a rate beyond the
tolerance. -/
example : ∃ (Ω : Type) (_ : MeasurableSpace Ω) (P : Measure Ω) (z : Ω → Nat → ℝ) (a b c : Nat → Ω → Arr)
    (chol : Arr → Option Arr) (p : OUParams), Draws P z ∧ CholTotal chol ∧ CholFactor chol ∧
      ouInit chol (.list [1, -2]) (.float 2) (.float 3) none = .ok p ∧ p.mean = .row [1, -2] ∧ p.vol = [3] ∧
      (∀ (s : Nat) ω, ouSample p [10, 20] 1 s 3 (z ω) = .ok (a s ω)) ∧
      (∀ (s : Nat) ω, ouSample ⟨.row [1, 2], .row [1, 2], [1 / 2], none⟩ [0, 1] 1 s 1 (z ω) = .ok (b s ω)) ∧
      (∀ (s : Nat) ω, ouSample ⟨.row [1], .row [100], [1 / 2], none⟩ [0] 1 s 1 (z ω) = .ok (c s ω)) ∧
      1 / 10 ^ 8 < Real.exp (-2 * 1) ∧ 1 / 10 ^ 8 < Real.exp (-1 * 1) ∧ Real.exp (-100 * 1) < 1 / 10 ^ 8 ∧
      Nonsingular none 2 := by
  obtain ⟨Ω, m, P, z, hz, -⟩ := draws_exist
  obtain ⟨chol, h1, h2⟩ := chol_exists
  choose a ha using fun (s : Nat) ω => (ou_succeeds_iff (po := ⟨.row [1, -2], .row [2], [3], none⟩)
    (s := s) (n := 3) (x0 := [10, 20]) (dt := 1) (z := z ω) rfl rfl).mpr ⟨by simp, by simp, by simp, by simp, by simp, by simp⟩
  choose b hb using fun (s : Nat) ω => (ou_succeeds_iff (po := ⟨.row [1, 2], .row [1, 2], [1 / 2], none⟩)
    (s := s) (n := 1) (x0 := [0, 1]) (dt := 1) (z := z ω) rfl rfl).mpr ⟨by simp, by simp, by simp, by simp, by simp, by simp⟩
  choose c hc using fun (s : Nat) ω => (ou_succeeds_iff (po := ⟨.row [1], .row [100], [1 / 2], none⟩)
    (s := s) (n := 1) (x0 := [0]) (dt := 1) (z := z ω) rfl rfl).mpr ⟨by simp, by simp, by simp, by simp, by simp, by simp⟩
  have e3 : Real.exp 1 < 3 := by
    have := Real.exp_one_lt_d9
    linarith
  have e2 : 2 < Real.exp 1 := by
    have := Real.exp_one_gt_d9
    linarith
  have k2 : 1 / 10 ^ 8 < Real.exp (-2 * 1) := by
    have h4 : Real.exp (-2 * 1) = 1 / (Real.exp 1 * Real.exp 1) := by
      rw [← Real.exp_add, one_div, ← Real.exp_neg]
      norm_num
    rw [h4]
    apply one_div_lt_one_div_of_lt (by positivity)
    nlinarith [Real.exp_pos 1]
  have k3 : Real.exp (-100 * 1) < 1 / 10 ^ 8 := by
    have h4 : Real.exp (-100 * 1) = 1 / Real.exp 1 ^ 100 := by
      rw [← Real.exp_nat_mul, one_div, ← Real.exp_neg]
      norm_num
    rw [h4]
    apply one_div_lt_one_div_of_lt (by positivity)
    calc (10 : ℝ) ^ 8 < 2 ^ 100 := by norm_num
      _ ≤ Real.exp 1 ^ 100 := pow_le_pow_left₀ (by norm_num) e2.le 100
  refine ⟨Ω, m, P, z, a, b, c, chol, _, hz, h1, h2, rfl, rfl, rfl, ha, hb, hc, k2,
    k2.trans_le (Real.exp_le_exp.mpr (by norm_num)), k3, ?_⟩
  exact nonsingular_of_init (chol := fun _ => none) (cor := none) (by intro A L _ h; cases h) rfl (by simp)

end Verif.Sim
