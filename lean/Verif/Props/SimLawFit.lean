import Verif.Lemmas.FitLaw
import Verif.Lemmas.CholExists
import Verif.Props.SimLaw
import Verif.Props.SimLawGBM

/-!
# C80: calibration on random samples
-/

namespace Verif.Sim

open MeasureTheory ProbabilityTheory Filter Topology

variable {Ω : Type*} [MeasurableSpace Ω] {P : Measure Ω} {z : Ω → Nat → ℝ} {p : BMParams} {x0 : List ℝ} {dt : ℝ} {n : Nat}
  {chol : Arr → Option Arr}

/-- Parameters that a constructor accepts are nonsingular. -/
theorem nonsingular_of_init (hc : CholFactor chol) {cor L : Option Arr} (h : initL chol cor = .ok L) {v : Nat}
    (hL : ∀ l ∈ L, l.rows = v ∧ l.cols = v) : Nonsingular L v := by
  intro x hx
  cases cor with
  | none =>
    cases h
    funext i
    have := hx i
    simpa [corOf, Fin.val_inj] using this
  | some c =>
    unfold initL at h
    by_cases hsq : c.rows = c.cols
    · simp only [hsq, if_true] at h
      cases hch : chol c with
      | none => rw [hch] at h; cases h
      | some l =>
        rw [hch] at h
        cases h
        obtain ⟨h1, -, h0, hd, -⟩ := hc c l hsq hch
        have hv : c.rows = v := h1.symm.trans (hL l rfl).1
        rw [hv] at h0 hd
        set M : Matrix (Fin v) (Fin v) ℝ := Matrix.of fun i j => l.get i j with hM
        have hdet : M.det ≠ 0 := by
          have ht : M.IsLowerTriangular := fun (i j : Fin v) hij => h0 i j hij j.2
          rw [Matrix.det_of_isLowerTriangular M ht]
          exact Finset.prod_ne_zero_iff.mpr fun i _ => (hd i i.2).ne'
        have e : (M * M.transpose).mulVec x = 0 := by
          funext i
          rw [Pi.zero_apply, ← hx i]
          simp only [Matrix.mulVec, dotProduct, Matrix.mul_apply, Matrix.transpose_apply, hM, Matrix.of_apply, corOf]
          exact Finset.sum_congr rfl fun j _ => by rw [Finset.sum_range]
        refine Matrix.eq_zero_of_mulVec_eq_zero ?_ e
        rw [Matrix.det_mul, Matrix.det_transpose]
        exact mul_ne_zero hdet hdet
    · simp only [hsq, if_false] at h
      cases h

theorem bm_affine {s : Nat} {x : Nat → ℝ} {a : Arr} (h : bmSample p x0 dt s n x = .ok a) :
    Affine p.L (fun j => bentry p.drift j * dt) (fun j => bentry p.vol j * Real.sqrt dt) n p.drift.length x (inc a) := by
  intro q hq j hj
  funext t
  have := (bm_increments h).2.2 t q j hq hj
  unfold path at this
  unfold inc
  linarith

theorem gbm_affine {s : Nat} {x : Nat → ℝ} {a : Arr} (hx : ∀ x ∈ x0, 0 < x) (h : gbmSample p x0 dt s n x = .ok a) :
    Affine p.L (fun j => (bentry p.drift j - bentry p.vol j ^ 2 / 2) * dt) (fun j => bentry p.vol j * Real.sqrt dt) n
      p.drift.length x (logInc a) := by
  intro q hq j hj
  funext t
  have := (gbm_paths h hx).2.2.2 t q j hq hj
  unfold path at this
  unfold logInc
  linarith

theorem bmFit_of_sample {s : Nat} {x : Nat → ℝ} {a : Arr} (h : bmSample p x0 dt s n x = .ok a) :
    bmFit chol a dt = fitIncrements chol (incLists (p.drift.length * n) s (inc a)) dt := by
  obtain ⟨⟨hr, hcol⟩, -⟩ := bm_increments h
  rw [bmFit_eq hr, hcol]

theorem gbmFit_of_sample {s : Nat} {x : Nat → ℝ} {a : Arr} (hx : ∀ x ∈ x0, 0 < x) (h : gbmSample p x0 dt s n x = .ok a) :
    gbmFit chol a dt = fitIncrements chol (incLists (p.drift.length * n) s (logInc a)) dt := by
  obtain ⟨⟨hr, hcol⟩, -, hp, -⟩ := gbm_paths h hx
  rw [gbmFit_eq hr (fun t _ c _ => hp t c), hcol]

/-- C80. Calibration of Brownian motion is strongly consistent: on longer and longer samples it almost surely succeeds from
some length on, and the estimates converge to the drift, to the volatility (times the square root of the diagonal of the
correlation), and to the correlations within a path; columns of different paths are estimated to be uncorrelated. -/
theorem bm_fit_consistent (hc : CholTotal chol) (hz : Draws P z) (hdt : 0 < dt) (hL : Nonsingular p.L p.drift.length)
    (hvol : ∀ j < p.drift.length, bentry p.vol j ≠ 0) {a : Nat → Ω → Arr}
    (h : ∀ (s : Nat) ω, bmSample p x0 dt s n (z ω) = .ok (a s ω)) (q q' : Fin n) (i j : Fin p.drift.length) :
    ∀ᵐ ω ∂P, FitTendsto (fun s => bmFit chol (a s ω) dt) (driftAt (q * p.drift.length + i)) (bentry p.drift i) ∧
      FitTendsto (fun s => bmFit chol (a s ω) dt) (volAt (q * p.drift.length + i))
        (|bentry p.vol i| * Real.sqrt (corOf p.L p.drift.length i i)) ∧
      (1 < p.drift.length * n → 0 < bentry p.vol i → 0 < bentry p.vol j →
        corOf p.L p.drift.length i i = 1 → corOf p.L p.drift.length j j = 1 →
        FitTendsto (fun s => bmFit chol (a s ω) dt) (corAt (q * p.drift.length + i) (q' * p.drift.length + j))
          (if q = q' then corOf p.L p.drift.length i j else 0)) := by
  have := fit_limits (n := n) hc hz hL hvol hdt (f := fun ω s => inc (a s ω)) (fun ω s => bm_affine (h s ω)) (q, i) (q', j)
  filter_upwards [this] with ω ⟨h1, h2, h3⟩
  simp only [bmFit_of_sample (h _ ω)]
  refine ⟨h1, h2, fun hk s1 s2 c1 c2 => ?_⟩
  have := h3 hk s1 s2 (by rw [c1]; norm_num) (by rw [c2]; norm_num)
  simpa only [c1, c2, Real.sqrt_one, mul_one, div_one] using this

/-- C80 (defect). Calibration of geometric Brownian motion is not consistent for the drift: it converges to
`drift - vol² / 2`, so to the wrong value for every volatility but zero. Volatilities and correlations are consistent. -/
theorem gbm_fit_inconsistent (hc : CholTotal chol) (hz : Draws P z) (hdt : 0 < dt) (hx : ∀ x ∈ x0, 0 < x)
    (hL : Nonsingular p.L p.drift.length) (hvol : ∀ j < p.drift.length, bentry p.vol j ≠ 0) {a : Nat → Ω → Arr}
    (h : ∀ (s : Nat) ω, gbmSample p x0 dt s n (z ω) = .ok (a s ω)) (q q' : Fin n) (i j : Fin p.drift.length) :
    bentry p.drift i - bentry p.vol i ^ 2 / 2 < bentry p.drift i ∧
    ∀ᵐ ω ∂P, FitTendsto (fun s => gbmFit chol (a s ω) dt) (driftAt (q * p.drift.length + i))
        (bentry p.drift i - bentry p.vol i ^ 2 / 2) ∧
      FitTendsto (fun s => gbmFit chol (a s ω) dt) (volAt (q * p.drift.length + i))
        (|bentry p.vol i| * Real.sqrt (corOf p.L p.drift.length i i)) ∧
      (1 < p.drift.length * n → 0 < bentry p.vol i → 0 < bentry p.vol j →
        corOf p.L p.drift.length i i = 1 → corOf p.L p.drift.length j j = 1 →
        FitTendsto (fun s => gbmFit chol (a s ω) dt) (corAt (q * p.drift.length + i) (q' * p.drift.length + j))
          (if q = q' then corOf p.L p.drift.length i j else 0)) := by
  refine ⟨by have := sq_pos_of_ne_zero (hvol i i.2); linarith, ?_⟩
  have := fit_limits (n := n) hc hz hL hvol hdt (f := fun ω s => logInc (a s ω)) (fun ω s => gbm_affine hx (h s ω)) (q, i) (q', j)
  filter_upwards [this] with ω ⟨h1, h2, h3⟩
  simp only [gbmFit_of_sample hx (h _ ω)]
  refine ⟨h1, h2, fun hk s1 s2 c1 c2 => ?_⟩
  have := h3 hk s1 s2 (by rw [c1]; norm_num) (by rw [c2]; norm_num)
  simpa only [c1, c2, Real.sqrt_one, mul_one, div_one] using this

/-- C80. The round trip in terms of the constructor: simulating with volatilities and a correlation matrix with unit diagonal and
calibrating on longer and longer samples recovers what was given to the constructor. -/
theorem bm_round_trip (hc : CholTotal chol) (hf : CholFactor chol) {drift vol : SimData} {cor : Option Arr}
    (hp : bmInit chol drift vol cor = .ok p) (hz : Draws P z) (hdt : 0 < dt) (hvol : ∀ j < p.drift.length, 0 < bentry p.vol j)
    (hcor : ∀ j < p.drift.length, corEntry cor j j = 1) {a : Nat → Ω → Arr}
    (h : ∀ (s : Nat) ω, bmSample p x0 dt s n (z ω) = .ok (a s ω)) (q q' : Fin n) (i j : Fin p.drift.length) :
    drift.toRow = .ok p.drift ∧ vol.toRow = .ok p.vol ∧
    ∀ᵐ ω ∂P, FitTendsto (fun s => bmFit chol (a s ω) dt) (driftAt (q * p.drift.length + i)) (bentry p.drift i) ∧
      FitTendsto (fun s => bmFit chol (a s ω) dt) (volAt (q * p.drift.length + i)) (bentry p.vol i) ∧
      (1 < p.drift.length * n → FitTendsto (fun s => bmFit chol (a s ω) dt)
        (corAt (q * p.drift.length + i) (q' * p.drift.length + j)) (if q = q' then corEntry cor i j else 0)) := by
  obtain ⟨d, hd, hp⟩ := bind_ok hp
  obtain ⟨w, hw, hp⟩ := bind_ok hp
  obtain ⟨L, hL, hp⟩ := bind_ok hp
  cases hp
  refine ⟨hd, hw, ?_⟩
  have hP : IsProbabilityMeasure P := (StdNormal.prob hz)
  obtain ⟨ω⟩ : Nonempty Ω := nonempty_of_isProbabilityMeasure P
  obtain ⟨-, -, -, -, hsh, -⟩ := (bm_succeeds_iff 0 n).mp ⟨_, h 0 ω⟩
  have e : ∀ i j : Fin d.length, corOf L d.length i j = corEntry cor i j := fun i j => initL_cor hf hL hsh i.2 j.2
  filter_upwards [bm_fit_consistent hc hz hdt (nonsingular_of_init hf hL hsh) (fun j hj => (hvol j hj).ne') h q q' i j]
    with ω ⟨h1, h2, h3⟩
  refine ⟨h1, ?_, fun hk => ?_⟩
  · simp only [e, hcor i i.2, Real.sqrt_one, mul_one, abs_of_pos (hvol i i.2)] at h2
    exact h2
  · simp only [e] at h3
    exact h3 hk (hvol i i.2) (hvol j j.2) (hcor i i.2) (hcor j j.2)

/-- The estimates on a sample of a given length. -/
theorem estimates_law (hz : Draws P z) {L : Option Arr} {v s : Nat} (hs : 2 ≤ s) (hdt : 0 < dt) (μ σ : ℝ) (q : Fin n) (j : Fin v) :
    HasLaw (fun ω => μ + σ / Real.sqrt dt * mean s (fun t => shock L v (z ω) (t * n + q) j))
      (gaussianReal μ (corOf L v j j * σ ^ 2 / (s * dt)).toNNReal) P ∧
    ∫ ω, (|σ| * Real.sqrt (scov s 1 (fun t => shock L v (z ω) (t * n + q) j) (fun t => shock L v (z ω) (t * n + q) j))) ^ 2 ∂P =
      σ ^ 2 * corOf L v j j := by
  have hs0 : (s : ℝ) ≠ 0 := by positivity
  constructor
  · obtain ⟨h1, h2, h3⟩ := driven hz L (T := Unit) (fun _ => q) (fun _ => j) (fun _ => s) (fun _ => μ)
      (fun _ _ => σ / Real.sqrt dt / s)
      (Y := fun _ ω => μ + σ / Real.sqrt dt * mean s (fun t => shock L v (z ω) (t * n + q) j)) fun _ ω => by
        rw [← Finset.mul_sum]
        unfold mean
        ring
    have hg := h1.hasGaussianLaw_eval ()
    have hv := h3 () ()
    rw [covariance_self (h1.aemeasurable ())] at hv
    refine ⟨hg.aemeasurable, ?_⟩
    rw [hg.map_eq_gaussianReal, hv, h2 (), if_pos rfl]
    congr 2
    simp only [min_self, Finset.sum_const, Finset.card_range, nsmul_eq_mul]
    have e : σ / Real.sqrt dt / s * (σ / Real.sqrt dt / s) = σ ^ 2 / (dt * s ^ 2) := by
      rw [← sq, div_pow, div_pow, Real.sq_sqrt hdt.le]
      field_simp
    rw [e]
    field_simp
  · have := shocks_unbiased hz L (q, j) (q, j) hs
    rw [if_pos rfl] at this
    rw [← this, ← integral_const_mul]
    refine integral_congr_ae (Filter.Eventually.of_forall fun ω => ?_)
    simp only [mul_pow, sq_abs, Real.sq_sqrt (scov_self_nonneg hs _)]

/-- C80. On a Brownian sample of any length the estimated drift is normal around the drift with variance
`vol² / (s dt)`: it improves with the observed time only, not with the number of observations. The squared volatility estimate
has the right expectation. -/
theorem bm_fit_unbiased (hz : Draws P z) (hdt : 0 < dt) {s : Nat} (hs : 2 ≤ s) {a : Ω → Arr}
    (h : ∀ ω, bmSample p x0 dt s n (z ω) = .ok (a ω)) (q : Fin n) (j : Fin p.drift.length) :
    ∃ d w : Ω → ℝ, (∀ ω r, bmFit chol (a ω) dt = .ok r → driftAt (q * p.drift.length + j) r = some (d ω) ∧
        volAt (q * p.drift.length + j) r = some (w ω)) ∧
      HasLaw d (gaussianReal (bentry p.drift j) (corOf p.L p.drift.length j j * bentry p.vol j ^ 2 / (s * dt)).toNNReal) P ∧
      ∫ ω, w ω ^ 2 ∂P = bentry p.vol j ^ 2 * corOf p.L p.drift.length j j := by
  refine ⟨_, _, fun ω r hr => ?_, estimates_law hz hs hdt _ _ q j⟩
  have := bm_fit_of_sample hs hdt (h ω) hr q.2 j.2
  exact ⟨by rw [driftAt, this.1]; rfl, by rw [volAt, this.2]; rfl⟩

/-- C80 (defect). On a geometric sample of any length the estimated drift is centred at `drift - vol² / 2`. -/
theorem gbm_fit_expected (hz : Draws P z) (hdt : 0 < dt) (hx : ∀ x ∈ x0, 0 < x) {s : Nat} (hs : 2 ≤ s) {a : Ω → Arr}
    (h : ∀ ω, gbmSample p x0 dt s n (z ω) = .ok (a ω)) (q : Fin n) (j : Fin p.drift.length) :
    ∃ d w : Ω → ℝ, (∀ ω r, gbmFit chol (a ω) dt = .ok r → driftAt (q * p.drift.length + j) r = some (d ω) ∧
        volAt (q * p.drift.length + j) r = some (w ω)) ∧
      HasLaw d (gaussianReal (bentry p.drift j - bentry p.vol j ^ 2 / 2)
        (corOf p.L p.drift.length j j * bentry p.vol j ^ 2 / (s * dt)).toNNReal) P ∧
      ∫ ω, w ω ^ 2 ∂P = bentry p.vol j ^ 2 * corOf p.L p.drift.length j j := by
  refine ⟨_, _, fun ω r hr => ?_, estimates_law hz hs hdt _ _ q j⟩
  have := gbm_fit_of_sample hs hdt hx (h ω) hr q.2 j.2
  exact ⟨by rw [driftAt, this.1]; rfl, by rw [volAt, this.2]; rfl⟩

/-- The hypotheses can be met: three paths of two correlated variates. -/
example : ∃ (Ω : Type) (_ : MeasurableSpace Ω) (P : Measure Ω) (z : Ω → Nat → ℝ) (a : Nat → Ω → Arr) (chol : Arr → Option Arr)
    (p : BMParams), Draws P z ∧ CholTotal chol ∧ CholFactor chol ∧
      bmInit chol (.list [1, -2]) (.float 3) (some (Arr.ofList 2 2 [1, 3 / 5, 3 / 5, 1])) = .ok p ∧
      (∀ (s : Nat) ω, bmSample p [10, 20] (1 / 4) s 3 (z ω) = .ok (a s ω)) ∧ p.drift = [1, -2] ∧ p.vol = [3] := by
  obtain ⟨Ω, m, P, z, hz, -⟩ := draws_exist
  obtain ⟨chol, h1, h2⟩ := chol_exists
  have hne : chol (Arr.ofList 2 2 [1, 3 / 5, 3 / 5, 1]) ≠ none := by
    refine (h1 _ rfl ?_).mpr ?_
    · intro i hi j hj
      change i < 2 at hi
      change j < 2 at hj
      interval_cases i <;> interval_cases j <;> norm_num [Arr.ofList, Arr.get]
    · rintro c ⟨j, hj, hc⟩
      change j < 2 at hj
      have e : ∑ i ∈ Finset.range 2, ∑ j ∈ Finset.range 2, c i * c j * (Arr.ofList 2 2 [1, 3 / 5, 3 / 5, 1]).get i j =
          (c 0 + 3 / 5 * c 1) ^ 2 + (4 / 5 * c 1) ^ 2 := by
        norm_num [Finset.sum_range_succ, Arr.ofList, Arr.get]
        ring
      refine lt_of_lt_of_eq ?_ e.symm
      by_cases h0 : c 1 = 0
      · have : c 0 ≠ 0 := by
          interval_cases j
          · exact hc
          · exact absurd h0 hc
        rw [h0]
        simp only [mul_zero, add_zero]
        positivity
      · positivity
  obtain ⟨L, hL⟩ := Option.ne_none_iff_exists'.mp hne
  obtain ⟨l1, l2, -⟩ := h2 _ _ rfl hL
  have h : ∀ (s : Nat) ω, ∃ a, bmSample ⟨[1, -2], [3], some L⟩ [10, 20] (1 / 4) s 3 (z ω) = .ok a := fun s ω => by
    refine (bm_succeeds_iff s 3).mpr ⟨by simp, by norm_num, by simp, by simp, ?_, by simp, by simp⟩
    intro l hl
    cases hl
    exact ⟨l1, l2⟩
  choose a ha using h
  refine ⟨Ω, m, P, z, a, chol, _, hz, h1, h2, ?_, ha, rfl, rfl⟩
  have hsq : (Arr.ofList 2 2 [1, 3 / 5, 3 / 5, 1]).rows = (Arr.ofList 2 2 [1, 3 / 5, 3 / 5, 1]).cols := rfl
  simp only [bmInit, initL, hsq, if_true, hL]
  rfl

end Verif.Sim
