import Verif.Lemmas.PolyNull
import Verif.Props.SimLawFit

/-!
# C88: when calibration on simulated data succeeds
-/

namespace Verif.Sim

open MeasureTheory ProbabilityTheory

variable {Ω : Type*} [MeasurableSpace Ω] {P : Measure Ω} {z : Ω → Nat → ℝ} {n v : Nat} {chol : Arr → Option Arr}

/-- The factor with which draw `m` enters the shock of variate `j`. -/
def loading (L : Option Arr) (j m : Nat) : ℝ := match L with
  | none => if j = m then 1 else 0
  | some L => L.get j m

theorem shock_loading (L : Option Arr) {v j : Nat} (hj : j < v) (x : Nat → ℝ) (r : Nat) :
    shock L v x r j = ∑ m : Fin v, loading L j m * x (r * v + m) := by
  cases L with
  | none =>
    unfold shock loading
    rw [Finset.sum_eq_single (⟨j, hj⟩ : Fin v)]
    · simp
    · intro b _ hb
      rw [if_neg (fun e => hb (Fin.ext e.symm)), zero_mul]
    · simp
  | some L =>
    unfold shock loading
    exact Finset.sum_range fun m => L.get j m * x (r * v + m)

theorem corOf_loading (L : Option Arr) {v i : Nat} (hi : i < v) (j : Nat) : corOf L v i j = ∑ m : Fin v, loading L i m * loading L j m := by
  cases L with
  | none =>
    unfold corOf loading
    rw [Finset.sum_eq_single (⟨i, hi⟩ : Fin v)]
    · simp [eq_comm]
    · intro b _ hb
      rw [if_neg (fun e => hb (Fin.ext e.symm)), zero_mul]
    · simp
  | some L =>
    unfold corOf loading
    exact Finset.sum_range fun m => L.get i m * L.get j m

/-- No row of the loadings of a nonsingular factor combination vanishes. -/
theorem loading_injective {L : Option Arr} (hL : Nonsingular L v) {x : Fin v → ℝ}
    (h : ∀ m : Fin v, ∑ j : Fin v, x j * loading L j m = 0) : x = 0 := by
  refine hL x fun i => ?_
  have e : ∀ j : Fin v, corOf L v i j * x j = ∑ m : Fin v, loading L i m * (x j * loading L j m) := fun j => by
    rw [corOf_loading L i.2, Finset.sum_mul]
    exact Finset.sum_congr rfl fun m _ => by ring
  rw [Finset.sum_congr rfl fun j _ => e j, Finset.sum_comm]
  exact Finset.sum_eq_zero fun m _ => by rw [← Finset.mul_sum, h m, mul_zero]

/-- With more rows than columns, the differences of independent normal rows to the first one are almost surely linearly
independent. -/
theorem draws_independent (hz : Draws P z) (K : Nat) :
    ∀ᵐ ω ∂P, (Matrix.of fun t c : Fin K => z ω ((t + 1) * K + c) - z ω c).det ≠ 0 := by
  have := nullSingletonClass_gaussianReal (μ := 0) (v := 1) one_ne_zero
  let e : Fin (K + 1) × Fin K → Nat := fun a => a.1 * K + a.2
  have he : Function.Injective e := by
    rintro ⟨t, c⟩ ⟨t', c'⟩ h
    have h1 : (t : Nat) * K + c = t' * K + c' := h
    have hK : 0 < K := Fin.pos c
    have ht : (t : Nat) = t' := by
      have := congrArg (· / K) h1
      simpa [mul_comm _ K, Nat.mul_add_div hK, Nat.div_eq_of_lt c.2, Nat.div_eq_of_lt c'.2] using this
    rw [ht] at h1
    exact Prod.ext (Fin.ext ht) (Fin.ext (Nat.add_left_cancel h1))
  have hs : StdNormal P fun a ω => z ω (e a) := StdNormal.comp hz he
  let M : Matrix (Fin K) (Fin K) (MvPolynomial (Fin (K + 1) × Fin K) ℝ) := Matrix.of fun t c => MvPolynomial.X (t.succ, c) - MvPolynomial.X (0, c)
  have hev : ∀ y : Fin (K + 1) × Fin K → ℝ, MvPolynomial.eval y M.det = (Matrix.of fun t c : Fin K => y (t.succ, c) - y (0, c)).det := by
    intro y
    rw [RingHom.map_det]
    congr 1
    ext t c
    show MvPolynomial.eval y (MvPolynomial.X (t.succ, c) - MvPolynomial.X (0, c)) = y (t.succ, c) - y (0, c)
    rw [map_sub, MvPolynomial.eval_X, MvPolynomial.eval_X]
  have hae := Stat.indep_ae_ne (fun a => hs.law a) hs.indep M.det (y := fun a => if a.1 = a.2.succ then 1 else 0) (by
    rw [hev]
    have : (Matrix.of fun t c : Fin K => (if t.succ = c.succ then (1 : ℝ) else 0) - if (0 : Fin (K + 1)) = c.succ then 1 else 0) = 1 := by
      ext t c
      rw [Matrix.of_apply, if_neg (Fin.succ_ne_zero c).symm, sub_zero, Matrix.one_apply]
      simp [Fin.succ_inj]
    rw [this, Matrix.det_one]
    exact one_ne_zero)
  filter_upwards [hae] with ω hω
  rw [hev] at hω
  simpa [e] using hω

/-- The increments of a sample with more steps than columns are almost surely not collinear. -/
theorem notCollinear_sure (hz : Draws P z) {L : Option Arr} (hL : Nonsingular L v) {s : Nat} (hs : v * n < s) :
    ∀ᵐ ω ∂P, ∀ (m b : Nat → ℝ) (f : Nat → Nat → ℝ), (∀ j < v, b j ≠ 0) → Affine L m b n v (z ω) f → NotCollinear (v * n) s f := by
  filter_upwards [draws_independent hz (v * n)] with ω hω m b f hb hf c hc
  let D : Nat → ℝ := fun k => ∑ j : Fin v, c (k / v * v + j) * b j * loading L j (k % v)
  have key : ∀ t, ∑ k ∈ Finset.range (v * n), c k * f k t = ∑ y : Fin n × Fin v, c (y.1 * v + y.2) * m y.2 +
      ∑ k ∈ Finset.range (v * n), D k * z ω (t * (v * n) + k) := by
    intro t
    rw [sum_cols, sum_cols, Fintype.sum_prod_type, Fintype.sum_prod_type, Fintype.sum_prod_type, ← Finset.sum_add_distrib]
    refine Finset.sum_congr rfl fun q _ => ?_
    have e1 : ∀ j : Fin v, c (q * v + j) * f (q * v + j) t = c (q * v + j) * m j +
        ∑ k : Fin v, c (q * v + j) * b j * loading L j k * z ω (t * (v * n) + (q * v + k)) := fun j => by
      rw [hf q q.2 j j.2]
      show c (q * v + j) * (m j + b j * shock L v (z ω) (t * n + q) j) = _
      rw [shock_loading L j.2, mul_add, ← mul_assoc, Finset.mul_sum]
      congr 1
      refine Finset.sum_congr rfl fun k _ => ?_
      rw [show (t * n + (q : Nat)) * v + k = t * (v * n) + (q * v + k) by ring]
      ring
    rw [Finset.sum_congr rfl fun j _ => e1 j, Finset.sum_add_distrib, Finset.sum_comm (s := Finset.univ) (t := Finset.univ)]
    congr 1
    refine Finset.sum_congr rfl fun k _ => ?_
    have hv : 0 < v := Fin.pos k
    have h1 : ((q : Nat) * v + k) / v = q := by rw [mul_comm, Nat.mul_add_div hv, Nat.div_eq_of_lt k.2, add_zero]
    have h2 : ((q : Nat) * v + k) % v = k := by rw [mul_comm, Nat.mul_add_mod, Nat.mod_eq_of_lt k.2]
    show _ = (∑ j : Fin v, c (((q : Nat) * v + k) / v * v + j) * b j * loading L j (((q : Nat) * v + k) % v)) * _
    rw [h1, h2, Finset.sum_mul]
  have h0 : (fun k : Fin (v * n) => D k) = 0 := by
    refine Matrix.eq_zero_of_mulVec_eq_zero hω (funext fun t => ?_)
    have h1 := hc (t + 1) (by have := t.2; omega) 0 (by omega)
    simp only [key] at h1
    have h2 : ∑ k ∈ Finset.range (v * n), (z ω ((t + 1) * (v * n) + k) - z ω k) * D k = 0 := by
      have h3 := add_left_cancel h1
      simp only [zero_mul, zero_add] at h3
      rw [← sub_eq_zero, ← Finset.sum_sub_distrib] at h3
      rw [← h3]
      exact Finset.sum_congr rfl fun k _ => by ring
    rw [Finset.sum_range] at h2
    exact h2
  intro k hk
  have hvpos : 0 < v := Nat.pos_of_mul_pos_right (lt_of_le_of_lt (Nat.zero_le _) hk)
  have hj : k % v < v := Nat.mod_lt _ hvpos
  have hq : k / v < n := Nat.div_lt_of_lt_mul hk
  have h1 := loading_injective hL (x := fun j => c (k / v * v + j) * b j) fun m => by
    have hlt : k / v * v + m < v * n := by
      have : k / v * v + v ≤ n * v := by rw [← Nat.succ_mul]; exact Nat.mul_le_mul_right v hq
      have := m.2
      rw [mul_comm v n]
      omega
    have h2 := congrFun h0 ⟨k / v * v + m, hlt⟩
    have h3 : (k / v * v + (m : Nat)) / v = k / v := by rw [mul_comm, Nat.mul_add_div hvpos, Nat.div_eq_of_lt m.2, add_zero]
    have h4 : (k / v * v + (m : Nat)) % v = m := by rw [mul_comm, Nat.mul_add_mod, Nat.mod_eq_of_lt m.2]
    have h5 : D (k / v * v + m) = ∑ j : Fin v, c (k / v * v + j) * b j * loading L j m := by
      show (∑ j : Fin v, c ((k / v * v + (m : Nat)) / v * v + j) * b j * loading L j ((k / v * v + (m : Nat)) % v)) = _
      rw [h3, h4]
    rw [← h5]
    exact h2
  have h2 := congrFun h1 ⟨k % v, hj⟩
  simp only [Nat.div_add_mod', Pi.zero_apply] at h2
  exact (mul_eq_zero.mp h2).resolve_right (hb _ hj)

/-- Not more steps than columns: the increments are collinear, whatever they are. -/
theorem collinear_of_few {k s : Nat} (hk : 0 < k) (hs : s ≤ k) (f : Nat → Nat → ℝ) : ¬ NotCollinear k s f := by
  intro h
  let A : Matrix (Fin (s - 1)) (Fin k) ℝ := fun t j => f j (t + 1) - f j 0
  have hlt : Module.finrank ℝ (Fin (s - 1) → ℝ) < Module.finrank ℝ (Fin k → ℝ) := by
    rw [Module.finrank_fin_fun, Module.finrank_fin_fun]
    omega
  obtain ⟨x, hx, hne⟩ := (Submodule.ne_bot_iff _).mp (LinearMap.ker_ne_bot_of_finrank_lt (f := A.mulVecLin) hlt)
  rw [LinearMap.mem_ker, Matrix.mulVecLin_apply] at hx
  refine hne (funext fun j => ?_)
  have hbase : ∀ t < s, ∑ j ∈ Finset.range k, (if h : j < k then x ⟨j, h⟩ else 0) * f j t =
      ∑ j ∈ Finset.range k, (if h : j < k then x ⟨j, h⟩ else 0) * f j 0 := by
    intro t ht
    rcases Nat.eq_zero_or_pos t with e | e
    · rw [e]
    · have h1 := congrFun hx ⟨t - 1, by omega⟩
      simp only [Matrix.mulVec, dotProduct, A, Pi.zero_apply] at h1
      rw [Nat.sub_add_cancel e] at h1
      rw [← sub_eq_zero, ← Finset.sum_sub_distrib, Finset.sum_range, ← h1]
      refine Finset.sum_congr rfl fun j _ => ?_
      rw [dif_pos j.2]
      ring
  have := h (fun j => if h : j < k then x ⟨j, h⟩ else 0) (fun i hi i' hi' => (hbase i hi).trans (hbase i' hi').symm) j j.2
  rwa [dif_pos j.2] at this

/-- No column of increments is constant. -/
theorem not_constant_sure (hz : Draws P z) {L : Option Arr} (hL : Nonsingular L v) {s : Nat} (hs : 2 ≤ s) :
    ∀ᵐ ω ∂P, ∀ (m b : Nat → ℝ) (f : Nat → Nat → ℝ), (∀ j < v, b j ≠ 0) → Affine L m b n v (z ω) f →
      ∀ k < v * n, ¬ Constant s (f k) := by
  have hP : IsProbabilityMeasure P := StdNormal.prob hz
  have := nullSingletonClass_gaussianReal (μ := 0) (v := 1) one_ne_zero
  have key : ∀ (q : Fin n) (j : Fin v), ∀ᵐ ω ∂P, shock L v (z ω) (1 * n + q) j - shock L v (z ω) (0 * n + q) j ≠ 0 := by
    intro q j
    obtain ⟨m0, hm0⟩ : ∃ m : Fin v, loading L j m ≠ 0 := by
      by_contra hcon
      push Not at hcon
      have := loading_injective hL (x := fun i => if i = j then 1 else 0) fun m => by
        simp [hcon m]
      have := congrFun this j
      simp at this
    let e : Fin 2 × Fin v → Nat := fun a => (a.1 * n + q) * v + a.2
    have hn : 0 < n := Fin.pos q
    have he : Function.Injective e := by
      rintro ⟨t, c⟩ ⟨t', c'⟩ h
      have h1 : ((t : Nat) * n + q) * v + c = ((t' : Nat) * n + q) * v + c' := h
      have hv : 0 < v := Fin.pos c
      have h2 : (t : Nat) * n + q = t' * n + q := by
        have := congrArg (· / v) h1
        simpa [mul_comm _ v, Nat.mul_add_div hv, Nat.div_eq_of_lt c.2, Nat.div_eq_of_lt c'.2] using this
      have h3 : (t : Nat) = t' := Nat.eq_of_mul_eq_mul_right hn (Nat.add_right_cancel h2)
      rw [h2] at h1
      exact Prod.ext (Fin.ext h3) (Fin.ext (Nat.add_left_cancel h1))
    have hsn : StdNormal P fun a ω => z ω (e a) := StdNormal.comp hz he
    have hae := Stat.indep_ae_ne (fun a => hsn.law a) hsn.indep
      (∑ m : Fin v, MvPolynomial.C (loading L j m) * (MvPolynomial.X (1, m) - MvPolynomial.X (0, m)) : MvPolynomial (Fin 2 × Fin v) ℝ)
      (y := fun a => if a = (1, m0) then 1 else 0) (by
        rw [map_sum, Finset.sum_eq_single m0]
        · simpa using hm0
        · intro b _ hb
          simp [hb]
        · simp)
    filter_upwards [hae] with ω hω
    rw [shock_loading L j.2, shock_loading L j.2, ← Finset.sum_sub_distrib]
    simp only [map_sum, map_mul, map_sub, MvPolynomial.eval_C, MvPolynomial.eval_X] at hω
    intro h0
    refine hω (Eq.trans (Finset.sum_congr rfl fun m _ => ?_) h0)
    simp only [e]
    norm_num
    ring
  filter_upwards [ae_all_iff.mpr fun q => ae_all_iff.mpr fun j => key q j] with ω hω m b f hb hf k hk hc
  have hvpos : 0 < v := Nat.pos_of_mul_pos_right (lt_of_le_of_lt (Nat.zero_le _) hk)
  have hj : k % v < v := Nat.mod_lt _ hvpos
  have hq : k / v < n := Nat.div_lt_of_lt_mul hk
  have h1 := hf _ hq _ hj
  rw [Nat.div_add_mod'] at h1
  have h2 := hc 1 (by omega) 0 (by omega)
  rw [h1] at h2
  have h3 : b (k % v) * (shock L v (z ω) (1 * n + k / v) (k % v) - shock L v (z ω) (0 * n + k / v) (k % v)) = 0 := by linarith
  exact (mul_eq_zero.mp h3).elim (hb _ hj) (hω ⟨k / v, hq⟩ ⟨k % v, hj⟩)

/-- The outcome of calibration on `K` columns of increments. -/
theorem fit_sure (hc : CholTotal chol) (hz : Draws P z) {L : Option Arr} (hL : Nonsingular L v) (s : Nat) {dt : ℝ} (hdt : 0 < dt)
    {m b : Nat → ℝ} (hb : ∀ j < v, b j ≠ 0) {f : Ω → Nat → Nat → ℝ} (hf : ∀ ω, Affine L m b n v (z ω) (f ω)) :
    ∀ᵐ ω ∂P, (v * n ≤ 1 ∨ v * n < s → ∃ r, fitIncrements chol (incLists (v * n) s (f ω)) dt = .ok r) ∧
      (1 < v * n → s ≤ v * n → fitIncrements chol (incLists (v * n) s (f ω)) dt = .error .linAlgError) := by
  have h1 : ∀ᵐ ω ∂P, v * n < s → NotCollinear (v * n) s (f ω) := by
    by_cases hs : v * n < s
    · filter_upwards [notCollinear_sure (n := n) hz hL hs] with ω hω _
      exact hω m b _ hb (hf ω)
    · exact ae_of_all _ fun _ h => absurd h hs
  have h2 : ∀ᵐ ω ∂P, 2 ≤ s → ∀ k < v * n, ¬ Constant s (f ω k) := by
    by_cases hs : 2 ≤ s
    · filter_upwards [not_constant_sure (n := n) hz hL hs] with ω hω _
      exact hω m b _ hb (hf ω)
    · exact ae_of_all _ fun _ h => absurd h hs
  filter_upwards [h1, h2] with ω h1 h2
  obtain ⟨o1, o2, o3, o4⟩ := fit_outcome (chol := chol) (v := v * n) (n := s) (f := f ω) hdt
  constructor
  · intro hk
    by_cases hk1 : v * n ≤ 1
    · exact o1 hk1
    · exact fit_succeeds hc hdt (by omega) (h1 (by omega))
  · intro hk hs
    by_cases hs2 : s < 2
    · exact o2 hk (by omega)
    have hne := h2 (by omega)
    have hlen : (corrcoef (incLists (v * n) s (f ω))).rows = v * n := by simp [corrcoef, incLists]
    have hlen' : (corrcoef (incLists (v * n) s (f ω))).cols = v * n := by simp [corrcoef, incLists]
    have hcc := hc (corrcoef (incLists (v * n) s (f ω))) (by rw [hlen, hlen']) (by
      rw [hlen]
      intro i hi j hj
      rw [corrcoef_incLists (by omega) _ hi hj, corrcoef_incLists (by omega) _ hj hi, scov_comm, mul_comm (Real.sqrt _)])
    rw [hlen, ← notCollinear_iff (by omega) hne] at hcc
    refine (o4 hk (by omega) hne).1 ?_
    by_contra hcon
    exact collinear_of_few (by omega) hs _ (hcc.mp hcon)

variable {p : BMParams} {x0 : List ℝ} {dt : ℝ}

/-- A sample with parameters that the constructor accepted has nonsingular correlations. -/
theorem nonsingular_of_sample (hc : CholFactor chol) {drift vol : SimData} {cor : Option Arr} (hp : bmInit chol drift vol cor = .ok p)
    (hL : ∀ l ∈ p.L, l.rows = p.drift.length ∧ l.cols = p.drift.length) : Nonsingular p.L p.drift.length := by
  obtain ⟨d, hd, hp⟩ := bind_ok hp
  obtain ⟨w, hw, hp⟩ := bind_ok hp
  obtain ⟨L, hL', hp⟩ := bind_ok hp
  cases hp
  exact nonsingular_of_init hc hL' hL

/-- C88. Calibrating Brownian motion on a sample of its own, of any length: with probability one it succeeds exactly if there is at
most one column or there are more steps than columns, and otherwise it raises `LinAlgError`. -/
theorem bm_fit_sure (hc : CholTotal chol) (hf : CholFactor chol) {drift vol : SimData} {cor : Option Arr}
    (hp : bmInit chol drift vol cor = .ok p) (hz : Draws P z) (hdt : 0 < dt) (hvol : ∀ j < p.drift.length, bentry p.vol j ≠ 0) {s : Nat}
    {a : Ω → Arr} (h : ∀ ω, bmSample p x0 dt s n (z ω) = .ok (a ω)) :
    ∀ᵐ ω ∂P, ((∃ r, bmFit chol (a ω) dt = .ok r) ↔ p.drift.length * n ≤ 1 ∨ p.drift.length * n < s) ∧
      (1 < p.drift.length * n → s ≤ p.drift.length * n → bmFit chol (a ω) dt = .error .linAlgError) := by
  have hP : IsProbabilityMeasure P := StdNormal.prob hz
  obtain ⟨ω⟩ : Nonempty Ω := nonempty_of_isProbabilityMeasure P
  obtain ⟨-, -, -, -, hsh, -⟩ := (bm_succeeds_iff s n).mp ⟨_, h ω⟩
  have hb : ∀ j < p.drift.length, bentry p.vol j * Real.sqrt dt ≠ 0 := fun j hj => mul_ne_zero (hvol j hj) (Real.sqrt_pos.mpr hdt).ne'
  filter_upwards [fit_sure hc hz (nonsingular_of_sample hf hp hsh) s hdt hb fun ω => bm_affine (h ω)] with ω ⟨h1, h2⟩
  rw [bmFit_of_sample (h ω)]
  refine ⟨⟨fun ⟨r, hr⟩ => ?_, h1⟩, h2⟩
  by_contra hcon
  push Not at hcon
  rw [h2 hcon.1 hcon.2] at hr
  cases hr

/-- C88. The same for geometric Brownian motion from a positive start. -/
theorem gbm_fit_sure (hc : CholTotal chol) (hf : CholFactor chol) {drift vol : SimData} {cor : Option Arr}
    (hp : bmInit chol drift vol cor = .ok p) (hz : Draws P z) (hdt : 0 < dt) (hx : ∀ x ∈ x0, 0 < x)
    (hvol : ∀ j < p.drift.length, bentry p.vol j ≠ 0) {s : Nat} {a : Ω → Arr} (h : ∀ ω, gbmSample p x0 dt s n (z ω) = .ok (a ω)) :
    ∀ᵐ ω ∂P, ((∃ r, gbmFit chol (a ω) dt = .ok r) ↔ p.drift.length * n ≤ 1 ∨ p.drift.length * n < s) ∧
      (1 < p.drift.length * n → s ≤ p.drift.length * n → gbmFit chol (a ω) dt = .error .linAlgError) := by
  have hP : IsProbabilityMeasure P := StdNormal.prob hz
  obtain ⟨ω⟩ : Nonempty Ω := nonempty_of_isProbabilityMeasure P
  obtain ⟨-, -, -, -, hsh, -⟩ := (bm_succeeds_iff s n).mp ((gbm_succeeds_iff s n).mp ⟨_, h ω⟩)
  have hb : ∀ j < p.drift.length, bentry p.vol j * Real.sqrt dt ≠ 0 := fun j hj => mul_ne_zero (hvol j hj) (Real.sqrt_pos.mpr hdt).ne'
  filter_upwards [fit_sure hc hz (nonsingular_of_sample hf hp hsh) s hdt hb fun ω => gbm_affine hx (h ω)] with ω ⟨h1, h2⟩
  rw [gbmFit_of_sample hx (h ω)]
  refine ⟨⟨fun ⟨r, hr⟩ => ?_, h1⟩, h2⟩
  by_contra hcon
  push Not at hcon
  rw [h2 hcon.1 hcon.2] at hr
  cases hr

/-- C88. With more steps than columns, the calibrated model almost surely has positive volatilities in every column and can be simulated
from the same initial values, for any number of steps and paths and any draws, giving paths of all columns. -/
theorem bm_fit_resample (hc : CholTotal chol) (hf : CholFactor chol) (hch : CholShape chol) {drift vol : SimData} {cor : Option Arr}
    (hp : bmInit chol drift vol cor = .ok p) (hz : Draws P z) (hdt : 0 < dt) (hvol : ∀ j < p.drift.length, bentry p.vol j ≠ 0) {s : Nat}
    (hn : 0 < n) (hs : p.drift.length * n < s) (hs2 : 2 ≤ s) {a : Ω → Arr} (h : ∀ ω, bmSample p x0 dt s n (z ω) = .ok (a ω)) :
    ∀ᵐ ω ∂P, ∃ r d w, bmFit chol (a ω) dt = .ok r ∧ r.drift = d.map some ∧ r.vol = w.map some ∧
      w.length = p.drift.length * n ∧ (∀ x ∈ w, 0 < x) ∧
      ∀ (dt' : ℝ) (s' n' : Nat) (y : Nat → ℝ), ∃ b, bmSample ⟨d, w, r.L⟩ x0 dt' s' n' y = .ok b ∧
        IsPaths b s' (p.drift.length * n) n' := by
  have hP : IsProbabilityMeasure P := StdNormal.prob hz
  obtain ⟨ω⟩ : Nonempty Ω := nonempty_of_isProbabilityMeasure P
  obtain ⟨-, -, hpos, -, hsh, hx0, hdvd⟩ := (bm_succeeds_iff s n).mp ⟨_, h ω⟩
  have hb : ∀ j < p.drift.length, bentry p.vol j * Real.sqrt dt ≠ 0 := fun j hj => mul_ne_zero (hvol j hj) (Real.sqrt_pos.mpr hdt).ne'
  have hL := nonsingular_of_sample hf hp hsh
  filter_upwards [bm_fit_sure hc hf hp hz hdt hvol h, not_constant_sure (n := n) hz hL hs2] with ω hω h2
  have h1 := hω.1
  obtain ⟨r, hr⟩ := h1.mpr (Or.inr hs)
  obtain ⟨⟨hrow, hcol⟩, -⟩ := bm_increments (h ω)
  have hfit := hr
  rw [bmFit_of_sample (h ω)] at hfit
  obtain ⟨f1, f2, -⟩ := fit_ok hdt hfit
  simp only [if_pos (show 1 ≤ s by omega), if_pos hs2] at f1 f2
  have hd : r.drift = ((List.range (p.drift.length * n)).map fun j => mean s (inc (a ω) j) / dt).map some := by
    rw [f1, List.map_map]; rfl
  have hv : r.vol = ((List.range (p.drift.length * n)).map fun j =>
      Real.sqrt (scov s 1 (inc (a ω) j) (inc (a ω) j)) / Real.sqrt dt).map some := by
    rw [f2, List.map_map]; rfl
  refine ⟨r, _, _, hr, hd, hv, by simp, ?_, fun dt' s' n' y => ?_⟩
  · intro x hx
    obtain ⟨j, hj, rfl⟩ := List.mem_map.mp hx
    have hne := h2 _ _ _ hb (bm_affine (h ω)) j (List.mem_range.mp hj)
    refine div_pos (Real.sqrt_pos.mpr ?_) (Real.sqrt_pos.mpr hdt)
    refine lt_of_le_of_ne (scov_self_nonneg hs2 _) fun h0 => hne ?_
    exact (scov_self_eq_zero hs2 _).mp h0.symm
  · have := bm_fit_then_sample (z := y) (x0 := x0) hch (by omega) (by rw [hcol]; exact Nat.mul_pos hpos hn) hdt hr hd hv
      (dt' := dt') s' n' hx0 (by rw [hcol]; simpa using hdvd)
    rwa [hcol] at this

/-- C88. The same for geometric Brownian motion from a positive start. -/
theorem gbm_fit_resample (hc : CholTotal chol) (hf : CholFactor chol) (hch : CholShape chol) {drift vol : SimData} {cor : Option Arr}
    (hp : bmInit chol drift vol cor = .ok p) (hz : Draws P z) (hdt : 0 < dt) (hx : ∀ x ∈ x0, 0 < x)
    (hvol : ∀ j < p.drift.length, bentry p.vol j ≠ 0) {s : Nat}
    (hn : 0 < n) (hs : p.drift.length * n < s) (hs2 : 2 ≤ s) {a : Ω → Arr} (h : ∀ ω, gbmSample p x0 dt s n (z ω) = .ok (a ω)) :
    ∀ᵐ ω ∂P, ∃ r d w, gbmFit chol (a ω) dt = .ok r ∧ r.drift = d.map some ∧ r.vol = w.map some ∧
      w.length = p.drift.length * n ∧ (∀ x ∈ w, 0 < x) ∧
      ∀ (dt' : ℝ) (s' n' : Nat) (y : Nat → ℝ), ∃ b, gbmSample ⟨d, w, r.L⟩ x0 dt' s' n' y = .ok b ∧
        IsPaths b s' (p.drift.length * n) n' := by
  have hP : IsProbabilityMeasure P := StdNormal.prob hz
  obtain ⟨ω⟩ : Nonempty Ω := nonempty_of_isProbabilityMeasure P
  obtain ⟨-, -, hpos, -, hsh, hx0, hdvd⟩ := (bm_succeeds_iff s n).mp ((gbm_succeeds_iff s n).mp ⟨_, h ω⟩)
  have hb : ∀ j < p.drift.length, bentry p.vol j * Real.sqrt dt ≠ 0 := fun j hj => mul_ne_zero (hvol j hj) (Real.sqrt_pos.mpr hdt).ne'
  have hL := nonsingular_of_sample hf hp hsh
  filter_upwards [gbm_fit_sure hc hf hp hz hdt hx hvol h, not_constant_sure (n := n) hz hL hs2] with ω hω h2
  have h1 := hω.1
  obtain ⟨r, hr⟩ := h1.mpr (Or.inr hs)
  have hfit := hr
  rw [gbmFit_of_sample hx (h ω)] at hfit
  obtain ⟨f1, f2, f3, f4⟩ := fit_ok hdt hfit
  simp only [if_pos (show 1 ≤ s by omega), if_pos hs2] at f1 f2
  have hd : r.drift = ((List.range (p.drift.length * n)).map fun j => mean s (logInc (a ω) j) / dt).map some := by
    rw [f1, List.map_map]; rfl
  have hv : r.vol = ((List.range (p.drift.length * n)).map fun j =>
      Real.sqrt (scov s 1 (logInc (a ω) j) (logInc (a ω) j)) / Real.sqrt dt).map some := by
    rw [f2, List.map_map]; rfl
  have hLs : ∀ l ∈ r.L, l.rows = p.drift.length * n ∧ l.cols = p.drift.length * n := by
    intro l hl
    by_cases hcol : p.drift.length * n ≤ 1
    · rw [(f3 hcol).2] at hl; cases hl
    · obtain ⟨-, -, -, L, hL, hL'⟩ := f4 (by omega)
      rw [hL] at hl
      cases hl
      have := hch _ _ hL'
      simpa [corrcoef, incLists] using this
  have hcp := Nat.mul_pos hpos hn
  refine ⟨r, _, _, hr, hd, hv, by simp, ?_, fun dt' s' n' y => ?_⟩
  · intro x hx'
    obtain ⟨j, hj, rfl⟩ := List.mem_map.mp hx'
    have hne := h2 _ _ _ hb (gbm_affine hx (h ω)) j (List.mem_range.mp hj)
    refine div_pos (Real.sqrt_pos.mpr ?_) (Real.sqrt_pos.mpr hdt)
    refine lt_of_le_of_ne (scov_self_nonneg hs2 _) fun h0 => hne ?_
    exact (scov_self_eq_zero hs2 _).mp h0.symm
  · obtain ⟨b, hb'⟩ := (gbm_succeeds_iff (p := ⟨(List.range (p.drift.length * n)).map fun j => mean s (logInc (a ω) j) / dt,
        (List.range (p.drift.length * n)).map fun j => Real.sqrt (scov s 1 (logInc (a ω) j) (logInc (a ω) j)) / Real.sqrt dt, r.L⟩)
        (x0 := x0) (dt := dt') (z := y) s' n').mpr ((bm_succeeds_iff s' n').mpr
      ⟨by omega, by omega, by simpa using ⟨hpos, hn⟩, Or.inl (by simp), by simpa using hLs, hx0, by
        simpa using (show x0.length ∣ p.drift.length * n by simpa using hdvd).mul_right n'⟩)
    refine ⟨b, hb', ?_⟩
    have := (gbm_paths hb' hx).1
    simpa using this

/-- A factorisation as specified exists that also keeps the shape. -/
theorem chol_exists_shape : ∃ chol : Arr → Option Arr, CholTotal chol ∧ CholFactor chol ∧ CholShape chol := by
  obtain ⟨chol, h1, h2⟩ := chol_exists
  refine ⟨fun A => if A.rows = A.cols then chol A else none, fun A hA => ?_, fun A L hA hL => ?_, fun A L hL => ?_⟩
  · simp only [if_pos hA]
    exact h1 A hA
  · simp only [if_pos hA] at hL
    exact h2 A L hA hL
  · by_cases hA : A.rows = A.cols
    · simp only [if_pos hA] at hL
      obtain ⟨l1, l2, -⟩ := h2 A L hA hL
      exact ⟨l1, l2.trans hA⟩
    · simp only [if_neg hA] at hL
      cases hL

/-- C88 (finding). A year of daily observations on a thousand paths of one variate: calibration raises `LinAlgError` on almost every
sample. With five thousand observations on the thousand paths it almost always succeeds. -/
theorem thousand_paths : ∃ (Ω : Type) (_ : MeasurableSpace Ω) (P : Measure Ω) (z : Ω → Nat → ℝ) (a : Nat → Ω → Arr)
    (chol : Arr → Option Arr) (p : BMParams), IsProbabilityMeasure P ∧ Draws P z ∧ CholTotal chol ∧ CholFactor chol ∧ CholShape chol ∧
      bmInit chol (.float (1 / 20)) (.float (1 / 5)) none = .ok p ∧
      (∀ (s : Nat) ω, bmSample p [0] (1 / 252) s (1000 : Nat) (z ω) = .ok (a s ω)) ∧
      ∀ᵐ ω ∂P, bmFit chol (a 252 ω) (1 / 252) = .error .linAlgError ∧ ∃ r, bmFit chol (a 5000 ω) (1 / 252) = .ok r := by
  obtain ⟨Ω, m, P, z, hz, -⟩ := draws_exist
  obtain ⟨chol, h1, h2, h3⟩ := chol_exists_shape
  have h : ∀ (s : Nat) ω, ∃ a, bmSample ⟨[1 / 20], [1 / 5], none⟩ [0] (1 / 252) s (1000 : Nat) (z ω) = .ok a := fun s ω =>
    (bm_succeeds_iff s (1000 : Nat)).mpr ⟨by simp, by simp, by simp, by simp, fun l hl => (by cases hl), by simp, by simp⟩
  choose a ha using h
  have hp : bmInit chol (.float (1 / 20)) (.float (1 / 5)) none = .ok ⟨[1 / 20], [1 / 5], none⟩ := rfl
  have hv : ∀ j < ([1 / 20] : List ℝ).length, bentry [1 / 5] j ≠ 0 := fun j _ => by simp [bentry]
  refine ⟨Ω, m, P, z, a, chol, _, StdNormal.prob hz, hz, h1, h2, h3, hp, ha, ?_⟩
  filter_upwards [bm_fit_sure h1 h2 hp hz (by norm_num) hv (ha 252), bm_fit_sure h1 h2 hp hz (by norm_num) hv (ha 5000)] with ω e1 e2
  exact ⟨e1.2 (by simp) (by simp), e2.1.mpr (Or.inr (by simp))⟩

/-- The hypotheses of the geometric version can be met: three paths of two assets from positive prices. -/
example : ∃ (Ω : Type) (_ : MeasurableSpace Ω) (P : Measure Ω) (z : Ω → Nat → ℝ) (a : Ω → Arr) (chol : Arr → Option Arr)
    (p : BMParams), Draws P z ∧ CholTotal chol ∧ CholFactor chol ∧
      bmInit chol (.list [1 / 20, 0]) (.list [1 / 5, 1 / 10]) none = .ok p ∧ (∀ x ∈ ([100, 50] : List ℝ), 0 < x) ∧
      (∀ j < p.drift.length, bentry p.vol j ≠ 0) ∧ ∀ ω, gbmSample p [100, 50] (1 / 252) (252 : Nat) (3 : Nat) (z ω) = .ok (a ω) := by
  obtain ⟨Ω, m, P, z, hz, -⟩ := draws_exist
  obtain ⟨chol, h1, h2, -⟩ := chol_exists_shape
  have h : ∀ ω, ∃ a, gbmSample ⟨[1 / 20, 0], [1 / 5, 1 / 10], none⟩ [100, 50] (1 / 252) (252 : Nat) (3 : Nat) (z ω) = .ok a := fun ω =>
    (gbm_succeeds_iff (252 : Nat) (3 : Nat)).mpr ((bm_succeeds_iff (252 : Nat) (3 : Nat)).mpr
      ⟨by simp, by simp, by simp, by simp, fun l hl => (by cases hl), by simp, by simp⟩)
  choose a ha using h
  refine ⟨Ω, m, P, z, a, chol, _, hz, h1, h2, rfl, by simp, fun j hj => ?_, ha⟩
  change j < 2 at hj
  interval_cases j <;> norm_num [bentry]

end Verif.Sim
