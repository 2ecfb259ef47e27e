import Verif.Spec.FitLaw
import Verif.Lemmas.Shocks
import Verif.Lemmas.SimFit
import Verif.Props.SimFit
import Mathlib.Topology.Instances.Matrix
import Mathlib.LinearAlgebra.Matrix.ToLinearEquiv
import Mathlib.LinearAlgebra.Matrix.Block

/-!
# The estimates from columns that are affine in the shocks
-/

namespace Verif.Sim

open MeasureTheory ProbabilityTheory Filter Topology

variable {Ω : Type*} [MeasurableSpace Ω] {P : Measure Ω} {z : Ω → Nat → ℝ} {n v : Nat}

theorem sum_cols (g : Nat → ℝ) : ∑ c ∈ Finset.range (v * n), g c = ∑ y : Fin n × Fin v, g (y.1 * v + y.2) := by
  rw [mul_comm, Finset.sum_range]
  refine (Fintype.sum_equiv finProdFinEquiv _ _ fun y => ?_).symm
  simp only [finProdFinEquiv_apply_val]
  congr 1
  ring

/-- The increments of a simulated sample. -/
def Affine (L : Option Arr) (m b : Nat → ℝ) (n v : Nat) (x : Nat → ℝ) (f : Nat → Nat → ℝ) : Prop :=
  ∀ q < n, ∀ j < v, f (q * v + j) = fun t => m j + b j * shock L v x (t * n + q) j

theorem scov_cols {L : Option Arr} {m b : Nat → ℝ} {x : Nat → ℝ} {f : Nat → Nat → ℝ} (hf : Affine L m b n v x f) {s : Nat}
    (hs : 2 ≤ s) (y y' : Fin n × Fin v) :
    scov s 1 (f (y.1 * v + y.2)) (f (y'.1 * v + y'.2)) = b y.2 * b y'.2 *
      scov s 1 (fun t => shock L v x (t * n + y.1) y.2) (fun t => shock L v x (t * n + y'.1) y'.2) := by
  rw [hf _ y.1.2 _ y.2.2, hf _ y'.1.2 _ y'.2.2, scov_affine s (by omega)]

theorem scov_const_right {s : Nat} {g : Nat → ℝ} (f : Nat → ℝ) (hs : 1 ≤ s) (hg : Constant s g) : scov s 1 f g = 0 := by
  have hm : ∀ i < s, g i = mean s g := fun i hi => by
    unfold mean
    rw [Finset.sum_congr rfl fun k hk => hg k (Finset.mem_range.mp hk) i hi, Finset.sum_const, Finset.card_range, nsmul_eq_mul]
    have : (s : ℝ) ≠ 0 := by positivity
    field_simp
  unfold scov
  rw [Finset.sum_eq_zero, zero_div]
  intro i hi
  rw [← hm i (Finset.mem_range.mp hi), sub_self, mul_zero]

theorem scov_sum_right {ι : Type*} (I : Finset ι) (s : Nat) (f : Nat → ℝ) (x : ι → ℝ) (g : ι → Nat → ℝ) :
    scov s 1 f (fun t => ∑ k ∈ I, x k * g k t) = ∑ k ∈ I, x k * scov s 1 f (g k) := by
  have hm : mean s (fun t => ∑ k ∈ I, x k * g k t) = ∑ k ∈ I, x k * mean s (g k) := by
    unfold mean
    rw [Finset.sum_comm, Finset.sum_div]
    exact Finset.sum_congr rfl fun k _ => by rw [← Finset.mul_sum, mul_div_assoc]
  unfold scov
  rw [hm]
  simp only [← mul_div_assoc, ← Finset.sum_div]
  congr 1
  simp only [← Finset.sum_sub_distrib, Finset.mul_sum]
  rw [Finset.sum_comm]
  exact Finset.sum_congr rfl fun k _ => Finset.sum_congr rfl fun i _ => by ring

/-- The sample covariances determine whether the columns are collinear. -/
theorem notCollinear_of_det {L : Option Arr} {m b : Nat → ℝ} {x : Nat → ℝ} {f : Nat → Nat → ℝ} (hf : Affine L m b n v x f)
    {s : Nat} (hs : 2 ≤ s) (hb : ∀ j < v, b j ≠ 0)
    (hdet : (Matrix.of fun y y' : Fin n × Fin v => scov s 1 (fun t => shock L v x (t * n + y.1) y.2)
      (fun t => shock L v x (t * n + y'.1) y'.2)).det ≠ 0) : NotCollinear (v * n) s f := by
  intro c hc
  have key : ∀ y : Fin n × Fin v, ∑ y' : Fin n × Fin v, scov s 1 (fun t => shock L v x (t * n + y.1) y.2)
      (fun t => shock L v x (t * n + y'.1) y'.2) * (b y'.2 * c (y'.1 * v + y'.2)) = 0 := fun y => by
    have h0 := scov_const_right (f (y.1 * v + y.2)) (by omega) hc
    rw [scov_sum_right, sum_cols] at h0
    have e : ∀ y' : Fin n × Fin v, c (y'.1 * v + y'.2) * scov s 1 (f (y.1 * v + y.2)) (f (y'.1 * v + y'.2)) =
        b y.2 * (scov s 1 (fun t => shock L v x (t * n + y.1) y.2)
          (fun t => shock L v x (t * n + y'.1) y'.2) * (b y'.2 * c (y'.1 * v + y'.2))) := fun y' => by
      rw [scov_cols hf hs]; ring
    rw [Finset.sum_congr rfl fun y' _ => e y', ← Finset.mul_sum] at h0
    exact (mul_eq_zero.mp h0).resolve_left (hb _ y.2.2)
  have hv := Matrix.eq_zero_of_mulVec_eq_zero hdet (v := fun y' => b y'.2 * c (y'.1 * v + y'.2)) (funext fun y => key y)
  intro k hk
  have hvpos : 0 < v := Nat.pos_of_mul_pos_right (lt_of_le_of_lt (Nat.zero_le _) hk)
  have hq : k / v < n := Nat.div_lt_of_lt_mul hk
  have hj : k % v < v := Nat.mod_lt _ hvpos
  have := congrFun hv (⟨k / v, hq⟩, ⟨k % v, hj⟩)
  simp only [Pi.zero_apply] at this
  rw [Nat.div_add_mod'] at this
  exact (mul_eq_zero.mp this).resolve_left (hb _ hj)

theorem constant_of_notCollinear {k s : Nat} {f : Nat → Nat → ℝ} (h : NotCollinear k s f) {j : Nat} (hj : j < k) :
    ¬ Constant s (f j) := by
  intro hc
  have := h (fun i => if i = j then 1 else 0) (by
    intro i hi i' hi'
    simp only [ite_mul, one_mul, zero_mul, Finset.sum_ite_eq', Finset.mem_range, if_pos hj]
    exact hc i hi i' hi') j hj
  simp at this

/-- Calibration succeeds on columns that are not collinear. -/
theorem fit_succeeds {chol : Arr → Option Arr} (hc : CholTotal chol) {k s : Nat} {f : Nat → Nat → ℝ} {dt : ℝ} (hdt : 0 < dt)
    (hs : 2 ≤ s) (h : NotCollinear k s f) : ∃ r, fitIncrements chol (incLists k s f) dt = .ok r := by
  obtain ⟨h1, -, -, h4⟩ := fit_outcome (chol := chol) (v := k) (n := s) (f := f) hdt
  by_cases hk : k ≤ 1
  · exact h1 hk
  have hne : ∀ j < k, ¬ Constant s (f j) := fun j hj => constant_of_notCollinear h hj
  refine (h4 (by omega) hs hne).2 ?_
  have hlen : (corrcoef (incLists k s f)).rows = k := by simp [corrcoef, incLists]
  have hlen' : (corrcoef (incLists k s f)).cols = k := by simp [corrcoef, incLists]
  have hcc := hc (corrcoef (incLists k s f)) (by rw [hlen, hlen']) (by
    rw [hlen]
    intro i hi j hj
    rw [corrcoef_incLists hs _ hi hj, corrcoef_incLists hs _ hj hi, scov_comm, mul_comm (Real.sqrt _)])
  rw [hlen, ← notCollinear_iff hs hne] at hcc
  exact hcc.mpr h

theorem block_det {L : Option Arr} (hL : Nonsingular L v) :
    (Matrix.of fun y y' : Fin n × Fin v => if y.1 = y'.1 then corOf L v y.2 y'.2 else 0).det ≠ 0 := by
  rw [← isUnit_iff_ne_zero, ← Matrix.isUnit_iff_isUnit_det, ← Matrix.mulVec_injective_iff_isUnit]
  rw [← Matrix.coe_mulVecLin]
  rw [injective_iff_map_eq_zero]
  intro x hx
  funext y
  have := hL (fun j => x (y.1, j)) fun i => by
    have h := congrFun hx (y.1, i)
    simp only [Matrix.mulVecLin_apply, Matrix.mulVec, dotProduct, Matrix.of_apply, Pi.zero_apply] at h
    rw [Fintype.sum_prod_type] at h
    rw [Finset.sum_eq_single y.1 (fun q _ hq => Finset.sum_eq_zero fun j _ => by rw [if_neg (Ne.symm hq), zero_mul])
      (fun h => absurd (Finset.mem_univ _) h)] at h
    simpa using h
  exact congrFun this y.2

/-- On a sample from nonsingular parameters calibration almost surely succeeds from some length on. -/
theorem fit_eventually {chol : Arr → Option Arr} (hc : CholTotal chol) (hz : Draws P z) {L : Option Arr} (hL : Nonsingular L v)
    {m b : Nat → ℝ} (hb : ∀ j < v, b j ≠ 0) {dt : ℝ} (hdt : 0 < dt) {f : Ω → Nat → Nat → Nat → ℝ}
    (hf : ∀ ω s, Affine L m b n v (z ω) (f ω s)) :
    ∀ᵐ ω ∂P, ∀ᶠ s in atTop, ∃ r, fitIncrements chol (incLists (v * n) s (f ω s)) dt = .ok r := by
  have h := fun y y' : Fin n × Fin v => shocks_consistent hz L y y'
  simp only [← ae_all_iff] at h
  filter_upwards [h] with ω hω
  have ht : Tendsto (fun s => (Matrix.of fun y y' : Fin n × Fin v => scov s 1 (fun t => shock L v (z ω) (t * n + y.1) y.2)
      (fun t => shock L v (z ω) (t * n + y'.1) y'.2)).det) atTop
      (𝓝 (Matrix.of fun y y' : Fin n × Fin v => if y.1 = y'.1 then corOf L v y.2 y'.2 else 0).det) := by
    have hm : Tendsto (fun s => (Matrix.of fun y y' : Fin n × Fin v => scov s 1 (fun t => shock L v (z ω) (t * n + y.1) y.2)
      (fun t => shock L v (z ω) (t * n + y'.1) y'.2))) atTop
      (𝓝 (Matrix.of fun y y' : Fin n × Fin v => if y.1 = y'.1 then corOf L v y.2 y'.2 else 0)) :=
      tendsto_pi_nhds.mpr fun y => tendsto_pi_nhds.mpr fun y' => (hω y y').2
    have hd : Continuous fun M : Matrix (Fin n × Fin v) (Fin n × Fin v) ℝ => M.det := Continuous.matrix_det continuous_id
    exact (hd.tendsto _).comp hm
  filter_upwards [ht.eventually_ne (block_det hL), eventually_ge_atTop 2] with s hs h2
  exact fit_succeeds hc hdt h2 (notCollinear_of_det (hf ω s) h2 hb hs)

/-- The limits of the estimates. -/
theorem fit_limits {chol : Arr → Option Arr} (hc : CholTotal chol) (hz : Draws P z) {L : Option Arr} (hL : Nonsingular L v)
    {μ σ : Nat → ℝ} (hσ : ∀ j < v, σ j ≠ 0) {dt : ℝ} (hdt : 0 < dt) {f : Ω → Nat → Nat → Nat → ℝ}
    (hf : ∀ ω s, Affine L (fun j => μ j * dt) (fun j => σ j * Real.sqrt dt) n v (z ω) (f ω s)) (y y' : Fin n × Fin v) :
    ∀ᵐ ω ∂P, FitTendsto (fun s => fitIncrements chol (incLists (v * n) s (f ω s)) dt) (driftAt (y.1 * v + y.2)) (μ y.2) ∧
      FitTendsto (fun s => fitIncrements chol (incLists (v * n) s (f ω s)) dt) (volAt (y.1 * v + y.2))
        (|σ y.2| * Real.sqrt (corOf L v y.2 y.2)) ∧
      (1 < v * n → 0 < σ y.2 → 0 < σ y'.2 → 0 < corOf L v y.2 y.2 → 0 < corOf L v y'.2 y'.2 →
        FitTendsto (fun s => fitIncrements chol (incLists (v * n) s (f ω s)) dt) (corAt (y.1 * v + y.2) (y'.1 * v + y'.2))
          (if y.1 = y'.1 then corOf L v y.2 y'.2 / (Real.sqrt (corOf L v y.2 y.2) * Real.sqrt (corOf L v y'.2 y'.2)) else 0)) := by
  have hsq := Real.sqrt_pos.mpr hdt
  have hb : ∀ j < v, σ j * Real.sqrt dt ≠ 0 := fun j hj => mul_ne_zero (hσ j hj) hsq.ne'
  filter_upwards [fit_eventually hc hz hL hb hdt hf, shocks_consistent hz L y y, shocks_consistent hz L y y',
    shocks_consistent hz L y' y'] with ω h0 h1 h2 h3
  have hy := col_lt y.1.2 y.2.2
  have hy' := col_lt y'.1.2 y'.2.2
  refine ⟨⟨fun s => μ y.2 + σ y.2 / Real.sqrt dt * mean s (fun t => shock L v (z ω) (t * n + y.1) y.2), ?_, ?_⟩,
    ⟨fun s => |σ y.2| * Real.sqrt (scov s 1 (fun t => shock L v (z ω) (t * n + y.1) y.2)
      (fun t => shock L v (z ω) (t * n + y.1) y.2)), ?_, ?_⟩, fun hk s1 s2 c1 c2 =>
    ⟨fun s => scov s 1 (fun t => shock L v (z ω) (t * n + y.1) y.2) (fun t => shock L v (z ω) (t * n + y'.1) y'.2) /
      (Real.sqrt (scov s 1 (fun t => shock L v (z ω) (t * n + y.1) y.2) (fun t => shock L v (z ω) (t * n + y.1) y.2)) *
      Real.sqrt (scov s 1 (fun t => shock L v (z ω) (t * n + y'.1) y'.2) (fun t => shock L v (z ω) (t * n + y'.1) y'.2))), ?_, ?_⟩⟩
  · filter_upwards [h0, eventually_ge_atTop 2] with s ⟨r, hr⟩ hs
    refine ⟨r, hr, ?_⟩
    rw [driftAt, (fit_ok hdt hr).1, List.getElem?_map, List.getElem?_range hy, Option.map_some, if_pos (by omega),
      hf ω s _ y.1.2 _ y.2.2, mean_affine s (by omega), Option.join_some]
    congr 1
    have : dt = Real.sqrt dt * Real.sqrt dt := (Real.mul_self_sqrt hdt.le).symm
    rw [add_div, mul_div_assoc, div_self hdt.ne', mul_one]
    congr 1
    conv_lhs => rw [this]
    rw [Real.sqrt_mul_self hsq.le]
    field_simp
  · simpa using (h1.1.const_mul (σ y.2 / Real.sqrt dt)).const_add (μ y.2)
  · filter_upwards [h0, eventually_ge_atTop 2] with s ⟨r, hr⟩ hs
    refine ⟨r, hr, ?_⟩
    rw [volAt, (fit_ok hdt hr).2.1, List.getElem?_map, List.getElem?_range hy, Option.map_some, if_pos (by omega),
      scov_cols (hf ω s) hs, Option.join_some]
    congr 1
    rw [← sq, mul_pow, Real.sq_sqrt hdt.le, Real.sqrt_mul (by positivity), Real.sqrt_mul (sq_nonneg _), Real.sqrt_sq_eq_abs]
    field_simp
  · have := (Real.continuous_sqrt.tendsto _).comp h1.2
    rw [if_pos rfl] at this
    exact this.const_mul _
  · filter_upwards [h0, eventually_ge_atTop 2] with s ⟨r, hr⟩ hs
    refine ⟨r, hr, ?_⟩
    obtain ⟨-, -, hC, -⟩ := (fit_ok hdt hr).2.2.2 hk
    rw [corAt, hC, Option.map_some, corrcoef_incLists hs _ hy hy', scov_cols (hf ω s) hs, scov_cols (hf ω s) hs, scov_cols (hf ω s) hs]
    congr 1
    have p1 : 0 < σ y.2 * Real.sqrt dt := mul_pos s1 hsq
    have p2 : 0 < σ y'.2 * Real.sqrt dt := mul_pos s2 hsq
    rw [Real.sqrt_mul (mul_self_nonneg _), Real.sqrt_mul (mul_self_nonneg _), Real.sqrt_mul_self p1.le, Real.sqrt_mul_self p2.le,
      mul_mul_mul_comm (σ y.2 * Real.sqrt dt) (Real.sqrt _), mul_div_mul_left _ _ (mul_pos p1 p2).ne']
  · have q1 := (Real.continuous_sqrt.tendsto _).comp h1.2
    have q3 := (Real.continuous_sqrt.tendsto _).comp h3.2
    rw [if_pos rfl] at q1 q3
    have := h2.2.div (q1.mul q3) (mul_pos (Real.sqrt_pos.mpr c1) (Real.sqrt_pos.mpr c2)).ne'
    by_cases hq : y.1 = y'.1
    · rw [if_pos hq] at this ⊢
      exact this
    · rw [if_neg hq] at this ⊢
      rwa [zero_div] at this

end Verif.Sim
