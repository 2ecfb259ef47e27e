import Verif.Lemmas.Shocks
import Verif.Lemmas.SimFit
import Mathlib.Analysis.InnerProductSpace.PiL2

/-!
# Means and covariances in an orthonormal basis that contains the constant vector
-/

namespace Verif.Sim

open MeasureTheory ProbabilityTheory

/-- An orthonormal basis whose first member is constant. -/
theorem helmert (m : Nat) : ∃ b : Fin (m + 1) → Fin (m + 1) → ℝ, (∀ k l, ∑ u, b k u * b l u = if k = l then 1 else 0) ∧
    (∀ u w, ∑ k, b k u * b k w = if u = w then 1 else 0) ∧ ∀ u, b 0 u = 1 / √(m + 1) := by
  have hm : (0 : ℝ) < m + 1 := by positivity
  let c : EuclideanSpace ℝ (Fin (m + 1)) := WithLp.toLp 2 fun _ => 1 / √(m + 1)
  have hc : ‖c‖ = 1 := by
    rw [EuclideanSpace.norm_eq, Real.sqrt_eq_one]
    simp only [c, Real.norm_eq_abs, sq_abs, div_pow, one_pow, Real.sq_sqrt hm.le, Finset.sum_const, Finset.card_univ, Fintype.card_fin, nsmul_eq_mul]
    push_cast
    field_simp
  obtain ⟨b, hb⟩ := Orthonormal.exists_orthonormalBasis_extension_of_card_eq (𝕜 := ℝ) (E := EuclideanSpace ℝ (Fin (m + 1))) (ι := Fin (m + 1))
    (by simp) (v := fun _ => c) (s := {0}) (by
      constructor
      · intro i; exact hc
      · intro i j hij
        exact absurd (Subtype.ext (i.2.trans j.2.symm)) hij)
  have h1 : ∀ k l, ∑ u, b k u * b l u = if k = l then 1 else 0 := by
    intro k l
    have := orthonormal_iff_ite.mp b.orthonormal k l
    rw [← this, PiLp.inner_apply]
    exact Finset.sum_congr rfl fun u _ => by simp [mul_comm]
  refine ⟨fun k u => b k u, h1, ?_, fun u => by show b 0 u = _; rw [hb 0 rfl]⟩
  let M : Matrix (Fin (m + 1)) (Fin (m + 1)) ℝ := Matrix.of fun k u => b k u
  have e : M * M.transpose = 1 := by
    ext k l
    rw [Matrix.mul_apply, Matrix.one_apply]
    exact h1 k l
  have e' : M.transpose * M = 1 := mul_eq_one_comm.mp e
  intro u w
  have := congrFun (congrFun e' u) w
  rw [Matrix.mul_apply, Matrix.one_apply] at this
  exact this

/-- The coordinates of a sequence. -/
def coord {m : Nat} (b : Fin (m + 1) → Fin (m + 1) → ℝ) (k : Fin (m + 1)) (f : Nat → ℝ) : ℝ := ∑ u, b k u * f u

theorem mean_coord {m : Nat} {b : Fin (m + 1) → Fin (m + 1) → ℝ} (h0 : ∀ u, b 0 u = 1 / √(m + 1)) (f : Nat → ℝ) :
    mean (m + 1) f = coord b 0 f / √(m + 1) := by
  have hm : (0 : ℝ) < m + 1 := by positivity
  unfold mean coord
  simp only [h0]
  rw [← Finset.mul_sum, Finset.sum_range]
  push_cast
  rw [div_mul_eq_mul_div, one_mul, div_div, Real.mul_self_sqrt hm.le]

theorem scov_coord {m : Nat} (hm : 1 ≤ m) {b : Fin (m + 1) → Fin (m + 1) → ℝ} (h2 : ∀ u w, ∑ k, b k u * b k w = if u = w then 1 else 0)
    (h0 : ∀ u, b 0 u = 1 / √(m + 1)) (f g : Nat → ℝ) :
    scov (m + 1) 1 f g = (∑ k : Fin m, coord b k.succ f * coord b k.succ g) / m := by
  have hm0 : (0 : ℝ) < m := by exact_mod_cast hm
  have hm1 : (0 : ℝ) < m + 1 := by positivity
  have tot : ∑ k, coord b k f * coord b k g = ∑ u : Fin (m + 1), f u * g u := by
    unfold coord
    simp only [Finset.sum_mul_sum]
    rw [Finset.sum_comm]
    refine Finset.sum_congr rfl fun u _ => ?_
    rw [Finset.sum_comm, Finset.sum_eq_single u]
    · have := h2 u u
      rw [if_pos rfl] at this
      calc ∑ k, b k u * f u * (b k u * g u) = (∑ k, b k u * b k u) * (f u * g u) := by
            rw [Finset.sum_mul]; exact Finset.sum_congr rfl fun k _ => by ring
        _ = _ := by rw [this, one_mul]
    · intro w _ hw
      have := h2 u w
      rw [if_neg (Ne.symm hw)] at this
      calc ∑ k, b k u * f u * (b k w * g w) = (∑ k, b k u * b k w) * (f u * g w) := by
            rw [Finset.sum_mul]; exact Finset.sum_congr rfl fun k _ => by ring
        _ = _ := by rw [this, zero_mul]
    · simp
  rw [Fin.sum_univ_succ] at tot
  rw [scov_eq (by omega), mean_coord h0 f, mean_coord h0 g]
  have e : mean (m + 1) (fun t => f t * g t) = (∑ u : Fin (m + 1), f u * g u) / (m + 1) := by
    unfold mean
    rw [Finset.sum_range]
    push_cast
    rfl
  rw [e, ← tot]
  push_cast
  rw [div_mul_div_comm, Real.mul_self_sqrt hm1.le, add_sub_cancel_right]
  field_simp
  ring

variable {Ω : Type*} [MeasurableSpace Ω] {P : Measure Ω} {z : Ω → Nat → ℝ} {n v : Nat}

/-- The coordinates of the shocks of a sample are jointly Gaussian, and correlated within a path and a coordinate only. -/
theorem coord_shocks (hz : Draws P z) (L : Option Arr) {m : Nat} {b : Fin (m + 1) → Fin (m + 1) → ℝ}
    (h1 : ∀ k l, ∑ u, b k u * b l u = if k = l then 1 else 0) :
    IsGaussianProcess (fun (τ : (Fin n × Fin v) × Fin (m + 1)) ω => coord b τ.2 fun t => shock L v (z ω) (t * n + τ.1.1) τ.1.2) P ∧
    (∀ τ : (Fin n × Fin v) × Fin (m + 1), ∫ ω, coord b τ.2 (fun t => shock L v (z ω) (t * n + τ.1.1) τ.1.2) ∂P = 0) ∧
    ∀ τ τ' : (Fin n × Fin v) × Fin (m + 1), cov[fun ω => coord b τ.2 (fun t => shock L v (z ω) (t * n + τ.1.1) τ.1.2),
      fun ω => coord b τ'.2 (fun t => shock L v (z ω) (t * n + τ'.1.1) τ'.1.2); P] =
        if τ.1.1 = τ'.1.1 ∧ τ.2 = τ'.2 then corOf L v τ.1.2 τ'.1.2 else 0 := by
  let B : Fin (m + 1) → Nat → ℝ := fun k u => if h : u < m + 1 then b k ⟨u, h⟩ else 0
  have hB : ∀ k (u : Fin (m + 1)), B k u = b k u := fun k u => dif_pos u.2
  obtain ⟨g1, g2, g3⟩ := driven hz L (T := (Fin n × Fin v) × Fin (m + 1)) (fun τ => τ.1.1) (fun τ => τ.1.2) (fun _ => m + 1) (fun _ => 0)
    (fun τ u => B τ.2 u) (Y := fun τ ω => coord b τ.2 fun t => shock L v (z ω) (t * n + τ.1.1) τ.1.2) fun τ ω => by
      rw [zero_add, Finset.sum_range]
      unfold coord
      exact Finset.sum_congr rfl fun u _ => by rw [hB]
  refine ⟨g1, g2, fun τ τ' => ?_⟩
  rw [g3]
  by_cases hq : τ.1.1 = τ'.1.1
  · rw [if_pos hq, min_self, Finset.sum_range]
    simp only [hB]
    rw [h1]
    by_cases hk : τ.2 = τ'.2
    · rw [if_pos hk, if_pos ⟨hq, hk⟩, mul_one]
    · rw [if_neg hk, if_neg (by tauto), mul_zero]
  · rw [if_neg hq, if_neg (by tauto)]

/-- The means of the shocks of a sample are independent of their sample covariances. -/
theorem shock_stats_indep (hz : Draws P z) (L : Option Arr) {s : Nat} (hs : 2 ≤ s) :
    IndepFun (fun ω (y : Fin n × Fin v) => mean s fun t => shock L v (z ω) (t * n + y.1) y.2)
      (fun ω (y : (Fin n × Fin v) × (Fin n × Fin v)) => scov s 1 (fun t => shock L v (z ω) (t * n + y.1.1) y.1.2)
        fun t => shock L v (z ω) (t * n + y.2.1) y.2.2) P := by
  obtain ⟨m, rfl⟩ : ∃ m, s = m + 1 := ⟨s - 1, by omega⟩
  obtain ⟨b, h1, h2, h0⟩ := helmert m
  obtain ⟨g1, -, g3⟩ := coord_shocks (n := n) (v := v) hz L h1
  have hi : IndepFun (fun ω (y : Fin n × Fin v) => coord b 0 fun t => shock L v (z ω) (t * n + y.1) y.2)
      (fun ω (y : (Fin n × Fin v) × Fin m) => coord b y.2.succ fun t => shock L v (z ω) (t * n + y.1.1) y.1.2) P := by
    refine IsGaussianProcess.indepFun_of_covariance_eq_zero
      (X := fun (y : Fin n × Fin v) ω => coord b 0 fun t => shock L v (z ω) (t * n + y.1) y.2)
      (Y := fun (y : (Fin n × Fin v) × Fin m) ω => coord b y.2.succ fun t => shock L v (z ω) (t * n + y.1.1) y.1.2) ?_
      (fun y => g1.aemeasurable (y, 0)) (fun y => g1.aemeasurable (y.1, y.2.succ)) fun y y' => ?_
    · have h := g1.comp_right (f := Sum.elim (fun y : Fin n × Fin v => (y, (0 : Fin (m + 1)))) fun y : (Fin n × Fin v) × Fin m => (y.1, y.2.succ))
      have e : (Sum.elim (fun (y : Fin n × Fin v) ω => coord b 0 fun t => shock L v (z ω) (t * n + y.1) y.2)
          fun (y : (Fin n × Fin v) × Fin m) ω => coord b y.2.succ fun t => shock L v (z ω) (t * n + y.1.1) y.1.2) =
          (fun (τ : (Fin n × Fin v) × Fin (m + 1)) ω => coord b τ.2 fun t => shock L v (z ω) (t * n + τ.1.1) τ.1.2) ∘
            Sum.elim (fun y : Fin n × Fin v => (y, (0 : Fin (m + 1)))) fun y : (Fin n × Fin v) × Fin m => (y.1, y.2.succ) := by
        funext y
        cases y <;> rfl
      rw [e]
      exact h
    · rw [g3 (y, 0) (y'.1, y'.2.succ), if_neg]
      rintro ⟨-, h⟩
      exact (Fin.succ_ne_zero _) h.symm
  have := hi.comp (φ := fun (x : Fin n × Fin v → ℝ) y => x y / √(m + 1))
    (ψ := fun (x : (Fin n × Fin v) × Fin m → ℝ) (y : (Fin n × Fin v) × (Fin n × Fin v)) => (∑ k : Fin m, x (y.1, k) * x (y.2, k)) / m)
    (by fun_prop) (by fun_prop)
  convert this using 1
  · funext ω y
    exact mean_coord h0 _
  · funext ω y
    exact scov_coord (by omega) h2 h0 _ _

end Verif.Sim
