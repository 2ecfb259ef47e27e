import Verif.Spec.Cov
import Mathlib.Tactic.Ring
import Mathlib.Tactic.Linarith
import Mathlib.Tactic.Positivity
import Mathlib.LinearAlgebra.Matrix.NonsingularInverse
import Mathlib.Tactic.FieldSimp

/-!
# Lemmas on orthonormal lists and quadratic forms
-/

namespace Verif.Cov

variable {n : Nat}

/-- Quadratic form as a double sum. -/
theorem quad_eq (C : Mat n) (x : Fin n → ℝ) : dotProduct x (C.mulVec x) = ∑ i, ∑ j, x i * C i j * x j := by
  unfold dotProduct Matrix.mulVec dotProduct
  refine Finset.sum_congr rfl fun i _ => ?_
  rw [Finset.mul_sum]
  exact Finset.sum_congr rfl fun j _ => by ring

/-- A sum over a list of pairs as a sum over positions. -/
theorem list_sum_fin {α : Type} (l : List α) (f : α → ℝ) : (l.map f).sum = ∑ a : Fin l.length, f l[a] := by
  rw [← List.sum_ofFn]
  congr 1
  apply List.ext_getElem
  · simp
  · intro i h1 h2; simp

theorem OrthoList.get {vs : List (Fin n → ℝ)} (h : OrthoList vs) (a b : Nat) (ha : a < vs.length)
    (hb : b < vs.length) : dotProduct vs[a] vs[b] = if a = b then 1 else 0 := by
  by_cases hab : a = b
  · subst hab
    rw [if_pos rfl]
    exact h.1 _ (List.getElem_mem ha)
  · rw [if_neg hab]
    rcases Nat.lt_or_gt_of_ne hab with hlt | hlt
    · exact List.pairwise_iff_getElem.mp h.2 a b ha hb hlt
    · rw [dotProduct_comm]
      exact List.pairwise_iff_getElem.mp h.2 b a hb ha hlt

theorem OrthoList.perm {us vs : List (Fin n → ℝ)} (h : OrthoList us) (hp : us.Perm vs) : OrthoList vs :=
  ⟨fun v hv => h.1 v (hp.mem_iff.mpr hv),
   h.2.perm hp (fun {u v} huv => by rw [dotProduct_comm]; exact huv)⟩

/-- `n` orthonormal vectors resolve the identity. -/
theorem ortho_resolution {vs : List (Fin n → ℝ)} (h : OrthoList vs) (hl : vs.length = n) (i j : Fin n) :
    (vs.map fun v => v i * v j).sum = if i = j then 1 else 0 := by
  let V : Matrix (Fin n) (Fin n) ℝ := fun a i => (vs[a.1]'(by omega)) i
  have h1 : V * V.transpose = 1 := by
    ext a b
    rw [Matrix.mul_apply, Matrix.one_apply]
    have := h.get a b (by omega) (by omega)
    simp only [Fin.ext_iff]
    rw [← this]
    rfl
  have h2 := mul_eq_one_comm.mp h1
  have h3 := congrFun (congrFun h2 i) j
  rw [Matrix.mul_apply, Matrix.one_apply] at h3
  rw [list_sum_fin, ← h3]
  refine Fintype.sum_equiv (finCongr hl) _ _ fun a => ?_
  rfl

theorem eigSum_apply (ps : List (Pair n)) (i j : Fin n) :
    eigSum ps i j = (ps.map fun p => p.1 * (p.2 i * p.2 j)).sum := by
  unfold eigSum
  congr 1
  exact List.map_congr_left fun p _ => by ring

/-- The spectral decomposition. -/
theorem eigSum_eq {C : Mat n} {ps : List (Pair n)} (h : IsEigen C ps) (hl : ps.length = n) : eigSum ps = C := by
  ext i j
  have hr := fun m => ortho_resolution h.ortho (by simpa using hl) m j
  rw [eigSum_apply]
  have e1 : (ps.map fun p => p.1 * (p.2 i * p.2 j)).sum = (ps.map fun p => ∑ m, C i m * (p.2 m * p.2 j)).sum := by
    congr 1
    refine List.map_congr_left fun p hp => ?_
    have := congrFun (h.eig p hp) i
    simp only [Matrix.mulVec, dotProduct, Pi.smul_apply, smul_eq_mul] at this
    rw [← mul_assoc, ← this, Finset.sum_mul]
    exact Finset.sum_congr rfl fun m _ => by ring
  rw [e1, list_sum_fin, Finset.sum_comm]
  have e2 : ∀ m, ∑ a : Fin ps.length, C i m * (ps[a].2 m * ps[a].2 j) = C i m * if m = j then 1 else 0 := by
    intro m
    rw [← Finset.mul_sum, ← hr m, List.map_map, list_sum_fin]
    rfl
  rw [Finset.sum_congr rfl fun m _ => e2 m]
  simp

theorem eigSum_append (ps qs : List (Pair n)) (i j : Fin n) :
    eigSum (ps ++ qs) i j = eigSum ps i j + eigSum qs i j := by
  unfold eigSum; simp

theorem eigSum_perm {ps qs : List (Pair n)} (h : ps.Perm qs) : eigSum ps = eigSum qs := by
  ext i j
  exact (h.map _).sum_eq

/-- Quadratic form of a spectral sum. -/
theorem quad_eigSum (ps : List (Pair n)) (x : Fin n → ℝ) :
    dotProduct x ((eigSum ps).mulVec x) = (ps.map fun p => p.1 * (dotProduct p.2 x) ^ 2).sum := by
  induction ps with
  | nil => rw [quad_eq]; simp [eigSum]
  | cons p ps ih =>
    rw [quad_eq] at ih ⊢
    rw [List.map_cons, List.sum_cons, ← ih, pow_two]
    unfold dotProduct
    rw [Finset.sum_mul_sum, Finset.mul_sum, ← Finset.sum_add_distrib]
    refine Finset.sum_congr rfl fun i _ => ?_
    rw [Finset.mul_sum, ← Finset.sum_add_distrib]
    refine Finset.sum_congr rfl fun j _ => ?_
    simp only [eigSum, List.map_cons, List.sum_cons]
    ring

theorem eigSum_symm (ps : List (Pair n)) (i j : Fin n) : eigSum ps i j = eigSum ps j i := by
  rw [eigSum_apply, eigSum_apply]
  congr 1
  exact List.map_congr_left fun p _ => by ring

theorem isEigen_perm {C : Mat n} {ps qs : List (Pair n)} (h : IsEigen C ps) (hp : ps.Perm qs) : IsEigen C qs :=
  ⟨h.ortho.perm (hp.map _), fun p hq => h.eig p (hp.mem_iff.mpr hq)⟩

/-- Cauchy–Schwarz for the entries of a covariance matrix. -/
theorem IsCov.cs {C : Mat n} (h : IsCov C) (i j : Fin n) : C i j ^ 2 ≤ C i i * C j j := by
  by_cases hij : i = j
  · subst hij; rw [pow_two]
  have hs : C j i = C i j := by have := congrFun (congrFun h.symm i) j; simpa using this
  have key : ∀ a b : ℝ, 0 ≤ a ^ 2 * C i i + 2 * a * b * C i j + b ^ 2 * C j j := by
    intro a b
    have := h.psd (Pi.single i a + Pi.single j b)
    rw [Matrix.mulVec_add, add_dotProduct, dotProduct_add, dotProduct_add] at this
    simp only [single_dotProduct, Matrix.mulVec_single] at this
    simp [hs] at this
    nlinarith [this]
  have hi : 0 ≤ C i i := by have := key 1 0; linarith
  have hj : 0 ≤ C j j := by have := key 0 1; linarith
  by_cases h0 : C j j = 0
  · have h1 : C i j = 0 := by
      by_contra hne
      have := key (C i j) (-(C i i + 1) / 2)
      rw [h0] at this
      have hp : 0 < C i j ^ 2 := by positivity
      nlinarith
    rw [h1, h0]; simp
  · have := key (C j j) (-C i j)
    have hjp : 0 < C j j := lt_of_le_of_ne hj (Ne.symm h0)
    have : 0 ≤ C j j * (C i i * C j j - C i j ^ 2) := by nlinarith
    have := nonneg_of_mul_nonneg_right this hjp
    linarith

theorem IsCov.diag_nonneg {C : Mat n} (h : IsCov C) (i : Fin n) : 0 ≤ C i i := by
  have := h.psd (Pi.single i 1)
  simpa using this

end Verif.Cov
