import Verif.Model.SimLik
import Verif.Spec.SimLik
import Verif.Lemmas.Cov
import Verif.Lemmas.SimFit
import Mathlib.Analysis.Matrix.PosDef
import Mathlib.Data.Matrix.Mul

/-!
# The normal density through an eigendecomposition
-/

namespace Verif.Sim

open Verif.Cov Matrix

variable {d : Nat}

theorem eig_inv {C : Mat d} {ps : List (Pair d)} (h : IsEigen C ps) (hl : ps.length = d) (hne : ∀ p ∈ ps, p.1 ≠ 0) :
    C * eigSum (ps.map fun p => (1 / p.1, p.2)) = 1 := by
  ext i j
  rw [Matrix.mul_apply, Matrix.one_apply]
  have e1 : ∀ m, C i m * eigSum (ps.map fun p => (1 / p.1, p.2)) m j =
      (ps.map fun p => C i m * (1 / p.1 * (p.2 m * p.2 j))).sum := by
    intro m
    rw [eigSum_apply, List.map_map, ← List.sum_map_mul_left]
    rfl
  rw [Finset.sum_congr rfl fun m _ => e1 m]
  have e2 : ∑ m, (ps.map fun p => C i m * (1 / p.1 * (p.2 m * p.2 j))).sum =
      (ps.map fun p => ∑ m, C i m * (1 / p.1 * (p.2 m * p.2 j))).sum := by
    have : ∀ l : List (Pair d), ∑ m, (l.map fun p => C i m * (1 / p.1 * (p.2 m * p.2 j))).sum =
        (l.map fun p => ∑ m, C i m * (1 / p.1 * (p.2 m * p.2 j))).sum := by
      intro l
      induction l with
      | nil => simp
      | cons p l ih => simp only [List.map_cons, List.sum_cons, Finset.sum_add_distrib, ih]
    exact this ps
  rw [e2, ← ortho_resolution h.ortho (by simpa using hl) i j, List.map_map]
  congr 1
  apply List.map_congr_left
  intro p hp
  have he := congrFun (h.eig p hp) i
  simp only [Matrix.mulVec, dotProduct, Pi.smul_apply, smul_eq_mul] at he
  have : ∑ m, C i m * (1 / p.1 * (p.2 m * p.2 j)) = (∑ m, C i m * p.2 m) * (1 / p.1 * p.2 j) := by
    rw [Finset.sum_mul]
    exact Finset.sum_congr rfl fun m _ => by ring
  rw [this, he]
  have := hne p hp
  simp only [Function.comp]
  field_simp

theorem eig_quad_inv {C : Mat d} {ps : List (Pair d)} (h : IsEigen C ps) (hl : ps.length = d) (hne : ∀ p ∈ ps, p.1 ≠ 0)
    (x : Fin d → ℝ) : (ps.map fun p => dotProduct x p.2 ^ 2 / p.1).sum = dotProduct x (C⁻¹.mulVec x) := by
  rw [Matrix.inv_eq_right_inv (eig_inv h hl hne), quad_eigSum, List.map_map]
  congr 1
  apply List.map_congr_left
  intro p _
  simp only [Function.comp]
  rw [dotProduct_comm]
  ring

theorem eig_det {C : Mat d} {ps : List (Pair d)} (h : IsEigen C ps) (hl : ps.length = d) :
    C.det = (ps.map fun p => p.1).prod := by
  let V : Matrix (Fin d) (Fin d) ℝ := fun a i => (ps[a.1]'(by omega)).2 i
  let w : Fin d → ℝ := fun a => (ps[a.1]'(by omega)).1
  have h1 : V * V.transpose = 1 := by
    ext a b
    have := h.ortho.get a.1 b.1 (by simp; omega) (by simp; omega)
    rw [List.getElem_map, List.getElem_map] at this
    rw [Matrix.mul_apply, Matrix.one_apply]
    simp only [Fin.ext_iff]
    exact this
  have h2 : V.transpose * V = 1 := mul_eq_one_comm.mp h1
  have hsum : ∀ f : Pair d → ℝ, (ps.map f).sum = ∑ a : Fin d, f (ps[a.1]'(by omega)) := by
    intro f
    rw [list_sum_fin]
    exact Fintype.sum_equiv (finCongr hl) _ _ fun a => rfl
  have h3 : C = V.transpose * diagonal w * V := by
    rw [← eigSum_eq h hl]
    ext i j
    rw [eigSum_apply, hsum, Matrix.mul_apply]
    refine Finset.sum_congr rfl fun a _ => ?_
    rw [Matrix.mul_diagonal]
    show _ = V a i * w a * V a j
    simp only [V, w]
    ring
  rw [h3, det_mul, det_mul, det_diagonal]
  have h4 : V.transpose.det * V.det = 1 := by rw [← det_mul, h2, det_one]
  have h5 : (ps.map fun p => p.1).prod = ∏ a : Fin d, w a := by
    have : (ps.map fun p => p.1) = List.ofFn w := by
      apply List.ext_getElem
      · simp [hl]
      · intro n h1 h2; simp [w]
    rw [this, List.prod_ofFn]
  rw [h5, mul_assoc, mul_comm (∏ _, _), ← mul_assoc, h4, one_mul]

theorem eig_posDef {C : Mat d} {ps : List (Pair d)} (hs : C.IsSymm) (h : IsEigen C ps) (hl : ps.length = d) :
    C.PosDef ↔ ∀ p ∈ ps, 0 < p.1 := by
  constructor
  · intro hp p hm
    have hv : dotProduct p.2 p.2 = 1 := h.ortho.1 _ (List.mem_map.mpr ⟨p, hm, rfl⟩)
    have hne : p.2 ≠ 0 := by
      intro h0
      rw [h0] at hv
      simp at hv
    have := hp.dotProduct_mulVec_pos hne
    rw [h.eig p hm] at this
    simpa [hv] using this
  · intro hp
    refine Matrix.PosDef.of_dotProduct_mulVec_pos (by rw [Matrix.IsHermitian, conjTranspose_eq_transpose_of_trivial]; exact hs) ?_
    intro x hx
    have e : dotProduct (star x) (C.mulVec x) = (ps.map fun p => p.1 * (dotProduct p.2 x) ^ 2).sum := by
      rw [← quad_eigSum, eigSum_eq h hl]; rfl
    rw [e]
    have hnn : ∀ y ∈ (ps.map fun p => p.1 * (dotProduct p.2 x) ^ 2), 0 ≤ y := by
      intro y hy
      obtain ⟨p, hm, rfl⟩ := List.mem_map.mp hy
      exact mul_nonneg (hp p hm).le (sq_nonneg _)
    refine lt_of_le_of_ne (List.sum_nonneg hnn) fun h0 => hx ?_
    have hz : ∀ p ∈ ps, dotProduct p.2 x = 0 := by
      intro p hm
      have h1 : p.1 * dotProduct p.2 x ^ 2 = 0 :=
        le_antisymm (h0 ▸ List.single_le_sum hnn _ (List.mem_map.mpr ⟨p, hm, rfl⟩)) (hnn _ (List.mem_map.mpr ⟨p, hm, rfl⟩))
      rcases mul_eq_zero.mp h1 with h2 | h2
      · exact absurd h2 (hp p hm).ne'
      · exact pow_eq_zero_iff (by norm_num) |>.mp h2
    funext i
    have hr := fun j => ortho_resolution h.ortho (by simpa using hl) i j
    have : x i = ∑ j, ((ps.map (·.2)).map fun v => v i * v j).sum * x j := by
      rw [Finset.sum_congr rfl fun j _ => by rw [hr j]]
      simp
    rw [this]
    have e3 : ∀ l : List (Pair d), (∀ p ∈ l, dotProduct p.2 x = 0) →
        ∑ j, ((l.map (·.2)).map fun v => v i * v j).sum * x j = 0 := by
      intro l
      induction l with
      | nil => simp
      | cons p l ih =>
        intro hl
        simp only [List.map_cons, List.sum_cons, add_mul, Finset.sum_add_distrib]
        rw [ih fun q hq => hl q (by simp [hq]), add_zero]
        have : ∑ j, p.2 i * p.2 j * x j = p.2 i * dotProduct p.2 x := by
          unfold dotProduct
          rw [Finset.mul_sum]
          exact Finset.sum_congr rfl fun _ _ => by ring
        rw [this, hl p (by simp), mul_zero]
    exact e3 ps hz

theorem log_prod_list {ps : List (Pair d)} (h : ∀ p ∈ ps, 0 < p.1) :
    (ps.map fun p => Real.log p.1).sum = Real.log (ps.map fun p => p.1).prod := by
  induction ps with
  | nil => simp
  | cons p ps ih =>
    have h1 : 0 < (ps.map fun p => p.1).prod := by
      apply List.prod_pos
      intro y hy
      obtain ⟨q, hq, rfl⟩ := List.mem_map.mp hy
      exact h q (by simp [hq])
    simp only [List.map_cons, List.sum_cons, List.prod_cons]
    rw [ih fun q hq => h q (by simp [hq]), Real.log_mul (h p (by simp)).ne' h1.ne']

/-- What scipy computes from the eigendecomposition is the logarithm of the normal density. -/
theorem mvnLogpdf_eq {C : Mat d} {ps : List (Pair d)} (hs : C.IsSymm) (h : IsEigen C ps) (hl : ps.length = d)
    (hp : C.PosDef) (y μ : Fin d → ℝ) : mvnLogpdf ps (fun k => y k - μ k) = logDensity μ C y := by
  have hpos := (eig_posDef hs h hl).mp hp
  unfold mvnLogpdf logDensity
  have : (fun k => y k - μ k) = y - μ := rfl
  rw [this, log_prod_list hpos, eig_quad_inv h hl (fun p hm => (hpos p hm).ne'), eig_det h hl]

theorem psdCheck_ok {C : Mat d} {ps : List (Pair d)} (hs : C.IsSymm) (h : IsEigen C ps) (hl : ps.length = d) :
    psdCheck ps = .ok () ↔ C.PosDef := by
  rw [eig_posDef hs h hl]
  unfold psdCheck
  by_cases h1 : ∃ p ∈ ps, p.1 < 0
  · rw [if_pos h1]
    obtain ⟨p, hm, hp⟩ := h1
    exact ⟨(fun h => by cases h), fun h => absurd (h p hm) (not_lt.mpr hp.le)⟩
  · rw [if_neg h1]
    by_cases h2 : ∃ p ∈ ps, p.1 = 0
    · rw [if_pos h2]
      obtain ⟨p, hm, hp⟩ := h2
      exact ⟨(fun h => by cases h), fun h => absurd (h p hm) (by rw [hp]; exact lt_irrefl _)⟩
    · rw [if_neg h2]
      push Not at h1 h2
      exact ⟨fun _ p hm => lt_of_le_of_ne (h1 p hm) (Ne.symm (h2 p hm)), fun _ => rfl⟩

theorem covMat_symm (std : List ℝ) (cor : Arr) : (covMat d std cor).IsSymm := by
  ext i j
  simp only [Matrix.transpose_apply, covMat, max_comm, min_comm]

theorem covMat_eq {std : List ℝ} {cor : Arr} (h : SymArr d cor) : covMat d std cor = covOf d (fun k => std.getD k 0) cor := by
  ext i j
  unfold covMat covOf
  rcases le_total i j with hij | hij
  · rw [max_eq_right hij, min_eq_left hij, h.symm j j.2 i i.2]; ring
  · rw [max_eq_left hij, min_eq_right hij]; ring

end Verif.Sim
