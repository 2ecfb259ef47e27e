import Verif.Spec.Denoise
import Verif.Spec.CovLaw
import Verif.Props.CovDenoise
import Mathlib.LinearAlgebra.Matrix.Rank
import Mathlib.Algebra.Order.BigOperators.Ring.Finset

/-!
# Denoised correlation matrices are factor models (C123)
-/

namespace Verif.Cov

open Verif.Sim (clip1 lmean)
open Finset

variable {n : Nat} {eigh : Mat n → List (Pair n)} {argsort : List ℝ → List Nat} {svdU : List (Fin n → ℝ) → List (Fin n → ℝ)}

/-! ### Systems of eigenvectors -/

namespace Sys

variable {C : Mat n} {lam : Fin n → ℝ} {v : Fin n → Fin n → ℝ} (h : Sys C lam v)

include h

theorem res (i j : Fin n) : ∑ a, v a i * v a j = if i = j then 1 else 0 := by
  have h1 : (Matrix.of v) * (Matrix.of v).transpose = 1 := by
    ext a b
    rw [Matrix.mul_apply, Matrix.one_apply, ← h.ortho a b]
    rfl
  have h2 := mul_eq_one_comm.mp h1
  have h3 := congrFun (congrFun h2 i) j
  rw [Matrix.mul_apply, Matrix.one_apply] at h3
  exact h3

theorem spectral (i j : Fin n) : C i j = ∑ a, lam a * (v a i * v a j) := by
  have e : ∀ a, lam a * (v a i * v a j) = ∑ k, C i k * (v a k * v a j) := fun a => by
    have := congrFun (h.eig a) i
    simp only [Matrix.mulVec, dotProduct, Pi.smul_apply, smul_eq_mul] at this
    rw [← mul_assoc, ← this, sum_mul]
    exact sum_congr rfl fun k _ => by ring
  rw [sum_congr rfl fun a _ => e a, sum_comm]
  have e2 : ∀ k, ∑ a, C i k * (v a k * v a j) = C i k * if k = j then 1 else 0 := fun k => by rw [← mul_sum, h.res]
  rw [sum_congr rfl fun k _ => e2 k]
  simp

theorem norm (x : Fin n → ℝ) : ∑ i, x i ^ 2 = ∑ a, dotProduct (v a) x ^ 2 := by
  have e : ∀ a, dotProduct (v a) x ^ 2 = ∑ i, ∑ j, (v a i * v a j) * (x i * x j) := fun a => by
    rw [pow_two]
    unfold dotProduct
    rw [sum_mul_sum]
    exact sum_congr rfl fun i _ => sum_congr rfl fun j _ => by ring
  rw [sum_congr rfl fun a _ => e a, sum_comm]
  refine sum_congr rfl fun i _ => ?_
  rw [sum_comm]
  have e2 : ∀ j, ∑ a, v a i * v a j * (x i * x j) = if i = j then x i * x j else 0 := fun j => by
    rw [← sum_mul, h.res]
    split <;> simp
  rw [sum_congr rfl fun j _ => e2 j]
  simp [pow_two]

omit h in
/-- The quadratic form of a sum of multiples of products of vectors. -/
theorem quad_sum (w : Fin n → ℝ) (v : Fin n → Fin n → ℝ) (x : Fin n → ℝ) :
    ∑ i, ∑ j, x i * (∑ a, w a * (v a i * v a j)) * x j = ∑ a, w a * dotProduct (v a) x ^ 2 := by
  have e : ∀ a, w a * dotProduct (v a) x ^ 2 = ∑ i, ∑ j, x i * (w a * (v a i * v a j)) * x j := fun a => by
    rw [pow_two]
    unfold dotProduct
    rw [sum_mul_sum, mul_sum]
    refine sum_congr rfl fun i _ => ?_
    rw [mul_sum]
    exact sum_congr rfl fun j _ => by ring
  rw [sum_congr rfl fun a _ => e a]
  conv_rhs => rw [sum_comm]
  refine sum_congr rfl fun i _ => ?_
  conv_rhs => rw [sum_comm]
  refine sum_congr rfl fun j _ => ?_
  rw [mul_sum, sum_mul]

theorem quad (x : Fin n → ℝ) : dotProduct x (C.mulVec x) = ∑ a, lam a * dotProduct (v a) x ^ 2 := by
  rw [quad_eq, ← quad_sum lam v x]
  exact sum_congr rfl fun i _ => sum_congr rfl fun j _ => by rw [h.spectral i j]

theorem quad_vec (a : Fin n) : dotProduct (v a) (C.mulVec (v a)) = lam a := by
  rw [h.eig, dotProduct_smul, h.ortho, if_pos rfl, smul_eq_mul, mul_one]

/-- The same function of the eigenvalues gives the same matrix for every system. -/
theorem same {lam' : Fin n → ℝ} {v' : Fin n → Fin n → ℝ} (h' : Sys C lam' v') (hC : C.IsSymm) (f : ℝ → ℝ) (i j : Fin n) :
    ∑ a, f (lam a) * (v a i * v a j) = ∑ a, f (lam' a) * (v' a i * v' a j) := by
  have key : ∀ a b, f (lam a) * dotProduct (v a) (v' b) = f (lam' b) * dotProduct (v a) (v' b) := fun a b => by
    have e1 : lam' b * dotProduct (v a) (v' b) = lam a * dotProduct (v a) (v' b) := by
      calc lam' b * dotProduct (v a) (v' b) = dotProduct (v a) (C.mulVec (v' b)) := by rw [h'.eig, dotProduct_smul, smul_eq_mul]
        _ = dotProduct (C.mulVec (v a)) (v' b) := by
            rw [Matrix.dotProduct_mulVec, ← Matrix.mulVec_transpose, hC.eq]
        _ = _ := by rw [h.eig, smul_dotProduct, smul_eq_mul]
    by_cases e : lam a = lam' b
    · rw [e]
    · have : dotProduct (v a) (v' b) = 0 := by
        have : (lam a - lam' b) * dotProduct (v a) (v' b) = 0 := by linear_combination -e1
        exact (mul_eq_zero.mp this).resolve_left (sub_ne_zero.mpr e)
      rw [this, mul_zero, mul_zero]
  -- expand one vector in the other system
  have ex : ∀ a i, v a i = ∑ b, dotProduct (v a) (v' b) * v' b i := fun a i => by
    have : ∀ b, dotProduct (v a) (v' b) * v' b i = ∑ k, v a k * (v' b k * v' b i) := fun b => by
      unfold dotProduct
      rw [sum_mul]
      exact sum_congr rfl fun k _ => by ring
    rw [sum_congr rfl fun b _ => this b, sum_comm]
    have : ∀ k, ∑ b, v a k * (v' b k * v' b i) = v a k * if k = i then 1 else 0 := fun k => by rw [← mul_sum, h'.res]
    rw [sum_congr rfl fun k _ => this k]
    simp
  have ex' : ∀ b i, v' b i = ∑ a, dotProduct (v a) (v' b) * v a i := fun b i => by
    have : ∀ a, dotProduct (v a) (v' b) * v a i = ∑ k, v' b k * (v a k * v a i) := fun a => by
      unfold dotProduct
      rw [sum_mul]
      exact sum_congr rfl fun k _ => by ring
    rw [sum_congr rfl fun a _ => this a, sum_comm]
    have : ∀ k, ∑ a, v' b k * (v a k * v a i) = v' b k * if k = i then 1 else 0 := fun k => by rw [← mul_sum, h.res]
    rw [sum_congr rfl fun k _ => this k]
    simp
  calc ∑ a, f (lam a) * (v a i * v a j) = ∑ a, ∑ b, f (lam a) * dotProduct (v a) (v' b) * (v a i * v' b j) := by
        refine sum_congr rfl fun a _ => ?_
        conv_lhs => rw [ex a j]
        rw [mul_sum, mul_sum]
        exact sum_congr rfl fun b _ => by ring
    _ = ∑ b, ∑ a, f (lam' b) * dotProduct (v a) (v' b) * (v a i * v' b j) := by
        rw [sum_comm]
        exact sum_congr rfl fun b _ => sum_congr rfl fun a _ => by rw [key]
    _ = _ := by
        refine sum_congr rfl fun b _ => ?_
        conv_rhs => rw [ex' b i]
        rw [sum_mul, mul_sum]
        exact sum_congr rfl fun a _ => by ring

end Sys

/-! ### Systems from lists -/

theorem sum_take {α : Type} (l : List α) (f : α → ℝ) (m : Nat) :
    ((l.take m).map f).sum = ∑ a : Fin l.length, if (a : Nat) < m then f l[a] else 0 := by
  induction l generalizing m with
  | nil => simp
  | cons x l ih =>
    cases m with
    | zero => simp
    | succ m =>
      rw [List.take_succ_cons, List.map_cons, List.sum_cons, ih]
      simp only [List.length_cons]
      rw [Fin.sum_univ_succ]
      simp

theorem sum_drop {α : Type} (l : List α) (f : α → ℝ) (m : Nat) :
    ((l.drop m).map f).sum = ∑ a : Fin l.length, if m ≤ (a : Nat) then f l[a] else 0 := by
  induction l generalizing m with
  | nil => simp
  | cons x l ih =>
    cases m with
    | zero =>
      rw [List.drop_zero, list_sum_fin]
      simp
    | succ m =>
      rw [List.drop_succ_cons, ih]
      simp only [List.length_cons]
      rw [Fin.sum_univ_succ]
      simp

theorem sum_take_fin {α : Type} {l : List α} {N : Nat} (hl : l.length = N) (f : α → ℝ) (m : Nat) :
    ((l.take m).map f).sum = ∑ a : Fin N, if (a : Nat) < m then f (l[(a : Nat)]'(by rw [hl]; exact a.2)) else 0 := by
  subst hl
  exact sum_take l f m

theorem sum_drop_fin {α : Type} {l : List α} {N : Nat} (hl : l.length = N) (f : α → ℝ) (m : Nat) :
    ((l.drop m).map f).sum = ∑ a : Fin N, if m ≤ (a : Nat) then f (l[(a : Nat)]'(by rw [hl]; exact a.2)) else 0 := by
  subst hl
  exact sum_drop l f m

/-- The eigenvalues and eigenvectors of a complete list. -/
def lamOf (ps : List (Pair n)) (hl : ps.length = n) (a : Fin n) : ℝ := (ps[(a : Nat)]'(by rw [hl]; exact a.2)).1

def vecOf (ps : List (Pair n)) (hl : ps.length = n) (a : Fin n) : Fin n → ℝ := (ps[(a : Nat)]'(by rw [hl]; exact a.2)).2

theorem sys_of_list {C : Mat n} {ps : List (Pair n)} (he : IsEigen C ps) (hl : ps.length = n) (hd : Descending ps) :
    Sys C (lamOf ps hl) (vecOf ps hl) := by
  refine ⟨fun a b => ?_, fun a => he.eig _ (List.getElem_mem _), fun a b hab => ?_⟩
  · have := he.ortho.get a b (by rw [List.length_map, hl]; exact a.2) (by rw [List.length_map, hl]; exact b.2)
    rw [List.getElem_map, List.getElem_map] at this
    rw [vecOf, vecOf, this]
    simp [Fin.ext_iff]
  · rcases eq_or_lt_of_le hab with e | hlt
    · rw [e]
    · have := List.pairwise_iff_getElem.mp hd a b (by rw [List.length_map, hl]; exact a.2) (by rw [List.length_map, hl]; exact b.2) hlt
      rw [List.getElem_map, List.getElem_map] at this
      exact this

theorem level_of_list {ps : List (Pair n)} (hl : ps.length = n) {m : Nat} (hm : m ≤ n) :
    lmean ((ps.drop m).map (·.1)) = level (lamOf ps hl) m := by
  unfold lmean level
  rw [List.length_map, List.length_drop, hl, Nat.cast_sub hm, sum_drop_fin hl]
  rfl

theorem excess_of_list {ps : List (Pair n)} (hl : ps.length = n) {m : Nat} (hm : m ≤ n) (i j : Fin n) :
    eigSum ((ps.take m).map fun p => (p.1 - lmean ((ps.drop m).map (·.1)), p.2)) i j = excess (lamOf ps hl) (vecOf ps hl) m i j := by
  rw [level_of_list hl hm]
  rw [eigSum_apply, List.map_map, sum_take_fin hl]
  rfl

/-! ### What the code returns -/

/-- The number of factors that `k` keeps: `values[:k]`. -/
def kept (n : Nat) (k : Int) : Nat := if 0 ≤ k then min k.toNat n else (n + k).toNat

theorem kept_le (n : Nat) (k : Int) : kept n k ≤ n := by
  unfold kept
  split <;> omega

theorem slice_kept {α : Type} {l : List α} (hl : l.length = n) (k : Int) : sliceTo l k = l.take (kept n k) := by
  unfold sliceTo kept
  split
  · rw [← hl, ← List.take_eq_take_min]
  · rw [hl]

theorem excess_all {C : Mat n} {lam : Fin n → ℝ} {v : Fin n → Fin n → ℝ} (h : Sys C lam v) (i j : Fin n) : excess lam v n i j = C i j := by
  unfold excess
  have : level lam n = 0 := by
    unfold level
    rw [sub_self, div_zero]
  rw [this, h.spectral i j]
  exact sum_congr rfl fun a _ => by rw [if_pos a.2, sub_zero]

/-- **Denoising with a given number of factors.** -/
theorem denoised_manual (hE : EighSpec eigh) (hs : ArgsortSpec argsort) (hV : SvdSpec svdU) {C : Mat n} (hC : IsCor C) {T : Nat} {k : Int}
    {r : Mat n × Info} (h : corDenoise eigh argsort svdU T (some k) (.square C) = .ok r) : Denoised C (kept n k) r.1 := by
  obtain ⟨hev, hlen, hdesc⟩ := cor_to_eig_all hE hs hC.symm
  obtain ⟨hR, hform⟩ := manual_form hE hs hV hC h
  obtain ⟨h1, h2⟩ := hform _ (slice_kept hlen k)
  refine ⟨_, _, sys_of_list hev hlen hdesc, hR.diag, fun i j hij => ?_⟩
  rcases lt_or_eq_of_le (kept_le n k) with hlt | e
  · rw [h2 hlt i j hij, excess_of_list hlen hlt.le]
  · rw [h1 e.ge, e, excess_all (sys_of_list hev hlen hdesc)]

theorem rank_le_iff {C : Mat n} {lam : Fin n → ℝ} {v : Fin n → Fin n → ℝ} (h : Sys C lam v) (h0 : ∀ a, 0 ≤ lam a) (m : Nat) :
    C.rank ≤ m ↔ ∀ a : Fin n, m ≤ a → lam a = 0 := by
  have happ : ∀ x, C.mulVec x = ∑ a, (lam a * dotProduct (v a) x) • v a := fun x => by
    ext i
    rw [Finset.sum_apply]
    simp only [Matrix.mulVec, Pi.smul_apply, smul_eq_mul, dotProduct]
    have : ∀ a, lam a * (∑ k, v a k * x k) * v a i = ∑ k, lam a * (v a i * v a k) * x k := fun a => by
      rw [mul_sum, sum_mul]
      exact sum_congr rfl fun k _ => by ring
    rw [sum_congr rfl fun a _ => this a, sum_comm]
    exact sum_congr rfl fun k _ => by rw [h.spectral i k, sum_mul]
  constructor
  · intro hr a ha
    by_contra hne
    have hpos : ∀ b : Fin n, b ≤ a → 0 < lam b := fun b hb => (lt_of_le_of_ne (h0 a) (Ne.symm hne)).trans_le (h.desc hb)
    have hli : LinearIndependent ℝ v := by
      have h1 : (Matrix.of v) * (Matrix.of v).transpose = 1 := by
        ext a b
        rw [Matrix.mul_apply, Matrix.one_apply, ← h.ortho a b]
        rfl
      exact Matrix.linearIndependent_rows_of_isUnit (A := Matrix.of v) (IsUnit.of_mul_eq_one _ h1)
    have hli' : LinearIndependent ℝ fun b : Fin (a + 1) => v (b.castLE a.2) := hli.comp _ (Fin.castLE_injective _)
    have hsub : Submodule.span ℝ (Set.range fun b : Fin (a + 1) => v (b.castLE a.2)) ≤ LinearMap.range C.mulVecLin := by
      rw [Submodule.span_le]
      rintro _ ⟨b, rfl⟩
      have hb := hpos (b.castLE a.2) (Fin.mk_le_of_le_val (by have := b.2; simp; omega))
      refine ⟨(lam (b.castLE a.2))⁻¹ • v (b.castLE a.2), ?_⟩
      rw [Matrix.mulVecLin_apply, Matrix.mulVec_smul, h.eig, smul_smul, inv_mul_cancel₀ hb.ne', one_smul]
    have hcard := finrank_span_eq_card hli'
    have hle := Submodule.finrank_mono hsub
    rw [hcard, Fintype.card_fin] at hle
    have : C.rank = Module.finrank ℝ (LinearMap.range C.mulVecLin) := rfl
    omega
  · intro hz
    have hsub : LinearMap.range C.mulVecLin ≤ Submodule.span ℝ (((univ.filter fun a : Fin n => (a : Nat) < m).image v : Finset (Fin n → ℝ)) : Set (Fin n → ℝ)) := by
      rintro _ ⟨x, rfl⟩
      rw [Matrix.mulVecLin_apply, happ]
      refine Submodule.sum_mem _ fun a _ => ?_
      by_cases ha : (a : Nat) < m
      · exact Submodule.smul_mem _ _ (Submodule.subset_span (Finset.mem_coe.mpr (mem_image_of_mem _ (mem_filter.mpr ⟨mem_univ _, ha⟩))))
      · rw [hz a (by omega), zero_mul, zero_smul]
        exact Submodule.zero_mem _
    calc C.rank = Module.finrank ℝ (LinearMap.range C.mulVecLin) := rfl
      _ ≤ _ := Submodule.finrank_mono hsub
      _ ≤ _ := finrank_span_finset_le_card _
      _ ≤ _ := card_image_le
      _ ≤ (range m).card := card_le_card_of_injOn (fun a => (a : Nat)) (fun a ha => mem_range.mpr (mem_filter.mp ha).2)
          fun a _ b _ e => Fin.ext e
      _ = m := card_range m

theorem lam_nonneg {C : Mat n} (hC : IsCov C) {lam : Fin n → ℝ} {v : Fin n → Fin n → ℝ} (h : Sys C lam v) (a : Fin n) : 0 ≤ lam a := by
  rw [← h.quad_vec a]
  exact hC.psd _

/-- **Denoising with the fitted number of factors**, for a matrix whose rank is at most the number of time steps. -/
theorem denoised_fitted (hE : EighSpec eigh) (hs : ArgsortSpec argsort) {C : Mat n} (hC : IsCor C) {T : Nat} (hT : C.rank ≤ T)
    {r : Mat n × Info} (h : corDenoise eigh argsort svdU T none (.square C) = .ok r) :
    ∃ m : Nat, r.2.k = m ∧ m ≤ n ∧ Denoised C m r.1 := by
  have hR := cor_denoise_fitted_valid (svdU := svdU) hE hs hC.isCov (fun i => (hC.diag i).le) h
  unfold corDenoise at h
  obtain ⟨hev, hlen, hdesc⟩ := cor_to_eig_all hE hs hC.symm
  dsimp only at h
  generalize corToEig eigh argsort C true none = ps at *
  obtain ⟨⟨lam, info, after⟩, hden, h⟩ := Sim.bind_inv h
  cases h
  obtain ⟨h1, -⟩ := denoise_inv hden
  dsimp only at h1 hR ⊢
  have hsys := sys_of_list hev hlen hdesc
  have hk : ∃ m : Nat, info.k = m ∧ m ≤ n := by
    unfold eigenValuesDenoise at hden
    obtain ⟨var, -, hd2⟩ := Sim.bind_inv hden
    cases hd2
    refine ⟨_, rfl, ?_⟩
    refine List.countP_le_length.trans ?_
    rw [(truncate_laws _ T).1, List.length_map, hlen]
  obtain ⟨m, hkm, hmn⟩ := hk
  have htrunc : truncateEig (ps.map (·.1)) T = ps.map (·.1) := by
    have hz := (rank_le_iff hsys (lam_nonneg hC.isCov hsys) T).mp hT
    unfold truncateEig
    split
    · rename_i hlt
      conv_rhs => rw [← List.take_append_drop T (ps.map (·.1))]
      congr 1
      symm
      rw [List.eq_replicate_iff, List.length_drop]
      refine ⟨rfl, fun x hx => ?_⟩
      obtain ⟨q, hq, rfl⟩ := List.mem_iff_getElem.mp hx
      rw [List.length_drop, List.length_map, hlen] at hq
      rw [List.getElem_drop, List.getElem_map]
      exact hz ⟨T + q, by omega⟩ (Nat.le_add_right _ _)
    · rfl
  rw [htrunc] at h1
  have hflat : flattenTail (ps.map (·.1)) m = (ps.map (·.1)).take m ++ List.replicate ((ps.map (·.1)).length - m) (lmean ((ps.drop m).map (·.1))) := by
    unfold flattenTail sliceFrom
    rw [if_pos (by omega)]
    simp only [Int.toNat_natCast, List.length_drop, List.length_map, hlen, List.map_drop]
    congr 2
    omega
  have hz : lam.zip (ps.map (·.2)) = ps.take m ++ ((ps.drop m).map (·.2)).map fun w => (lmean ((ps.drop m).map (·.1)), w) := by
    rw [h1, hkm, hflat, zip_flatten _ _ (by simp) m (by simp [hlen]; omega)]
    congr 1
    · rw [← List.map_take, ← List.map_take, List.zip_map']
      simp
    · simp only [List.map_drop]
  rw [hz] at hR ⊢
  refine ⟨m, hkm, hmn, _, _, hsys, hR.diag, fun i j hij => ?_⟩
  rcases lt_or_eq_of_le hmn with hlt | e
  · rw [← excess_of_list hlen hmn]
    refine (denoised_form hC hev hlen hdesc hlt (ws := (ps.drop m).map (·.2)) ?_).2 i j hij
    intro i j
    rw [← List.map_append, List.take_append_drop]
    exact ortho_resolution hev.ortho (by simpa using hlen) i j
  · have e1 : ps.take m = ps := by rw [List.take_eq_self_iff]; omega
    have e2 : ps.drop m = [] := by rw [List.drop_eq_nil_iff]; omega
    rw [e1, e2]
    simp only [List.map_nil, List.append_nil]
    rw [eig_to_cor_inverse hC hev hlen, e, excess_all hsys]

/-! ### The level -/

theorem card_tail {m : Nat} (hm : m ≤ n) : (∑ a : Fin n, if m ≤ (a : Nat) then (1 : ℝ) else 0) = (n : ℝ) - m := by
  have h1 : (∑ a : Fin n, if m ≤ (a : Nat) then (1 : ℝ) else 0) = ∑ a ∈ range n, if m ≤ a then (1 : ℝ) else 0 :=
    Fin.sum_univ_eq_sum_range (fun a => if m ≤ a then (1 : ℝ) else 0) n
  rw [h1, ← Finset.sum_filter, sum_const, nsmul_eq_mul, mul_one]
  have : ((range n).filter fun a => m ≤ a) = Ico m n := by
    ext a
    rw [mem_filter, mem_range, mem_Ico]
    tauto
  rw [this, Nat.card_Ico, Nat.cast_sub hm]

theorem le_level {lam : Fin n → ℝ} {m : Nat} (hm : m < n) {c : ℝ} (h : ∀ a : Fin n, m ≤ a → c ≤ lam a) : c ≤ level lam m := by
  have hp : (0 : ℝ) < (n : ℝ) - m := by
    have : (m : ℝ) < n := by exact_mod_cast hm
    linarith
  unfold level
  rw [le_div_iff₀ hp, ← card_tail hm.le, mul_sum]
  refine sum_le_sum fun a _ => ?_
  split
  · rename_i ha
    rw [mul_one]
    exact h a ha
  · rw [mul_zero]

theorem level_le {lam : Fin n → ℝ} {m : Nat} (hm : m < n) {c : ℝ} (h : ∀ a : Fin n, m ≤ a → lam a ≤ c) : level lam m ≤ c := by
  have hp : (0 : ℝ) < (n : ℝ) - m := by
    have : (m : ℝ) < n := by exact_mod_cast hm
    linarith
  unfold level
  rw [div_le_iff₀ hp, ← card_tail hm.le, mul_sum]
  refine sum_le_sum fun a _ => ?_
  split
  · rename_i ha
    rw [mul_one]
    exact h a ha
  · rw [mul_zero]

theorem level_all (lam : Fin n → ℝ) : level lam n = 0 := by
  unfold level
  rw [sub_self, div_zero]

/-- Before position `m` no eigenvalue is below the level, and the level is not negative. -/
theorem level_between {lam : Fin n → ℝ} (hd : Antitone lam) (h0 : ∀ a, 0 ≤ lam a) {m : Nat} (hm : m ≤ n) :
    0 ≤ level lam m ∧ ∀ a : Fin n, (a : Nat) < m → level lam m ≤ lam a := by
  rcases lt_or_eq_of_le hm with hlt | e
  · exact ⟨le_level hlt fun a _ => h0 a, fun a ha => level_le hlt fun b hb => hd (Fin.mk_le_of_le_val (by omega))⟩
  · subst e
    rw [level_all]
    exact ⟨le_rfl, fun a _ => h0 a⟩

/-! ### The denoised matrix -/

/-- The specific variance of an asset. -/
noncomputable def specific (lam : Fin n → ℝ) (v : Fin n → Fin n → ℝ) (m : Nat) (i : Fin n) : ℝ := 1 - excess lam v m i i

theorem specific_eq {C : Mat n} (hC : IsCor C) {lam : Fin n → ℝ} {v : Fin n → Fin n → ℝ} (h : Sys C lam v) (m : Nat) (i : Fin n) :
    specific lam v m i = ∑ a : Fin n, (if (a : Nat) < m then level lam m else lam a) * (v a i * v a i) := by
  unfold specific excess
  rw [← hC.diag i, h.spectral i i, ← sum_sub_distrib]
  refine sum_congr rfl fun a _ => ?_
  split <;> ring

theorem specific_nonneg {C : Mat n} (hC : IsCor C) {lam : Fin n → ℝ} {v : Fin n → Fin n → ℝ} (h : Sys C lam v) {m : Nat} (hm : m ≤ n) (i : Fin n) :
    0 ≤ specific lam v m i := by
  obtain ⟨h1, -⟩ := level_between h.desc (lam_nonneg hC.isCov h) hm
  rw [specific_eq hC h]
  refine sum_nonneg fun a _ => mul_nonneg ?_ (mul_self_nonneg _)
  split
  · exact h1
  · exact lam_nonneg hC.isCov h a

/-- The form of a denoised matrix: what the first factors explain and the rest of each asset on its own. -/
theorem Denoised.form {D : Mat n} {m : Nat} {lam : Fin n → ℝ} {v : Fin n → Fin n → ℝ} (h1 : ∀ i, D i i = 1)
    (h2 : ∀ i j, i ≠ j → D i j = excess lam v m i j) (i j : Fin n) : D i j = excess lam v m i j + if i = j then specific lam v m i else 0 := by
  by_cases e : i = j
  · subst e
    rw [h1, if_pos rfl, specific]
    ring
  · rw [h2 i j e, if_neg e, add_zero]

theorem excess_eq (lam : Fin n → ℝ) (v : Fin n → Fin n → ℝ) (m : Nat) (i j : Fin n) :
    excess lam v m i j = ∑ a : Fin n, (if (a : Nat) < m then lam a - level lam m else 0) * (v a i * v a j) := by
  unfold excess
  exact sum_congr rfl fun a _ => by split <;> simp

theorem Denoised.quad {D : Mat n} {m : Nat} {lam : Fin n → ℝ} {v : Fin n → Fin n → ℝ} (h1 : ∀ i, D i i = 1)
    (h2 : ∀ i j, i ≠ j → D i j = excess lam v m i j) (x : Fin n → ℝ) : dotProduct x (D.mulVec x) =
      (∑ a : Fin n, (if (a : Nat) < m then lam a - level lam m else 0) * dotProduct (v a) x ^ 2) + ∑ i, specific lam v m i * x i ^ 2 := by
  rw [quad_eq, ← Sys.quad_sum, ← sum_add_distrib]
  refine sum_congr rfl fun i _ => ?_
  have : ∀ j, x i * D i j * x j = x i * (∑ a : Fin n, (if (a : Nat) < m then lam a - level lam m else 0) * (v a i * v a j)) * x j +
      if i = j then specific lam v m i * x i ^ 2 else 0 := fun j => by
    rw [Denoised.form h1 h2 i j, excess_eq]
    by_cases e : i = j
    · subst e
      rw [if_pos rfl, if_pos rfl]
      ring
    · rw [if_neg e, if_neg e]
      ring
  rw [sum_congr rfl fun j _ => this j, sum_add_distrib, Finset.sum_ite_eq]
  simp

/-- C123. **A denoised matrix is a factor model** with `m` factors and non-negative specific variances. -/
theorem denoised_factor_model {C D : Mat n} (hC : IsCor C) {m : Nat} (hm : m ≤ n) (hD : Denoised C m D) :
    ∃ (B : Fin m → Fin n → ℝ) (ψ : Fin n → ℝ), (∀ i, 0 ≤ ψ i) ∧ ∀ i j, D i j = (∑ l, B l i * B l j) + if i = j then ψ i else 0 := by
  obtain ⟨lam, v, h, h1, h2⟩ := hD
  obtain ⟨-, hl⟩ := level_between h.desc (lam_nonneg hC.isCov h) hm
  refine ⟨fun l i => √(lam (l.castLE hm) - level lam m) * v (l.castLE hm) i, specific lam v m, specific_nonneg hC h hm, fun i j => ?_⟩
  rw [Denoised.form h1 h2 i j]
  congr 1
  have e : ∀ l : Fin m, √(lam (l.castLE hm) - level lam m) * v (l.castLE hm) i * (√(lam (l.castLE hm) - level lam m) * v (l.castLE hm) j) =
      (lam (l.castLE hm) - level lam m) * (v (l.castLE hm) i * v (l.castLE hm) j) := fun l => by
    have := Real.mul_self_sqrt (sub_nonneg.mpr (hl (l.castLE hm) l.2))
    linear_combination (v (l.castLE hm) i * v (l.castLE hm) j) * this
  rw [sum_congr rfl fun l _ => e l]
  unfold excess
  rw [← Finset.sum_filter]
  symm
  refine sum_bij (fun l _ => l.castLE hm) (fun l _ => mem_filter.mpr ⟨mem_univ _, l.2⟩) (fun a _ b _ e => Fin.castLE_injective _ e) (fun b hb => ?_) fun _ _ => rfl
  exact ⟨⟨b, (mem_filter.mp hb).2⟩, mem_univ _, rfl⟩

/-- C123. **The smallest eigenvalue never decreases.** -/
theorem denoised_smallest {C D : Mat n} (hC : IsCor C) {m : Nat} (hm : m ≤ n) (hD : Denoised C m D) {c : ℝ}
    (hc : ∀ x : Fin n → ℝ, c * ∑ i, x i ^ 2 ≤ dotProduct x (C.mulVec x)) (x : Fin n → ℝ) : c * ∑ i, x i ^ 2 ≤ dotProduct x (D.mulVec x) := by
  obtain ⟨lam, v, h, h1, h2⟩ := hD
  rcases lt_or_eq_of_le hm with hlt | e
  · have hlam : ∀ a, c ≤ lam a := fun a => by
      have := hc (v a)
      rw [h.quad_vec, h.norm] at this
      have e : ∑ b, dotProduct (v b) (v a) ^ 2 = 1 := by
        rw [sum_eq_single a]
        · rw [h.ortho, if_pos rfl, one_pow]
        · intro b _ hb
          rw [h.ortho, if_neg hb]
          norm_num
        · exact fun hn => absurd (mem_univ _) hn
      rwa [e, mul_one] at this
    obtain ⟨-, hl⟩ := level_between h.desc (lam_nonneg hC.isCov h) hm
    have hlev : c ≤ level lam m := le_level hlt fun a _ => hlam a
    rw [Denoised.quad h1 h2]
    have hs : ∀ i, c ≤ specific lam v m i := fun i => by
      rw [specific_eq hC h]
      have e := h.res i i
      rw [if_pos rfl] at e
      calc c = ∑ a, c * (v a i * v a i) := by rw [← mul_sum, e, mul_one]
        _ ≤ _ := sum_le_sum fun a _ => mul_le_mul_of_nonneg_right (by split; exacts [hlev, hlam a]) (mul_self_nonneg _)
    have a1 : 0 ≤ ∑ a : Fin n, (if (a : Nat) < m then lam a - level lam m else 0) * dotProduct (v a) x ^ 2 :=
      sum_nonneg fun a _ => mul_nonneg (by split; exacts [sub_nonneg.mpr (hl a ‹_›), le_rfl]) (sq_nonneg _)
    have a2 : c * ∑ i, x i ^ 2 ≤ ∑ i, specific lam v m i * x i ^ 2 := by
      rw [mul_sum]
      exact sum_le_sum fun i _ => mul_le_mul_of_nonneg_right (hs i) (sq_nonneg _)
    linarith
  · have : D = C := by
      ext i j
      by_cases hij : i = j
      · rw [hij, h1, hC.diag]
      · rw [h2 i j hij, e, excess_all h]
    rw [this]
    exact hc x

/-- With a positive level every specific variance is positive. -/
theorem specific_pos {C : Mat n} (hC : IsCor C) {lam : Fin n → ℝ} {v : Fin n → Fin n → ℝ} (h : Sys C lam v) {m : Nat} (hl : 0 < level lam m) (i : Fin n) :
    0 < specific lam v m i := by
  have h0 := lam_nonneg hC.isCov h
  have hterm : ∀ a : Fin n, 0 ≤ (if (a : Nat) < m then level lam m else lam a) * (v a i * v a i) := fun a =>
    mul_nonneg (by split; exacts [hl.le, h0 a]) (mul_self_nonneg _)
  rw [specific_eq hC h]
  refine lt_of_le_of_ne (sum_nonneg fun a _ => hterm a) fun e => ?_
  have hz := (sum_eq_zero_iff_of_nonneg fun a _ => hterm a).mp e.symm
  have hd := hC.diag i
  rw [h.spectral i i, sum_eq_zero] at hd
  · exact one_ne_zero hd.symm
  · intro a _
    have := hz a (mem_univ a)
    by_cases ha : (a : Nat) < m
    · rw [if_pos ha] at this
      rw [(mul_eq_zero.mp this).resolve_left hl.ne', mul_zero]
    · rwa [if_neg ha] at this

/-- C123. **A denoised matrix can be inverted exactly if the rank of the original is greater than the number of factors.** -/
theorem denoised_strict_iff {C D : Mat n} (hC : IsCor C) {m : Nat} (hm : m < n) (hD : Denoised C m D) : StrictPos D ↔ m < C.rank := by
  obtain ⟨lam, v, h, h1, h2⟩ := hD
  have h0 := lam_nonneg hC.isCov h
  obtain ⟨hl0, hl⟩ := level_between h.desc h0 hm.le
  have hsymm : D.IsSymm := by
    ext i j
    rw [Matrix.transpose_apply]
    by_cases e : i = j
    · rw [e]
    · rw [h2 i j e, h2 j i (Ne.symm e), excess_eq, excess_eq]
      exact sum_congr rfl fun a _ => by ring
  rcases eq_or_lt_of_le hl0 with e | hpos
  · -- the remaining eigenvalues are zero and nothing changes
    have hz : ∀ a : Fin n, m ≤ a → lam a = 0 := fun a ha => by
      by_contra hne
      have hp : (0 : ℝ) < (n : ℝ) - m := by
        have : (m : ℝ) < n := by exact_mod_cast hm
        linarith
      have : 0 < level lam m := div_pos (lt_of_lt_of_le (lt_of_le_of_ne (h0 a) (Ne.symm hne)) (by
        refine le_trans ?_ (single_le_sum (f := fun a : Fin n => if m ≤ (a : Nat) then lam a else 0) (fun b _ => by split; exacts [h0 b, le_rfl]) (mem_univ a))
        rw [if_pos ha])) hp
      linarith
    have hr := (rank_le_iff h h0 m).mpr hz
    refine ⟨fun hs => absurd hs ?_, fun hlt => by omega⟩
    have : D = C := by
      ext i j
      by_cases hij : i = j
      · rw [hij, h1, hC.diag]
      · rw [h2 i j hij, excess_eq, h.spectral i j]
        refine sum_congr rfl fun a _ => ?_
        by_cases ha : (a : Nat) < m
        · rw [if_pos ha, ← e, sub_zero]
        · rw [if_neg ha, hz a (by omega)]
    rw [this]
    intro hs
    have hv : v ⟨m, hm⟩ ≠ 0 := fun hv => by
      have := h.ortho ⟨m, hm⟩ ⟨m, hm⟩
      rw [hv, if_pos rfl] at this
      simp at this
    have := hs.2 _ hv
    rw [h.quad_vec, hz ⟨m, hm⟩ le_rfl] at this
    exact lt_irrefl _ this
  · constructor
    · intro _
      by_contra hr
      have hz := (rank_le_iff h h0 m).mp (by omega)
      have : level lam m = 0 := by
        unfold level
        rw [sum_eq_zero fun a _ => ?_, zero_div]
        split
        · exact hz a ‹_›
        · rfl
      linarith
    · intro _
      refine ⟨hsymm, fun x hx => ?_⟩
      rw [Denoised.quad h1 h2]
      have a1 : 0 ≤ ∑ a : Fin n, (if (a : Nat) < m then lam a - level lam m else 0) * dotProduct (v a) x ^ 2 :=
        sum_nonneg fun a _ => mul_nonneg (by split; exacts [sub_nonneg.mpr (hl a ‹_›), le_rfl]) (sq_nonneg _)
      have a2 : 0 < ∑ i, specific lam v m i * x i ^ 2 := by
        obtain ⟨i, hi⟩ := Function.ne_iff.mp hx
        exact sum_pos' (fun j _ => mul_nonneg (specific_nonneg hC h hm.le j) (sq_nonneg _))
          ⟨i, mem_univ i, mul_pos (specific_pos hC h hpos i) (by have := hi; simp only [Pi.zero_apply] at this; positivity)⟩
      linarith

/-- C123. Without factors the result is the identity matrix: nothing is correlated. -/
theorem denoised_zero {C D : Mat n} (hD : Denoised C 0 D) : D = 1 := by
  obtain ⟨lam, v, -, h1, h2⟩ := hD
  ext i j
  by_cases e : i = j
  · rw [e, h1, Matrix.one_apply_eq]
  · rw [h2 i j e, Matrix.one_apply_ne e, excess_eq]
    simp

/-! ### The eigenvalues are determined -/

theorem Sys.trace {C : Mat n} {lam : Fin n → ℝ} {v : Fin n → Fin n → ℝ} (h : Sys C lam v) (f : ℝ → ℝ) :
    ∑ i, ∑ a, f (lam a) * (v a i * v a i) = ∑ a, f (lam a) := by
  rw [sum_comm]
  refine sum_congr rfl fun a _ => ?_
  rw [← mul_sum]
  have := h.ortho a a
  rw [if_pos rfl] at this
  rw [show ∑ i, v a i * v a i = 1 from this, mul_one]

/-- In a descending sequence the entries above a threshold come first. -/
theorem above_iff {lam : Fin n → ℝ} (hd : Antitone lam) (c : ℝ) (a : Fin n) :
    c < lam a ↔ (a : Nat) < (univ.filter fun b : Fin n => c < lam b).card := by
  constructor
  · intro h
    have : (Iic a) ⊆ univ.filter fun b : Fin n => c < lam b := fun b hb =>
      mem_filter.mpr ⟨mem_univ _, lt_of_lt_of_le h (hd (mem_Iic.mp hb))⟩
    have := card_le_card this
    rw [Fin.card_Iic] at this
    omega
  · intro h
    by_contra hn
    have : (univ.filter fun b : Fin n => c < lam b) ⊆ Iio a := fun b hb => by
      rw [mem_Iio]
      by_contra hba
      exact hn (lt_of_lt_of_le (mem_filter.mp hb).2 (hd (not_lt.mp hba)))
    have := card_le_card this
    rw [Fin.card_Iio] at this
    omega

theorem Sys.lam_eq {C : Mat n} (hs : C.IsSymm) {lam lam' : Fin n → ℝ} {v v' : Fin n → Fin n → ℝ} (h : Sys C lam v) (h' : Sys C lam' v') : lam = lam' := by
  have hcard : ∀ c : ℝ, (univ.filter fun b : Fin n => c < lam b).card = (univ.filter fun b : Fin n => c < lam' b).card := fun c => by
    have e := h.trace (fun x => if c < x then 1 else 0)
    have e' := h'.trace (fun x => if c < x then 1 else 0)
    rw [sum_congr rfl fun i _ => h.same h' hs (fun x => if c < x then 1 else 0) i i, e'] at e
    rw [← Finset.sum_filter, ← Finset.sum_filter, sum_const, sum_const, nsmul_eq_mul, nsmul_eq_mul, mul_one, mul_one] at e
    exact_mod_cast e.symm
  funext a
  refine le_antisymm (not_lt.mp fun hlt => ?_) (not_lt.mp fun hlt => ?_)
  · have := (above_iff h.desc (lam' a) a).mp hlt
    rw [hcard, ← above_iff h'.desc] at this
    exact lt_irrefl _ this
  · have := (above_iff h'.desc (lam a) a).mp hlt
    rw [← hcard, ← above_iff h.desc] at this
    exact lt_irrefl _ this

/-- C123. **How much the variance of a portfolio changes**: at most its squared weights times the spread of the eigenvalues that are treated as noise. -/
theorem denoised_variance {C D : Mat n} (hC : IsCor C) {m : Nat} (hm : m < n) (hD : Denoised C m D) {lam : Fin n → ℝ} {v : Fin n → Fin n → ℝ}
    (h : Sys C lam v) (x : Fin n → ℝ) : |dotProduct x (D.mulVec x) - dotProduct x (C.mulVec x)| ≤
      (lam ⟨m, hm⟩ - lam ⟨n - 1, by omega⟩) * ∑ i, x i ^ 2 := by
  obtain ⟨lam', v', h', h1, h2⟩ := hD
  obtain rfl := Sys.lam_eq hC.isCov.symm h h'
  set hi := lam ⟨m, hm⟩
  set lo := lam ⟨n - 1, by omega⟩
  have hge : ∀ a, lo ≤ lam a := fun a => h.desc (Fin.le_def.mpr (by have := a.2; simp; omega))
  have hle : ∀ a : Fin n, m ≤ a → lam a ≤ hi := fun a ha => h.desc (Fin.le_def.mpr ha)
  have l1 : lo ≤ level lam m := le_level hm fun a _ => hge a
  have l2 : level lam m ≤ hi := level_le hm hle
  set q : Fin n → ℝ := fun a => dotProduct (v' a) x ^ 2
  -- the part outside the diagonal
  set s : Fin n → ℝ := fun a => if (a : Nat) < m then level lam m else lam a
  have s1 : ∀ a, lo ≤ s a := fun a => by dsimp only [s]; split; exacts [l1, hge a]
  have s2 : ∀ a : Fin n, s a ≤ hi := fun a => by
    dsimp only [s]; split
    · exact l2
    · exact hle a (by omega)
  have eC : dotProduct x (C.mulVec x) = (∑ a : Fin n, (if (a : Nat) < m then lam a - level lam m else 0) * q a) + ∑ a, s a * q a := by
    rw [h'.quad, ← sum_add_distrib]
    refine sum_congr rfl fun a _ => ?_
    dsimp only [s, q]
    split <;> ring
  have b1 : lo * ∑ i, x i ^ 2 ≤ ∑ a, s a * q a := by
    rw [h'.norm, mul_sum]
    exact sum_le_sum fun a _ => mul_le_mul_of_nonneg_right (s1 a) (sq_nonneg _)
  have b2 : ∑ a, s a * q a ≤ hi * ∑ i, x i ^ 2 := by
    rw [h'.norm, mul_sum]
    exact sum_le_sum fun a _ => mul_le_mul_of_nonneg_right (s2 a) (sq_nonneg _)
  have hsp : ∀ i, lo ≤ specific lam v' m i ∧ specific lam v' m i ≤ hi := fun i => by
    rw [specific_eq hC h']
    have e := h'.res i i
    rw [if_pos rfl] at e
    constructor
    · calc lo = ∑ a, lo * (v' a i * v' a i) := by rw [← mul_sum, e, mul_one]
        _ ≤ _ := sum_le_sum fun a _ => mul_le_mul_of_nonneg_right (s1 a) (mul_self_nonneg _)
    · calc _ ≤ ∑ a, hi * (v' a i * v' a i) := sum_le_sum fun a _ => mul_le_mul_of_nonneg_right (s2 a) (mul_self_nonneg _)
        _ = hi := by rw [← mul_sum, e, mul_one]
  have d1 : lo * ∑ i, x i ^ 2 ≤ ∑ i, specific lam v' m i * x i ^ 2 := by
    rw [mul_sum]
    exact sum_le_sum fun i _ => mul_le_mul_of_nonneg_right (hsp i).1 (sq_nonneg _)
  have d2 : ∑ i, specific lam v' m i * x i ^ 2 ≤ hi * ∑ i, x i ^ 2 := by
    rw [mul_sum]
    exact sum_le_sum fun i _ => mul_le_mul_of_nonneg_right (hsp i).2 (sq_nonneg _)
  rw [Denoised.quad h1 h2, eC, sub_mul, abs_le]
  constructor <;> linarith

/-! ### The results of the code -/

/-- C123. **The matrix denoised with a given number of factors** is a factor model with that many factors, its smallest eigenvalue is
not below that of the original, and (if not all factors are kept) it can be inverted exactly if the rank of the original is greater. -/
theorem denoise_manual_factor (hE : EighSpec eigh) (hs : ArgsortSpec argsort) (hV : SvdSpec svdU) {C : Mat n} (hC : IsCor C) {T : Nat} {k : Int}
    {r : Mat n × Info} (h : corDenoise eigh argsort svdU T (some k) (.square C) = .ok r) :
    (∃ (B : Fin (kept n k) → Fin n → ℝ) (ψ : Fin n → ℝ), (∀ i, 0 ≤ ψ i) ∧ ∀ i j, r.1 i j = (∑ l, B l i * B l j) + if i = j then ψ i else 0) ∧
    (∀ c : ℝ, (∀ x : Fin n → ℝ, c * ∑ i, x i ^ 2 ≤ dotProduct x (C.mulVec x)) → ∀ x : Fin n → ℝ, c * ∑ i, x i ^ 2 ≤ dotProduct x (r.1.mulVec x)) ∧
    (kept n k < n → (StrictPos r.1 ↔ kept n k < C.rank)) := by
  have hD := denoised_manual hE hs hV hC h
  exact ⟨denoised_factor_model hC (kept_le n k) hD, fun c hc => denoised_smallest hC (kept_le n k) hD hc, fun hk => denoised_strict_iff hC hk hD⟩

/-- C123. **The matrix denoised with the fitted number of factors**, for a matrix whose rank is at most the number of time steps. -/
theorem denoise_fitted_factor (hE : EighSpec eigh) (hs : ArgsortSpec argsort) {C : Mat n} (hC : IsCor C) {T : Nat} (hT : C.rank ≤ T)
    {r : Mat n × Info} (h : corDenoise eigh argsort svdU T none (.square C) = .ok r) : ∃ m : Nat, r.2.k = m ∧ m ≤ n ∧
    (∃ (B : Fin m → Fin n → ℝ) (ψ : Fin n → ℝ), (∀ i, 0 ≤ ψ i) ∧ ∀ i j, r.1 i j = (∑ l, B l i * B l j) + if i = j then ψ i else 0) ∧
    (∀ c : ℝ, (∀ x : Fin n → ℝ, c * ∑ i, x i ^ 2 ≤ dotProduct x (C.mulVec x)) → ∀ x : Fin n → ℝ, c * ∑ i, x i ^ 2 ≤ dotProduct x (r.1.mulVec x)) ∧
    (m < n → (StrictPos r.1 ↔ m < C.rank)) ∧ (m = 0 → r.1 = 1) := by
  obtain ⟨m, hk, hm, hD⟩ := denoised_fitted hE hs hC hT h
  exact ⟨m, hk, hm, denoised_factor_model hC hm hD, fun c hc => denoised_smallest hC hm hD hc, fun hlt => denoised_strict_iff hC hlt hD,
    fun h0 => denoised_zero (h0 ▸ hD)⟩

/-- C123. **The variance of any portfolio** changes by at most the spread of the eigenvalues treated as noise, times the squared weights. -/
theorem denoise_manual_variance (hE : EighSpec eigh) (hs : ArgsortSpec argsort) (hV : SvdSpec svdU) {C : Mat n} (hC : IsCor C) {T : Nat} {k : Int}
    {r : Mat n × Info} (h : corDenoise eigh argsort svdU T (some k) (.square C) = .ok r) (hk : kept n k < n)
    {lam : Fin n → ℝ} {v : Fin n → Fin n → ℝ} (hv : Sys C lam v) (x : Fin n → ℝ) :
    |dotProduct x (r.1.mulVec x) - dotProduct x (C.mulVec x)| ≤ (lam ⟨kept n k, hk⟩ - lam ⟨n - 1, by omega⟩) * ∑ i, x i ^ 2 :=
  denoised_variance hC hk (denoised_manual hE hs hV hC h) hv x

end Verif.Cov
