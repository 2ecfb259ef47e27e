import Verif.Props.CovLimit
import Mathlib.LinearAlgebra.Matrix.Notation

/-!
# Denoising and the order and signs of the assets, and where denoising jumps (C124)
-/

namespace Verif.Cov

open Finset

variable {n : Nat} {eigh : Mat n → List (Pair n)} {argsort : List ℝ → List Nat} {svdU : List (Fin n → ℝ) → List (Fin n → ℝ)}

/-! ### Order and signs -/

theorem Sys.reorder {C : Mat n} {lam : Fin n → ℝ} {v : Fin n → Fin n → ℝ} (h : Sys C lam v) (σ : Equiv.Perm (Fin n)) :
    Sys (C.submatrix σ σ) lam fun a i => v a (σ i) where
  ortho a b := by
    rw [← h.ortho a b]
    exact Equiv.sum_comp σ fun i => v a i * v b i
  eig a := by
    funext i
    have := congrFun (h.eig a) (σ i)
    simp only [Matrix.mulVec, dotProduct, Matrix.submatrix_apply, Pi.smul_apply, smul_eq_mul] at this ⊢
    rw [← this]
    exact Equiv.sum_comp σ fun j => C (σ i) j * v a j
  desc := h.desc

theorem Denoised.reorder {C D : Mat n} {m : Nat} (h : Denoised C m D) (σ : Equiv.Perm (Fin n)) : Denoised (C.submatrix σ σ) m (D.submatrix σ σ) := by
  obtain ⟨lam, v, hs, h1, h2⟩ := h
  exact ⟨lam, _, hs.reorder σ, fun i => h1 _, fun i j hij => h2 _ _ fun e => hij (σ.injective e)⟩

/-- The matrix after the signs of some assets are changed. -/
def signed (s : Fin n → ℝ) (C : Mat n) : Mat n := fun i j => s i * s j * C i j

theorem Sys.signed {C : Mat n} {lam : Fin n → ℝ} {v : Fin n → Fin n → ℝ} (h : Sys C lam v) {s : Fin n → ℝ} (hs : ∀ i, s i * s i = 1) :
    Sys (signed s C) lam fun a i => s i * v a i where
  ortho a b := by
    rw [← h.ortho a b]
    exact sum_congr rfl fun i _ => by linear_combination v a i * v b i * hs i
  eig a := by
    funext i
    have := congrFun (h.eig a) i
    simp only [Matrix.mulVec, dotProduct, Cov.signed, Pi.smul_apply, smul_eq_mul] at this ⊢
    rw [← mul_assoc, mul_comm (lam a), mul_assoc, ← this, mul_sum]
    exact sum_congr rfl fun j _ => by linear_combination s i * C i j * v a j * hs j
  desc := h.desc

theorem Denoised.signed {C D : Mat n} {m : Nat} (h : Denoised C m D) {s : Fin n → ℝ} (hs : ∀ i, s i * s i = 1) : Denoised (signed s C) m (signed s D) := by
  obtain ⟨lam, v, hv, h1, h2⟩ := h
  refine ⟨lam, _, hv.signed hs, fun i => ?_, fun i j hij => ?_⟩
  · unfold Cov.signed
    rw [h1, hs, mul_one]
  · unfold Cov.signed
    rw [h2 i j hij, excess_eq, excess_eq, mul_sum]
    exact sum_congr rfl fun a _ => by ring

theorem IsCor.reorder {C : Mat n} (h : IsCor C) (σ : Equiv.Perm (Fin n)) : IsCor (C.submatrix σ σ) where
  symm := h.symm.submatrix σ
  psd x := by
    have := h.psd fun i => x (σ.symm i)
    rw [quad_eq] at this ⊢
    refine this.trans_eq ?_
    rw [← Equiv.sum_comp σ]
    refine sum_congr rfl fun i _ => ?_
    rw [← Equiv.sum_comp σ]
    simp
  diag i := h.diag _

theorem IsCor.signed {C : Mat n} (h : IsCor C) {s : Fin n → ℝ} (hs : ∀ i, s i * s i = 1) : IsCor (signed s C) where
  symm := by
    ext i j
    have := congrFun (congrFun h.symm i) j
    rw [Matrix.transpose_apply] at this ⊢
    unfold Cov.signed
    rw [this, mul_comm (s j)]
  psd x := by
    have := h.psd fun i => s i * x i
    rw [quad_eq] at this ⊢
    refine this.trans_eq (sum_congr rfl fun i _ => sum_congr rfl fun j _ => ?_)
    unfold Cov.signed
    ring
  diag i := by
    unfold Cov.signed
    rw [hs, h.diag, mul_one]

/-- C124. **Another order of the assets** gives the same numbers in that order, where the eigenvalues are separated. -/
theorem cor_denoise_reorder (hE : EighSpec eigh) (hs : ArgsortSpec argsort) (hV : SvdSpec svdU) {C : Mat n} (hC : IsCor C) (σ : Equiv.Perm (Fin n))
    {k : Int} {T T' : Nat} {r r' : Mat n × Info} (h : corDenoise eigh argsort svdU T (some k) (.square C) = .ok r)
    (h' : corDenoise eigh argsort svdU T' (some k) (.square (C.submatrix σ σ)) = .ok r')
    {lam : Fin n → ℝ} {v : Fin n → Fin n → ℝ} (hv : Sys C lam v) (hc : Clear lam (kept n k)) (i j : Fin n) : r'.1 i j = r.1 (σ i) (σ j) := by
  have h1 := (denoised_manual hE hs hV hC h).reorder σ
  have h2 := denoised_manual hE hs hV (hC.reorder σ) h'
  rw [denoised_unique (hC.reorder σ).symm (hv.reorder σ) hc h2 h1]
  rfl

/-- C124. **Assets held short** (with the sign of the returns changed) give the same numbers with the signs changed, where the eigenvalues are separated. -/
theorem cor_denoise_signs (hE : EighSpec eigh) (hs : ArgsortSpec argsort) (hV : SvdSpec svdU) {C : Mat n} (hC : IsCor C) {s : Fin n → ℝ} (hsg : ∀ i, s i = 1 ∨ s i = -1)
    {k : Int} {T T' : Nat} {r r' : Mat n × Info} (h : corDenoise eigh argsort svdU T (some k) (.square C) = .ok r)
    (h' : corDenoise eigh argsort svdU T' (some k) (.square fun i j => s i * s j * C i j) = .ok r')
    {lam : Fin n → ℝ} {v : Fin n → Fin n → ℝ} (hv : Sys C lam v) (hc : Clear lam (kept n k)) (i j : Fin n) : r'.1 i j = s i * s j * r.1 i j := by
  have hss : ∀ i, s i * s i = 1 := fun i => by rcases hsg i with e | e <;> rw [e] <;> norm_num
  have h1 := (denoised_manual hE hs hV hC h).signed hss
  have h2 := denoised_manual hE hs hV (hC.signed hss) h'
  rw [denoised_unique (hC.signed hss).symm (hv.signed hss) hc h2 h1]
  rfl

/-! ### Jumps -/

/-- Two pairs of correlated assets. -/
def twoPairs (a b : ℝ) : Mat 4 := !![1, a, 0, 0; a, 1, 0, 0; 0, 0, 1, b; 0, 0, b, 1]

theorem two_quad (a b : ℝ) (x : Fin 4 → ℝ) : dotProduct x ((twoPairs a b).mulVec x) = (∑ i, x i ^ 2) + 2 * a * x 0 * x 1 + 2 * b * x 2 * x 3 := by
  simp [twoPairs, Matrix.mulVec, dotProduct, Fin.sum_univ_four]
  ring

theorem two_isCor {a b : ℝ} (ha : |a| ≤ 1) (hb : |b| ≤ 1) : IsCor (twoPairs a b) where
  symm := by
    ext i j
    fin_cases i <;> fin_cases j <;> rfl
  psd x := by
    rw [two_quad, Fin.sum_univ_four]
    obtain ⟨h2, h3⟩ := abs_le.mp ha
    obtain ⟨h4, h5⟩ := abs_le.mp hb
    nlinarith [mul_nonneg (sub_nonneg.mpr h3) (sq_nonneg (x 0 - x 1)), mul_nonneg (neg_le_iff_add_nonneg.mp h2) (sq_nonneg (x 0 + x 1)),
      mul_nonneg (sub_nonneg.mpr h5) (sq_nonneg (x 2 - x 3)), mul_nonneg (neg_le_iff_add_nonneg.mp h4) (sq_nonneg (x 2 + x 3))]
  diag i := by fin_cases i <;> rfl

/-- With one factor the more correlated pair keeps two thirds of its correlation and the other loses all of it. -/
theorem two_denoised {a b : ℝ} (hb : 0 ≤ b) (hab : b < a) (ha : a ≤ 1) {D : Mat 4} (hD : Denoised (twoPairs a b) 1 D) : D = twoPairs (2 / 3 * a) 0 := by
  obtain ⟨lam, v, h, d1, d2⟩ := hD
  have hC : IsCor (twoPairs a b) := two_isCor (abs_le.mpr ⟨by linarith, ha⟩) (abs_le.mpr ⟨by linarith, by linarith⟩)
  have hge : 1 + a ≤ lam 0 := by
    have e := h.quad ![1, 1, 0, 0]
    rw [two_quad] at e
    have : ∑ c, lam c * dotProduct (v c) ![1, 1, 0, 0] ^ 2 ≤ ∑ c, lam 0 * dotProduct (v c) ![1, 1, 0, 0] ^ 2 :=
      sum_le_sum fun c _ => mul_le_mul_of_nonneg_right (h.desc (Fin.zero_le c)) (sq_nonneg _)
    rw [← mul_sum, ← h.norm] at this
    simp [Fin.sum_univ_four] at e this
    linarith
  have eig : ∀ i, (twoPairs a b).mulVec (v 0) i = lam 0 * v 0 i := fun i => congrFun (h.eig 0) i
  have e0 : v 0 0 + a * v 0 1 = lam 0 * v 0 0 := by
    rw [← eig 0]
    simp [twoPairs, Matrix.mulVec, dotProduct, Fin.sum_univ_four]
  have e1 : a * v 0 0 + v 0 1 = lam 0 * v 0 1 := by
    rw [← eig 1]
    simp [twoPairs, Matrix.mulVec, dotProduct, Fin.sum_univ_four]
  have e2 : v 0 2 + b * v 0 3 = lam 0 * v 0 2 := by
    rw [← eig 2]
    simp [twoPairs, Matrix.mulVec, dotProduct, Fin.sum_univ_four]
  have e3 : b * v 0 2 + v 0 3 = lam 0 * v 0 3 := by
    rw [← eig 3]
    simp [twoPairs, Matrix.mulVec, dotProduct, Fin.sum_univ_four]
  have hne : (lam 0 - 1) ^ 2 - b ^ 2 ≠ 0 := by
    have : 0 < (lam 0 - 1 - b) * (lam 0 - 1 + b) := mul_pos (by linarith) (by linarith)
    nlinarith
  have z2 : v 0 2 = 0 := by
    have : ((lam 0 - 1) ^ 2 - b ^ 2) * v 0 2 = 0 := by linear_combination -(lam 0 - 1) * e2 - b * e3
    exact (mul_eq_zero.mp this).resolve_left hne
  have z3 : v 0 3 = 0 := by
    have : ((lam 0 - 1) ^ 2 - b ^ 2) * v 0 3 = 0 := by linear_combination -(lam 0 - 1) * e3 - b * e2
    exact (mul_eq_zero.mp this).resolve_left hne
  have hpq : v 0 0 = v 0 1 := by
    have : (lam 0 - 1 + a) * (v 0 0 - v 0 1) = 0 := by linear_combination e1 - e0
    have := (mul_eq_zero.mp this).resolve_left (by linarith)
    linarith
  have hn := h.ortho 0 0
  rw [if_pos rfl] at hn
  simp only [dotProduct, Fin.sum_univ_four, z2, z3, ← hpq, mul_zero, add_zero] at hn
  have hl : lam 0 = 1 + a := by
    have hp : v 0 0 ≠ 0 := fun e => by
      rw [e] at hn
      norm_num at hn
    rw [← hpq] at e0
    have : (lam 0 - (1 + a)) * v 0 0 = 0 := by linear_combination -e0
    have := (mul_eq_zero.mp this).resolve_right hp
    linarith
  have hlev : level lam 1 = (3 - a) / 3 := by
    have e := sys_trace hC h
    rw [Fin.sum_univ_four, hl] at e
    unfold level
    rw [Fin.sum_univ_four]
    simp
    push_cast at e
    norm_num
    linarith
  have hex : ∀ i j, excess lam v 1 i j = 4 / 3 * a * (v 0 i * v 0 j) := fun i j => by
    rw [excess_eq, Fin.sum_univ_four]
    simp [hl, hlev]
    ring_nf
    simp
  have h01 : v 0 0 * v 0 1 = 1 / 2 := by
    rw [← hpq]
    linarith
  ext i j
  by_cases hij : i = j
  · subst hij
    rw [d1]
    fin_cases i <;> rfl
  · rw [d2 i j hij, hex]
    fin_cases i <;> fin_cases j <;> simp [twoPairs, z2, z3] at hij ⊢
    · linear_combination 4 / 3 * a * h01
    · linear_combination 4 / 3 * a * h01

/-- C124. **Finding: denoising jumps.** With two pairs whose correlations `ρ` and `ρ - δ` differ as little as one likes, exchanging the two changes
the input by `δ` and the result by two thirds of `ρ`: the number of factors is too small for the tie, and which pair is kept depends on the last digit. -/
theorem denoise_jumps {eigh : Mat 4 → List (Pair 4)} {svdU : List (Fin 4 → ℝ) → List (Fin 4 → ℝ)} (hE : EighSpec eigh) (hs : ArgsortSpec argsort) (hV : SvdSpec svdU)
    {ρ δ : ℝ} (h1 : ρ ≤ 1) (hδ : 0 < δ) (hδρ : δ ≤ ρ) (T : Nat) : ∃ r r',
    corDenoise eigh argsort svdU T (some 1) (.square (twoPairs ρ (ρ - δ))) = .ok r ∧ corDenoise eigh argsort svdU T (some 1) (.square (twoPairs (ρ - δ) ρ)) = .ok r' ∧
    (∀ i j, |twoPairs ρ (ρ - δ) i j - twoPairs (ρ - δ) ρ i j| ≤ δ) ∧ r.1 0 1 = 2 / 3 * ρ ∧ r'.1 0 1 = 0 := by
  have c1 : IsCor (twoPairs ρ (ρ - δ)) := two_isCor (abs_le.mpr ⟨by linarith, h1⟩) (abs_le.mpr ⟨by linarith, by linarith⟩)
  have c2 : IsCor (twoPairs (ρ - δ) ρ) := two_isCor (abs_le.mpr ⟨by linarith, by linarith⟩) (abs_le.mpr ⟨by linarith, h1⟩)
  obtain ⟨r, hr⟩ := (cor_denoise_manual_ok_iff (svdU := svdU) hE hs c1.symm T 1).1.mpr ⟨by omega, Or.inl le_rfl⟩
  obtain ⟨r', hr'⟩ := (cor_denoise_manual_ok_iff (svdU := svdU) hE hs c2.symm T 1).1.mpr ⟨by omega, Or.inl le_rfl⟩
  have k1 : kept 4 1 = 1 := by decide
  have d1 := k1 ▸ denoised_manual hE hs hV c1 hr
  have d2 := k1 ▸ denoised_manual hE hs hV c2 hr'
  set σ : Equiv.Perm (Fin 4) := (Equiv.swap 0 2).trans (Equiv.swap 1 3)
  have hσ : σ 0 = 2 ∧ σ 1 = 3 ∧ σ 2 = 0 ∧ σ 3 = 1 := by decide
  have esub : ∀ a b, (twoPairs a b).submatrix σ σ = twoPairs b a := fun a b => by
    obtain ⟨s0, s1, s2, s3⟩ := hσ
    ext i j
    rw [Matrix.submatrix_apply]
    fin_cases i <;> fin_cases j <;> simp [s0, s1, s2, s3] <;> simp [twoPairs]
  have d2' := d2.reorder σ
  rw [esub] at d2'
  have e1 := two_denoised (by linarith) (by linarith) h1 d1
  have e2 := two_denoised (by linarith) (by linarith) h1 d2'
  refine ⟨r, r', hr, hr', fun i j => ?_, ?_, ?_⟩
  · fin_cases i <;> fin_cases j <;> simp [twoPairs, abs_of_pos hδ, hδ.le]
  · rw [e1]
    simp [twoPairs]
  · have := congrFun (congrFun e2 2) 3
    rw [Matrix.submatrix_apply, hσ.2.2.1, hσ.2.2.2] at this
    rw [this]
    simp [twoPairs]

/-! A concrete case: correlations 0.6 and 0.599. -/

example : ∃ (eigh : Mat 4 → List (Pair 4)) (argsort : List ℝ → List Nat) (svdU : List (Fin 4 → ℝ) → List (Fin 4 → ℝ)) (r r' : Mat 4 × Info),
    corDenoise eigh argsort svdU 10 (some 1) (.square (twoPairs 0.6 0.599)) = .ok r ∧ corDenoise eigh argsort svdU 10 (some 1) (.square (twoPairs 0.599 0.6)) = .ok r' ∧
    r.1 0 1 = 0.4 ∧ r'.1 0 1 = 0 := by
  obtain ⟨e, he⟩ := eigh_exists (n := 4)
  obtain ⟨s, hs⟩ := argsort_exists
  obtain ⟨u, hu⟩ := svd_exists (n := 4)
  obtain ⟨r, r', h1, h2, -, h4, h5⟩ := denoise_jumps he hs hu (ρ := 0.6) (δ := 0.001) (by norm_num) (by norm_num) (by norm_num) 10
  rw [show (0.6 : ℝ) - 0.001 = 0.599 by norm_num] at h1 h2
  exact ⟨e, s, u, r, r', h1, h2, by rw [h4]; norm_num, h5⟩

/-- The hypotheses of `cor_denoise_reorder` and `cor_denoise_signs`: a pair with correlation 0.8 in any order and with any signs. -/
example (σ : Equiv.Perm (Fin 3)) (s : Fin 3 → ℝ) (hs : ∀ i, s i = 1 ∨ s i = -1) :
    ∃ (eigh : Mat 3 → List (Pair 3)) (argsort : List ℝ → List Nat) (svdU : List (Fin 3 → ℝ) → List (Fin 3 → ℝ)) (r r' r'' : Mat 3 × Info),
    corDenoise eigh argsort svdU 10 (some 1) (.square (pairCor 1 0.8)) = .ok r ∧ corDenoise eigh argsort svdU 10 (some 1) (.square ((pairCor 1 0.8).submatrix σ σ)) = .ok r' ∧
    corDenoise eigh argsort svdU 10 (some 1) (.square fun i j => s i * s j * pairCor 1 0.8 i j) = .ok r'' ∧
    (∀ i j, r'.1 i j = r.1 (σ i) (σ j)) ∧ ∀ i j, r''.1 i j = s i * s j * r.1 i j := by
  obtain ⟨e, he⟩ := eigh_exists (n := 3)
  obtain ⟨a, ha⟩ := argsort_exists
  obtain ⟨u, hu⟩ := svd_exists (n := 3)
  have hC : IsCor (pairCor 1 0.8) := pair_isCor (by rw [abs_le]; norm_num)
  have hss : ∀ i, s i * s i = 1 := fun i => by rcases hs i with e | e <;> rw [e] <;> norm_num
  have ok : ∀ {C : Mat 3}, IsCor C → ∃ r, corDenoise e a u 10 (some 1) (.square C) = .ok r := fun h =>
    (cor_denoise_manual_ok_iff (svdU := u) he ha h.symm 10 1).1.mpr ⟨by omega, Or.inl le_rfl⟩
  obtain ⟨r, hr⟩ := ok hC
  obtain ⟨r', hr'⟩ := ok (hC.reorder σ)
  obtain ⟨r'', hr''⟩ := ok (hC.signed hss)
  obtain ⟨lam, v, hv, -⟩ := denoised_manual he ha hu hC hr
  have hc : Clear lam (kept 3 1) := pair_clear (by norm_num) hv
  exact ⟨e, a, u, r, r', r'', hr, hr', hr'', cor_denoise_reorder he ha hu hC σ hr hr' hv hc, cor_denoise_signs he ha hu hC hs hr hr'' hv hc⟩

end Verif.Cov
