import Verif.Spec.Pair
import Verif.Props.CovFactor
import Verif.Props.CovSpecs
import Mathlib.Algebra.BigOperators.Fin
import Mathlib.Analysis.SpecificLimits.Basic

/-!
# Denoising halves the correlation of a single pair (C123)
-/

namespace Verif.Cov

open Finset Filter

variable {N : Nat} {ρ : ℝ}

theorem pair_mulVec (x : Fin (N + 2) → ℝ) :
    (pairCor N ρ).mulVec x 0 = x 0 + ρ * x 1 ∧ (pairCor N ρ).mulVec x 1 = x 1 + ρ * x 0 ∧
    ∀ i : Fin N, (pairCor N ρ).mulVec x i.succ.succ = x i.succ.succ := by
  have z : ∀ i : Fin N, (i.succ.succ : Fin (N + 2)) ≠ 0 ∧ (i.succ.succ : Fin (N + 2)) ≠ 1 := fun i =>
    ⟨Fin.succ_ne_zero _, fun h => by
      have := congrArg Fin.val h
      simp at this⟩
  refine ⟨?_, ?_, fun i => ?_⟩
  · simp only [Matrix.mulVec, dotProduct, Fin.sum_univ_succ, pairCor]
    rw [sum_eq_zero]
    · simp [Fin.succ_zero_eq_one]
    · intro i _
      simp [(z i).1, (z i).2, (z i).1.symm]
  · simp only [Matrix.mulVec, dotProduct, Fin.sum_univ_succ, pairCor]
    rw [sum_eq_zero]
    · simp [Fin.succ_zero_eq_one]
      ring
    · intro i _
      simp [(z i).1, (z i).2, (z i).2.symm]
  · simp only [Matrix.mulVec, dotProduct, pairCor]
    rw [sum_eq_single i.succ.succ]
    · simp
    · intro j _ hj
      rw [if_neg (Ne.symm hj), if_neg, zero_mul]
      simp [(z i).1, (z i).2]
    · exact fun h => absurd (mem_univ _) h

theorem pair_quad (x : Fin (N + 2) → ℝ) : dotProduct x ((pairCor N ρ).mulVec x) = (∑ i, x i ^ 2) + 2 * ρ * x 0 * x 1 := by
  obtain ⟨h0, h1, h2⟩ := pair_mulVec (ρ := ρ) x
  simp only [dotProduct, Fin.sum_univ_succ, Fin.succ_zero_eq_one, h0, h1, h2]
  rw [sum_congr rfl fun i _ => (pow_two (x (Fin.succ (Fin.succ i)))).symm]
  ring

theorem pair_isCor (h : |ρ| ≤ 1) : IsCor (pairCor N ρ) where
  symm := by
    ext i j
    rw [Matrix.transpose_apply]
    unfold pairCor
    simp only [eq_comm (a := j) (b := i)]
    congr 1
    exact if_congr (by tauto) rfl rfl
  psd x := by
    rw [pair_quad]
    have h1 : x 0 ^ 2 + x 1 ^ 2 ≤ ∑ i, x i ^ 2 := by
      simp only [Fin.sum_univ_succ, Fin.succ_zero_eq_one]
      have : 0 ≤ ∑ i : Fin N, x i.succ.succ ^ 2 := sum_nonneg fun i _ => sq_nonneg _
      linarith
    obtain ⟨h2, h3⟩ := abs_le.mp h
    nlinarith [mul_nonneg (sub_nonneg.mpr h3) (sq_nonneg (x 0 - x 1)), mul_nonneg (neg_le_iff_add_nonneg.mp h2) (sq_nonneg (x 0 + x 1))]
  diag i := if_pos rfl

/-- An eigenvalue of at least `1 + ρ` and its eigenvector. -/
theorem pair_vector (h0 : 0 < ρ) {l : ℝ} {w : Fin (N + 2) → ℝ} (he : (pairCor N ρ).mulVec w = l • w) (hw : dotProduct w w = 1) (hge : 1 + ρ ≤ l) :
    l = 1 + ρ ∧ w 0 = w 1 ∧ w 0 * w 1 = 1 / 2 ∧ ∀ i : Fin N, w i.succ.succ = 0 := by
  obtain ⟨e0, e1, e2⟩ := pair_mulVec (ρ := ρ) w
  rw [he] at e0 e1 e2
  simp only [Pi.smul_apply, smul_eq_mul] at e0 e1 e2
  have hz : ∀ i : Fin N, w i.succ.succ = 0 := fun i => by
    have : (l - 1) * w i.succ.succ = 0 := by linear_combination e2 i
    exact (mul_eq_zero.mp this).resolve_left (by linarith)
  have hpq : w 0 = w 1 := by
    have : (l - 1 + ρ) * (w 0 - w 1) = 0 := by linear_combination e0 - e1
    have := (mul_eq_zero.mp this).resolve_left (by linarith)
    linarith
  have hn : w 0 * w 0 + w 1 * w 1 = 1 := by
    simp only [dotProduct, Fin.sum_univ_succ, Fin.succ_zero_eq_one, hz, mul_zero, sum_const_zero, add_zero] at hw
    exact hw
  rw [← hpq] at hn
  have hp : w 0 ≠ 0 := fun e => by
    rw [e] at hn
    norm_num at hn
  refine ⟨?_, hpq, ?_, hz⟩
  · rw [← hpq] at e0
    have : (l - (1 + ρ)) * w 0 = 0 := by linear_combination e0
    have := (mul_eq_zero.mp this).resolve_right hp
    linarith
  · rw [← hpq]
    linarith

/-- The first eigenvalue and eigenvector. -/
theorem pair_first (h0 : 0 < ρ) {lam : Fin (N + 2) → ℝ} {v : Fin (N + 2) → Fin (N + 2) → ℝ} (h : Sys (pairCor N ρ) lam v) :
    lam 0 = 1 + ρ ∧ v 0 0 * v 0 1 = 1 / 2 ∧ (∀ i : Fin N, v 0 i.succ.succ = 0) ∧ ∀ a, a ≠ 0 → lam a < 1 + ρ := by
  set x : Fin (N + 2) → ℝ := fun i => if i = 0 ∨ i = 1 then 1 else 0
  have hx : ∑ i, x i ^ 2 = 2 ∧ x 0 = 1 ∧ x 1 = 1 := by
    refine ⟨?_, if_pos (Or.inl rfl), if_pos (Or.inr rfl)⟩
    have z : ∀ i : Fin N, x i.succ.succ = 0 := fun i => if_neg (by
      rintro (e | e)
      · exact Fin.succ_ne_zero _ e
      · have := congrArg Fin.val e
        simp at this)
    simp only [Fin.sum_univ_succ, Fin.succ_zero_eq_one, z]
    simp [x]
    norm_num
  have hge : 1 + ρ ≤ lam 0 := by
    have e := h.quad x
    rw [pair_quad, hx.1, hx.2.1, hx.2.2] at e
    have : ∑ a, lam a * dotProduct (v a) x ^ 2 ≤ ∑ a, lam 0 * dotProduct (v a) x ^ 2 :=
      sum_le_sum fun a _ => mul_le_mul_of_nonneg_right (h.desc (Fin.zero_le a)) (sq_nonneg _)
    rw [← mul_sum, ← h.norm, hx.1] at this
    linarith
  have unit : ∀ a, dotProduct (v a) (v a) = 1 := fun a => by rw [h.ortho, if_pos rfl]
  obtain ⟨r1, r2, r3, r4⟩ := pair_vector h0 (h.eig 0) (unit 0) hge
  refine ⟨r1, r3, r4, fun a ha => ?_⟩
  by_contra hn
  obtain ⟨q1, q2, q3, q4⟩ := pair_vector h0 (h.eig a) (unit a) (not_lt.mp hn)
  have ho := h.ortho a 0
  rw [if_neg ha] at ho
  simp only [dotProduct, Fin.sum_univ_succ, Fin.succ_zero_eq_one, q4, zero_mul, sum_const_zero, add_zero] at ho
  rw [← q2, ← r2] at ho
  rw [← q2] at q3
  rw [← r2] at r3
  have : v a 0 * v 0 0 = 0 := by linarith
  rcases mul_eq_zero.mp this with e | e <;> simp [e] at q3 r3

/-- The first eigenvalue is separated from the others. -/
theorem pair_clear (h0 : 0 < ρ) {lam : Fin (N + 2) → ℝ} {v : Fin (N + 2) → Fin (N + 2) → ℝ} (h : Sys (pairCor N ρ) lam v) : Clear lam 1 := by
  obtain ⟨h1, -, -, h4⟩ := pair_first h0 h
  intro a b ha hb e
  have hb0 : b ≠ 0 := fun e => by
    rw [e] at hb
    simp at hb
  have ha0 : a = 0 := Fin.ext (by simpa using ha)
  have := h4 b hb0
  rw [← e, ha0, h1] at this
  exact absurd this (lt_irrefl _)

theorem sys_trace {n : Nat} {C : Mat n} (hC : IsCor C) {lam : Fin n → ℝ} {v : Fin n → Fin n → ℝ} (h : Sys C lam v) : ∑ a, lam a = n := by
  have := h.trace (fun x => x)
  rw [← this, sum_congr rfl fun i _ => (h.spectral i i).symm, sum_congr rfl fun i _ => hC.diag i]
  simp

/-- **The correlation of a single pair is multiplied by `n / (2 (n - 1))`**, although one factor is exactly right. -/
theorem pair_denoised (h0 : 0 < ρ) (h1 : ρ ≤ 1) {D : Mat (N + 2)} (hD : Denoised (pairCor N ρ) 1 D) :
    D = pairCor N (ρ * ((N + 2) / (2 * (N + 1)))) := by
  obtain ⟨lam, v, h, d1, d2⟩ := hD
  obtain ⟨hl, hv, hz, -⟩ := pair_first h0 h
  have hlev : level lam 1 = ((N : ℝ) + 1 - ρ) / (N + 1) := by
    have e := sys_trace (pair_isCor (abs_le.mpr ⟨by linarith, h1⟩)) h
    rw [Fin.sum_univ_succ, hl] at e
    unfold level
    rw [Fin.sum_univ_succ]
    simp only [Fin.val_succ, Nat.le_add_left, if_true]
    simp only [Fin.val_zero]
    push_cast at e ⊢
    congr 1 <;> linarith
  ext i j
  by_cases hij : i = j
  · subst hij
    rw [d1]
    exact (if_pos rfl).symm
  · rw [d2 i j hij, excess_eq, sum_eq_single 0]
    · rw [if_pos (by simp), hl, hlev]
      unfold pairCor
      rw [if_neg hij]
      have hN : (N : ℝ) + 1 ≠ 0 := by positivity
      have hother : ∀ i : Fin (N + 2), i ≠ 0 → i ≠ 1 → v 0 i = 0 := fun i a b => by
        obtain ⟨i', rfl⟩ := Fin.exists_succ_eq.mpr a
        have : i' ≠ 0 := fun e => b (by rw [e, Fin.succ_zero_eq_one])
        obtain ⟨i'', rfl⟩ := Fin.exists_succ_eq.mpr this
        exact hz i''
      by_cases hc : (i = 0 ∧ j = 1) ∨ (i = 1 ∧ j = 0)
      · rw [if_pos hc]
        have : v 0 i * v 0 j = 1 / 2 := by
          rcases hc with ⟨rfl, rfl⟩ | ⟨rfl, rfl⟩
          · exact hv
          · rw [mul_comm]
            exact hv
        rw [this]
        field_simp
        ring
      · rw [if_neg hc]
        have : v 0 i * v 0 j = 0 := by
          by_cases i0 : i = 0
          · rw [hother j (fun e => hij (i0.trans e.symm)) (fun e => hc (Or.inl ⟨i0, e⟩)), mul_zero]
          · by_cases i1 : i = 1
            · rw [hother j (fun e => hc (Or.inr ⟨i1, e⟩)) (fun e => hij (i1.trans e.symm)), mul_zero]
            · rw [hother i i0 i1, zero_mul]
        rw [this, mul_zero]
    · intro a _ ha
      rw [if_neg, zero_mul]
      have : (a : Nat) ≠ 0 := fun e => ha (Fin.ext e)
      omega
    · exact fun hn => absurd (mem_univ _) hn

variable {eigh : Mat (N + 2) → List (Pair (N + 2))} {argsort : List ℝ → List Nat} {svdU : List (Fin (N + 2) → ℝ) → List (Fin (N + 2) → ℝ)}

/-- C123. **Finding**: with a single pair of correlated assets, denoising with the right number of factors multiplies the true correlation by
`n / (2 (n - 1))`: three quarters with three assets, almost one half with many. -/
theorem denoise_pair (hE : EighSpec eigh) (hs : ArgsortSpec argsort) (hV : SvdSpec svdU) (h0 : 0 < ρ) (h1 : ρ ≤ 1) (T : Nat) :
    ∃ r, corDenoise eigh argsort svdU T (some 1) (.square (pairCor N ρ)) = .ok r ∧ r.1 = pairCor N (ρ * ((N + 2) / (2 * (N + 1)))) := by
  have hC : IsCor (pairCor N ρ) := pair_isCor (abs_le.mpr ⟨by linarith, h1⟩)
  obtain ⟨r, hr⟩ := (cor_denoise_manual_ok_iff (svdU := svdU) hE hs hC.symm T 1).1.mpr ⟨by omega, Or.inl le_rfl⟩
  refine ⟨r, hr, pair_denoised h0 h1 ?_⟩
  have := denoised_manual hE hs hV hC hr
  rwa [show kept (N + 2) 1 = 1 by unfold kept; simp] at this

/-- Denoising again and again with the same number of factors. -/
noncomputable def denoiseTimes (eigh : Mat (N + 2) → List (Pair (N + 2))) (argsort : List ℝ → List Nat)
    (svdU : List (Fin (N + 2) → ℝ) → List (Fin (N + 2) → ℝ)) (T : Nat) (C : Mat (N + 2)) : Nat → Py (Mat (N + 2))
  | 0 => .ok C
  | t + 1 => do
    let D ← denoiseTimes eigh argsort svdU T C t
    let r ← corDenoise eigh argsort svdU T (some 1) (.square D)
    .ok r.1

/-- C123. **Denoising is not idempotent**: repeated, it removes the correlation of the pair completely (with three or more assets). -/
theorem denoise_pair_vanishes (hE : EighSpec eigh) (hs : ArgsortSpec argsort) (hV : SvdSpec svdU) (h0 : 0 < ρ) (h1 : ρ ≤ 1) (T : Nat) :
    (∀ t, denoiseTimes eigh argsort svdU T (pairCor N ρ) t = .ok (pairCor N (ρ * ((N + 2) / (2 * (N + 1))) ^ t))) ∧
    (0 < N → Tendsto (fun t : Nat => ρ * (((N : ℝ) + 2) / (2 * (N + 1))) ^ t) atTop (nhds 0)) := by
  have hN : (0 : ℝ) ≤ N := Nat.cast_nonneg N
  have hq0 : 0 < ((N : ℝ) + 2) / (2 * (N + 1)) := by positivity
  have hq1 : ((N : ℝ) + 2) / (2 * (N + 1)) ≤ 1 := by
    rw [div_le_one (by positivity)]
    linarith
  constructor
  · intro t
    induction t with
    | zero => rw [pow_zero, mul_one]; rfl
    | succ t ih =>
      rw [denoiseTimes, ih]
      obtain ⟨r, hr, e⟩ := denoise_pair hE hs hV (mul_pos h0 (pow_pos hq0 t)) (mul_le_one₀ h1 (pow_nonneg hq0.le t) (pow_le_one₀ hq0.le hq1)) T
      rw [show ((Except.ok (pairCor N (ρ * ((N + 2) / (2 * (N + 1))) ^ t)) : Py (Mat (N + 2))) >>= fun D =>
        corDenoise eigh argsort svdU T (some 1) (.square D) >>= fun r => .ok r.1) =
        (corDenoise eigh argsort svdU T (some 1) (.square (pairCor N (ρ * ((N + 2) / (2 * (N + 1))) ^ t))) >>= fun r => .ok r.1) from rfl, hr]
      rw [pow_succ, ← mul_assoc, ← e]
      rfl
  · intro hpos
    have hN1 : (1 : ℝ) ≤ N := by exact_mod_cast hpos
    have hlt : ((N : ℝ) + 2) / (2 * (N + 1)) < 1 := by
      rw [div_lt_one (by positivity)]
      linarith
    have := (tendsto_pow_atTop_nhds_zero_of_lt_one hq0.le hlt).const_mul ρ
    rwa [mul_zero] at this

/-! A concrete case: three assets and a correlation of 0.8, with one factor. -/

example : ∃ (eigh : Mat 3 → List (Pair 3)) (argsort : List ℝ → List Nat) (svdU : List (Fin 3 → ℝ) → List (Fin 3 → ℝ)) (r : Mat 3 × Info),
    corDenoise eigh argsort svdU 10 (some 1) (.square (pairCor 1 (8 / 10))) = .ok r ∧ r.1 0 1 = 6 / 10 ∧ r.1 0 2 = 0 := by
  obtain ⟨e, he⟩ := eigh_exists (n := 3)
  obtain ⟨s, hs⟩ := argsort_exists
  obtain ⟨u, hu⟩ := svd_exists (n := 3)
  obtain ⟨r, hr, e1⟩ := denoise_pair (N := 1) (ρ := 8 / 10) he hs hu (by norm_num) (by norm_num) 10
  refine ⟨e, s, u, r, hr, ?_, ?_⟩
  · rw [e1]
    simp [pairCor]
    norm_num
  · rw [e1]
    simp [pairCor]

/-- The hypotheses of `denoise_manual_factor`, with two factors too few to be everything. -/
example : ∃ (eigh : Mat 3 → List (Pair 3)) (argsort : List ℝ → List Nat) (svdU : List (Fin 3 → ℝ) → List (Fin 3 → ℝ)) (r : Mat 3 × Info),
    EighSpec eigh ∧ ArgsortSpec argsort ∧ SvdSpec svdU ∧ IsCor (pairCor 1 (8 / 10)) ∧
    corDenoise eigh argsort svdU 10 (some (-1)) (.square (pairCor 1 (8 / 10))) = .ok r ∧ kept 3 (-1) = 2 := by
  obtain ⟨e, he⟩ := eigh_exists (n := 3)
  obtain ⟨s, hs⟩ := argsort_exists
  obtain ⟨u, hu⟩ := svd_exists (n := 3)
  have hC : IsCor (pairCor 1 (8 / 10)) := pair_isCor (by rw [abs_le]; norm_num)
  obtain ⟨r, hr⟩ := (cor_denoise_manual_ok_iff (svdU := u) he hs hC.symm 10 (-1)).1.mpr ⟨by omega, Or.inr ⟨by norm_num, by norm_num⟩⟩
  exact ⟨e, s, u, r, he, hs, hu, hC, hr, by decide⟩

end Verif.Cov
