import Verif.Model.LikR
import Verif.Props.OURound

/-!
# C135: likelihoods, AIC and BIC in floats
-/

namespace Verif.Sim

open Verif Round Finset

variable {fl : ℝ → ℝ} {dt : ℝ} {ord : List ℝ → SumTree} {n : Nat}

theorem Close.neg {k : Nat} {a A p : ℝ} (h : Close k a A p) : Close k (-a) (-A) p := by
  refine ⟨by rw [abs_neg]; exact h.1, ?_⟩
  rw [show -a - -A = -(a - A) by ring, abs_neg]
  exact h.2

theorem inv_one_sub : 1 / (1 - u64) ≤ (1 + u64) ^ 2 := by
  have hu := u64_pos
  have : u64 ≤ 1 / 4 := by unfold u64; norm_num
  rw [div_le_iff₀ u1]
  have h2 : 0 ≤ u64 * (1 - u64 - u64 ^ 2) := mul_nonneg hu.le (by nlinarith)
  nlinarith

theorem inv_pow_le_grow (k : Nat) : 1 / (1 - u64) ^ k ≤ (1 + u64) ^ (2 * k) := by
  rw [← one_div_pow, pow_mul]
  exact pow_le_pow_left₀ (by have := u1; positivity) inv_one_sub k

/-- Relative errors as errors against the size. -/
theorem Upto.close {k : Nat} {a A : ℝ} (h : Upto ((1 - u64) ^ k) a A) : Close (2 * k) a A |A| := by
  refine ⟨le_rfl, (h.le (pow_pos u1 k) (pow_le_one₀ u1.le (by linarith [u64_pos]))).trans ?_⟩
  exact mul_le_mul_of_nonneg_right (by linarith [inv_pow_le_grow k]) (abs_nonneg A)

/-- The logarithm of a number with a relative error. -/
theorem Upto.log_close {k : Nat} {a A : ℝ} (h : Upto ((1 - u64) ^ k) a A) (hA : 0 < A) :
    Close (2 * k) (Real.log a) (Real.log A) (|Real.log A| + 1) := by
  obtain ⟨θ, h1, h2, h3⟩ := h
  have hq := pow_pos u1 k
  have hθ : 0 < θ := hq.trans_le h2
  have hg := inv_pow_le_grow k
  have e : Real.log a - Real.log A = Real.log θ := by
    rw [h1, Real.log_mul hA.ne' hθ.ne']
    ring
  refine ⟨by linarith, ?_⟩
  rw [e]
  have hb : |Real.log θ| ≤ (1 + u64) ^ (2 * k) - 1 := by
    rw [abs_le]
    constructor
    · have k1 := Real.one_sub_inv_le_log_of_pos hθ
      have k2 : θ⁻¹ ≤ 1 / (1 - u64) ^ k := by
        rw [one_div]
        exact inv_anti₀ hq h2
      linarith
    · have k1 := Real.log_le_sub_one_of_pos hθ
      have k2 : θ ≤ 1 / (1 - u64) ^ k := by
        rw [le_div_iff₀ hq]
        exact h3
      linarith
  have h0 := one_le_pow (2 * k)
  nlinarith [abs_nonneg (Real.log A)]

theorem Close.div_upto {k j : Nat} {a A p s S : ℝ} (h : Close k a A p) (hs : Upto ((1 - u64) ^ j) s S) (hS : 0 < S) :
    Close (k + 2 * j) (a / s) (A / S) (p / S) := by
  have h1 := ((Upto.refl 1).div hs one_pos (pow_pos u1 j))
  rw [one_mul] at h1
  have := h.mul h1.close
  rwa [mul_one_div, mul_one_div, abs_of_pos (by positivity), mul_one_div] at this

/-- The logarithm of `√(2π)`. -/
noncomputable def logC : ℝ := Real.log (Real.sqrt (2 * Real.pi))

theorem logC_close (R : Rounding fl) : Close 9 (logCR fl) logC (|logC| + 1) := by
  have h1 := (((Upto.refl 2).mul ((Upto.refl Real.pi).rd R one_pos) one_pos (Upto.pos_rd one_pos)).rd R (mul_pos one_pos (Upto.pos_rd one_pos)))
  have h2 := h1.mono (q' := ((1 - u64) ^ (2 * 1)) * 1) (le_of_eq (by ring)) (by have := pow_pos u1 2; positivity)
  have h3 := (h2.sqrt (by have := pow_pos u1 2; positivity))
  rw [sqrt_pow, Real.sqrt_one] at h3
  have h4 := (h3.rd R (by have := u1; positivity)).mono (q' := (1 - u64) ^ 2) (le_of_eq (by ring)) (pow_pos u1 2)
  exact ((h4.log_close (Real.sqrt_pos.mpr (by positivity))).rd R).mono (by norm_num)

/-- The size of the terms of one log-density. -/
noncomputable def pdfSize (p s : ℝ) : ℝ := (p / s) ^ 2 / 2 + (|logC| + 1) + (|Real.log s| + 1)

theorem normLogpdf_std {M S A : ℝ} (hS : 0 < S) : normLogpdf M S A = -((A - M) / S) ^ 2 / 2 - logC - Real.log S := by
  unfold normLogpdf logC
  rw [Real.log_sqrt (by positivity)]
  field_simp
  ring

theorem logpdf_close (R : Rounding fl) {k j : Nat} {a A p m M q s S : ℝ} (ha : Close k a A p) (hm : Close k m M q) (hS : 0 < S)
    (hs : Upto ((1 - u64) ^ j) s S) (hj : 1 ≤ j) : Close (2 * k + 4 * j + 8) (logpdfR fl m s a) (normLogpdf M S A) (pdfSize (p + q) S) := by
  have z := ((ha.sub hm).rd R).div_upto hs hS |>.rd R
  have z2 := (z.mul z).rd R
  have h2 := ((z2.neg.divR (two_pos)).rd R)
  have h3 := ((h2.mono (m := 2 * k + 4 * j + 6) (by omega)).sub ((logC_close R).mono (by omega))).rd R
  have h4 := (h3.sub (((hs.log_close hS).rd R).mono (by omega))).rd R
  rw [normLogpdf_std hS]
  unfold logpdfR pdfSize
  simp only [sq] at *
  exact h4.mono (by omega)

theorem nll_close (R : Rounding fl) (ho : IsSum ord) (hn : 1 ≤ n) {k j : Nat} {f A p : Nat → ℝ} {m M q s S : ℝ}
    (hf : ∀ t < n, Close k (f t) (A t) (p t)) (hm : Close k m M q) (hS : 0 < S) (hs : Upto ((1 - u64) ^ j) s S)
    (hj : 1 ≤ j) : Close (2 * k + 4 * j + 7 + n) (nllColR fl ord m s ((List.range n).map f)) (nllCol M S ((List.range n).map A))
      (∑ t ∈ range n, pdfSize (p t + q) S) := by
  unfold nllColR nllCol
  rw [List.map_map, List.map_map]
  have := (tree_close R hn ho (f := logpdfR fl m s ∘ f) (A := fun t => normLogpdf M S (A t)) fun t ht => logpdf_close R (hf t ht) hm hS hs hj).neg
  rw [← sum_map_range] at this
  exact this.mono (by omega)

/-- A standard deviation `vol * dt**0.5` as computed. -/
theorem scale_upto (R : Rounding fl) (vol dt : ℝ) : Upto ((1 - u64) ^ 2) (fl (vol * fl (Real.sqrt dt))) (vol * Real.sqrt dt) := by
  have h1 := ((Upto.refl vol).mul ((Upto.refl (Real.sqrt dt)).rd R one_pos) one_pos (Upto.pos_rd one_pos)).rd R (mul_pos one_pos (Upto.pos_rd one_pos))
  exact h1.mono (le_of_eq (by ring)) (pow_pos u1 2)

/-- C135. The negative log-likelihood of a path of a Brownian motion. -/
theorem bm_nll_round (R : Rounding fl) (ho : IsSum ord) (hn : 1 ≤ n) (hdt : 0 < dt) {drift vol : ℝ} (hv : 0 < vol) (x : Nat → ℝ) :
    |bmNllR fl ord drift vol dt ((List.range (n + 1)).map x) - bmNll drift vol dt ((List.range (n + 1)).map x)| ≤
      ((1 + u64) ^ (n + 17) - 1) * ∑ t ∈ range n, pdfSize (|x (t + 1) - x t| + |drift * dt|) (vol * Real.sqrt dt) := by
  unfold bmNllR bmNll
  rw [diffsR_range, diffs_range]
  have hS : 0 < vol * Real.sqrt dt := mul_pos hv (Real.sqrt_pos.mpr hdt)
  have h := (nll_close R ho hn (k := 1) (f := fun i => fl (x (i + 1) - x i)) (A := fun i => x (i + 1) - x i) (p := fun i => |x (i + 1) - x i|)
    (fun t _ => (Close.refl _).rd R) ((Close.refl (drift * dt)).rd R) hS (scale_upto R vol dt) (by omega)).2
  rwa [show 2 * 1 + 4 * 2 + 7 + n = n + 17 by omega] at h

/-- C135. And of a geometric Brownian motion. -/
theorem gbm_nll_round (R : Rounding fl) (ho : IsSum ord) (hn : 1 ≤ n) (hdt : 0 < dt) {drift vol : ℝ} (hv : 0 < vol) {x : Nat → ℝ}
    (hx : ∀ t ≤ n, 0 < x t) :
    |gbmNllR fl ord drift vol dt ((List.range (n + 1)).map x) - gbmNll drift vol dt ((List.range (n + 1)).map x)| ≤
      ((1 + u64) ^ (n + 21) - 1) *
        ∑ t ∈ range n, pdfSize (|Real.log (x (t + 1) / x t)| + 1 + (|drift| + 0.5 * vol ^ 2)) (vol * Real.sqrt dt) := by
  unfold gbmNllR gbmNll
  rw [logRatiosR_range, logRatios_range]
  have hS : 0 < vol * Real.sqrt dt := mul_pos hv (Real.sqrt_pos.mpr hdt)
  have h1 := (((Close.refl (0.5 : ℝ)).mul ((Close.refl (vol ^ 2)).rd R)).rd R)
  have h2 := (((Close.refl drift).mono (m := 2) (by omega)).sub h1).rd R
  rw [abs_of_nonneg (by positivity : (0 : ℝ) ≤ vol ^ 2), abs_of_pos (by norm_num : (0 : ℝ) < 0.5)] at h2
  have h := (nll_close R ho hn (k := 3) (f := fun i => fl (Real.log (fl (x (i + 1) / x i)))) (A := fun i => Real.log (x (i + 1) / x i))
    (p := fun i => |Real.log (x (i + 1) / x i)| + 1) (fun t ht => by
      have := logIncR_close R (hx t (by omega)) (hx (t + 1) (by omega))
      rw [← Real.log_div (hx (t + 1) (by omega)).ne' (hx t (by omega)).ne'] at this
      exact this.mono (by omega)) h2 hS (scale_upto R vol dt) (by omega)).2
  rwa [show 2 * 3 + 4 * 2 + 7 + n = n + 21 by omega] at h

theorem nll_size {M S q : ℝ} (hS : 0 < S) (hq : |M| ≤ q) {A p : Nat → ℝ} (hp : ∀ t, |A t| ≤ p t) :
    |nllCol M S ((List.range n).map A)| ≤ ∑ t ∈ range n, pdfSize (p t + q) S := by
  unfold nllCol
  rw [abs_neg, List.map_map, sum_map_range]
  refine (abs_sum_le_sum_abs _ _).trans (sum_le_sum fun t _ => ?_)
  simp only [Function.comp]
  rw [normLogpdf_std hS]
  unfold pdfSize
  have h1 : ((A t - M) / S) ^ 2 ≤ ((p t + q) / S) ^ 2 := by
    refine sq_le_sq' ?_ ?_
    · rw [neg_le_iff_add_nonneg, ← add_div]
      have a1 := abs_le.mp (hp t)
      have a2 := abs_le.mp hq
      exact div_nonneg (by linarith) hS.le
    · have a1 := abs_le.mp (hp t)
      have a2 := abs_le.mp hq
      exact div_le_div_of_nonneg_right (by linarith) hS.le
  have h2 := abs_le.mp (le_refl |logC|)
  have h3 := abs_le.mp (le_refl |Real.log S|)
  have h4 := sq_nonneg ((A t - M) / S)
  have e : -((A t - M) / S) ^ 2 / 2 = -(((A t - M) / S) ^ 2 / 2) := by ring
  rw [e, abs_le]
  constructor <;> linarith [h2.1, h2.2, h3.1, h3.2]

theorem bm_size {drift vol : ℝ} (hS : 0 < vol * Real.sqrt dt) (x : Nat → ℝ) : |bmNll drift vol dt ((List.range (n + 1)).map x)| ≤
    ∑ t ∈ range n, pdfSize (|x (t + 1) - x t| + |drift * dt|) (vol * Real.sqrt dt) := by
  unfold bmNll
  rw [diffs_range]
  exact nll_size hS le_rfl fun t => le_rfl

theorem gbm_size {drift vol : ℝ} {x : Nat → ℝ} (hS : 0 < vol * Real.sqrt dt) : |gbmNll drift vol dt ((List.range (n + 1)).map x)| ≤
    ∑ t ∈ range n, pdfSize (|Real.log (x (t + 1) / x t)| + 1 + (|drift| + 0.5 * vol ^ 2)) (vol * Real.sqrt dt) := by
  unfold gbmNll
  rw [logRatios_range]
  refine nll_size hS ?_ fun t => by linarith
  refine (abs_sub _ _).trans ?_
  rw [abs_of_nonneg (by positivity : (0 : ℝ) ≤ 0.5 * vol ^ 2)]

/-- The size of the terms of a score. -/
noncomputable def scoreSize (k n : Nat) (P : ℝ) : Score → ℝ
  | .nll => P
  | .aic => 2 * k + 2 * P * n
  | .bic => 2 * Real.log n * k + 2 * P * n

/-- C135. A score from a likelihood that is off by `N` roundings of `P`. -/
theorem score_round (R : Rounding fl) {k N : Nat} {l L P : ℝ} (hL : |L| ≤ P) (h : |l - L| ≤ ((1 + u64) ^ N - 1) * P) (sc : Score) :
    |scoreValueR fl k n l sc - scoreValue k n L sc| ≤ ((1 + u64) ^ (N + 4) - 1) * scoreSize k n P sc := by
  have hc : Close N l L P := ⟨hL, h⟩
  have hn := ((((Close.refl (2 : ℝ)).mul hc).rd R).mul (Close.refl (n : ℝ))).rd R
  rw [abs_two, Nat.abs_cast] at hn
  cases sc with
  | nll => exact (hc.mono (m := N + 4) (by omega)).2
  | aic =>
    have h1 := (((Close.refl (2 * k : ℝ)).mono (m := N + 2) (by omega)).add (hn.mono (m := N + 2) (by omega))).rd R
    rw [abs_of_nonneg (by positivity : (0 : ℝ) ≤ 2 * k)] at h1
    exact (h1.mono (m := N + 4) (by omega)).2
  | bic =>
    have h1 := ((((Close.refl (2 : ℝ)).mul ((Close.refl (Real.log n)).rd R)).rd R).mul (Close.refl (k : ℝ))).rd R
    rw [abs_two, Nat.abs_cast, abs_of_nonneg (Real.log_natCast_nonneg n)] at h1
    have h2 := ((h1.mono (m := N + 3) (by omega)).add (hn.mono (m := N + 3) (by omega))).rd R
    exact (h2.mono (m := N + 4) (by omega)).2

/-- C135. Two models whose exact scores are further apart than the two errors are ranked in the right order. -/
theorem score_order (R : Rounding fl) {k k' N N' n' : Nat} {l L P l' L' P' : ℝ} (hL : |L| ≤ P) (h : |l - L| ≤ ((1 + u64) ^ N - 1) * P)
    (hL' : |L'| ≤ P') (h' : |l' - L'| ≤ ((1 + u64) ^ N' - 1) * P') (sc : Score)
    (hd : scoreValue k n L sc + ((1 + u64) ^ (N + 4) - 1) * scoreSize k n P sc + ((1 + u64) ^ (N' + 4) - 1) * scoreSize k' n' P' sc <
      scoreValue k' n' L' sc) : scoreValueR fl k n l sc < scoreValueR fl k' n' l' sc := by
  have h1 := abs_le.mp (score_round R (k := k) (n := n) hL h sc)
  have h2 := abs_le.mp (score_round R (k := k') (n := n') hL' h' sc)
  linarith [h1.2, h2.1]

/-- C135. The AIC of a fitted Brownian motion (two parameters) against that of a geometric Brownian motion (two parameters), for the same
positive prices: the smaller one is found if the exact values differ by more than the rounding errors. -/
theorem aic_choice (R : Rounding fl) {ord' : List ℝ → SumTree} (ho : IsSum ord) (ho' : IsSum ord') (hn : 1 ≤ n) (hdt : 0 < dt)
    {d v d' v' : ℝ} (hv : 0 < v) (hv' : 0 < v') {x : Nat → ℝ} (hx : ∀ t ≤ n, 0 < x t) {P Q : ℝ}
    (hP : P = ∑ t ∈ range n, pdfSize (|x (t + 1) - x t| + |d * dt|) (v * Real.sqrt dt))
    (hQ : Q = ∑ t ∈ range n, pdfSize (|Real.log (x (t + 1) / x t)| + 1 + (|d'| + 0.5 * v' ^ 2)) (v' * Real.sqrt dt))
    (hd : ((1 + u64) ^ (n + 25) - 1) * (8 + 2 * (P + Q) * (n + 1)) <
      |scoreValue 2 (n + 1) (bmNll d v dt ((List.range (n + 1)).map x)) .aic - scoreValue 2 (n + 1) (gbmNll d' v' dt ((List.range (n + 1)).map x)) .aic|) :
    scoreValueR fl 2 (n + 1) (bmNllR fl ord d v dt ((List.range (n + 1)).map x)) .aic <
        scoreValueR fl 2 (n + 1) (gbmNllR fl ord' d' v' dt ((List.range (n + 1)).map x)) .aic ↔
      scoreValue 2 (n + 1) (bmNll d v dt ((List.range (n + 1)).map x)) .aic <
        scoreValue 2 (n + 1) (gbmNll d' v' dt ((List.range (n + 1)).map x)) .aic := by
  have hS : 0 < v * Real.sqrt dt := mul_pos hv (Real.sqrt_pos.mpr hdt)
  have hS' : 0 < v' * Real.sqrt dt := mul_pos hv' (Real.sqrt_pos.mpr hdt)
  have b1 := bm_nll_round R ho hn hdt (drift := d) hv x
  have b2 := gbm_nll_round R ho' hn hdt (drift := d') hv' hx
  rw [← hP] at b1
  rw [← hQ] at b2
  have s1 := bm_size (n := n) (drift := d) hS x
  have s2 := gbm_size (n := n) (drift := d') (x := x) hS'
  rw [← hP] at s1
  rw [← hQ] at s2
  have c1 := abs_le.mp (score_round R (k := 2) (n := n + 1) s1 b1 .aic)
  have c2 := abs_le.mp (score_round R (k := 2) (n := n + 1) s2 b2 .aic)
  have hP0 : 0 ≤ P := (abs_nonneg _).trans s1
  have g1 : (1 + u64) ^ (n + 17 + 4) ≤ (1 + u64) ^ (n + 25) := pow_le_pow_right₀ (by linarith [u64_pos]) (by omega)
  have g2 := mul_le_mul_of_nonneg_right (sub_le_sub_right g1 1) (show 0 ≤ scoreSize 2 (n + 1) P .aic by unfold scoreSize; positivity)
  have e : ((1 + u64) ^ (n + 25) - 1) * (8 + 2 * (P + Q) * (n + 1)) =
      ((1 + u64) ^ (n + 25) - 1) * scoreSize 2 (n + 1) P .aic + ((1 + u64) ^ (n + 21 + 4) - 1) * scoreSize 2 (n + 1) Q .aic := by
    unfold scoreSize
    push_cast
    ring
  rw [e] at hd
  push_cast at *
  constructor
  · intro h
    by_contra hc
    rw [abs_of_nonneg (by linarith)] at hd
    linarith [c1.1, c2.2]
  · intro h
    rw [abs_of_neg (by linarith)] at hd
    linarith [c1.2, c2.1]

/-! ### Adequacy -/

theorem nllColR_id (ho : IsSum ord) {M S : ℝ} (hS : 0 < S) {l : List ℝ} (hl : l ≠ []) : nllColR id ord M S l = nllCol M S l := by
  have e : ∀ a, logpdfR id M S a = normLogpdf M S a := fun a => by
    rw [normLogpdf_std hS]
    rfl
  have e' : logpdfR id M S = normLogpdf M S := funext e
  unfold nllColR nllCol
  rw [round_sum_id_agrees.1, (ho _ (by simpa using hl)).sum_eq]
  rw [e']

/-- C135. Without rounding these are the exact likelihoods and scores. -/
theorem lik_id (ho : IsSum ord) (hn : 1 ≤ n) (hdt : 0 < dt) {drift vol : ℝ} (hv : 0 < vol) (x : Nat → ℝ) :
    bmNllR id ord drift vol dt ((List.range (n + 1)).map x) = bmNll drift vol dt ((List.range (n + 1)).map x) ∧
    gbmNllR id ord drift vol dt ((List.range (n + 1)).map x) = gbmNll drift vol dt ((List.range (n + 1)).map x) ∧
    ∀ (k m : Nat) (l : ℝ) (sc : Score), scoreValueR id k m l sc = scoreValue k m l sc := by
  have hS : 0 < vol * Real.sqrt dt := mul_pos hv (Real.sqrt_pos.mpr hdt)
  refine ⟨?_, ?_, fun k m l sc => by cases sc <;> rfl⟩
  · unfold bmNllR bmNll
    rw [diffsR_id]
    exact nllColR_id ho hS (by rw [diffs_range]; simp; omega)
  · unfold gbmNllR gbmNll
    rw [logRatiosR_id]
    exact nllColR_id ho hS (by rw [logRatios_range]; simp; omega)

/-! ### A case -/

theorem logC_bounds : 0 ≤ logC ∧ logC ≤ 2 := by
  have h1 := Real.two_le_pi
  have h2 := Real.pi_le_four
  unfold logC
  have h3 : (1 : ℝ) ≤ Real.sqrt (2 * Real.pi) := Real.one_le_sqrt.mpr (by linarith)
  have h4 : Real.sqrt (2 * Real.pi) ≤ 3 := Real.sqrt_le_iff.mpr ⟨by norm_num, by linarith⟩
  exact ⟨Real.log_nonneg h3, by linarith [Real.log_le_sub_one_of_pos (show 0 < Real.sqrt (2 * Real.pi) by linarith)]⟩

/-- The prices 1 and 2: a Brownian motion with drift 1 and volatility 1 has a smaller AIC than a geometric one with drift 10.5 and
volatility 1, also in floats. -/
example {ord' : List ℝ → SumTree} (ho : IsSum ord) (ho' : IsSum ord') :
    scoreValueR b64 2 2 (bmNllR b64 ord 1 1 1 ((List.range 2).map fun t : Nat => (t : ℝ) + 1)) .aic <
      scoreValueR b64 2 2 (gbmNllR b64 ord' 10.5 1 1 ((List.range 2).map fun t : Nat => (t : ℝ) + 1)) .aic := by
  obtain ⟨c0, c1⟩ := logC_bounds
  have l0 : 0 ≤ Real.log 2 := Real.log_nonneg (by norm_num)
  have l1 : Real.log 2 ≤ 1 := by linarith [Real.log_le_sub_one_of_pos (two_pos (α := ℝ))]
  have e1 : bmNll 1 1 1 ((List.range (1 + 1)).map fun t : Nat => (t : ℝ) + 1) = logC := by
    unfold bmNll nllCol
    rw [diffs_range]
    simp [normLogpdf_std]
  have e2 : gbmNll 10.5 1 1 ((List.range (1 + 1)).map fun t : Nat => (t : ℝ) + 1) = (Real.log 2 - 10) ^ 2 / 2 + logC := by
    unfold gbmNll nllCol
    rw [logRatios_range]
    simp [normLogpdf_std]
    norm_num
    ring
  have hbig : (81 : ℝ) / 2 ≤ (Real.log 2 - 10) ^ 2 / 2 := by nlinarith
  refine (aic_choice b64_rounding ho ho' (n := 1) le_rfl one_pos (d := 1) (d' := 10.5) one_pos one_pos (fun t _ => by positivity) rfl rfl ?_).mpr ?_
  · rw [e1, e2]
    have q1 : (∑ t ∈ range 1, pdfSize (|((t + 1 : ℕ) : ℝ) + 1 - ((t : ℝ) + 1)| + |(1 : ℝ) * 1|) (1 * Real.sqrt 1)) = 4 + logC := by
      simp [pdfSize, abs_of_nonneg c0]
      norm_num
      ring
    have q2 : (∑ t ∈ range 1, pdfSize (|Real.log ((((t + 1 : ℕ) : ℝ) + 1) / ((t : ℝ) + 1))| + 1 + (|(10.5 : ℝ)| + 0.5 * 1 ^ 2)) (1 * Real.sqrt 1)) =
        (Real.log 2 + 12) ^ 2 / 2 + 2 + logC := by
      simp [pdfSize, abs_of_nonneg c0]
      norm_num [abs_of_nonneg l0]
      ring
    rw [q1, q2]
    unfold scoreValue
    rw [abs_of_neg (by push_cast; linarith)]
    have hu : (1 + u64) ^ (1 + 25) - 1 ≤ 1 / 1000 := by unfold u64; norm_num
    have hQ : (Real.log 2 + 12) ^ 2 / 2 ≤ 169 / 2 := by nlinarith
    have := mul_le_mul_of_nonneg_right hu (show 0 ≤ 8 + 2 * (4 + logC + ((Real.log 2 + 12) ^ 2 / 2 + 2 + logC)) * (((1 : ℕ) : ℝ) + 1) by positivity)
    push_cast at *
    linarith
  · rw [e1, e2]
    unfold scoreValue
    push_cast
    linarith

end Verif.Sim
