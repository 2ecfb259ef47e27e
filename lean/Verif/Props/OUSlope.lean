import Verif.Props.OUFitRound

/-!
# C134: how many digits the volatility loses, for slopes that are floats
-/

namespace Verif.Sim

open Verif Round

theorem rne_nearest (x : ℝ) (k : ℤ) : |(rne x : ℝ) - x| ≤ |(k : ℝ) - x| := by
  by_contra hc
  push Not at hc
  have h1 := abs_rne_sub x
  have h2 : |((rne x - k : ℤ) : ℝ)| < 1 := by
    push_cast
    calc |(rne x : ℝ) - k| = |((rne x : ℝ) - x) - (k - x)| := by ring_nf
      _ ≤ |(rne x : ℝ) - x| + |(k : ℝ) - x| := abs_sub _ _
      _ < 1 := by linarith
  have h3 : |rne x - k| < 1 := by exact_mod_cast h2
  have h4 : rne x = k := by have := abs_lt.mp h3; omega
  rw [h4] at hc
  exact lt_irrefl _ hc

theorem b64_nearest (x : ℝ) (k : ℤ) : |b64 x - x| ≤ |(k : ℝ) * 2 ^ ulpExp x - x| := by
  have hp : (0 : ℝ) < 2 ^ ulpExp x := by positivity
  have h := mul_le_mul_of_nonneg_right (rne_nearest (x / 2 ^ ulpExp x) k) hp.le
  rw [← abs_of_pos hp, ← abs_mul, ← abs_mul, sub_mul, sub_mul, abs_of_pos hp, div_mul_cancel₀ _ hp.ne'] at h
  exact h

theorem ulp_le {x : ℝ} {e : ℤ} (hx : 0 < x) (h : x < 2 ^ 53 * 2 ^ e) : ulpExp x ≤ e := by
  have h1 := (ulp_bounds hx.ne').1
  rw [abs_of_pos hx] at h1
  by_contra hc
  push Not at hc
  have h2 : (2 : ℝ) ^ (e + 1) ≤ 2 ^ ulpExp x := zpow_le_zpow_right₀ one_le_two hc
  rw [zpow_add₀ two_ne_zero, zpow_one] at h2
  linarith

/-- A multiple of `2 ^ e` is a multiple of the spacing when this is not larger. -/
theorem nearest_multiple {x : ℝ} {e m : ℤ} (h : ulpExp x ≤ e) : |b64 x - x| ≤ |(m : ℝ) * 2 ^ e - x| := by
  obtain ⟨d, hd⟩ := Int.eq_ofNat_of_zero_le (sub_nonneg.mpr h)
  have := b64_nearest x (m * 2 ^ d)
  have e1 : ((m * 2 ^ d : ℤ) : ℝ) * 2 ^ ulpExp x = m * 2 ^ e := by
    push_cast
    rw [mul_assoc, ← zpow_natCast, ← zpow_add₀ two_ne_zero]
    congr 2
    omega
  rwa [e1] at this

theorem float_grid {s : ℝ} {e : ℤ} (hs : b64 s = s) (h1 : (2 : ℝ) ^ 52 * 2 ^ e ≤ s) (h2 : s < 2 ^ 53 * 2 ^ e) : ∃ m : ℤ, s = m * 2 ^ e := by
  have h0 : 0 < s := lt_of_lt_of_le (by positivity) h1
  have hE : ulpExp s = e := ulp_unique (by rwa [abs_of_pos h0]) (by rwa [abs_of_pos h0])
  refine ⟨rne (s / 2 ^ e), ?_⟩
  conv_lhs => rw [← hs]
  unfold b64
  rw [hE]

/-- The rounding error of the square of a float near one is at most the square of the distance from one. -/
theorem sq_near_one {s : ℝ} (hs : b64 s = s) (h1 : 1 / 2 ≤ s) (h2 : s < 3 / 2) : |b64 (s ^ 2) - s ^ 2| ≤ (1 - s) ^ 2 := by
  have e2 : ∀ f : ℝ, f = 2 * s - 1 → |f - s ^ 2| = (1 - s) ^ 2 := fun f hf => by
    rw [hf, show 2 * s - 1 - s ^ 2 = -(1 - s) ^ 2 by ring, abs_neg, abs_of_nonneg (sq_nonneg _)]
  rcases lt_or_ge s 1 with h | h
  · obtain ⟨m, hm⟩ := float_grid (e := -53) hs (by norm_num; linarith) (by norm_num; linarith)
    have hu : ulpExp (s ^ 2) ≤ -53 := ulp_le (by positivity) (lt_of_lt_of_le (b := 1) (by nlinarith) (by norm_num))
    have e3 : ((2 * m - 2 ^ 53 : ℤ) : ℝ) * 2 ^ (-53 : ℤ) = 2 * s - 1 := by rw [hm]; push_cast; norm_num; ring
    have := nearest_multiple (m := 2 * m - 2 ^ 53) hu
    rw [e2 _ e3] at this
    exact this
  · obtain ⟨m, hm⟩ := float_grid (e := -52) hs (by norm_num; linarith) (by norm_num; linarith)
    have hu : ulpExp (s ^ 2) ≤ -51 := ulp_le (by positivity) (lt_of_lt_of_le (b := 4) (by nlinarith) (by norm_num))
    have e3 : ((m - 2 ^ 51 : ℤ) : ℝ) * 2 ^ (-51 : ℤ) = 2 * s - 1 := by rw [hm]; push_cast; norm_num; ring
    have := nearest_multiple (m := m - 2 ^ 51) hu
    rw [e2 _ e3] at this
    exact this

/-- `1 - slope²` of a float other than one loses at most half of its digits. -/
theorem float_loss {s : ℝ} (hs : b64 s = s) (h0 : 0 < s) (h1 : s ≠ 1) : |b64 (s ^ 2) - s ^ 2| ≤ 1 / 2 ^ 26 * |1 - s ^ 2| := by
  have hr := b64_rel (s ^ 2)
  rw [abs_of_nonneg (sq_nonneg s)] at hr
  unfold u64 at hr
  rcases lt_or_ge s (1 / 2) with h | h
  · rw [abs_of_pos (by nlinarith : 0 < 1 - s ^ 2)]
    nlinarith
  rcases lt_or_ge s (3 / 2) with h' | h'
  · have hn := sq_near_one hs h h'
    rcases lt_or_gt_of_ne h1 with hl | hl
    · rw [abs_of_pos (by nlinarith : 0 < 1 - s ^ 2)]
      have hd : 1 - s ≤ 1 - s ^ 2 := by nlinarith
      rcases le_or_gt (1 - s) (1 / 2 ^ 26) with hd' | hd'
      · have : (1 - s) ^ 2 ≤ 1 / 2 ^ 26 * (1 - s) := by
          rw [sq]
          exact mul_le_mul_of_nonneg_right hd' (by linarith)
        linarith
      · have : s ^ 2 ≤ 1 := by nlinarith
        norm_num at *
        linarith
    · rw [abs_of_neg (by nlinarith : 1 - s ^ 2 < 0)]
      have hd : 2 * (s - 1) ≤ s ^ 2 - 1 := by nlinarith
      rcases le_or_gt (s - 1) (1 / 2 ^ 26) with hd' | hd'
      · have : (1 - s) ^ 2 ≤ 1 / 2 ^ 26 * (s - 1) := by
          rw [show (1 - s) ^ 2 = (s - 1) * (s - 1) by ring]
          exact mul_le_mul_of_nonneg_right hd' (by linarith)
        linarith
      · have : s ^ 2 ≤ 9 / 4 := by nlinarith
        norm_num at *
        linarith
  · rw [abs_of_neg (by nlinarith : 1 - s ^ 2 < 0)]
    nlinarith

variable {o : FitOrders} {chol : Arr → Option Arr} {lsq : Nat → List ℝ → List ℝ → ℝ × ℝ} {avg : Nat → List ℝ → SumTree} {x : Arr} {dt : ℝ}
  {n : Nat}

/-- The slope used is a float when the solver returns one. -/
theorem line_float (j : Nat) (hf : b64 (lsq j (x.col j).dropLast (x.col j).tail).1 = (lsq j (x.col j).dropLast (x.col j).tail).1) :
    b64 (lineR b64 lsq avg x j).1 = (lineR b64 lsq avg x j).1 := by
  unfold lineR ouLineR
  dsimp only
  split_ifs
  · exact b64_idem _
  · exact hf

open Finset in
/-- C134. In 64-bit floats, whatever slope other than one the solver returns for the last column: rate and mean to the last digits, and
volatilities to half of the digits. -/
theorem ou_fit_b64 (ho : o.Valid) (hx : x.rows = n + 1) (hn : 2 ≤ n) (hc : 0 < x.cols) {r : OUFit}
    (h : ouFitR b64 lsq avg o chol x dt = .ok r) {s b : ℝ} (hab : lineR b64 lsq avg x (x.cols - 1) = (s, b)) (h1 : s ≠ 1)
    (hf : ∀ a c, b64 (lsq (x.cols - 1) a c).1 = (lsq (x.cols - 1) a c).1) :
    |r.mrr - -Real.log s / dt| ≤ 3 * u64 * |-Real.log s / dt| ∧ |r.mean - b / (1 - s)| ≤ 3 * u64 * |b / (1 - s)| ∧
    ∀ j < x.cols,
      let g := resid x (lineR b64 lsq avg x j) j
      let p := residSize x (lineR b64 lsq avg x j) j
      let E := ((1 + u64) ^ (n + 3) - 1) * mean n p
      let ρ := ((1 + u64) ^ 3 - 1) * Real.sqrt ((∑ t ∈ range n, p t ^ 2) / (n - 1))
      ∃ v w, r.vol[j]? = some (some v) ∧
        |v - Real.sqrt (2 * (-Real.log s / dt) * w ^ 2 / (1 - s ^ 2))| ≤ 1 / 2 ^ 25 * Real.sqrt (2 * (-Real.log s / dt) * w ^ 2 / (1 - s ^ 2)) ∧
        0 ≤ w ∧ |w - Real.sqrt (scov n 1 g g)| ≤ ((1 + u64) ^ (n + 3) - 1) * (Real.sqrt (scov n 1 g g) + ρ + 2 * E) + 2 * E + ρ := by
  have hp := (ou_slope_pos (lsq := lsq) (avg := avg) (x := x) b64_rounding (x.cols - 1)).1
  have hfl := line_float (avg := avg) (x := x) (x.cols - 1) (hf _ _)
  rw [hab] at hp hfl
  have hs : s ^ 2 ≠ 1 := fun h => by
    have : (s - 1) * (s + 1) = 0 := by linarith
    rcases mul_eq_zero.mp this with h | h
    · exact h1 (by linarith)
    · dsimp only at hp
      linarith
  obtain ⟨k1, k2, k3⟩ := ou_fit_loss b64_rounding ho hx hn hc h hab hs (float_loss hfl hp h1) (by norm_num) (by norm_num)
  refine ⟨k1, k2, fun j hj => ?_⟩
  obtain ⟨v, w, e1, e2, e3, e4⟩ := k3 j hj
  refine ⟨v, w, e1, e2.trans (mul_le_mul_of_nonneg_right ?_ (Real.sqrt_nonneg _)), e3, e4⟩
  unfold u64
  norm_num

/-- C134. And not to more: for the slope `1 - (2^26 - 1) * 2^-53` the computed `1 - slope²` differs from the exact one in the 29th binary
digit. -/
theorem slope_digits : ∃ s : ℝ, b64 s = s ∧ 0 < s ∧ s < 1 ∧ 1 / 2 ^ 29 * (1 - s ^ 2) ≤ |b64 (1 - b64 (s ^ 2)) - (1 - s ^ 2)| := by
  refine ⟨((2 ^ 53 - (2 ^ 26 - 1) : ℤ) : ℝ) * 2 ^ (-53 : ℤ), b64_exact (by norm_num) _, by norm_num, by norm_num, ?_⟩
  have h1 : b64 ((((2 ^ 53 - (2 ^ 26 - 1) : ℤ) : ℝ) * 2 ^ (-53 : ℤ)) ^ 2) = ((2 ^ 53 - 2 * (2 ^ 26 - 1) : ℤ) : ℝ) * 2 ^ (-53 : ℤ) := by
    apply b64_eq <;> norm_num [abs_lt]
  have h2 : b64 (1 - ((2 ^ 53 - 2 * (2 ^ 26 - 1) : ℤ) : ℝ) * 2 ^ (-53 : ℤ)) = ((2 * (2 ^ 26 - 1) : ℤ) : ℝ) * 2 ^ (-53 : ℤ) := by
    rw [← b64_exact (m := 2 * (2 ^ 26 - 1)) (by norm_num) (-53)]
    norm_num
  rw [h1, h2]
  norm_num

/-- Two columns and the slope 1/2. -/
example (ho : o.Valid) {ord : Nat → Nat → List (ℝ × ℝ) → DotTree} (hord : IsCholOrder ord) (recip : Nat → Nat → Bool) :
    ∃ r, ouFitR b64 halfLine avg o (cholR b64 ord recip) halfData 1 = .ok r ∧ ∀ j < 2, ∃ v w : ℝ, r.vol[j]? = some (some v) ∧
      |v - Real.sqrt (2 * (-Real.log (1 / 2) / 1) * w ^ 2 / (1 - (1 / 2) ^ 2))| ≤
        1 / 2 ^ 25 * Real.sqrt (2 * (-Real.log (1 / 2) / 1) * w ^ 2 / (1 - (1 / 2) ^ 2)) := by
  obtain ⟨r, hr⟩ := half_fit (avg := avg) (dt := 1) (recip := recip) b64_rounding ho hord
  obtain ⟨-, -, h⟩ := ou_fit_b64 ho (n := 4) rfl (by norm_num) (by decide) hr (half_line b64_rounding _) (by norm_num) (fun _ _ => by
    have := b64_exact (m := 1) (by norm_num) (-1)
    norm_num [halfLine] at this ⊢
    exact this)
  refine ⟨r, hr, fun j hj => ?_⟩
  obtain ⟨v, w, e1, e2, -⟩ := h j hj
  exact ⟨v, w, e1, e2⟩

end Verif.Sim
