import Verif.Props.SimLikMore
import Verif.Props.SimNll
import Verif.Props.SimOUFit

/-!
# Calibration and likelihood of an Ornstein-Uhlenbeck path (C75)
-/

namespace Verif.Sim

open Verif.Cov

variable {eigh : (d : Nat) → Mat d → List (Pair d)} {chol : Arr → Option Arr} {n : Nat} {x : Arr} {dt : ℝ} {r : OUFit}

/-- The normal equations of the fitted line. -/
theorem lstsq_normal (hn : 0 < n) (X Y : Nat → ℝ) {a b : ℝ}
    (h : lstsqLine ((List.range n).map X) ((List.range n).map Y) = (a, b)) :
    ∑ t ∈ Finset.range n, (Y t - (a * X t + b)) = 0 ∧ ∑ t ∈ Finset.range n, (Y t - (a * X t + b)) * X t = 0 := by
  have hn0 : (n : ℝ) ≠ 0 := by exact_mod_cast hn.ne'
  have hmean : ∀ f : Nat → ℝ, ∑ t ∈ Finset.range n, f t = n * mean n f := fun f => by
    unfold mean; field_simp
  have hl : ∀ f : Nat → ℝ, lmean ((List.range n).map f) = mean n f := fun f => by rw [lmean_range]; rfl
  have hsum : ∑ t ∈ Finset.range n, (Y t - (a * X t + b)) = n * (mean n Y - (a * mean n X + b)) := by
    rw [Finset.sum_sub_distrib, Finset.sum_add_distrib, ← Finset.mul_sum, hmean Y, hmean X, Finset.sum_const, Finset.card_range,
      nsmul_eq_mul]
    ring
  have hxsum : ∑ t ∈ Finset.range n, (Y t - (a * X t + b)) * X t =
      (∑ t ∈ Finset.range n, (X t - mean n X) * (Y t - mean n Y)) -
        a * (∑ t ∈ Finset.range n, (X t - mean n X) * (X t - mean n X)) + n * (mean n Y - (a * mean n X + b)) * mean n X := by
    have e : ∀ t, (Y t - (a * X t + b)) * X t = (X t - mean n X) * (Y t - mean n Y) - a * ((X t - mean n X) * (X t - mean n X)) +
        mean n X * (Y t - (a * X t + b)) + (mean n Y - (a * mean n X + b)) * (X t - mean n X) := by
      intro t; ring
    have hx0 : ∑ t ∈ Finset.range n, (X t - mean n X) = 0 := by
      rw [Finset.sum_sub_distrib, hmean X, Finset.sum_const, Finset.card_range, nsmul_eq_mul, sub_self]
    simp only [e]
    rw [Finset.sum_add_distrib, Finset.sum_add_distrib, Finset.sum_sub_distrib, ← Finset.mul_sum, ← Finset.mul_sum,
      ← Finset.mul_sum, hx0, hsum]
    ring
  unfold lstsqLine at h
  rw [if_neg (by simp; omega)] at h
  by_cases h0 : sqDev ((List.range n).map X) = 0
  · rw [if_pos h0, hl, hl] at h
    injection h with ha hb
    have hp : mean n X ^ 2 + 1 ≠ 0 := by positivity
    have hz : mean n Y - (a * mean n X + b) = 0 := by
      rw [← ha, ← hb]; field_simp; ring
    rw [sqDev_range] at h0
    have hdev : ∀ t ∈ Finset.range n, X t - mean n X = 0 := by
      rw [Finset.sum_eq_zero_iff_of_nonneg fun _ _ => mul_self_nonneg _] at h0
      exact fun t ht => mul_self_eq_zero.mp (h0 t ht)
    refine ⟨by rw [hsum, hz, mul_zero], ?_⟩
    rw [hxsum, hz, h0, Finset.sum_eq_zero fun t ht => by rw [hdev t ht, zero_mul]]
    ring
  · rw [if_neg h0, hl, hl, crossDev_range, sqDev_range] at h
    rw [sqDev_range] at h0
    injection h with ha hb
    have hz : mean n Y - (a * mean n X + b) = 0 := by
      rw [← hb, ← ha]; ring
    refine ⟨by rw [hsum, hz, mul_zero], ?_⟩
    rw [hxsum, hz, ← ha, div_mul_cancel₀ _ h0]
    ring

/-- The fitted line has the smallest sum of squared residuals. -/
theorem lstsq_min {X Y : Nat → ℝ} {a b : ℝ} (h1 : ∑ t ∈ Finset.range n, (Y t - (a * X t + b)) = 0)
    (h2 : ∑ t ∈ Finset.range n, (Y t - (a * X t + b)) * X t = 0) (a' b' : ℝ) :
    ∑ t ∈ Finset.range n, (Y t - (a * X t + b)) ^ 2 ≤ ∑ t ∈ Finset.range n, (Y t - (a' * X t + b')) ^ 2 := by
  have e : ∀ t, (Y t - (a' * X t + b')) ^ 2 = (Y t - (a * X t + b)) ^ 2 + ((a' - a) * X t + (b' - b)) ^ 2 +
      (-2 * (a' - a)) * ((Y t - (a * X t + b)) * X t) + (-2 * (b' - b)) * (Y t - (a * X t + b)) := by
    intro t; ring
  simp only [e]
  rw [Finset.sum_add_distrib, Finset.sum_add_distrib, Finset.sum_add_distrib, ← Finset.mul_sum, ← Finset.mul_sum, h1, h2]
  have := Finset.sum_nonneg (s := Finset.range n) fun t _ => sq_nonneg ((a' - a) * X t + (b' - b))
  linarith

/-- The negative log-likelihood of residuals. -/
theorem neg_sum_normLogpdf (m : Nat → ℝ) (s : ℝ) (Y : Nat → ℝ) :
    -∑ t ∈ Finset.range n, normLogpdf (m t) s (Y t) =
      (∑ t ∈ Finset.range n, (Y t - m t) ^ 2) / (2 * s ^ 2) + n * Real.log s + n * (Real.log (2 * Real.pi) / 2) := by
  have e : ∀ t, normLogpdf (m t) s (Y t) = -((Y t - m t) ^ 2 / (2 * s ^ 2)) - Real.log s - Real.log (2 * Real.pi) / 2 := by
    intro t; unfold normLogpdf; ring
  simp only [e]
  rw [Finset.sum_sub_distrib, Finset.sum_sub_distrib, Finset.sum_neg_distrib, ← Finset.sum_div, Finset.sum_const,
    Finset.sum_const, Finset.card_range, nsmul_eq_mul, nsmul_eq_mul]
  ring

/-- The smallest value over all lines and scales. -/
theorem residual_min {A A' n' s t c : ℝ} (hn : 0 < n') (hs : 0 < s) (ht : 0 < t) (hA : A = n' * t ^ 2) (hle : A ≤ A') :
    A / (2 * t ^ 2) + n' * Real.log t + c ≤ A' / (2 * s ^ 2) + n' * Real.log s + c := by
  have h1 : A / (2 * s ^ 2) ≤ A' / (2 * s ^ 2) := div_le_div_of_nonneg_right hle (by positivity)
  by_cases hst : s = t
  · rw [hst] at h1 ⊢; linarith
  · have := gauss_scale_min hn hs ht hA hst
    linarith

/-- C75. Calibration of one Ornstein-Uhlenbeck path. If the slope is not clamped and the fitted rate and volatility are not
zero, the fitted mean and rate with the volatility `vol * sqrt((n-1)/n)` minimise `nll` over all means, rates and
volatilities (`n` = number of steps). -/
theorem ou_fit_ml (hrows : 3 ≤ x.rows) (hcols : x.cols = 1) (hdt : 0 < dt) (h : ouFit chol x dt = .ok r)
    (hclamp : r.mrr < 8 * Real.log 10 / dt) (hmrr : r.mrr ≠ 0) :
    ∃ V, r.vol = [some V] ∧ 0 ≤ V ∧ (V = 0 ↔ ∀ t, t + 1 < x.rows →
        x.get (t + 1) 0 = r.mean + (x.get t 0 - r.mean) * Real.exp (-r.mrr * dt)) ∧
      (V ≠ 0 → ∃ v, ouNllFull eigh (r.params [V * Real.sqrt (((x.rows - 1 : ℕ) - 1) / (x.rows - 1 : ℕ))]) none x dt =
          .ok (.fin v) ∧
        ∀ μ θ σ, θ ≠ 0 → σ ≠ 0 → ∃ w, ouNllFull eigh ⟨.row [μ], .row [θ], [σ], none⟩ none x dt = .ok (.fin w) ∧ v ≤ w) := by
  obtain ⟨n, hn⟩ : ∃ n, x.rows = n + 1 := ⟨x.rows - 1, by omega⟩
  have hn2 : 2 ≤ n := by omega
  have hp := pred_pos hn2
  have hn0 : (0 : ℝ) < n := by linarith
  have hcol : columns x = [(List.range (n + 1)).map fun t => x.get t 0] := by
    unfold columns
    rw [hcols]
    simp [Arr.col, hn]
  set col := (List.range (n + 1)).map fun t => x.get t 0 with hcdef
  obtain ⟨c, e1, e2, e3⟩ := ouFit_ok h
  rw [hcol, List.getLast?_singleton] at e1
  obtain rfl : col = c := Option.some.inj e1
  -- the slope is not clamped
  have hlog : Real.log slopeTol = -(8 * Real.log 10) := by
    unfold slopeTol
    rw [one_div, Real.log_inv, Real.log_pow]
    norm_num
  have hnc : ¬ (lstsqLine col.dropLast col.tail).1 ≤ slopeTol := by
    intro hle
    have : (ouLine col).1 = slopeTol := by
      unfold ouLine
      dsimp only
      rw [if_pos hle]
    rw [e3, this, hlog, neg_neg] at hclamp
    exact lt_irrefl _ hclamp
  have hline : ouLine col = lstsqLine col.dropLast col.tail := by
    unfold ouLine
    exact if_neg hnc
  obtain ⟨a, b, hab⟩ : ∃ a b, lstsqLine col.dropLast col.tail = (a, b) := ⟨_, _, rfl⟩
  have hapos : 0 < a := by
    have : slopeTol < a := by rw [hab] at hnc; exact not_le.mp hnc
    refine lt_trans ?_ this
    unfold slopeTol; positivity
  have hlc : ouLine col = (a, b) := hline.trans hab
  rw [hlc] at e2 e3
  have hexp : Real.exp (-r.mrr * dt) = a := by
    rw [e3]
    rw [show -(-Real.log a / dt) * dt = Real.log a by field_simp, Real.exp_log hapos]
  have ha1 : a ≠ 1 := by
    rintro rfl
    apply hmrr
    rw [e3, Real.log_one]
    simp
  have hb : b = r.mean * (1 - a) := by
    rw [e2]
    have : 1 - a ≠ 0 := sub_ne_zero.mpr (Ne.symm ha1)
    field_simp
  rw [hcdef, tail_range_map, dropLast_range_map] at hab
  obtain ⟨n1, n2⟩ := lstsq_normal (show 0 < n by omega) _ _ hab
  -- the residuals
  have hres : ouResiduals col = (List.range n).map fun t => x.get (t + 1) 0 - (a * x.get t 0 + b) := by
    unfold ouResiduals
    rw [hline, hcdef, tail_range_map, dropLast_range_map, hab, List.zipWith_map, List.zipWith_self]
  have hmres : mean n (fun t => x.get (t + 1) 0 - (a * x.get t 0 + b)) = 0 := by
    unfold mean
    rw [n1, zero_div]
  set R := ∑ t ∈ Finset.range n, (x.get (t + 1) 0 - (a * x.get t 0 + b)) ^ 2 with hR
  have hR0 : 0 ≤ R := Finset.sum_nonneg fun _ _ => sq_nonneg _
  have hstd : npStd1 (ouResiduals col) = some (Real.sqrt (R / (n - 1))) := by
    rw [hres, npStd1_range hn2]
    unfold scov
    rw [hmres]
    congr 3
    exact Finset.sum_congr rfl fun _ _ => by ring
  -- the sign of the rate
  have hsign : 0 < 2 * r.mrr / (1 - a ^ 2) := by
    rcases lt_or_gt_of_ne ha1 with hlt | hgt
    · have : 0 < r.mrr := by
        rw [e3]
        exact div_pos (by have := Real.log_neg hapos hlt; linarith) hdt
      have : a ^ 2 < 1 := by nlinarith
      exact div_pos (by linarith) (by linarith)
    · have : r.mrr < 0 := by
        rw [e3]
        exact div_neg_of_neg_of_pos (by have := Real.log_pos hgt; linarith) hdt
      have : 1 < a ^ 2 := by nlinarith
      exact div_pos_of_neg_of_neg (by linarith) (by linarith)
  set V := Real.sqrt (2 * r.mrr * Real.sqrt (R / (n - 1)) ^ 2 / (1 - a ^ 2)) with hV
  have hVsq : V ^ 2 = 2 * r.mrr / (1 - a ^ 2) * (R / (n - 1)) := by
    rw [hV, Real.sq_sqrt, Real.sq_sqrt (div_nonneg hR0 hp.le)]
    · ring
    · rw [Real.sq_sqrt (div_nonneg hR0 hp.le), mul_div_right_comm]
      exact mul_nonneg hsign.le (div_nonneg hR0 hp.le)
  have hvol : r.vol = [some V] := by
    unfold ouFit at h
    dsimp only at h
    rw [hcol, if_neg (by omega)] at h
    simp only [List.getLast?_singleton] at h
    rw [← congrArg OUFit.vol (Except.ok.inj h), hV, e3]
    simp only [List.map, hstd, Option.map, hlc]
  refine ⟨V, hvol, Real.sqrt_nonneg _, ?_, ?_⟩
  · rw [← sq_eq_zero_iff (a := V), hVsq, mul_eq_zero, or_iff_right hsign.ne', div_eq_zero_iff, or_iff_left hp.ne', hR,
      Finset.sum_eq_zero_iff_of_nonneg fun _ _ => sq_nonneg _]
    rw [hexp, hn]
    constructor
    · intro hh t ht
      have := sq_eq_zero_iff.mp (hh t (Finset.mem_range.mpr (by omega)))
      rw [hb] at this
      linarith
    · intro hh t ht
      have := hh t (by have := Finset.mem_range.mp ht; omega)
      rw [sq_eq_zero_iff, hb, this]
      ring
  · intro hV0
    rw [hn, Nat.add_sub_cancel]
    have hRpos : 0 < R := by
      refine lt_of_le_of_ne hR0 fun h0 => hV0 ?_
      rw [← sq_eq_zero_iff, hVsq, ← h0]
      simp
    set q := Real.sqrt (((n : ℝ) - 1) / n) with hq
    have hqpos : 0 < q := Real.sqrt_pos.mpr (div_pos hp hn0)
    have hq2 : q ^ 2 = ((n : ℝ) - 1) / n := Real.sq_sqrt (div_pos hp hn0).le
    have h1 := ou_nll_one (eigh := eigh) (p := r.params [V * q]) (x := x) (dt := dt) rfl rfl rfl hmrr
      (mul_ne_zero hV0 hqpos.ne') hdt hcols
    have he2 : Real.exp (-2 * r.mrr * dt) = a ^ 2 := by
      rw [← hexp, ← Real.exp_nat_mul]
      congr 1
      push_cast
      ring
    have hsc : (V * q) ^ 2 / (2 * r.mrr) * (1 - Real.exp (-2 * r.mrr * dt)) = R / n := by
      have h2 : 1 - a ^ 2 ≠ 0 := by
        intro h0
        rw [h0] at hsign
        simp at hsign
      rw [he2, mul_pow, hVsq, hq2]
      field_simp
    rw [hn, Nat.add_sub_cancel, hsc, neg_sum_normLogpdf, hexp] at h1
    refine ⟨_, h1, fun μ θ σ hθ hσ => ?_⟩
    have h2 := ou_nll_one (eigh := eigh) (p := ⟨.row [μ], .row [θ], [σ], none⟩) (x := x) (dt := dt) rfl rfl rfl hθ hσ hdt hcols
    rw [hn, Nat.add_sub_cancel, neg_sum_normLogpdf] at h2
    refine ⟨_, h2, ?_⟩
    refine residual_min hn0 (ou_std_pos hσ hθ hdt) (Real.sqrt_pos.mpr (div_pos hRpos hn0)) ?_ ?_
    · rw [Real.sq_sqrt (div_pos hRpos hn0).le, mul_div_cancel₀ _ hn0.ne', hR]
      refine Finset.sum_congr rfl fun t _ => ?_
      rw [hb]
      ring
    · have := lstsq_min n1 n2 (Real.exp (-θ * dt)) (μ * (1 - Real.exp (-θ * dt)))
      refine le_trans (le_of_eq ?_) (this.trans (le_of_eq ?_))
      · refine Finset.sum_congr rfl fun t _ => ?_
        rw [hb]
        ring
      · refine Finset.sum_congr rfl fun t _ => ?_
        ring

/-- The path 0, 1, 3, 4: slope 13/14, not clamped, with residuals. -/
example : ∃ r V v, ouFit chol (Arr.ofList 4 1 [0, 1, 3, 4]) 1 = .ok r ∧ r.vol = [some V] ∧ V ≠ 0 ∧
    ouNllFull eigh (r.params [V * Real.sqrt ((3 - 1) / 3)]) none (Arr.ofList 4 1 [0, 1, 3, 4]) 1 = .ok (.fin v) := by
  have hcols : columns (Arr.ofList 4 1 [0, 1, 3, 4]) = [[0, 1, 3, 4]] := by
    simp [columns, Arr.col, Arr.ofList, Arr.get, List.range_succ]
  obtain ⟨r, hr⟩ : ∃ r, ouFit chol (Arr.ofList 4 1 [0, 1, 3, 4]) 1 = .ok r := by
    unfold ouFit
    rw [hcols]
    exact ⟨_, if_neg (by simp [Arr.ofList])⟩
  obtain ⟨c, e1, e2, e3⟩ := ouFit_ok hr
  rw [hcols, List.getLast?_singleton] at e1
  obtain rfl := Option.some.inj e1
  rw [demo_line1] at e2 e3
  have hneg : Real.log (13 / 14) < 0 := Real.log_neg (by norm_num) (by norm_num)
  have hle : -Real.log (13 / 14) < Real.log 10 := by
    rw [← Real.log_inv]
    exact Real.log_lt_log (by norm_num) (by norm_num)
  have hl10 : 0 < Real.log 10 := Real.log_pos (by norm_num)
  obtain ⟨V, h1, -, h3, h4⟩ := ou_fit_ml (eigh := eigh) (by simp [Arr.ofList]) rfl one_pos hr (by rw [e3]; linarith)
    (by rw [e3]; intro h0; linarith)
  have hexp : Real.exp (-r.mrr * 1) = 13 / 14 := by
    rw [e3]
    simp only [div_one, neg_neg, mul_one]
    rw [Real.exp_log (by norm_num)]
  have hV : V ≠ 0 := by
    intro h0
    have := h3.mp h0 0 (by simp [Arr.ofList])
    rw [hexp, e2] at this
    norm_num [Arr.ofList, Arr.get] at this
  obtain ⟨v, hv, -⟩ := h4 hV
  refine ⟨r, V, v, hr, h1, hV, ?_⟩
  have hc : (((Arr.ofList 4 1 [0, 1, 3, 4]).rows - 1 : ℕ) : ℝ) = 3 := by norm_num [Arr.ofList]
  rwa [hc] at hv

end Verif.Sim
