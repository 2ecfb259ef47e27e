import Verif.Lemmas.SimFit
import Verif.Props.SimPaths
import Mathlib.Tactic.IntervalCases
import Mathlib.Analysis.Complex.ExponentialBounds

/-!
# Calibration of the Ornstein–Uhlenbeck model (C24)
-/

namespace Verif.Sim

variable {chol : Arr → Option Arr} {x : Arr} {dt : ℝ} {r : OUFit}

theorem lstsqLine_exact {l : List ℝ} {b c : ℝ} (h : sqDev l ≠ 0) :
    lstsqLine l (l.map fun y => c + b * y) = (b, c) := by
  have hl : l ≠ [] := by rintro rfl; exact h (by simp [sqDev])
  unfold lstsqLine
  rw [if_neg hl, if_neg h]
  have hcd : crossDev l (l.map fun y => c + b * y) = b * sqDev l := by
    unfold crossDev
    rw [lmean_affine hl, List.zipWith_map_right, List.zipWith_self]
    unfold sqDev
    rw [← sum_map_mul l b (fun y => (y - lmean l) ^ 2)]
    congr 1
    apply List.map_congr_left
    intro y _
    ring
  rw [hcd, mul_div_assoc, div_self h, lmean_affine hl]
  simp

theorem tail_range_map (n : Nat) (f : Nat → ℝ) :
    ((List.range (n + 1)).map f).tail = (List.range n).map fun i => f (i + 1) := by
  rw [range_map_cons]; rfl

theorem dropLast_range_map (n : Nat) (f : Nat → ℝ) :
    ((List.range (n + 1)).map f).dropLast = (List.range n).map f := by
  rw [List.range_succ, List.map_append]; simp

/-- C24. Noise-free data of one variate, with the start away from the mean and a decay factor above the
tolerance `1e-8`: the fit recovers mean and mean reversion rate exactly, with volatility 0. -/
theorem ou_fit_noise_free {μ θ : ℝ} (hx : 3 ≤ x.rows) (hcols : x.cols = 1) (hdt : 0 < dt) (hθ : 0 < θ)
    (htol : 1 / 10 ^ 8 < Real.exp (-θ * dt)) (h0 : x.get 0 0 ≠ μ)
    (hrec : ∀ t, t + 1 < x.rows → x.get (t + 1) 0 = μ + (x.get t 0 - μ) * Real.exp (-θ * dt)) :
    ouFit chol x dt = .ok ⟨μ, θ, [some 0], none, none⟩ := by
  obtain ⟨n, hn⟩ : ∃ n, x.rows = n + 1 := ⟨x.rows - 1, by omega⟩
  have hn2 : 2 ≤ n := by omega
  set b := Real.exp (-θ * dt) with hb
  have hb1 : b < 1 := by rw [hb, Real.exp_lt_one_iff]; nlinarith
  have hbpos : 0 < b := Real.exp_pos _
  have hcol : columns x = [(List.range (n + 1)).map fun t => x.get t 0] := by
    unfold columns
    rw [hcols]
    simp [Arr.col, hn]
  have hy : ((List.range n).map fun i => x.get (i + 1) 0) =
      ((List.range n).map fun i => x.get i 0).map fun y => μ * (1 - b) + b * y := by
    rw [List.map_map]
    apply List.map_congr_left
    intro i hi
    rw [hrec i (by have := List.mem_range.mp hi; omega)]
    simp only [Function.comp]
    ring
  have hdev : sqDev ((List.range n).map fun i => x.get i 0) ≠ 0 := by
    intro hcon
    rw [all_eq_of_sqDev (by simp; omega)] at hcon
    have h1 := hcon (x.get 0 0) (List.mem_map.mpr ⟨0, by simp; omega, rfl⟩) (x.get 1 0)
      (List.mem_map.mpr ⟨1, by simp; omega, rfl⟩)
    have h2 := hrec 0 (by omega)
    rw [zero_add, ← h1] at h2
    have h3 : (x.get 0 0 - μ) * (1 - b) = 0 := by linarith
    rcases mul_eq_zero.mp h3 with h4 | h4
    · exact h0 (by linarith)
    · linarith
  have hline : ouLine ((List.range (n + 1)).map fun t => x.get t 0) = (b, μ * (1 - b)) := by
    unfold ouLine
    rw [tail_range_map, dropLast_range_map, hy, lstsqLine_exact hdev]
    exact if_neg (by unfold slopeTol; exact not_le.mpr htol)
  have hres : npStd1 (ouResiduals ((List.range (n + 1)).map fun t => x.get t 0)) = some 0 := by
    unfold ouResiduals
    rw [hline, tail_range_map, dropLast_range_map, hy, List.zipWith_map_right, List.zipWith_self, List.map_map]
    have : ((List.range n).map ((fun a => μ * (1 - b) + b * a - (b * a + μ * (1 - b))) ∘ fun i => x.get i 0)) =
        (List.range n).map fun _ => (0 : ℝ) := by
      apply List.map_congr_left; intro i _; simp only [Function.comp]; ring
    rw [this, npStd1_range hn2, (scov_self_eq_zero hn2 _).mpr (fun _ _ _ _ => rfl), Real.sqrt_zero]
  unfold ouFit
  simp only [hcol, hcols, List.map_cons, List.map_nil, hres, hline, List.getLast?_singleton,
    if_neg (lt_irrefl 1)]
  have e1 : μ * (1 - b) / (1 - b) = μ := mul_div_cancel_right₀ _ (by linarith)
  have e2 : -Real.log b / dt = θ := by
    rw [hb, Real.log_exp]; field_simp
  rw [e1, e2]
  simp

/-- Non-vacuity of `ou_fit_noise_free`: the noise-free paths of the sampler satisfy its hypotheses. -/
example (z : Nat → ℝ) : ∃ a, ouSample ⟨.row [2], .row [1], [0], none⟩ [5] 1 3 1 z = .ok a ∧
    ouFit chol a 1 = .ok ⟨2, 1, [some 0], none, none⟩ := by
  have hs : ∃ a, ouSample ⟨.row [2], .row [1], [0], none⟩ [5] 1 3 1 z = .ok a := by
    obtain ⟨b, hb⟩ := increments_eq 3 z (v := 1) (loc := [2 * (1 - Real.exp (-1 * 1))])
      (scale := [Real.sqrt (0 ^ 2 / (2 * 1) * (1 - Real.exp (-2 * 1 * 1)))]) (L := none) (x0 := [5]) (p := 1)
      ⟨by norm_num, Or.inl rfl, Or.inl rfl, by simp, by norm_num, by norm_num⟩
    obtain ⟨-, -, -, ⟨i1, i2⟩, -⟩ := increments_ok hb
    simp only [Nat.cast_ofNat, Nat.cast_one] at hb i1 i2
    unfold ouSample
    simp only [OUAttr.toRow, OUAttr.shape1, bzip, List.map, List.length_cons, List.length_nil, if_true,
      List.zipWith, bind, Except.bind] at *
    rw [hb]
    simp only
    rw [if_neg (by rw [i1]; decide)]
    simp only [bcastTo, List.length_cons, List.length_nil]
    rw [if_pos (by simp)]
    exact ⟨_, rfl⟩
  obtain ⟨a, ha⟩ := hs
  refine ⟨a, ha, ?_⟩
  obtain ⟨⟨i1, i2⟩, i3, i4⟩ := ou_recursion (s := 3) (n := 1) rfl rfl (by simp) ha
  have i2 : a.cols = 1 := by simpa using i2
  have hz : a.get 0 0 = 5 := by simpa using i3 0 (by simp)
  apply ou_fit_noise_free (by omega) i2 one_pos one_pos
  · have : (1 : ℝ) / 10 ^ 8 < Real.exp (-2) := by
      have h3 : (Real.exp 1) < 3 := by
        have := Real.exp_one_lt_d9; linarith
      have h4 : Real.exp (-2) = 1 / (Real.exp 1 * Real.exp 1) := by
        rw [← Real.exp_add, Real.exp_neg]; norm_num
      rw [h4]
      apply one_div_lt_one_div_of_lt (by positivity)
      nlinarith [Real.exp_pos 1]
    refine this.trans_le (Real.exp_le_exp.mpr (by norm_num))
  · rw [hz]; norm_num
  · intro t ht
    have := i4 t 0 0 (by omega) (by omega) (by simp)
    simpa [path, bentry] using this

theorem ouFit_ok (h : ouFit chol x dt = .ok r) :
    ∃ c, (columns x).getLast? = some c ∧ r.mean = (ouLine c).2 / (1 - (ouLine c).1) ∧
      r.mrr = -Real.log (ouLine c).1 / dt := by
  unfold ouFit at h
  dsimp only at h
  cases hc : (columns x).getLast? with
  | none =>
    rw [hc] at h
    split at h
    · split at h
      · cases h
      · split at h <;> cases h
    · cases h
  | some c =>
    rw [hc] at h
    split at h
    · split at h
      · cases h
      · split at h
        · cases h
        · cases h; exact ⟨c, rfl, rfl, rfl⟩
    · cases h; exact ⟨c, rfl, rfl, rfl⟩

/-- C24. After any successful fit, every call of the sampler is an `IndexError`: the mean is a scalar. -/
theorem ou_fit_then_sample_fails (_h : ouFit chol x dt = .ok r) (vol : List ℝ) (x0 : List ℝ) (dt' : ℝ)
    (s n : Int) (z : Nat → ℝ) : ouSample (r.params vol) x0 dt' s n z = .error .indexError := by
  have hb : ∀ (f : ℝ → ℝ → ℝ) (l : List ℝ) (c : ℝ), ∃ w, bzip f l [c] = .ok w := fun f l c =>
    bzip_eq f (Or.inr (Or.inr rfl))
  unfold ouSample OUFit.params
  simp only [OUAttr.toRow, OUAttr.shape1, List.map]
  obtain ⟨w, hw⟩ := hb (fun m f => m * (1 - f)) [r.mean] (Real.exp (-r.mrr * dt'))
  obtain ⟨w', hw'⟩ := hb (fun v r => Real.sqrt (v ^ 2 / (2 * r) * (1 - Real.exp (-2 * r * dt')))) vol r.mrr
  rw [hw, hw']
  rfl

/-- C24. Mean and mean reversion rate only depend on the last column of the data. -/
theorem ou_fit_last_column {x' : Arr} {r' : OUFit} (hr : x.rows = x'.rows) (h1 : 0 < x.cols) (h1' : 0 < x'.cols)
    (hcol : ∀ t < x.rows, x.get t (x.cols - 1) = x'.get t (x'.cols - 1)) (h : ouFit chol x dt = .ok r)
    (h' : ouFit chol x' dt = .ok r') : r.mean = r'.mean ∧ r.mrr = r'.mrr := by
  have hlast : ∀ {y : Arr}, 0 < y.cols → (columns y).getLast? = some (y.col (y.cols - 1)) := by
    intro y hy
    obtain ⟨m, hm⟩ : ∃ m, y.cols = m + 1 := ⟨y.cols - 1, by omega⟩
    unfold columns
    rw [hm, List.range_succ, List.map_append]
    simp
  have hc : x.col (x.cols - 1) = x'.col (x'.cols - 1) := by
    unfold Arr.col
    rw [← hr]
    exact List.map_congr_left fun t ht => hcol t (List.mem_range.mp ht)
  obtain ⟨c, e1, e2, e3⟩ := ouFit_ok h
  obtain ⟨c', f1, f2, f3⟩ := ouFit_ok h'
  rw [hlast h1] at e1
  rw [hlast h1'] at f1
  cases e1; cases f1
  rw [e2, e3, f2, f3, hc]
  exact ⟨rfl, rfl⟩

/-- Two data sets as in `ou_fit_last_column` whose other columns have different parameters: the fitted
parameters of the first column are lost. -/
example : ∃ x x' : Arr, x.rows = x'.rows ∧ 0 < x.cols ∧ x.cols = x'.cols ∧
    (∀ t < x.rows, x.get t (x.cols - 1) = x'.get t (x'.cols - 1)) ∧ x.get 1 0 ≠ x'.get 1 0 := by
  refine ⟨Arr.ofList 3 2 [1, 2, 3, 4, 5, 6], Arr.ofList 3 2 [1, 2, 7, 4, 0, 6], rfl, by simp [Arr.ofList], rfl, ?_, ?_⟩
  · intro t ht
    have : t < 3 := ht
    interval_cases t <;> norm_num [Arr.ofList, Arr.get]
  · norm_num [Arr.ofList, Arr.get]

/-- C24. The fitted slope is never below the tolerance, so the fitted rate never exceeds `8 log 10 / dt`;
on the clamped branch it equals that bound. -/
theorem ou_fit_rate_bound (hdt : 0 < dt) (h : ouFit chol x dt = .ok r) :
    r.mrr ≤ 8 * Real.log 10 / dt := by
  obtain ⟨c, -, -, e3⟩ := ouFit_ok h
  have hs : slopeTol ≤ (ouLine c).1 := by
    unfold ouLine
    dsimp only
    split
    · exact le_refl _
    · rename_i hle; exact (not_le.mp hle).le
  have htol : 0 < slopeTol := by unfold slopeTol; positivity
  rw [e3]
  apply div_le_div_of_nonneg_right _ hdt.le
  have := Real.log_le_log htol hs
  have h2 : Real.log slopeTol = -(8 * Real.log 10) := by
    unfold slopeTol
    rw [one_div, Real.log_inv, Real.log_pow]
    norm_num
  linarith

end Verif.Sim
