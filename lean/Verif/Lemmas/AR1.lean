import Verif.Lemmas.Shocks
import Verif.Lemmas.SimFit

/-!
# Averages along a linear recursion `y (t + 1) = φ y t + b e t`
-/

namespace Verif.Sim

open Filter Topology

theorem mean_add (s : Nat) (f g : Nat → ℝ) : mean s (fun t => f t + g t) = mean s f + mean s g := by
  unfold mean
  rw [Finset.sum_add_distrib, add_div]

theorem mean_smul (s : Nat) (c : ℝ) (f : Nat → ℝ) : mean s (fun t => c * f t) = c * mean s f := by
  unfold mean
  rw [← Finset.mul_sum, mul_div_assoc]

/-- The average of a shifted sequence. -/
theorem mean_shift (s : Nat) (f : Nat → ℝ) : mean s (fun t => f (t + 1)) = mean s f + (f s - f 0) / s := by
  rw [← mean_diff]
  rw [← mean_add]
  congr 1
  funext t
  ring

/-- The terms of a sequence with convergent averages are small against their index. -/
theorem term_small {f : Nat → ℝ} {a : ℝ} (h : Tendsto (fun s => mean s f) atTop (𝓝 a)) :
    Tendsto (fun s : Nat => f s / s) atTop (𝓝 0) := by
  have h1 := h.comp (tendsto_add_atTop_nat 1)
  have h2 : Tendsto (fun s : Nat => 1 + 1 / (s : ℝ)) atTop (𝓝 (1 + 0)) :=
    tendsto_const_nhds.add tendsto_one_div_atTop_nhds_zero_nat
  have h3 := (h2.mul h1).sub h
  rw [add_zero, one_mul, sub_self] at h3
  refine h3.congr' ?_
  filter_upwards [eventually_ge_atTop 1] with s hs
  have hs0 : (s : ℝ) ≠ 0 := by positivity
  have hs1 : (s : ℝ) + 1 ≠ 0 := by positivity
  simp only [Function.comp, mean, Finset.sum_range_succ]
  push_cast
  field_simp
  ring

theorem shift_small {f : Nat → ℝ} (h : Tendsto (fun s : Nat => f s / s) atTop (𝓝 0)) (k : Nat) :
    Tendsto (fun s : Nat => f (s + k) / s) atTop (𝓝 0) := by
  have h1 := h.comp (tendsto_add_atTop_nat k)
  have h2 : Tendsto (fun s : Nat => 1 + (k : ℝ) * (1 / (s : ℝ))) atTop (𝓝 (1 + k * 0)) :=
    tendsto_const_nhds.add (tendsto_one_div_atTop_nhds_zero_nat.const_mul _)
  have h3 := h2.mul h1
  rw [mul_zero] at h3
  refine h3.congr' ?_
  filter_upwards [eventually_ge_atTop 1] with s hs
  have hs0 : (s : ℝ) ≠ 0 := by positivity
  have hs1 : (s : ℝ) + k ≠ 0 := by positivity
  simp only [Function.comp]
  push_cast
  field_simp

theorem contract {g h : Nat → ℝ} {φ : ℝ} (h0 : 0 ≤ φ) (h1 : φ < 1) (hg : ∀ s, 0 ≤ g s)
    (hstep : ∀ s, 1 ≤ s → g (s + 1) ≤ φ * g s + h s) (hh : Tendsto h atTop (𝓝 0)) : Tendsto g atTop (𝓝 0) := by
  rw [Metric.tendsto_atTop]
  intro ε hε
  have hd : 0 < ε / 2 * (1 - φ) := mul_pos (by linarith) (by linarith)
  obtain ⟨S, hS⟩ := (Metric.tendsto_atTop.mp hh) _ hd
  have key : ∀ k, g (S + 1 + k) ≤ ε / 2 + φ ^ k * g (S + 1) := by
    intro k
    induction k with
    | zero => simp; linarith
    | succ k ih =>
      have a1 := hstep (S + 1 + k) (by omega)
      have a2 := hS (S + 1 + k) (by omega)
      rw [Real.dist_eq, sub_zero] at a2
      have a3 := (abs_lt.mp a2).2
      have a4 := mul_le_mul_of_nonneg_left ih h0
      rw [pow_succ']
      calc g (S + 1 + (k + 1)) ≤ φ * g (S + 1 + k) + h (S + 1 + k) := a1
        _ ≤ _ := by linarith
  have hp : Tendsto (fun k => φ ^ k * g (S + 1)) atTop (𝓝 0) := by
    simpa using (tendsto_pow_atTop_nhds_zero_of_lt_one h0 h1).mul_const (g (S + 1))
  obtain ⟨K, hK⟩ := (Metric.tendsto_atTop.mp hp) (ε / 2) (by linarith)
  refine ⟨S + 1 + K, fun s hs => ?_⟩
  obtain ⟨k, rfl⟩ : ∃ k, s = S + 1 + k := ⟨s - (S + 1), by omega⟩
  have b1 := hK k (by omega)
  rw [Real.dist_eq, sub_zero] at b1 ⊢
  have b2 := (abs_lt.mp b1).2
  rw [abs_of_nonneg (hg _)]
  linarith [key k]

/-- A sequence whose averages look like those of uncorrelated noise. -/
structure Noise (e : Nat → ℝ) (w : ℝ) : Prop where
  mean : Tendsto (fun s => mean s e) atTop (𝓝 0)
  sq : Tendsto (fun s => Sim.mean s fun t => e t * e t) atTop (𝓝 w)
  lag : ∀ k, Tendsto (fun s => Sim.mean s fun t => e t * e (t + k + 1)) atTop (𝓝 0)

section

variable {e y : Nat → ℝ} {w φ b : ℝ}

theorem Noise.sq_small (he : Noise e w) : Tendsto (fun s : Nat => e s * e s / s) atTop (𝓝 0) :=
  term_small (f := fun t => e t * e t) he.sq

theorem Noise.sq_shift (he : Noise e w) (k : Nat) : Tendsto (fun s => Sim.mean s fun t => e (t + k) * e (t + k)) atTop (𝓝 w) := by
  induction k with
  | zero => exact he.sq
  | succ k ih =>
    have h := shift_small he.sq_small k
    have h2 : Tendsto (fun s : Nat => (e (s + k) * e (s + k) - e (0 + k) * e (0 + k)) / s) atTop (𝓝 0) := by
      have h3 : Tendsto (fun s : Nat => e (0 + k) * e (0 + k) / (s : ℝ)) atTop (𝓝 0) :=
        tendsto_const_div_atTop_nhds_zero_nat _
      have := h.sub h3
      rw [sub_zero] at this
      exact this.congr fun s => by ring
    have h4 := ih.add h2
    rw [add_zero] at h4
    refine h4.congr fun s => ?_
    rw [← mean_shift s fun t => e (t + k) * e (t + k)]
    congr 1
    funext t
    rw [show t + 1 + k = t + (k + 1) by ring]

theorem step_sq (h1 : φ < 1) (h0 : 0 ≤ φ) (a c : ℝ) : (φ * a + c) ^ 2 ≤ φ * a ^ 2 + c ^ 2 / (1 - φ) := by
  have hp : 0 < 1 - φ := by linarith
  have : φ * a ^ 2 + c ^ 2 / (1 - φ) - (φ * a + c) ^ 2 = φ * (1 - φ) * (a - c / (1 - φ)) ^ 2 := by
    field_simp
    ring
  have h2 : 0 ≤ φ * (1 - φ) * (a - c / (1 - φ)) ^ 2 := by positivity
  linarith

variable (hy : ∀ t, y (t + 1) = φ * y t + b * e t)

include hy in
theorem ar_small (he : Noise e w) (h0 : 0 ≤ φ) (h1 : φ < 1) : Tendsto (fun s : Nat => y s * y s / s) atTop (𝓝 0) := by
  have hp : 0 < 1 - φ := by linarith
  refine contract (h := fun s => b ^ 2 / (1 - φ) * (e s * e s / s)) h0 h1
    (fun s => div_nonneg (mul_self_nonneg _) (Nat.cast_nonneg s)) (fun s hs => ?_) ?_
  · have hs0 : (0 : ℝ) < s := by exact_mod_cast hs
    have a1 := step_sq h1 h0 (y s) (b * e s)
    rw [← hy] at a1
    have a2 : 0 ≤ φ * y s ^ 2 + (b * e s) ^ 2 / (1 - φ) := by positivity
    push_cast
    calc y (s + 1) * y (s + 1) / (s + 1) ≤ (φ * y s ^ 2 + (b * e s) ^ 2 / (1 - φ)) / (s + 1) := by
          apply div_le_div_of_nonneg_right _ (by positivity)
          linarith
      _ ≤ (φ * y s ^ 2 + (b * e s) ^ 2 / (1 - φ)) / s := div_le_div_of_nonneg_left a2 hs0 (by linarith)
      _ = _ := by field_simp
  · simpa using he.sq_small.const_mul (b ^ 2 / (1 - φ))

include hy in
theorem ar_bounded (he : Noise e w) (h0 : 0 ≤ φ) (h1 : φ < 1) :
    ∃ B : ℝ, 0 ≤ B ∧ ∀ᶠ s in atTop, mean s (fun t => y t * y t) ≤ B := by
  have hp : 0 < 1 - φ := by linarith
  have hw : 0 ≤ w := ge_of_tendsto' he.sq fun s => div_nonneg (Finset.sum_nonneg fun _ _ => mul_self_nonneg _) (by positivity)
  refine ⟨(y 0 * y 0 + b ^ 2 / (1 - φ) * (w + 1)) / (1 - φ),
    div_nonneg (add_nonneg (mul_self_nonneg _) (by positivity)) hp.le, ?_⟩
  filter_upwards [he.sq.eventually_lt_const (lt_add_one w), eventually_ge_atTop 1] with s hs hs1
  have hs0 : (1 : ℝ) ≤ s := by exact_mod_cast hs1
  rw [le_div_iff₀ hp]
  have a1 : mean s (fun t => y (t + 1) * y (t + 1)) ≤ mean s fun t => φ * (y t * y t) + b ^ 2 / (1 - φ) * (e t * e t) := by
    unfold mean
    apply div_le_div_of_nonneg_right _ (by positivity)
    refine Finset.sum_le_sum fun t _ => ?_
    have := step_sq h1 h0 (y t) (b * e t)
    rw [← hy] at this
    calc y (t + 1) * y (t + 1) = y (t + 1) ^ 2 := by ring
      _ ≤ _ := this
      _ = _ := by ring
  rw [mean_add, mean_smul, mean_smul, mean_shift s fun t => y t * y t] at a1
  have a2 : 0 ≤ y s * y s / s := div_nonneg (mul_self_nonneg _) (Nat.cast_nonneg s)
  have a3 : y 0 * y 0 / s ≤ y 0 * y 0 := div_le_self (mul_self_nonneg _) hs0
  have a4 : b ^ 2 / (1 - φ) * mean s (fun t => e t * e t) ≤ b ^ 2 / (1 - φ) * (w + 1) :=
    mul_le_mul_of_nonneg_left hs.le (by positivity)
  rw [sub_div] at a1
  linarith

theorem product_small {f g : Nat → ℝ} (hf : Tendsto (fun s : Nat => f s * f s / s) atTop (𝓝 0))
    (hg : Tendsto (fun s : Nat => g s * g s / s) atTop (𝓝 0)) : Tendsto (fun s : Nat => f s * g s / s) atTop (𝓝 0) := by
  have h := (hf.add hg).div_const 2
  rw [add_zero, zero_div] at h
  refine squeeze_zero_norm (fun s => ?_) h
  rw [Real.norm_eq_abs, abs_div, Nat.abs_cast, abs_mul, ← add_div, div_right_comm]
  apply div_le_div_of_nonneg_right _ (by positivity)
  nlinarith [sq_nonneg (|f s| - |g s|), abs_mul_abs_self (f s), abs_mul_abs_self (g s)]

include hy in
/-- The past and the noise are uncorrelated in the limit. -/
theorem ar_noise (he : Noise e w) (h0 : 0 ≤ φ) (h1 : φ < 1) (k : Nat) :
    Tendsto (fun s => mean s fun t => y t * e (t + k)) atTop (𝓝 0) := by
  have hsm := ar_small hy he h0 h1
  have hstep : ∀ k, Tendsto (fun s => mean s (fun t => y t * e (t + k)) - φ * mean s (fun t => y t * e (t + (k + 1)))) atTop (𝓝 0) := by
    intro k
    have b1 := product_small hsm (g := fun s => e (s + k)) (shift_small he.sq_small k)
    have b2 : Tendsto (fun s : Nat => y 0 * e (0 + k) / (s : ℝ)) atTop (𝓝 0) := tendsto_const_div_atTop_nhds_zero_nat _
    have b3 := ((he.lag k).const_mul b).sub (b1.sub b2)
    rw [mul_zero, sub_zero, sub_zero] at b3
    refine b3.congr fun s => ?_
    have c1 := mean_shift s fun t => y t * e (t + k)
    have c2 : (fun t => y (t + 1) * e (t + 1 + k)) = fun t => φ * (y t * e (t + (k + 1))) + b * (e t * e (t + k + 1)) := by
      funext t
      rw [hy, show t + 1 + k = t + (k + 1) by ring, show t + k + 1 = t + (k + 1) by ring]
      ring
    rw [c2, mean_add, mean_smul, mean_smul] at c1
    rw [← sub_div]
    linarith
  have hpow : ∀ K k, Tendsto (fun s => mean s (fun t => y t * e (t + k)) - φ ^ K * mean s (fun t => y t * e (t + (k + K))))
      atTop (𝓝 0) := by
    intro K
    induction K with
    | zero => intro k; simp
    | succ K ih =>
      intro k
      have := (ih k).add ((hstep (k + K)).const_mul (φ ^ K))
      rw [mul_zero, add_zero] at this
      refine this.congr fun s => ?_
      rw [pow_succ, show k + (K + 1) = k + K + 1 by ring]
      ring
  obtain ⟨B, hB0, hB⟩ := ar_bounded hy he h0 h1
  have hw : 0 ≤ w := ge_of_tendsto' he.sq fun s => div_nonneg (Finset.sum_nonneg fun _ _ => mul_self_nonneg _) (by positivity)
  have hbd : ∀ K, ∀ᶠ s in atTop, |mean s (fun t => y t * e (t + K))| ≤ B + w + 1 := by
    intro K
    filter_upwards [hB, (he.sq_shift K).eventually_lt_const (lt_add_one w)] with s a1 a2
    have a3 : |mean s (fun t => y t * e (t + K))| ≤ mean s (fun t => 1 / 2 * (y t * y t + e (t + K) * e (t + K))) := by
      unfold mean
      rw [abs_div, Nat.abs_cast]
      apply div_le_div_of_nonneg_right _ (by positivity)
      refine (Finset.abs_sum_le_sum_abs _ _).trans (Finset.sum_le_sum fun t _ => ?_)
      rw [abs_mul]
      nlinarith [sq_nonneg (|y t| - |e (t + K)|), abs_mul_abs_self (y t), abs_mul_abs_self (e (t + K))]
    rw [mean_smul, mean_add] at a3
    linarith
  rw [Metric.tendsto_atTop]
  intro ε hε
  have hp : Tendsto (fun K => φ ^ K * (B + w + 1)) atTop (𝓝 0) := by
    simpa using (tendsto_pow_atTop_nhds_zero_of_lt_one h0 h1).mul_const (B + w + 1)
  obtain ⟨K, hK⟩ := (Metric.tendsto_atTop.mp hp) (ε / 2) (by linarith)
  have hK := hK K le_rfl
  rw [Real.dist_eq, sub_zero] at hK
  have hK := (abs_lt.mp hK).2
  have hev := (Metric.tendsto_nhds.mp (hpow K k)) (ε / 2) (by linarith)
  rw [← eventually_atTop]
  filter_upwards [hev, hbd (k + K)] with s a1 a2
  rw [Real.dist_eq, sub_zero] at a1 ⊢
  have a3 : |φ ^ K * mean s (fun t => y t * e (t + (k + K)))| ≤ φ ^ K * (B + w + 1) := by
    rw [abs_mul, abs_of_nonneg (pow_nonneg h0 K)]
    exact mul_le_mul_of_nonneg_left a2 (pow_nonneg h0 K)
  have a4 := abs_sub_abs_le_abs_sub (mean s (fun t => y t * e (t + k))) (φ ^ K * mean s (fun t => y t * e (t + (k + K))))
  linarith

include hy in
theorem ar_mean (he : Noise e w) (h0 : 0 ≤ φ) (h1 : φ < 1) : Tendsto (fun s => mean s y) atTop (𝓝 0) := by
  have hp : 1 - φ ≠ 0 := by linarith
  have hsm := ar_small hy he h0 h1
  have hone : Tendsto (fun s : Nat => (1 : ℝ) * 1 / s) atTop (𝓝 0) := tendsto_const_div_atTop_nhds_zero_nat _
  have a1 := product_small hsm (g := fun _ => 1) hone
  have a2 : Tendsto (fun s : Nat => y 0 / (s : ℝ)) atTop (𝓝 0) := tendsto_const_div_atTop_nhds_zero_nat _
  have a3 := ((he.mean.const_mul b).sub (a1.sub a2)).div_const (1 - φ)
  rw [mul_zero, sub_zero, sub_zero, zero_div] at a3
  refine a3.congr fun s => ?_
  have c1 := mean_shift s y
  have c2 : (fun t => y (t + 1)) = fun t => φ * y t + b * e t := funext hy
  rw [c2, mean_add, mean_smul, mean_smul] at c1
  rw [mul_one, ← sub_div, div_eq_iff hp]
  linarith

include hy in
theorem ar_sq (he : Noise e w) (h0 : 0 ≤ φ) (h1 : φ < 1) :
    Tendsto (fun s => mean s fun t => y t * y t) atTop (𝓝 (b ^ 2 * w / (1 - φ ^ 2))) := by
  have hp : 1 - φ ^ 2 ≠ 0 := by nlinarith
  have hsm := ar_small hy he h0 h1
  have a1 : Tendsto (fun s : Nat => y 0 * y 0 / (s : ℝ)) atTop (𝓝 0) := tendsto_const_div_atTop_nhds_zero_nat _
  have a2 := (((he.sq.const_mul (b ^ 2)).add ((ar_noise hy he h0 h1 0).const_mul (2 * φ * b))).sub (hsm.sub a1)).div_const (1 - φ ^ 2)
  rw [mul_zero, add_zero, sub_zero, sub_zero] at a2
  refine a2.congr fun s => ?_
  have c1 := mean_shift s fun t => y t * y t
  have c2 : (fun t => y (t + 1) * y (t + 1)) = fun t => φ ^ 2 * (y t * y t) + (2 * φ * b * (y t * e (t + 0)) + b ^ 2 * (e t * e t)) := by
    funext t
    rw [hy, add_zero]
    ring
  rw [c2, mean_add, mean_add, mean_smul, mean_smul, mean_smul] at c1
  rw [← sub_div, div_eq_iff hp]
  linarith

end

/-- Sample moments along a recursion. -/
theorem ar_limits {e x : Nat → ℝ} {w φ b m : ℝ} (he : Noise e w) (h0 : 0 ≤ φ) (h1 : φ < 1)
    (hx : ∀ t, x (t + 1) = m + (x t - m) * φ + b * e t) :
    Tendsto (fun s => mean s x) atTop (𝓝 m) ∧ Tendsto (fun s => scov s 1 x x) atTop (𝓝 (b ^ 2 * w / (1 - φ ^ 2))) ∧
    Tendsto (fun s => scov s 1 x e) atTop (𝓝 0) := by
  set y : Nat → ℝ := fun t => x t - m with hydef
  have hy : ∀ t, y (t + 1) = φ * y t + b * e t := fun t => by
    simp only [hydef, hx]
    ring
  have hxy : x = fun t => m + 1 * y t := by
    funext t
    simp only [hydef]
    ring
  have m1 := ar_mean hy he h0 h1
  have m2 := ar_sq hy he h0 h1
  have m3 := ar_noise hy he h0 h1 0
  have e1 : e = fun t => 0 + 1 * e t := by
    funext t
    ring
  refine ⟨?_, ?_, ?_⟩
  · have := m1.const_add m
    rw [add_zero] at this
    refine this.congr' ?_
    filter_upwards [eventually_ge_atTop 1] with s hs
    rw [hxy, mean_affine s (by omega), one_mul]
  · have := scov_tendsto m1 m1 m2
    rw [mul_zero, sub_zero] at this
    refine this.congr' ?_
    filter_upwards [eventually_ge_atTop 1] with s hs
    rw [hxy, scov_affine s (by omega), one_mul, one_mul]
  · have := scov_tendsto m1 he.mean m3
    rw [mul_zero, sub_zero] at this
    refine this.congr' ?_
    filter_upwards [eventually_ge_atTop 1] with s hs
    rw [hxy, e1, scov_affine s (by omega), one_mul, one_mul]
    simp

end Verif.Sim
