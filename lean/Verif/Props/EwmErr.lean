import Verif.Model.IndR
import Verif.Lemmas.Round
import Verif.Lemmas.Series
import Mathlib.Tactic.Linarith

/-!
# C107: exponential averages with rounding
-/

namespace Verif.Roll

open Verif Ser Round

variable {fl : ℝ → ℝ}

theorem u64_pos : 0 < u64 := by unfold u64; positivity

theorem u64_small : u64 ≤ 1 / 1000 := by unfold u64; norm_num

/-- The numerator of a weighted average. -/
theorem wavg_num (R : Rounding fl) {b n c A : ℝ} (hA : 0 ≤ A) (hb0 : 0 ≤ b) (hn1 : |n| ≤ 1.1 * A) (hc : |c| ≤ A) :
    |b * n + c| ≤ 1.1 * A * (b + 1) ∧ |fl (fl (b * n) + c) - (b * n + c)| ≤ 2.21 * u64 * A * (b + 1) := by
  have hu := u64_pos
  have hAb : 0 ≤ A * b := mul_nonneg hA hb0
  have hbn : |b * n| ≤ 1.1 * A * b := by
    rw [abs_mul, abs_of_nonneg hb0, mul_comm]
    exact mul_le_mul_of_nonneg_right hn1 hb0
  have hNle : |b * n + c| ≤ 1.1 * A * (b + 1) := by
    calc |b * n + c| ≤ |b * n| + |c| := abs_add_le _ _
      _ ≤ 1.1 * A * b + A := add_le_add hbn hc
      _ ≤ _ := by linarith
  have hP : |fl (b * n) - b * n| ≤ u64 * (1.1 * A * b) := (R.rel _).trans (mul_le_mul_of_nonneg_left hbn hu.le)
  have hPc : |fl (b * n) + c| ≤ 1.1 * A * (b + 1) + u64 * (1.1 * A * b) := by
    calc |fl (b * n) + c| = |(b * n + c) + (fl (b * n) - b * n)| := by ring_nf
      _ ≤ |b * n + c| + |fl (b * n) - b * n| := abs_add_le _ _
      _ ≤ _ := add_le_add hNle hP
  have hS1 : |fl (fl (b * n) + c) - (fl (b * n) + c)| ≤ u64 * (1.1 * A * (b + 1) + u64 * (1.1 * A * b)) :=
    (R.rel _).trans (mul_le_mul_of_nonneg_left hPc hu.le)
  refine ⟨hNle, ?_⟩
  have h1 : |fl (fl (b * n) + c) - (b * n + c)| ≤ |fl (fl (b * n) + c) - (fl (b * n) + c)| + |fl (b * n) - b * n| := by
    calc _ = |(fl (fl (b * n) + c) - (fl (b * n) + c)) + (fl (b * n) - b * n)| := by ring_nf
      _ ≤ _ := abs_add_le _ _
  have h3 : 0 ≤ u64 * (A * b) := mul_nonneg hu.le hAb
  have h4 : 0 ≤ u64 * A := mul_nonneg hu.le hA
  have h2 : u64 * (u64 * (A * b)) ≤ 1 / 1000 * (u64 * (A * b)) := mul_le_mul_of_nonneg_right u64_small h3
  linarith

/-- The rounded weighted average of two values. -/
theorem wavg_round (R : Rounding fl) {b n c A : ℝ} (hA : 0 ≤ A) (hb0 : 0 ≤ b) (hn1 : |n| ≤ 1.1 * A) (hc : |c| ≤ A) :
    |fl (fl (fl (b * n) + c) / fl (b + 1)) - (b * n + c) / (b + 1)| ≤ 4.6 * u64 * A := by
  have hu := u64_pos
  have hb1 : 0 < b + 1 := by linarith
  obtain ⟨hNle, hSN⟩ := wavg_num R hA hb0 hn1 hc
  generalize b * n + c = N at *
  generalize fl (fl (b * n) + c) = S at *
  have hD1 : |fl (b + 1) - (b + 1)| ≤ u64 * (b + 1) := by
    have := R.rel (b + 1)
    rwa [abs_of_pos hb1] at this
  generalize fl (b + 1) = D at *
  have hD2 := abs_le.mp hD1
  have hub : u64 * (b + 1) ≤ 1 / 1000 * (b + 1) := mul_le_mul_of_nonneg_right u64_small hb1.le
  have hDl : 0.99 * (b + 1) ≤ D := by linarith [hD2.1]
  have hDpos : 0 < D := by linarith
  have huA : 0 ≤ u64 * A := mul_nonneg hu.le hA
  have hq : |S / D - N / (b + 1)| ≤ 3.35 * u64 * A := by
    rw [div_sub_div _ _ hDpos.ne' hb1.ne', abs_div, abs_of_pos (mul_pos hDpos hb1), div_le_iff₀ (mul_pos hDpos hb1)]
    have e : S * (b + 1) - D * N = (S - N) * (b + 1) + N * ((b + 1) - D) := by ring
    have h1 : |S * (b + 1) - D * N| ≤ |S - N| * (b + 1) + |N| * |D - (b + 1)| := by
      rw [e]
      refine (abs_add_le _ _).trans (le_of_eq ?_)
      rw [abs_mul, abs_mul, abs_of_pos hb1, abs_sub_comm (b + 1) D]
    have h2 : |S - N| * (b + 1) ≤ 2.21 * u64 * A * (b + 1) * (b + 1) := mul_le_mul_of_nonneg_right hSN hb1.le
    have h3 : |N| * |D - (b + 1)| ≤ 1.1 * A * (b + 1) * (u64 * (b + 1)) :=
      mul_le_mul hNle hD1 (abs_nonneg _) (by positivity)
    have h4 : u64 * A * (0.99 * (b + 1) * (b + 1)) ≤ u64 * A * (D * (b + 1)) :=
      mul_le_mul_of_nonneg_left (mul_le_mul_of_nonneg_right hDl hb1.le) huA
    have h5 : 0 ≤ u64 * A * ((b + 1) * (b + 1)) := mul_nonneg huA (mul_nonneg hb1.le hb1.le)
    linarith
  have hNq : |N / (b + 1)| ≤ 1.1 * A := by
    rw [abs_div, abs_of_pos hb1, div_le_iff₀ hb1]
    exact hNle
  have huA2 : u64 * A ≤ 1 / 1000 * A := mul_le_mul_of_nonneg_right u64_small hA
  have hSD : |S / D| ≤ 1.11 * A := by
    calc |S / D| = |(S / D - N / (b + 1)) + N / (b + 1)| := by ring_nf
      _ ≤ |S / D - N / (b + 1)| + |N / (b + 1)| := abs_add_le _ _
      _ ≤ 1.11 * A := by linarith
  have hfl : |fl (S / D) - S / D| ≤ u64 * (1.11 * A) := (R.rel _).trans (mul_le_mul_of_nonneg_left hSD hu.le)
  calc |fl (S / D) - N / (b + 1)| = |(fl (S / D) - S / D) + (S / D - N / (b + 1))| := by ring_nf
    _ ≤ |fl (S / D) - S / D| + |S / D - N / (b + 1)| := abs_add_le _ _
    _ ≤ _ := by linarith

/-- The weighted average with other weights and another old value. -/
theorem wavg_change {a b m n c A r E : ℝ} (ha : 0 ≤ a) (hb : |b - a| ≤ r * a) (hm : |m| ≤ A) (hc : |c| ≤ A)
    (hn : |n - m| ≤ E * A) (hr0 : 0 ≤ r) (hr : r ≤ 1 / 100) (hE : E ≤ 1 / 10) :
    |(b * n + c) / (b + 1) - (a * m + c) / (a + 1)| * (a + 1) ≤ a * (E * A) + 2.2 * r * A := by
  have hA : 0 ≤ A := (abs_nonneg c).trans hc
  have hb' := abs_le.mp hb
  have hra : r * a ≤ 1 / 100 * a := mul_le_mul_of_nonneg_right hr ha
  have hb0 : 0 ≤ b := by linarith [hb'.1]
  have hb1 : 0 < b + 1 := by linarith
  have ha1 : 0 < a + 1 := by linarith
  have hEA : E * A ≤ 1 / 10 * A := mul_le_mul_of_nonneg_right hE hA
  have hn1 : |n| ≤ 1.1 * A := by
    calc |n| = |(n - m) + m| := by ring_nf
      _ ≤ |n - m| + |m| := abs_add_le _ _
      _ ≤ 1.1 * A := by linarith
  have e : (b * n + c) / (b + 1) - (a * m + c) / (a + 1) = (a * (n - m) + (b - a) * (n - c) / (b + 1)) / (a + 1) := by
    field_simp
    ring
  rw [e, abs_div, abs_of_pos ha1, div_mul_cancel₀ _ ha1.ne']
  have h1 : |a * (n - m)| ≤ a * (E * A) := by
    rw [abs_mul, abs_of_nonneg ha]
    exact mul_le_mul_of_nonneg_left hn ha
  have h2 : |n - c| ≤ 2.1 * A := by
    calc |n - c| ≤ |n| + |c| := abs_sub _ _
      _ ≤ _ := by linarith
  have h3 : |(b - a) * (n - c) / (b + 1)| ≤ 2.2 * r * A := by
    rw [abs_div, abs_of_pos hb1, div_le_iff₀ hb1, abs_mul]
    have h4 : |b - a| * |n - c| ≤ r * a * (2.1 * A) := mul_le_mul hb h2 (abs_nonneg _) (mul_nonneg hr0 ha)
    have h5 : 0.98 * a ≤ b + 1 := by linarith [hb'.1]
    have h6 : r * A * (0.98 * a) ≤ r * A * (b + 1) := mul_le_mul_of_nonneg_left h5 (mul_nonneg hr0 hA)
    have h7 : 0 ≤ r * A * a := mul_nonneg (mul_nonneg hr0 hA) ha
    linarith
  exact (abs_add_le _ _).trans (add_le_add h1 h3)

/-- One observation: `a` and `b` are the exact and the rounded old weight, `m` and `n` the averages. -/
theorem ewm_step (R : Rounding fl) {a b m n c A r E : ℝ} (ha : 0 ≤ a) (hb : |b - a| ≤ r * a) (hm : |m| ≤ A) (hc : |c| ≤ A)
    (hn : |n - m| ≤ E * A) (hr0 : 0 ≤ r) (hr : r ≤ 1 / 100) (hE : E ≤ 1 / 10) (hrE : 2.2 * r + 4.6 * u64 * (a + 1) ≤ E) :
    |fl (fl (fl (b * n) + c) / fl (b + 1)) - (a * m + c) / (a + 1)| ≤ E * A ∧
    |(b * n + c) / (b + 1) - (a * m + c) / (a + 1)| ≤ E * A := by
  have hu := u64_pos
  have hA : 0 ≤ A := (abs_nonneg c).trans hc
  have hb' := abs_le.mp hb
  have hra : r * a ≤ 1 / 100 * a := mul_le_mul_of_nonneg_right hr ha
  have hb0 : 0 ≤ b := by linarith [hb'.1]
  have ha1 : 0 < a + 1 := by linarith
  have hEA : E * A ≤ 1 / 10 * A := mul_le_mul_of_nonneg_right hE hA
  have hn1 : |n| ≤ 1.1 * A := by
    calc |n| = |(n - m) + m| := by ring_nf
      _ ≤ |n - m| + |m| := abs_add_le _ _
      _ ≤ 1.1 * A := by linarith
  have h1 := wavg_round R hA hb0 hn1 hc
  have h2 := wavg_change ha hb hm hc hn hr0 hr hE
  have hX : |(b * n + c) / (b + 1) - (a * m + c) / (a + 1)| ≤ E * A - 4.6 * u64 * A := by
    by_contra hcon
    push Not at hcon
    have h3 := mul_lt_mul_of_pos_right hcon ha1
    have h4 : (2.2 * r + 4.6 * u64 * (a + 1)) * A ≤ E * A := mul_le_mul_of_nonneg_right hrE hA
    linarith
  have huA : 0 ≤ u64 * A := mul_nonneg hu.le hA
  refine ⟨?_, by linarith⟩
  calc |fl (fl (fl (b * n) + c) / fl (b + 1)) - (a * m + c) / (a + 1)|
      = |(fl (fl (fl (b * n) + c) / fl (b + 1)) - (b * n + c) / (b + 1)) + ((b * n + c) / (b + 1) - (a * m + c) / (a + 1))| := by ring_nf
    _ ≤ _ := abs_add_le _ _
    _ ≤ _ := by linarith

/-- The number of missing values (infinities count as missing). -/
noncomputable def miss (x : Ser) : Nat := (x.filter fun v => v.real?.isNone).length

theorem miss_some {v : XF} {c : ℝ} (h : v.real? = some c) (x : Ser) : miss (v :: x) = miss x := by simp [miss, h]

theorem miss_none {v : XF} (h : v.real? = none) (x : Ser) : miss (v :: x) = miss x + 1 := by simp [miss, h]

/-- The rounded and the exact state of the loop after `k` missing values; `W` is the largest weight, the factor is off
by at most `κ` units. -/
def Lock (κ W A : ℝ) (k : Nat) : Option (ℝ × ℝ) → Option (ℝ × ℝ) → Prop
  | none, none => True
  | some (n, v), some (m, w) =>
    0 ≤ w ∧ w ≤ W ∧ |v - w| ≤ (2.3 + 1.1 * κ) * (u64 * (W + k)) * w ∧ |m| ≤ A ∧ |n - m| ≤ (14 + 5 * κ) * (u64 * (W + k)) * A
  | _, _ => False

/-- The old weight after the multiplication. -/
theorem weight_mul (R : Rounding fl) {f g w v r κ : ℝ} (hf : 0 ≤ f) (hκ : 0 ≤ κ) (hg : |g - f| ≤ κ * u64 * f) (hκu : κ * u64 ≤ 1 / 100)
    (hw : 0 ≤ w) (hr0 : 0 ≤ r) (hr : r ≤ 1 / 100) (h : |v - w| ≤ r * w) :
    |fl (v * g) - w * f| ≤ (r + 1.1 * u64 * (1 + κ)) * (w * f) := by
  have hu := u64_pos
  have ha : 0 ≤ w * f := mul_nonneg hw hf
  have hκ0 : 0 ≤ κ * u64 := mul_nonneg hκ hu.le
  have hg1 : |g| ≤ (1 + κ * u64) * f := by
    calc |g| = |(g - f) + f| := by ring_nf
      _ ≤ |g - f| + |f| := abs_add_le _ _
      _ ≤ κ * u64 * f + f := add_le_add hg (abs_of_nonneg hf).le
      _ = _ := by ring
  have h1 : |v * g - w * f| ≤ (r + 1.01 * (κ * u64)) * (w * f) := by
    have e : v * g - w * f = (v - w) * g + w * (g - f) := by ring
    have h2 : |v - w| * |g| ≤ r * w * ((1 + κ * u64) * f) := mul_le_mul h hg1 (abs_nonneg _) (mul_nonneg hr0 hw)
    have h3 : w * |g - f| ≤ w * (κ * u64 * f) := mul_le_mul_of_nonneg_left hg hw
    have h4 : r * (κ * u64 * (w * f)) ≤ 1 / 100 * (κ * u64 * (w * f)) := mul_le_mul_of_nonneg_right hr (mul_nonneg hκ0 ha)
    calc |v * g - w * f| ≤ |v - w| * |g| + w * |g - f| := by
          rw [e]
          refine (abs_add_le _ _).trans (le_of_eq ?_)
          rw [abs_mul, abs_mul, abs_of_nonneg hw]
      _ ≤ r * w * ((1 + κ * u64) * f) + w * (κ * u64 * f) := add_le_add h2 h3
      _ ≤ _ := by linarith
  have h2 : |v * g| ≤ 1.1 * (w * f) := by
    calc |v * g| = |(v * g - w * f) + w * f| := by ring_nf
      _ ≤ |v * g - w * f| + |w * f| := abs_add_le _ _
      _ ≤ (r + 1.01 * (κ * u64)) * (w * f) + w * f := add_le_add h1 (abs_of_nonneg ha).le
      _ ≤ 0.03 * (w * f) + w * f := add_le_add_left (mul_le_mul_of_nonneg_right (by linarith) ha) _
      _ ≤ _ := by linarith
  have h3 : |fl (v * g) - v * g| ≤ u64 * (1.1 * (w * f)) := (R.rel _).trans (mul_le_mul_of_nonneg_left h2 hu.le)
  have h4 : 0 ≤ κ * u64 * (w * f) := mul_nonneg hκ0 ha
  calc |fl (v * g) - w * f| = |(fl (v * g) - v * g) + (v * g - w * f)| := by ring_nf
    _ ≤ |fl (v * g) - v * g| + |v * g - w * f| := abs_add_le _ _
    _ ≤ _ := by linarith

/-- The old weight after the addition. -/
theorem weight_add (R : Rounding fl) {a b r κ : ℝ} (ha : 0 ≤ a) (hκ : 0 ≤ κ) (hκu : κ * u64 ≤ 1 / 100) (hr : r ≤ 1 / 100)
    (h : |b - a| ≤ (r + 1.1 * u64 * (1 + κ)) * a) (hrW : (2.2 + 1.1 * κ) * (u64 * (a + 1)) ≤ r) :
    |fl (b + 1) - (a + 1)| ≤ r * (a + 1) := by
  have hu := u64_pos
  have hb' := abs_le.mp h
  have h1 : (r + 1.1 * u64 * (1 + κ)) * a ≤ 0.03 * a := mul_le_mul_of_nonneg_right (by linarith [u64_small]) ha
  have hb1 : 0 < b + 1 := by linarith [hb'.1]
  have h2 : |fl (b + 1) - (b + 1)| ≤ u64 * (1.05 * (a + 1)) := by
    refine (R.rel _).trans (mul_le_mul_of_nonneg_left ?_ hu.le)
    rw [abs_of_pos hb1]
    linarith [hb'.2]
  have h3 : 0 ≤ u64 * a := mul_nonneg hu.le ha
  have h4 : 0 ≤ κ * u64 := mul_nonneg hκ hu.le
  calc |fl (b + 1) - (a + 1)| = |(fl (b + 1) - (b + 1)) + (b - a)| := by ring_nf
    _ ≤ |fl (b + 1) - (b + 1)| + |b - a| := abs_add_le _ _
    _ ≤ u64 * (1.05 * (a + 1)) + (r + 1.1 * u64 * (1 + κ)) * a := add_le_add h2 h
    _ ≤ _ := by linarith

theorem wmean_le {a m c A : ℝ} (ha : 0 ≤ a) (hm : |m| ≤ A) (hc : |c| ≤ A) : |(a * m + c) / (a + 1)| ≤ A := by
  have ha1 : 0 < a + 1 := by linarith
  rw [abs_div, abs_of_pos ha1, div_le_iff₀ ha1]
  calc |a * m + c| ≤ |a * m| + |c| := abs_add_le _ _
    _ ≤ a * A + A := by
      rw [abs_mul, abs_of_nonneg ha]
      exact add_le_add (mul_le_mul_of_nonneg_left hm ha) hc
    _ = _ := by ring

open Classical in
/-- The rounded and the exact loop stay together. -/
theorem lock_run (R : Rounding fl) {f g κ W A : ℝ} (hf0 : 0 ≤ f) (hf1 : f < 1) (hκ : 0 ≤ κ) (hκ20 : κ ≤ 20) (hg : |g - f| ≤ κ * u64 * f)
    (hW : W * (1 - f) = 1) (hA : 0 ≤ A) (minp : Nat) :
    ∀ (x : Ser) (k nobs t : Nat) (s' s : Option (ℝ × ℝ)), Lock κ W A k s' s → (∀ v ∈ x.take (t + 1), ∀ c, v = .fin c → |c| ≤ A) →
    u64 * (W + (k + miss (x.take (t + 1)) : Nat)) ≤ 1 / 10000 → ∀ p q, (ewmGoR fl g minp s' nobs x)[t]? = some p →
    (ewmGo (1 - f) minp s nobs x)[t]? = some q →
    (p = .nan ∧ q = .nan) ∨ ∃ a b, p = .fin a ∧ q = .fin b ∧ |a - b| ≤ (14 + 5 * κ) * (u64 * (W + (k + miss (x.take (t + 1)) : Nat))) * A := by
  have hu := u64_pos
  have hW1 : 1 ≤ W := by nlinarith
  intro x
  induction x with
  | nil =>
    intro k nobs t s' s _ _ _ p q hp _
    cases s' <;> simp [ewmGoR] at hp
  | cons v x ih =>
    intro k nobs t s' s hL hx hk p q hp hq
    have huk : ∀ j : Nat, 0 ≤ u64 * (W + j) := fun j => mul_nonneg hu.le (by positivity)
    have hmono : ∀ i j : Nat, i ≤ j → u64 * (W + i) ≤ u64 * (W + j) := fun i j h =>
      mul_le_mul_of_nonneg_left (by have : (i : ℝ) ≤ j := by exact_mod_cast h
                                    linarith) hu.le
    have hkk : u64 * (W + k) ≤ 1 / 10000 := (hmono _ _ (Nat.le_add_right _ _)).trans hk
    have hU := huk k
    have hr0 : 0 ≤ (2.3 + 1.1 * κ) * (u64 * (W + k)) := mul_nonneg (by linarith) hU
    have hr1 : (2.3 + 1.1 * κ) * (u64 * (W + k)) ≤ 24.3 * (u64 * (W + k)) := mul_le_mul_of_nonneg_right (by linarith) hU
    have hE1 : (14 + 5 * κ) * (u64 * (W + k)) ≤ 114 * (u64 * (W + k)) := mul_le_mul_of_nonneg_right (by linarith) hU
    have hκ0 : 0 ≤ κ * u64 := mul_nonneg hκ hu.le
    have hκ1 : κ * u64 ≤ 20 * u64 := mul_le_mul_of_nonneg_right hκ20 hu.le
    have huW : u64 ≤ u64 * (W + k) := by
      have : (0 : ℝ) ≤ k := k.cast_nonneg
      nlinarith
    have hEm : ∀ j : Nat, k ≤ j → (14 + 5 * κ) * (u64 * (W + k)) * A ≤ (14 + 5 * κ) * (u64 * (W + j)) * A := fun j h =>
      mul_le_mul_of_nonneg_right (mul_le_mul_of_nonneg_left (hmono k j h) (by linarith)) hA
    have hE0 : ∀ j : Nat, 0 ≤ (14 + 5 * κ) * (u64 * (W + j)) * A := fun j => mul_nonneg (mul_nonneg (by linarith) (huk j)) hA
    have hv : ∀ c, v.real? = some c → |c| ≤ A := fun c hc => hx v (by simp) c (XF.real?_eq_some.mp hc)
    cases s' with
    | none =>
      cases s with
      | some s => exact absurd hL (by simp [Lock])
      | none =>
        cases hvr : v.real? with
        | none =>
          rw [ewmGoR, hvr] at hp
          rw [ewmGo, hvr] at hq
          cases t with
          | zero => exact .inl ⟨by simpa using hp.symm, by simpa using hq.symm⟩
          | succ t =>
            rw [List.take_succ_cons, miss_none hvr] at hk ⊢
            have := ih (k + 1) nobs t none none trivial (fun w hw => hx w (by simp [hw])) (by rw [← add_assoc, add_right_comm] at hk; exact hk) p q
              (by simpa using hp) (by simpa using hq)
            rw [← add_assoc, add_right_comm]
            exact this
        | some c =>
          rw [ewmGoR, hvr] at hp
          rw [ewmGo, hvr] at hq
          cases t with
          | zero =>
            simp only [List.getElem?_cons_zero, Option.some.injEq] at hp hq
            rw [← hp, ← hq]
            split
            · exact .inr ⟨c, c, rfl, rfl, by
                rw [sub_self, abs_zero]
                exact hE0 _⟩
            · exact .inl ⟨rfl, rfl⟩
          | succ t =>
            rw [List.take_succ_cons, miss_some hvr] at hk ⊢
            refine ih k (nobs + 1) t (some (c, 1)) (some (c, 1)) ?_ (fun w hw => hx w (by simp [hw])) hk p q
              (by simpa using hp) (by simpa using hq)
            refine ⟨one_pos.le, hW1, ?_, hv c hvr, ?_⟩
            · rw [sub_self, abs_zero]
              linarith
            · rw [sub_self, abs_zero]
              exact hE0 k
    | some s' =>
      obtain ⟨n, w'⟩ := s'
      cases s with
      | none => exact absurd hL (by simp [Lock])
      | some s =>
        obtain ⟨m, w⟩ := s
        obtain ⟨hw0, hwW, hww, hm, hn⟩ := hL
        have e1 : (1 : ℝ) - (1 - f) = f := by ring
        have hmul := weight_mul R hf0 hκ hg (by linarith) hw0 hr0 (by linarith) hww
        have ha0 : 0 ≤ w * f := mul_nonneg hw0 hf0
        have haW : w * f + 1 ≤ W := by nlinarith
        cases hvr : v.real? with
        | none =>
          rw [ewmGoR, hvr] at hp
          rw [ewmGo, hvr, e1] at hq
          cases t with
          | zero =>
            simp only [List.getElem?_cons_zero, Option.some.injEq] at hp hq
            rw [← hp, ← hq]
            split
            · exact .inr ⟨n, m, rfl, rfl, hn.trans (hEm _ (Nat.le_add_right _ _))⟩
            · exact .inl ⟨rfl, rfl⟩
          | succ t =>
            rw [List.take_succ_cons, miss_none hvr] at hk ⊢
            have := ih (k + 1) nobs t (some (n, fl (w' * g))) (some (m, w * f)) ?_ (fun w hw => hx w (by simp [hw]))
              (by rw [← add_assoc, add_right_comm] at hk; exact hk) p q (by simpa using hp) (by simpa using hq)
            · rw [← add_assoc, add_right_comm]
              exact this
            · refine ⟨ha0, by linarith, hmul.trans ?_, hm, hn.trans ?_⟩
              · refine mul_le_mul_of_nonneg_right ?_ ha0
                push_cast
                linarith
              · exact hEm _ (Nat.le_succ _)
        | some c =>
          have hc := hv c hvr
          rw [ewmGoR, hvr] at hp
          rw [ewmGo, hvr, e1] at hq
          have huaW : u64 * (w * f + 1) ≤ u64 * (W + k) := mul_le_mul_of_nonneg_left (by
            have : (0 : ℝ) ≤ k := k.cast_nonneg
            linarith) hu.le
          have hstep := ewm_step R (E := (14 + 5 * κ) * (u64 * (W + k))) ha0 hmul hm hc hn (add_nonneg hr0 (by nlinarith)) (by linarith) (by linarith) (by
            have h1 := mul_le_mul_of_nonneg_left huW hκ
            linarith)
          have hadd := weight_add R ha0 hκ (by linarith) (by linarith) hmul (by
            have h1 := mul_le_mul_of_nonneg_left huaW hκ
            linarith)
          have hmean := wmean_le ha0 hm hc
          have hnew : |(if n = c then n else fl (fl (fl (fl (w' * g) * n) + c) / fl (fl (w' * g) + 1))) - (w * f * m + c) / (w * f + 1)| ≤
              (14 + 5 * κ) * (u64 * (W + k)) * A := by
            split
            · rename_i hnc
              subst hnc
              have hb1 : fl (w' * g) + 1 ≠ 0 := by
                have h1 := (abs_le.mp hmul).1
                have h2 : ((2.3 + 1.1 * κ) * (u64 * (W + k)) + 1.1 * u64 * (1 + κ)) * (w * f) ≤ 0.01 * (w * f) := mul_le_mul_of_nonneg_right (by linarith) ha0
                have : 0 < fl (w' * g) + 1 := by linarith
                exact this.ne'
              have h2 := hstep.2
              rwa [show fl (w' * g) * n + n = n * (fl (w' * g) + 1) by ring, mul_div_assoc, div_self hb1, mul_one] at h2
            · exact hstep.1
          dsimp only at hp
          generalize (if n = c then n else fl (fl (fl (fl (w' * g) * n) + c) / fl (fl (w' * g) + 1))) = n' at hp hnew
          cases t with
          | zero =>
            simp only [List.getElem?_cons_zero, Option.some.injEq] at hp hq
            rw [← hp, ← hq]
            split
            · exact .inr ⟨n', _, rfl, rfl, hnew.trans (hEm _ (Nat.le_add_right _ _))⟩
            · exact .inl ⟨rfl, rfl⟩
          | succ t =>
            rw [List.take_succ_cons, miss_some hvr] at hk ⊢
            exact ih k (nobs + 1) t (some (n', fl (fl (w' * g) + 1))) (some ((w * f * m + c) / (w * f + 1), w * f + 1))
              ⟨by linarith, haW, hadd, hmean, hnew⟩ (fun w hw => hx w (by simp [hw])) hk p q (by simpa using hp) (by simpa using hq)

theorem ewmGoR_length (f : ℝ) (p : Nat) : ∀ (x : Ser) (s : Option (ℝ × ℝ)) (n : Nat), (ewmGoR fl f p s n x).length = x.length := by
  intro x
  induction x with
  | nil => intro s n; cases s <;> simp [ewmGoR]
  | cons v x ih =>
    intro s n
    cases s with
    | none =>
      rw [ewmGoR]
      cases v.real? <;> simp [ih]
    | some s =>
      obtain ⟨m, w⟩ := s
      rw [ewmGoR]
      cases v.real? <;> simp [ih]

/-- C107. The rounded exponential average with the factor `g` and the exact one with the factor `f`, where `g` is within `κ` units of
`f`: they are missing at the same positions and differ by at most `14 + 5 κ` units of the largest absolute value so far times `W + k`,
where `W = 1 / (1 - f)` is the total weight and `k` the number of missing values. Without missing values the error does not grow with
the length of the series. -/
theorem ewm_error (R : Rounding fl) {f g κ A : ℝ} (hf0 : 0 ≤ f) (hf1 : f < 1) (hκ : 0 ≤ κ) (hκ20 : κ ≤ 20) (hg : |g - f| ≤ κ * u64 * f)
    (hA : 0 ≤ A) (p : Int) (x : Ser) {t : Nat} (ht : t < x.length)
    (hx : ∀ v ∈ x.take (t + 1), ∀ c, v = .fin c → |c| ≤ A) (hk : u64 * (1 / (1 - f) + miss (x.take (t + 1))) ≤ 1 / 10000) :
    ((ewmMeanR fl g p x)[t]? = some .nan ∧ (Ser.ewmMean (1 - f) p x)[t]? = some .nan) ∨
    ∃ a b, (ewmMeanR fl g p x)[t]? = some (.fin a) ∧ (Ser.ewmMean (1 - f) p x)[t]? = some (.fin b) ∧
      |a - b| ≤ (14 + 5 * κ) * (u64 * (1 / (1 - f) + miss (x.take (t + 1)))) * A := by
  have h1 : t < (ewmMeanR fl g p x).length := by
    unfold ewmMeanR
    rwa [ewmGoR_length]
  have h2 : t < (Ser.ewmMean (1 - f) p x).length := by rwa [Ser.ewmMean_length]
  have key := lock_run R hf0 hf1 hκ hκ20 hg (W := 1 / (1 - f)) (by
    have : (1 : ℝ) - f ≠ 0 := by linarith
    field_simp) hA (max p 1).toNat x 0 0 t none none trivial hx (by simpa using hk) _ _ (List.getElem?_eq_getElem h1) (List.getElem?_eq_getElem h2)
  rw [List.getElem?_eq_getElem h1, List.getElem?_eq_getElem h2]
  rcases key with ⟨e1, e2⟩ | ⟨a, b, e1, e2, hab⟩
  · exact .inl ⟨by rw [e1], by rw [e2]⟩
  · exact .inr ⟨a, b, by rw [e1], by rw [e2], by simpa using hab⟩

/-- The factor of a span is within 6 units of `1 - 2 / (s + 1)`, and exact for span 1. -/
theorem factor_err (R : Rounding fl) {s g : ℝ} (h : spanFactorR fl s = .ok g) :
    1 ≤ s ∧ 0 ≤ g ∧ g ≤ 1 ∧ |g - (1 - 2 / (s + 1))| ≤ 6 * u64 ∧ (s = 1 → g = 0) := by
  have hu := u64_pos
  have hus := u64_small
  unfold spanFactorR at h
  split at h
  · cases h
  rename_i hs
  have hs : 1 ≤ s := not_lt.mp hs
  cases h
  have hz : fl 0 = 0 := by simpa using R.int 0 (by norm_num)
  have ho : fl 1 = 1 := by simpa using R.int 1 (by norm_num)
  have hd := R.rel (s - 1)
  have hd0 : 0 ≤ fl (s - 1) := hz.symm.le.trans (R.mono (by linarith))
  rw [abs_of_nonneg (by linarith : 0 ≤ s - 1)] at hd
  have hc := R.rel (fl (s - 1) / 2)
  have hc0 : 0 ≤ fl (fl (s - 1) / 2) := hz.symm.le.trans (R.mono (by linarith))
  have hc1 := hc
  rw [abs_of_nonneg (by linarith : 0 ≤ fl (s - 1) / 2)] at hc
  have hone : s = 1 → fl (1 - fl (1 / fl (1 + fl (fl (s - 1) / 2)))) = 0 := by
    rintro rfl
    rw [sub_self, hz, zero_div, hz, add_zero, ho, div_one, ho, sub_self, hz]
  generalize fl (fl (s - 1) / 2) = c at *
  generalize fl (s - 1) = d at *
  have hD := R.rel (1 + c)
  have hD1 : 1 ≤ fl (1 + c) := ho.symm.le.trans (R.mono (by linarith))
  rw [abs_of_nonneg (by linarith : 0 ≤ 1 + c)] at hD
  generalize fl (1 + c) = D at *
  have hD0 : 0 < D := by linarith
  have hα := R.rel (1 / D)
  have hinv1 : 1 / D ≤ 1 := (div_le_one hD0).mpr hD1
  have hα1 : fl (1 / D) ≤ 1 := (R.mono hinv1).trans ho.le
  have hα0 : 0 ≤ fl (1 / D) := hz.symm.le.trans (R.mono (by positivity))
  rw [abs_of_nonneg (by positivity : 0 ≤ 1 / D)] at hα
  generalize fl (1 / D) = α at *
  have hg := R.rel (1 - α)
  have hg0 : 0 ≤ fl (1 - α) := hz.symm.le.trans (R.mono (by linarith))
  have hg1 : fl (1 - α) ≤ 1 := (R.mono (by linarith)).trans ho.le
  rw [abs_of_nonneg (by linarith : 0 ≤ 1 - α)] at hg
  refine ⟨hs, hg0, hg1, ?_, hone⟩
  generalize fl (1 - α) = g at *
  -- the sum
  have hd' := abs_le.mp hd
  have hc' := abs_le.mp hc
  have hD' := abs_le.mp hD
  have hus1 : u64 * (s - 1) ≤ 1 / 1000 * (s - 1) := mul_le_mul_of_nonneg_right hus (by linarith)
  have huus : u64 * (u64 * (s - 1)) ≤ 1 / 1000 * (u64 * (s - 1)) := mul_le_mul_of_nonneg_right hus (mul_nonneg hu.le (by linarith))
  have hud : u64 * (d / 2) ≤ u64 * ((s - 1) / 2) + u64 * (u64 * (s - 1)) / 2 := by
    have := mul_le_mul_of_nonneg_left hd'.2 hu.le
    linarith
  have hu0 : 0 ≤ u64 * (s - 1) := mul_nonneg hu.le (by linarith)
  have hcs : |c - (s - 1) / 2| ≤ 1.01 * (u64 * (s - 1)) := abs_le.mpr ⟨by linarith, by linarith⟩
  have hcs' := abs_le.mp hcs
  have huc : u64 * (1 + c) ≤ 1.01 * (u64 * (1 + (s - 1) / 2)) := by
    have := mul_le_mul_of_nonneg_left hcs'.2 hu.le
    linarith
  have hDs : |D - (s + 1) / 2| ≤ 1.6 * (u64 * (s + 1)) := abs_le.mpr ⟨by linarith, by linarith⟩
  have hs1 : (0 : ℝ) < s + 1 := by linarith
  have hinv : |1 / D - 2 / (s + 1)| ≤ 3.2 * u64 := by
    rw [div_sub_div _ _ hD0.ne' hs1.ne', abs_div, abs_of_pos (mul_pos hD0 hs1), div_le_iff₀ (mul_pos hD0 hs1)]
    have e : 1 * (s + 1) - D * 2 = -(2 * (D - (s + 1) / 2)) := by ring
    rw [e, abs_neg, abs_mul, abs_of_pos (two_pos (α := ℝ))]
    have h1 : u64 * (s + 1) * 1 ≤ u64 * (s + 1) * D := mul_le_mul_of_nonneg_left hD1 (mul_nonneg hu.le hs1.le)
    linarith
  have hi' := abs_le.mp hinv
  have hα' := abs_le.mp hα
  have hg' := abs_le.mp hg
  have huD : u64 * (1 / D) ≤ u64 * 1 := mul_le_mul_of_nonneg_left hinv1 hu.le
  have huα : u64 * (1 - α) ≤ u64 * 1 := mul_le_mul_of_nonneg_left (by linarith) hu.le
  exact abs_le.mpr ⟨by linarith, by linarith⟩

/-- C107. The exponential average of a span, from the span to the result: with rounding it is missing where the exact one is and differs
from it by at most 114 units of the largest absolute value so far times half the span plus one plus the number of missing values. -/
theorem ema_error (R : Rounding fl) {s A : ℝ} {x u : Ser} (h : emaR fl x s = .ok u) (hs : s = 1 ∨ 2 ≤ s) (hA : 0 ≤ A) {t : Nat}
    (ht : t < x.length) (hx : ∀ v ∈ x.take (t + 1), ∀ c, v = .fin c → |c| ≤ A)
    (hk : u64 * ((s + 1) / 2 + miss (x.take (t + 1))) ≤ 1 / 10000) :
    ∃ e, Ind.ewmMean x s = .ok e ∧ ((u[t]? = some .nan ∧ e[t]? = some .nan) ∨
      ∃ a b, u[t]? = some (.fin a) ∧ e[t]? = some (.fin b) ∧ |a - b| ≤ 114 * (u64 * ((s + 1) / 2 + miss (x.take (t + 1)))) * A) := by
  have hu := u64_pos
  obtain ⟨g, hg, he⟩ := bind_ok h
  cases he
  obtain ⟨hs1, hg0, hg1, hge, hone⟩ := factor_err R hg
  have hsp : (0 : ℝ) < s + 1 := by linarith
  have hα : spanAlpha s = .ok (2 / (s + 1)) := by
    unfold spanAlpha
    rw [if_neg (by linarith)]
  have hf0 : 0 ≤ 1 - 2 / (s + 1) := by
    have : 2 / (s + 1) ≤ 1 := (div_le_one hsp).mpr (by linarith)
    linarith
  have hf1 : 1 - 2 / (s + 1) < 1 := by
    have : 0 < 2 / (s + 1) := by positivity
    linarith
  have hW : 1 / (1 - (1 - 2 / (s + 1))) = (s + 1) / 2 := by
    rw [sub_sub_cancel, one_div_div]
  have hrel : |g - (1 - 2 / (s + 1))| ≤ 20 * u64 * (1 - 2 / (s + 1)) := by
    rcases hs with rfl | hs
    · rw [hone rfl]
      norm_num
    · have : 1 / 3 ≤ 1 - 2 / (s + 1) := by
        have : 2 / (s + 1) ≤ 2 / 3 := div_le_div_of_nonneg_left (by norm_num) (by norm_num) (by linarith)
        linarith
      nlinarith
  refine ⟨Ser.ewmMean (2 / (s + 1)) 0 x, by unfold Ind.ewmMean; rw [hα]; rfl, ?_⟩
  have key := ewm_error R hf0 hf1 (by norm_num) le_rfl hrel hA 0 x ht hx (by rw [hW]; exact hk)
  rw [hW, sub_sub_cancel] at key
  rcases key with h1 | ⟨a, b, h1, h2, h3⟩
  · exact .inl h1
  · exact .inr ⟨a, b, h1, h2, by linarith⟩

end Verif.Roll
