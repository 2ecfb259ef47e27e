import Verif.Props.PandasCorr
import Verif.Props.RoundDist
import Verif.Lemmas.Round

/-!
# C102: the correlations of pandas with rounding after every operation
-/

namespace Verif.Round

open Verif.Dist

/-- All numbers of the pairs are floats. -/
def Floats (fl : ℝ → ℝ) (c : List (ℝ × ℝ)) : Prop := ∀ p ∈ c, fl p.1 = p.1 ∧ fl p.2 = p.2

/-! ### The square root of the rounded square of a float -/

theorem b64_sqrt_sq_pos {x : ℝ} (hx : 0 < x) (hf : b64 x = x) : b64 (Real.sqrt (b64 (x * x))) = x := by
  obtain ⟨e, he⟩ : ∃ e, e = ulpExp x := ⟨_, rfl⟩
  obtain ⟨k, hk⟩ : ∃ k, k = rne (x / 2 ^ ulpExp x) := ⟨_, rfl⟩
  have hp : (0 : ℝ) < 2 ^ e := by positivity
  have hxk : x = k * 2 ^ e := by rw [he, hk]; exact hf.symm
  obtain ⟨b1, b2⟩ := ulp_bounds hx.ne'
  rw [abs_of_pos hx, ← he] at b1 b2
  have k1 : (2 : ℝ) ^ 52 ≤ k := by
    have : (2 : ℝ) ^ 52 * 2 ^ e ≤ k * 2 ^ e := by rw [← hxk]; exact b1
    exact le_of_mul_le_mul_right this hp
  have k2 : (k : ℝ) ≤ 2 ^ 53 - 1 := by
    have : (k : ℝ) * 2 ^ e < 2 ^ 53 * 2 ^ e := by rw [← hxk]; exact b2
    have h := lt_of_mul_lt_mul_right this hp.le
    have h' : k < 2 ^ 53 := by exact_mod_cast h
    have h'' : k ≤ 2 ^ 53 - 1 := by omega
    exact_mod_cast h''
  have hu : u64 = 1 / 2 ^ 53 := rfl
  have hu0 : 0 < u64 := by rw [hu]; positivity
  have hu1 : u64 < 1 / 4 := by rw [hu]; norm_num
  obtain ⟨y, hy⟩ : ∃ y, y = b64 (x * x) := ⟨_, rfl⟩
  obtain ⟨y1, y2⟩ := b64_rounding.bounds (mul_self_nonneg x)
  rw [← hy] at y1 y2
  rw [← hy]
  have hux : u64 * x ≤ (1 - u64) * 2 ^ e := by
    have : u64 * k ≤ 1 - u64 := by
      have := mul_le_mul_of_nonneg_left k2 hu0.le
      rw [hu] at this ⊢
      linarith
    calc u64 * x = u64 * k * 2 ^ e := by rw [hxk]; ring
      _ ≤ _ := mul_le_mul_of_nonneg_right this hp.le
  have hxx : 0 < x * x := mul_pos hx hx
  have hy0 : 0 < y := lt_of_lt_of_le (mul_pos (by linarith) hxx) y1
  have hs : (1 - u64) * x ≤ Real.sqrt y := by
    refine Real.le_sqrt_of_sq_le ?_
    calc ((1 - u64) * x) ^ 2 = (1 - u64) * ((1 - u64) * (x * x)) := by ring
      _ ≤ 1 * ((1 - u64) * (x * x)) := mul_le_mul_of_nonneg_right (by linarith) (mul_nonneg (by linarith) hxx.le)
      _ ≤ y := by linarith
  have hsq : Real.sqrt y * Real.sqrt y = y := Real.mul_self_sqrt hy0.le
  have hs0 : 0 ≤ Real.sqrt y := Real.sqrt_nonneg y
  rw [hxk]
  refine b64_eq ?_ ?_ ?_
  · have h1 : b64 ((2 : ℝ) ^ 104 * (2 ^ e * 2 ^ e)) ≤ y := by
      rw [hy]
      refine b64_mono ?_
      calc (2 : ℝ) ^ 104 * (2 ^ e * 2 ^ e) = (2 ^ 52 * 2 ^ e) * (2 ^ 52 * 2 ^ e) := by ring
        _ ≤ x * x := mul_self_le_mul_self (by positivity) b1
    have h2 : b64 ((2 : ℝ) ^ 104 * (2 ^ e * 2 ^ e)) = 2 ^ 104 * (2 ^ e * 2 ^ e) := by
      have := b64_exact (m := 2 ^ 52) (by norm_num) (52 + e + e)
      rw [zpow_add₀ two_ne_zero, zpow_add₀ two_ne_zero] at this
      have e2 : ((2 ^ 52 : ℤ) : ℝ) * (2 ^ (52 : ℤ) * 2 ^ e * 2 ^ e) = 2 ^ 104 * (2 ^ e * 2 ^ e) := by
        rw [show ((2 : ℝ) ^ (52 : ℤ)) = 2 ^ 52 from zpow_natCast 2 52]
        push_cast
        ring
      rwa [e2] at this
    refine Real.le_sqrt_of_sq_le ?_
    rw [h2] at h1
    calc ((2 : ℝ) ^ 52 * 2 ^ e) ^ 2 = 2 ^ 104 * (2 ^ e * 2 ^ e) := by ring
      _ ≤ y := h1
  · rw [Real.sqrt_lt' (by positivity)]
    have hx2 : x ≤ (1 - u64) * (2 ^ 53 * 2 ^ e) := by
      have : (1 - u64) * 2 ^ 53 = (2 : ℝ) ^ 53 - 1 := by rw [hu]; norm_num
      rw [← mul_assoc, this, hxk]
      exact mul_le_mul_of_nonneg_right k2 hp.le
    have hX : (0 : ℝ) < 2 ^ 53 * 2 ^ e := by positivity
    have := mul_self_le_mul_self hx.le hx2
    calc y ≤ (1 + u64) * (x * x) := y2
      _ ≤ (1 + u64) * ((1 - u64) * (2 ^ 53 * 2 ^ e) * ((1 - u64) * (2 ^ 53 * 2 ^ e))) := mul_le_mul_of_nonneg_left this (by linarith)
      _ = ((1 - u64 ^ 2) * (1 - u64)) * (2 ^ 53 * 2 ^ e) ^ 2 := by ring
      _ < 1 * (2 ^ 53 * 2 ^ e) ^ 2 := by
          refine mul_lt_mul_of_pos_right ?_ (by positivity)
          nlinarith
      _ = _ := one_mul _
  · rw [← hxk]
    have hprod : |Real.sqrt y - x| * (Real.sqrt y + x) = |y - x * x| := by
      rw [← abs_of_nonneg (add_nonneg hs0 hx.le), ← abs_mul]
      congr 1
      calc (Real.sqrt y - x) * (Real.sqrt y + x) = Real.sqrt y * Real.sqrt y - x * x := by ring
        _ = _ := by rw [hsq]
    have hd : |y - x * x| ≤ u64 * (x * x) := abs_le.mpr ⟨by linarith, by linarith⟩
    by_contra hn
    have hn' := not_lt.mp hn
    have h1 : 2 ^ e / 2 * ((2 - u64) * x) ≤ |Real.sqrt y - x| * (Real.sqrt y + x) :=
      mul_le_mul hn' (by linarith) (mul_nonneg (by linarith) hx.le) (abs_nonneg _)
    have h2 : 2 ^ e / 2 * ((2 - u64) * x) ≤ u64 * (x * x) := h1.trans (hprod.le.trans hd)
    have h3 : (2 ^ e / 2 * (2 - u64)) * x ≤ (u64 * x) * x := by linarith
    have h4 := le_of_mul_le_mul_right h3 hx
    have h5 : 2 ^ e / 2 * (2 - u64) ≤ (1 - u64) * (2 : ℝ) ^ e := h4.trans hux
    nlinarith

/-- C102. The square root of the rounded square of a float is the float: `sqrt(x * x) = |x|` holds for floats. -/
theorem b64_sqrt_sq {x : ℝ} (hf : b64 x = x) : b64 (Real.sqrt (b64 (x * x))) = |x| := by
  rcases lt_trichotomy x 0 with h | h | h
  · have := b64_sqrt_sq_pos (neg_pos.mpr h) (by rw [b64_neg, hf])
    rwa [neg_mul_neg, ← abs_of_neg h] at this
  · rw [h, mul_zero, b64_zero, Real.sqrt_zero, b64_zero, abs_zero]
  · rw [b64_sqrt_sq_pos h hf, abs_of_pos h]

/-- A case: for `x = 3`. -/
example : b64 (Real.sqrt (b64 (3 * 3))) = 3 := by
  have := b64_sqrt_sq (x := 3) (by simpa using b64_rounding.int 3 (by norm_num))
  rwa [abs_of_pos (by norm_num)] at this

/-! ### Welford's recurrence -/

variable {fl : ℝ → ℝ}

theorem mean_step (h : Rounding fl) {v m : ℝ} (hv : fl v = v) {n : Nat} (hn : 2 ≤ n) (hvm : m ≤ v) :
    fl (m + fl (fl (1 / n) * fl (v - m))) ≤ v := by
  have hd : 0 ≤ v - m := sub_nonneg.mpr hvm
  have hd0 := h.nonneg hd
  have hn' : (1 : ℝ) / n ≤ 1 / 2 := one_div_le_one_div_of_le two_pos (by exact_mod_cast hn)
  have h2 : fl (1 / 2 : ℝ) = 1 / 2 := by rw [h.half, h.one]
  have h1 : fl (1 / n) ≤ 1 / 2 := (h.mono hn').trans h2.le
  have h3 : fl (fl (1 / n) * fl (v - m)) ≤ fl (v - m) / 2 := by
    have := h.mono (mul_le_mul_of_nonneg_right h1 hd0)
    rwa [one_div_mul_eq_div, h.half, h.idem] at this
  have h4 := (h.bounds hd).2
  have hu : u64 < 1 := by unfold u64; norm_num
  have h5 : fl (v - m) / 2 ≤ v - m := by nlinarith
  calc fl (m + fl (fl (1 / n) * fl (v - m))) ≤ fl v := h.mono (by linarith)
    _ = v := hv

theorem mean_step' (h : Rounding fl) {v m : ℝ} (hv : fl v = v) {n : Nat} (hn : 2 ≤ n) (hvm : v ≤ m) :
    v ≤ fl (m + fl (fl (1 / n) * fl (v - m))) := by
  have := mean_step h (v := -v) (m := -m) (by rw [h.neg, hv]) hn (neg_le_neg hvm)
  have e : -v - -m = -(v - m) := by ring
  rw [e, h.neg, mul_neg, h.neg, ← neg_add, h.neg] at this
  linarith

/-- One summand of a sum of squares. -/
theorem square_step (h : Rounding fl) {v m : ℝ} (hv : fl v = v) {n : Nat} (hn : 1 ≤ n) (h0 : n = 1 → m = 0) :
    0 ≤ fl (fl (v - fl (m + fl (fl (1 / n) * fl (v - m)))) * fl (v - m)) := by
  rcases hn.eq_or_lt with e | e
  · subst e
    rw [h0 rfl]
    simp only [Nat.cast_one, div_one, sub_zero, zero_add, h.one, hv, one_mul, sub_self, h.zero, zero_mul]
    exact le_rfl
  · refine h.nonneg ?_
    rcases le_total m v with hm | hm
    · exact mul_nonneg (h.nonneg (sub_nonneg.mpr (mean_step h hv e hm))) (h.nonneg (sub_nonneg.mpr hm))
    · have neg : ∀ {a : ℝ}, a ≤ 0 → fl a ≤ 0 := fun ha => h.zero ▸ h.mono ha
      exact mul_nonneg_of_nonpos_of_nonpos (neg (sub_nonpos.mpr (mean_step' h hv e hm))) (neg (sub_nonpos.mpr hm))

theorem welford_snoc (l : List (ℝ × ℝ)) (p : ℝ × ℝ) : welford fl (l ++ [p]) = Welford.step fl (welford fl l) p := by
  unfold welford
  rw [List.foldl_append]
  rfl

theorem welford_inv (h : Rounding fl) {l : List (ℝ × ℝ)} (hl : Floats fl l) :
    (welford fl l).n = l.length ∧ (l = [] → (welford fl l).mx = 0 ∧ (welford fl l).my = 0) ∧
    0 ≤ (welford fl l).sx ∧ 0 ≤ (welford fl l).sy ∧
    fl (welford fl l).sx = (welford fl l).sx ∧ fl (welford fl l).sy = (welford fl l).sy ∧ fl (welford fl l).sxy = (welford fl l).sxy := by
  induction l using List.reverseRecOn with
  | nil => exact ⟨rfl, fun _ => ⟨rfl, rfl⟩, le_rfl, le_rfl, h.zero, h.zero, h.zero⟩
  | append_singleton l p ih =>
    obtain ⟨i1, i2, i3, i4, -⟩ := ih fun q hq => hl q (List.mem_append_left _ hq)
    obtain ⟨f1, f2⟩ := hl p (List.mem_append_right _ (List.mem_singleton.mpr rfl))
    rw [welford_snoc]
    have z : (welford fl l).n + 1 = 1 → (welford fl l).mx = 0 ∧ (welford fl l).my = 0 := fun e =>
      i2 (List.length_eq_zero_iff.mp (by rw [← i1]; omega))
    refine ⟨by simp [Welford.step, i1], fun e => by simp at e, h.nonneg (add_nonneg i3 ?_), h.nonneg (add_nonneg i4 ?_), h.idem _, h.idem _, h.idem _⟩
    · exact square_step h f1 (by omega) fun e => (z e).1
    · exact square_step h f2 (by omega) fun e => (z e).2

/-- C102. The number of observations is exact and the sums of squares of Welford's recurrence are not negative, whatever rounding
does to the means. -/
theorem welford_nonneg (h : Rounding fl) {l : List (ℝ × ℝ)} (hl : Floats fl l) :
    (welford fl l).n = l.length ∧ 0 ≤ (welford fl l).sx ∧ 0 ≤ (welford fl l).sy :=
  ⟨(welford_inv h hl).1, (welford_inv h hl).2.2.1, (welford_inv h hl).2.2.2.1⟩

/-- Scaling of the second number of every pair by a factor with which rounding commutes. -/
theorem welford_scale (a : ℝ) (ha : ∀ x, fl (a * x) = a * fl x) {l : List (ℝ × ℝ)} (hl : ∀ p ∈ l, p.2 = a * p.1) :
    (welford fl l).my = a * (welford fl l).mx ∧ (welford fl l).sy = a * (a * (welford fl l).sx) ∧
      (welford fl l).sxy = a * (welford fl l).sx := by
  induction l using List.reverseRecOn with
  | nil => simp [welford]
  | append_singleton l p ih =>
    obtain ⟨i1, i2, i3⟩ := ih fun q hq => hl q (List.mem_append_left _ hq)
    have hp := hl p (List.mem_append_right _ (List.mem_singleton.mpr rfl))
    rw [welford_snoc]
    have dy : fl (p.2 - (welford fl l).my) = a * fl (p.1 - (welford fl l).mx) := by rw [hp, i1, ← mul_sub, ha]
    have my : (Welford.step fl (welford fl l) p).my = a * (Welford.step fl (welford fl l) p).mx := by
      unfold Welford.step
      dsimp only
      rw [dy, i1, mul_left_comm, ha, ← mul_add, ha]
    refine ⟨my, ?_, ?_⟩
    · have : (Welford.step fl (welford fl l) p).sy = fl ((welford fl l).sy +
        fl (fl (p.2 - (Welford.step fl (welford fl l) p).my) * fl (p.2 - (welford fl l).my))) := rfl
      rw [this, my, dy, i2, hp, ← mul_sub, ha]
      have e : a * fl (p.1 - (Welford.step fl (welford fl l) p).mx) * (a * fl (p.1 - (welford fl l).mx)) =
          a * (a * (fl (p.1 - (Welford.step fl (welford fl l) p).mx) * fl (p.1 - (welford fl l).mx))) := by ring
      rw [e, ha, ha, ← mul_add, ha, ← mul_add, ha]
      rfl
    · have : (Welford.step fl (welford fl l) p).sxy = fl ((welford fl l).sxy +
        fl (fl (p.1 - (Welford.step fl (welford fl l) p).mx) * fl (p.2 - (welford fl l).my))) := rfl
      rw [this, dy, i3, mul_left_comm, ha, ← mul_add, ha]
      rfl

/-! ### The entries -/

/-- The correlation of two columns, one of which is a multiple of the other with a factor with which rounding commutes. -/
theorem pearson_round_scale {a : ℝ} (ha0 : a ≠ 0) (ha : ∀ x, b64 (a * x) = a * b64 x) (minp : Int) (x y : List XF)
    (hl : Floats b64 (complete x y)) (hxy : ∀ p ∈ complete x y, p.2 = a * p.1) :
    pearsonR b64 minp x y = .nan ∨ pearsonR b64 minp x y = .fin (if 0 < a then 1 else -1) := by
  obtain ⟨-, w1, w2⟩ := welford_scale a ha hxy
  obtain ⟨-, -, n1, -, f1, -, -⟩ := welford_inv b64_rounding hl
  unfold pearsonR
  dsimp only
  split
  · exact .inl rfl
  rw [w1, w2]
  generalize (welford b64 (complete x y)).sx = q at *
  have hd : b64 (Real.sqrt (b64 (q * (a * (a * q))))) = |a| * q := by
    have e : q * (a * (a * q)) = (a * q) * (a * q) := by ring
    rw [e, b64_sqrt_sq (by rw [ha, f1]), abs_mul, abs_of_nonneg n1]
  rw [hd]
  by_cases hq : q = 0
  · rw [hq, mul_zero, if_pos rfl]; exact .inl rfl
  · have hab : |a| ≠ 0 := abs_ne_zero.mpr ha0
    rw [if_neg (mul_ne_zero hab hq)]
    right
    have e : a * q / (|a| * q) = if 0 < a then 1 else -1 := by
      rw [mul_div_mul_right _ _ hq]
      by_cases h : 0 < a
      · rw [if_pos h, abs_of_pos h, div_self ha0]
      · have h' : a < 0 := lt_of_le_of_ne (not_lt.mp h) ha0
        rw [if_neg h, abs_of_neg h', div_neg, div_self ha0]
    rw [e]
    split
    · rw [b64_rounding.one]; norm_num
    · rw [b64_neg, b64_rounding.one]; norm_num

theorem b64_zpow (k : ℤ) (x : ℝ) : b64 (2 ^ k * x) = 2 ^ k * b64 x := by
  have nat : ∀ (n : ℕ) (x : ℝ), b64 (2 ^ n * x) = 2 ^ n * b64 x := by
    intro n
    induction n with
    | zero => intro x; simp
    | succ n ih => intro x; rw [pow_succ, mul_assoc, ih, b64_two]; ring
  obtain ⟨n, rfl | rfl⟩ := k.eq_nat_or_neg
  · simpa using nat n x
  · have h2 : (2 : ℝ) ^ n ≠ 0 := by positivity
    have := nat n (2 ^ (-(n : ℤ)) * x)
    rw [zpow_neg, zpow_natCast, mul_inv_cancel_left₀ h2] at this
    rw [zpow_neg, zpow_natCast, this, inv_mul_cancel_left₀ h2]

/-- C102. With rounding, Pearson's correlation of a column with its multiple by a power of two, positive or negative, is exactly 1
or exactly -1 — or `nan`. In particular the diagonal of the correlation matrix is exactly 1 or `nan`. -/
theorem pearson_round_power (k : ℤ) (minp : Int) (x y : List XF) (hl : Floats b64 (complete x y)) :
    ((∀ p ∈ complete x y, p.2 = 2 ^ k * p.1) → pearsonR b64 minp x y = .nan ∨ pearsonR b64 minp x y = .fin 1) ∧
    ((∀ p ∈ complete x y, p.2 = -2 ^ k * p.1) → pearsonR b64 minp x y = .nan ∨ pearsonR b64 minp x y = .fin (-1)) := by
  have hk : (0 : ℝ) < 2 ^ k := by positivity
  constructor
  · intro h
    have := pearson_round_scale hk.ne' (b64_zpow k) minp x y hl h
    rwa [if_pos hk] at this
  · intro h
    have := pearson_round_scale (a := -2 ^ k) (neg_ne_zero.mpr hk.ne') (fun x => by rw [neg_mul, b64_neg, b64_zpow, neg_mul]) minp x y hl h
    rwa [if_neg (by linarith)] at this

theorem rankSum_float (h : Rounding fl) (n : Nat) (x y : List ℝ) : fl (rankSum fl n x y) = rankSum fl n x y := by
  unfold rankSum
  generalize List.zipWith _ x y = l
  cases l using List.reverseRecOn with
  | nil => exact h.zero
  | append_singleton l a => rw [List.foldl_append]; exact h.idem _

theorem rankSum_nonneg (h : Rounding fl) (n : Nat) (x : List ℝ) : 0 ≤ rankSum fl n x x := by
  unfold rankSum
  rw [List.zipWith_self]
  have : ∀ (l : List ℝ) (s : ℝ), 0 ≤ s → 0 ≤ (l.map fun a => fl (fl (a - (n + 1 : ℝ) / 2) * fl (a - (n + 1 : ℝ) / 2))).foldl (fun s p => fl (s + p)) s := by
    intro l
    induction l with
    | nil => intro s hs; exact hs
    | cons a l ih => intro s hs; exact ih _ (h.nonneg (add_nonneg hs (h.nonneg (mul_self_nonneg _))))
  exact this x 0 le_rfl

/-- The columns of the table consist of floats. -/
def FloatTable (fl : ℝ → ℝ) (m : Table) : Prop := ∀ i j r, m.at_ i j = .fin r → fl r = r

theorem complete_floats {x y : List XF} (hx : ∀ r, .fin r ∈ x → fl r = r) (hy : ∀ r, .fin r ∈ y → fl r = r) : Floats fl (complete x y) := by
  intro p hp
  rw [complete_pairs] at hp
  unfold pairs at hp
  obtain ⟨⟨a, b⟩, hab, he⟩ := List.mem_filterMap.mp hp
  cases a <;> cases b <;> simp at he
  subst he
  exact ⟨hx _ (List.of_mem_zip hab).1, hy _ (List.of_mem_zip hab).2⟩

theorem FloatTable.col {m : Table} (h : FloatTable fl m) (j : Nat) : ∀ r, .fin r ∈ m.col j → fl r = r := by
  intro r hr
  obtain ⟨i, -, hi⟩ := List.mem_map.mp hr
  exact h i j r hi

/-- C102. With rounding the correlation matrix of a table of floats is exactly symmetric and its diagonal is exactly 1 or `nan`, for
Pearson's and Spearman's correlation. -/
theorem corr_round_diag {m : Table} (hm : FloatTable b64 m) (minp : Int) (s : String) :
    (∀ i j, (pdCorrR b64 minp m s).at_ i j = (pdCorrR b64 minp m s).at_ j i) ∧
    ∀ i, (pdCorrR b64 minp m s).at_ i i = .nan ∨ (pdCorrR b64 minp m s).at_ i i = .fin 1 := by
  refine ⟨fun i j => ?_, fun i => ?_⟩
  · unfold pdCorrR
    dsimp only
    rw [max_comm, min_comm]
  · unfold pdCorrR
    dsimp only
    rw [max_self, min_self]
    split
    · refine (pearson_round_power 0 minp _ _ (complete_floats (hm.col i) (hm.col i))).1 fun p hp => ?_
      rw [zpow_zero, one_mul, complete_self _ p hp]
    · unfold spearmanR
      dsimp only
      have e : (complete (m.col i) (m.col i)).map (·.1) = (complete (m.col i) (m.col i)).map (·.2) :=
        List.map_congr_left fun p hp => complete_self _ p hp
      rw [e, b64_sqrt_sq (rankSum_float b64_rounding _ _ _), abs_of_nonneg (rankSum_nonneg b64_rounding _ _)]
      split
      · exact .inl rfl
      split
      · exact .inl rfl
      · rename_i hz
        right
        rw [div_self hz, b64_rounding.one]

theorem pearson_kind (fl : ℝ → ℝ) (minp : Int) (x y : List XF) : pearsonR fl minp x y = .nan ∨ ∃ r : ℝ, |r| ≤ 1 ∧ pearsonR fl minp x y = .fin r := by
  unfold pearsonR
  dsimp only
  split
  · exact .inl rfl
  split
  · exact .inl rfl
  · refine .inr ⟨_, ?_, rfl⟩
    rw [clamp_eq]
    exact abs_le.mpr (clampR_mem _)

theorem corr_kind (fl : ℝ → ℝ) (minp : Int) (m : Table) (s : String) (i j : Nat) :
    (pdCorrR fl minp m s).at_ i j = .nan ∨ ∃ r : ℝ, (pdCorrR fl minp m s).at_ i j = .fin r := by
  unfold pdCorrR
  dsimp only
  split
  · rcases pearson_kind fl minp (m.col (max i j)) (m.col (min i j)) with h | ⟨r, -, h⟩
    · exact .inl h
    · exact .inr ⟨r, h⟩
  · unfold spearmanR
    dsimp only
    split
    · exact .inl rfl
    split
    · exact .inl rfl
    · exact .inr ⟨_, rfl⟩

/-- C102. The distance matrix of an array of floats is refused exactly if a correlation is `nan`: the exact comparison of the diagonal
with 1 does no harm to matrices computed by pandas, unlike to those of `cov_to_cor` (`cor_round_rejected`). -/
theorem corr_round_accepted {m : Table} (hm : FloatTable b64 m) (hc : 2 ≤ m.cols) (minp : Int) {s method : String}
    (h1 : s = "pearson" ∨ s = "spearman") {meth : Method} (hme : parseMethod method = some meth) :
    (∃ r, corrDistanceMatrix (pdCorrR b64 minp) none (.array m) s method = .ok r) ↔
      ∀ i j, i < m.cols → j < m.cols → (pdCorrR b64 minp m s).at_ i j ≠ .nan := by
  rw [(corrDistanceMatrix_eq h1 hme).2 m rfl hc rfl, array_ok_iff]
  obtain ⟨hs, hd⟩ := corr_round_diag hm minp s
  constructor
  · rintro ⟨-, h, -⟩ i j hi hj hn
    have := h i j hi hj
    rw [hn] at this
    exact this
  · intro h
    refine ⟨rfl, fun i j hi hj => ?_, fun i hi => (hd i).resolve_left (h i i hi hi)⟩
    rw [hs j i]
    rcases corr_kind b64 minp m s i j with hn | ⟨x, hx⟩
    · exact absurd hn (h i j hi hj)
    · rw [hx]
      unfold isClose
      dsimp only
      rw [sub_self, abs_zero]
      positivity

/-! ### `nan` with rounding -/

theorem welford_constant (h : Rounding fl) {v : ℝ} (hv : fl v = v) {l : List (ℝ × ℝ)} (hl : ∀ p ∈ l, p.1 = v) :
    (l ≠ [] → (welford fl l).mx = v) ∧ (welford fl l).sx = 0 := by
  induction l using List.reverseRecOn with
  | nil => exact ⟨fun h => absurd rfl h, rfl⟩
  | append_singleton l p ih =>
    obtain ⟨i1, i2⟩ := ih fun q hq => hl q (List.mem_append_left _ hq)
    have hp := hl p (List.mem_append_right _ (List.mem_singleton.mpr rfl))
    rw [welford_snoc]
    have key : (Welford.step fl (welford fl l) p).mx = v := by
      unfold Welford.step
      dsimp only
      by_cases e : l = []
      · subst e
        simp [welford, hp, hv, h.one]
      · rw [i1 e, hp, sub_self, h.zero, mul_zero, h.zero, add_zero, hv]
    refine ⟨fun _ => key, ?_⟩
    have : (Welford.step fl (welford fl l) p).sx = fl ((welford fl l).sx +
        fl (fl (p.1 - (Welford.step fl (welford fl l) p).mx) * fl (p.1 - (welford fl l).mx))) := rfl
    rw [this, key, hp, sub_self, h.zero, zero_mul, h.zero, i2, add_zero, h.zero]

/-- C102. A column that is constant on the common rows has the correlation `nan` also with rounding: the recurrence finds its mean
exactly, unlike `np.std` (`constant_std_positive`). -/
theorem pearson_round_constant (h : Rounding fl) {v : ℝ} (hv : fl v = v) (minp : Int) (x y : List XF)
    (hc : ∀ p ∈ complete x y, p.1 = v) : pearsonR fl minp x y = .nan := by
  unfold pearsonR
  dsimp only
  split
  · rfl
  · rw [(welford_constant h hv hc).2, zero_mul, h.zero, Real.sqrt_zero, if_pos h.zero]

/-- The next two floats after 1. -/
noncomputable def near : ℝ × ℝ := (1 + 1 / 2 ^ 52, 1 + 2 / 2 ^ 52)

theorem near_eq : near.1 = ((2 ^ 52 + 1 : ℤ) : ℝ) * 2 ^ (-52 : ℤ) ∧ near.2 = ((2 ^ 52 + 2 : ℤ) : ℝ) * 2 ^ (-52 : ℤ) := by
  unfold near
  norm_num [zpow_neg]

theorem near_floats : b64 near.1 = near.1 ∧ b64 near.2 = near.2 := by
  rw [near_eq.1, near_eq.2]
  exact ⟨b64_exact (by norm_num) _, b64_exact (by norm_num) _⟩

theorem b64_ulp : b64 (1 / 2 ^ 52 : ℝ) = 1 / 2 ^ 52 := by
  have := b64_exact (m := 1) (by norm_num) (-52)
  norm_num [zpow_neg] at this
  norm_num
  exact this

theorem b64_half : b64 (1 / 2 : ℝ) = 1 / 2 := by rw [b64_rounding.half, b64_rounding.one]

/-- The mean of the two floats is halfway between them and rounds to the second. -/
theorem near_mean : b64 (near.1 + 1 / 2 * (1 / 2 ^ 52)) = near.2 := by
  have := b64_tie (k := 2 ^ 52 + 1) (e := -52) (by norm_num) (by norm_num) (by decide)
  rw [near_eq.2]
  have e : near.1 + 1 / 2 * (1 / 2 ^ 52) = (((2 ^ 52 + 1 : ℤ) : ℝ) + 1 / 2) * 2 ^ (-52 : ℤ) := by
    unfold near
    norm_num [zpow_neg]
  rw [e, this]
  norm_num

theorem near_sub : near.2 - near.1 = 1 / 2 ^ 52 := by unfold near; norm_num

theorem welford_two (h : Rounding fl) {a b : ℝ} (ha : fl a = a) (q : ℝ × ℝ → ℝ) :
    (welford fl [(a, q (a, 0)), (b, q (b, 0))]).sx = fl (fl (fl (b - fl (a + fl (fl (1 / (2 : ℕ)) * fl (b - a)))) * fl (b - a))) := by
  simp [welford, Welford.step, h.one, h.zero, ha]

theorem welford_near (q : ℝ × ℝ → ℝ) : (welford b64 [(near.1, q (near.1, 0)), (near.2, q (near.2, 0))]).sx = 0 ∧
    (welford b64 [(near.2, q (near.2, 0)), (near.1, q (near.1, 0))]).sx ≠ 0 := by
  have h := b64_rounding
  have hh : b64 (1 / ((2 : ℕ) : ℝ)) = 1 / 2 := by push_cast; exact b64_half
  have h1 : b64 (1 / 2 * (1 / 2 ^ 52 : ℝ)) = 1 / 2 * (1 / 2 ^ 52) := by
    rw [one_div_mul_eq_div, h.half, b64_ulp]
  constructor
  · rw [welford_two h near_floats.1, near_sub, b64_ulp, hh, h1, near_mean, sub_self, h.zero, zero_mul, h.zero, h.zero]
  · rw [welford_two h near_floats.2]
    have e : near.1 - near.2 = -(1 / 2 ^ 52) := by rw [← near_sub]; ring
    have e2 : near.2 + -(1 / 2 * (1 / 2 ^ 52)) = near.1 + 1 / 2 * (1 / 2 ^ 52) := by unfold near; norm_num
    have h2 : b64 (1 / 2 * -(1 / 2 ^ 52 : ℝ)) = -(1 / 2 * (1 / 2 ^ 52)) := by rw [mul_neg, h.neg, h1]
    rw [e, h.neg, b64_ulp, hh, h2, e2, near_mean, e, h.neg, b64_ulp, neg_mul_neg, ne_eq, h.eq_zero, h.eq_zero]
    norm_num

/-- C102. With rounding a column that is not constant can have the correlation `nan`, even with itself, and whether it does depends on
the order of the rows: of two neighbouring floats the correlation is `nan` in one order and 1 in the other. Without rounding the order
does not matter (`corr_matrix_rows`). -/
theorem pearson_round_order : near.1 ≠ near.2 ∧ b64 near.1 = near.1 ∧ b64 near.2 = near.2 ∧
    pearsonR b64 1 [.fin near.1, .fin near.2] [.fin near.1, .fin near.2] = .nan ∧
    pearsonR b64 1 [.fin near.2, .fin near.1] [.fin near.2, .fin near.1] = .fin 1 := by
  have h := b64_rounding
  refine ⟨fun e => ?_, near_floats.1, near_floats.2, ?_, ?_⟩
  · have := near_sub
    rw [e, sub_self] at this
    norm_num at this
  · unfold pearsonR
    have hc : complete [.fin near.1, .fin near.2] [.fin near.1, .fin near.2] = [(near.1, near.1), (near.2, near.2)] := rfl
    rw [hc]
    dsimp only
    have z : (welford b64 [(near.1, near.1), (near.2, near.2)]).sx = 0 := (welford_near (·.1)).1
    rw [z, zero_mul, h.zero, Real.sqrt_zero, if_pos h.zero]
    split <;> rfl
  · have hc : complete [.fin near.2, .fin near.1] [.fin near.2, .fin near.1] = [(near.2, near.2), (near.1, near.1)] := rfl
    have hfl : Floats b64 (complete [.fin near.2, .fin near.1] [.fin near.2, .fin near.1]) := by
      rw [hc]
      intro p hp
      simp only [List.mem_cons, List.not_mem_nil, or_false] at hp
      rcases hp with rfl | rfl
      · exact ⟨near_floats.2, near_floats.2⟩
      · exact ⟨near_floats.1, near_floats.1⟩
    have hp := (pearson_round_power 0 1 _ _ hfl).1 fun p hp => by rw [zpow_zero, one_mul]; exact (complete_self _ p hp).symm
    refine hp.resolve_left fun hn => ?_
    obtain ⟨-, w1, w2⟩ := welford_scale (fl := b64) 1 (fun x => by rw [one_mul, one_mul]) (l := complete [.fin near.2, .fin near.1] [.fin near.2, .fin near.1])
      fun p hp => by rw [one_mul]; exact (complete_self _ p hp).symm
    unfold pearsonR at hn
    dsimp only at hn
    rw [w1, (welford_inv h hfl).1] at hn
    rw [one_mul, one_mul, b64_sqrt_sq (welford_inv h hfl).2.2.2.2.1, abs_of_nonneg (welford_inv h hfl).2.2.1] at hn
    rw [if_neg (by rw [hc]; decide)] at hn
    rw [if_neg (by rw [hc]; exact (welford_near (·.1)).2)] at hn
    cases hn

end Verif.Round
