import Verif.Model.Round
import Verif.Spec.Round
import Mathlib.Algebra.Order.Field.Power
import Mathlib.Tactic.Linarith
import Mathlib.Tactic.Positivity
import Mathlib.Tactic.NormNum
import Mathlib.Tactic.FieldSimp
import Mathlib.Tactic.Ring

/-!
# Rounding to 64-bit floats is a rounding
-/

namespace Verif.Round

theorem rne_cases (x : ℝ) : rne x = ⌊x⌋ ∨ rne x = ⌊x⌋ + 1 := by
  unfold rne
  split_ifs <;> simp

theorem rne_int (n : ℤ) : rne n = n := by
  unfold rne
  rw [Int.fract_intCast, if_pos (by norm_num), Int.floor_intCast]

theorem abs_rne_sub (x : ℝ) : |(rne x : ℝ) - x| ≤ 1 / 2 := by
  have h0 := Int.fract_nonneg x
  have h1 := Int.fract_lt_one x
  have h2 := Int.floor_add_fract x
  unfold rne
  rw [abs_le]
  split_ifs <;> push_cast <;> constructor <;> linarith

theorem rne_mono : Monotone rne := by
  intro x y h
  rcases (Int.floor_le_floor h).lt_or_eq with hlt | heq
  · have h1 : rne x ≤ ⌊x⌋ + 1 := by rcases rne_cases x with e | e <;> omega
    have h2 : ⌊y⌋ ≤ rne y := by rcases rne_cases y with e | e <;> omega
    omega
  · have hf : Int.fract x ≤ Int.fract y := by
      rw [Int.fract, Int.fract, heq]
      linarith
    unfold rne
    rw [heq]
    split_ifs <;> first | exact le_rfl | omega | (exfalso; linarith)

theorem rne_neg (x : ℝ) : rne (-x) = -rne x := by
  by_cases hx : Int.fract x = 0
  · obtain ⟨n, rfl⟩ : ∃ n : ℤ, x = n := ⟨⌊x⌋, by have := Int.floor_add_fract x; rw [hx] at this; linarith⟩
    rw [← Int.cast_neg, rne_int, rne_int]
  · have hpos : 0 < Int.fract x := lt_of_le_of_ne (Int.fract_nonneg x) (Ne.symm hx)
    have hfl : ⌊-x⌋ = -⌊x⌋ - 1 := by
      rw [Int.floor_eq_iff]
      have h1 := Int.floor_add_fract x
      have h2 := Int.fract_lt_one x
      push_cast
      constructor <;> linarith
    have hfr : Int.fract (-x) = 1 - Int.fract x := by
      rw [Int.fract, hfl]
      have h1 := Int.floor_add_fract x
      push_cast
      linarith
    have hpar : Even (-⌊x⌋ - 1) ↔ ¬ Even ⌊x⌋ := by
      rw [Int.even_sub, even_neg]
      simp
    unfold rne
    rw [hfl, hfr]
    by_cases h1 : Int.fract x < 1 / 2
    · rw [if_neg (by linarith), if_pos (by linarith), if_pos h1]
      omega
    · by_cases h2 : 1 / 2 < Int.fract x
      · rw [if_pos (by linarith), if_neg h1, if_pos h2]
        omega
      · rw [if_neg (by linarith), if_neg (by linarith), if_neg h1, if_neg h2]
        by_cases h3 : Even ⌊x⌋
        · rw [if_neg (by rw [hpar]; simpa using h3), if_pos h3]; omega
        · rw [if_pos (hpar.mpr h3), if_neg h3]; omega

/-! ### The exponent -/

theorem ulp_bounds {x : ℝ} (hx : x ≠ 0) : (2 : ℝ) ^ 52 * 2 ^ ulpExp x ≤ |x| ∧ |x| < 2 ^ 53 * 2 ^ ulpExp x := by
  have h0 : 0 < |x| := abs_pos.mpr hx
  have h1 := Int.zpow_log_le_self (b := 2) one_lt_two h0
  have h2 := Int.lt_zpow_succ_log_self (b := 2) one_lt_two |x|
  unfold ulpExp
  have e1 : (2 : ℝ) ^ 52 * 2 ^ (Int.log 2 |x| - 52) = 2 ^ Int.log 2 |x| := by
    rw [← zpow_natCast, ← zpow_add₀ two_ne_zero]
    congr 1
    push_cast
    ring
  have e2 : (2 : ℝ) ^ 53 * 2 ^ (Int.log 2 |x| - 52) = 2 ^ (Int.log 2 |x| + 1) := by
    rw [← zpow_natCast, ← zpow_add₀ two_ne_zero]
    congr 1
    push_cast
    ring
  rw [Nat.cast_ofNat] at h1 h2
  rw [e1, e2]
  exact ⟨h1, h2⟩

theorem ulp_unique {x : ℝ} {e : ℤ} (h1 : (2 : ℝ) ^ 52 * 2 ^ e ≤ |x|) (h2 : |x| < 2 ^ 53 * 2 ^ e) : ulpExp x = e := by
  have h0 : 0 < |x| := lt_of_lt_of_le (by positivity) h1
  have e1 : (2 : ℝ) ^ 52 * 2 ^ e = 2 ^ (e + 52) := by
    rw [← zpow_natCast, ← zpow_add₀ two_ne_zero]
    congr 1
    push_cast
    ring
  have e2 : (2 : ℝ) ^ 53 * 2 ^ e = 2 ^ (e + 53) := by
    rw [← zpow_natCast, ← zpow_add₀ two_ne_zero]
    congr 1
    push_cast
    ring
  rw [e1] at h1
  rw [e2] at h2
  have g1 : e + 52 ≤ Int.log 2 |x| := (Int.zpow_le_iff_le_log one_lt_two h0).mp (by rw [Nat.cast_ofNat]; exact h1)
  have g2 : Int.log 2 |x| < e + 53 := (Int.lt_zpow_iff_log_lt one_lt_two h0).mp (by rw [Nat.cast_ofNat]; exact h2)
  unfold ulpExp
  omega

theorem ulp_neg (x : ℝ) : ulpExp (-x) = ulpExp x := by rw [ulpExp, abs_neg, ulpExp]

/-! ### `b64` -/

theorem b64_zero : b64 0 = 0 := by
  have : rne 0 = 0 := by simpa using rne_int 0
  rw [b64, zero_div, this, Int.cast_zero, zero_mul]

theorem b64_neg (x : ℝ) : b64 (-x) = -b64 x := by
  unfold b64
  rw [ulp_neg, neg_div, rne_neg, Int.cast_neg, neg_mul]

theorem b64_rel (x : ℝ) : |b64 x - x| ≤ u64 * |x| := by
  by_cases hx : x = 0
  · rw [hx, b64_zero]; simp
  have hp : (0 : ℝ) < 2 ^ ulpExp x := by positivity
  have h1 := abs_rne_sub (x / 2 ^ ulpExp x)
  have h2 := (ulp_bounds hx).1
  have e : b64 x - x = (rne (x / 2 ^ ulpExp x) - x / 2 ^ ulpExp x) * 2 ^ ulpExp x := by
    unfold b64
    rw [sub_mul, div_mul_cancel₀ _ hp.ne']
  rw [e, abs_mul, abs_of_pos hp]
  calc _ ≤ 1 / 2 * (2 : ℝ) ^ ulpExp x := mul_le_mul_of_nonneg_right h1 hp.le
    _ = u64 * (2 ^ 52 * 2 ^ ulpExp x) := by unfold u64; ring
    _ ≤ _ := mul_le_mul_of_nonneg_left h2 (by unfold u64; positivity)

/-- The significand of a positive number has 53 bits. -/
theorem rne_range {x : ℝ} (hx : 0 < x) : (2 : ℤ) ^ 52 ≤ rne (x / 2 ^ ulpExp x) ∧ rne (x / 2 ^ ulpExp x) ≤ 2 ^ 53 := by
  have hp : (0 : ℝ) < 2 ^ ulpExp x := by positivity
  obtain ⟨h1, h2⟩ := ulp_bounds hx.ne'
  rw [abs_of_pos hx] at h1 h2
  constructor
  · have := rne_mono (show (((2 : ℤ) ^ 52 : ℤ) : ℝ) ≤ x / 2 ^ ulpExp x by rw [le_div_iff₀ hp, Int.cast_pow, Int.cast_ofNat]; exact h1)
    rwa [rne_int] at this
  · have := rne_mono (show x / 2 ^ ulpExp x ≤ (((2 : ℤ) ^ 53 : ℤ) : ℝ) by rw [div_le_iff₀ hp, Int.cast_pow, Int.cast_ofNat]; exact h2.le)
    rwa [rne_int] at this

theorem b64_pos {x : ℝ} (hx : 0 < x) : 0 < b64 x := by
  have h := (rne_range hx).1
  have : (0 : ℝ) < rne (x / 2 ^ ulpExp x) := by
    have : (0 : ℤ) < rne (x / 2 ^ ulpExp x) := lt_of_lt_of_le (by positivity) h
    exact_mod_cast this
  unfold b64
  positivity

theorem b64_mono_pos {x y : ℝ} (hx : 0 < x) (h : x ≤ y) : b64 x ≤ b64 y := by
  have hy : 0 < y := hx.trans_le h
  have hpx : (0 : ℝ) < 2 ^ ulpExp x := by positivity
  have hpy : (0 : ℝ) < 2 ^ ulpExp y := by positivity
  have hle : ulpExp x ≤ ulpExp y := by
    unfold ulpExp
    have := Int.log_mono_right (b := 2) (abs_pos.mpr hx.ne') (by rwa [abs_of_pos hx, abs_of_pos hy] : |x| ≤ |y|)
    omega
  unfold b64
  rcases hle.lt_or_eq with hlt | heq
  · have h1 : (rne (x / 2 ^ ulpExp x) : ℝ) ≤ 2 ^ 53 := by exact_mod_cast (rne_range hx).2
    have h2 : (2 : ℝ) ^ 52 ≤ rne (y / 2 ^ ulpExp y) := by exact_mod_cast (rne_range hy).1
    have h3 : (2 : ℝ) ^ (ulpExp x + 1) ≤ 2 ^ ulpExp y := zpow_le_zpow_right₀ one_le_two (by omega)
    rw [zpow_add_one₀ two_ne_zero] at h3
    calc _ ≤ (2 : ℝ) ^ 53 * 2 ^ ulpExp x := mul_le_mul_of_nonneg_right h1 hpx.le
      _ = 2 ^ 52 * (2 ^ ulpExp x * 2) := by ring
      _ ≤ 2 ^ 52 * 2 ^ ulpExp y := mul_le_mul_of_nonneg_left h3 (by positivity)
      _ ≤ _ := mul_le_mul_of_nonneg_right h2 hpy.le
  · rw [← heq]
    refine mul_le_mul_of_nonneg_right ?_ hpx.le
    exact_mod_cast rne_mono (div_le_div_of_nonneg_right h hpx.le)

theorem b64_mono : Monotone b64 := by
  intro x y h
  rcases lt_trichotomy x 0 with hx | hx | hx
  · rcases lt_trichotomy y 0 with hy | hy | hy
    · have := b64_mono_pos (neg_pos.mpr hy) (neg_le_neg h)
      rw [b64_neg, b64_neg] at this
      linarith
    · have := b64_pos (neg_pos.mpr hx)
      rw [b64_neg] at this
      rw [hy, b64_zero]
      linarith
    · have := b64_pos (neg_pos.mpr hx)
      rw [b64_neg] at this
      linarith [b64_pos hy]
  · rcases (hx ▸ h).lt_or_eq with hy | hy
    · rw [hx, b64_zero]; exact (b64_pos hy).le
    · rw [hx, ← hy]
  · exact b64_mono_pos hx h

/-- Numbers with a significand of at most 53 bits are floats. -/
theorem b64_exact {m : ℤ} (hm : |m| ≤ 2 ^ 53) (e : ℤ) : b64 (m * 2 ^ e) = m * 2 ^ e := by
  by_cases h0 : m = 0
  · rw [h0, Int.cast_zero, zero_mul, b64_zero]
  have hp : (0 : ℝ) < 2 ^ e := by positivity
  have hx : (m : ℝ) * 2 ^ e ≠ 0 := mul_ne_zero (by exact_mod_cast h0) hp.ne'
  have hmr : |(m : ℝ)| ≤ 2 ^ 53 := by exact_mod_cast hm
  obtain ⟨h1, -⟩ := ulp_bounds hx
  rw [abs_mul, abs_of_pos hp] at h1
  generalize hE : ulpExp ((m : ℝ) * 2 ^ e) = E at h1
  have hpE : (0 : ℝ) < 2 ^ E := by positivity
  have key : ∃ k : ℤ, (m : ℝ) * 2 ^ e / 2 ^ E = k := by
    by_cases hle : E ≤ e
    · refine ⟨m * 2 ^ (e - E).toNat, ?_⟩
      push_cast
      rw [mul_div_assoc, ← zpow_sub₀ two_ne_zero, ← zpow_natCast, Int.toNat_of_nonneg (by omega)]
    · have h2 : (2 : ℝ) ^ 52 * 2 ^ E ≤ 2 ^ 53 * 2 ^ e := h1.trans (mul_le_mul_of_nonneg_right hmr hp.le)
      have h3 : (2 : ℝ) ^ E ≤ 2 ^ (e + 1) := by
        rw [zpow_add_one₀ two_ne_zero]
        nlinarith
      have h4 : E ≤ e + 1 := (zpow_le_zpow_iff_right₀ one_lt_two).mp h3
      have hE1 : E = e + 1 := by omega
      rw [hE1, zpow_add_one₀ two_ne_zero] at h1
      have h5 : (2 : ℝ) ^ 53 ≤ |(m : ℝ)| := by
        have : (2 : ℝ) ^ 53 * 2 ^ e ≤ |(m : ℝ)| * 2 ^ e := by linarith
        exact le_of_mul_le_mul_right this hp
      have h6 : |m| = 2 ^ 53 := le_antisymm hm (by exact_mod_cast h5)
      rw [hE1, zpow_add_one₀ two_ne_zero]
      rcases (abs_eq (by positivity)).mp h6 with h | h
      · exact ⟨2 ^ 52, by rw [h]; push_cast; field_simp; norm_num⟩
      · exact ⟨-2 ^ 52, by rw [h]; push_cast; field_simp; norm_num⟩
  obtain ⟨k, hk⟩ := key
  unfold b64
  rw [hE, hk, rne_int, ← hk, div_mul_cancel₀ _ hpE.ne']

theorem b64_idem (x : ℝ) : b64 (b64 x) = b64 x := by
  rcases lt_trichotomy x 0 with hx | hx | hx
  · have h := rne_range (neg_pos.mpr hx)
    have : b64 (-x) = rne (-x / 2 ^ ulpExp (-x)) * 2 ^ ulpExp (-x) := rfl
    have e : b64 (b64 (-x)) = b64 (-x) := by
      rw [this]
      exact b64_exact (by rw [abs_of_nonneg (le_trans (by positivity) h.1)]; exact h.2) _
    rw [b64_neg, b64_neg] at e
    linarith
  · rw [hx, b64_zero, b64_zero]
  · have h := rne_range hx
    exact b64_exact (by rw [abs_of_nonneg (le_trans (by positivity) h.1)]; exact h.2) _

theorem b64_two (x : ℝ) : b64 (2 * x) = 2 * b64 x := by
  by_cases hx : x = 0
  · rw [hx, mul_zero, b64_zero, mul_zero]
  have h := ulp_bounds hx
  have hE : ulpExp (2 * x) = ulpExp x + 1 := by
    apply ulp_unique
    · rw [zpow_add_one₀ two_ne_zero, abs_mul, abs_two]; linarith [h.1]
    · rw [zpow_add_one₀ two_ne_zero, abs_mul, abs_two]; linarith [h.2]
  have hp : (0 : ℝ) < 2 ^ ulpExp x := by positivity
  unfold b64
  rw [hE, zpow_add_one₀ two_ne_zero, show 2 * x / (2 ^ ulpExp x * 2) = x / 2 ^ ulpExp x by field_simp]
  ring

/-- Rounding to 64-bit floats meets the specification. -/
theorem b64_rounding : Rounding b64 where
  mono := b64_mono
  neg := b64_neg
  idem := b64_idem
  rel := b64_rel
  int := fun n hn => by simpa using b64_exact hn 0
  two := b64_two

/-- So does exact arithmetic. -/
theorem id_rounding : Rounding id where
  mono := monotone_id
  neg := fun _ => rfl
  idem := fun _ => rfl
  rel := fun x => by simp only [id, sub_self, abs_zero]; unfold u64; positivity
  int := fun _ _ => rfl
  two := fun _ => rfl

/-- How to compute a rounded value: the nearest number with 53 bits. -/
theorem b64_eq {x : ℝ} {m : ℤ} {e : ℤ} (h1 : (2 : ℝ) ^ 52 * 2 ^ e ≤ x) (h2 : x < 2 ^ 53 * 2 ^ e) (h3 : |x - m * 2 ^ e| < 2 ^ e / 2) :
    b64 x = m * 2 ^ e := by
  have hp : (0 : ℝ) < 2 ^ e := by positivity
  have hx : 0 < x := lt_of_lt_of_le (by positivity) h1
  have hE : ulpExp x = e := ulp_unique (by rwa [abs_of_pos hx]) (by rwa [abs_of_pos hx])
  have hr : rne (x / 2 ^ e) = m := by
    have h4 := abs_rne_sub (x / 2 ^ e)
    have h5 : |x / 2 ^ e - m| < 1 / 2 := by
      have : x / 2 ^ e - m = (x - m * 2 ^ e) / 2 ^ e := by field_simp
      rw [this, abs_div, abs_of_pos hp, div_lt_iff₀ hp]
      linarith
    have h6 : |((rne (x / 2 ^ e) - m : ℤ) : ℝ)| < 1 := by
      push_cast
      calc _ = |((rne (x / 2 ^ e) : ℝ) - x / 2 ^ e) + (x / 2 ^ e - m)| := by ring_nf
        _ ≤ _ := abs_add_le _ _
        _ < 1 := by linarith
    have h7 : |rne (x / 2 ^ e) - m| < 1 := by exact_mod_cast h6
    have := abs_lt.mp h7
    omega
  unfold b64
  rw [hE, hr]

/-- A tie goes to the even significand. -/
theorem b64_tie {k e : ℤ} (h1 : 2 ^ 52 ≤ k) (h2 : k < 2 ^ 53) (hk : ¬ Even k) : b64 ((k + 1 / 2) * 2 ^ e) = ((k + 1 : ℤ) : ℝ) * 2 ^ e := by
  have hp : (0 : ℝ) < 2 ^ e := by positivity
  have h1' : (2 : ℝ) ^ 52 ≤ k := by exact_mod_cast h1
  have h2' : (k : ℝ) + 1 ≤ 2 ^ 53 := by exact_mod_cast h2
  have hx : 0 < ((k : ℝ) + 1 / 2) * 2 ^ e := mul_pos (by linarith [pow_pos (two_pos (α := ℝ)) 52]) hp
  have hE : ulpExp (((k : ℝ) + 1 / 2) * 2 ^ e) = e := by
    apply ulp_unique <;> rw [abs_of_pos hx]
    · exact mul_le_mul_of_nonneg_right (by linarith) hp.le
    · exact mul_lt_mul_of_pos_right (by linarith) hp
  have hfl : ⌊(k : ℝ) + 1 / 2⌋ = k := by rw [Int.floor_eq_iff]; constructor <;> linarith
  have hfr : Int.fract ((k : ℝ) + 1 / 2) = 1 / 2 := by rw [Int.fract, hfl]; ring
  unfold b64
  rw [hE, mul_div_assoc, div_self hp.ne', mul_one]
  unfold rne
  rw [hfl, hfr, if_neg (lt_irrefl _), if_neg (lt_irrefl _), if_neg hk]

end Verif.Round
