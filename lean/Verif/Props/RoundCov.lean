import Verif.Props.RoundDist
import Verif.Lemmas.Cov

/-!
# C99, continued: correlation matrices computed with rounding
-/

namespace Verif.Round

open Verif.Dist (Method sqrtO clipX)
open Verif.Cov (Mat IsCov)
open Verif.Sim (clip1)

variable {fl : ℝ → ℝ} {n : Nat} {C : Mat n} {reg : ℝ} {i j : Fin n}

theorem clip1_mem (x : ℝ) : |clip1 x| ≤ 1 :=
  abs_le.mpr ⟨le_max_left _ _, max_le (by norm_num) (min_le_left _ _)⟩

theorem clip1_of_mem {x : ℝ} (h : |x| ≤ 1) : clip1 x = x := by
  obtain ⟨h1, h2⟩ := abs_le.mp h
  unfold clip1
  rw [min_eq_right h2, max_eq_right h1]

theorem clip1_lip (x y : ℝ) : |clip1 x - clip1 y| ≤ |x - y| := by
  unfold clip1
  refine (abs_max_sub_max_le_max _ _ _ _).trans ?_
  rw [sub_self, abs_zero]
  refine max_le (abs_nonneg _) ((abs_min_sub_min_le_max _ _ _ _).trans ?_)
  rw [sub_self, abs_zero]
  exact max_le (abs_nonneg _) le_rfl

/-- C99. With rounding the correlations are still between -1 and 1, and symmetric for a symmetric matrix. -/
theorem cor_round_range (fl : ℝ → ℝ) (C : Mat n) (reg : ℝ) :
    (∀ i j, |(covToCorR fl C reg).1 i j| ≤ 1) ∧ (C.IsSymm → (covToCorR fl C reg).1.IsSymm) := by
  refine ⟨fun i j => clip1_mem _, fun hC => ?_⟩
  ext i j
  show clip1 _ = clip1 _
  rw [hC.apply i j, mul_comm]

/-- The rounded product of two rounded deviations. -/
theorem outer_bounds (h : Rounding fl) (hr : 0 < reg) (i j : Fin n) :
    let w := Real.sqrt (max (C i i) reg) * Real.sqrt (max (C j j) reg)
    0 < w ∧ (1 - u64) ^ 3 * w ≤ fl (covStdR fl C reg i * covStdR fl C reg j) ∧
      fl (covStdR fl C reg i * covStdR fl C reg j) ≤ (1 + u64) ^ 3 * w := by
  intro w
  have hu := u64_pos
  have hu' := u64_small
  have hi : 0 < Real.sqrt (max (C i i) reg) := Real.sqrt_pos.mpr (lt_max_of_lt_right hr)
  have hj : 0 < Real.sqrt (max (C j j) reg) := Real.sqrt_pos.mpr (lt_max_of_lt_right hr)
  obtain ⟨a1, a2⟩ := h.bounds hi.le
  obtain ⟨b1, b2⟩ := h.bounds hj.le
  have pi : 0 < covStdR fl C reg i := h.pos hi
  have pj : 0 < covStdR fl C reg j := h.pos hj
  obtain ⟨c1, c2⟩ := h.bounds (mul_pos pi pj).le
  have hv : 0 ≤ 1 - u64 := by linarith
  refine ⟨mul_pos hi hj, ?_, ?_⟩
  · calc (1 - u64) ^ 3 * w = (1 - u64) * (((1 - u64) * Real.sqrt (max (C i i) reg)) * ((1 - u64) * Real.sqrt (max (C j j) reg))) := by
          show _ * (_ * _) = _; ring
      _ ≤ (1 - u64) * (covStdR fl C reg i * covStdR fl C reg j) :=
          mul_le_mul_of_nonneg_left (mul_le_mul a1 b1 (mul_nonneg hv hj.le) pi.le) hv
      _ ≤ _ := c1
  · calc _ ≤ (1 + u64) * (covStdR fl C reg i * covStdR fl C reg j) := c2
      _ ≤ (1 + u64) * (((1 + u64) * Real.sqrt (max (C i i) reg)) * ((1 + u64) * Real.sqrt (max (C j j) reg))) :=
          mul_le_mul_of_nonneg_left (mul_le_mul a2 b2 pj.le (by positivity)) (by linarith)
      _ = (1 + u64) ^ 3 * w := by show _ = _ * (_ * _); ring

/-- A quotient by a number with a relative error of three units. -/
theorem quot_err (h : Rounding fl) {c w w' : ℝ} (hw : 0 < w) (h1 : (1 - u64) ^ 3 * w ≤ w') (h2 : w' ≤ (1 + u64) ^ 3 * w) :
    |fl (c / w') - c / w| ≤ 5 * u64 * |c / w| := by
  have hu := u64_pos
  have hu' := u64_small
  have hw' : 0 < w' := lt_of_lt_of_le (mul_pos (pow_pos (by linarith) 3) hw) h1
  have hq : c / w' = c / w * (w / w') := by field_simp
  have t1 : w / w' ≤ 1 + (3 + 1 / 4) * u64 := by
    rw [div_le_iff₀ hw']
    have : (1 + (3 + 1 / 4) * u64) * ((1 - u64) ^ 3 * w) ≤ (1 + (3 + 1 / 4) * u64) * w' :=
      mul_le_mul_of_nonneg_left h1 (by linarith)
    have g : 1 ≤ (1 + (3 + 1 / 4) * u64) * (1 - u64) ^ 3 := by
      have : (1 + (3 + 1 / 4) * u64) * (1 - u64) ^ 3 - 1 = u64 * (1 / 4 - (3 + 3 / 4 + 3) * u64 + (9 - 1 / 4 ) * u64 ^ 2 - (3 + 1 / 4) * u64 ^ 3) := by ring
      have p : 0 ≤ 1 / 4 - (3 + 3 / 4 + 3) * u64 + (9 - 1 / 4 ) * u64 ^ 2 - (3 + 1 / 4) * u64 ^ 3 := by
        nlinarith [sq_nonneg u64, mul_nonneg (sq_nonneg u64) (by linarith : 0 ≤ 1 / 1000 - u64)]
      nlinarith [mul_nonneg hu.le p]
    nlinarith
  have t2 : 1 - 3 * u64 ≤ w / w' := by
    rw [le_div_iff₀ hw']
    have : (1 - 3 * u64) * w' ≤ (1 - 3 * u64) * ((1 + u64) ^ 3 * w) := mul_le_mul_of_nonneg_left h2 (by linarith)
    have g : (1 - 3 * u64) * (1 + u64) ^ 3 ≤ 1 := by
      have : 1 - (1 - 3 * u64) * (1 + u64) ^ 3 = u64 ^ 2 * (6 + 8 * u64 + 3 * u64 ^ 2) := by ring
      nlinarith [mul_nonneg (sq_nonneg u64) (by positivity : 0 ≤ 6 + 8 * u64 + 3 * u64 ^ 2)]
    nlinarith
  have r := h.rel (c / w')
  have a : |c / w' - c / w| ≤ (3 + 1 / 4) * u64 * |c / w| := by
    rw [hq, show c / w * (w / w') - c / w = c / w * (w / w' - 1) by ring, abs_mul, mul_comm]
    refine mul_le_mul_of_nonneg_right ?_ (abs_nonneg _)
    rw [abs_le]
    constructor <;> linarith
  have b : |c / w'| ≤ (1 + (3 + 1 / 4) * u64) * |c / w| := by
    rw [hq, abs_mul, mul_comm]
    refine mul_le_mul_of_nonneg_right ?_ (abs_nonneg _)
    rw [abs_of_pos (div_pos hw hw')]
    exact t1
  calc |fl (c / w') - c / w| = |(fl (c / w') - c / w') + (c / w' - c / w)| := by ring_nf
    _ ≤ _ := abs_add_le _ _
    _ ≤ u64 * ((1 + (3 + 1 / 4) * u64) * |c / w|) + (3 + 1 / 4) * u64 * |c / w| :=
        add_le_add (r.trans (mul_le_mul_of_nonneg_left b hu.le)) a
    _ ≤ _ := by
        have := abs_nonneg (c / w)
        nlinarith [mul_nonneg (mul_nonneg hu.le (by linarith : 0 ≤ 1 / 1000 - u64)) this, mul_nonneg hu.le this]

/-- C99. The correlations differ from the exact ones by at most five units (times the quotient before clipping). -/
theorem cor_round_error (h : Rounding fl) (hr : 0 < reg) (i j : Fin n) :
    |(covToCorR fl C reg).1 i j - (Cov.covToCor C reg).1 i j| ≤
      5 * u64 * |C i j / (Real.sqrt (max (C i i) reg) * Real.sqrt (max (C j j) reg))| := by
  obtain ⟨h0, h1, h2⟩ := outer_bounds (C := C) h hr i j
  exact (clip1_lip _ _).trans (quot_err h h0 h1 h2)

/-- C99. For a covariance matrix with variances from `cov_reg` on: the diagonal of the correlation matrix is at most 1 and differs
from 1 by at most five units. -/
theorem cor_round_diag (h : Rounding fl) (hr : 0 < reg) (hi : reg ≤ C i i) :
    (covToCorR fl C reg).1 i i ≤ 1 ∧ 1 - 5 * u64 ≤ (covToCorR fl C reg).1 i i := by
  have hp : 0 < C i i := hr.trans_le hi
  have := cor_round_error (C := C) h hr i i
  have e : C i i / (Real.sqrt (max (C i i) reg) * Real.sqrt (max (C i i) reg)) = 1 := by
    rw [max_eq_left hi, Real.mul_self_sqrt hp.le, div_self hp.ne']
  have e' : (Cov.covToCor C reg).1 i i = 1 := by
    show clip1 (C i i / (Real.sqrt (max (C i i) reg) * Real.sqrt (max (C i i) reg))) = 1
    rw [e]
    exact clip1_of_mem (by simp)
  rw [e, e', abs_one, mul_one] at this
  exact ⟨(abs_le.mp ((cor_round_range fl C reg).1 i i)).2, by linarith [(abs_le.mp this).1]⟩

/-! ### The diagonal of 64-bit floats -/

/-- Two different positive floats differ by at least `2^-53` of the larger one. -/
theorem b64_gap {v w : ℝ} (hv : b64 v = v) (hw : b64 w = w) (h0 : 0 < v) (h1 : v < w) : v ≤ (1 - u64) * w := by
  have hw0 : 0 < w := h0.trans h1
  have hu := u64_pos
  have hE : ulpExp v ≤ ulpExp w := by
    unfold ulpExp
    have := Int.log_mono_right (b := 2) (abs_pos.mpr h0.ne') (by rw [abs_of_pos h0, abs_of_pos hw0]; exact h1.le : |v| ≤ |w|)
    omega
  have hb := (ulp_bounds h0.ne').2
  rw [abs_of_pos h0] at hb
  have hp : (0 : ℝ) < 2 ^ ulpExp v := by positivity
  unfold b64 at hv hw
  generalize rne (v / 2 ^ ulpExp v) = m at hv
  generalize rne (w / 2 ^ ulpExp w) = m' at hw
  generalize ulpExp v = E at *
  obtain ⟨k, hk⟩ : ∃ k : ℤ, w = k * 2 ^ E := by
    refine ⟨m' * 2 ^ (ulpExp w - E).toNat, ?_⟩
    push_cast
    rw [← zpow_natCast, Int.toNat_of_nonneg (by omega), mul_assoc, ← zpow_add₀ two_ne_zero, sub_add_cancel]
    exact hw.symm
  have hm : m ≤ 2 ^ 53 - 1 := by
    have : (m : ℝ) < 2 ^ 53 := by
      rw [← hv] at hb
      exact lt_of_mul_lt_mul_right hb hp.le
    have : m < 2 ^ 53 := by exact_mod_cast this
    omega
  have hmk : m + 1 ≤ k := by
    have : (m : ℝ) < k := by
      rw [← hv, hk] at h1
      exact lt_of_mul_lt_mul_right h1 hp.le
    have : m < k := by exact_mod_cast this
    omega
  have key : (m : ℝ) ≤ (1 - u64) * k := by
    have hm' : (m : ℝ) ≤ 2 ^ 53 - 1 := by exact_mod_cast hm
    have hmk' : (m : ℝ) + 1 ≤ k := by exact_mod_cast hmk
    have e : u64 * 2 ^ 53 = 1 := by unfold u64; norm_num
    by_cases hk53 : (k : ℝ) ≤ 2 ^ 53
    · nlinarith [mul_le_mul_of_nonneg_left hk53 hu.le]
    · have hu1 := u64_small
      push Not at hk53
      nlinarith [mul_le_mul_of_nonneg_left hk53.le (by linarith : 0 ≤ 1 - u64)]
  rw [← hv, hk, ← mul_assoc]
  exact mul_le_mul_of_nonneg_right key hp.le

/-- The floats below one are at most `1 - 2^-53`. -/
theorem b64_pred {x : ℝ} (hx : b64 x = x) (h1 : x < 1) : x ≤ 1 - u64 := by
  by_cases h0 : 0 < x
  · simpa using b64_gap hx b64_rounding.one h0 h1
  · linarith [u64_small]

/-- C99. With 64-bit floats a distance is zero exactly for a perfect correlation: different assets keep a positive distance. -/
theorem dist_round_zero_iff {x : ℝ} (hf : b64 x = x) (hx : |x| ≤ 1) (meth : Method) :
    distOfR b64 meth (.fin x) = some 0 ↔ if meth = .angular then x = 1 else |x| = 1 := by
  have h := b64_rounding
  obtain ⟨h1, h2⟩ := abs_le.mp hx
  have hs : b64 (Real.sqrt (innerR b64 meth x)) = 0 ↔ innerR b64 meth x = 0 := by
    rw [h.eq_zero, Real.sqrt_eq_zero (innerR_range h meth hx).1]
  rw [(distOfR_fin h meth hx).1, Option.some_inj, hs]
  cases meth with
  | angular =>
    show b64 (b64 (1 - x) / 2) = 0 ↔ x = 1
    rw [h.eq_zero, div_eq_zero_iff, h.eq_zero]
    constructor
    · rintro (e | e) <;> linarith
    · rintro rfl; left; ring
  | absAngular =>
    show b64 (1 - |x|) = 0 ↔ |x| = 1
    rw [h.eq_zero]
    constructor <;> intro e <;> linarith
  | squaredAngular =>
    show b64 (1 - b64 (x ^ 2)) = 0 ↔ |x| = 1
    rw [h.eq_zero, sub_eq_zero]
    constructor
    · intro e
      by_contra hne
      have habs : b64 |x| = |x| := by
        rcases abs_choice x with c | c <;> rw [c]
        · exact hf
        · rw [h.neg, hf]
      have hle := b64_pred habs (lt_of_le_of_ne hx hne)
      have hu := u64_pos
      have hu' := u64_small
      have hsq : x ^ 2 ≤ (1 - u64) ^ 2 := by rw [← sq_abs]; exact pow_le_pow_left₀ (abs_nonneg x) hle 2
      have := (h.bounds (sq_nonneg x)).2
      rw [← e] at this
      have := mul_le_mul_of_nonneg_left hsq (by linarith : 0 ≤ 1 + u64)
      nlinarith [mul_nonneg (sq_nonneg u64) (by linarith : 0 ≤ 1 - u64)]
    · intro e
      rw [← sq_abs, e, one_pow, h.one]

/-- C99. The diagonal entry is exactly 1 if and only if the rounded square of the rounded deviation does not exceed the variance. -/
theorem cor_round_diag_iff (hr : 0 < reg) (hi : reg ≤ C i i) (hf : b64 (C i i) = C i i) :
    (covToCorR b64 C reg).1 i i = 1 ↔ b64 (b64 (Real.sqrt (C i i)) * b64 (Real.sqrt (C i i))) ≤ C i i := by
  have h := b64_rounding
  have hp : 0 < C i i := hr.trans_le hi
  have hs : covStdR b64 C reg i = b64 (Real.sqrt (C i i)) := by unfold covStdR; rw [max_eq_left hi]
  have hsp : 0 < b64 (Real.sqrt (C i i)) := h.pos (Real.sqrt_pos.mpr hp)
  show clip1 (b64 (C i i / b64 (covStdR b64 C reg i * covStdR b64 C reg i))) = 1 ↔ _
  rw [hs]
  have hwp : 0 < b64 (b64 (Real.sqrt (C i i)) * b64 (Real.sqrt (C i i))) := h.pos (mul_pos hsp hsp)
  have hwf := h.idem (b64 (Real.sqrt (C i i)) * b64 (Real.sqrt (C i i)))
  generalize b64 (b64 (Real.sqrt (C i i)) * b64 (Real.sqrt (C i i))) = w at *
  constructor
  · intro e
    by_contra hc
    push Not at hc
    have h1 : C i i / w ≤ 1 - u64 := by rw [div_le_iff₀ hwp]; exact b64_gap hf hwf hp hc
    have h2 : b64 (1 - u64) = 1 - u64 := by
      have := b64_exact (m := 2 ^ 53 - 1) (by norm_num) (-53)
      have e : (((2 ^ 53 - 1 : ℤ)) : ℝ) * 2 ^ (-53 : ℤ) = 1 - u64 := by unfold u64; norm_num
      rwa [e] at this
    have h3 : b64 (C i i / w) ≤ 1 - u64 := h2 ▸ h.mono h1
    have hu := u64_pos
    have h4 : clip1 (b64 (C i i / w)) < 1 := max_lt (by norm_num) (lt_of_le_of_lt (min_le_right _ _) (by linarith))
    linarith
  · intro hle
    have h1 : 1 ≤ b64 (C i i / w) := h.one ▸ h.mono ((one_le_div hwp).mpr hle)
    unfold clip1
    rw [min_eq_left h1, max_eq_right (by norm_num)]

/-- The correlation of an asset of variance 2 with itself. -/
theorem cor_round_two (hr2 : reg ≤ 2) (hi : C i i = 2) : (covToCorR b64 C reg).1 i i = 1 - 2 * u64 := by
  have hs : covStdR b64 C reg i = (6369051672525773 : ℤ) * 2 ^ (-52 : ℤ) := by
    unfold covStdR
    rw [hi, max_eq_left hr2]
    have lo : (6369051672525772.56 : ℝ) * 2 ^ (-52 : ℤ) < Real.sqrt 2 := by
      apply Real.lt_sqrt_of_sq_lt
      norm_num
    have up : Real.sqrt 2 < (6369051672525773.4 : ℝ) * 2 ^ (-52 : ℤ) := by
      rw [Real.sqrt_lt' (by norm_num)]
      norm_num
    refine b64_eq ?_ ?_ ?_
    · refine le_trans ?_ lo.le; norm_num
    · refine up.trans ?_; norm_num
    · rw [abs_lt]
      constructor
      · refine lt_of_lt_of_le ?_ (sub_le_sub_right lo.le _); norm_num
      · refine lt_of_le_of_lt (sub_le_sub_right up.le _) ?_; norm_num
  have hw : b64 (covStdR b64 C reg i * covStdR b64 C reg i) = (4503599627370497 : ℤ) * 2 ^ (-51 : ℤ) := by
    rw [hs]
    refine b64_eq ?_ ?_ ?_ <;> norm_num [abs_lt]
  show clip1 (b64 (C i i / b64 (covStdR b64 C reg i * covStdR b64 C reg i))) = _
  rw [hw, hi]
  have : b64 (2 / ((4503599627370497 : ℤ) * 2 ^ (-51 : ℤ))) = (9007199254740990 : ℤ) * 2 ^ (-53 : ℤ) := by
    refine b64_eq ?_ ?_ ?_ <;> norm_num [abs_lt]
  rw [this, clip1_of_mem]
  · unfold u64; norm_num
  · norm_num [abs_le]

open Classical in
/-- C99. A covariance matrix with the variance 2 has a correlation matrix which the distances reject: the code compares its diagonal
with 1 exactly. Without rounding the diagonal is 1. -/
theorem cor_round_rejected (hr2 : reg ≤ 2) (hi : C i i = 2) (meth : Method) (t : Dist.Table) (ht : i.1 < t.rows)
    (he : t.at_ i i = .fin ((covToCorR b64 C reg).1 i i)) :
    Dist.corrToDistance meth (.array t) = .error .assertionError ∧ (Cov.covToCor C reg).1 i i = 1 := by
  constructor
  · refine if_neg fun hv => ?_
    have := hv.2.2 i ht
    rw [he, cor_round_two hr2 hi] at this
    have := XF.fin.inj this
    linarith [u64_pos]
  · show clip1 (C i i / (Real.sqrt (max (C i i) reg) * Real.sqrt (max (C i i) reg))) = 1
    rw [hi, max_eq_left hr2, Real.mul_self_sqrt (by norm_num), div_self two_ne_zero]
    exact clip1_of_mem (by simp)

/-! ### There and back -/

/-- C99. Converting a covariance matrix to correlations and back changes an entry by at most ten units of the product of the
deviations. -/
theorem cov_round_trip (h : Rounding fl) (hC : IsCov C) (hr : 0 < reg) (hi : reg ≤ C i i) (hj : reg ≤ C j j) :
    |corToCovR fl (covToCorR fl C reg).1 (covToCorR fl C reg).2 i j - C i j| ≤ 10 * u64 * (Real.sqrt (C i i) * Real.sqrt (C j j)) := by
  have hu := u64_pos
  have hu' := u64_small
  obtain ⟨h0, h1, h2⟩ := outer_bounds (C := C) h hr i j
  rw [max_eq_left hi, max_eq_left hj] at h0 h1 h2
  have hcs : |C i j| ≤ Real.sqrt (C i i) * Real.sqrt (C j j) := by
    rw [← Real.sqrt_mul (hr.le.trans hi), ← Real.sqrt_sq_eq_abs]
    exact Real.sqrt_le_sqrt (hC.cs i j)
  have hq := quot_err (c := C i j) h h0 h1 h2
  show |fl (clip1 (fl (C i j / fl (covStdR fl C reg i * covStdR fl C reg j))) * fl (covStdR fl C reg i * covStdR fl C reg j)) - C i j| ≤ _
  generalize fl (covStdR fl C reg i * covStdR fl C reg j) = w' at *
  generalize Real.sqrt (C i i) * Real.sqrt (C j j) = w at *
  generalize C i j = c at *
  have hw' : 0 < w' := lt_of_lt_of_le (mul_pos (pow_pos (by linarith) 3) h0) h1
  have hrho : |c / w| ≤ 1 := by rw [abs_div, abs_of_pos h0, div_le_one h0]; exact hcs
  have hd : |clip1 (fl (c / w')) - c / w| ≤ 5 * u64 := by
    have := (clip1_lip (fl (c / w')) (c / w)).trans hq
    rw [clip1_of_mem hrho] at this
    nlinarith
  have hr1 : |clip1 (fl (c / w'))| ≤ 1 := clip1_mem _
  generalize clip1 (fl (c / w')) = r at *
  have up : w' ≤ (1 + (3 + 1 / 4) * u64) * w := by
    have : (1 + u64) ^ 3 ≤ 1 + (3 + 1 / 4) * u64 := by
      nlinarith [mul_nonneg hu.le (by linarith : 0 ≤ 1 / 1000 - u64), mul_nonneg (mul_nonneg hu.le hu.le) (by linarith : 0 ≤ 1 / 1000 - u64)]
    nlinarith
  have lo : (1 - 3 * u64) * w ≤ w' := by
    have : 1 - 3 * u64 ≤ (1 - u64) ^ 3 := by nlinarith [mul_nonneg (mul_nonneg hu.le hu.le) (by linarith : 0 ≤ 3 - u64)]
    nlinarith
  have hc : c = c / w * w := by field_simp
  have e1 : |r * w' - c| ≤ (8 + 1 / 2) * u64 * w := by
    have : r * w' - c = (r - c / w) * w' + c / w * (w' - w) := by rw [sub_mul, mul_sub, ← hc]; ring
    rw [this]
    have b1 : |(r - c / w) * w'| ≤ 5 * u64 * w' := by
      rw [abs_mul, abs_of_pos hw']
      exact mul_le_mul_of_nonneg_right hd hw'.le
    have b2 : |c / w * (w' - w)| ≤ (3 + 1 / 4) * u64 * w := by
      rw [abs_mul]
      have : |w' - w| ≤ (3 + 1 / 4) * u64 * w := by rw [abs_le]; constructor <;> nlinarith
      calc _ ≤ 1 * |w' - w| := mul_le_mul_of_nonneg_right hrho (abs_nonneg _)
        _ ≤ _ := by linarith
    have b3 : 5 * u64 * w' ≤ (5 + 1 / 4) * u64 * w := by
      have := mul_le_mul_of_nonneg_left up hu.le
      nlinarith [mul_nonneg (mul_nonneg hu.le (by linarith : 0 ≤ 1 / 1000 - u64)) h0.le]
    refine (abs_add_le _ _).trans ?_
    linarith
  have e2 : |r * w'| ≤ (1 + 1 / 4) * w := by
    rw [abs_mul, abs_of_pos hw']
    have : |r| * w' ≤ 1 * w' := mul_le_mul_of_nonneg_right hr1 hw'.le
    nlinarith
  have e3 := h.rel (r * w')
  calc |fl (r * w') - c| = |(fl (r * w') - r * w') + (r * w' - c)| := by ring_nf
    _ ≤ _ := abs_add_le _ _
    _ ≤ u64 * ((1 + 1 / 4) * w) + (8 + 1 / 2) * u64 * w := add_le_add (e3.trans (mul_le_mul_of_nonneg_left e2 hu.le)) e1
    _ ≤ _ := by nlinarith [mul_pos hu h0]

/-! ### Cases -/

/-- A correlation of one half. -/
example : ∃ d, distOfR b64 .angular (.fin (1 / 2)) = some d ∧ |d - 1 / 2| ≤ 2 * u64 * (1 / 2) := by
  have hx : |(1 / 2 : ℝ)| ≤ 1 := by norm_num [abs_le]
  have e : Dist.distOf .angular (.fin (1 / 2)) = some (1 / 2) := by
    rw [← (round_id_agrees (n := 0)).1, (distOfR_fin id_rounding _ hx).1]
    show some (Real.sqrt ((1 - 1 / 2) / 2)) = _
    rw [show ((1 : ℝ) - 1 / 2) / 2 = (1 / 2) ^ 2 by norm_num, Real.sqrt_sq (by norm_num)]
  exact ⟨_, (distOfR_fin b64_rounding _ hx).1, dist_round_error b64_rounding hx (by nofun) e (distOfR_fin b64_rounding _ hx).1⟩

/-- The variance 4 has an exact deviation: its correlation with itself is 1. -/
example : (covToCorR b64 (!![4, 1; 1, 2] : Mat 2) (1 / 10 ^ 6)).1 0 0 = 1 := by
  have h4 : b64 4 = 4 := by simpa using b64_rounding.int 4 (by norm_num)
  have hs : Real.sqrt 4 = 2 := by rw [show (4 : ℝ) = 2 ^ 2 by norm_num, Real.sqrt_sq two_pos.le]
  rw [cor_round_diag_iff (by norm_num) (by norm_num) h4]
  show b64 (b64 (Real.sqrt 4) * b64 (Real.sqrt 4)) ≤ 4
  rw [hs, b64_rounding.two', show (2 : ℝ) * 2 = 4 by norm_num, h4]

/-- The variance 2 has not. -/
example : (covToCorR b64 (!![4, 1; 1, 2] : Mat 2) (1 / 10 ^ 6)).1 1 1 = 1 - 2 * u64 := cor_round_two (by norm_num) rfl

end Verif.Round
