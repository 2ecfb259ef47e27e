import Verif.Model.RoundFun
import Verif.Lemmas.Round

/-!
# C99: distances and correlations computed with rounding
-/

namespace Verif.Round

open Verif.Dist (Method sqrtO clipX)
open Verif.Cov (Mat)
open Verif.Sim (clip1)

variable {fl : ℝ → ℝ}

namespace Rounding

variable (h : Rounding fl)
include h

theorem zero : fl 0 = 0 := by simpa using h.int 0 (by norm_num)
theorem one : fl 1 = 1 := by simpa using h.int 1 (by norm_num)
theorem two' : fl 2 = 2 := by simpa using h.int 2 (by norm_num)

theorem nonneg {x : ℝ} (hx : 0 ≤ x) : 0 ≤ fl x := h.zero ▸ h.mono hx
theorem le_one {x : ℝ} (hx : x ≤ 1) : fl x ≤ 1 := h.one ▸ h.mono hx

theorem half (x : ℝ) : fl (x / 2) = fl x / 2 := by
  have := h.two (x / 2)
  rw [mul_div_cancel₀ _ two_ne_zero] at this
  linarith

/-- Bounds of a rounded number that is not negative. -/
theorem bounds {x : ℝ} (hx : 0 ≤ x) : (1 - u64) * x ≤ fl x ∧ fl x ≤ (1 + u64) * x := by
  have := abs_le.mp (h.rel x)
  rw [abs_of_nonneg hx] at this
  constructor <;> linarith [this.1, this.2]

theorem pos {x : ℝ} (hx : 0 < x) : 0 < fl x := by
  have hu : u64 < 1 := by unfold u64; norm_num
  exact lt_of_lt_of_le (mul_pos (by linarith) hx) (h.bounds hx.le).1

theorem eq_zero {x : ℝ} : fl x = 0 ↔ x = 0 := by
  refine ⟨fun hx => ?_, fun hx => hx ▸ h.zero⟩
  rcases lt_trichotomy x 0 with h0 | h0 | h0
  · have := h.pos (neg_pos.mpr h0)
    rw [h.neg, hx] at this
    linarith
  · exact h0
  · exact absurd hx (h.pos h0).ne'

end Rounding

theorem u64_pos : 0 < u64 := by unfold u64; positivity
theorem u64_small : u64 ≤ 1 / 1000 := by unfold u64; norm_num

/-! ### Agreement with exact arithmetic -/

/-- C99. Without rounding these are the functions of C34 and C40. -/
theorem round_id_agrees {n : Nat} :
    (∀ meth x, distOfR id meth x = Dist.distOf meth x) ∧ (∀ (C : Mat n) reg, covToCorR id C reg = Cov.covToCor C reg) ∧
    (∀ (C : Mat n) s, corToCovR id C s = Cov.corToCov C s) := by
  refine ⟨fun meth x => ?_, fun C reg => rfl, fun C s => rfl⟩
  unfold distOfR Dist.distOf
  have : convertR id meth = Dist.convert meth := by
    funext x
    cases meth <;> simp [convertR, Dist.convert]
  rw [this]

/-! ### Distances -/

/-- The argument of the square root. -/
noncomputable def innerR (fl : ℝ → ℝ) : Method → ℝ → ℝ
  | .angular, x => fl (fl (1 - x) / 2)
  | .absAngular, x => fl (1 - |x|)
  | .squaredAngular, x => fl (1 - fl (x ^ 2))

theorem convertR_eq (fl : ℝ → ℝ) (meth : Method) (x : ℝ) : convertR fl meth x = (sqrtO (innerR fl meth x)).map fl := by
  cases meth <;> rfl

theorem innerR_range (h : Rounding fl) (meth : Method) {x : ℝ} (hx : |x| ≤ 1) : 0 ≤ innerR fl meth x ∧ innerR fl meth x ≤ 1 := by
  obtain ⟨h1, h2⟩ := abs_le.mp hx
  cases meth with
  | angular =>
    have a : 0 ≤ fl (1 - x) := h.nonneg (by linarith)
    have b : fl (1 - x) ≤ 2 := h.two' ▸ h.mono (by linarith)
    exact ⟨h.nonneg (by linarith), h.le_one (by linarith)⟩
  | absAngular => exact ⟨h.nonneg (by linarith), h.le_one (by linarith [abs_nonneg x])⟩
  | squaredAngular =>
    have a : 0 ≤ fl (x ^ 2) := h.nonneg (sq_nonneg x)
    have b : fl (x ^ 2) ≤ 1 := h.le_one (by nlinarith)
    exact ⟨h.nonneg (by linarith), h.le_one (by linarith)⟩

/-- The distance of a correlation in the unit interval: neither of the clippings does anything and the square root exists. -/
theorem distOfR_fin (h : Rounding fl) (meth : Method) {x : ℝ} (hx : |x| ≤ 1) :
    distOfR fl meth (.fin x) = some (fl (Real.sqrt (innerR fl meth x))) ∧ 0 ≤ fl (Real.sqrt (innerR fl meth x)) ∧
    fl (Real.sqrt (innerR fl meth x)) ≤ 1 := by
  obtain ⟨h1, h2⟩ := abs_le.mp hx
  obtain ⟨a, b⟩ := innerR_range h meth hx
  have c : 0 ≤ fl (Real.sqrt (innerR fl meth x)) := h.nonneg (Real.sqrt_nonneg _)
  have d : fl (Real.sqrt (innerR fl meth x)) ≤ 1 := h.le_one (Real.sqrt_le_one.mpr b)
  refine ⟨?_, c, d⟩
  show ((some (min (max x (-1)) 1)).bind (convertR fl meth)).map _ = _
  rw [max_eq_left h1, min_eq_left h2, Option.bind_some, convertR_eq, sqrtO, if_neg (not_lt.mpr a)]
  show some (min (max _ 0) 1) = _
  rw [max_eq_left c, min_eq_left d]

/-- C99. With rounding too a distance is missing only for a missing correlation, and lies in `[0, 1]`. -/
theorem dist_round_range (h : Rounding fl) (meth : Method) (x : XF) :
    (distOfR fl meth x = none ↔ x = .nan) ∧ ∀ d, distOfR fl meth x = some d → 0 ≤ d ∧ d ≤ 1 := by
  have key : ∀ c : ℝ, |c| ≤ 1 → clipX (-1) 1 x = some c → distOfR fl meth x = distOfR fl meth (.fin c) := by
    intro c hc e
    obtain ⟨h1, h2⟩ := abs_le.mp hc
    unfold distOfR
    rw [e]
    show _ = ((some (min (max c (-1)) 1)).bind (convertR fl meth)).map _
    rw [max_eq_left h1, min_eq_left h2]
  have fin : ∀ c : ℝ, |c| ≤ 1 → clipX (-1) 1 x = some c → x ≠ .nan →
      (distOfR fl meth x = none ↔ x = .nan) ∧ ∀ d, distOfR fl meth x = some d → 0 ≤ d ∧ d ≤ 1 := by
    intro c hc e hx
    rw [key c hc e, (distOfR_fin h meth hc).1]
    refine ⟨⟨(fun h => by cases h), fun h => (hx h).elim⟩, fun d hd => ?_⟩
    cases hd
    exact (distOfR_fin h meth hc).2
  cases x with
  | nan => exact ⟨⟨fun _ => rfl, fun _ => rfl⟩, fun d hd => by cases hd⟩
  | pinf => exact fin 1 (by simp) rfl (by nofun)
  | ninf => exact fin (-1) (by simp) rfl (by nofun)
  | fin r =>
    refine fin (min (max r (-1)) 1) (abs_le.mpr ⟨le_min (le_max_right _ _) (by norm_num), min_le_right _ _⟩) rfl (by nofun)

/-- C99. Rounding keeps the order: a larger correlation never has a larger angular distance, a larger absolute correlation never a
larger absolute or squared one. -/
theorem dist_round_antitone (h : Rounding fl) {x y dx dy : ℝ} (hx : |x| ≤ 1) (hy : |y| ≤ 1) (meth : Method)
    (hxy : if meth = .angular then x ≤ y else |x| ≤ |y|) (ex : distOfR fl meth (.fin x) = some dx) (ey : distOfR fl meth (.fin y) = some dy) :
    dy ≤ dx := by
  rw [(distOfR_fin h meth hx).1] at ex
  rw [(distOfR_fin h meth hy).1] at ey
  cases ex
  cases ey
  refine h.mono (Real.sqrt_le_sqrt ?_)
  cases meth with
  | angular =>
    have hxy' : x ≤ y := hxy
    exact h.mono (div_le_div_of_nonneg_right (h.mono (by linarith)) two_pos.le)
  | absAngular =>
    have hxy' : |x| ≤ |y| := hxy
    exact h.mono (by linarith)
  | squaredAngular =>
    have hxy' : |x| ≤ |y| := hxy
    have := h.mono (sq_le_sq.mpr hxy')
    exact h.mono (by linarith)

/-- C99. Perfect correlation, perfect anticorrelation and no correlation have the exact distances. -/
theorem dist_round_exact (h : Rounding fl) :
    (∀ meth, distOfR fl meth (.fin 1) = some 0) ∧ distOfR fl .angular (.fin (-1)) = some 1 ∧
    (∀ meth, meth ≠ .angular → distOfR fl meth (.fin (-1)) = some 0 ∧ distOfR fl meth (.fin 0) = some 1) := by
  have s0 : fl (Real.sqrt 0) = 0 := by rw [Real.sqrt_zero, h.zero]
  have s1 : fl (Real.sqrt 1) = 1 := by rw [Real.sqrt_one, h.one]
  refine ⟨fun meth => ?_, ?_, fun meth hm => ⟨?_, ?_⟩⟩
  · rw [(distOfR_fin h meth (by simp)).1]
    have : innerR fl meth 1 = 0 := by cases meth <;> simp [innerR, h.zero, h.one]
    rw [this, s0]
  · rw [(distOfR_fin h _ (by simp)).1]
    have : innerR fl .angular (-1) = 1 := by
      show fl (fl (1 - -1) / 2) = 1
      rw [show (1 : ℝ) - -1 = 2 by norm_num, h.two', div_self two_ne_zero, h.one]
    rw [this, s1]
  · rw [(distOfR_fin h meth (by simp)).1]
    have : innerR fl meth (-1) = 0 := by
      cases meth with
      | angular => exact (hm rfl).elim
      | absAngular => simp [innerR, h.zero]
      | squaredAngular => simp [innerR, h.zero, h.one]
    rw [this, s0]
  · rw [(distOfR_fin h meth (by simp)).1]
    have : innerR fl meth 0 = 1 := by
      cases meth with
      | angular => exact (hm rfl).elim
      | absAngular => simp [innerR, h.one]
      | squaredAngular => simp [innerR, h.zero, h.one]
    rw [this, s1]

/-- A rounded square root of a number with relative error `u`. -/
theorem sqrt_err (h : Rounding fl) {y z : ℝ} (hy : 0 ≤ y) (hz : |z - y| ≤ u64 * y) :
    |fl (Real.sqrt z) - Real.sqrt y| ≤ 2 * u64 * Real.sqrt y := by
  have hu := u64_pos
  have hu' := u64_small
  obtain ⟨z1, z2⟩ := abs_le.mp hz
  have hz0 : 0 ≤ z := by nlinarith
  obtain ⟨b1, b2⟩ := h.bounds (Real.sqrt_nonneg z)
  have hs := Real.sqrt_nonneg y
  have up : Real.sqrt z ≤ (1 + u64 * (2 / 3)) * Real.sqrt y := by
    rw [← Real.sqrt_sq (by positivity : (0 : ℝ) ≤ (1 + u64 * (2 / 3)) * Real.sqrt y)]
    refine Real.sqrt_le_sqrt ?_
    rw [mul_pow, Real.sq_sqrt hy]
    nlinarith [mul_nonneg hu.le hy, mul_nonneg (sq_nonneg u64) hy]
  have lo : (1 - u64 * (2 / 3)) * Real.sqrt y ≤ Real.sqrt z := by
    rw [← Real.sqrt_sq (mul_nonneg (by linarith) hs : (0 : ℝ) ≤ (1 - u64 * (2 / 3)) * Real.sqrt y)]
    refine Real.sqrt_le_sqrt ?_
    rw [mul_pow, Real.sq_sqrt hy]
    nlinarith [mul_nonneg hu.le hy, mul_nonneg (mul_nonneg hu.le (by linarith : 0 ≤ 1 / 1000 - u64)) hy]
  rw [abs_le]
  constructor
  · nlinarith [mul_nonneg hu.le hs, mul_nonneg (mul_nonneg hu.le hu.le) hs]
  · nlinarith [mul_nonneg hu.le hs, mul_nonneg (mul_nonneg hu.le (by linarith : 0 ≤ 1 / 1000 - u64)) hs]

/-- C99. The angular and the absolute angular distance are computed with a relative error of at most two units. -/
theorem dist_round_error (h : Rounding fl) {x d d' : ℝ} (hx : |x| ≤ 1) {meth : Method} (hm : meth ≠ .squaredAngular)
    (e : Dist.distOf meth (.fin x) = some d) (e' : distOfR fl meth (.fin x) = some d') : |d' - d| ≤ 2 * u64 * d := by
  obtain ⟨h1, h2⟩ := abs_le.mp hx
  rw [← (round_id_agrees (n := 0)).1, (distOfR_fin id_rounding meth hx).1] at e
  rw [(distOfR_fin h meth hx).1] at e'
  cases e
  cases e'
  cases meth with
  | angular =>
    show |fl (Real.sqrt (fl (fl (1 - x) / 2))) - Real.sqrt ((1 - x) / 2)| ≤ 2 * u64 * Real.sqrt ((1 - x) / 2)
    refine sqrt_err h (by linarith) ?_
    rw [← h.half, h.idem]
    have := h.rel ((1 - x) / 2)
    rwa [abs_of_nonneg (by linarith : 0 ≤ (1 - x) / 2)] at this
  | absAngular =>
    show |fl (Real.sqrt (fl (1 - |x|))) - Real.sqrt (1 - |x|)| ≤ 2 * u64 * Real.sqrt (1 - |x|)
    refine sqrt_err h (by linarith) ?_
    have := h.rel (1 - |x|)
    rwa [abs_of_nonneg (by linarith : 0 ≤ 1 - |x|)] at this
  | squaredAngular => exact (hm rfl).elim

/-- C99. The square of the squared angular distance has an absolute error of at most five units; near zero the distance itself may be
wrong by the root of that. -/
theorem dist_round_error_squared (h : Rounding fl) {x d d' : ℝ} (hx : |x| ≤ 1)
    (e : Dist.distOf .squaredAngular (.fin x) = some d) (e' : distOfR fl .squaredAngular (.fin x) = some d') :
    |d' ^ 2 - d ^ 2| ≤ 5 * u64 := by
  have hu := u64_pos
  have hu' := u64_small
  rw [← (round_id_agrees (n := 0)).1, (distOfR_fin id_rounding _ hx).1] at e
  rw [(distOfR_fin h _ hx).1] at e'
  cases e
  cases e'
  obtain ⟨a, b⟩ := innerR_range h .squaredAngular hx
  change 0 ≤ fl (1 - fl (x ^ 2)) at a
  change fl (1 - fl (x ^ 2)) ≤ 1 at b
  show |fl (Real.sqrt (fl (1 - fl (x ^ 2)))) ^ 2 - Real.sqrt (1 - x ^ 2) ^ 2| ≤ 5 * u64
  have hx2 : x ^ 2 ≤ 1 := by nlinarith [abs_le.mp hx]
  have hx0 := sq_nonneg x
  rw [Real.sq_sqrt (by linarith)]
  obtain ⟨p1, p2⟩ := h.bounds hx0
  have q0 : 0 ≤ 1 - fl (x ^ 2) := by linarith [h.le_one hx2]
  have q1 : 1 - fl (x ^ 2) ≤ 1 := by linarith [h.nonneg hx0]
  obtain ⟨r1, r2⟩ := h.bounds q0
  obtain ⟨s1, s2⟩ := h.bounds (Real.sqrt_nonneg (fl (1 - fl (x ^ 2))))
  have hsq := Real.sq_sqrt a
  have hs0 := Real.sqrt_nonneg (fl (1 - fl (x ^ 2)))
  generalize fl (Real.sqrt (fl (1 - fl (x ^ 2)))) = D at *
  generalize Real.sqrt (fl (1 - fl (x ^ 2))) = S at *
  generalize fl (1 - fl (x ^ 2)) = z at *
  generalize fl (x ^ 2) = w at *
  have D0 : 0 ≤ D := le_trans (mul_nonneg (by linarith) hs0) s1
  have t1 : D ^ 2 ≤ (1 + u64) ^ 2 * z := by rw [← hsq, ← mul_pow]; exact pow_le_pow_left₀ D0 s2 2
  have t2 : (1 - u64) ^ 2 * z ≤ D ^ 2 := by rw [← hsq, ← mul_pow]; exact pow_le_pow_left₀ (mul_nonneg (by linarith) hs0) s1 2
  have e1 : D ^ 2 - z ≤ 3 * u64 := by nlinarith [mul_nonneg hu.le (by linarith : 0 ≤ 1 - z), mul_nonneg (mul_nonneg hu.le (by linarith : 0 ≤ 1 / 1000 - u64)) a]
  have e2 : -(3 * u64) ≤ D ^ 2 - z := by nlinarith [mul_nonneg hu.le (by linarith : 0 ≤ 1 - z), mul_nonneg (mul_nonneg hu.le hu.le) a]
  have e3 : |z - (1 - w)| ≤ u64 := by rw [abs_le]; constructor <;> nlinarith
  have e4 : |w - x ^ 2| ≤ u64 := by rw [abs_le]; constructor <;> nlinarith
  rw [abs_le] at e3 e4 ⊢
  constructor <;> linarith [e3.1, e3.2, e4.1, e4.2]

end Verif.Round
