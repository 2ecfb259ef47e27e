import Verif.Model.CusumR
import Verif.Props.Cusum
import Verif.Props.RoundSum
import Mathlib.Analysis.SpecialFunctions.Log.Deriv
import Mathlib.Tactic.IntervalCases
import Mathlib.Analysis.Complex.ExponentialBounds

/-!
# C109: the CUSUM test with rounding
-/

namespace Verif.Props.Cusum

open Verif Ser Verif.Cusum Round Finset

variable {fl : ℝ → ℝ}

/-- C109. Without rounding the rounded test is that of `Model/Cusum`. -/
theorem cusum_round_id (y : Ser) : testR id y = test y := by
  have hr : ∀ x, rnd id x = x := fun x => by cases x <;> rfl
  have e1 : ∀ l, sqDiffsR id l = sqDiffs l := fun l => by simp only [sqDiffsR, sqDiffs, hr, sqF]
  have e2 : ∀ l t, sigmaHatR id l t = sigmaHat l t := fun l t => by simp only [sigmaHatR, sigmaHat, hr, e1]
  have e3 : ∀ l t, departuresR id l t = departures l t := fun l t => by simp only [departuresR, departures, hr, e2, id]
  have e4 : ∀ l t, stepR id l t = step l t := fun l t => by simp only [stepR, step, hr, e3, id]
  simp only [testR, test, hr, e4]

/-! ### Relative errors -/

/-- `a` is `b` up to `k` roundings. -/
def Within (k : Nat) (a b : ℝ) : Prop := ∃ r, a = r * b ∧ (1 - u64) ^ k ≤ r ∧ r * (1 - u64) ^ k ≤ 1

theorem u_lt : 0 < 1 - u64 ∧ 1 - u64 ≤ 1 := ⟨by linarith [u64_small], by linarith [u64_pos]⟩

theorem pow_pos' (k : Nat) : 0 < (1 - u64) ^ k := pow_pos u_lt.1 k

theorem Within.refl (b : ℝ) : Within 0 b b := ⟨1, by ring, by simp, by simp⟩

theorem Within.mono {k m : Nat} {a b : ℝ} (h : Within k a b) (hm : k ≤ m) : Within m a b := by
  obtain ⟨r, e, h1, h2⟩ := h
  have hp := pow_le_pow_of_le_one u_lt.1.le u_lt.2 hm
  have hr : 0 < r := (pow_pos' k).trans_le h1
  exact ⟨r, e, hp.trans h1, (mul_le_mul_of_nonneg_left hp hr.le).trans h2⟩

theorem Within.rd (R : Rounding fl) {k : Nat} {a b : ℝ} (h : Within k a b) : Within (k + 1) (fl a) b := by
  obtain ⟨r, e, h1, h2⟩ := h
  have hr : 0 < r := (pow_pos' k).trans_le h1
  have hu := u64_pos
  have hu1 := u_lt.1
  by_cases ha : a = 0
  · refine ⟨r, by rw [← e, ha, R.zero], ?_, ?_⟩
    · rw [pow_succ]
      exact (mul_le_of_le_one_right (pow_pos' k).le u_lt.2).trans h1
    · rw [pow_succ, ← mul_assoc]
      exact mul_le_one₀ h2 hu1.le u_lt.2
  · have hrel := R.rel a
    obtain ⟨q, hq⟩ : ∃ q, fl a = q * a := ⟨fl a / a, by field_simp⟩
    have habs : |q - 1| ≤ u64 := by
      have : |fl a - a| = |q - 1| * |a| := by rw [hq, ← abs_mul]; ring_nf
      rw [this] at hrel
      exact le_of_mul_le_mul_right hrel (abs_pos.mpr ha)
    obtain ⟨q1, q2⟩ := abs_le.mp habs
    have hq0 : 0 < q := by linarith
    refine ⟨q * r, by rw [hq, e]; ring, ?_, ?_⟩
    · rw [pow_succ, mul_comm]
      exact mul_le_mul (by linarith) h1 (pow_pos' k).le hq0.le
    · have : q * (1 - u64) ≤ 1 := by nlinarith
      calc q * r * (1 - u64) ^ (k + 1) = (q * (1 - u64)) * (r * (1 - u64) ^ k) := by ring
        _ ≤ 1 := mul_le_one₀ this (mul_nonneg hr.le (pow_pos' k).le) h2

theorem Within.mul {k m : Nat} {a b c d : ℝ} (h : Within k a b) (h' : Within m c d) : Within (k + m) (a * c) (b * d) := by
  obtain ⟨r, e, h1, h2⟩ := h
  obtain ⟨s, e', h1', h2'⟩ := h'
  have hr : 0 < r := (pow_pos' k).trans_le h1
  have hs : 0 < s := (pow_pos' m).trans_le h1'
  refine ⟨r * s, by rw [e, e']; ring, ?_, ?_⟩
  · rw [pow_add]
    exact mul_le_mul h1 h1' (pow_pos' m).le hr.le
  · calc r * s * (1 - u64) ^ (k + m) = (r * (1 - u64) ^ k) * (s * (1 - u64) ^ m) := by rw [pow_add]; ring
      _ ≤ 1 := mul_le_one₀ h2 (mul_nonneg hs.le (pow_pos' m).le) h2'

theorem Within.inv {k : Nat} {a b : ℝ} (h : Within k a b) : Within k a⁻¹ b⁻¹ := by
  obtain ⟨r, e, h1, h2⟩ := h
  have hr : 0 < r := (pow_pos' k).trans_le h1
  refine ⟨r⁻¹, by rw [e, mul_inv], ?_, ?_⟩
  · rw [le_inv_comm₀ (pow_pos' k) hr, ← one_div, le_div_iff₀ (pow_pos' k)]
    exact h2
  · rw [inv_mul_le_iff₀ hr, mul_one]
    exact h1

theorem Within.div {k m : Nat} {a b c d : ℝ} (h : Within k a b) (h' : Within m c d) : Within (k + m) (a / c) (b / d) := by
  rw [div_eq_mul_inv, div_eq_mul_inv]
  exact h.mul h'.inv

theorem Within.sqrt {k : Nat} {a b : ℝ} (h : Within k a b) : Within k (Real.sqrt a) (Real.sqrt b) := by
  obtain ⟨r, e, h1, h2⟩ := h
  have hr : 0 < r := (pow_pos' k).trans_le h1
  refine ⟨Real.sqrt r, by rw [e, Real.sqrt_mul hr.le], ?_, ?_⟩
  · refine Real.le_sqrt_of_sq_le ?_
    have h01 := pow_le_one₀ (n := k) u_lt.1.le u_lt.2
    have := (pow_pos' k).le
    nlinarith
  · have h01 := pow_le_one₀ (n := k) u_lt.1.le u_lt.2
    have h0 := pow_pos' k
    have hle : Real.sqrt r * (1 - u64) ^ k ≤ Real.sqrt r * Real.sqrt ((1 - u64) ^ k) := by
      refine mul_le_mul_of_nonneg_left (Real.le_sqrt_of_sq_le ?_) (Real.sqrt_nonneg _)
      nlinarith
    rw [← Real.sqrt_mul hr.le] at hle
    exact hle.trans (Real.sqrt_le_one.mpr h2)

theorem Within.add {k : Nat} {a b c d : ℝ} (h : Within k a b) (h' : Within k c d) (hb : 0 ≤ b) (hd : 0 ≤ d) : Within k (a + c) (b + d) := by
  obtain ⟨r, e, h1, h2⟩ := h
  obtain ⟨s, e', h1', h2'⟩ := h'
  by_cases h0 : b + d = 0
  · have hb0 : b = 0 := by linarith
    have hd0 : d = 0 := by linarith
    exact ⟨r, by rw [e, e', hb0, hd0]; ring, h1, h2⟩
  · have hp : 0 < b + d := lt_of_le_of_ne (by linarith) (Ne.symm h0)
    have hk := pow_pos' k
    refine ⟨(a + c) / (b + d), by field_simp, ?_, ?_⟩
    · rw [le_div_iff₀ hp, e, e']
      nlinarith
    · rw [div_mul_eq_mul_div, div_le_one hp, e, e']
      nlinarith

/-! ### The rounded test on rounded logarithms -/

/-- The standard deviation of the increments of `L`. -/
noncomputable def devL (L : Nat → ℝ) (t : Nat) : ℝ := Real.sqrt ((∑ i ∈ range t, (L (i + 1) - L i) ^ 2) / t)

/-- The standardised departure of `L t` from `L n`. -/
noncomputable def depL (L : Nat → ℝ) (t n : Nat) : ℝ := (L t - L n) / (devL L t * Real.sqrt ((t : ℝ) - n))

/-- The rounded sum of squared increments. -/
noncomputable def ssR (fl : ℝ → ℝ) (L : Nat → ℝ) : Nat → ℝ
  | 0 => 0
  | t + 1 => fl (ssR fl L t + fl (fl (L (t + 1) - L t) * fl (L (t + 1) - L t)))

theorem ssR_within (R : Rounding fl) (L : Nat → ℝ) (t : Nat) : Within (t + 3) (ssR fl L t) (∑ i ∈ range t, (L (i + 1) - L i) ^ 2) := by
  induction t with
  | zero => exact ⟨1, by simp [ssR], pow_le_one₀ u_lt.1.le u_lt.2, by rw [one_mul]; exact pow_le_one₀ u_lt.1.le u_lt.2⟩
  | succ t ih =>
    rw [Finset.sum_range_succ, ssR]
    have h1 : Within 1 (fl (L (t + 1) - L t)) (L (t + 1) - L t) := (Within.refl _).rd R
    have h2 : Within 3 (fl (fl (L (t + 1) - L t) * fl (L (t + 1) - L t))) ((L (t + 1) - L t) ^ 2) := by
      rw [sq]
      exact (h1.mul h1).rd R
    have h3 := ih.add (h2.mono (by omega : 3 ≤ t + 3)) (Finset.sum_nonneg fun i _ => sq_nonneg _) (sq_nonneg _)
    exact h3.rd R

/-- The rounded standard deviation. -/
noncomputable def sdR (fl : ℝ → ℝ) (L : Nat → ℝ) (t : Nat) : ℝ := fl (Real.sqrt (fl (ssR fl L t / t)))

theorem sdR_within (R : Rounding fl) (L : Nat → ℝ) (t : Nat) : Within (t + 5) (sdR fl L t) (devL L t) := by
  have h := ((ssR_within R L t).div (Within.refl (t : ℝ))).rd R
  exact (h.sqrt).rd R

/-- The rounded departure. -/
noncomputable def dpR (fl : ℝ → ℝ) (L : Nat → ℝ) (t n : Nat) : ℝ :=
  fl (fl (L t - L n) / fl (sdR fl L t * fl (Real.sqrt ((t : ℝ) - n))))

theorem dpR_within (R : Rounding fl) (L : Nat → ℝ) (t n : Nat) : Within (t + 9) (dpR fl L t n) (depL L t n) := by
  have h1 : Within 1 (fl (L t - L n)) (L t - L n) := (Within.refl _).rd R
  have h2 : Within 1 (fl (Real.sqrt ((t : ℝ) - n))) (Real.sqrt ((t : ℝ) - n)) := (Within.refl _).rd R
  exact ((h1.div (((sdR_within R L t).mul h2).rd R)).rd R).mono (by omega)

theorem Within.zero_iff {k : Nat} {a b : ℝ} (h : Within k a b) : a = 0 ↔ b = 0 := by
  obtain ⟨r, e, h1, -⟩ := h
  have hr : 0 < r := (pow_pos' k).trans_le h1
  rw [e, mul_eq_zero, or_iff_right hr.ne']

theorem Within.pos_iff {k : Nat} {a b : ℝ} (h : Within k a b) : 0 < a ↔ 0 < b := by
  obtain ⟨r, e, h1, -⟩ := h
  have hr : 0 < r := (pow_pos' k).trans_le h1
  rw [e, mul_pos_iff_of_pos_left hr]

theorem Within.neg_iff {k : Nat} {a b : ℝ} (h : Within k a b) : a < 0 ↔ b < 0 := by
  obtain ⟨r, e, h1, -⟩ := h
  have hr : 0 < r := (pow_pos' k).trans_le h1
  rw [e, mul_neg_iff]
  exact ⟨fun h => by rcases h with h | h <;> [exact h.2; exact absurd h.1 (not_lt.2 hr.le)], fun h => Or.inl ⟨hr, h⟩⟩

/-- `k` roundings change a number by at most `k u / (1 - k u)` of itself. -/
theorem Within.err {k : Nat} {a b : ℝ} (h : Within k a b) (hk : (k : ℝ) * u64 < 1) :
    |a - b| ≤ k * u64 / (1 - k * u64) * |b| := by
  obtain ⟨r, e, h1, h2⟩ := h
  have hb := one_add_mul_le_pow (a := -u64) (by linarith [u64_small]) k
  rw [← sub_eq_add_neg] at hb
  have hp : 0 < 1 - k * u64 := by linarith
  have hk0 : 0 ≤ (k : ℝ) * u64 := mul_nonneg (Nat.cast_nonneg k) u64_pos.le
  have hr1 : r * (1 - k * u64) ≤ 1 := by
    refine (mul_le_mul_of_nonneg_left ?_ ((pow_pos' k).le.trans h1)).trans h2
    linarith
  have e' : a - b = (r - 1) * b := by rw [e]; ring
  rw [e', abs_mul]
  refine mul_le_mul_of_nonneg_right (abs_le.mpr ⟨?_, ?_⟩) (abs_nonneg b)
  · have : (k : ℝ) * u64 ≤ k * u64 / (1 - k * u64) := by
      rw [le_div_iff₀ hp]
      nlinarith
    linarith
  · rw [le_div_iff₀ hp]
    linarith

theorem dep_exp (L : Nat → ℝ) : depL L = dep (fun i => Real.exp (L i)) := by
  funext t n
  simp only [depL, dep, devL, dev, Real.log_exp]

theorem devL_exp (L : Nat → ℝ) : devL L = dev (fun i => Real.exp (L i)) := by
  funext t
  simp only [devL, dev, Real.log_exp]

theorem depL_bound {L : Nat → ℝ} {t n : Nat} (hn : n < t) : |depL L t n| ≤ Real.sqrt t := by
  rw [dep_exp]
  exact dep_bound hn

theorem devL_ne_zero_iff {L : Nat → ℝ} {t : Nat} (h0 : 0 < t) : devL L t ≠ 0 ↔ ∃ i < t, L (i + 1) ≠ L i := by
  rw [devL_exp, dev_ne_zero_iff h0 fun i _ => Real.exp_pos _]
  simp

/-! ### Evaluation of the model -/

/-- The logarithms as the code holds them. -/
noncomputable def logR (fl : ℝ → ℝ) (P : Nat → ℝ) (i : Nat) : ℝ := fl (Real.log (P i))

theorem logsR_get {y : Ser} {P : Nat → ℝ} {t : Nat} (h : Prices y P t) {i : Nat} (hi : i ≤ t) :
    (y.map fun v => rnd fl v.log)[i]? = some (.fin (logR fl P i)) := by
  rw [List.getElem?_map, (h i hi).1, Option.map_some, XF.log_fin (h i hi).2]
  rfl

theorem sqDiffsR_take {y : Ser} {P : Nat → ℝ} {t : Nat} (h : Prices y P t) :
    (sqDiffsR fl (y.map fun v => rnd fl v.log)).take t = (List.range t).map fun i =>
      .fin (fl (fl (logR fl P (i + 1) - logR fl P i) * fl (logR fl P (i + 1) - logR fl P i))) := by
  apply List.ext_getElem?
  intro i
  by_cases hi : i < t
  · rw [List.getElem?_take, if_pos hi, List.getElem?_map, List.getElem?_range hi, sqDiffsR, List.getElem?_zipWith,
      logsR_get h (by omega), List.getElem?_tail, logsR_get h (by omega)]
    simp [rnd]
  · rw [List.getElem?_eq_none (by simp; omega), List.getElem?_eq_none (by simp; omega)]

theorem foldl_ssR (L : Nat → ℝ) (t : Nat) :
    ((List.range t).map fun i => XF.fin (fl (fl (L (i + 1) - L i) * fl (L (i + 1) - L i)))).foldl
      (fun a b => rnd fl (a + b)) (XF.fin 0) = .fin (ssR fl L t) := by
  induction t with
  | zero => rfl
  | succ t ih =>
    rw [List.range_succ, List.map_append, List.foldl_append, ih]
    simp [rnd, ssR]

theorem sigmaHatR_eq (R : Rounding fl) {y : Ser} {P : Nat → ℝ} {t : Nat} (h : Prices y P t) (ht : 0 < t) :
    sigmaHatR fl (y.map fun v => rnd fl v.log) t = .fin (sdR fl (logR fl P) t) := by
  have h0 : (t : ℝ) ≠ 0 := by positivity
  have hw := ((ssR_within R (logR fl P) t).div (Within.refl (t : ℝ))).rd R
  have hn : 0 ≤ fl (ssR fl (logR fl P) t / t) := by
    by_contra hneg
    have := hw.neg_iff.1 (not_le.1 hneg)
    exact absurd this (not_lt.2 (div_nonneg (Finset.sum_nonneg fun i _ => sq_nonneg _) (Nat.cast_nonneg t)))
  rw [sigmaHatR, sqDiffsR_take h, foldl_ssR, XF.div_fin h0]
  change rnd fl (XF.sqrt (.fin (fl _))) = _
  rw [XF.sqrt_fin hn]
  rfl

theorem sqrtR_ne (R : Rounding fl) {t n : Nat} (hn : n < t) : fl (Real.sqrt ((t : ℝ) - n)) ≠ 0 := by
  have : (n : ℝ) < t := by exact_mod_cast hn
  exact (R.pos (Real.sqrt_pos.2 (by linarith))).ne'

theorem departuresR_eq (R : Rounding fl) {y : Ser} {P : Nat → ℝ} {t : Nat} (h : Prices y P t) (ht : 0 < t)
    (hd : devL (logR fl P) t ≠ 0) :
    departuresR fl (y.map fun v => rnd fl v.log) t = (List.range t).map fun n => .fin (dpR fl (logR fl P) t n) := by
  rw [departuresR]
  refine List.map_congr_left fun n hn => ?_
  rw [List.mem_range] at hn
  have hs := sqrtR_ne R hn
  have hsd : sdR fl (logR fl P) t ≠ 0 := mt (sdR_within R _ t).zero_iff.1 hd
  have hf : fl (sdR fl (logR fl P) t * fl (Real.sqrt ((t : ℝ) - n))) ≠ 0 :=
    mt ((Within.refl _).rd R).zero_iff.1 (mul_ne_zero hsd hs)
  rw [logsR_get h le_rfl, logsR_get h hn.le, sigmaHatR_eq R h ht]
  simp only [Option.getD_some, XF.sub_fin, XF.mul_fin]
  change rnd fl (XF.fin (fl _) / XF.fin (fl _)) = _
  rw [XF.div_fin hf]
  rfl

theorem testR_get {y : Ser} {t : Nat} (ht : t < y.length) :
    (testR fl y).1[t]? = some (stepR fl (y.map fun v => rnd fl v.log) t).1 ∧
      (testR fl y).2[t]? = some (stepR fl (y.map fun v => rnd fl v.log) t).2 := by
  simp [testR, List.getElem?_range ht]

/-- The critical value for the reference point `k` steps back. -/
noncomputable def critR (fl : ℝ → ℝ) (k : ℝ) : ℝ := fl (Real.sqrt (fl (fl 4.6 + fl (Real.log k))))

theorem crit_arg (R : Rounding fl) {k : ℝ} (hk : 1 ≤ k) : 0 ≤ fl (fl 4.6 + fl (Real.log k)) := by
  have h1 := R.nonneg (Real.log_nonneg hk)
  have h2 := R.nonneg (show (0 : ℝ) ≤ 4.6 by norm_num)
  exact R.nonneg (add_nonneg h2 h1)

theorem crit_eq (R : Rounding fl) {k : ℝ} (hk : 1 ≤ k) :
    rnd fl (XF.fin (fl (fl 4.6 + fl (Real.log k)))).sqrt = .fin (critR fl k) := by
  rw [XF.sqrt_fin (crit_arg R hk)]
  rfl

/-- Four roundings in a critical value. -/
theorem crit_within (R : Rounding fl) {k : ℝ} (hk : 1 ≤ k) : Within 4 (critR fl k) (Real.sqrt (4.6 + Real.log k)) := by
  have h1 : Within 1 (fl 4.6) 4.6 := (Within.refl _).rd R
  have h2 : Within 1 (fl (Real.log k)) (Real.log k) := (Within.refl _).rd R
  exact (((h1.add h2 (by norm_num) (Real.log_nonneg hk)).rd R).sqrt.rd R).mono (by omega)

/-- C109. The rounded test at a step where the rounded logarithms are not constant so far. The statistic is the greatest of the
rounded departures and the critical value belongs to its first position; each rounded departure is that of the rounded
logarithms up to `t + 9` roundings, the critical value is the real one up to four. -/
theorem cusum_round (R : Rounding fl) {y : Ser} {P : Nat → ℝ} {t : Nat} (h0 : 0 < t) (h : Prices y P t)
    (hd : ∃ i < t, logR fl P (i + 1) ≠ logR fl P i) :
    ∃ n < t, ∃ S : Nat → ℝ, ∃ c, (testR fl y).1[t]? = some (.fin (S n)) ∧ (testR fl y).2[t]? = some (.fin c) ∧
      (∀ j < t, S j ≤ S n) ∧ (∀ j < n, S j < S n) ∧
      (∀ j < t, Within (t + 9) (S j) (depL (logR fl P) t j)) ∧ Within 4 c (Real.sqrt (4.6 + Real.log ((t : ℝ) - n))) := by
  have ht : t < y.length := (List.getElem?_eq_some_iff.1 (h t le_rfl).1).1
  have hd' := (devL_ne_zero_iff h0).2 hd
  obtain ⟨n, h1, h2, h3, h4, h5⟩ := max_spec h0 (dpR fl (logR fl P) t)
  have e1 : (1 : ℝ) ≤ (t : ℝ) - n := by
    have : (n : ℝ) + 1 ≤ t := by exact_mod_cast h2
    linarith
  refine ⟨n, h2, dpR fl (logR fl P) t, critR fl ((t : ℝ) - n), ?_, ?_, h4, h5, fun j _ => dpR_within R _ t j,
    crit_within R e1⟩
  · rw [(testR_get ht).1, stepR, if_neg (by omega), departuresR_eq R h h0 hd', h3]
  · rw [(testR_get ht).2, stepR, if_neg (by omega), departuresR_eq R h h0 hd', h1, crit_eq R e1]

/-- C109. The computed statistic against the greatest departure of the rounded logarithms. -/
theorem cusum_round_error (R : Rounding fl) {y : Ser} {P : Nat → ℝ} {t : Nat} (h0 : 0 < t) (h : Prices y P t)
    (hd : ∃ i < t, logR fl P (i + 1) ≠ logR fl P i) (hk : ((t + 9 : ℕ) : ℝ) * u64 < 1) :
    ∃ s m, (testR fl y).1[t]? = some (.fin s) ∧ (∃ n < t, depL (logR fl P) t n = m) ∧ (∀ n < t, depL (logR fl P) t n ≤ m) ∧
      |s - m| ≤ ((t + 9 : ℕ) : ℝ) * u64 / (1 - ((t + 9 : ℕ) : ℝ) * u64) * Real.sqrt t := by
  obtain ⟨n, hn, S, c, h1, -, hmax, -, hw, -⟩ := cusum_round R h0 h hd
  obtain ⟨m, hm, hmm⟩ := Finset.exists_max_image (range t) (depL (logR fl P) t) ⟨0, mem_range.2 h0⟩
  rw [mem_range] at hm
  refine ⟨S n, depL (logR fl P) t m, h1, ⟨m, hm, rfl⟩, fun j hj => hmm j (mem_range.2 hj), ?_⟩
  have hg : 0 ≤ ((t + 9 : ℕ) : ℝ) * u64 / (1 - ((t + 9 : ℕ) : ℝ) * u64) :=
    div_nonneg (mul_nonneg (Nat.cast_nonneg _) u64_pos.le) (by linarith)
  have hE : ∀ j < t, |S j - depL (logR fl P) t j| ≤
      ((t + 9 : ℕ) : ℝ) * u64 / (1 - ((t + 9 : ℕ) : ℝ) * u64) * Real.sqrt t := fun j hj =>
    ((hw j hj).err hk).trans (mul_le_mul_of_nonneg_left (depL_bound hj) hg)
  have a1 := abs_le.1 (hE n hn)
  have a2 := abs_le.1 (hE m hm)
  have a3 := hmax m hm
  have a4 := hmm n (mem_range.2 hn)
  exact abs_le.2 ⟨by linarith, by linarith⟩

/-- C109. The computed statistic is negative exactly when the rounded logarithm is below every earlier one. -/
theorem cusum_round_neg (R : Rounding fl) {y : Ser} {P : Nat → ℝ} {t : Nat} (h0 : 0 < t) (h : Prices y P t)
    (hd : ∃ i < t, logR fl P (i + 1) ≠ logR fl P i) :
    ∃ s, (testR fl y).1[t]? = some (.fin s) ∧ (s < 0 ↔ ∀ n < t, logR fl P t < logR fl P n) := by
  obtain ⟨n, hn, S, c, h1, -, hmax, -, hw, -⟩ := cusum_round R h0 h hd
  have hdp : 0 < devL (logR fl P) t := lt_of_le_of_ne (Real.sqrt_nonneg _) (Ne.symm ((devL_ne_zero_iff h0).2 hd))
  have key : ∀ j < t, depL (logR fl P) t j < 0 ↔ logR fl P t < logR fl P j := by
    intro j hj
    have hs : 0 < Real.sqrt ((t : ℝ) - j) := Real.sqrt_pos.2 (by
      have : (j : ℝ) < t := by exact_mod_cast hj
      linarith)
    rw [depL, div_lt_iff₀ (mul_pos hdp hs), zero_mul, sub_neg]
  refine ⟨S n, h1, fun hs j hj => ?_, fun hall => ?_⟩
  · exact (key j hj).1 ((hw j hj).neg_iff.1 ((hmax j hj).trans_lt hs))
  · exact (hw n hn).neg_iff.2 ((key n hn).2 (hall n hn))

/-- C109. When the rounded logarithms have been constant so far the statistic is NaN and the critical value that of the whole
history. -/
theorem cusum_round_constant (R : Rounding fl) {y : Ser} {P : Nat → ℝ} {t : Nat} (h0 : 0 < t) (h : Prices y P t)
    (hc : ∀ i < t, logR fl P (i + 1) = logR fl P i) :
    (testR fl y).1[t]? = some .nan ∧ (testR fl y).2[t]? = some (.fin (critR fl t)) := by
  have ht : t < y.length := (List.getElem?_eq_some_iff.1 (h t le_rfl).1).1
  have hd : devL (logR fl P) t = 0 := by
    by_contra hne
    obtain ⟨i, hi, hne⟩ := (devL_ne_zero_iff h0).1 hne
    exact hne (hc i hi)
  have hc0 : ∀ i ≤ t, logR fl P i = logR fl P 0 := by
    intro i
    induction i with
    | zero => simp
    | succ i ih => exact fun hi => (hc i (by omega)).trans (ih (by omega))
  have hsd : sdR fl (logR fl P) t = 0 := (sdR_within R _ t).zero_iff.2 hd
  have hne : departuresR fl (y.map fun v => rnd fl v.log) t ≠ [] := by
    rw [departuresR, ← List.length_pos_iff]; simpa using h0
  have hn : ∀ v ∈ departuresR fl (y.map fun v => rnd fl v.log) t, v = .nan := by
    intro v hv
    rw [departuresR] at hv
    obtain ⟨n, hn, rfl⟩ := List.mem_map.1 hv
    rw [List.mem_range] at hn
    rw [logsR_get h le_rfl, logsR_get h hn.le, sigmaHatR_eq R h h0, hsd, hc0 t le_rfl, hc0 n hn.le]
    simp [rnd, R.zero, XF.zero_div_zero]
  obtain ⟨m1, m2⟩ := max_nan hne hn
  have h1 : (1 : ℝ) ≤ t := by exact_mod_cast h0
  rw [(testR_get ht).1, (testR_get ht).2, stepR, if_neg (by omega), m1, m2, Nat.cast_zero, sub_zero, crit_eq R h1]
  exact ⟨rfl, rfl⟩

theorem pow_ge (k : Nat) (hk : (k : ℝ) * u64 ≤ 1 / 100) : 99 / 100 ≤ (1 - u64) ^ k := by
  have hb := one_add_mul_le_pow (a := -u64) (by linarith [u64_small]) k
  rw [← sub_eq_add_neg] at hb
  linarith

theorem sqrt46 : (2.14 : ℝ) ≤ Real.sqrt 4.6 ∧ Real.sqrt 4.6 ≤ 2.15 := by
  constructor
  · exact Real.le_sqrt_of_sq_le (by norm_num)
  · exact Real.sqrt_le_iff.2 ⟨by norm_num, by norm_num⟩

theorem small_u {k : Nat} (hk : k ≤ 1000) : (k : ℝ) * u64 ≤ 1 / 100 := by
  have : (k : ℝ) ≤ 1000 := by exact_mod_cast hk
  have hu : u64 ≤ 1 / 100000 := by rw [u64]; norm_num
  have := u64_pos
  nlinarith

/-- C109. Rounding cannot make the test reject at the first four steps. -/
theorem never_rejects_early_round (R : Rounding fl) {y : Ser} {P : Nat → ℝ} {t : Nat} (h0 : 0 < t) (h4 : t ≤ 4) (h : Prices y P t)
    (hd : ∃ i < t, logR fl P (i + 1) ≠ logR fl P i) :
    ∃ s c, (testR fl y).1[t]? = some (.fin s) ∧ (testR fl y).2[t]? = some (.fin c) ∧ s < c := by
  obtain ⟨n, hn, S, c, h1, h2, -, -, hw, hc⟩ := cusum_round R h0 h hd
  refine ⟨S n, c, h1, h2, ?_⟩
  obtain ⟨r, e, r1, r2⟩ := hw n hn
  obtain ⟨q, e', q1, -⟩ := hc
  have p1 := pow_ge (t + 9) (small_u (by omega))
  have p2 := pow_ge 4 (small_u (by omega))
  have hb := depL_bound (L := logR fl P) hn
  have h2' : Real.sqrt t ≤ 2 := by
    have : (t : ℝ) ≤ 4 := by exact_mod_cast h4
    exact Real.sqrt_le_iff.2 ⟨by norm_num, by linarith⟩
  have hr : 0 < r := by linarith
  have hr1 : r ≤ 100 / 99 := by nlinarith
  have hs : S n ≤ 100 / 99 * 2 := by
    rw [e]
    calc r * depL (logR fl P) t n ≤ r * |depL (logR fl P) t n| := mul_le_mul_of_nonneg_left (le_abs_self _) hr.le
      _ ≤ 100 / 99 * 2 := mul_le_mul hr1 (hb.trans h2') (abs_nonneg _) (by norm_num)
  have hc : 99 / 100 * 2.14 ≤ c := by
    rw [e']
    have e1 : (1 : ℝ) ≤ (t : ℝ) - n := by
      have : (n : ℝ) + 1 ≤ t := by exact_mod_cast hn
      linarith
    have : Real.sqrt 4.6 ≤ Real.sqrt (4.6 + Real.log ((t : ℝ) - n)) := Real.sqrt_le_sqrt (by linarith [Real.log_nonneg e1])
    exact mul_le_mul (p2.trans q1) (sqrt46.1.trans this) (by norm_num) (by linarith)
  norm_num at hs hc ⊢
  linarith

theorem depL_rise {L : Nat → ℝ} {t : Nat} (h0 : 0 < t) (hc : ∀ i < t, L i = L 0) (hr : L 0 < L t) {n : Nat} (hn : n < t) :
    depL L t n = Real.sqrt t / Real.sqrt ((t : ℝ) - n) := by
  have hl : 0 < L t - L 0 := by linarith
  have ht0 : (0 : ℝ) < t := by exact_mod_cast h0
  have hdev : devL L t = (L t - L 0) / Real.sqrt t := by
    obtain ⟨m, rfl⟩ : ∃ m, t = m + 1 := ⟨t - 1, by omega⟩
    rw [devL, Finset.sum_range_succ, Finset.sum_eq_zero, zero_add, Real.sqrt_div (sq_nonneg _), hc m (by omega), Real.sqrt_sq hl.le]
    intro i hi
    rw [mem_range] at hi
    rw [hc i (by omega), hc (i + 1) (by omega), sub_self]
    ring
  have hst : 0 < Real.sqrt t := Real.sqrt_pos.2 ht0
  have hs : 0 < Real.sqrt ((t : ℝ) - n) := Real.sqrt_pos.2 (by
    have : (n : ℝ) < t := by exact_mod_cast hn
    linarith)
  rw [depL, hdev, hc n hn]
  field_simp

/-- C109. After five or more prices with one rounded logarithm, a rise to a greater rounded logarithm is flagged, in series of any
practical length. -/
theorem first_rise_rejects_round (R : Rounding fl) {y : Ser} {P : Nat → ℝ} {t : Nat} (ht : 5 ≤ t)
    (hk : ((t + 9 : ℕ) : ℝ) * u64 ≤ 1 / 100) (h : Prices y P t) (hc : ∀ i < t, logR fl P i = logR fl P 0)
    (hr : logR fl P 0 < logR fl P t) :
    ∃ s c, (testR fl y).1[t]? = some (.fin s) ∧ (testR fl y).2[t]? = some (.fin c) ∧ c < s ∧
      Within (t + 9) s (Real.sqrt t) ∧ Within 4 c (Real.sqrt 4.6) := by
  have h0 : 0 < t := by omega
  have hd : ∃ i < t, logR fl P (i + 1) ≠ logR fl P i := by
    refine ⟨t - 1, by omega, ?_⟩
    rw [show t - 1 + 1 = t by omega, hc (t - 1) (by omega)]
    exact hr.ne'
  obtain ⟨n, hn, S, c, h1, h2, hmax, -, hw, hcc⟩ := cusum_round R h0 h hd
  have p1 := pow_ge (t + 9) hk
  have p2 := pow_ge 4 (small_u (by omega))
  have hst5 : (2.236 : ℝ) ≤ Real.sqrt t := by
    have : (5 : ℝ) ≤ t := by exact_mod_cast ht
    exact Real.le_sqrt_of_sq_le (by norm_num; linarith)
  have hw' : ∀ j < t, Within (t + 9) (S j) (Real.sqrt t / Real.sqrt ((t : ℝ) - j)) := fun j hj => by
    have := hw j hj
    rwa [depL_rise h0 hc hr hj] at this
  have hcast : (t : ℝ) - ((t - 1 : ℕ) : ℝ) = 1 := by rw [Nat.cast_sub (by omega), Nat.cast_one, sub_sub_cancel]
  have hlast : Within (t + 9) (S (t - 1)) (Real.sqrt t) := by
    have := hw' (t - 1) (by omega)
    rwa [hcast, Real.sqrt_one, div_one] at this
  obtain ⟨r, e, r1, -⟩ := id hlast
  have hn1 : n = t - 1 := by
    by_contra hne
    have h3 := hmax (t - 1) (by omega)
    obtain ⟨q, e', q1, q2⟩ := hw' n hn
    have hs2 : (1.4 : ℝ) ≤ Real.sqrt ((t : ℝ) - n) := by
      have : (n : ℝ) + 2 ≤ t := by exact_mod_cast (show n + 2 ≤ t by omega)
      exact Real.le_sqrt_of_sq_le (by norm_num; linarith)
    have hq : q ≤ 100 / 99 := by nlinarith
    have hst : 0 < Real.sqrt t := by linarith
    have hle : Real.sqrt t / Real.sqrt ((t : ℝ) - n) ≤ Real.sqrt t / 1.4 :=
      div_le_div_of_nonneg_left hst.le (by norm_num) hs2
    have hup : S n ≤ 100 / 99 * (Real.sqrt t / 1.4) := by
      rw [e']
      exact mul_le_mul hq hle (div_nonneg hst.le (Real.sqrt_nonneg _)) (by norm_num)
    have hlo : 99 / 100 * Real.sqrt t ≤ S (t - 1) := by
      rw [e]
      exact mul_le_mul_of_nonneg_right (p1.trans r1) hst.le
    norm_num at hup
    nlinarith
  rw [hn1] at h1 hcc
  rw [hcast, Real.log_one, add_zero] at hcc
  refine ⟨_, c, h1, h2, ?_, hlast, hcc⟩
  obtain ⟨q, e', q1, q2⟩ := hcc
  have hq : q ≤ 100 / 99 := by nlinarith
  have hcu : c ≤ 100 / 99 * 2.15 := by
    rw [e']
    exact mul_le_mul hq sqrt46.2 (Real.sqrt_nonneg _) (by norm_num)
  have hlo : 99 / 100 * 2.236 ≤ S (t - 1) := by
    rw [e]
    exact mul_le_mul (p1.trans r1) hst5 (by norm_num) (by linarith)
  norm_num at hcu hlo ⊢
  linarith

/-- C109. A rise by more than the rounding of the two logarithms reaches the test. -/
theorem rise_seen (R : Rounding fl) {p q : ℝ} (h : u64 * (|Real.log p| + |Real.log q|) < Real.log q - Real.log p) :
    fl (Real.log p) < fl (Real.log q) := by
  have h1 := abs_le.1 (R.rel (Real.log p))
  have h2 := abs_le.1 (R.rel (Real.log q))
  linarith [h1.2, h2.1]

/-- In the terms of prices: after five or more equal prices, a rise by more than the rounding of the logarithms is flagged. -/
theorem first_rise_seen (R : Rounding fl) {y : Ser} {p q : ℝ} {t : Nat} (ht : 5 ≤ t) (hk : ((t + 9 : ℕ) : ℝ) * u64 ≤ 1 / 100)
    (h : Prices y (fun i => if i < t then p else q) t)
    (hpq : u64 * (|Real.log p| + |Real.log q|) < Real.log q - Real.log p) :
    ∃ s c, (testR fl y).1[t]? = some (.fin s) ∧ (testR fl y).2[t]? = some (.fin c) ∧ c < s := by
  obtain ⟨s, c, h1, h2, h3, -, -⟩ := first_rise_rejects_round R ht hk h
    (fun i hi => by simp only [logR, hi, if_true, show 0 < t by omega])
    (by simpa [logR, show 0 < t by omega] using rise_seen R hpq)
  exact ⟨s, c, h1, h2, h3⟩

theorem log52 : (32 : ℝ) ≤ Real.log (2 ^ 52) ∧ Real.log (2 ^ 52) ≤ 37 := by
  rw [Real.log_pow]
  have h1 := Real.log_two_gt_d9
  have h2 := Real.log_two_lt_d9
  norm_num at h1 h2 ⊢
  constructor <;> linarith

/-- Logarithms between 32 and 64 are rounded to multiples of `2 ^ -47`. -/
theorem b64_grid {x : ℝ} (h1 : 32 ≤ x) (h2 : x < 64) : ∃ m : ℤ, b64 x = m * 2 ^ (-47 : ℤ) ∧ |b64 x - x| ≤ 2 ^ (-47 : ℤ) / 2 := by
  have hx : 0 < x := by linarith
  have hE : ulpExp x = -47 := ulp_unique (by rw [abs_of_pos hx]; norm_num; linarith) (by rw [abs_of_pos hx]; norm_num; linarith)
  refine ⟨rne (x / 2 ^ (-47 : ℤ)), by rw [b64, hE], ?_⟩
  have hp : (0 : ℝ) < 2 ^ (-47 : ℤ) := by positivity
  have h := abs_rne_sub (x / 2 ^ (-47 : ℤ))
  rw [b64, hE]
  have e : (rne (x / 2 ^ (-47 : ℤ)) : ℝ) * 2 ^ (-47 : ℤ) - x = (rne (x / 2 ^ (-47 : ℤ)) - x / 2 ^ (-47 : ℤ)) * 2 ^ (-47 : ℤ) := by
    field_simp
  rw [e, abs_mul, abs_of_pos hp]
  nlinarith

theorem log_step (k : ℝ) (h0 : 0 ≤ k) (h2 : k ≤ 2) : Real.log (2 ^ 52) ≤ Real.log (2 ^ 52 + k) ∧
    Real.log (2 ^ 52 + k) ≤ Real.log (2 ^ 52) + 2 / 2 ^ 52 := by
  refine ⟨Real.log_le_log (by norm_num) (by linarith), ?_⟩
  have e : (2 : ℝ) ^ 52 + k = 2 ^ 52 * (1 + k / 2 ^ 52) := by ring
  have hp : 0 < 1 + k / (2 : ℝ) ^ 52 := by positivity
  rw [e, Real.log_mul (by norm_num) hp.ne']
  have := Real.log_le_sub_one_of_pos hp
  have h3 : k / (2 : ℝ) ^ 52 ≤ 2 / 2 ^ 52 := by gcongr
  linarith

/-- Two neighbouring floating point numbers with one rounded logarithm. -/
theorem log_collision : ∃ k : ℕ, k < 2 ∧ b64 (Real.log (2 ^ 52 + k)) = b64 (Real.log (2 ^ 52 + (k + 1 : ℕ))) := by
  have hl := log52
  have hr : ∀ k : ℕ, k ≤ 2 → 32 ≤ Real.log (2 ^ 52 + k) ∧ Real.log (2 ^ 52 + k) < 64 ∧
      Real.log (2 ^ 52) ≤ Real.log (2 ^ 52 + k) ∧ Real.log (2 ^ 52 + k) ≤ Real.log (2 ^ 52) + 2 / 2 ^ 52 := fun k hk => by
    have := log_step k (Nat.cast_nonneg k) (by exact_mod_cast hk)
    refine ⟨by linarith, ?_, this.1, this.2⟩
    have h1 : (2 : ℝ) / 2 ^ 52 ≤ 1 := by norm_num
    have aux : ∀ a b c : ℝ, a ≤ b + c → b ≤ 37 → c ≤ 1 → a < 64 := fun a b c _ _ _ => by linarith
    exact aux _ _ _ this.2 hl.2 h1
  obtain ⟨m0, e0, a0⟩ := b64_grid (hr 0 (by omega)).1 (hr 0 (by omega)).2.1
  obtain ⟨m1, e1, a1⟩ := b64_grid (hr 1 (by omega)).1 (hr 1 (by omega)).2.1
  obtain ⟨m2, e2, a2⟩ := b64_grid (hr 2 (by omega)).1 (hr 2 (by omega)).2.1
  have hp : (0 : ℝ) < 2 ^ (-47 : ℤ) := by positivity
  have m01 : m0 ≤ m1 := by
    have : b64 (Real.log (2 ^ 52 + (0 : ℕ))) ≤ b64 (Real.log (2 ^ 52 + (1 : ℕ))) :=
      b64_mono (Real.log_le_log (by norm_num) (by norm_num))
    rw [e0, e1] at this
    exact_mod_cast le_of_mul_le_mul_right this hp
  have m12 : m1 ≤ m2 := by
    have : b64 (Real.log (2 ^ 52 + (1 : ℕ))) ≤ b64 (Real.log (2 ^ 52 + (2 : ℕ))) :=
      b64_mono (Real.log_le_log (by norm_num) (by norm_num))
    rw [e1, e2] at this
    exact_mod_cast le_of_mul_le_mul_right this hp
  have m02 : m2 < m0 + 2 := by
    have h0 := abs_le.1 a0
    have h2 := abs_le.1 a2
    have : (m2 : ℝ) * 2 ^ (-47 : ℤ) < (m0 + 2 : ℤ) * 2 ^ (-47 : ℤ) := by
      rw [← e2, Int.cast_add, add_mul, ← e0, Int.cast_ofNat]
      have c := (hr 2 (by omega)).2.2.2
      have c' := (hr 0 (by omega)).2.2.1
      have : (2 : ℝ) / 2 ^ 52 < 2 ^ (-47 : ℤ) := by norm_num
      have aux : ∀ B2 B0 L2 L0 L c h : ℝ, -(h / 2) ≤ B0 - L0 → B2 - L2 ≤ h / 2 → L2 ≤ L + c → L ≤ L0 → c < h → B2 < B0 + 2 * h :=
        fun _ _ _ _ _ _ _ _ _ _ _ _ => by linarith
      exact aux _ _ _ _ _ _ _ h0.1 h2.2 c c' this
    exact_mod_cast lt_of_mul_lt_mul_right this hp.le
  by_cases h : m0 = m1
  · exact ⟨0, by omega, by rw [e0, show (0 : ℕ) + 1 = 1 from rfl, e1, h]⟩
  · exact ⟨1, by omega, by rw [e1, show (1 : ℕ) + 1 = 2 from rfl, e2, show m1 = m2 by omega]⟩

/-- C109, negative. A rise the exact test flags, at prices that are floating point numbers, is not seen by the computed test: the
statistic is NaN, whatever the number of equal prices before it. -/
theorem cusum_blind : ∃ p q : ℝ, p < q ∧ b64 p = p ∧ b64 q = q ∧ ∀ (t : Nat) (y : Ser), 5 ≤ t →
    Prices y (fun i => if i < t then p else q) t →
    (testR b64 y).1[t]? = some .nan ∧ (test y).1[t]? = some (.fin (Real.sqrt t)) ∧
      (test y).2[t]? = some (.fin (Real.sqrt 4.6)) ∧ Real.sqrt 4.6 < Real.sqrt t := by
  obtain ⟨k, hk, e⟩ := log_collision
  have hfloat : ∀ j : ℕ, j ≤ 2 → b64 ((2 : ℝ) ^ 52 + j) = 2 ^ 52 + j := fun j hj => by
    have := b64_exact (m := (2 ^ 52 + j : ℤ)) (by rw [abs_of_nonneg (by positivity)]; norm_num; omega) 0
    rw [zpow_zero, mul_one] at this
    simpa only [Int.cast_add, Int.cast_pow, Int.cast_ofNat, Int.cast_natCast] using this
  have hlt : (2 : ℝ) ^ 52 + k < 2 ^ 52 + (k + 1 : ℕ) := by push_cast; linarith
  refine ⟨_, _, hlt, hfloat k (by omega), hfloat (k + 1) (by omega), fun t y ht h => ?_⟩
  refine ⟨(cusum_round_constant b64_rounding (by omega) h fun i hi => ?_).1, first_rise_rejects ht hlt h⟩
  simp only [logR, hi, if_true]
  split
  · rfl
  · exact e.symm

/-! ### Instances -/

/-- Five prices of one and a rise to two. -/
theorem rise_prices : Prices [.fin 1, .fin 1, .fin 1, .fin 1, .fin 1, .fin 2] (fun i => if i < 5 then 1 else 2) 5 := by
  intro i hi
  interval_cases i <;> norm_num

example : ∃ s c, (testR b64 [.fin 1, .fin 1, .fin 1, .fin 1, .fin 1, .fin 2]).1[5]? = some (.fin s) ∧
    (testR b64 [.fin 1, .fin 1, .fin 1, .fin 1, .fin 1, .fin 2]).2[5]? = some (.fin c) ∧ c < s := by
  refine first_rise_seen b64_rounding le_rfl (small_u (by omega)) rise_prices ?_
  have h := Real.log_pos (show (1 : ℝ) < 2 by norm_num)
  rw [Real.log_one, abs_zero, zero_add, sub_zero, abs_of_pos h]
  nlinarith [u64_small]

theorem rise_logs : ∃ i < 5, logR b64 (fun i => if i < 5 then (1 : ℝ) else 2) (i + 1) ≠ logR b64 (fun i => if i < 5 then (1 : ℝ) else 2) i := by
  refine ⟨4, by omega, ?_⟩
  have h := b64_pos (Real.log_pos (show (1 : ℝ) < 2 by norm_num))
  simp only [logR]
  norm_num
  rw [b64_zero]
  exact h.ne'

example : ∃ s, (testR b64 [.fin 1, .fin 1, .fin 1, .fin 1, .fin 1, .fin 2]).1[5]? = some (.fin s) ∧ ¬ s < 0 := by
  obtain ⟨s, h1, h2⟩ := cusum_round_neg b64_rounding (by omega) rise_prices rise_logs
  refine ⟨s, h1, fun hs => ?_⟩
  have := h2.1 hs 0 (by omega)
  have h := b64_pos (Real.log_pos (show (1 : ℝ) < 2 by norm_num))
  simp [logR, b64_zero] at this
  linarith

example : ∃ s m, (testR b64 [.fin 1, .fin 1, .fin 1, .fin 1, .fin 1, .fin 2]).1[5]? = some (.fin s) ∧
    |s - m| ≤ ((5 + 9 : ℕ) : ℝ) * u64 / (1 - ((5 + 9 : ℕ) : ℝ) * u64) * Real.sqrt (5 : ℕ) := by
  obtain ⟨s, m, h1, -, -, h2⟩ := cusum_round_error b64_rounding (by omega) rise_prices rise_logs
    (lt_of_le_of_lt (small_u (by omega)) (by norm_num))
  exact ⟨s, m, h1, h2⟩

example : ∃ s c, (testR b64 [.fin 1, .fin 2]).1[1]? = some (.fin s) ∧ (testR b64 [.fin 1, .fin 2]).2[1]? = some (.fin c) ∧ s < c := by
  refine never_rejects_early_round b64_rounding (P := fun i => if i < 1 then (1 : ℝ) else 2) (by omega) (by omega) ?_ ⟨0, by omega, ?_⟩
  · intro i hi
    interval_cases i <;> norm_num
  · have h := b64_pos (Real.log_pos (show (1 : ℝ) < 2 by norm_num))
    simp [logR, b64_zero, h.ne']

example : (testR b64 [.fin 3, .fin 3]).1[1]? = some .nan := by
  refine (cusum_round_constant b64_rounding (P := fun _ => 3) (by omega) ?_ fun _ _ => rfl).1
  intro i hi
  interval_cases i <;> norm_num

/-- A long quiet stretch before the unseen rise. -/
example (t : Nat) (p q : ℝ) (hp : 0 < p) (hq : 0 < q) :
    Prices ((List.replicate t (XF.fin p)) ++ [.fin q]) (fun i => if i < t then p else q) t := by
  intro i hi
  by_cases h : i < t
  · simp [h, List.getElem?_append, hp]
  · simp [show i = t by omega, hq]

end Verif.Props.Cusum
