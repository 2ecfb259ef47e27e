import Verif.Model.Cusum
import Verif.Props.MicroRoll
import Mathlib.Algebra.Order.Chebyshev
import Mathlib.Algebra.BigOperators.Module

/-!
# C60: the CUSUM statistic and its critical values
-/

namespace Verif.Props.Cusum

open Verif Ser Cusum Finset IndRolling

/-! ## Maximum and its position -/

theorem le_fin (a b : ℝ) : le (.fin a) (.fin b) ↔ a ≤ b := by
  simp only [le, XF.lt, XF.eq]
  exact le_iff_lt_or_eq.symm

theorem argmaxGo_lt (best : XF) (bi i : Nat) (x : Ser) (h : bi < i) : argmaxGo best bi i x < i + x.length := by
  induction x generalizing best bi i with
  | nil => simpa [argmaxGo] using h
  | cons v x ih =>
    rw [argmaxGo]
    split
    · simp; omega
    · split
      · have := ih best bi (i + 1) (by omega); simp; omega
      · have := ih v i (i + 1) (by omega); simp; omega

theorem argmax_lt {x : Ser} (h : x ≠ []) : argmax x < x.length := by
  cases x with
  | nil => exact absurd rfl h
  | cons a x =>
    have := argmaxGo_lt a 0 1 x (by omega)
    simp [argmax]
    omega

theorem maximum_fin (a b : ℝ) : maximum (.fin a) (.fin b) = .fin (max a b) := by
  rw [maximum, if_neg (by simp), if_neg (by simp)]
  by_cases h : a < b
  · rw [if_pos ((XF.lt_fin a b).2 h), max_eq_right h.le]
  · rw [if_neg (mt (XF.lt_fin a b).1 h), max_eq_left (not_lt.1 h)]

/-- `np.max` and `np.argmax` of numbers: the greatest value and its first position. -/
theorem argmaxGo_spec (f : Nat → ℝ) (k m bi i : Nat) (hbi : bi < i) (hk : i + m = k)
    (h1 : ∀ j < i, f j ≤ f bi) (h2 : ∀ j < bi, f j < f bi) :
    ∃ n, argmaxGo (.fin (f bi)) bi i ((List.range' i m).map fun j => .fin (f j)) = n ∧ n < k ∧
      ((List.range' i m).map fun j => XF.fin (f j)).foldl maximum (.fin (f bi)) = .fin (f n) ∧
      (∀ j < k, f j ≤ f n) ∧ ∀ j < n, f j < f n := by
  induction m generalizing bi i with
  | zero =>
    refine ⟨bi, by simp [argmaxGo], by omega, by simp, fun j hj => h1 j (by omega), h2⟩
  | succ m ih =>
    rw [List.range'_succ, List.map_cons, argmaxGo, if_neg (by simp), List.foldl_cons, maximum_fin]
    by_cases h : f i ≤ f bi
    · rw [if_pos ((le_fin _ _).2 h), max_eq_left h]
      refine ih bi (i + 1) (by omega) (by omega) (fun j hj => ?_) h2
      rcases Nat.lt_succ_iff_lt_or_eq.1 hj with h' | rfl
      · exact h1 j h'
      · exact h
    · rw [if_neg (by rw [le_fin]; exact h), max_eq_right (not_le.1 h).le]
      refine ih i (i + 1) (by omega) (by omega) (fun j hj => ?_) fun j hj => (h1 j hj).trans_lt (not_le.1 h)
      rcases Nat.lt_succ_iff_lt_or_eq.1 hj with h' | rfl
      · exact (h1 j h').trans (not_le.1 h).le
      · exact le_rfl

theorem max_spec {k : Nat} (hk : 0 < k) (f : Nat → ℝ) :
    ∃ n, argmax ((List.range k).map fun j => .fin (f j)) = n ∧ n < k ∧
      npMax ((List.range k).map fun j => .fin (f j)) = .fin (f n) ∧ (∀ j < k, f j ≤ f n) ∧ ∀ j < n, f j < f n := by
  obtain ⟨m, rfl⟩ : ∃ m, k = m + 1 := ⟨k - 1, by omega⟩
  rw [List.range_eq_range', List.range'_succ, List.map_cons, argmax, npMax]
  exact argmaxGo_spec f (m + 1) m 0 1 (by omega) (by omega) (fun j hj => by
    rw [show j = 0 by omega]) fun j hj => by omega

/-- With a NaN first both stop there. -/
theorem max_nan {x : Ser} (h : x ≠ []) (hx : ∀ v ∈ x, v = .nan) : argmax x = 0 ∧ npMax x = .nan := by
  cases x with
  | nil => exact absurd rfl h
  | cons a x =>
    have ha := hx a (by simp)
    subst ha
    constructor
    · cases x <;> simp [argmax, argmaxGo]
    · rw [npMax]
      clear h hx
      induction x with
      | nil => rfl
      | cons b x ih => rw [List.foldl_cons, maximum, if_pos rfl, ih]

/-! ## The statistic over the reals -/

/-- The deviation estimate at `t`: root mean square of the log returns so far. -/
noncomputable def dev (P : Nat → ℝ) (t : Nat) : ℝ :=
  Real.sqrt ((∑ i ∈ range t, (Real.log (P (i + 1)) - Real.log (P i)) ^ 2) / t)

/-- The standardised departure of `t` from `n`. -/
noncomputable def dep (P : Nat → ℝ) (t n : Nat) : ℝ :=
  (Real.log (P t) - Real.log (P n)) / (dev P t * Real.sqrt ((t : ℝ) - n))

/-- The first `t + 1` prices are the positive numbers `P i`. -/
def Prices (y : Ser) (P : Nat → ℝ) (t : Nat) : Prop := ∀ i ≤ t, y[i]? = some (.fin (P i)) ∧ 0 < P i

theorem logs_get {y : Ser} {P : Nat → ℝ} {t : Nat} (h : Prices y P t) {i : Nat} (hi : i ≤ t) :
    (y.map XF.log)[i]? = some (.fin (Real.log (P i))) := by
  rw [List.getElem?_map, (h i hi).1, Option.map_some, XF.log_fin (h i hi).2]

theorem sqDiffs_take {y : Ser} {P : Nat → ℝ} {t : Nat} (h : Prices y P t) :
    (sqDiffs (y.map XF.log)).take t = (List.range t).map fun i => .fin ((Real.log (P (i + 1)) - Real.log (P i)) ^ 2) := by
  apply List.ext_getElem?
  intro i
  by_cases hi : i < t
  · rw [List.getElem?_take, if_pos hi, List.getElem?_map, List.getElem?_range hi, sqDiffs, List.getElem?_zipWith,
      logs_get h (by omega), List.getElem?_tail, logs_get h (by omega)]
    simp [XF.sqF_fin]
  · rw [List.getElem?_eq_none (by simp; omega), List.getElem?_eq_none (by simp; omega)]

theorem foldl_fin (l : List ℝ) (a : ℝ) : (l.map XF.fin).foldl (· + ·) (.fin a) = .fin (a + l.sum) := by
  induction l generalizing a with
  | nil => simp
  | cons b l ih => simp [ih, add_assoc]

theorem sigmaHat_eq {y : Ser} {P : Nat → ℝ} {t : Nat} (h : Prices y P t) (ht : 0 < t) :
    sigmaHat (y.map XF.log) t = .fin (dev P t) := by
  have h0 : (t : ℝ) ≠ 0 := by positivity
  have e : (List.range t).map (fun i => XF.fin ((Real.log (P (i + 1)) - Real.log (P i)) ^ 2)) =
      ((List.range t).map fun i => (Real.log (P (i + 1)) - Real.log (P i)) ^ 2).map .fin := by
    rw [List.map_map]; rfl
  rw [sigmaHat, sqDiffs_take h, e, foldl_fin, sum_range_list, zero_add, XF.div_fin h0, XF.sqrt_fin, dev]
  exact div_nonneg (Finset.sum_nonneg fun i _ => sq_nonneg _) (Nat.cast_nonneg t)

theorem departures_eq {y : Ser} {P : Nat → ℝ} {t : Nat} (h : Prices y P t) (ht : 0 < t) (hd : dev P t ≠ 0) :
    departures (y.map XF.log) t = (List.range t).map fun n => .fin (dep P t n) := by
  rw [departures]
  refine List.map_congr_left fun n hn => ?_
  rw [List.mem_range] at hn
  have hs : Real.sqrt ((t : ℝ) - n) ≠ 0 := by
    have : (n : ℝ) < t := by exact_mod_cast hn
    exact (Real.sqrt_pos.2 (by linarith)).ne'
  rw [logs_get h le_rfl, logs_get h hn.le, sigmaHat_eq h ht]
  simp only [Option.getD_some, XF.sub_fin, XF.mul_fin]
  rw [XF.div_fin (mul_ne_zero hd hs), dep]

theorem test_get {y : Ser} {t : Nat} (ht : t < y.length) :
    (test y).1[t]? = some (step (y.map XF.log) t).1 ∧ (test y).2[t]? = some (step (y.map XF.log) t).2 := by
  simp [test, List.getElem?_range ht]

/-- Both outputs have the length of the series and are zero at the first position. -/
theorem cusum_first (y : Ser) : (test y).1.length = y.length ∧ (test y).2.length = y.length ∧
    (0 < y.length → (test y).1[0]? = some (.fin 0) ∧ (test y).2[0]? = some (.fin 0)) := by
  refine ⟨by simp [test], by simp [test], fun h => ?_⟩
  rw [(test_get h).1, (test_get h).2]
  simp [step]

/-- Whatever the data, each later critical value is a number between `sqrt 4.6` and `sqrt (4.6 + log t)`. -/
theorem crit_range {y : Ser} {t : Nat} (h0 : 0 < t) (ht : t < y.length) :
    ∃ c, (test y).2[t]? = some (.fin c) ∧ Real.sqrt 4.6 ≤ c ∧ c ≤ Real.sqrt (4.6 + Real.log t) := by
  have hne : departures (y.map XF.log) t ≠ [] := by
    rw [departures, ← List.length_pos_iff]; simpa using h0
  have ha : argmax (departures (y.map XF.log) t) < t := by
    have := argmax_lt hne
    rwa [departures, List.length_map, List.length_range] at this
  rw [(test_get ht).2, step, if_neg (by omega)]
  generalize argmax (departures (y.map XF.log) t) = n at ha
  have h1 : (n : ℝ) + 1 ≤ t := by exact_mod_cast ha
  have h2 : (0 : ℝ) ≤ n := Nat.cast_nonneg n
  have hl := Real.log_nonneg (show (1 : ℝ) ≤ (t : ℝ) - n by linarith)
  have hl' := Real.log_le_log (show (0 : ℝ) < (t : ℝ) - n by linarith) (show (t : ℝ) - n ≤ t by linarith)
  refine ⟨_, by rw [XF.sqrt_fin (by linarith)], Real.sqrt_le_sqrt (by linarith), Real.sqrt_le_sqrt (by linarith)⟩

/-- The statistic on positive prices that are not constant so far: the greatest standardised departure over all earlier
reference points, and the critical value belongs to the earliest reference point that attains it. -/
theorem cusum_spec {y : Ser} {P : Nat → ℝ} {t : Nat} (h0 : 0 < t) (h : Prices y P t) (hd : dev P t ≠ 0) :
    ∃ n < t, (∀ j < t, dep P t j ≤ dep P t n) ∧ (∀ j < n, dep P t j < dep P t n) ∧
      (test y).1[t]? = some (.fin (dep P t n)) ∧
      (test y).2[t]? = some (.fin (Real.sqrt (4.6 + Real.log ((t : ℝ) - n)))) := by
  have ht : t < y.length := (List.getElem?_eq_some_iff.1 (h t le_rfl).1).1
  obtain ⟨n, h1, h2, h3, h4, h5⟩ := max_spec h0 (dep P t)
  refine ⟨n, h2, h4, h5, ?_, ?_⟩
  · rw [(test_get ht).1, step, if_neg (by omega), departures_eq h h0 hd, h3]
  · rw [(test_get ht).2, step, if_neg (by omega), departures_eq h h0 hd, h1]
    have e1 : (n : ℝ) + 1 ≤ t := by exact_mod_cast h2
    have hl := Real.log_nonneg (show (1 : ℝ) ≤ (t : ℝ) - n by linarith)
    rw [XF.sqrt_fin (by linarith)]

theorem dev_zero_iff {P : Nat → ℝ} {t : Nat} (h0 : 0 < t) :
    dev P t = 0 ↔ ∀ i < t, Real.log (P (i + 1)) = Real.log (P i) := by
  have ht : (0 : ℝ) < t := by exact_mod_cast h0
  have hs : 0 ≤ ∑ i ∈ range t, (Real.log (P (i + 1)) - Real.log (P i)) ^ 2 :=
    Finset.sum_nonneg fun i _ => sq_nonneg _
  rw [dev, Real.sqrt_eq_zero (div_nonneg hs ht.le), div_eq_zero_iff, or_iff_left ht.ne',
    Finset.sum_eq_zero_iff_of_nonneg fun i _ => sq_nonneg _]
  constructor
  · intro h i hi
    have := h i (by simpa using hi)
    exact sub_eq_zero.1 (pow_eq_zero_iff (by norm_num) |>.1 this)
  · intro h i hi
    rw [h i (by simpa using hi), sub_self]
    ring

/-- The hypothesis of `cusum_spec` says that two consecutive prices differ. -/
theorem dev_ne_zero_iff {P : Nat → ℝ} {t : Nat} (h0 : 0 < t) (hP : ∀ i ≤ t, 0 < P i) :
    dev P t ≠ 0 ↔ ∃ i < t, P (i + 1) ≠ P i := by
  rw [Ne, dev_zero_iff h0, not_forall]
  simp only [not_forall]
  constructor
  · rintro ⟨i, hi, h⟩
    exact ⟨i, hi, fun e => h (by rw [e])⟩
  · rintro ⟨i, hi, h⟩
    exact ⟨i, hi, fun e => h (Real.log_injOn_pos (hP _ (by omega)) (hP _ (by omega)) e)⟩

/-- Constant prices: the statistic is NaN and the critical value that of the whole history. -/
theorem cusum_constant {y : Ser} {P : ℝ} {t : Nat} (h0 : 0 < t) (h : Prices y (fun _ => P) t) :
    (test y).1[t]? = some .nan ∧ (test y).2[t]? = some (.fin (Real.sqrt (4.6 + Real.log t))) := by
  have ht : t < y.length := (List.getElem?_eq_some_iff.1 (h t le_rfl).1).1
  have hd : dev (fun _ => P) t = 0 := (dev_zero_iff h0).2 fun _ _ => rfl
  have hne : departures (y.map XF.log) t ≠ [] := by
    rw [departures, ← List.length_pos_iff]; simpa using h0
  have hn : ∀ v ∈ departures (y.map XF.log) t, v = .nan := by
    intro v hv
    rw [departures] at hv
    obtain ⟨n, hn, rfl⟩ := List.mem_map.1 hv
    rw [List.mem_range] at hn
    rw [logs_get h le_rfl, logs_get h hn.le, sigmaHat_eq h h0, hd]
    simp only [Option.getD_some, XF.sub_fin, XF.mul_fin, sub_self, zero_mul, XF.zero_div_zero]
  obtain ⟨m1, m2⟩ := max_nan hne hn
  rw [(test_get ht).1, (test_get ht).2, step, if_neg (by omega), m1, m2]
  refine ⟨rfl, ?_⟩
  have : 0 ≤ Real.log t := Real.log_nonneg (by exact_mod_cast h0)
  rw [Nat.cast_zero, sub_zero, XF.sqrt_fin (by linarith)]

/-! ## Bounds -/

theorem telescope (g : Nat → ℝ) {n t : Nat} (h : n ≤ t) : g t - g n = ∑ i ∈ Ico n t, (g (i + 1) - g i) :=
  (Finset.sum_Ico_sub g h).symm

/-- Every departure is at most `sqrt t` in absolute value. -/
theorem dep_bound {P : Nat → ℝ} {t n : Nat} (hn : n < t) : |dep P t n| ≤ Real.sqrt t := by
  have h0 : 0 < t := by omega
  have ht : (0 : ℝ) < t := by exact_mod_cast h0
  by_cases hd : dev P t = 0
  · rw [dep, hd, zero_mul, div_zero, abs_zero]
    exact Real.sqrt_nonneg _
  have hn' : (n : ℝ) < t := by exact_mod_cast hn
  have hdp : 0 < dev P t := lt_of_le_of_ne (Real.sqrt_nonneg _) (Ne.symm hd)
  have hs : 0 < Real.sqrt ((t : ℝ) - n) := Real.sqrt_pos.2 (by linarith)
  rw [dep, abs_div, abs_of_pos (mul_pos hdp hs), div_le_iff₀ (mul_pos hdp hs)]
  apply abs_le_of_sq_le_sq _ (by positivity)
  rw [mul_pow, mul_pow, Real.sq_sqrt ht.le, Real.sq_sqrt (by linarith), dev, Real.sq_sqrt
    (div_nonneg (Finset.sum_nonneg fun i _ => sq_nonneg _) ht.le)]
  set g := fun i => Real.log (P i)
  have e := telescope g hn.le
  have cs := sq_sum_le_card_mul_sum_sq (s := Ico n t) (f := fun i => g (i + 1) - g i)
  have sub : ∑ i ∈ Ico n t, (g (i + 1) - g i) ^ 2 ≤ ∑ i ∈ range t, (g (i + 1) - g i) ^ 2 :=
    Finset.sum_le_sum_of_subset_of_nonneg (fun i hi => by
      rw [mem_Ico] at hi; rw [mem_range]; exact hi.2) fun i _ _ => sq_nonneg _
  rw [← e, Nat.card_Ico, Nat.cast_sub hn.le] at cs
  have : (t : ℝ) * ((∑ i ∈ range t, (g (i + 1) - g i) ^ 2) / t * ((t : ℝ) - n)) =
      ((t : ℝ) - n) * ∑ i ∈ range t, (g (i + 1) - g i) ^ 2 := by field_simp
  rw [this]
  exact cs.trans (mul_le_mul_of_nonneg_left sub (by linarith))

/-- The statistic at `t` is at most `sqrt t`, so the test cannot reject at the first four steps, whatever the prices. -/
theorem never_rejects_early {y : Ser} {P : Nat → ℝ} {t : Nat} (h0 : 0 < t) (h4 : t ≤ 4) (h : Prices y P t)
    (hd : dev P t ≠ 0) : ∃ s c, (test y).1[t]? = some (.fin s) ∧ (test y).2[t]? = some (.fin c) ∧ s < c := by
  obtain ⟨n, hn, -, -, h1, h2⟩ := cusum_spec h0 h hd
  obtain ⟨c, hc, hc1, -⟩ := crit_range h0 (List.getElem?_eq_some_iff.1 (h t le_rfl).1).1
  refine ⟨_, c, h1, hc, lt_of_lt_of_le ?_ hc1⟩
  refine (le_abs_self _).trans_lt ((dep_bound hn).trans_lt ?_)
  have : (t : ℝ) ≤ 4 := by exact_mod_cast h4
  exact Real.sqrt_lt_sqrt (Nat.cast_nonneg t) (by norm_num; linarith)

/-- After five or more equal prices any rise, however small, is flagged: the statistic is `sqrt t`, the critical value
`sqrt 4.6`. -/
theorem first_rise_rejects {y : Ser} {p q : ℝ} {t : Nat} (ht : 5 ≤ t) (hpq : p < q)
    (h : Prices y (fun i => if i < t then p else q) t) :
    (test y).1[t]? = some (.fin (Real.sqrt t)) ∧ (test y).2[t]? = some (.fin (Real.sqrt 4.6)) ∧
      Real.sqrt 4.6 < Real.sqrt t := by
  set P : Nat → ℝ := fun i => if i < t then p else q with hP
  have h0 : 0 < t := by omega
  have ht0 : (0 : ℝ) < t := by exact_mod_cast h0
  have hp : 0 < p := by have := (h 0 (by omega)).2; simpa [hP, h0] using this
  have hl : 0 < Real.log q - Real.log p := sub_pos.2 (Real.log_lt_log hp hpq)
  have hdev : dev P t = (Real.log q - Real.log p) / Real.sqrt t := by
    obtain ⟨m, rfl⟩ : ∃ m, t = m + 1 := ⟨t - 1, by omega⟩
    rw [dev, Finset.sum_range_succ, Finset.sum_eq_zero, zero_add, Real.sqrt_div (sq_nonneg _)]
    · simp only [hP, lt_irrefl, if_false, Nat.lt_succ_self, if_true]
      rw [Real.sqrt_sq hl.le]
    · intro i hi
      rw [mem_range] at hi
      simp [hP, show i < m by omega, show i ≤ m by omega]
  have hst : 0 < Real.sqrt t := Real.sqrt_pos.2 ht0
  have hd : dev P t ≠ 0 := by rw [hdev]; exact (div_pos hl hst).ne'
  have hdep : ∀ n < t, dep P t n = Real.sqrt t / Real.sqrt ((t : ℝ) - n) := by
    intro n hn
    have hs : 0 < Real.sqrt ((t : ℝ) - n) := Real.sqrt_pos.2 (by
      have : (n : ℝ) < t := by exact_mod_cast hn
      linarith)
    rw [dep, hdev]
    simp only [hP, lt_irrefl, if_false, hn, if_true]
    field_simp
  obtain ⟨n, hn, hmax, hfirst, h1, h2⟩ := cusum_spec h0 h hd
  have hn1 : n = t - 1 := by
    by_contra hne
    have h3 := hmax (t - 1) (by omega)
    rw [hdep _ hn, hdep _ (by omega), Nat.cast_sub (by omega), Nat.cast_one, sub_sub_cancel, Real.sqrt_one, div_one,
      le_div_iff₀ (Real.sqrt_pos.2 (by
        have : (n : ℝ) < t := by exact_mod_cast hn
        linarith))] at h3
    have h4 : (1 : ℝ) < Real.sqrt ((t : ℝ) - n) := by
      rw [Real.lt_sqrt (by norm_num)]
      have : (n : ℝ) + 1 < t := by exact_mod_cast (show n + 1 < t by omega)
      linarith
    nlinarith
  have hcast : (t : ℝ) - ((t - 1 : ℕ) : ℝ) = 1 := by rw [Nat.cast_sub (by omega), Nat.cast_one, sub_sub_cancel]
  rw [hn1, hcast, Real.log_one, add_zero] at h2
  rw [hn1, hdep _ (by omega), hcast, Real.sqrt_one, div_one] at h1
  refine ⟨h1, h2, Real.sqrt_lt_sqrt (by norm_num) ?_⟩
  have : (5 : ℝ) ≤ t := by exact_mod_cast ht
  norm_num
  linarith

/-- The statistic is negative exactly when the price is below every earlier price. -/
theorem cusum_neg_iff {y : Ser} {P : Nat → ℝ} {t : Nat} (h0 : 0 < t) (h : Prices y P t) (hd : dev P t ≠ 0) :
    ∃ s, (test y).1[t]? = some (.fin s) ∧ (s < 0 ↔ ∀ n < t, P t < P n) := by
  obtain ⟨n, hn, hmax, -, h1, -⟩ := cusum_spec h0 h hd
  have hdp : 0 < dev P t := lt_of_le_of_ne (Real.sqrt_nonneg _) (Ne.symm hd)
  have key : ∀ j < t, dep P t j < 0 ↔ P t < P j := by
    intro j hj
    have hs : 0 < Real.sqrt ((t : ℝ) - j) := Real.sqrt_pos.2 (by
      have : (j : ℝ) < t := by exact_mod_cast hj
      linarith)
    rw [dep, div_lt_iff₀ (mul_pos hdp hs), zero_mul, sub_neg, Real.log_lt_log_iff (h t le_rfl).2 (h j hj.le).2]
  refine ⟨_, h1, fun hs j hj => (key j hj).1 ((hmax j hj).trans_lt hs), fun hs => (key n hn).2 (hs n hn)⟩

/-! ## Units, powers, the future -/

/-- The test does not depend on the price unit, whatever the data. -/
theorem cusum_scale {k : ℝ} (hk : 0 < k) (y : Ser) : test (scale k y) = test y := by
  have e : (scale k y).map XF.log = (y.map XF.log).map (· + .fin (Real.log k)) := by
    rw [scale, List.map_map, List.map_map]
    exact List.map_congr_left fun a _ => MicroRoll.log_mul_pos hk a
  have hsq : ∀ l : Ser, sqDiffs (l.map (· + .fin (Real.log k))) = sqDiffs l := by
    intro l
    rw [sqDiffs, sqDiffs, ← List.map_tail, List.zipWith_map]
    simp only [MicroRoll.add_sub_add_fin]
  have hget : ∀ (l : Ser) (i : Nat), ((l.map (· + .fin (Real.log k)))[i]?).getD .nan =
      (l[i]?).getD .nan + .fin (Real.log k) := by
    intro l i
    rw [List.getElem?_map]
    cases l[i]? <;> simp
  have hdep : ∀ (l : Ser) (t : Nat), departures (l.map (· + .fin (Real.log k))) t = departures l t := by
    intro l t
    rw [departures, departures]
    simp only [hget, sigmaHat, hsq, MicroRoll.add_sub_add_fin]
  have hl : (scale k y).length = y.length := by simp [scale]
  rw [test, test, e, hl]
  simp only [step, hdep]

theorem dev_rpow {P : Nat → ℝ} {a : ℝ} {t : Nat} (ha : 0 < a) (hP : ∀ i ≤ t, 0 < P i) :
    dev (fun i => P i ^ a) t = a * dev P t := by
  have e : ∑ i ∈ range t, (Real.log (P (i + 1) ^ a) - Real.log (P i ^ a)) ^ 2 =
      a ^ 2 * ∑ i ∈ range t, (Real.log (P (i + 1)) - Real.log (P i)) ^ 2 := by
    rw [Finset.mul_sum]
    refine Finset.sum_congr rfl fun i hi => ?_
    rw [mem_range] at hi
    rw [Real.log_rpow (hP _ (by omega)), Real.log_rpow (hP _ (by omega))]
    ring
  rw [dev, e, mul_div_assoc, Real.sqrt_mul (sq_nonneg a), Real.sqrt_sq ha.le, dev]

/-- Nor on a positive power of the prices (a multiple of the log prices). -/
theorem cusum_power {y z : Ser} {P : Nat → ℝ} {a : ℝ} {t : Nat} (h0 : 0 < t) (ha : 0 < a) (h : Prices y P t)
    (hz : Prices z (fun i => P i ^ a) t) (hd : dev P t ≠ 0) :
    (test z).1[t]? = (test y).1[t]? ∧ (test z).2[t]? = (test y).2[t]? := by
  have hP : ∀ i ≤ t, 0 < P i := fun i hi => (h i hi).2
  have hdev := dev_rpow ha hP
  have e : departures (z.map XF.log) t = departures (y.map XF.log) t := by
    rw [departures_eq h h0 hd, departures_eq hz h0 (by rw [hdev]; exact mul_ne_zero ha.ne' hd)]
    refine List.map_congr_left fun n hn => ?_
    rw [List.mem_range] at hn
    rw [dep, dep, hdev, Real.log_rpow (hP _ le_rfl), Real.log_rpow (hP _ hn.le), ← mul_sub, mul_assoc,
      mul_div_mul_left _ _ ha.ne']
  have ty := (List.getElem?_eq_some_iff.1 (h t le_rfl).1).1
  have tz := (List.getElem?_eq_some_iff.1 (hz t le_rfl).1).1
  rw [(test_get ty).1, (test_get ty).2, (test_get tz).1, (test_get tz).2, step, step, e]
  exact ⟨rfl, rfl⟩

/-- The outputs up to a position depend on the prices up to that position only. -/
theorem cusum_causal (y : Ser) (t : Nat) : test (y.take t) = ((test y).1.take t, (test y).2.take t) := by
  have key : ∀ s, s < t → step ((y.take t).map XF.log) s = step (y.map XF.log) s := by
    intro s hs
    have hget : ∀ i, i ≤ s → ((y.take t).map XF.log)[i]? = (y.map XF.log)[i]? := by
      intro i hi
      rw [List.getElem?_map, List.getElem?_map, List.getElem?_take, if_pos (by omega)]
    have hsig : sigmaHat ((y.take t).map XF.log) s = sigmaHat (y.map XF.log) s := by
      rw [sigmaHat, sigmaHat]
      congr 3
      apply List.ext_getElem?
      intro i
      by_cases hi : i < s
      · rw [List.getElem?_take, List.getElem?_take, if_pos hi, if_pos hi, sqDiffs, sqDiffs, List.getElem?_zipWith,
          List.getElem?_zipWith, List.getElem?_tail, List.getElem?_tail, hget i (by omega), hget (i + 1) (by omega)]
      · rw [List.getElem?_take, List.getElem?_take, if_neg hi, if_neg hi]
    have hdep : departures ((y.take t).map XF.log) s = departures (y.map XF.log) s := by
      rw [departures, departures, hsig]
      refine List.map_congr_left fun n hn => ?_
      rw [List.mem_range] at hn
      rw [hget s le_rfl, hget n hn.le]
    rw [step, step, hdep]
  have hr : List.range (y.take t).length = (List.range y.length).take t := by
    rw [List.length_take, List.take_range]
  have hmap : ∀ g : XF × XF → XF, (List.range (y.take t).length).map (fun s => g (step ((y.take t).map XF.log) s)) =
      ((List.range y.length).map fun s => g (step (y.map XF.log) s)).take t := by
    intro g
    rw [← List.map_take, ← hr]
    refine List.map_congr_left fun s hs => ?_
    rw [List.mem_range, List.length_take] at hs
    rw [key s (by omega)]
  simp only [test]
  exact Prod.ext (hmap Prod.fst) (hmap Prod.snd)

/-- Concrete case: prices 1, 1, 1, 1, 1, 2: the last is flagged with statistic `sqrt 5`. -/
example : (test ([.fin 1, .fin 1, .fin 1, .fin 1, .fin 1, .fin 2] : Ser)).1[5]? = some (.fin (Real.sqrt (5 : ℕ))) :=
  (first_rise_rejects (y := [.fin 1, .fin 1, .fin 1, .fin 1, .fin 1, .fin 2]) (t := 5) (p := 1) (q := 2) le_rfl (by norm_num)
    (fun i hi => by
      match i, hi with
      | 0, _ => exact ⟨rfl, by norm_num⟩
      | 1, _ => exact ⟨rfl, by norm_num⟩
      | 2, _ => exact ⟨rfl, by norm_num⟩
      | 3, _ => exact ⟨rfl, by norm_num⟩
      | 4, _ => exact ⟨rfl, by norm_num⟩
      | 5, _ => exact ⟨rfl, by norm_num⟩
      | i + 6, h => omega)).1

end Verif.Props.Cusum
