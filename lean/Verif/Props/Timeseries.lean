import Verif.Lemmas.Timeseries
import Mathlib.Tactic.NormNum
import Mathlib.Tactic.Positivity
import Mathlib.Tactic.IntervalCases

/-!
# C31 – C33: frequency inference
-/

namespace Verif.TS

/-! ### C31 -/

/-- Every code has a positive duration of at most a year. -/
private theorem code_duration (f : Freq) : ∃ d, freqToDuration f.code = some d ∧ 0 < d ∧ d ≤ 1 := by
  cases f
  all_goals
    refine ⟨_, rfl, ?_, ?_⟩ <;> norm_num

/-- C31. Fewer than three points: no answer. -/
theorem freq_none_short {idx : List Int} (h : idx.length < 3) :
    timeSeriesFreq (.datetimeIndex idx) = none ∧ timeSeriesFreq (.pandasWithDatetimeIndex idx) = none := by
  have hd : (npDiff idx).length < 2 := by
    match idx, h with
    | [], _ => simp [npDiff]
    | [_], _ => simp [npDiff]
    | [_, _], _ => simp [npDiff]
  simp only [timeSeriesFreq]
  unfold freqOfIndex
  simp only [if_pos hd, and_self]

/-- C31. Unknown codes have no duration; the anchored codes of `pd.infer_freq` are among them. -/
theorem freqToDuration_eq_none_iff (s : String) : freqToDuration s = none ↔
    s ∉ ["D", "B", "W", "M", "ME", "MS", "Q", "QE", "QS", "Y", "YE", "YS"] := by
  unfold freqToDuration durationMap
  simp only [List.lookup_eq_none_iff, List.mem_cons, List.not_mem_nil, or_false]
  simp only [forall_eq_or_imp, forall_eq, beq_eq_false_iff_ne, bne_iff_ne]
  tauto

example : freqToDuration "W-SUN" = none ∧ freqToDuration "QE-DEC" = none := by
  constructor <;> rw [freqToDuration_eq_none_iff] <;> decide

/-! ### C32 -/

theorem freq_smallSteps {t : Nat → Int} {n : Nat} (h : SmallSteps t (n + 1)) (hn : 2 ≤ n) :
    freqOfIndex ((List.range (n + 1)).map t) =
      (let deltas := (List.range n).map fun i => t (i + 1) - t i
       open Classical in
       if (n : Int) - countDelta 1 deltas ≤ 2 then some .D
       else if (9 / 10 : ℚ) ≤ (countWeekday deltas : ℚ) / n then some .B
       else if dominates (countDelta 7 deltas) n then some .W
       else none) := by
  obtain ⟨h1, h2, h3, h4, h5, h6⟩ := smallSteps_not_dominated h
  unfold freqOfIndex
  rw [npDiff_range]
  dsimp only
  rw [List.length_map, List.length_map, List.length_range, List.length_range]
  rw [if_neg (by omega), if_neg h1, if_neg h2, if_neg h3, if_neg h4, if_neg h5, if_neg h6]

theorem countP_range_all {n : Nat} {p : Nat → Bool} (h : ∀ i < n, p i = true) : (List.range n).countP p = n := by
  have := List.countP_eq_length (p := p) (l := List.range n)
  rw [List.length_range] at this
  rw [this]
  intro a ha
  exact h a (List.mem_range.mp ha)

theorem countP_range_none {n : Nat} {p : Nat → Bool} (h : ∀ i < n, p i = false) : (List.range n).countP p = 0 := by
  rw [List.countP_eq_zero]
  intro a ha
  rw [h a (List.mem_range.mp ha)]
  simp

/-- C32. Consecutive days, at least three, whatever their position in the calendar: the answer is `D`. -/
theorem freq_daily {t : Nat → Int} {n : Nat} (hn : 3 ≤ n) (h : ∀ i, i + 1 < n → t (i + 1) - t i = nsPerDay) :
    timeSeriesFreq (.datetimeIndex ((List.range n).map t)) = some .D := by
  obtain ⟨m, rfl⟩ : ∃ m, n = m + 1 := ⟨n - 1, by omega⟩
  have hs : SmallSteps t (m + 1) := fun i hi => by rw [h i hi]; unfold nsPerDay; omega
  rw [timeSeriesFreq, freq_smallSteps hs (by omega)]
  have : countDelta 1 ((List.range m).map fun i => t (i + 1) - t i) = m := by
    unfold countDelta
    rw [List.countP_map]
    apply countP_range_all
    intro i hi
    simp [h i (by omega)]
  dsimp only
  rw [this, if_pos (by omega)]

/-- C32. Business days (every step one or three days): reported as daily unless at least three weekends are
spanned, and as `B` from three weekends on. -/
theorem freq_business {t : Nat → Int} {n : Nat} (hn : 3 ≤ n)
    (h : ∀ i, i + 1 < n → t (i + 1) - t i = nsPerDay ∨ t (i + 1) - t i = 3 * nsPerDay) :
    timeSeriesFreq (.datetimeIndex ((List.range n).map t)) =
      if (List.range (n - 1)).countP (fun i => t (i + 1) - t i = 3 * nsPerDay) ≤ 2 then some .D else some .B := by
  obtain ⟨m, rfl⟩ : ∃ m, n = m + 1 := ⟨n - 1, by omega⟩
  have hs : SmallSteps t (m + 1) := fun i hi => by
    rcases h i hi with e | e <;> rw [e] <;> unfold nsPerDay <;> omega
  rw [timeSeriesFreq, freq_smallSteps hs (by omega), Nat.add_sub_cancel]
  have h13 : countDelta 1 ((List.range m).map fun i => t (i + 1) - t i) +
      (List.range m).countP (fun i => t (i + 1) - t i = 3 * nsPerDay) = m := by
    unfold countDelta
    rw [List.countP_map]
    have e := List.length_eq_countP_add_countP (l := List.range m) (fun i => decide (t (i + 1) - t i = 1 * nsPerDay))
    rw [List.length_range] at e
    conv_rhs => rw [e]
    congr 1
    apply List.countP_congr
    intro i hi
    have := h i (by have := List.mem_range.mp hi; omega)
    simp only [decide_eq_true_eq]
    unfold nsPerDay at *
    omega
  have hB : countWeekday ((List.range m).map fun i => t (i + 1) - t i) = m := by
    unfold countWeekday
    rw [List.countP_map]
    apply countP_range_all
    intro i hi
    have := h i (by omega)
    simp only [Function.comp_apply, decide_eq_true_eq]
    unfold nsPerDay at *
    omega
  dsimp only
  rw [hB]
  have hm : (m : ℚ) ≠ 0 := by
    have : 0 < m := by omega
    positivity
  by_cases h3 : (List.range m).countP (fun i => t (i + 1) - t i = 3 * nsPerDay) ≤ 2
  · rw [if_pos h3, if_pos (by omega)]
  · rw [if_neg h3, if_neg (by omega), div_self hm, if_pos (by norm_num)]

/-- The business days of 2022-01-03 to 2022-01-14: the second example of the docstring of
`time_series_freq` (`timeseries.py:53-58`). -/
def docBusiness : List Int := [18995, 18996, 18997, 18998, 18999, 19002, 19003, 19004, 19005, 19006].map (· * nsPerDay)

/-- 2022-01-03 is day 18995: January 2022 begins on day 18993. -/
example : monthStart (12 * 2021 + 10) = 18993 := by decide

/-- C32, defect. The docstring promises `'B'` for this index; the answer is `'D'`. -/
theorem doc_business_is_daily : timeSeriesFreq (.datetimeIndex docBusiness) = some .D := by
  have e : docBusiness = (List.range 10).map fun i : Nat => if i < 5 then (18995 + (i : Int)) * nsPerDay else (18997 + (i : Int)) * nsPerDay := by
    decide
  rw [e, freq_business (by omega)]
  · rw [if_pos (by decide)]
  · intro i hi
    have : i < 9 := by omega
    interval_cases i <;> decide

/-- Four weeks of business days are `B`. -/
example : timeSeriesFreq (.datetimeIndex ((List.range 20).map fun i : Nat => (18995 + (i : Int) + 2 * ((i : Int) / 5)) * nsPerDay))
    = some .B := by
  rw [freq_business (by omega)]
  · rw [if_neg (by decide)]
  · intro i hi
    have : i < 19 := by omega
    interval_cases i <;> decide

/-- C32. Weekly steps: `W` from four dates on; three weekly dates are reported as daily. -/
theorem freq_weekly {t : Nat → Int} {n : Nat} (hn : 3 ≤ n) (h : ∀ i, i + 1 < n → t (i + 1) - t i = 7 * nsPerDay) :
    timeSeriesFreq (.datetimeIndex ((List.range n).map t)) = if n = 3 then some .D else some .W := by
  obtain ⟨m, rfl⟩ : ∃ m, n = m + 1 := ⟨n - 1, by omega⟩
  have hs : SmallSteps t (m + 1) := fun i hi => by rw [h i hi]; unfold nsPerDay; omega
  rw [timeSeriesFreq, freq_smallSteps hs (by omega)]
  have h1 : countDelta 1 ((List.range m).map fun i => t (i + 1) - t i) = 0 := by
    unfold countDelta
    rw [List.countP_map]
    apply countP_range_none
    intro i hi
    have := h i (by omega)
    simp only [Function.comp_apply, decide_eq_false_iff_not]
    unfold nsPerDay at *
    omega
  have h2 : countWeekday ((List.range m).map fun i => t (i + 1) - t i) = 0 := by
    unfold countWeekday
    rw [List.countP_map]
    apply countP_range_none
    intro i hi
    have := h i (by omega)
    simp only [Function.comp_apply, decide_eq_false_iff_not]
    unfold nsPerDay at *
    omega
  have h7 : countDelta 7 ((List.range m).map fun i => t (i + 1) - t i) = m := by
    unfold countDelta
    rw [List.countP_map]
    apply countP_range_all
    intro i hi
    simp [h i (by omega)]
  dsimp only
  rw [h1, h2, h7]
  by_cases h3 : m + 1 = 3
  · rw [if_pos h3, if_pos (by omega)]
  · rw [if_neg h3, if_neg (by omega), if_neg (by norm_num), if_pos (by unfold dominates; omega)]

/-- C32. Three points always get an answer, and it is never `B` nor `W`. -/
theorem freq_three_points {idx : List Int} (h : idx.length = 3) :
    ∃ f, timeSeriesFreq (.datetimeIndex idx) = some f ∧ f ≠ .B ∧ f ≠ .W := by
  obtain ⟨a, b, c, rfl⟩ : ∃ a b c, idx = [a, b, c] := by
    match idx, h with
    | [a, b, c], _ => exact ⟨a, b, c, rfl⟩
  simp only [timeSeriesFreq]
  unfold freqOfIndex
  have hl : (npDiff [a, b, c]).length = 2 := rfl
  simp only [hl]
  rw [if_neg (by omega)]
  repeat' split
  all_goals first
    | exact ⟨_, rfl, by decide, by decide⟩
    | (exfalso; omega)

/-- Three mid-month dates a year apart are "daily". -/
example : timeSeriesFreq (.datetimeIndex ([15, 380, 745].map (· * nsPerDay))) = some .D := by
  have hno : ∀ t ∈ [15, 380, 745].map (· * nsPerDay), ¬ isMonthStart t ∧ ¬ isMonthEnd t := by
    have key : ∀ d m : Int, monthStart m < d → d + 1 < monthStart (m + 1) →
        ¬ isMonthStart (d * nsPerDay) ∧ ¬ isMonthEnd (d * nsPerDay) := by
      intro d m h1 h2
      have e1 : d * nsPerDay / nsPerDay = d := by unfold nsPerDay; omega
      constructor
      · rintro ⟨k, hk⟩
        rw [e1] at hk
        rcases lt_or_ge m k with h' | h'
        · rcases eq_or_lt_of_le (show m + 1 ≤ k by omega) with e | e
          · subst e; omega
          · have := monthStart_lt e; omega
        · rcases eq_or_lt_of_le h' with e | e
          · subst e; omega
          · have := monthStart_lt e; omega
      · rintro ⟨k, hk⟩
        rw [day_shift, e1] at hk
        rcases lt_or_ge m k with h' | h'
        · rcases eq_or_lt_of_le (show m + 1 ≤ k by omega) with e | e
          · subst e; omega
          · have := monthStart_lt e; omega
        · rcases eq_or_lt_of_le h' with e | e
          · subst e; omega
          · have := monthStart_lt e; omega
    intro t ht
    simp only [List.map_cons, List.map_nil, List.mem_cons, List.not_mem_nil, or_false] at ht
    rcases ht with rfl | rfl | rfl
    · exact key 15 (12 * 1969 + 10) (by decide) (by decide)
    · exact key 380 (12 * 1970 + 10) (by decide) (by decide)
    · exact key 745 (12 * 1971 + 10) (by decide) (by decide)
  obtain ⟨f, hf, -⟩ := freq_three_points (idx := [15, 380, 745].map (· * nsPerDay)) rfl
  have hz : ∀ p : Int → Prop, (∀ t, p t → isMonthStart t ∨ isMonthEnd t) →
      ¬ dominates (countFlag p ([15, 380, 745].map (· * nsPerDay))) ([15, 380, 745].map (· * nsPerDay)).length := by
    intro p hp hd
    change dominates _ 3 at hd
    rw [countFlag_none] at hd
    · exact absurd hd.1 (by omega)
    · intro t ht hpt
      have := hno t ht
      rcases hp t hpt with h | h
      · exact this.1 h
      · exact this.2 h
  simp only [timeSeriesFreq]
  unfold freqOfIndex
  dsimp only
  rw [if_neg (by decide), if_neg (hz isYearEnd fun t h => Or.inr (quarterStart_month (yearStart_quarter h))),
    if_neg (hz isYearStart fun t h => Or.inl (quarterStart_month (yearStart_quarter h))),
    if_neg (hz isQuarterEnd fun t h => Or.inr (quarterStart_month h)),
    if_neg (hz isQuarterStart fun t h => Or.inl (quarterStart_month h)),
    if_neg (hz isMonthEnd fun t h => Or.inr h), if_neg (hz isMonthStart fun t h => Or.inl h), if_pos (by decide)]

/-! ### C33 -/

/-- C33. The levels are nested: year boundary ⇒ quarter boundary ⇒ month boundary. -/
theorem boundary_nested (t : Int) : (isYearEnd t → isQuarterEnd t) ∧ (isQuarterEnd t → isMonthEnd t) ∧
    (isYearStart t → isQuarterStart t) ∧ (isQuarterStart t → isMonthStart t) :=
  ⟨yearStart_quarter, quarterStart_month, yearStart_quarter, quarterStart_month⟩

private theorem deltas_length {idx : List Int} (h : 1 ≤ idx.length) : (npDiff idx).length = idx.length - 1 := by
  obtain ⟨n, hn⟩ : ∃ n, idx.length = n + 1 := ⟨idx.length - 1, by omega⟩
  have e : idx = (List.range (n + 1)).map fun i => idx.getD i 0 := by
    apply List.ext_getElem
    · simp [hn]
    · intro i h1 h2
      simp [List.getD_eq_getElem?_getD, h1]
  rw [e, npDiff_range]
  simp

private theorem end_no_start {idx : List Int} (he : ∀ t ∈ idx, isMonthEnd t) {p : Int → Prop}
    (hp : ∀ t, p t → isMonthStart t) : ¬ dominates (countFlag p idx) idx.length := by
  rw [countFlag_none fun t ht h => not_start_and_end (hp t h) (he t ht)]
  exact fun h => absurd h.1 (by omega)

private theorem start_no_end {idx : List Int} (he : ∀ t ∈ idx, isMonthStart t) {p : Int → Prop}
    (hp : ∀ t, p t → isMonthEnd t) : ¬ dominates (countFlag p idx) idx.length := by
  rw [countFlag_none fun t ht h => not_start_and_end (he t ht) (hp t h)]
  exact fun h => absurd h.1 (by omega)

private theorem dominates_all {n : Nat} (h : 2 ≤ n) : dominates n n := ⟨h, by omega⟩

/-- C33. On month ends only (at least three) the answer is the coarsest level that dominates. -/
theorem freq_month_ends {idx : List Int} (hn : 3 ≤ idx.length) (he : ∀ t ∈ idx, isMonthEnd t) :
    timeSeriesFreq (.datetimeIndex idx) = some (open Classical in
      if dominates (countFlag isYearEnd idx) idx.length then .YE
      else if dominates (countFlag isQuarterEnd idx) idx.length then .QE else .ME) := by
  simp only [timeSeriesFreq]
  unfold freqOfIndex
  simp only [deltas_length (show 1 ≤ idx.length by omega)]
  have hm : dominates (countFlag isMonthEnd idx) idx.length := by
    rw [countFlag_all he]; exact dominates_all (by omega)
  rw [if_neg (by omega)]
  by_cases hy : dominates (countFlag isYearEnd idx) idx.length
  · rw [if_pos hy, if_pos hy]
  rw [if_neg hy, if_neg hy, if_neg (end_no_start he fun t h => quarterStart_month (yearStart_quarter h))]
  by_cases hq : dominates (countFlag isQuarterEnd idx) idx.length
  · rw [if_pos hq, if_pos hq]
  rw [if_neg hq, if_neg hq, if_neg (end_no_start he fun t h => quarterStart_month h), if_pos hm]

/-- C33. The same on month starts. -/
theorem freq_month_starts {idx : List Int} (hn : 3 ≤ idx.length) (he : ∀ t ∈ idx, isMonthStart t) :
    timeSeriesFreq (.datetimeIndex idx) = some (open Classical in
      if dominates (countFlag isYearStart idx) idx.length then .YS
      else if dominates (countFlag isQuarterStart idx) idx.length then .QS else .MS) := by
  simp only [timeSeriesFreq]
  unfold freqOfIndex
  simp only [deltas_length (show 1 ≤ idx.length by omega)]
  have hm : dominates (countFlag isMonthStart idx) idx.length := by
    rw [countFlag_all he]; exact dominates_all (by omega)
  rw [if_neg (by omega), if_neg (start_no_end (p := isYearEnd) he fun t h => quarterStart_month (yearStart_quarter h))]
  by_cases hy : dominates (countFlag isYearStart idx) idx.length
  · rw [if_pos hy, if_pos hy]
  rw [if_neg hy, if_neg hy, if_neg (start_no_end (p := isQuarterEnd) he fun t h => quarterStart_month h)]
  by_cases hq : dominates (countFlag isQuarterStart idx) idx.length
  · rw [if_pos hq, if_pos hq]
  rw [if_neg hq, if_neg hq, if_neg (start_no_end (p := isMonthEnd) he fun t h => h), if_pos hm]

/-- C33. Year ends only are `YE`, quarter ends only are `YE` or `QE`, never finer. -/
theorem freq_year_ends {idx : List Int} (hn : 3 ≤ idx.length) (he : ∀ t ∈ idx, isYearEnd t) :
    timeSeriesFreq (.datetimeIndex idx) = some .YE := by
  rw [freq_month_ends hn fun t ht => quarterStart_month (yearStart_quarter (he t ht)), countFlag_all he,
    if_pos (dominates_all (by omega))]

theorem freq_year_starts {idx : List Int} (hn : 3 ≤ idx.length) (he : ∀ t ∈ idx, isYearStart t) :
    timeSeriesFreq (.datetimeIndex idx) = some .YS := by
  rw [freq_month_starts hn fun t ht => quarterStart_month (yearStart_quarter (he t ht)), countFlag_all he,
    if_pos (dominates_all (by omega))]

private theorem flag_quarter {t m : Int} (h : t / nsPerDay = monthStart m) : isQuarterStart t ↔ m % 3 = 1 := by
  constructor
  · rintro ⟨k, hk, hk3⟩
    rw [h] at hk
    rw [monthStart_inj hk]; exact hk3
  · exact fun h3 => ⟨m, h, h3⟩

private theorem flag_year {t m : Int} (h : t / nsPerDay = monthStart m) : isYearStart t ↔ m % 12 = 10 := by
  constructor
  · rintro ⟨k, hk, hk3⟩
    rw [h] at hk
    rw [monthStart_inj hk]; exact hk3
  · exact fun h3 => ⟨m, h, h3⟩

/-- Flags with index distance at least `k` (on `n` positions) occur at most `(n + k - 1) / k` times. -/
private theorem sparse_count {t : Nat → Int} {n : Nat} {p : Int → Prop} (k : Nat) (hk : 0 < k)
    (hp : ∀ i j, i < j → j < n → p (t i) → p (t j) → i + k ≤ j) :
    k * countFlag p ((List.range n).map t) ≤ n + (k - 1) := by
  have key : ∀ m, m ≤ n → countFlag p ((List.range m).map t) = 0 ∨
      ∃ L, L < m ∧ p (t L) ∧ k * countFlag p ((List.range m).map t) ≤ L + k := by
    intro m
    induction m with
    | zero => intro _; left; rfl
    | succ m ih =>
      intro hm
      rw [countFlag_succ]
      by_cases hpm : p (t m)
      · right
        rw [if_pos hpm]
        refine ⟨m, by omega, hpm, ?_⟩
        rw [Nat.mul_add, Nat.mul_one]
        rcases ih (by omega) with h0 | ⟨L, hL, hpL, hc⟩
        · rw [h0]; omega
        · have := hp L m hL (by omega) hpL hpm
          omega
      · rw [if_neg hpm, Nat.add_zero]
        rcases ih (by omega) with h0 | ⟨L, hL, hpL, hc⟩
        · exact Or.inl h0
        · exact Or.inr ⟨L, by omega, hpL, hc⟩
  rcases key n (le_refl n) with h0 | ⟨L, hL, -, hc⟩
  · rw [h0]; omega
  · omega

private theorem count_four_quarters {t : Nat → Int} {p : Int → Prop} {m0 : Int}
    (hf : ∀ i : Nat, i < 4 → (p (t i) ↔ (m0 + i) % 3 = 1)) :
    dominates (countFlag p ((List.range 4).map t)) 4 ↔ m0 % 3 = 1 := by
  rw [show (4 : Nat) = 0 + 1 + 1 + 1 + 1 from rfl, countFlag_succ, countFlag_succ, countFlag_succ, countFlag_succ]
  have h0 := hf 0 (by omega)
  have h1 := hf 1 (by omega)
  have h2 := hf 2 (by omega)
  have h3 := hf 3 (by omega)
  push_cast at h0 h1 h2 h3
  have e0 : countFlag p ((List.range 0).map t) = 0 := rfl
  simp only [e0, Nat.zero_add, Nat.reduceAdd, h0, h1, h2, h3]
  unfold dominates
  split_ifs <;> omega

/-- Consecutive months: the quarter flags dominate only for four months beginning on a quarter boundary, the
year flags never. -/
private theorem months_dominated {t : Nat → Int} {n : Nat} (hn : 3 ≤ n) {m0 : Int} {q y : Int → Prop}
    (hq : ∀ i : Nat, i < n → (q (t i) ↔ (m0 + i) % 3 = 1)) (hy : ∀ i : Nat, i < n → (y (t i) ↔ (m0 + i) % 12 = 10)) :
    ¬ dominates (countFlag y ((List.range n).map t)) n ∧
    (dominates (countFlag q ((List.range n).map t)) n ↔ n = 4 ∧ m0 % 3 = 1) := by
  have cy := sparse_count (t := t) (n := n) (p := y) 12 (by omega) (by
    intro i j hij hj hi hj'
    rw [hy i (by omega)] at hi
    rw [hy j hj] at hj'
    omega)
  have cq := sparse_count (t := t) (n := n) (p := q) 3 (by omega) (by
    intro i j hij hj hi hj'
    rw [hq i (by omega)] at hi
    rw [hq j hj] at hj'
    omega)
  constructor
  · rintro ⟨h1, h2⟩; omega
  · by_cases h4 : n = 4
    · subst h4
      rw [count_four_quarters hq]
      simp
    · constructor
      · rintro ⟨h1, h2⟩; omega
      · rintro ⟨h1, -⟩; exact absurd h1 h4

/-- C33. At least three consecutive month ends are recognised as `ME`, with exactly one exception: four month
ends beginning with a quarter end are reported as quarterly. -/
theorem freq_consecutive_month_ends {t : Nat → Int} {n : Nat} (hn : 3 ≤ n) {m0 : Int}
    (h : ∀ i : Nat, i < n → (t i + nsPerDay) / nsPerDay = monthStart (m0 + i)) :
    timeSeriesFreq (.datetimeIndex ((List.range n).map t)) = if n = 4 ∧ m0 % 3 = 1 then some .QE else some .ME := by
  have hlen : ((List.range n).map t).length = n := by simp
  rw [freq_month_ends (by omega)]
  · obtain ⟨h1, h2⟩ := months_dominated (t := t) hn (m0 := m0) (q := isQuarterEnd) (y := isYearEnd)
      (fun i hi => flag_quarter (h i hi)) (fun i hi => flag_year (h i hi))
    rw [hlen, if_neg h1]
    by_cases h4 : n = 4 ∧ m0 % 3 = 1
    · rw [if_pos (h2.mpr h4), if_pos h4]
    · rw [if_neg (fun hd => h4 (h2.mp hd)), if_neg h4]
  · intro s hs
    obtain ⟨i, hi, rfl⟩ := List.mem_map.mp hs
    exact ⟨_, h i (List.mem_range.mp hi)⟩

/-- C33. The same for month starts: `MS`, except for four months beginning with a quarter start. -/
theorem freq_consecutive_month_starts {t : Nat → Int} {n : Nat} (hn : 3 ≤ n) {m0 : Int}
    (h : ∀ i : Nat, i < n → t i / nsPerDay = monthStart (m0 + i)) :
    timeSeriesFreq (.datetimeIndex ((List.range n).map t)) = if n = 4 ∧ m0 % 3 = 1 then some .QS else some .MS := by
  have hlen : ((List.range n).map t).length = n := by simp
  rw [freq_month_starts (by omega)]
  · obtain ⟨h1, h2⟩ := months_dominated (t := t) hn (m0 := m0) (q := isQuarterStart) (y := isYearStart)
      (fun i hi => flag_quarter (h i hi)) (fun i hi => flag_year (h i hi))
    rw [hlen, if_neg h1]
    by_cases h4 : n = 4 ∧ m0 % 3 = 1
    · rw [if_pos (h2.mpr h4), if_pos h4]
    · rw [if_neg (fun hd => h4 (h2.mp hd)), if_neg h4]
  · intro s hs
    obtain ⟨i, hi, rfl⟩ := List.mem_map.mp hs
    exact ⟨_, h i (List.mem_range.mp hi)⟩

/-- C33. At least three consecutive quarter ends are `QE` without exception. -/
theorem freq_consecutive_quarter_ends {t : Nat → Int} {n : Nat} (hn : 3 ≤ n) {m0 : Int} (hm : m0 % 3 = 1)
    (h : ∀ i : Nat, i < n → (t i + nsPerDay) / nsPerDay = monthStart (m0 + 3 * i)) :
    timeSeriesFreq (.datetimeIndex ((List.range n).map t)) = some .QE := by
  have hlen : ((List.range n).map t).length = n := by simp
  have hqe : ∀ s ∈ (List.range n).map t, isQuarterEnd s := by
    intro s hs
    obtain ⟨i, hi, rfl⟩ := List.mem_map.mp hs
    exact (flag_quarter (h i (List.mem_range.mp hi))).mpr (by omega)
  rw [freq_month_ends (by omega) fun s hs => quarterStart_month (hqe s hs), countFlag_all hqe, hlen,
    if_pos (dominates_all (by omega)), if_neg]
  have cy := sparse_count (t := t) (n := n) (p := isYearEnd) 4 (by omega) (by
    intro i j hij hj hi hj'
    have hi := (flag_year (h i (by omega))).mp hi
    have hj' := (flag_year (h j hj)).mp hj'
    omega)
  rintro ⟨h1, h2⟩; omega

theorem freq_consecutive_quarter_starts {t : Nat → Int} {n : Nat} (hn : 3 ≤ n) {m0 : Int} (hm : m0 % 3 = 1)
    (h : ∀ i : Nat, i < n → t i / nsPerDay = monthStart (m0 + 3 * i)) :
    timeSeriesFreq (.datetimeIndex ((List.range n).map t)) = some .QS := by
  have hlen : ((List.range n).map t).length = n := by simp
  have hqe : ∀ s ∈ (List.range n).map t, isQuarterStart s := by
    intro s hs
    obtain ⟨i, hi, rfl⟩ := List.mem_map.mp hs
    exact (flag_quarter (h i (List.mem_range.mp hi))).mpr (by omega)
  rw [freq_month_starts (by omega) fun s hs => quarterStart_month (hqe s hs), countFlag_all hqe, hlen,
    if_pos (dominates_all (by omega)), if_neg]
  have cy := sparse_count (t := t) (n := n) (p := isYearStart) 4 (by omega) (by
    intro i j hij hj hi hj'
    have hi := (flag_year (h i (by omega))).mp hi
    have hj' := (flag_year (h j hj)).mp hj'
    omega)
  rintro ⟨h1, h2⟩; omega

/-- C33, defect. The month ends of March to June 2022 are reported as quarter ends. -/
theorem march_to_june_is_quarterly :
    timeSeriesFreq (.datetimeIndex ([19082, 19112, 19143, 19173].map (· * nsPerDay))) = some .QE := by
  have e : [19082, 19112, 19143, 19173].map (· * nsPerDay) =
      (List.range 4).map fun i : Nat => (monthStart (12 * 2022 + 1 + (i : Int)) - 1) * nsPerDay := by decide
  rw [e, freq_consecutive_month_ends (m0 := 12 * 2022 + 1) (by omega), if_pos (by decide)]
  intro i hi
  unfold nsPerDay; omega

/-- The month ends of January to May 2022 are monthly. -/
example : timeSeriesFreq (.datetimeIndex ((List.range 5).map fun i : Nat => (monthStart (12 * 2021 + 11 + (i : Int)) - 1) * nsPerDay))
    = some .ME := by
  rw [freq_consecutive_month_ends (m0 := 12 * 2021 + 11) (by omega), if_neg (by decide)]
  intro i hi
  unfold nsPerDay; omega

/-- Three year ends. -/
example : timeSeriesFreq (.datetimeIndex ([364, 729, 1095].map (· * nsPerDay))) = some .YE := by
  apply freq_year_ends (by decide)
  intro t ht
  simp only [List.map_cons, List.map_nil, List.mem_cons, List.not_mem_nil, or_false] at ht
  rcases ht with rfl | rfl | rfl
  · exact ⟨12 * 1970 + 10, by decide, by decide⟩
  · exact ⟨12 * 1971 + 10, by decide, by decide⟩
  · exact ⟨12 * 1972 + 10, by decide, by decide⟩

/-- C31. The answers of `time_series_freq` are `None` and exactly nine codes: every one of them is inferred for
some index, no other string is, and each has a positive duration of at most a year. -/
theorem freq_codes (s : String) : (∃ o f, timeSeriesFreq o = some f ∧ f.code = s) ↔
    s ∈ ["D", "B", "W", "ME", "MS", "QE", "QS", "YE", "YS"] := by
  constructor
  · rintro ⟨o, f, -, rfl⟩
    cases f <;> decide
  · intro h
    simp only [List.mem_cons, List.not_mem_nil, or_false] at h
    rcases h with rfl | rfl | rfl | rfl | rfl | rfl | rfl | rfl | rfl
    · exact ⟨_, .D, freq_daily (t := fun i => i * nsPerDay) (n := 3) (by omega) (fun i _ => by push_cast; ring), rfl⟩
    · refine ⟨.datetimeIndex ((List.range 20).map fun i : Nat => (18995 + (i : Int) + 2 * ((i : Int) / 5)) * nsPerDay), .B, ?_, rfl⟩
      rw [freq_business (by omega)]
      · rw [if_neg (by decide)]
      · intro i hi
        have : i < 19 := by omega
        interval_cases i <;> decide
    · exact ⟨.datetimeIndex ((List.range 4).map fun i : Nat => 7 * (i : Int) * nsPerDay), .W,
        (freq_weekly (by omega) (fun i _ => by push_cast; ring)).trans (if_neg (by decide)), rfl⟩
    · refine ⟨.datetimeIndex ((List.range 3).map fun i : Nat => (monthStart i - 1) * nsPerDay), .ME,
        (freq_consecutive_month_ends (m0 := 0) (by omega) ?_).trans (if_neg (by decide)), rfl⟩
      intro i _
      rw [day_shift, Int.zero_add]; unfold nsPerDay; omega
    · refine ⟨.datetimeIndex ((List.range 3).map fun i : Nat => monthStart i * nsPerDay), .MS,
        (freq_consecutive_month_starts (m0 := 0) (by omega) ?_).trans (if_neg (by decide)), rfl⟩
      intro i _
      rw [Int.zero_add]; unfold nsPerDay; omega
    · refine ⟨.datetimeIndex ((List.range 3).map fun i : Nat => (monthStart (1 + 3 * i) - 1) * nsPerDay), .QE,
        freq_consecutive_quarter_ends (m0 := 1) (by omega) (by decide) ?_, rfl⟩
      intro i _
      rw [day_shift]; unfold nsPerDay; omega
    · refine ⟨.datetimeIndex ((List.range 3).map fun i : Nat => monthStart (1 + 3 * i) * nsPerDay), .QS,
        freq_consecutive_quarter_starts (m0 := 1) (by omega) (by decide) ?_, rfl⟩
      intro i _
      unfold nsPerDay; omega
    · refine ⟨.datetimeIndex ([10, 22, 34].map fun m => (monthStart m - 1) * nsPerDay), .YE,
        freq_year_ends (by decide) ?_, rfl⟩
      intro t ht
      simp only [List.map_cons, List.map_nil, List.mem_cons, List.not_mem_nil, or_false] at ht
      rcases ht with rfl | rfl | rfl
      · exact ⟨10, by decide, by decide⟩
      · exact ⟨22, by decide, by decide⟩
      · exact ⟨34, by decide, by decide⟩
    · refine ⟨.datetimeIndex ([10, 22, 34].map fun m => monthStart m * nsPerDay), .YS,
        freq_year_starts (by decide) ?_, rfl⟩
      intro t ht
      simp only [List.map_cons, List.map_nil, List.mem_cons, List.not_mem_nil, or_false] at ht
      rcases ht with rfl | rfl | rfl
      · exact ⟨10, by decide, by decide⟩
      · exact ⟨22, by decide, by decide⟩
      · exact ⟨34, by decide, by decide⟩

/-- C31. Every inferred code has a positive duration of at most a year, so chaining the two functions never
yields `None` for an inferred code. -/
theorem freq_has_duration {s : String} (h : ∃ o f, timeSeriesFreq o = some f ∧ f.code = s) :
    ∃ d, freqToDuration s = some d ∧ 0 < d ∧ d ≤ 1 := by
  obtain ⟨o, f, -, rfl⟩ := h
  exact code_duration f

end Verif.TS
