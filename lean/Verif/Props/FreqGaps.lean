import Verif.Props.Timeseries
import Verif.Props.SimDates
import Verif.Lemmas.Round
import Verif.Spec.Round

/-!
# C130: `time_series_freq` on calendars with gaps
-/

namespace Verif.TS

variable {t b : Nat → Int} {s : Nat → Nat} {m n N : Nat}

/-- The number of the first `m` steps with a property. -/
def steps (t : Nat → Int) (m : Nat) (q : Int → Prop) [DecidablePred q] : Nat :=
  (List.range m).countP fun i => decide (q (t (i + 1) - t i))

/-- A step of at least one day and of less than four weeks. -/
def WideSteps (t : Nat → Int) (n : Nat) : Prop :=
  ∀ i, i + 1 < n → nsPerDay ≤ t (i + 1) - t i ∧ t (i + 1) - t i ≤ 27 * nsPerDay

theorem steps_succ (t : Nat → Int) (m : Nat) (q : Int → Prop) [DecidablePred q] :
    steps t (m + 1) q = steps t m q + if q (t (m + 1) - t m) then 1 else 0 := by
  unfold steps
  rw [List.range_succ, List.countP_append]
  by_cases h : q (t (m + 1) - t m) <;> simp [h]

theorem steps_not (t : Nat → Int) (m : Nat) (q : Int → Prop) [DecidablePred q] :
    steps t m q + steps t m (fun d => ¬ q d) = m := by
  induction m with
  | zero => rfl
  | succ m ih =>
    rw [steps_succ, steps_succ]
    by_cases h : q (t (m + 1) - t m)
    · rw [if_pos h, if_neg (not_not.mpr h)]; omega
    · rw [if_neg h, if_pos h]; omega

theorem steps_congr {q r : Int → Prop} [DecidablePred q] [DecidablePred r]
    (h : ∀ i, i < m → (q (t (i + 1) - t i) ↔ r (t (i + 1) - t i))) : steps t m q = steps t m r := by
  unfold steps
  apply List.countP_congr
  intro i hi
  simp only [decide_eq_true_eq]
  exact h i (List.mem_range.mp hi)

theorem steps_zero {q : Int → Prop} [DecidablePred q] (h : ∀ i, i < m → ¬ q (t (i + 1) - t i)) : steps t m q = 0 := by
  unfold steps
  apply countP_range_none
  intro i hi
  simpa using h i hi

theorem countDelta_steps (k : Int) (t : Nat → Int) (m : Nat) :
    countDelta k ((List.range m).map fun i => t (i + 1) - t i) = steps t m (· = k * nsPerDay) := by
  unfold countDelta steps
  rw [List.countP_map]
  rfl

theorem countWeekday_steps (t : Nat → Int) (m : Nat) :
    countWeekday ((List.range m).map fun i => t (i + 1) - t i) =
      steps t m fun d => d / nsPerDay = 1 ∨ d / nsPerDay = 3 := by
  unfold countWeekday steps
  rw [List.countP_map]
  rfl

/-- Flags at least 28 days apart never hit two neighbours. -/
theorem wideSteps_count (h : WideSteps t n) {p : Int → Prop}
    (hp : ∀ a b, p a → p b → a / nsPerDay < b / nsPerDay → a / nsPerDay + 28 ≤ b / nsPerDay) :
    2 * countFlag p ((List.range n).map t) ≤ n + 1 := by
  have key : ∀ m, m ≤ n → 2 * countFlag p ((List.range m).map t) ≤ m + 1 ∧
      ∀ k, m = k + 1 → ¬ p (t k) → 2 * countFlag p ((List.range m).map t) ≤ m := by
    intro m
    induction m with
    | zero => intro _; exact ⟨by simp [countFlag], fun k hk => by omega⟩
    | succ m ih =>
      intro hm
      obtain ⟨h1, h2⟩ := ih (by omega)
      rw [countFlag_succ]
      refine ⟨?_, fun k hk hpk => ?_⟩
      · by_cases hpm : p (t m)
        · rw [if_pos hpm]
          rcases m with _ | k
          · simp [countFlag]
          · have := h2 k rfl ?_
            · omega
            · intro hpk
              have h3 := h k (by omega)
              have h4 := hp _ _ hpk hpm
              unfold nsPerDay at *
              omega
        · rw [if_neg hpm]; omega
      · obtain rfl : m = k := by omega
        rw [if_neg hpk]; omega
  exact (key n (le_refl n)).1

theorem wideSteps_not_dominated (h : WideSteps t n) (hn : 6 ≤ n) :
    ¬ dominates (countFlag isYearEnd ((List.range n).map t)) n ∧
    ¬ dominates (countFlag isYearStart ((List.range n).map t)) n ∧
    ¬ dominates (countFlag isQuarterEnd ((List.range n).map t)) n ∧
    ¬ dominates (countFlag isQuarterStart ((List.range n).map t)) n ∧
    ¬ dominates (countFlag isMonthEnd ((List.range n).map t)) n ∧
    ¬ dominates (countFlag isMonthStart ((List.range n).map t)) n := by
  have main : ∀ p : Int → Prop, (∀ a b, p a → p b → a / nsPerDay < b / nsPerDay →
      a / nsPerDay + 28 ≤ b / nsPerDay) → ¬ dominates (countFlag p ((List.range n).map t)) n := by
    intro p hp hd
    have := wideSteps_count h hp
    obtain ⟨h1, h2⟩ := hd
    omega
  exact ⟨main _ (gap_end fun t h => quarterStart_month (yearStart_quarter h)),
    main _ (gap_start fun t h => quarterStart_month (yearStart_quarter h)),
    main _ (gap_end fun t h => quarterStart_month h), main _ (gap_start fun t h => quarterStart_month h),
    main _ (gap_end fun t h => h), main _ (gap_start fun t h => h)⟩

theorem ninety {k j : Nat} (h : k + j = m) (hm : 0 < m) : (9 / 10 : ℚ) ≤ (k : ℚ) / m ↔ 10 * j ≤ m := by
  rw [le_div_iff₀ (by exact_mod_cast hm)]
  constructor
  · intro h'
    have : (9 * m : ℚ) ≤ 10 * k := by linarith
    have : 9 * m ≤ 10 * k := by exact_mod_cast this
    omega
  · intro h'
    have : 9 * m ≤ 10 * k := by omega
    have : (9 * m : ℚ) ≤ 10 * k := by exact_mod_cast this
    linarith

/-- C130. The answer for every index whose steps are of one to seven days, or of less than four weeks with six dates or more: `D` with at
most two steps other than a day, else `B` with at most a tenth of the steps other than one or three days, else `W` with at most two steps
other than a week, else nothing. -/
theorem freq_exact (h : (SmallSteps t (m + 1) ∧ 2 ≤ m) ∨ (WideSteps t (m + 1) ∧ 5 ≤ m)) :
    timeSeriesFreq (.datetimeIndex (dates t (m + 1))) =
      if steps t m (· ≠ nsPerDay) ≤ 2 then some .D
      else if 10 * steps t m (fun d => ¬ (d / nsPerDay = 1 ∨ d / nsPerDay = 3)) ≤ m then some .B
      else if 2 ≤ steps t m (· = 7 * nsPerDay) ∧ steps t m (· ≠ 7 * nsPerDay) ≤ 2 then some .W
      else none := by
  have hm : 2 ≤ m := by omega
  have e : timeSeriesFreq (.datetimeIndex (dates t (m + 1))) =
      (let deltas := (List.range m).map fun i => t (i + 1) - t i
       open Classical in
       if (m : Int) - countDelta 1 deltas ≤ 2 then some .D
       else if (9 / 10 : ℚ) ≤ (countWeekday deltas : ℚ) / m then some .B
       else if dominates (countDelta 7 deltas) m then some .W
       else none) := by
    rcases h with ⟨h, -⟩ | ⟨h, h5⟩
    · exact freq_smallSteps h hm
    · obtain ⟨h1, h2, h3, h4, h5, h6⟩ := wideSteps_not_dominated h (by omega)
      show freqOfIndex ((List.range (m + 1)).map t) = _
      unfold freqOfIndex
      rw [npDiff_range]
      dsimp only
      rw [List.length_map, List.length_map, List.length_range, List.length_range]
      rw [if_neg (by omega), if_neg h1, if_neg h2, if_neg h3, if_neg h4, if_neg h5, if_neg h6]
  rw [e]
  dsimp only
  rw [countDelta_steps, countDelta_steps, countWeekday_steps]
  have c1 := steps_not t m (· = 1 * nsPerDay)
  have c7 := steps_not t m (· = 7 * nsPerDay)
  have cB := steps_not t m (fun d => d / nsPerDay = 1 ∨ d / nsPerDay = 3)
  have e1 : steps t m (fun d => ¬ d = 1 * nsPerDay) = steps t m (· ≠ nsPerDay) :=
    steps_congr fun i _ => by rw [one_mul]
  rw [e1] at c1
  have p1 : (m : Int) - steps t m (· = 1 * nsPerDay) ≤ 2 ↔ steps t m (· ≠ nsPerDay) ≤ 2 := by omega
  have pW : dominates (steps t m (· = 7 * nsPerDay)) m ↔
      2 ≤ steps t m (· = 7 * nsPerDay) ∧ steps t m (· ≠ 7 * nsPerDay) ≤ 2 := by
    unfold dominates
    show _ ↔ _ ∧ steps t m (fun d => ¬ d = 7 * nsPerDay) ≤ 2
    omega
  simp only [p1, pW, ninety cB (by omega)]

/-- C130, defect. Daily data with isolated missing days: `D` with one or two of them; with three or more, and no more than a tenth of
the steps, it is reported as business days; beyond, nothing. -/
theorem daily_missing (hm : 2 ≤ m)
    (h : ∀ i, i < m → t (i + 1) - t i = nsPerDay ∨ t (i + 1) - t i = 2 * nsPerDay) :
    timeSeriesFreq (.datetimeIndex (dates t (m + 1))) =
      if steps t m (· = 2 * nsPerDay) ≤ 2 then some .D
      else if 10 * steps t m (· = 2 * nsPerDay) ≤ m then some .B else none := by
  rw [freq_exact (.inl ⟨fun i hi => by rcases h i (by omega) with e | e <;> rw [e] <;> unfold nsPerDay <;> omega, hm⟩)]
  have e1 : steps t m (· ≠ nsPerDay) = steps t m (· = 2 * nsPerDay) :=
    steps_congr fun i hi => by have := h i hi; unfold nsPerDay at *; omega
  have e2 : steps t m (fun d => ¬ (d / nsPerDay = 1 ∨ d / nsPerDay = 3)) = steps t m (· = 2 * nsPerDay) :=
    steps_congr fun i hi => by have := h i hi; unfold nsPerDay at *; omega
  have e7 : steps t m (· = 7 * nsPerDay) = 0 :=
    steps_zero fun i hi => by have := h i hi; unfold nsPerDay at *; omega
  rw [e1, e2, e7]
  simp

/-- C130. Weekly data of at least six dates with one or two missing weeks in any place are recognised as `W` up to two gaps, not from three
on. -/
theorem weekly_missing (hm : 5 ≤ m) (h : ∀ i, i < m → t (i + 1) - t i = 7 * nsPerDay ∨ t (i + 1) - t i = 14 * nsPerDay ∨
      t (i + 1) - t i = 21 * nsPerDay) :
    timeSeriesFreq (.datetimeIndex (dates t (m + 1))) =
      if steps t m (· ≠ 7 * nsPerDay) ≤ 2 then some .W else none := by
  rw [freq_exact (.inr ⟨fun i hi => by rcases h i (by omega) with e | e | e <;> rw [e] <;> unfold nsPerDay <;> omega, hm⟩)]
  have e1 : steps t m (· ≠ nsPerDay) = m := by
    have : steps t m (· = nsPerDay) + steps t m (· ≠ nsPerDay) = m := steps_not t m (· = nsPerDay)
    rw [steps_zero (q := (· = nsPerDay)) fun i hi => by have := h i hi; unfold nsPerDay at *; omega] at this
    omega
  have e2 : steps t m (fun d => ¬ (d / nsPerDay = 1 ∨ d / nsPerDay = 3)) = m := by
    have := steps_not t m (fun d => d / nsPerDay = 1 ∨ d / nsPerDay = 3)
    rw [steps_zero (q := fun d => d / nsPerDay = 1 ∨ d / nsPerDay = 3) fun i hi => by
      have := h i hi; unfold nsPerDay at *; omega] at this
    omega
  have e7 : steps t m (· = 7 * nsPerDay) + steps t m (· ≠ 7 * nsPerDay) = m := steps_not t m (· = 7 * nsPerDay)
  rw [e1, e2, if_neg (by omega), if_neg (by omega)]
  by_cases hk : steps t m (· ≠ 7 * nsPerDay) ≤ 2
  · rw [if_pos hk, if_pos ⟨by omega, hk⟩]
  · rw [if_neg hk, if_neg fun hh => hk hh.2]

/-! ### Holidays -/

/-- Successive Mondays to Fridays. -/
def WorkDays (b : Nat → Int) (N : Nat) : Prop :=
  ∀ j, j + 1 < N → (weekday (b j) = 4 ∧ b (j + 1) - b j = 3 * nsPerDay) ∨ (weekday (b j) ≤ 3 ∧ b (j + 1) - b j = nsPerDay)

/-- `m + 1` of the first `N` positions, from the first to the last, no two neighbours left out. -/
def Isolated (s : Nat → Nat) (m N : Nat) : Prop :=
  s 0 = 0 ∧ s m + 1 = N ∧ ∀ i, i < m → s (i + 1) = s i + 1 ∨ s (i + 1) = s i + 2

theorem Isolated.le (h : Isolated s m N) : ∀ i, i ≤ m → s i + (m - i) ≤ s m := by
  intro i hi
  obtain ⟨k, rfl⟩ : ∃ k, m = i + k := ⟨m - i, by omega⟩
  have : ∀ j, j ≤ k → s i + j ≤ s (i + j) := by
    intro j
    induction j with
    | zero => intro _; exact le_refl _
    | succ j ih =>
      intro hj
      have h1 := ih (by omega)
      have h2 : s (i + (j + 1)) = s (i + j) + 1 ∨ s (i + (j + 1)) = s (i + j) + 2 := h.2.2 (i + j) (by omega)
      omega
  have := this k (le_refl k)
  omega

/-- The steps between the days that are left: a day or three without a holiday in between, two or four with one. -/
theorem holiday_step (hb : WorkDays b N) (hs : Isolated s m N) {i : Nat} (hi : i < m) :
    (s (i + 1) = s i + 1 ∧ (b (s (i + 1)) - b (s i) = nsPerDay ∨ b (s (i + 1)) - b (s i) = 3 * nsPerDay)) ∨
    (s (i + 1) = s i + 2 ∧ (b (s (i + 1)) - b (s i) = 2 * nsPerDay ∨ b (s (i + 1)) - b (s i) = 4 * nsPerDay)) := by
  have hle := hs.le (i + 1) (by omega)
  have hN := hs.2.1
  rcases hs.2.2 i hi with e | e
  · left
    refine ⟨e, ?_⟩
    rw [e]
    rcases hb (s i) (by omega) with h | h
    · exact .inr h.2
    · exact .inl h.2
  · right
    refine ⟨e, ?_⟩
    rw [e]
    have h1 := hb (s i) (by omega)
    have h2 : (weekday (b (s i + 1)) = 4 ∧ b (s i + 2) - b (s i + 1) = 3 * nsPerDay) ∨
      (weekday (b (s i + 1)) ≤ 3 ∧ b (s i + 2) - b (s i + 1) = nsPerDay) := hb (s i + 1) (by omega)
    unfold weekday dayOf nsPerDay at *
    omega

/-- The steps over a holiday are as many as the holidays. -/
theorem count_holidays (hb : WorkDays b N) (hs : Isolated s m N) :
    steps (fun i => b (s i)) m (fun d => ¬ (d / nsPerDay = 1 ∨ d / nsPerDay = 3)) + (m + 1) = N := by
  have key : ∀ k, k ≤ m →
      steps (fun i => b (s i)) k (fun d => ¬ (d / nsPerDay = 1 ∨ d / nsPerDay = 3)) + k = s k := by
    intro k
    induction k with
    | zero => intro _; rw [hs.1]; rfl
    | succ k ih =>
      intro hk
      have h1 := ih (by omega)
      rw [steps_succ]
      rcases holiday_step hb hs (i := k) (by omega) with ⟨e, h⟩ | ⟨e, h⟩
      · rw [if_neg (by unfold nsPerDay at *; omega)]; omega
      · rw [if_pos (by unfold nsPerDay at *; omega)]; omega
  have := key m (le_refl m)
  have := hs.2.1
  omega

/-- C130. Business days with isolated holidays: `B` exactly as long as no more than one in eleven of the days after the first is a holiday,
provided that three steps are longer than a day. -/
theorem freq_holidays (hb : WorkDays b N) (hs : Isolated s m N) (hm : 2 ≤ m) :
    timeSeriesFreq (.datetimeIndex (dates (fun i => b (s i)) (m + 1))) =
      if steps (fun i => b (s i)) m (· ≠ nsPerDay) ≤ 2 then some .D
      else if 11 * (N - (m + 1)) ≤ N - 1 then some .B else none := by
  have hstep : ∀ i, i < m → b (s (i + 1)) - b (s i) = nsPerDay ∨ b (s (i + 1)) - b (s i) = 2 * nsPerDay ∨
      b (s (i + 1)) - b (s i) = 3 * nsPerDay ∨ b (s (i + 1)) - b (s i) = 4 * nsPerDay := by
    intro i hi
    rcases holiday_step hb hs hi with ⟨-, h | h⟩ | ⟨-, h | h⟩ <;> simp [h]
  rw [freq_exact (t := fun i => b (s i)) (.inl ⟨fun i hi => by
    have := hstep i (by omega)
    dsimp only
    unfold nsPerDay at *
    omega, hm⟩)]
  have e7 : steps (fun i => b (s i)) m (· = 7 * nsPerDay) = 0 :=
    steps_zero fun i hi => by
      have := hstep i hi
      unfold nsPerDay at *
      omega
  rw [e7]
  have hc := count_holidays hb hs
  have hiff : 10 * steps (fun i => b (s i)) m (fun d => ¬ (d / nsPerDay = 1 ∨ d / nsPerDay = 3)) ≤ m ↔
      11 * (N - (m + 1)) ≤ N - 1 := by omega
  simp only [hiff]
  simp

/-- Five business days on is a week on. -/
theorem workDays_week (hb : WorkDays b N) {j : Nat} (hj : j + 5 < N) : b (j + 5) - b j = 7 * nsPerDay := by
  have h0 := hb j (by omega)
  have h1 : (weekday (b (j + 1)) = 4 ∧ b (j + 2) - b (j + 1) = 3 * nsPerDay) ∨
    (weekday (b (j + 1)) ≤ 3 ∧ b (j + 2) - b (j + 1) = nsPerDay) := hb (j + 1) (by omega)
  have h2 : (weekday (b (j + 2)) = 4 ∧ b (j + 3) - b (j + 2) = 3 * nsPerDay) ∨
    (weekday (b (j + 2)) ≤ 3 ∧ b (j + 3) - b (j + 2) = nsPerDay) := hb (j + 2) (by omega)
  have h3 : (weekday (b (j + 3)) = 4 ∧ b (j + 4) - b (j + 3) = 3 * nsPerDay) ∨
    (weekday (b (j + 3)) ≤ 3 ∧ b (j + 4) - b (j + 3) = nsPerDay) := hb (j + 3) (by omega)
  have h4 : (weekday (b (j + 4)) = 4 ∧ b (j + 5) - b (j + 4) = 3 * nsPerDay) ∨
    (weekday (b (j + 4)) ≤ 3 ∧ b (j + 5) - b (j + 4) = nsPerDay) := hb (j + 4) (by omega)
  unfold weekday dayOf nsPerDay at *
  omega

theorem workDays_long (hb : WorkDays b N) (hN : 21 ≤ N) : b 0 + (N + 7 : Int) * nsPerDay ≤ b (N - 1) := by
  have h1 : b 5 - b 0 = 7 * nsPerDay := workDays_week hb (j := 0) (by omega)
  have h2 : b 10 - b 5 = 7 * nsPerDay := workDays_week hb (j := 5) (by omega)
  have h3 : b 15 - b 10 = 7 * nsPerDay := workDays_week hb (j := 10) (by omega)
  have h4 : b 20 - b 15 = 7 * nsPerDay := workDays_week hb (j := 15) (by omega)
  have h5 : ∀ k, 20 + k < N → b 20 + k * nsPerDay ≤ b (20 + k) := by
    intro k
    induction k with
    | zero => intro _; simp
    | succ k ih =>
      intro hk
      have h6 := ih (by omega)
      have h7 := hb (20 + k) (by omega)
      rw [← add_assoc]
      push_cast
      unfold nsPerDay at *
      omega
  have h6 := h5 (N - 21) (by omega)
  rw [show 20 + (N - 21) = N - 1 by omega] at h6
  obtain ⟨k, rfl⟩ : ∃ k, N = 21 + k := ⟨N - 21, by omega⟩
  rw [Nat.add_sub_cancel_left] at h6
  push_cast
  unfold nsPerDay at *
  omega

theorem long_steps (hb : WorkDays b N) (hs : Isolated s m N) (hN : 21 ≤ N) :
    3 ≤ steps (fun i => b (s i)) m (· ≠ nsPerDay) := by
  have key : ∀ k, k ≤ m → b (s k) ≤ b (s 0) + (k + 3 * steps (fun i => b (s i)) k (· ≠ nsPerDay) : Int) * nsPerDay := by
    intro k
    induction k with
    | zero => intro _; simp [steps]
    | succ k ih =>
      intro hk
      have h1 := ih (by omega)
      have h2 := holiday_step hb hs (i := k) (by omega)
      rw [steps_succ]
      split_ifs with hd
      · push_cast
        unfold nsPerDay at *
        omega
      · push_cast
        unfold nsPerDay at *
        omega
  have h1 := key m (le_refl m)
  have h2 := workDays_long hb hN
  have h3 := hs.le 0 (by omega)
  obtain ⟨h4, h5, -⟩ := hs
  rw [h4] at h1
  rw [show N - 1 = s m by omega] at h2
  have h6 : m + 1 ≤ N := by omega
  unfold nsPerDay at *
  omega

/-- C130. From 21 business days on, holidays included, the answer is `B` exactly if at most one in eleven of them (after the first) is a
holiday, and otherwise there is none. -/
theorem holidays_business (hb : WorkDays b N) (hs : Isolated s m N) (hN : 21 ≤ N) :
    timeSeriesFreq (.datetimeIndex (dates (fun i => b (s i)) (m + 1))) =
      if 11 * (N - (m + 1)) ≤ N - 1 then some .B else none := by
  have h3 := long_steps hb hs hN
  have hm : 2 ≤ m := by
    have := steps_not (fun i => b (s i)) m (· = nsPerDay)
    have e : steps (fun i => b (s i)) m (fun d => ¬ d = nsPerDay) = steps (fun i => b (s i)) m (· ≠ nsPerDay) := rfl
    omega
  rw [freq_holidays hb hs hm, if_neg (by omega)]

/-! ### The comparison with 0.9 in floats -/

open Round in
/-- C130. The check `len(weekday_deltas) / len(time_deltas) >= 0.9` is exact in floats for up to `2 ^ 48` steps, although 0.9 is no float. -/
theorem ninety_round {fl : ℝ → ℝ} (hf : Rounding fl) {k : Nat} (hk : k ≤ m) (hm : 0 < m) (hM : m ≤ 2 ^ 48) :
    fl (9 / 10) ≤ fl ((k : ℝ) / m) ↔ 9 * m ≤ 10 * k := by
  have hm' : (0 : ℝ) < m := by exact_mod_cast hm
  constructor
  · intro h
    by_contra hlt
    have h1 : 10 * k + 1 ≤ 9 * m := by omega
    have h1' : (10 * k + 1 : ℝ) ≤ 9 * m := by exact_mod_cast h1
    have hx : (k : ℝ) / m ≤ 9 / 10 - 1 / (10 * m) := by
      rw [div_le_iff₀ hm']
      have : (9 / 10 - 1 / (10 * (m : ℝ))) * m = 9 / 10 * m - 1 / 10 := by field_simp
      rw [this]
      linarith
    have hx0 : (0 : ℝ) ≤ (k : ℝ) / m := by positivity
    have hM' : (m : ℝ) ≤ 2 ^ 48 := by exact_mod_cast hM
    have hinv : 1 / (10 * (2 : ℝ) ^ 48) ≤ 1 / (10 * m) := by
      apply one_div_le_one_div_of_le (by positivity)
      linarith
    have r1 := hf.rel (9 / 10)
    have r2 := hf.rel ((k : ℝ) / m)
    rw [abs_of_nonneg (by norm_num : (0 : ℝ) ≤ 9 / 10)] at r1
    rw [abs_of_nonneg hx0] at r2
    have a1 := (abs_le.mp r1).1
    have a2 := (abs_le.mp r2).2
    have hle : (k : ℝ) / m ≤ 1 := by
      rw [div_le_one hm']
      exact_mod_cast hk
    unfold u64 at a1 a2
    have : (1 : ℝ) / 2 ^ 53 * ((k : ℝ) / m) ≤ 1 / 2 ^ 53 := by
      have : (0 : ℝ) ≤ 1 / 2 ^ 53 := by positivity
      nlinarith
    norm_num at *
    linarith
  · intro h
    apply hf.mono
    rw [le_div_iff₀ hm']
    have : (9 * m : ℝ) ≤ 10 * k := by exact_mod_cast h
    linarith

/-- 90 of 100 steps pass, 89 do not, also with binary rounding. -/
example : Round.b64 (9 / 10) ≤ Round.b64 ((90 : Nat) / (100 : Nat)) ∧
    ¬ Round.b64 (9 / 10) ≤ Round.b64 ((89 : Nat) / (100 : Nat)) :=
  ⟨(ninety_round Round.b64_rounding (by omega) (by omega) (by norm_num)).mpr (by omega),
    fun h => absurd ((ninety_round Round.b64_rounding (by omega) (by omega) (by norm_num)).mp h) (by omega)⟩

end Verif.TS

namespace Verif.Sim

open TS

variable {b : Nat → Int} {s : Nat → Nat} {m N : Nat} {P : Type} {md : ModelOps P} {dr : Int → String → Nat → Py (List Int)}

/-- C130, defect. The two parts of the library disagree about a holiday: with isolated holidays, at most one in eleven days, `time_series_freq` reports `B`, while
a model fitted on the data finds no frequency: it takes the step 1/252 by default and cannot be sampled without `label_freq`. -/
theorem holidays_fit (hb : WorkDays b N) (hs : Isolated s m N) (hN : 21 ≤ N) (h1 : m + 1 < N)
    (h11 : 11 * (N - (m + 1)) ≤ N - 1) :
    timeSeriesFreq (.datetimeIndex (dates (fun i => b (s i)) (m + 1))) = some .B ∧
      stepSize (dates (fun i => b (s i)) (m + 1)) = .ok (1 / 252) ∧
      ∀ (o : Obj P) (l : List ℝ) (name : Label) (iname : Option String) (dt : Option ℝ) (g : SampleArgs) (out : Out),
        g.labelFreq = none →
        pathSample (pandas dr) md
          (fit (pandas dr) md o (.series l name (.dates (dates (fun i => b (s i)) (m + 1)) iname)) dt).1 g ≠ .ok out := by
  have hm : 3 ≤ m := by
    have h3 := long_steps hb hs hN
    have := steps_not (fun i => b (s i)) m (· = nsPerDay)
    have e : steps (fun i => b (s i)) m (fun d => ¬ d = nsPerDay) = steps (fun i => b (s i)) m (· ≠ nsPerDay) := rfl
    omega
  have hB : timeSeriesFreq (.datetimeIndex (dates (fun i => b (s i)) (m + 1))) = some .B := by
    rw [holidays_business hb hs hN, if_pos h11]
  obtain ⟨i, hi, hgap⟩ : ∃ i, i < m ∧ s (i + 1) = s i + 2 := by
    by_contra hno
    have : ∀ k, k ≤ m → s k = k := by
      intro k
      induction k with
      | zero => intro _; exact hs.1
      | succ k ih =>
        intro hk
        rcases hs.2.2 k (by omega) with e | e
        · rw [e, ih (by omega)]
        · exact absurd ⟨k, by omega, e⟩ hno
    have := this m (le_refl m)
    have := hs.2.1
    omega
  have hnB : ¬ BusinessDays (fun i => b (s i)) (m + 1) := by
    rintro ⟨h, -⟩
    rcases holiday_step hb hs hi with ⟨e, -⟩ | ⟨-, h'⟩
    · omega
    · have : (weekday (b (s i)) = 4 ∧ b (s (i + 1)) - b (s i) = 3 * nsPerDay) ∨
        (weekday (b (s i)) ≤ 3 ∧ b (s (i + 1)) - b (s i) = nsPerDay) := h i (by omega)
      unfold nsPerDay at *
      omega
  have hstep : ∀ i, i < m → b (s (i + 1)) - b (s i) = nsPerDay ∨ b (s (i + 1)) - b (s i) = 2 * nsPerDay ∨
      b (s (i + 1)) - b (s i) = 3 * nsPerDay ∨ b (s (i + 1)) - b (s i) = 4 * nsPerDay := by
    intro i hi
    rcases holiday_step hb hs hi with ⟨-, h | h⟩ | ⟨-, h | h⟩ <;> simp [h]
  -- not equally spaced
  obtain ⟨j, hj, hne⟩ : ∃ j, j < m ∧ b (s (j + 1)) - b (s j) ≠ b (s 1) - b (s 0) := by
    by_contra hno
    have hall : ∀ j, j < m → b (s (j + 1)) - b (s j) = b (s 1) - b (s 0) := fun j hj => by
      by_contra h
      exact hno ⟨j, hj, h⟩
    have hc := count_holidays hb hs
    have h0 := hall i hi
    have : steps (fun i => b (s i)) m (fun d => ¬ (d / nsPerDay = 1 ∨ d / nsPerDay = 3)) = m := by
      have := steps_not (fun i => b (s i)) m (fun d => d / nsPerDay = 1 ∨ d / nsPerDay = 3)
      rw [steps_zero (q := fun d => d / nsPerDay = 1 ∨ d / nsPerDay = 3) fun k hk => by
        have h1 := hall k hk
        rcases holiday_step hb hs hi with ⟨e, -⟩ | ⟨-, h'⟩
        · omega
        · show ¬ ((b (s (k + 1)) - b (s k)) / nsPerDay = 1 ∨ (b (s (k + 1)) - b (s k)) / nsPerDay = 3)
          rw [h1, ← h0]
          unfold nsPerDay at *
          omega] at this
      omega
    omega
  have hstep0 := hstep 0 (by omega)
  have hstep1 : b (s 2) - b (s 1) = nsPerDay ∨ b (s 2) - b (s 1) = 2 * nsPerDay ∨
      b (s 2) - b (s 1) = 3 * nsPerDay ∨ b (s 2) - b (s 1) = 4 * nsPerDay := hstep 1 (by omega)
  have hS : stepSize (dates (fun i => b (s i)) (m + 1)) = .ok (1 / 252) := by
    refine gaps_default (by omega) (fun k hk => ?_) (i := j) (by omega) hne (j := 0) (by omega) ?_ hnB (k := 0) (by omega) ?_
    · have := hstep k (by omega)
      unfold nsPerDay at *
      omega
    · show b (s 2) - b (s 0) < _
      have : b (s (0 + 1)) = b (s 1) := rfl
      unfold nsPerDay at *
      omega
    · unfold nsPerDay at *
      omega
  refine ⟨hB, hS, fun o l name iname dt g out hg => ?_⟩
  have hnone : TS.inferFreq (dates (fun i => b (s i)) (m + 1)) = none := by
    rcases (step_default_iff (by omega)).mp hS with h | h
    · exact absurd h hnB
    · exact h
  exact no_pattern_no_sample o (by simp [dates]; omega) hnone hg out

/-- 22 business days from Thursday, 1970-01-01 on; day 1 (Friday) is a holiday. -/
def january (j : Nat) : Int := ((j + 3 : Nat) / 5 * 7 + (j + 3 : Nat) % 5 - 3 : Int) * nsPerDay

def skipFirst (i : Nat) : Nat := if i = 0 then 0 else i + 1

theorem january_work : WorkDays january N := by
  intro j hj
  unfold january weekday dayOf nsPerDay
  push_cast
  omega

theorem skipFirst_isolated : Isolated skipFirst 20 22 := by
  refine ⟨rfl, rfl, fun i hi => ?_⟩
  rcases i with _ | i
  · right; rfl
  · left; simp [skipFirst]

/-- One holiday in a month. -/
example (o : Obj P) (l : List ℝ) (out : Out) :
    timeSeriesFreq (.datetimeIndex (dates (fun i => january (skipFirst i)) 21)) = some .B ∧
    pathSample (pandas dr) md
      (fit (pandas dr) md o (.series l .none (.dates (dates (fun i => january (skipFirst i)) 21) none)) none).1 {} ≠ .ok out := by
  obtain ⟨h1, -, h3⟩ := holidays_fit (P := P) (md := md) (dr := dr) (january_work (N := 22)) skipFirst_isolated (by omega) (by omega)
    (by omega)
  exact ⟨h1, h3 o l .none none none {} out rfl⟩

/-- Daily data over 40 days with every tenth day missing three times: reported as business days. -/
def tenth (i : Nat) : Int := (i + min (i / 9) 3 : Nat) * nsPerDay

example : timeSeriesFreq (.datetimeIndex (dates tenth 37)) = some .B := by
  rw [daily_missing (by omega) (fun i hi => ?_)]
  · decide
  · unfold tenth nsPerDay
    push_cast
    omega

/-- Eight weekly dates with one week missing. -/
example : timeSeriesFreq (.datetimeIndex (dates missingWeek 8)) = some .W := by
  rw [weekly_missing (by omega) (fun i hi => ?_)]
  · decide
  · unfold missingWeek nsPerDay
    split_ifs <;> omega

end Verif.Sim
