import Verif.Props.InferFreq
import Verif.Props.SimHistory
import Verif.Model.SimFit

/-!
# C128: the step size that a fit on dated data uses

`fit`, `nll`, `aic` and `bic` without `dt` take the step size from `pd.infer_freq` of the dates.
-/

namespace Verif.Sim

open TS

/-- pandas with its own `infer_freq`. -/
noncomputable def pandas (dateRange : Int → String → Nat → Py (List Int)) : Pandas := ⟨TS.inferFreq, dateRange⟩

/-- The step size used for dates when no `dt` is given. -/
noncomputable def stepSize (ts : List Int) : Py ℝ := resolveDt (TS.inferFreq ts) none

variable {t : Nat → Int} {n : Nat} {P : Type} {m : ModelOps P} {dr : Int → String → Nat → Py (List Int)}

/-- C128. A `fit` without `dt` on at least three dates works with that step size, or raises that error. -/
theorem fit_stepSize (s : FitState) {l : List ℝ} {name : Label} {ts : List Int} {iname : Option String}
    (h3 : 3 ≤ ts.length) (hl : l ≠ []) :
    (preprocessFit (pandas dr) s (.series l name (.dates ts iname)) none).2 =
      (stepSize ts).map fun d => (Arr.ofList l.length 1 l, d) := by
  have hlen : l.length ≠ 0 := by simpa using hl
  unfold preprocessFit indexInfo stepSize
  simp only [SimData.dateIndex, SimData.toMatrix]
  rw [if_neg (by omega)]
  simp only [pandas]
  rw [if_neg (by simpa [Arr.ofList] using hlen)]
  cases resolveDt (TS.inferFreq ts) none <;> rfl

private theorem step_of {s : String} {d : ℝ} {ts : List Int} (h : TS.inferFreq ts = some s)
    (hd : TS.freqToDuration s = some d) : stepSize ts = .ok d := by
  unfold stepSize resolveDt
  simp only [h, hd]

private theorem step_err {s : String} {ts : List Int} (h : TS.inferFreq ts = some s)
    (hd : TS.freqToDuration s = none) : stepSize ts = .error .valueError := by
  unfold stepSize resolveDt
  simp only [h, hd]

private theorem step_none {ts : List Int} (h : TS.inferFreq ts = none) : stepSize ts = .ok (1 / 252) := by
  unfold stepSize resolveDt
  simp only [h]

private theorem dur_D : TS.freqToDuration "D" = some (1 / 365) := rfl
private theorem dur_B : TS.freqToDuration "B" = some (1 / 252) := rfl
private theorem dur_ME : TS.freqToDuration "ME" = some (1 / 12) := rfl
private theorem dur_MS : TS.freqToDuration "MS" = some (1 / 12) := rfl

/-- What can happen, with the calendar responsible. -/
theorem stepSize_cases (hn : 3 ≤ n) :
    (stepSize (dates t n) = .ok (1 / 365) ∧ Days t n) ∨
    (stepSize (dates t n) = .ok (1 / 252) ∧ (BusinessDays t n ∨ TS.inferFreq (dates t n) = none)) ∨
    (stepSize (dates t n) = .ok (1 / 12) ∧ (MonthEnds t n ∨ MonthStarts t n)) ∨
    stepSize (dates t n) = .error .valueError := by
  cases hf : TS.inferFreq (dates t n) with
  | none => exact .inr (.inl ⟨step_none hf, .inr rfl⟩)
  | some s =>
    by_cases hd : TS.freqToDuration s = none
    · exact .inr (.inr (.inr (step_err hf hd)))
    · rcases infer_shape hn hf hd with ⟨rfl, h⟩ | ⟨rfl, h⟩ | ⟨rfl, h⟩ | ⟨rfl, h⟩
      · exact .inl ⟨step_of hf dur_D, h⟩
      · exact .inr (.inl ⟨step_of hf dur_B, .inl h⟩)
      · exact .inr (.inr (.inl ⟨step_of hf dur_ME, .inl h⟩))
      · exact .inr (.inr (.inl ⟨step_of hf dur_MS, .inr h⟩))

private theorem ok_ne {a b : ℝ} (h : a ≠ b) : (Except.ok a : Py ℝ) ≠ .ok b := fun e => h (Except.ok.inj e)

/-- C128. The step is a calendar day exactly for consecutive days. -/
theorem step_day_iff (hn : 3 ≤ n) : stepSize (dates t n) = .ok (1 / 365) ↔ Days t n := by
  refine ⟨fun h => ?_, fun h => step_of (infer_days hn h) dur_D⟩
  rcases stepSize_cases (t := t) hn with ⟨-, h'⟩ | ⟨e, -⟩ | ⟨e, -⟩ | e
  · exact h'
  · exact absurd (e.symm.trans h) (ok_ne (by norm_num))
  · exact absurd (e.symm.trans h) (ok_ne (by norm_num))
  · rw [e] at h; cases h

/-- C128. The step is a month exactly for the first or the last days of successive months. -/
theorem step_month_iff (hn : 3 ≤ n) : stepSize (dates t n) = .ok (1 / 12) ↔ MonthEnds t n ∨ MonthStarts t n := by
  refine ⟨fun h => ?_, fun h => h.elim (fun h => step_of (infer_month_ends hn h) dur_ME)
    fun h => step_of (infer_month_starts hn h) dur_MS⟩
  rcases stepSize_cases (t := t) hn with ⟨e, -⟩ | ⟨e, -⟩ | ⟨-, h'⟩ | e
  · exact absurd (e.symm.trans h) (ok_ne (by norm_num))
  · exact absurd (e.symm.trans h) (ok_ne (by norm_num))
  · exact h'
  · rw [e] at h; cases h

/-- C128. The step is a trading day exactly for business days with a weekend and for dates without a
recognised pattern. -/
theorem step_default_iff (hn : 3 ≤ n) :
    stepSize (dates t n) = .ok (1 / 252) ↔ BusinessDays t n ∨ TS.inferFreq (dates t n) = none := by
  refine ⟨fun h => ?_, fun h => h.elim (fun h => step_of (infer_business hn h) dur_B) step_none⟩
  rcases stepSize_cases (t := t) hn with ⟨e, -⟩ | ⟨-, h'⟩ | ⟨e, -⟩ | e
  · exact absurd (e.symm.trans h) (ok_ne (by norm_num))
  · exact h'
  · exact absurd (e.symm.trans h) (ok_ne (by norm_num))
  · rw [e] at h; cases h

/-! ### Calendars that raise -/

/-- C128, defect. Weekly dates raise `ValueError`, although `time_series_freq` calls them weekly and knows
their duration. -/
theorem weekly_raises (hn : 4 ≤ n) (h : ∀ i, i + 1 < n → t (i + 1) - t i = 7 * nsPerDay) :
    stepSize (dates t n) = .error .valueError ∧
      TS.timeSeriesFreq (.datetimeIndex (dates t n)) = some .W ∧ TS.freqToDuration "W" = some (7 / 365) := by
  refine ⟨?_, by rw [freq_weekly (by omega) h, if_neg (by omega)], rfl⟩
  have h0 : t 1 - t 0 = 7 * nsPerDay := h 0 (by omega)
  have h1 : t 2 - t 1 = 7 * nsPerDay := h 1 (by omega)
  rcases stepSize_cases (t := t) (n := n) (by omega) with ⟨-, h'⟩ | ⟨-, h'⟩ | ⟨-, h'⟩ | e
  · have := h' 0 (by omega)
    rw [zero_add] at this
    unfold nsPerDay at *
    omega
  · exfalso
    rcases h' with h' | h'
    · have := h'.1 0 (by omega)
      rw [zero_add] at this
      unfold nsPerDay at *
      omega
    · have hinc : ∀ i, i + 1 < n → t i < t (i + 1) := fun i hi => by have := h i hi; unfold nsPerDay at this; omega
      obtain ⟨r1, r2, r3⟩ := no_month_rule (t := t) (n := n) (i := 0) (by omega)
        (by rw [zero_add]; unfold dayOf nsPerDay at *; omega) (by show dayOf (t 1) < dayOf (t 2); unfold dayOf nsPerDay at *; omega)
        (by show dayOf (t 2) < dayOf (t 0) + 28; unfold dayOf nsPerDay at *; omega)
      have hlen := (length_uniqueDeltas (t := t) (n := n) (by omega)).mpr fun i hi => by rw [h i hi, h0]
      rw [infer_whole (by omega) hinc ⟨0, by omega, fun j hj => by rw [h j hj, h 0 (by omega)], by
        rw [h 0 (by omega)]; decide⟩] at h'
      unfold inferDaily at h'
      simp only [dates, r1, r2, r3, hlen, if_true] at h'
      cases h'
  · exfalso
    have hm : EachMonth t n := h'.elim (fun h => h.1) fun h => h.1
    have e0 : monthOf (dayOf (t 1)) = monthOf (dayOf (t 0)) + 1 := hm 0 (by omega)
    have e1 : monthOf (dayOf (t 2)) = monthOf (dayOf (t 1)) + 1 := hm 1 (by omega)
    have := monthOf_near (D := dayOf (t 0)) (E := dayOf (t 2)) (by unfold dayOf nsPerDay at *; omega)
    omega
  · exact e

private theorem mono_down (h : ∀ i, i + 1 < n → t (i + 1) < t i) :
    ((dates t n).Pairwise (· ≤ ·) ∨ (dates t n).Pairwise (· ≥ ·)) ∧ (dates t n).Nodup := by
  have hp : (dates t n).Pairwise (· > ·) := by
    rw [List.pairwise_map, List.pairwise_iff_getElem]
    intro i j hi hj hij
    rw [List.length_range] at hi hj
    rw [List.getElem_range, List.getElem_range]
    have := lt_of_steps (t := fun k => - t k) (n := n) (fun i hi => by have := h i hi; show -t i < -t (i + 1); omega) hij hj
    show t i > t j
    omega
  exact ⟨.inr (hp.imp fun h => h.le), hp.imp fun h => h.ne'⟩

/-- Two successive months of equal length have 31 days. -/
theorem equal_months {k : Int} (h : monthStart (k + 2) - monthStart (k + 1) = monthStart (k + 1) - monthStart k) :
    monthStart (k + 1) - monthStart k = 31 := by
  have h12 : (k + 1) / 12 = k / 12 ∧ (k + 1) % 12 = k % 12 + 1 ∧ (k + 2) / 12 = k / 12 ∧ (k + 2) % 12 = k % 12 + 2 ∧
        k % 12 < 10 ∨
      (k + 1) / 12 = k / 12 ∧ (k + 1) % 12 = 11 ∧ (k + 2) / 12 = k / 12 + 1 ∧ (k + 2) % 12 = 0 ∧ k % 12 = 10 ∨
      (k + 1) / 12 = k / 12 + 1 ∧ (k + 1) % 12 = 0 ∧ (k + 2) / 12 = k / 12 + 1 ∧ (k + 2) % 12 = 1 ∧ k % 12 = 11 := by
    clear h
    omega
  have hm : 0 ≤ k % 12 := by omega
  unfold monthStart at *
  generalize (k + 1) / 12 = y1 at *
  generalize (k + 1) % 12 = m1 at *
  generalize (k + 2) / 12 = y2 at *
  generalize (k + 2) % 12 = m2 at *
  generalize k / 12 = y at *
  generalize k % 12 = m at *
  rcases h12 with ⟨rfl, rfl, rfl, rfl, hlt⟩ | ⟨rfl, rfl, rfl, rfl, rfl⟩ | ⟨rfl, rfl, rfl, rfl, rfl⟩
  · omega
  · omega
  · omega

/-- C128, defect. Equally spaced dates, upwards or downwards, raise `ValueError` unless the step is one day (or 31
days, which two successive months can have): weeks, hours, every second day, daily data with the newest first. -/
theorem equal_steps_raise (hn : 3 ≤ n) {d : Int} (h : ∀ i, i + 1 < n → t (i + 1) - t i = d) (h0 : d ≠ 0)
    (h1 : d ≠ nsPerDay) (h31 : d ≠ 31 * nsPerDay) : stepSize (dates t n) = .error .valueError := by
  have s0 : t 1 - t 0 = d := h 0 (by omega)
  have s1 : t 2 - t 1 = d := h 1 (by omega)
  rcases stepSize_cases (t := t) hn with ⟨-, h'⟩ | ⟨-, h'⟩ | ⟨-, h'⟩ | e
  · have := h' 0 (by omega)
    rw [zero_add] at this
    omega
  · exfalso
    rcases h' with h' | h'
    · have b0 := h'.1 0 (by omega)
      have b1 := h'.1 1 (by omega)
      rw [zero_add] at b0
      rw [show 1 + 1 = 2 from rfl] at b1
      unfold weekday dayOf nsPerDay at *
      omega
    · have hlen : (uniqueDeltas (dates t n)).length = 1 :=
        (length_uniqueDeltas (t := t) (n := n) (by omega)).mpr fun i hi => by rw [h i hi, s0]
      have hmono : ((dates t n).Pairwise (· ≤ ·) ∨ (dates t n).Pairwise (· ≥ ·)) ∧ (dates t n).Nodup := by
        rcases lt_or_gt_of_ne h0 with hlt | hgt
        · exact mono_down fun i hi => by have := h i hi; omega
        · exact mono_dates fun i hi => by have := h i hi; omega
      unfold inferFreq at h'
      rw [if_neg (not_not.mpr hmono)] at h'
      simp only [hlen, ne_eq, not_true_eq_false, if_false] at h'
      split_ifs at h' with c1 c2
      unfold inferDaily at h'
      simp only [hlen, if_true] at h'
      cases r1 : annualRule (dates t n) <;> simp only [r1] at h'
      · cases r2 : quarterlyRule (dates t n) <;> simp only [r2] at h'
        · cases r3 : monthlyRule (dates t n) <;> simp only [r3] at h'
          · cases h'
          · cases h'
        · cases h'
      · cases h'
  · exfalso
    have hm : EachMonth t n := h'.elim (fun h => h.1) fun h => h.1
    have hw : ShortestWhole t n := h'.elim (fun h => h.2.1) fun h => h.2.1
    obtain ⟨i, hi, -, hw⟩ := hw
    rw [h i hi] at hw
    have e0 : monthOf (dayOf (t 1)) = monthOf (dayOf (t 0)) + 1 := hm 0 (by omega)
    have e1 : monthOf (dayOf (t 2)) = monthOf (dayOf (t 1)) + 1 := hm 1 (by omega)
    have key : ∀ k, monthStart (k + 1) - monthStart k = dayOf (t 1) - dayOf (t 0) →
        monthStart (k + 2) - monthStart (k + 1) = dayOf (t 2) - dayOf (t 1) → False := by
      intro k k1 k2
      have hd : dayOf (t 2) - dayOf (t 1) = dayOf (t 1) - dayOf (t 0) := by unfold dayOf nsPerDay at *; omega
      have := equal_months (k := k) (by omega)
      apply h31
      unfold dayOf nsPerDay at *
      omega
    rcases h' with h' | h'
    · have a0 := dayField_last.mpr (h'.2.2 0 (by omega))
      have a1 := dayField_last.mpr (h'.2.2 1 (by omega))
      have a2 := dayField_last.mpr (h'.2.2 2 (by omega))
      unfold dayField daysInMonth at a0 a1 a2
      rw [e1, e0] at a2
      rw [e0] at a1
      rw [show monthOf (dayOf (t 0)) + 1 + 1 = monthOf (dayOf (t 0)) + 2 by omega] at a1 a2
      have k2 := key (monthOf (dayOf (t 0)) + 1)
      rw [show monthOf (dayOf (t 0)) + 1 + 1 = monthOf (dayOf (t 0)) + 2 by omega] at k2
      exact k2 (by omega) (by rw [show monthOf (dayOf (t 0)) + 1 + 2 = monthOf (dayOf (t 0)) + 2 + 1 by omega]; omega)
    · have a0 := dayField_one.mpr (h'.2.2 0 (by omega))
      have a1 := dayField_one.mpr (h'.2.2 1 (by omega))
      have a2 := dayField_one.mpr (h'.2.2 2 (by omega))
      unfold dayField at a0 a1 a2
      rw [e1, e0, show monthOf (dayOf (t 0)) + 1 + 1 = monthOf (dayOf (t 0)) + 2 by omega] at a2
      rw [e0] at a1
      exact key (monthOf (dayOf (t 0))) (by omega) (by omega)
  · exact e

/-- C128, defect. Quarterly and yearly data raise: month ends, or month starts, a fixed number of at least two months
apart. -/
theorem quarterly_raises (hn : 3 ≤ n) {k : Int} (hk : 2 ≤ k)
    (h : ∀ i, i + 1 < n → monthOf (dayOf (t (i + 1))) = monthOf (dayOf (t i)) + k) (hw : ShortestWhole t n)
    (hp : (∀ i, i < n → isMonthEnd (t i)) ∨ ∀ i, i < n → isMonthStart (t i)) :
    stepSize (dates t n) = .error .valueError := by
  have m0 : monthOf (dayOf (t 1)) = monthOf (dayOf (t 0)) + k := h 0 (by omega)
  have far : ¬ dayOf (t 1) < dayOf (t 0) + 28 := fun hc => by have := monthOf_near hc; omega
  rcases stepSize_cases (t := t) hn with ⟨-, h'⟩ | ⟨-, h'⟩ | ⟨-, h'⟩ | e
  · have s0 : t 1 - t 0 = nsPerDay := h' 0 (by omega)
    unfold dayOf nsPerDay at *
    omega
  · exfalso
    rcases h' with h' | h'
    · have s0 := h'.1 0 (by omega)
      rw [zero_add] at s0
      unfold dayOf nsPerDay at *
      omega
    · have hinc : ∀ i, i + 1 < n → t i < t (i + 1) := by
        intro i hi
        by_contra hc
        have := monthOf_mono (show dayOf (t (i + 1)) ≤ dayOf (t i) by unfold dayOf nsPerDay; omega)
        have := h i hi
        omega
      have hu : ¬ 1 < (monthDiffs (dates t n)).length := by
        have : (monthDiffs (dates t n)).length = 1 := by
          unfold monthDiffs dates
          rw [List.map_map, length_uniqueDeltas (by omega)]
          intro i hi
          have h1 := h i hi
          simp only [Function.comp_apply, monthNumber]
          omega
        omega
      have hpos : monthPosition (dates t n) ≠ none := by
        unfold monthPosition
        rcases hp with hp | hp
        · rw [if_pos fun x hx => ?_]
          · simp
          · obtain ⟨i, hi, rfl⟩ := List.mem_map.mp hx
            exact dayField_last.mpr (hp i (List.mem_range.mp hi))
        · have hs : ∀ x ∈ dates t n, dayField x = 1 := by
            intro x hx
            obtain ⟨i, hi, rfl⟩ := List.mem_map.mp hx
            exact dayField_one.mpr (hp i (List.mem_range.mp hi))
          split_ifs <;> simp
      rw [infer_whole (by omega) hinc hw] at h'
      unfold inferDaily at h'
      have r3 : monthlyRule (dates t n) ≠ none := by
        unfold monthlyRule
        rw [if_neg hu]
        exact hpos
      cases r1 : annualRule (dates t n) <;> simp only [r1] at h'
      · cases r2 : quarterlyRule (dates t n) <;> simp only [r2] at h'
        · cases r3' : monthlyRule (dates t n) <;> simp only [r3'] at h'
          · exact r3 r3'
          · cases h'
        · cases h'
      · cases h'
  · exfalso
    have hm : EachMonth t n := h'.elim (fun h => h.1) fun h => h.1
    have e0 : monthOf (dayOf (t 1)) = monthOf (dayOf (t 0)) + 1 := hm 0 (by omega)
    omega
  · exact e

/-- C128. Newest first: never a calendar step; either `ValueError` or silently a trading day. -/
theorem descending (hn : 3 ≤ n) (h : ∀ i, i + 1 < n → t (i + 1) < t i) :
    stepSize (dates t n) = .ok (1 / 252) ∨ stepSize (dates t n) = .error .valueError := by
  have h0 := h 0 (by omega)
  rw [zero_add] at h0
  rcases stepSize_cases (t := t) hn with ⟨-, h'⟩ | ⟨e, -⟩ | ⟨-, h'⟩ | e
  · have := h' 0 (by omega)
    rw [zero_add] at this
    unfold nsPerDay at this
    omega
  · exact .inl e
  · exfalso
    have hm : EachMonth t n := h'.elim (fun h => h.1) fun h => h.1
    have e0 : monthOf (dayOf (t 1)) = monthOf (dayOf (t 0)) + 1 := hm 0 (by omega)
    have := monthOf_mono (D := dayOf (t 1)) (E := dayOf (t 0)) (by unfold dayOf nsPerDay at *; omega)
    omega
  · exact .inr e

/-! ### Calendars that are silently taken for trading days -/

/-- C128, defect. Dates that go up and down, or repeat: a trading day, whatever the spacing. -/
theorem unsorted_default {i j : Nat} (hi : i + 1 < n) (hj : j + 1 < n) (h1 : t (i + 1) ≤ t i) (h2 : t j ≤ t (j + 1)) :
    stepSize (dates t n) = .ok (1 / 252) := by
  apply step_none
  unfold inferFreq
  rw [if_pos]
  rintro ⟨hm, hd⟩
  have get : ∀ k (hk : k < n), (dates t n)[k]'(by simpa using hk) = t k := fun k hk => by simp
  have ne : ∀ k, k + 1 < n → t k ≠ t (k + 1) := by
    intro k hk e
    have := (List.pairwise_iff_getElem.mp hd) k (k + 1) (by simp; omega) (by simpa using hk) (by omega)
    rw [get k (by omega), get (k + 1) hk] at this
    exact this e
  rcases hm with hm | hm
  · have := (List.pairwise_iff_getElem.mp hm) i (i + 1) (by simp; omega) (by simpa using hi) (by omega)
    rw [get i (by omega), get (i + 1) hi] at this
    exact ne i hi (le_antisymm this h1)
  · have := (List.pairwise_iff_getElem.mp hm) j (j + 1) (by simp; omega) (by simpa using hj) (by omega)
    rw [get j (by omega), get (j + 1) hj] at this
    exact ne j hj (le_antisymm h2 this)

/-- C128, defect. Increasing times of day with unequal steps (ticks), the shortest not a whole number of days,
other than business hours: a trading day. -/
theorem ticks_default (hn : 2 ≤ n) (h : ∀ i, i + 1 < n → t i < t (i + 1)) (hs : ¬ ShortestWhole t n)
    {i : Nat} (hi : i + 1 < n) (hne : t (i + 1) - t i ≠ t 1 - t 0) (hb : ¬ businessHours (dates t n)) :
    stepSize (dates t n) = .ok (1 / 252) := by
  apply step_none
  unfold inferFreq
  rw [if_neg (not_not.mpr (mono_dates h))]
  have hl : (uniqueDeltas (dates t n)).length ≠ 1 := fun e =>
    hne ((length_uniqueDeltas (t := t) hn).mp e i hi)
  obtain ⟨⟨k, hk, e⟩, hmin⟩ := head_uniqueDeltas (t := t) hn
  have hw : ¬ ((uniqueDeltas (dates t n)).headD 0 ≠ 0 ∧ (uniqueDeltas (dates t n)).headD 0 % nsPerDay = 0) := fun hc =>
    hs ⟨k, hk, fun j hj => by rw [e]; exact hmin j hj, by rw [e]; exact hc.2⟩
  simp only
  rw [if_neg hw, if_neg hb, if_pos hl]

private theorem whole_inc (h : ∀ i, i + 1 < n → t i < t (i + 1) ∧ (t (i + 1) - t i) % nsPerDay = 0) (hn : 2 ≤ n) :
    ShortestWhole t n := by
  obtain ⟨⟨k, hk, e⟩, hmin⟩ := head_uniqueDeltas (t := t) hn
  exact ⟨k, hk, fun j hj => by rw [e]; exact hmin j hj, (h k hk).2⟩

private theorem irregular_days (hn : 3 ≤ n) (h : ∀ i, i + 1 < n → t i < t (i + 1) ∧ (t (i + 1) - t i) % nsPerDay = 0)
    {i : Nat} (hi : i + 1 < n) (hne : t (i + 1) - t i ≠ t 1 - t 0)
    {j : Nat} (hj : j + 2 < n) (h28 : t (j + 2) - t j < 28 * nsPerDay) (hb : ¬ BusinessDays t n) :
    TS.inferFreq (dates t n) = womRule (dates t n) := by
  have hl : (uniqueDeltas (dates t n)).length ≠ 1 := fun e =>
    hne ((length_uniqueDeltas (t := t) (by omega)).mp e i hi)
  have j1 := h j (by omega)
  have j2 := h (j + 1) (by omega)
  rw [show j + 1 + 1 = j + 2 from rfl] at j2
  obtain ⟨r1, r2, r3⟩ : annualRule (dates t n) = none ∧ quarterlyRule (dates t n) = none ∧ monthlyRule (dates t n) = none :=
    no_month_rule (t := t) (n := n) (i := j) hj (by unfold dayOf nsPerDay at *; omega)
      (by unfold dayOf nsPerDay at *; omega) (by unfold dayOf nsPerDay at *; omega)
  rw [infer_whole (by omega) (fun i hi => (h i hi).1) (whole_inc h (by omega))]
  unfold inferDaily
  simp only [r1, r2, r3]
  rw [if_neg hl, if_neg fun e => hb ((business_iff hn).mp e)]

/-- C128, defect. Whole days apart, not equally spaced, two neighbouring steps within four weeks, not all on the same
weekday and not plain business days — business days with a holiday, daily data with a gap, three days a week:
a trading day. -/
theorem gaps_default (hn : 3 ≤ n) (h : ∀ i, i + 1 < n → t i < t (i + 1) ∧ (t (i + 1) - t i) % nsPerDay = 0)
    {i : Nat} (hi : i + 1 < n) (hne : t (i + 1) - t i ≠ t 1 - t 0)
    {j : Nat} (hj : j + 2 < n) (h28 : t (j + 2) - t j < 28 * nsPerDay) (hb : ¬ BusinessDays t n)
    {k : Nat} (hk : k + 1 < n) (h7 : (t (k + 1) - t k) % (7 * nsPerDay) ≠ 0) :
    stepSize (dates t n) = .ok (1 / 252) := by
  apply step_none
  rw [irregular_days hn h hi hne hj h28 hb]
  unfold womRule
  rw [if_pos]
  by_contra hc
  have hcard : ((dates t n).map weekday).toFinset.card ≤ 1 := by omega
  have := Finset.card_le_one.mp hcard (weekday (t k)) (by
    rw [List.mem_toFinset]; exact List.mem_map_of_mem (mem_dates (by omega))) (weekday (t (k + 1))) (by
    rw [List.mem_toFinset]; exact List.mem_map_of_mem (mem_dates hk))
  have hw := (h k hk).2
  apply h7
  unfold weekday dayOf nsPerDay at *
  omega

/-- C128, defect. Weekly dates with a week missing somewhere, but two successive weeks present: a trading day,
where the same dates without the gap raise `ValueError`. -/
theorem weekly_gap (hn : 3 ≤ n) (h : ∀ i, i + 1 < n → t i < t (i + 1) ∧ (t (i + 1) - t i) % nsPerDay = 0)
    {i : Nat} (hi : i + 1 < n) (hne : t (i + 1) - t i ≠ t 1 - t 0)
    {j : Nat} (hj : j + 2 < n) (hj1 : t (j + 1) - t j = 7 * nsPerDay) (hj2 : t (j + 2) - t (j + 1) = 7 * nsPerDay) :
    stepSize (dates t n) = .ok (1 / 252) := by
  apply step_none
  rw [irregular_days hn h hi hne hj (by unfold nsPerDay at *; omega) fun hb => by
    have := hb.1 j (by omega)
    unfold nsPerDay at *
    omega]
  unfold womRule
  split_ifs with hc
  · rfl
  -- the three dates lie in different weeks of their months
  have mem : ∀ k, k < n → (dayField (t k) - 1) / 7 < 4 →
      (dayField (t k) - 1) / 7 ∈ (((dates t n).map fun t => (dayField t - 1) / 7).filter (· < 4)).toFinset := by
    intro k hk hlt
    rw [List.mem_toFinset, List.mem_filter]
    exact ⟨List.mem_map.mpr ⟨t k, mem_dates hk, rfl⟩, by simpa using hlt⟩
  have two : ∃ a b, a < n ∧ b < n ∧ (dayField (t a) - 1) / 7 < 4 ∧ (dayField (t b) - 1) / 7 < 4 ∧
      (dayField (t a) - 1) / 7 ≠ (dayField (t b) - 1) / 7 := by
    have d1 : dayOf (t (j + 1)) = dayOf (t j) + 7 := by unfold dayOf nsPerDay at *; omega
    have d2 : dayOf (t (j + 2)) = dayOf (t j) + 14 := by unfold dayOf nsPerDay at *; omega
    have s0 := monthOf_spec (dayOf (t j))
    have l0 := monthStart_succ (monthOf (dayOf (t j)))
    have l1 := monthStart_succ (monthOf (dayOf (t j)) + 1)
    by_cases c1 : dayOf (t j) + 7 < monthStart (monthOf (dayOf (t j)) + 1)
    · have e1 : monthOf (dayOf (t (j + 1))) = monthOf (dayOf (t j)) := monthOf_eq (by omega) (by omega)
      by_cases c3 : dayOf (t j) - monthStart (monthOf (dayOf (t j))) < 21
      · refine ⟨j, j + 1, by omega, by omega, ?_, ?_, ?_⟩ <;> unfold dayField <;> rw [e1] at * <;> omega
      · have e2 : monthOf (dayOf (t (j + 2))) = monthOf (dayOf (t j)) + 1 := monthOf_eq (by omega) (by omega)
        refine ⟨j, j + 2, by omega, by omega, ?_, ?_, ?_⟩ <;> unfold dayField <;> rw [e2] at * <;> omega
    · have e1 : monthOf (dayOf (t (j + 1))) = monthOf (dayOf (t j)) + 1 := monthOf_eq (by omega) (by omega)
      have e2 : monthOf (dayOf (t (j + 2))) = monthOf (dayOf (t j)) + 1 := monthOf_eq (by omega) (by omega)
      refine ⟨j + 1, j + 2, by omega, by omega, ?_, ?_, ?_⟩ <;> unfold dayField <;> rw [e1, e2] at * <;> omega
  obtain ⟨a, b, ha, hb, la, lb, hab⟩ := two
  split
  · rename_i w hw
    exfalso
    have ma := (Finset.mem_sort (· ≤ ·)).mpr (mem a ha la)
    have mb := (Finset.mem_sort (· ≤ ·)).mpr (mem b hb lb)
    rw [hw, List.mem_singleton] at ma mb
    exact hab (ma.trans mb.symm)
  · rfl

/-! ### Consequences -/

/-- C128, defect. After a fit on dates without a recognised pattern (such as business days with a holiday) no path
can be sampled unless `label_freq` is given. -/
theorem no_pattern_no_sample (o : Obj P) {l : List ℝ} {name : Label} {ts : List Int} {iname : Option String}
    {dt : Option ℝ} (h3 : 3 ≤ ts.length) (hf : TS.inferFreq ts = none) {g : SampleArgs} (hg : g.labelFreq = none)
    (out : Out) :
    pathSample (pandas dr) m (fit (pandas dr) m o (.series l name (.dates ts iname)) dt).1 g ≠ .ok out := by
  have hi : indexInfo (pandas dr) (.series l name (.dates ts iname)) = .ok ⟨true, iname, listMin? ts, listMax? ts, none⟩ := by
    simp only [indexInfo, SimData.dateIndex]
    rw [if_neg (by omega)]
    simp only [pandas, hf]
  have hs : (fit (pandas dr) m o (.series l name (.dates ts iname)) dt).1.state.index =
      ⟨true, iname, listMin? ts, listMax? ts, none⟩ := by
    have hp : (preprocessFit (pandas dr) o.state (.series l name (.dates ts iname)) dt).1.index =
        ⟨true, iname, listMin? ts, listMax? ts, none⟩ := by
      unfold preprocessFit
      simp only [hi, SimData.toMatrix]
      split_ifs
      · rfl
      · split <;> rfl
    unfold fit
    split
    · rename_i e
      rw [e] at hp
      exact hp
    · rename_i e
      rw [e] at hp
      exact hp
  generalize (fit (pandas dr) m o (.series l name (.dates ts iname)) dt).1 = q at hs
  intro hc
  unfold pathSample at hc
  cases hpre : preprocessSim q.state m.x0Default g.x0 g.dt g.labelStart g.labelFreq with
  | error e => rw [hpre] at hc; cases hc
  | ok r =>
    rw [hpre] at hc
    obtain ⟨v, d, ls, lf⟩ := r
    have hlf : lf = none := by
      unfold preprocessSim at hpre
      rw [hg, hs] at hpre
      simp only [Bind.bind, Except.bind] at hpre
      split at hpre
      · cases hpre
      · split at hpre
        · cases hpre
        · simp only [Except.ok.injEq, Prod.mk.injEq] at hpre
          rw [← hpre.2.2.2]
          simp
    subst hlf
    simp only [Bind.bind, Except.bind] at hc
    split at hc
    · cases hc
    · rename_i a _
      have hm : makeDateIndex (pandas dr) q.state a.rows ls none = .error .assertionError := by
        unfold makeDateIndex
        rw [hs]
        simp
      unfold formatAns at hc
      have hn : needDates q.state ls none = true := by unfold needDates; rw [hs]; rfl
      rw [if_pos hn] at hc
      simp only [hm, Bind.bind, Except.bind] at hc
      cases hc

/-- C128. What the wrong step size does to a fit: the volatility is multiplied by the root of the ratio of the steps,
the drift by the ratio; nothing else changes. -/
theorem fit_step_ratio (chol : Arr → Option Arr) (dx : List (List ℝ)) {d d' : ℝ} (hd : 0 < d) (hd' : 0 < d') {f : BMFit}
    (h : fitIncrements chol dx d = .ok f) :
    fitIncrements chol dx d' = .ok ⟨f.drift.map (Option.map (· * (d / d'))),
      f.vol.map (Option.map (· * Real.sqrt (d / d'))), f.cor, f.L⟩ := by
  have sd : Real.sqrt d ≠ 0 := (Real.sqrt_pos.mpr hd).ne'
  have sd' : Real.sqrt d' ≠ 0 := (Real.sqrt_pos.mpr hd').ne'
  have hdrift : (dx.map fun l => (npMean l).map (· / d)).map (Option.map (· * (d / d'))) =
      dx.map fun l => (npMean l).map (· / d') := by
    rw [List.map_map]
    apply List.map_congr_left
    intro l _
    simp only [Function.comp_apply, Option.map_map]
    congr 1
    funext x
    simp only [Function.comp_apply]
    field_simp
  have hvol : (dx.map fun l => (npStd1 l).map (· / Real.sqrt d)).map (Option.map (· * Real.sqrt (d / d'))) =
      dx.map fun l => (npStd1 l).map (· / Real.sqrt d') := by
    rw [List.map_map]
    apply List.map_congr_left
    intro l _
    simp only [Function.comp_apply, Option.map_map]
    congr 1
    funext x
    simp only [Function.comp_apply]
    rw [Real.sqrt_div hd.le]
    field_simp
  have mem0 : ∀ {r : ℝ}, r ≠ 0 → (some 0 ∈ (dx.map fun l => (npStd1 l).map (· / r)) ↔ some 0 ∈ dx.map npStd1) := by
    intro r hr
    simp only [List.mem_map]
    constructor
    · rintro ⟨l, hl, e⟩
      refine ⟨l, hl, ?_⟩
      cases hx : npStd1 l with
      | none => rw [hx] at e; cases e
      | some x =>
        rw [hx] at e
        simp only [Option.map_some, Option.some.injEq] at e
        rw [(div_eq_zero_iff.mp e).resolve_right hr]
    · rintro ⟨l, hl, e⟩
      exact ⟨l, hl, by rw [e]; simp⟩
  have memN : ∀ {r : ℝ}, (none ∈ (dx.map fun l => (npStd1 l).map (· / r)) ↔ none ∈ dx.map npStd1) := by
    intro r
    simp only [List.mem_map, Option.map_eq_none_iff]
  unfold fitIncrements at *
  simp only [mem0 sd, memN] at h
  simp only [mem0 sd', memN]
  split_ifs at h ⊢ with h1 h2 h3
  · cases hc : chol (corrcoef dx) with
    | none => rw [hc] at h; cases h
    | some L =>
      rw [hc] at h
      simp only [Except.ok.injEq] at h
      subst h
      simp only [hdrift, hvol]
  · simp only [Except.ok.injEq] at h
    subst h
    simp only [hdrift, hvol]

/-- A fit of one column of increments succeeds. -/
example (chol : Arr → Option Arr) : ∃ f, fitIncrements chol [[1, 2]] (7 / 365) = .ok f := by
  unfold fitIncrements
  rw [if_neg (by simp)]
  exact ⟨_, rfl⟩

/-! ### Cases -/

/-- Three consecutive days. -/
example : stepSize (dates (fun i => i * nsPerDay) 3) = .ok (1 / 365) :=
  (step_day_iff (by omega)).mpr fun i _ => by unfold nsPerDay; push_cast; omega

/-- Five business days of one week are taken for calendar days (Monday is 1970-01-05). -/
example : stepSize (dates (fun i => (4 + i) * nsPerDay) 5) = .ok (1 / 365) :=
  (step_day_iff (by omega)).mpr fun i _ => by unfold nsPerDay; push_cast; omega

/-- Thursday, Friday, Monday. -/
def overWeekend (i : Nat) : Int := if i < 2 then i * nsPerDay else (i + 2) * nsPerDay

theorem overWeekend_business : BusinessDays overWeekend 3 := by
  refine ⟨fun i hi => ?_, 1, by omega, by decide⟩
  have : i = 0 ∨ i = 1 := by omega
  rcases this with rfl | rfl
  · exact .inr (by decide)
  · exact .inl (by decide)

example : stepSize (dates overWeekend 3) = .ok (1 / 252) := (step_default_iff (by omega)).mpr (.inl overWeekend_business)

/-- The first days of January, February and March 1970. -/
def quarter (i : Nat) : Int := if i = 0 then 0 else if i = 1 then 31 * nsPerDay else 59 * nsPerDay

theorem quarter_months : MonthStarts quarter 3 := by
  have e0 : monthOf (dayOf (quarter 0)) = 23638 := monthOf_eq (by decide) (by decide)
  have e1 : monthOf (dayOf (quarter 1)) = 23639 := monthOf_eq (by decide) (by decide)
  have e2 : monthOf (dayOf (quarter 2)) = 23640 := monthOf_eq (by decide) (by decide)
  refine ⟨fun i hi => ?_, ⟨1, by omega, fun j hj => ?_, by decide⟩, fun i hi => ?_⟩
  · have : i = 0 ∨ i = 1 := by omega
    rcases this with rfl | rfl
    · rw [zero_add, e0, e1]; rfl
    · rw [show 1 + 1 = 2 from rfl, e1, e2]; rfl
  · have : j = 0 ∨ j = 1 := by omega
    rcases this with rfl | rfl <;> decide
  · have : i = 0 ∨ i = 1 ∨ i = 2 := by omega
    rcases this with rfl | rfl | rfl
    · exact ⟨23638, by decide⟩
    · exact ⟨23639, by decide⟩
    · exact ⟨23640, by decide⟩

example : stepSize (dates quarter 3) = .ok (1 / 12) := (step_month_iff (by omega)).mpr (.inr quarter_months)

/-- The first days of January, April and July 1970 raise. -/
def halfYear (i : Nat) : Int := if i = 0 then 0 else if i = 1 then 90 * nsPerDay else 181 * nsPerDay

example : stepSize (dates halfYear 3) = .error .valueError := by
  have e0 : monthOf (dayOf (halfYear 0)) = 23638 := monthOf_eq (by decide) (by decide)
  have e1 : monthOf (dayOf (halfYear 1)) = 23641 := monthOf_eq (by decide) (by decide)
  have e2 : monthOf (dayOf (halfYear 2)) = 23644 := monthOf_eq (by decide) (by decide)
  refine quarterly_raises (k := 3) (by omega) (by omega) (fun i hi => ?_) ⟨0, by omega, fun j hj => ?_, by decide⟩
    (.inr fun i hi => ?_)
  · have : i = 0 ∨ i = 1 := by omega
    rcases this with rfl | rfl
    · rw [zero_add, e0, e1]; rfl
    · rw [show 1 + 1 = 2 from rfl, e1, e2]; rfl
  · have : j = 0 ∨ j = 1 := by omega
    rcases this with rfl | rfl <;> decide
  · have : i = 0 ∨ i = 1 ∨ i = 2 := by omega
    rcases this with rfl | rfl | rfl
    · exact ⟨23638, by decide⟩
    · exact ⟨23641, by decide⟩
    · exact ⟨23644, by decide⟩

/-- Weekly data raise. -/
example : stepSize (dates (fun i => i * (7 * nsPerDay)) 52) = .error .valueError :=
  (weekly_raises (by omega) fun i _ => by unfold nsPerDay; push_cast; omega).1

/-- Hourly data raise. -/
example : stepSize (dates (fun i => i * nsPerHour) 24) = .error .valueError :=
  equal_steps_raise (d := nsPerHour) (by omega) (fun i _ => by unfold nsPerHour; push_cast; omega)
    (by decide) (by decide) (by decide)

/-- Daily data with the newest first raise. -/
example : stepSize (dates (fun i => -(i * nsPerDay)) 10) = .error .valueError :=
  equal_steps_raise (d := -nsPerDay) (by omega) (fun i _ => by unfold nsPerDay; push_cast; omega)
    (by decide) (by decide) (by decide)

example : stepSize (dates (fun i => -(i * nsPerDay)) 10) = .ok (1 / 252) ∨
    stepSize (dates (fun i => -(i * nsPerDay)) 10) = .error .valueError :=
  descending (by omega) fun i _ => by unfold nsPerDay; push_cast; omega

/-- Weekly dates, one of them twice. -/
example : stepSize (dates (fun i => if i = 0 then 0 else (i - 1) * (7 * nsPerDay)) 20) = .ok (1 / 252) :=
  unsorted_default (i := 0) (j := 1) (by omega) (by omega) (by decide) (by decide)

/-- Three ticks, one and two seconds apart. -/
def ticks (i : Nat) : Int := if i = 0 then 0 else if i = 1 then 1000000000 else 3000000000

example : stepSize (dates ticks 3) = .ok (1 / 252) := by
  refine ticks_default (i := 1) (by omega) (fun i hi => ?_) ?_ (by omega) (by decide) ?_
  · have : i = 0 ∨ i = 1 := by omega
    rcases this with rfl | rfl <;> decide
  · rintro ⟨i, hi, -, h⟩
    have : i = 0 ∨ i = 1 := by omega
    rcases this with rfl | rfl
    · exact absurd h (by decide)
    · exact absurd h (by decide)
  · have hm : (1000000000 : Int) ∈ uniqueDeltas (dates ticks 3) := mem_uniqueDeltas.mpr ⟨0, by omega, rfl⟩
    rintro (h | h | h) <;> rw [h] at hm <;> revert hm <;> decide

/-- Weeks 0, 1, 2 and 4. -/
def missingWeek (i : Nat) : Int := if i < 3 then i * (7 * nsPerDay) else (i + 1) * (7 * nsPerDay)

/-- A weekly series with one week missing is fitted as daily data; its volatility is more than twice that of weekly
steps. -/
theorem missingWeek_fit : stepSize (dates missingWeek 4) = .ok (1 / 252) ∧ (2 : ℝ) < Real.sqrt (7 / 365 / (1 / 252)) := by
  constructor
  · refine weekly_gap (i := 2) (j := 0) (by omega) (fun i hi => ?_) (by omega) (by decide) (by omega) (by decide) (by decide)
    have : i = 0 ∨ i = 1 ∨ i = 2 := by omega
    rcases this with rfl | rfl | rfl <;> decide
  · rw [Real.lt_sqrt (by norm_num)]
    norm_num

/-- Monday, Wednesday, Thursday: a holiday on Tuesday. -/
def holiday (i : Nat) : Int := if i = 0 then 4 * nsPerDay else (5 + i) * nsPerDay

theorem holiday_no_pattern : TS.inferFreq (dates holiday 3) = none := by
  have hs : stepSize (dates holiday 3) = .ok (1 / 252) := by
    refine gaps_default (i := 1) (j := 0) (k := 0) (by omega) (fun i hi => ?_) (by omega) (by decide) (by omega) (by decide)
      (fun h => ?_) (by omega) (by decide)
    · have : i = 0 ∨ i = 1 := by omega
      rcases this with rfl | rfl <;> decide
    · have := h.1 0 (by omega)
      revert this
      decide
  rcases (step_default_iff (by omega)).mp hs with h | h
  · exfalso
    have := h.1 0 (by omega)
    revert this
    decide
  · exact h

/-- Three business days around a holiday can be fitted, but then nothing can be sampled. -/
example (z : Nat → ℝ) (p : BMParams) (out : Out) :
    pathSample (pandas dr) (demoModel z) (fit (pandas dr) (demoModel z) ⟨p, .init⟩
      (.series [1, 2, 4] .none (.dates (dates holiday 3) none)) none).1 {} ≠ .ok out :=
  no_pattern_no_sample _ (by simp) holiday_no_pattern rfl out

end Verif.Sim
