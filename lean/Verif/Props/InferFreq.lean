import Verif.Lemmas.InferFreq
import Verif.Props.Timeseries
import Mathlib.Tactic.NormNum

/-!
# C128: which calendars `pd.infer_freq` recognises
-/

namespace Verif.TS

/-- An index of `n` timestamps. -/
abbrev dates (t : Nat → Int) (n : Nat) : List Int := (List.range n).map t

/-- Every step is one day. -/
def Days (t : Nat → Int) (n : Nat) : Prop := ∀ i, i + 1 < n → t (i + 1) - t i = nsPerDay

/-- Every date is a Monday to Friday, followed by the next such day at the same time, with at least one
weekend in between. -/
def BusinessDays (t : Nat → Int) (n : Nat) : Prop :=
  (∀ i, i + 1 < n → (weekday (t i) = 4 ∧ t (i + 1) - t i = 3 * nsPerDay) ∨
    (weekday (t i) ≤ 3 ∧ t (i + 1) - t i = nsPerDay)) ∧ ∃ i, i + 1 < n ∧ weekday (t i) = 4

/-- One date in each of successive months. -/
def EachMonth (t : Nat → Int) (n : Nat) : Prop :=
  ∀ i, i + 1 < n → monthOf (dayOf (t (i + 1))) = monthOf (dayOf (t i)) + 1

/-- The shortest step is a whole number of days. -/
def ShortestWhole (t : Nat → Int) (n : Nat) : Prop :=
  ∃ i, i + 1 < n ∧ (∀ j, j + 1 < n → t (i + 1) - t i ≤ t (j + 1) - t j) ∧ (t (i + 1) - t i) % nsPerDay = 0

/-- The last days, or the first days, of successive months. -/
def MonthEnds (t : Nat → Int) (n : Nat) : Prop := EachMonth t n ∧ ShortestWhole t n ∧ ∀ i, i < n → isMonthEnd (t i)
def MonthStarts (t : Nat → Int) (n : Nat) : Prop := EachMonth t n ∧ ShortestWhole t n ∧ ∀ i, i < n → isMonthStart (t i)

variable {t : Nat → Int} {n : Nat}

/-! ### Reductions -/

theorem lt_of_steps (h : ∀ i, i + 1 < n → t i < t (i + 1)) {i j : Nat} (hij : i < j) (hj : j < n) : t i < t j := by
  obtain ⟨k, rfl⟩ : ∃ k, j = i + 1 + k := ⟨j - i - 1, by omega⟩
  induction k with
  | zero => exact h i (by omega)
  | succ k ih =>
    have h1 := ih (by omega) (by omega)
    have h2 := h (i + 1 + k) (by omega)
    rw [show i + 1 + k + 1 = i + 1 + (k + 1) by omega] at h2
    omega

theorem mono_dates (h : ∀ i, i + 1 < n → t i < t (i + 1)) :
    ((dates t n).Pairwise (· ≤ ·) ∨ (dates t n).Pairwise (· ≥ ·)) ∧ (dates t n).Nodup := by
  have hp : (dates t n).Pairwise (· < ·) := by
    rw [List.pairwise_map, List.pairwise_iff_getElem]
    intro i j hi hj hij
    rw [List.length_range] at hi hj
    rw [List.getElem_range, List.getElem_range]
    exact lt_of_steps h hij hj
  exact ⟨.inl (hp.imp fun h => h.le), hp.imp fun h => h.ne⟩

theorem infer_whole (hn : 2 ≤ n) (h : ∀ i, i + 1 < n → t i < t (i + 1)) (hw : ShortestWhole t n) :
    inferFreq (dates t n) = inferDaily (dates t n) := by
  obtain ⟨⟨i, hi, e⟩, hmin⟩ := head_uniqueDeltas (t := t) hn
  obtain ⟨j, hj, hjm, hj0⟩ := hw
  have hd : (uniqueDeltas (dates t n)).headD 0 = t (j + 1) - t j := by
    have h1 := hmin j hj
    have h2 := hjm i hi
    show (uniqueDeltas ((List.range n).map t)).headD 0 = _
    omega
  unfold inferFreq
  rw [if_neg (not_not.mpr (mono_dates h))]
  simp only [hd]
  rw [if_pos ⟨by have := h j hj; omega, hj0⟩]

/-- Whole days: the steps as numbers of days. -/
theorem whole_step {a b : Int} (h : (b - a) % nsPerDay = 0) : b - a = (dayOf b - dayOf a) * nsPerDay := by
  unfold dayOf nsPerDay at *; omega

theorem headD_dates (hn : 0 < n) : (dates t n).headD 0 = t 0 := by
  obtain ⟨m, rfl⟩ : ∃ m, n = m + 1 := ⟨n - 1, by omega⟩
  rw [dates, List.range_succ_eq_map]; rfl

theorem businessWalk_spec : ∀ (l : List Int) (w : Int), businessWalk w l = true ↔
    ∀ i, i < l.length → (((w + (l.take (i + 1)).sum) % 7 = 0 ∧ l.getD i 0 = 3) ∨
      (0 < (w + (l.take (i + 1)).sum) % 7 ∧ (w + (l.take (i + 1)).sum) % 7 ≤ 4 ∧ l.getD i 0 = 1)) := by
  intro l
  induction l with
  | nil => intro w; simp [businessWalk]
  | cons s l ih =>
    intro w
    rw [businessWalk]
    simp only [Bool.and_eq_true, Bool.or_eq_true, decide_eq_true_eq]
    rw [ih]
    constructor
    · rintro ⟨h0, h⟩ i hi
      cases i with
      | zero => simpa [and_assoc] using h0
      | succ i =>
        have := h i (by simpa using hi)
        rw [List.take_succ_cons, List.sum_cons, List.getD_cons_succ]
        rw [Int.add_emod, Int.emod_emod, ← Int.add_emod] at this
        rw [← add_assoc]
        exact this
    · intro h
      constructor
      · simpa [and_assoc] using h 0 (by simp)
      · intro i hi
        have := h (i + 1) (by simpa using hi)
        rw [List.take_succ_cons, List.sum_cons, List.getD_cons_succ, ← add_assoc] at this
        rw [Int.add_emod, Int.emod_emod, ← Int.add_emod]
        exact this

theorem walk_sum (d : Nat → Int) (n i : Nat) (hi : i < n) :
    (((List.range n).map fun k => d (k + 1) - d k).take (i + 1)).sum = d (i + 1) - d 0 := by
  rw [← List.map_take, List.take_range, min_eq_left (by omega)]
  clear hi
  induction i with
  | zero => simp
  | succ i ih => rw [List.range_succ, List.map_append, List.sum_append, ih]; simp

/-- The check for business days is exact. -/
theorem business_iff (hn : 3 ≤ n) : isBusinessDaily (dates t n) = true ↔ BusinessDays t n := by
  unfold isBusinessDaily
  rw [Bool.and_eq_true, decide_eq_true_eq, headD_dates (by omega), businessWalk_spec]
  have hday : 0 < nsPerDay := by unfold nsPerDay; omega
  constructor
  · rintro ⟨hu, hw⟩
    have hstep : ∀ i, i + 1 < n → t (i + 1) - t i = nsPerDay ∨ t (i + 1) - t i = 3 * nsPerDay := by
      intro i hi
      have : t (i + 1) - t i ∈ uniqueDeltas (dates t n) := mem_uniqueDeltas.mpr ⟨i, hi, rfl⟩
      rw [hu] at this
      simpa using this
    have hdiv : (npDiff (dates t n)).map (· / nsPerDay) = (List.range (n - 1)).map fun k => dayOf (t (k + 1)) - dayOf (t k) := by
      rw [dates, npDiff_range', List.map_map]
      apply List.map_congr_left
      intro k hk
      rw [List.mem_range] at hk
      show (t (k + 1) - t k) / nsPerDay = _
      have := hstep k (by omega)
      unfold dayOf nsPerDay at *
      omega
    rw [hdiv] at hw
    have main : ∀ i, i + 1 < n → (weekday (t i) = 4 ∧ t (i + 1) - t i = 3 * nsPerDay) ∨
        (weekday (t i) ≤ 3 ∧ t (i + 1) - t i = nsPerDay) := by
      intro i hi
      have h1 := hw i (by simp; omega)
      rw [walk_sum (fun k => dayOf (t k)) _ _ (by omega)] at h1
      have hg : ((List.range (n - 1)).map fun k => dayOf (t (k + 1)) - dayOf (t k)).getD i 0 = dayOf (t (i + 1)) - dayOf (t i) := by
        simp [List.getD_eq_getElem?_getD, List.getElem?_range (show i < n - 1 by omega)]
      rw [hg] at h1
      have h2 := hstep i hi
      unfold weekday dayOf nsPerDay at *
      omega
    refine ⟨main, ?_⟩
    have : 3 * nsPerDay ∈ uniqueDeltas (dates t n) := by rw [hu]; simp
    obtain ⟨i, hi, e⟩ := mem_uniqueDeltas.mp this
    refine ⟨i, hi, ?_⟩
    rcases main i hi with h | h
    · exact h.1
    · omega
  · rintro ⟨main, i, hi, hw⟩
    have hstep : ∀ i, i + 1 < n → t (i + 1) - t i = nsPerDay ∨ t (i + 1) - t i = 3 * nsPerDay := by
      intro i hi
      rcases main i hi with h | h
      · exact .inr h.2
      · exact .inl h.2
    constructor
    · have h3 : 3 * nsPerDay ∈ (npDiff (dates t n)).toFinset := by
        have : 3 * nsPerDay ∈ uniqueDeltas (dates t n) := by
          refine mem_uniqueDeltas.mpr ⟨i, hi, ?_⟩
          rcases main i hi with h | h
          · exact h.2
          · omega
        exact (Finset.mem_sort _).mp this
      have h1 : nsPerDay ∈ (npDiff (dates t n)).toFinset := by
        have : nsPerDay ∈ uniqueDeltas (dates t n) := by
          have hs := main i hi
          rcases Nat.lt_or_ge (i + 2) n with hlt | hge
          · refine mem_uniqueDeltas.mpr ⟨i + 1, by omega, ?_⟩
            have h4 := main (i + 1) (by omega)
            unfold weekday dayOf nsPerDay at *
            omega
          · obtain ⟨j, rfl⟩ : ∃ j, i = j + 1 := ⟨i - 1, by omega⟩
            refine mem_uniqueDeltas.mpr ⟨j, by omega, ?_⟩
            have h4 := main j (by omega)
            unfold weekday dayOf nsPerDay at *
            omega
        exact (Finset.mem_sort _).mp this
      have hset : (npDiff (dates t n)).toFinset = {nsPerDay, 3 * nsPerDay} := by
        ext d
        constructor
        · intro hd
          obtain ⟨k, hk, e⟩ := mem_uniqueDeltas.mp ((Finset.mem_sort (· ≤ ·)).mpr hd)
          have := hstep k hk
          rw [e] at this
          simpa using this
        · intro hd
          rcases Finset.mem_insert.mp hd with rfl | hd
          · exact h1
          · rw [Finset.mem_singleton.mp hd]; exact h3
      unfold uniqueDeltas
      rw [hset, Finset.sort_insert, Finset.sort_singleton]
      · intro b hb
        rw [Finset.mem_singleton.mp hb]
        omega
      · rw [Finset.mem_singleton]
        omega
    · have hdiv : (npDiff (dates t n)).map (· / nsPerDay) = (List.range (n - 1)).map fun k => dayOf (t (k + 1)) - dayOf (t k) := by
        rw [dates, npDiff_range', List.map_map]
        apply List.map_congr_left
        intro k hk
        rw [List.mem_range] at hk
        show (t (k + 1) - t k) / nsPerDay = _
        have := hstep k (by omega)
        unfold dayOf nsPerDay at *
        omega
      rw [hdiv]
      intro k hk
      have hk' : k + 1 < n := by simp at hk; omega
      rw [walk_sum (fun k => dayOf (t k)) _ _ (by omega)]
      have hg : ((List.range (n - 1)).map fun k => dayOf (t (k + 1)) - dayOf (t k)).getD k 0 = dayOf (t (k + 1)) - dayOf (t k) := by
        simp [List.getD_eq_getElem?_getD, List.getElem?_range (show k < n - 1 by omega)]
      rw [hg]
      have h2 := main k hk'
      unfold weekday dayOf nsPerDay at *
      omega

/-! ### The recognised calendars -/

theorem mem_dates {k : Nat} (hk : k < n) : t k ∈ dates t n := List.mem_map.mpr ⟨k, List.mem_range.mpr hk, rfl⟩

private theorem no_month_rule_first (hn : 3 ≤ n) (h1 : dayOf (t 0) < dayOf (t 1)) (h2 : dayOf (t 1) < dayOf (t 2))
    (h3 : dayOf (t 2) < dayOf (t 0) + 28) : annualRule (dates t n) = none ∧ quarterlyRule (dates t n) = none ∧
      monthlyRule (dates t n) = none := no_month_rule (i := 0) (by omega) h1 h2 h3

/-- C128. Consecutive days are recognised as `D`. -/
theorem infer_days (hn : 3 ≤ n) (h : Days t n) : inferFreq (dates t n) = some "D" := by
  have h0 : t 1 - t 0 = nsPerDay := h 0 (by omega)
  have h1 : t 2 - t 1 = nsPerDay := h 1 (by omega)
  obtain ⟨r1, r2, r3⟩ := no_month_rule_first (t := t) hn
    (by unfold dayOf nsPerDay at *; omega) (by unfold dayOf nsPerDay at *; omega) (by unfold dayOf nsPerDay at *; omega)
  have hlen : (uniqueDeltas (dates t n)).length = 1 :=
    (length_uniqueDeltas (t := t) (n := n) (by omega)).mpr fun i hi => by rw [h i hi, h0]
  have hh : (uniqueDeltas (dates t n)).headD 0 = nsPerDay := by
    obtain ⟨⟨i, hi, e⟩, -⟩ := head_uniqueDeltas (t := t) (n := n) (by omega)
    rw [← h i hi, e]
  rw [infer_whole (by omega) (fun i hi => by have := h i hi; unfold nsPerDay at this; omega)
    ⟨0, by omega, fun j hj => by rw [h j hj, h 0 (by omega)], by rw [h 0 (by omega)]; decide⟩]
  unfold inferDaily
  simp only [r1, r2, r3, hlen, hh, if_true]
  rfl

/-- C128. Business days with a weekend are recognised as `B`. -/
theorem infer_business (hn : 3 ≤ n) (h : BusinessDays t n) : inferFreq (dates t n) = some "B" := by
  have h0 : _ ∨ (_ ∧ t 1 - t 0 = nsPerDay) := h.1 0 (by omega)
  have h1 : _ ∨ (_ ∧ t 2 - t 1 = nsPerDay) := h.1 1 (by omega)
  rw [zero_add] at h0
  rw [show 1 + 1 = 2 from rfl] at h1
  obtain ⟨r1, r2, r3⟩ := no_month_rule_first (t := t) hn
    (by unfold dayOf nsPerDay at *; omega) (by unfold dayOf nsPerDay at *; omega) (by unfold dayOf nsPerDay at *; omega)
  have hb := (business_iff hn).mpr h
  have hu : uniqueDeltas (dates t n) = [nsPerDay, 3 * nsPerDay] := by
    unfold isBusinessDaily at hb
    rw [Bool.and_eq_true, decide_eq_true_eq] at hb
    exact hb.1
  have hw : ShortestWhole t n := by
    obtain ⟨⟨i, hi, e⟩, hm⟩ := head_uniqueDeltas (t := t) (n := n) (by omega)
    refine ⟨i, hi, fun j hj => by rw [e]; exact hm j hj, ?_⟩
    rw [e]
    show (uniqueDeltas (dates t n)).headD 0 % _ = 0
    rw [hu]
    decide
  rw [infer_whole (by omega) (fun i hi => by have := h.1 i hi; unfold nsPerDay at this; omega) hw]
  unfold inferDaily
  simp only [r1, r2, r3, hu, hb, if_true]
  rfl

private theorem month_uniform (hn : 2 ≤ n) (h : EachMonth t n) : ¬ 1 < (monthDiffs (dates t n)).length := by
  have : (monthDiffs (dates t n)).length = 1 := by
    unfold monthDiffs dates
    rw [List.map_map, length_uniqueDeltas hn]
    intro i hi
    have h1 := h i hi
    have h2 := h 0 (by omega)
    simp only [Function.comp_apply, monthNumber]
    rw [zero_add] at h2
    omega
  omega

private theorem infer_monthly (hn : 3 ≤ n) (h : EachMonth t n) (hw : ShortestWhole t n) {p : Pos}
    (hp : monthPosition (dates t n) = some p) : inferFreq (dates t n) = some p.monthly := by
  have hinc : ∀ i, i + 1 < n → t i < t (i + 1) := by
    intro i hi
    by_contra hc
    have := monthOf_mono (show dayOf (t (i + 1)) ≤ dayOf (t i) by unfold dayOf nsPerDay; omega)
    have := h i hi
    omega
  have hu := month_uniform (by omega) h
  have hh : (monthDiffs (dates t n)).headD 0 = 1 := by
    rw [monthDiffs_head hu (i := 0) (by omega), h 0 (by omega)]; omega
  have r1 : annualRule (dates t n) = none := by
    unfold annualRule
    split_ifs with ha hb
    · rfl
    · rfl
    · exfalso
      have hcard : ((dates t n).map monthField).toFinset.card ≤ 1 := by omega
      have := Finset.card_le_one.mp hcard (monthField (t 0)) (by
        rw [List.mem_toFinset]; exact List.mem_map_of_mem (mem_dates (by omega))) (monthField (t 1)) (by
        rw [List.mem_toFinset]; exact List.mem_map_of_mem (mem_dates (by omega)))
      have h1 := h 0 (by omega)
      rw [zero_add] at h1
      unfold monthField at this
      omega
  have r2 : quarterlyRule (dates t n) = none := by
    unfold quarterlyRule
    rw [if_neg hu, if_pos (by rw [hh]; decide)]
  have r3 : monthlyRule (dates t n) = some p := by
    unfold monthlyRule
    rw [if_neg hu, hp]
  rw [infer_whole (by omega) hinc hw]
  unfold inferDaily
  simp only [r1, r2, r3, hh]
  rfl

/-- C128. The last days of successive months are recognised as `ME`. -/
theorem infer_month_ends (hn : 3 ≤ n) (h : MonthEnds t n) : inferFreq (dates t n) = some "ME" := by
  refine infer_monthly hn h.1 h.2.1 (p := .ce) ?_
  unfold monthPosition
  rw [if_pos]
  intro x hx
  obtain ⟨i, hi, rfl⟩ := List.mem_map.mp hx
  exact dayField_last.mpr (h.2.2 i (List.mem_range.mp hi))

/-- C128. The first days of successive months are recognised as `MS`. -/
theorem infer_month_starts (hn : 3 ≤ n) (h : MonthStarts t n) : inferFreq (dates t n) = some "MS" := by
  refine infer_monthly hn h.1 h.2.1 (p := .cs) ?_
  have hs : ∀ x ∈ dates t n, dayField x = 1 := by
    intro x hx
    obtain ⟨i, hi, rfl⟩ := List.mem_map.mp hx
    exact dayField_one.mpr (h.2.2 i (List.mem_range.mp hi))
  have hl : ¬ (daysInMonth (t 0) - dayField (t 0) < 3) := by
    have := monthStart_succ (monthOf (dayOf (t 0)))
    rw [hs _ (mem_dates (by omega))]
    unfold daysInMonth
    omega
  have he : ¬ dayField (t 0) = daysInMonth (t 0) := by omega
  unfold monthPosition
  rw [if_neg fun hc => he (hc _ (mem_dates (by omega))),
    if_neg fun hc => (hc _ (mem_dates (by omega))).elim he fun h => hl h.1, if_pos hs]

/-! ### Nothing else has a duration -/

private theorem position_ce {ts : List Int} (h : monthPosition ts = some .ce) : ∀ x ∈ ts, dayField x = daysInMonth x := by
  unfold monthPosition at h
  by_cases h1 : ∀ x ∈ ts, dayField x = daysInMonth x
  · exact h1
  · rw [if_neg h1] at h
    split_ifs at h <;> cases h

private theorem position_cs {ts : List Int} (h : monthPosition ts = some .cs) : ∀ x ∈ ts, dayField x = 1 := by
  unfold monthPosition at h
  by_cases h3 : ∀ x ∈ ts, dayField x = 1
  · exact h3
  · rw [if_neg h3] at h
    split_ifs at h <;> cases h

private theorem intraday_dur (d : Int) : freqToDuration (inferIntraday d) = none := by
  have key : ∀ b ∈ ["h", "min", "s", "ms", "us", "ns"], ∀ k : Int, freqToDuration (addCount b k) = none := by
    intro b hb k
    by_cases hk : k = 1
    · unfold addCount
      rw [if_pos hk, freqToDuration_eq_none_iff]
      revert b
      decide
    · exact dur_count hk
  unfold inferIntraday
  split_ifs <;> exact key _ (by decide) _

private theorem wom_dur {ts : List Int} {s : String} (h : womRule ts = some s) : freqToDuration s = none := by
  unfold womRule at h
  split_ifs at h
  split at h
  · injection h with h
    subst h
    refine dur_of_char (c := '-') ?_ (.inl rfl)
    rw [String.toList_append, String.toList_append]
    exact List.mem_append_left _ (List.mem_append_left _ (by decide))
  · cases h

private theorem week_dur {a : String} {k : Int} : freqToDuration (addCount ("W-" ++ a) k) = none := by
  have : ("W-" ++ a : String) = "W" ++ "-" ++ a := rfl
  rw [this]
  exact dur_anchor

private theorem daily_shape (hn : 3 ≤ n) (hd : (uniqueDeltas (dates t n)).headD 0 % nsPerDay = 0) {s : String}
    (h : inferDaily (dates t n) = some s) (hs : freqToDuration s ≠ none) :
    (s = "D" ∧ Days t n) ∨ (s = "B" ∧ BusinessDays t n) ∨ (s = "ME" ∧ MonthEnds t n) ∨
      (s = "MS" ∧ MonthStarts t n) := by
  unfold inferDaily at h
  simp only at h
  cases r1 : annualRule (dates t n) with
  | some p =>
    rw [r1] at h
    injection h with h
    subst h
    exact absurd dur_anchor hs
  | none =>
  rw [r1] at h
  simp only at h
  cases r2 : quarterlyRule (dates t n) with
  | some p =>
    rw [r2] at h
    injection h with h
    subst h
    exact absurd dur_anchor hs
  | none =>
  rw [r2] at h
  simp only at h
  cases r3 : monthlyRule (dates t n) with
  | some p =>
    rw [r3] at h
    injection h with h
    subst h
    have hk : (monthDiffs (dates t n)).headD 0 = 1 := by
      by_contra hk
      exact hs (dur_count hk)
    rw [hk] at hs ⊢
    unfold monthlyRule at r3
    split_ifs at r3 with hu
    have hm : EachMonth t n := by
      intro i hi
      have := monthDiffs_head hu hi
      rw [hk] at this
      omega
    have hw : ShortestWhole t n := by
      obtain ⟨⟨i, hi, e⟩, hmin⟩ := head_uniqueDeltas (t := t) (n := n) (by omega)
      exact ⟨i, hi, fun j hj => by rw [e]; exact hmin j hj, by rw [e]; exact hd⟩
    cases p with
    | ce =>
      exact .inr (.inr (.inl ⟨rfl, hm, hw, fun i hi => dayField_last.mp (position_ce r3 _ (mem_dates hi))⟩))
    | cs =>
      exact .inr (.inr (.inr ⟨rfl, hm, hw, fun i hi => dayField_one.mp (position_cs r3 _ (mem_dates hi))⟩))
    | be => exact absurd ((freqToDuration_eq_none_iff _).mpr (by decide)) hs
    | bs => exact absurd ((freqToDuration_eq_none_iff _).mpr (by decide)) hs
  | none =>
  rw [r3] at h
  simp only at h
  split_ifs at h with hu hb
  · injection h with h
    subst h
    unfold dailyRule at *
    split_ifs at hs ⊢ with h7
    · exact absurd week_dur hs
    · have hk : (uniqueDeltas (dates t n)).headD 0 / nsPerDay = 1 := by
        by_contra hk
        exact hs (dur_count hk)
      rw [hk]
      refine .inl ⟨rfl, ?_⟩
      intro i hi
      have h1 := (length_uniqueDeltas (t := t) (n := n) (by omega)).mp hu
      obtain ⟨⟨j, hj, e⟩, -⟩ := head_uniqueDeltas (t := t) (n := n) (by omega)
      rw [h1 i hi, ← h1 j hj, e]
      show (uniqueDeltas (dates t n)).headD 0 = _
      unfold nsPerDay at *
      omega
  · injection h with h
    exact .inr (.inl ⟨h.symm, (business_iff hn).mp hb⟩)
  · exact absurd (wom_dur h) hs

/-- C128. The answers of `pd.infer_freq` that `time_series_freq_to_duration` knows: consecutive days, business
days with a weekend, and the first or last days of successive months. Nothing else. -/
theorem infer_shape (hn : 3 ≤ n) {s : String} (h : inferFreq (dates t n) = some s) (hs : freqToDuration s ≠ none) :
    (s = "D" ∧ Days t n) ∨ (s = "B" ∧ BusinessDays t n) ∨ (s = "ME" ∧ MonthEnds t n) ∨
      (s = "MS" ∧ MonthStarts t n) := by
  unfold inferFreq at h
  simp only at h
  split_ifs at h with h1 h2 h3 h4
  · exact daily_shape hn h2.2 h hs
  · injection h with h
    subst h
    exact absurd ((freqToDuration_eq_none_iff _).mpr (by decide)) hs
  · injection h with h
    subst h
    exact absurd (intraday_dur _) hs

end Verif.TS
