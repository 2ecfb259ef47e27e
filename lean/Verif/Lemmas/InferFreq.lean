import Verif.Model.InferFreq
import Verif.Lemmas.Timeseries
import Mathlib.Data.Finset.Card
import Mathlib.Data.Int.LeastGreatest
import Mathlib.Tactic.Linarith

/-!
# Calendar facts and the rules of `pd.infer_freq`
-/

namespace Verif.TS

/-! ### Months -/

theorem month_exists (D : Int) : ∃ n, monthStart n ≤ D ∧ D < monthStart (n + 1) := by
  have lo : ∀ k : Nat, monthStart (-k) + 28 * k ≤ monthStart 0 := by
    intro k
    have := monthStart_add (-k) k
    simpa using this
  have hib : ∀ z : Int, monthStart z ≤ D → z ≤ |D - monthStart 0| := by
    intro z hz
    by_contra h
    have h0 := abs_nonneg (D - monthStart 0)
    have h1 := le_abs_self (D - monthStart 0)
    obtain ⟨k, rfl⟩ : ∃ k : Nat, z = k := ⟨z.toNat, by omega⟩
    have := monthStart_add 0 k
    rw [zero_add] at this
    omega
  obtain ⟨n, hn, hmax⟩ := Int.exists_greatest_of_bdd (P := fun n => monthStart n ≤ D) ⟨_, hib⟩
    ⟨-((D - monthStart 0).natAbs : Int), by
      have := lo (D - monthStart 0).natAbs
      show monthStart (-((D - monthStart 0).natAbs : Int)) ≤ D
      omega⟩
  refine ⟨n, hn, ?_⟩
  by_contra h
  have := hmax (n + 1) (by show monthStart (n + 1) ≤ D; omega)
  omega

theorem monthOf_spec (D : Int) : monthStart (monthOf D) ≤ D ∧ D < monthStart (monthOf D + 1) := by
  have h := month_exists D
  unfold monthOf
  rw [dif_pos h]
  exact h.choose_spec

theorem monthOf_eq {D n : Int} (h : monthStart n ≤ D) (h' : D < monthStart (n + 1)) : monthOf D = n := by
  obtain ⟨h1, h2⟩ := monthOf_spec D
  rcases lt_trichotomy (monthOf D) n with h3 | h3 | h3
  · rcases eq_or_lt_of_le (show monthOf D + 1 ≤ n by omega) with e | e
    · rw [e] at h2; omega
    · have := monthStart_lt e; omega
  · exact h3
  · rcases eq_or_lt_of_le (show n + 1 ≤ monthOf D by omega) with e | e
    · rw [← e] at h1; omega
    · have := monthStart_lt e; omega

theorem monthOf_mono {D E : Int} (h : D ≤ E) : monthOf D ≤ monthOf E := by
  by_contra hc
  have h1 := monthOf_spec D
  have h2 := monthOf_spec E
  rcases eq_or_lt_of_le (show monthOf E + 1 ≤ monthOf D by omega) with e | e
  · rw [← e] at h1; omega
  · have := monthStart_lt e; omega

/-- Days less than 28 apart lie in the same month or in neighbouring months. -/
theorem monthOf_near {D E : Int} (h : E < D + 28) : monthOf E ≤ monthOf D + 1 := by
  by_contra hc
  have h1 := monthOf_spec D
  have h2 := monthOf_spec E
  have h3 := monthStart_lt (show monthOf D + 1 < monthOf E by omega)
  omega

theorem monthNumber (t : Int) : yearField t * 12 + monthField t = monthOf (dayOf t) + 3 := by
  unfold yearField monthField; omega

/-- The first of a month. -/
theorem dayField_one {t : Int} : dayField t = 1 ↔ isMonthStart t := by
  unfold dayField isMonthStart
  constructor
  · intro h
    refine ⟨monthOf (dayOf t), ?_⟩
    unfold dayOf at *; omega
  · rintro ⟨n, hn⟩
    have := monthStart_succ n
    rw [show monthOf (dayOf t) = n from monthOf_eq (by unfold dayOf; omega) (by unfold dayOf; omega)]
    unfold dayOf; omega

/-- The last of a month. -/
theorem dayField_last {t : Int} : dayField t = daysInMonth t ↔ isMonthEnd t := by
  unfold dayField daysInMonth isMonthEnd isMonthStart
  rw [day_shift]
  constructor
  · intro h
    refine ⟨monthOf (dayOf t) + 1, ?_⟩
    unfold dayOf at *; omega
  · rintro ⟨n, hn⟩
    have := monthStart_succ (n - 1)
    rw [show n - 1 + 1 = n by omega] at this
    rw [show monthOf (dayOf t) = n - 1 from
      monthOf_eq (by unfold dayOf; omega) (by rw [show n - 1 + 1 = n by omega]; unfold dayOf; omega),
      show n - 1 + 1 = n by omega]
    unfold dayOf; omega

/-! ### Differences -/

theorem npDiff_range' (t : Nat → Int) (n : Nat) :
    npDiff ((List.range n).map t) = (List.range (n - 1)).map fun i => t (i + 1) - t i := by
  cases n with
  | zero => rfl
  | succ n => exact npDiff_range t n

theorem mem_uniqueDeltas {t : Nat → Int} {n : Nat} {d : Int} :
    d ∈ uniqueDeltas ((List.range n).map t) ↔ ∃ i, i + 1 < n ∧ t (i + 1) - t i = d := by
  unfold uniqueDeltas
  rw [Finset.mem_sort, List.mem_toFinset, npDiff_range', List.mem_map]
  constructor
  · rintro ⟨i, hi, e⟩
    rw [List.mem_range] at hi
    exact ⟨i, by omega, e⟩
  · rintro ⟨i, hi, e⟩
    exact ⟨i, List.mem_range.mpr (by omega), e⟩

theorem uniqueDeltas_one {l : List Int} (h : ¬ 1 < (uniqueDeltas l).length) {a b : Int}
    (ha : a ∈ uniqueDeltas l) (hb : b ∈ uniqueDeltas l) : a = b := by
  unfold uniqueDeltas at *
  rw [Finset.length_sort] at h
  rw [Finset.mem_sort] at ha hb
  exact Finset.card_le_one.mp (by omega) a ha b hb

/-- The first entry of the list of differences is the smallest step. -/
theorem head_uniqueDeltas {t : Nat → Int} {n : Nat} (hn : 2 ≤ n) :
    (∃ i, i + 1 < n ∧ t (i + 1) - t i = (uniqueDeltas ((List.range n).map t)).headD 0) ∧
      ∀ j, j + 1 < n → (uniqueDeltas ((List.range n).map t)).headD 0 ≤ t (j + 1) - t j := by
  have hne : t (0 + 1) - t 0 ∈ uniqueDeltas ((List.range n).map t) := mem_uniqueDeltas.mpr ⟨0, by omega, rfl⟩
  obtain ⟨a, l, e⟩ : ∃ a l, uniqueDeltas ((List.range n).map t) = a :: l := by
    cases h : uniqueDeltas ((List.range n).map t) with
    | nil => rw [h] at hne; cases hne
    | cons a l => exact ⟨a, l, rfl⟩
  have hs : (a :: l).Pairwise (· ≤ ·) := by
    rw [← e]; exact Finset.pairwise_sort _ _
  rw [e, List.headD_cons]
  constructor
  · exact mem_uniqueDeltas.mp (by rw [e]; exact List.mem_cons_self)
  · intro j hj
    have : t (j + 1) - t j ∈ a :: l := by rw [← e]; exact mem_uniqueDeltas.mpr ⟨j, hj, rfl⟩
    rcases List.mem_cons.mp this with h | h
    · exact h.ge
    · exact (List.pairwise_cons.mp hs).1 _ h

theorem length_uniqueDeltas {t : Nat → Int} {n : Nat} (hn : 2 ≤ n) :
    (uniqueDeltas ((List.range n).map t)).length = 1 ↔ ∀ i, i + 1 < n → t (i + 1) - t i = t 1 - t 0 := by
  have hm : t (0 + 1) - t 0 ∈ uniqueDeltas ((List.range n).map t) := mem_uniqueDeltas.mpr ⟨0, by omega, rfl⟩
  have hpos := List.length_pos_of_mem hm
  constructor
  · intro h i hi
    exact uniqueDeltas_one (by omega) (mem_uniqueDeltas.mpr ⟨i, hi, rfl⟩) hm
  · intro h
    have hle : (uniqueDeltas ((List.range n).map t)).length ≤ 1 := by
      unfold uniqueDeltas
      rw [Finset.length_sort, Finset.card_le_one]
      intro a ha b hb
      have ha' : a ∈ uniqueDeltas ((List.range n).map t) := (Finset.mem_sort _).mpr ha
      have hb' : b ∈ uniqueDeltas ((List.range n).map t) := (Finset.mem_sort _).mpr hb
      obtain ⟨i, hi, rfl⟩ := mem_uniqueDeltas.mp ha'
      obtain ⟨j, hj, rfl⟩ := mem_uniqueDeltas.mp hb'
      rw [h i hi, h j hj]
    omega

/-- If all months differ by the same amount, so do the months of neighbouring dates. -/
theorem monthDiffs_step {t : Nat → Int} {n : Nat} (h : ¬ 1 < (monthDiffs ((List.range n).map t)).length)
    {i j : Nat} (hi : i + 1 < n) (hj : j + 1 < n) :
    monthOf (dayOf (t (i + 1))) - monthOf (dayOf (t i)) = monthOf (dayOf (t (j + 1))) - monthOf (dayOf (t j)) := by
  unfold monthDiffs at h
  rw [List.map_map] at h
  have := uniqueDeltas_one h (mem_uniqueDeltas.mpr ⟨i, hi, rfl⟩) (mem_uniqueDeltas.mpr ⟨j, hj, rfl⟩)
  simp only [Function.comp_apply, monthNumber] at this
  omega

theorem monthDiffs_head {t : Nat → Int} {n : Nat} (h : ¬ 1 < (monthDiffs ((List.range n).map t)).length)
    {i : Nat} (hi : i + 1 < n) :
    (monthDiffs ((List.range n).map t)).headD 0 = monthOf (dayOf (t (i + 1))) - monthOf (dayOf (t i)) := by
  unfold monthDiffs at *
  rw [List.map_map] at *
  obtain ⟨⟨j, hj, e⟩, -⟩ := head_uniqueDeltas (t := (fun t => yearField t * 12 + monthField t) ∘ t) (n := n) (by omega)
  have := uniqueDeltas_one h (mem_uniqueDeltas.mpr ⟨i, hi, rfl⟩) (mem_uniqueDeltas.mpr ⟨j, hj, rfl⟩)
  rw [← e, ← this]
  simp only [Function.comp_apply, monthNumber]
  omega

theorem yearDiffs_step {t : Nat → Int} {n : Nat} (h : ¬ 1 < (yearDiffs ((List.range n).map t)).length)
    {i j : Nat} (hi : i + 1 < n) (hj : j + 1 < n) :
    yearField (t (i + 1)) - yearField (t i) = yearField (t (j + 1)) - yearField (t j) := by
  unfold yearDiffs at h
  rw [List.map_map] at h
  exact uniqueDeltas_one h (mem_uniqueDeltas.mpr ⟨i, hi, rfl⟩) (mem_uniqueDeltas.mpr ⟨j, hj, rfl⟩)

/-! ### Month positions -/

/-- Near the end of its month, or near its start. -/
theorem monthPosition_some {ts : List Int} {p : Pos} (h : monthPosition ts = some p) :
    (∀ t ∈ ts, dayField t = daysInMonth t ∨ (daysInMonth t - dayField t < 3 ∧ weekday t = 4)) ∨
      ∀ t ∈ ts, dayField t = 1 ∨ (dayField t ≤ 3 ∧ weekday t = 0) := by
  unfold monthPosition at h
  split_ifs at h with h1 h2 h3 h4
  · exact .inl fun t ht => .inl (h1 t ht)
  · exact .inl h2
  · exact .inr fun t ht => .inl (h3 t ht)
  · exact .inr h4

/-- Three different days of one month are not all at its boundary. -/
theorem monthPosition_three {ts : List Int} {a b c : Int} (ha : a ∈ ts) (hb : b ∈ ts) (hc : c ∈ ts)
    (h1 : dayOf a < dayOf b) (h2 : dayOf b < dayOf c) (hm : monthOf (dayOf a) = monthOf (dayOf c)) :
    monthPosition ts = none := by
  have hmb : monthOf (dayOf b) = monthOf (dayOf a) := by
    have := monthOf_mono h1.le
    have := monthOf_mono h2.le
    omega
  cases hp : monthPosition ts with
  | none => rfl
  | some p =>
    exfalso
    rcases monthPosition_some hp with h | h
    · have e1 := h a ha
      have e2 := h b hb
      have e3 := h c hc
      have s := monthOf_spec (dayOf c)
      unfold dayField daysInMonth weekday at *
      rw [hmb] at e2
      rw [← hm] at e3 s
      omega
    · have e1 := h a ha
      have e2 := h b hb
      have e3 := h c hc
      have s := monthOf_spec (dayOf a)
      unfold dayField weekday at *
      rw [hmb] at e2
      rw [← hm] at e3
      omega

/-- Three consecutive dates less than 28 days apart exclude the annual, quarterly and monthly rules. -/
theorem no_month_rule {t : Nat → Int} {n i : Nat} (hi : i + 2 < n) (h1 : dayOf (t i) < dayOf (t (i + 1)))
    (h2 : dayOf (t (i + 1)) < dayOf (t (i + 2))) (h3 : dayOf (t (i + 2)) < dayOf (t i) + 28) :
    annualRule ((List.range n).map t) = none ∧ quarterlyRule ((List.range n).map t) = none ∧
      monthlyRule ((List.range n).map t) = none := by
  have mem : ∀ k, k < n → t k ∈ (List.range n).map t := fun k hk => List.mem_map.mpr ⟨k, List.mem_range.mpr hk, rfl⟩
  have hnear := monthOf_near h3
  have m1 := monthOf_mono h1.le
  have m2 := monthOf_mono h2.le
  have pos : monthOf (dayOf (t i)) = monthOf (dayOf (t (i + 2))) → monthPosition ((List.range n).map t) = none :=
    monthPosition_three (mem i (by omega)) (mem (i + 1) (by omega)) (mem (i + 2) hi) h1 h2
  have month : ¬ 1 < (monthDiffs ((List.range n).map t)).length → monthPosition ((List.range n).map t) = none := by
    intro h
    have := monthDiffs_step h (i := i) (j := i + 1) (by omega) (by omega)
    exact pos (by rw [show i + 1 + 1 = i + 2 from rfl] at this; omega)
  refine ⟨?_, ?_, ?_⟩
  · unfold annualRule
    split_ifs with ha hb
    · rfl
    · rfl
    · apply pos
      have hc : ∀ k, k < n → monthField (t k) = monthField (t i) := by
        intro k hk
        have hcard : (((List.range n).map t).map monthField).toFinset.card ≤ 1 := by omega
        apply Finset.card_le_one.mp hcard <;>
        · rw [List.mem_toFinset, List.map_map]
          exact List.mem_map.mpr ⟨_, List.mem_range.mpr (by omega), rfl⟩
      have := hc (i + 2) hi
      unfold monthField at this
      omega
  · unfold quarterlyRule
    split_ifs with ha hb
    · rfl
    · rfl
    · exact month ha
  · unfold monthlyRule
    split_ifs with ha
    · rfl
    · exact month ha

/-! ### Codes and durations -/

theorem dur_of_char {s : String} {c : Char} (hc : c ∈ s.toList) (h : c = '-' ∨ c.isDigit = true) :
    freqToDuration s = none := by
  unfold freqToDuration durationMap
  simp only [List.lookup_eq_none_iff, List.mem_cons, List.not_mem_nil, or_false]
  have key : ∀ k ∈ ["D", "B", "W", "M", "ME", "MS", "Q", "QE", "QS", "Y", "YE", "YS"],
      ∀ c ∈ k.toList, ¬ (c = '-' ∨ c.isDigit = true) := by decide
  have : ∀ k ∈ ["D", "B", "W", "M", "ME", "MS", "Q", "QE", "QS", "Y", "YE", "YS"], s ≠ k := by
    intro k hk e
    subst e
    exact key s hk c hc h
  simp only [List.mem_cons, List.not_mem_nil, or_false, forall_eq_or_imp, forall_eq] at this
  simp only [forall_eq_or_imp, forall_eq, bne_iff_ne]
  tauto

/-- A code with a count has no duration. -/
theorem dur_count {b : String} {k : Int} (hk : k ≠ 1) : freqToDuration (addCount b k) = none := by
  unfold addCount
  rw [if_neg hk]
  have nat : ∀ m : Nat, ∃ c, c ∈ (toString m).toList ∧ c.isDigit = true := by
    intro m
    have e : (toString m).toList = Nat.toDigits 10 m := by
      show (Nat.repr m).toList = _
      unfold Nat.repr
      simp
    rw [e]
    cases hd : Nat.toDigits 10 m with
    | nil => have := @Nat.length_toDigits_pos 10 m; rw [hd] at this; simp at this
    | cons c l =>
      exact ⟨c, List.mem_cons_self, Nat.isDigit_of_mem_toDigits (b := 10) (n := m) (by decide) (by decide)
        (by rw [hd]; exact List.mem_cons_self)⟩
  rcases k with m | m
  · obtain ⟨c, hc, hd⟩ := nat m
    refine dur_of_char (c := c) ?_ (.inr hd)
    rw [String.toList_append]
    exact List.mem_append_left _ hc
  · refine dur_of_char (c := '-') ?_ (.inl rfl)
    rw [String.toList_append]
    refine List.mem_append_left _ ?_
    show '-' ∈ ("-" ++ toString (m + 1)).toList
    rw [String.toList_append]
    exact List.mem_append_left _ (by decide)

/-- An anchored code has no duration, with or without a count. -/
theorem dur_anchor {a b : String} {k : Int} : freqToDuration (addCount (a ++ "-" ++ b) k) = none := by
  by_cases hk : k = 1
  · unfold addCount
    rw [if_pos hk]
    refine dur_of_char (c := '-') ?_ (.inl rfl)
    rw [String.toList_append, String.toList_append]
    exact List.mem_append_left _ (List.mem_append_right _ (by decide))
  · exact dur_count hk

end Verif.TS
