import Verif.Model.DateRange
import Verif.Props.SimDates

/-!
# C129: the dates of sampled paths continue the calendar of the fitted data
-/

namespace Verif.TS

variable {t : Nat → Int} {n : Nat}

/-- All dates at the same time of the day. -/
def SameTime (t : Nat → Int) (n : Nat) : Prop := ∀ i, i < n → t i % nsPerDay = t 0 % nsPerDay

/-- The calendars that a fit recognises, with their codes. -/
def Calendar (code : String) (t : Nat → Int) (n : Nat) : Prop :=
  (code = "D" ∧ Days t n) ∨ (code = "B" ∧ BusinessDays t n) ∨ (code = "ME" ∧ MonthEnds t n ∧ SameTime t n) ∨
    (code = "MS" ∧ MonthStarts t n ∧ SameTime t n)

theorem calendar_infer (hn : 3 ≤ n) {code : String} (h : Calendar code t n) : inferFreq (dates t n) = some code := by
  rcases h with ⟨rfl, h⟩ | ⟨rfl, h⟩ | ⟨rfl, h, -⟩ | ⟨rfl, h, -⟩
  · exact infer_days hn h
  · exact infer_business hn h
  · exact infer_month_ends hn h
  · exact infer_month_starts hn h

/-- Each date is followed by the next one of the offset. -/
def Follows (o : Offset) (t : Nat → Int) (n : Nat) : Prop := ∀ i, i + 1 < n → t (i + 1) = o.next (t i)

theorem Follows.iterate {o : Offset} (h : Follows o t n) {a k : Nat} (hk : a + k < n) : o.next^[k] (t a) = t (a + k) := by
  induction k with
  | zero => rfl
  | succ k ih => rw [Function.iterate_succ_apply', ih (by omega), ← add_assoc, h (a + k) (by omega)]

/-- A range started at a date of the calendar runs along the calendar. -/
theorem Follows.range {o : Offset} (h : Follows o t n) {a k : Nat} (hk : a + k ≤ n) (hr : o.roll (t a) = t a) :
    o.range (t a) k = dates (fun i => t (a + i)) k := by
  unfold Offset.range dates
  apply List.map_congr_left
  intro i hi
  rw [List.mem_range] at hi
  rw [hr, h.iterate (by omega)]

/-! ### The four calendars as offsets -/

theorem days_follows : Days t n ↔ Follows offD t n := by
  constructor
  · intro h i hi
    have := h i hi
    show t (i + 1) = t i + nsPerDay
    omega
  · intro h i hi
    have : t (i + 1) = t i + nsPerDay := h i hi
    omega

theorem business_weekday (h : ∀ i, i + 1 < n → (weekday (t i) = 4 ∧ t (i + 1) - t i = 3 * nsPerDay) ∨
    (weekday (t i) ≤ 3 ∧ t (i + 1) - t i = nsPerDay)) (hn : 2 ≤ n) {i : Nat} (hi : i < n) :
    0 ≤ weekday (t i) ∧ weekday (t i) ≤ 4 := by
  have h0 : 0 ≤ weekday (t i) := by unfold weekday; omega
  refine ⟨h0, ?_⟩
  rcases Nat.lt_or_ge (i + 1) n with h1 | h1
  · rcases h i h1 with h' | h' <;> omega
  · obtain ⟨j, rfl⟩ : ∃ j, i = j + 1 := ⟨i - 1, by omega⟩
    have := h j (by omega)
    unfold weekday dayOf nsPerDay at *
    omega

theorem business_follows {N : Nat} (h0 : weekday (t 0) ≤ 4) (h : Follows offB t N) :
    ∀ i, i + 1 < N → (weekday (t i) = 4 ∧ t (i + 1) - t i = 3 * nsPerDay) ∨
      (weekday (t i) ≤ 3 ∧ t (i + 1) - t i = nsPerDay) := by
  have hw : ∀ i, i < N → weekday (t i) ≤ 4 := by
    intro i
    induction i with
    | zero => intro _; exact h0
    | succ i ih =>
      intro hi
      have h1 := ih (by omega)
      have h2 := h i hi
      simp only [offB] at h2
      rw [h2]
      have hnn : 0 ≤ weekday (t i) := by unfold weekday; omega
      split_ifs with c1 c2
      · unfold weekday dayOf nsPerDay at *; omega
      · omega
      · unfold weekday dayOf nsPerDay at *; omega
  intro i hi
  have h1 := hw i (by omega)
  have h2 := h i hi
  simp only [offB] at h2
  by_cases c : weekday (t i) = 4
  · rw [if_pos c] at h2
    exact .inl ⟨c, by omega⟩
  · rw [if_neg c, if_neg (by omega)] at h2
    exact .inr ⟨by omega, by omega⟩

theorem dayOf_onDay (d t : Int) : dayOf (onDay d t) = d := by unfold dayOf onDay nsPerDay; omega

theorem onDay_mod (d t : Int) : onDay d t % nsPerDay = t % nsPerDay := by unfold onDay nsPerDay; omega

theorem onDay_self {d t : Int} (h : dayOf t = d) : onDay d t = t := by
  subst h; unfold onDay dayOf nsPerDay; omega

theorem onDay_congr {d s t : Int} (h : s % nsPerDay = t % nsPerDay) : onDay d s = onDay d t := by
  unfold onDay; rw [h]

private theorem dayOf_start {t : Int} (h : isMonthStart t) : dayOf t = monthStart (monthOf (dayOf t)) := by
  have := dayField_one.mpr h
  unfold dayField at this
  omega

private theorem dayOf_end {t : Int} (h : isMonthEnd t) : dayOf t = monthStart (monthOf (dayOf t) + 1) - 1 := by
  have := dayField_last.mpr h
  unfold dayField daysInMonth at this
  omega

theorem start_next {t : Int} : isMonthStart (offMS.next t) ∧ monthOf (dayOf (offMS.next t)) = monthOf (dayOf t) + 1 ∧
    offMS.next t % nsPerDay = t % nsPerDay := by
  simp only [offMS]
  have l := monthStart_succ (monthOf (dayOf t) + 1)
  refine ⟨⟨monthOf (dayOf t) + 1, dayOf_onDay _ _⟩, ?_, onDay_mod _ _⟩
  rw [dayOf_onDay]
  exact monthOf_eq le_rfl (by omega)

theorem end_next {t : Int} (h : isMonthEnd t) : isMonthEnd (offME.next t) ∧
    monthOf (dayOf (offME.next t)) = monthOf (dayOf t) + 1 ∧ offME.next t % nsPerDay = t % nsPerDay := by
  simp only [offME]
  rw [if_pos (dayField_last.mpr h)]
  have l := monthStart_succ (monthOf (dayOf t) + 1)
  rw [show monthOf (dayOf t) + 1 + 1 = monthOf (dayOf t) + 2 by omega] at l
  refine ⟨?_, ?_, onDay_mod _ _⟩
  · refine ⟨monthOf (dayOf t) + 2, ?_⟩
    rw [day_shift]
    have := dayOf_onDay (monthStart (monthOf (dayOf t) + 2) - 1) t
    unfold dayOf at this ⊢
    omega
  · rw [dayOf_onDay]
    exact monthOf_eq (by omega) (by rw [show monthOf (dayOf t) + 1 + 1 = monthOf (dayOf t) + 2 by omega]; omega)

private theorem shortest_of_same (hn : 2 ≤ n) (h : SameTime t n) : ShortestWhole t n := by
  obtain ⟨⟨k, hk, e⟩, hmin⟩ := head_uniqueDeltas (t := t) hn
  refine ⟨k, hk, fun j hj => by rw [e]; exact hmin j hj, ?_⟩
  have h1 := h k (by omega)
  have h2 := h (k + 1) hk
  unfold nsPerDay at *
  omega

theorem starts_follows (hn : 2 ≤ n) : MonthStarts t n ∧ SameTime t n ↔ isMonthStart (t 0) ∧ Follows offMS t n := by
  constructor
  · rintro ⟨⟨hm, -, hs⟩, ht⟩
    refine ⟨hs 0 (by omega), fun i hi => ?_⟩
    have h1 := dayOf_start (hs (i + 1) hi)
    rw [hm i hi] at h1
    have e : t (i + 1) % nsPerDay = t i % nsPerDay := by rw [ht (i + 1) hi, ht i (by omega)]
    show t (i + 1) = onDay _ _
    rw [← onDay_congr e, onDay_self h1]
  · rintro ⟨h0, hf⟩
    have hs : ∀ i, i < n → isMonthStart (t i) := by
      intro i hi
      cases i with
      | zero => exact h0
      | succ i => rw [hf i hi]; exact start_next.1
    have ht : SameTime t n := by
      intro i
      induction i with
      | zero => intro _; rfl
      | succ i ih => intro hi; rw [hf i hi, start_next.2.2, ih (by omega)]
    exact ⟨⟨fun i hi => by rw [hf i hi]; exact start_next.2.1, shortest_of_same hn ht, hs⟩, ht⟩

theorem ends_follows (hn : 2 ≤ n) : MonthEnds t n ∧ SameTime t n ↔ isMonthEnd (t 0) ∧ Follows offME t n := by
  constructor
  · rintro ⟨⟨hm, -, hs⟩, ht⟩
    refine ⟨hs 0 (by omega), fun i hi => ?_⟩
    have h1 := dayOf_end (hs (i + 1) hi)
    rw [hm i hi, show monthOf (dayOf (t i)) + 1 + 1 = monthOf (dayOf (t i)) + 2 by omega] at h1
    have e : t (i + 1) % nsPerDay = t i % nsPerDay := by rw [ht (i + 1) hi, ht i (by omega)]
    simp only [offME]
    rw [if_pos (dayField_last.mpr (hs i (by omega))), ← onDay_congr e, onDay_self h1]
  · rintro ⟨h0, hf⟩
    have hs : ∀ i, i < n → isMonthEnd (t i) := by
      intro i
      induction i with
      | zero => intro _; exact h0
      | succ i ih => intro hi; rw [hf i hi]; exact (end_next (ih (by omega))).1
    have ht : SameTime t n := by
      intro i
      induction i with
      | zero => intro _; rfl
      | succ i ih => intro hi; rw [hf i hi, (end_next (hs i (by omega))).2.2, ih (by omega)]
    exact ⟨⟨fun i hi => by rw [hf i hi]; exact (end_next (hs i (by omega))).2.1, shortest_of_same hn ht, hs⟩, ht⟩

/-- A recognised calendar runs along the offset that `pd.date_range` uses for its code, and every longer run is
again such a calendar. -/
theorem calendar_offset (hn : 3 ≤ n) {code : String} (h : Calendar code t n) :
    ∃ o : Offset, (∀ other a k, dateRange other a code k = .ok (o.range a k)) ∧ Follows o t n ∧
      (∀ i, i < n → o.roll (t i) = t i) ∧
      ∀ t' N, n ≤ N → (∀ i, i < n → t' i = t i) → Follows o t' N → Calendar code t' N := by
  rcases h with ⟨rfl, h⟩ | ⟨rfl, h⟩ | ⟨rfl, h⟩ | ⟨rfl, h⟩
  · exact ⟨offD, fun _ _ _ => rfl, days_follows.mp h, fun _ _ => rfl, fun t' N _ _ hf => .inl ⟨rfl, days_follows.mpr hf⟩⟩
  · refine ⟨offB, fun _ _ _ => rfl, ?_, ?_, ?_⟩
    · intro i hi
      have h1 := business_weekday h.1 (by omega) (show i < n by omega)
      have h2 := h.1 i hi
      simp only [offB]
      rcases h2 with h2 | h2
      · rw [if_pos h2.1]; omega
      · rw [if_neg (by omega), if_neg (by omega)]; omega
    · intro i hi
      have h1 := business_weekday h.1 (by omega) hi
      simp only [offB]
      rw [if_neg (by omega), if_neg (by omega)]
    · intro t' N hN ht hf
      refine .inr (.inl ⟨rfl, business_follows ?_ hf, ?_⟩)
      · rw [ht 0 (by omega)]
        exact (business_weekday h.1 (by omega) (by omega)).2
      · obtain ⟨i, hi, hw⟩ := h.2
        exact ⟨i, by omega, by rw [ht i (by omega)]; exact hw⟩
  · obtain ⟨h0, hf⟩ := (ends_follows (by omega)).mp h
    refine ⟨offME, fun _ _ _ => rfl, hf, ?_, ?_⟩
    · intro i hi
      exact onDay_self (dayOf_end (h.1.2.2 i hi))
    · intro t' N hN ht hf'
      exact .inr (.inr (.inl ⟨rfl, (ends_follows (by omega)).mpr ⟨by rw [ht 0 (by omega)]; exact h0, hf'⟩⟩))
  · obtain ⟨h0, hf⟩ := (starts_follows (by omega)).mp h
    refine ⟨offMS, fun _ _ _ => rfl, hf, ?_, ?_⟩
    · intro i hi
      simp only [offMS]
      rw [if_pos (dayField_one.mpr (h.1.2.2 i hi))]
    · intro t' N hN ht hf'
      exact .inr (.inr (.inr ⟨rfl, (starts_follows (by omega)).mpr ⟨by rw [ht 0 (by omega)]; exact h0, hf'⟩⟩))

/-- The calendar can be continued. -/
theorem calendar_extend (hn : 3 ≤ n) {code : String} (h : Calendar code t n) (k : Nat) :
    ∃ t' : Nat → Int, (∀ i, i < n → t' i = t i) ∧ Calendar code t' (n + k) ∧
      ∀ other a j, a < n → a + j ≤ n + k → dateRange other (t a) code j = .ok (dates (fun i => t' (a + i)) j) := by
  obtain ⟨o, hr, hf, hroll, hcal⟩ := calendar_offset hn h
  let t' : Nat → Int := fun i => if i < n then t i else o.next^[i - (n - 1)] (t (n - 1))
  have he : ∀ i, i < n → t' i = t i := fun i hi => if_pos hi
  have hf' : Follows o t' (n + k) := by
    intro i hi
    rcases Nat.lt_or_ge (i + 1) n with h1 | h1
    · rw [he i (by omega), he (i + 1) h1]; exact hf i h1
    · have e1 : t' (i + 1) = o.next^[i + 1 - (n - 1)] (t (n - 1)) := if_neg (by omega)
      rw [e1, show i + 1 - (n - 1) = (i - (n - 1)) + 1 by omega, Function.iterate_succ_apply']
      congr 1
      rcases Nat.lt_or_ge i n with h2 | h2
      · rw [he i h2, show i - (n - 1) = 0 by omega, show i = n - 1 by omega]; rfl
      · exact (if_neg (by omega)).symm
  refine ⟨t', he, hcal t' (n + k) (by omega) he hf', fun other a j ha hj => ?_⟩
  rw [hr, ← he a ha, hf'.range hj (by rw [he a ha]; exact hroll a ha)]

end Verif.TS

namespace Verif.Sim

open TS

variable {t : Nat → Int} {n : Nat} {P : Type} {m : ModelOps P} {other : Int → String → Nat → Py (List Int)}

theorem min_dates (hn : 1 ≤ n) (h : ∀ i, i + 1 < n → t i < t (i + 1)) : listMin? (dates t n) = some (t 0) := by
  obtain ⟨k, rfl⟩ : ∃ k, n = k + 1 := ⟨n - 1, by omega⟩
  rw [dates, List.range_succ_eq_map, List.map_cons, List.map_map]
  show some (List.foldl min (t 0) _) = _
  congr 1
  have : ∀ (l : List Int) (a : Int), (∀ x ∈ l, a ≤ x) → l.foldl min a = a := by
    intro l
    induction l with
    | nil => intro a _; rfl
    | cons x l ih =>
      intro a ha
      rw [List.foldl_cons, min_eq_left (ha x List.mem_cons_self)]
      exact ih a fun y hy => ha y (List.mem_cons_of_mem _ hy)
  apply this
  intro x hx
  obtain ⟨i, hi, rfl⟩ := List.mem_map.mp hx
  rw [List.mem_range] at hi
  exact (lt_of_steps h (Nat.succ_pos i) (by omega)).le

theorem max_dates (hn : 1 ≤ n) (h : ∀ i, i + 1 < n → t i < t (i + 1)) : listMax? (dates t n) = some (t (n - 1)) := by
  obtain ⟨k, rfl⟩ : ∃ k, n = k + 1 := ⟨n - 1, by omega⟩
  clear hn
  induction k with
  | zero => rfl
  | succ k ih =>
    have h' := ih fun i hi => h i (by omega)
    have e : dates t (k + 1 + 1) = dates t (k + 1) ++ [t (k + 1)] := by
      rw [dates, List.range_succ, List.map_append]; rfl
    obtain ⟨a, l, hl⟩ : ∃ a l, dates t (k + 1) = a :: l := by
      rw [dates, List.range_succ_eq_map]; exact ⟨_, _, rfl⟩
    rw [hl] at h'
    rw [e, hl]
    have h2 : List.foldl max a l = t k := by
      have : some (List.foldl max a l) = some (t (k + 1 - 1)) := h'
      simpa using this
    show some (List.foldl max a (l ++ [t (k + 1)])) = _
    rw [List.foldl_append, h2]
    show some (max (t k) (t (k + 1))) = _
    rw [max_eq_right (h k (by omega)).le]
    rfl

/-- The date at which the labels of a default sample start. -/
def startDate (first last : Int) : X0Arg → Int
  | .str s => if s = "last" then last else first
  | _ => first

/-- The labels of a sample without `label_start` and `label_freq`. -/
theorem labels_of_sample {dr : Int → String → Nat → Py (List Int)} {o : Obj P} {g : SampleArgs} {out : Out}
    {nm : Option String} {a b : Int} {code : String} (hidx : o.state.index = ⟨true, nm, some a, some b, some code⟩)
    (hx : o.state.x0.isSome = true) (hs : g.labelStart = none) (hf : g.labelFreq = none)
    (hinc : g.includeX0 = true) (h : pathSample (pandas dr) m o g = .ok out) :
    ∃ w d arr L, m.sample o.params w d g.numSteps g.numPaths = .ok arr ∧
      dr (startDate a b g.x0) code arr.rows = .ok L ∧ out.labels = some L := by
  obtain ⟨r, arr, h1, h2, h3⟩ := pathSample_inv h
  refine ⟨r.1, r.2.1, arr, ?_⟩
  have key : r.2.2.1.or (some a) = some (startDate a b g.x0) ∧ r.2.2.2 = some code := by
    unfold preprocessSim at h1
    rw [hs, hf, hidx] at h1
    obtain ⟨⟨v, ls⟩, e1, h1⟩ := bind_inv h1
    obtain ⟨d, -, h1⟩ := bind_inv h1
    simp only [Except.ok.injEq] at h1
    subst h1
    refine ⟨?_, rfl⟩
    unfold resolveX0 at e1
    obtain ⟨x0, hx0⟩ := Option.isSome_iff_exists.mp hx
    cases hg : g.x0 with
    | none =>
      rw [hg] at e1
      simp only [hx0, hidx, Except.ok.injEq, Prod.mk.injEq] at e1
      rw [← e1.2]
      rfl
    | str t =>
      rw [hg] at e1
      simp only [hx0, hidx] at e1
      show ls.or (some a) = some (if t = "last" then b else a)
      by_cases c1 : t = "first"
      · rw [if_pos c1] at e1
        simp only [Option.isSome_none, Option.isNone_none, Bool.or_true, Bool.and_true, if_true, Except.ok.injEq,
          Prod.mk.injEq] at e1
        subst c1
        rw [← e1.2, if_neg (by decide)]
        rfl
      · rw [if_neg c1] at e1
        by_cases c2 : t = "last"
        · rw [if_pos c2] at e1
          cases hxn : o.state.xn with
          | none => rw [hxn] at e1; cases e1
          | some v' =>
            rw [hxn] at e1
            simp only [Option.isSome_none, Option.isNone_none, Bool.or_true, Bool.and_true, if_true, Except.ok.injEq,
              Prod.mk.injEq] at e1
            rw [← e1.2, if_pos c2]
            rfl
        · rw [if_neg c2] at e1
          cases e1
    | data x =>
      rw [hg] at e1
      simp only at e1
      obtain ⟨v', -, e1⟩ := bind_inv e1
      simp only [Except.ok.injEq, Prod.mk.injEq] at e1
      rw [← e1.2]
      rfl
  unfold formatAns at h3
  have hn : needDates o.state r.2.2.1 r.2.2.2 = true := by unfold needDates; rw [hidx]; rfl
  dsimp only at h3
  rw [if_pos hn, hinc] at h3
  obtain ⟨L, hL, h3⟩ := bind_inv h3
  obtain ⟨names, -, h3⟩ := bind_inv h3
  refine ⟨L, h2, ?_, ?_⟩
  · unfold makeDateIndex at hL
    rw [hidx] at hL
    simp only [key.1, key.2, Option.or_some] at hL
    exact hL
  · rw [if_pos rfl] at h3
    simp only [Except.ok.injEq] at h3
    subst h3
    unfold labelled
    split_ifs <;> rfl

/-- What a `fit` on a dated series with a recognised calendar records, even if it fails later. -/
theorem fit_records {dr : Int → String → Nat → Py (List Int)} (o : Obj P) {l : List ℝ} {name : Label}
    {iname : Option String} {dt : Option ℝ} {code : String} (hn : 3 ≤ n) (hc : Calendar code t n) (hl : l ≠ []) :
    (fit (pandas dr) m o (.series l name (.dates (dates t n) iname)) dt).1.state.index =
        ⟨true, iname, some (t 0), some (t (n - 1)), some code⟩ ∧
      (fit (pandas dr) m o (.series l name (.dates (dates t n) iname)) dt).1.state.x0.isSome = true := by
  have hinc : ∀ i, i + 1 < n → t i < t (i + 1) := by
    intro i hi
    rcases hc with ⟨-, h⟩ | ⟨-, h⟩ | ⟨-, h, -⟩ | ⟨-, h, -⟩
    · have := h i hi; unfold nsPerDay at this; omega
    · have := h.1 i hi; unfold nsPerDay at this; omega
    all_goals
      by_contra hlt
      have := monthOf_mono (show dayOf (t (i + 1)) ≤ dayOf (t i) by unfold dayOf nsPerDay; omega)
      have := h.1 i hi
      omega
  have hi : indexInfo (pandas dr) (.series l name (.dates (dates t n) iname)) =
      .ok ⟨true, iname, some (t 0), some (t (n - 1)), some code⟩ := by
    simp only [indexInfo, SimData.dateIndex]
    rw [if_neg (by simp; omega), min_dates (by omega) hinc, max_dates (by omega) hinc]
    simp only [pandas, calendar_infer hn hc]
  have hlen : l.length ≠ 0 := by simpa using hl
  have hp : (preprocessFit (pandas dr) o.state (.series l name (.dates (dates t n) iname)) dt).1.index =
        ⟨true, iname, some (t 0), some (t (n - 1)), some code⟩ ∧
      (preprocessFit (pandas dr) o.state (.series l name (.dates (dates t n) iname)) dt).1.x0.isSome = true := by
    unfold preprocessFit
    simp only [hi, SimData.toMatrix]
    rw [if_neg (by simpa [Arr.ofList] using hlen)]
    split <;> exact ⟨rfl, rfl⟩
  unfold fit
  split
  · rename_i e
    rw [e] at hp
    exact hp
  · rename_i e
    rw [e] at hp
    exact hp

/-- C129. After a fit on consecutive days, on business days or on month ends or starts, the labels of a default sample run
along the same calendar: from the first date of the data, or with `x0="last"` from the last date on, without gap,
repetition or change of the time of day. -/
theorem sample_dates (o : Obj P) {l : List ℝ} {name : Label} {iname : Option String} {dt : Option ℝ} {code : String}
    (hn : 3 ≤ n) (hc : Calendar code t n) (hl : l ≠ []) {g : SampleArgs} {out : Out} {k : Nat}
    (hs : g.labelStart = none) (hf : g.labelFreq = none) (hinc : g.includeX0 = true)
    (hrows : ∀ p w d a, m.sample p w d g.numSteps g.numPaths = .ok a → a.rows = k + 1)
    (h : pathSample (pandas (dateRange other)) m
      (fit (pandas (dateRange other)) m o (.series l name (.dates (dates t n) iname)) dt).1 g = .ok out) :
    ∃ t' : Nat → Int, (∀ i, i < n → t' i = t i) ∧ Calendar code t' (n + k) ∧
      ((∀ s, g.x0 = .str s → s ≠ "last") → out.labels = some (dates t' (k + 1))) ∧
      (g.x0 = .str "last" → out.labels = some (dates (fun i => t' (n - 1 + i)) (k + 1))) := by
  obtain ⟨e1, e2⟩ := fit_records (m := m) (dr := dateRange other) o (name := name) (iname := iname) (dt := dt) hn hc hl
  obtain ⟨w, d, arr, L, hsam, hL, hlab⟩ := labels_of_sample e1 e2 hs hf hinc h
  obtain ⟨t', he, hcal, hr⟩ := calendar_extend hn hc k
  rw [hrows _ _ _ _ hsam] at hL
  refine ⟨t', he, hcal, fun hx => ?_, fun hx => ?_⟩
  · have : startDate (t 0) (t (n - 1)) g.x0 = t 0 := by
      cases hg : g.x0 with
      | none => rfl
      | data x => rfl
      | str s => exact if_neg (hx s hg)
    rw [this, hr other 0 (k + 1) (by omega) (by omega)] at hL
    rw [hlab, ← Except.ok.inj hL]
    simp
  · have : startDate (t 0) (t (n - 1)) g.x0 = t (n - 1) := by rw [hx]; rfl
    rw [this, hr other (n - 1) (k + 1) (by omega) (by omega)] at hL
    rw [hlab, ← Except.ok.inj hL]

/-- C129. A default sample with as many rows as the data carries exactly the dates of the data. -/
theorem sample_reproduces_dates (o : Obj P) {l : List ℝ} {name : Label} {iname : Option String} {dt : Option ℝ}
    {code : String} (hn : 3 ≤ n) (hc : Calendar code t n) (hl : l ≠ []) {g : SampleArgs} {out : Out}
    (hs : g.labelStart = none) (hf : g.labelFreq = none) (hinc : g.includeX0 = true)
    (hx : ∀ s, g.x0 = .str s → s ≠ "last")
    (hrows : ∀ p w d a, m.sample p w d g.numSteps g.numPaths = .ok a → a.rows = n)
    (h : pathSample (pandas (dateRange other)) m
      (fit (pandas (dateRange other)) m o (.series l name (.dates (dates t n) iname)) dt).1 g = .ok out) :
    out.labels = some (dates t n) := by
  obtain ⟨k, rfl⟩ : ∃ k, n = k + 1 := ⟨n - 1, by omega⟩
  obtain ⟨t', he, -, h1, -⟩ := sample_dates o hn hc hl hs hf hinc hrows h
  rw [h1 hx]
  congr 1
  apply List.map_congr_left
  intro i hi
  exact he i (List.mem_range.mp hi)

/-- A run of a calendar that starts later is such a calendar, except that business days may miss the weekend. -/
theorem calendar_shift {code : String} {N a j : Nat} (h : Calendar code t N) (ha : a + j ≤ N) (hj : 3 ≤ j)
    (hB : code = "B" → 6 ≤ j) : Calendar code (fun i => t (a + i)) j := by
  have whole : SameTime t N → ShortestWhole (fun i => t (a + i)) j := by
    intro hst
    obtain ⟨⟨k, hk, e⟩, hmin⟩ := head_uniqueDeltas (t := fun i => t (a + i)) (n := j) (by omega)
    refine ⟨k, hk, fun i hi => by rw [e]; exact hmin i hi, ?_⟩
    have h1 := hst (a + k) (by omega)
    have h2 := hst (a + (k + 1)) (by omega)
    show (t (a + (k + 1)) - t (a + k)) % nsPerDay = 0
    unfold nsPerDay at *
    omega
  have same : SameTime t N → SameTime (fun i => t (a + i)) j := by
    intro hst i hi
    show t (a + i) % nsPerDay = t (a + 0) % nsPerDay
    rw [hst (a + i) (by omega), hst (a + 0) (by omega)]
  rcases h with ⟨rfl, h⟩ | ⟨rfl, h⟩ | ⟨rfl, ⟨h1, h2, h3⟩, h4⟩ | ⟨rfl, ⟨h1, h2, h3⟩, h4⟩
  · exact .inl ⟨rfl, fun i hi => h (a + i) (by omega)⟩
  · refine .inr (.inl ⟨rfl, fun i hi => h.1 (a + i) (by omega), ?_⟩)
    have hj6 := hB rfl
    show ∃ i, i + 1 < j ∧ weekday (t (a + i)) = 4
    by_contra hno
    have hno' : ∀ i, i + 1 < j → weekday (t (a + i)) ≠ 4 := fun i hi hc => hno ⟨i, hi, hc⟩
    have s : ∀ i, i + 1 < j → weekday (t (a + i)) ≤ 3 ∧ t (a + i + 1) - t (a + i) = nsPerDay := by
      intro i hi
      rcases h.1 (a + i) (by omega) with h' | h'
      · exact absurd h'.1 (hno' i hi)
      · exact h'
    have w : ∀ i, i < 5 → weekday (t (a + i)) = weekday (t a) + i := by
      intro i
      induction i with
      | zero => intro _; simp
      | succ i ih =>
        intro hi
        have h1 := ih (by omega)
        have h2 := s i (by omega)
        have h3 : 0 ≤ weekday (t a) := by unfold weekday; omega
        rw [← add_assoc]
        push_cast
        unfold weekday dayOf nsPerDay at *
        omega
    have h4 := (s 4 (by omega)).1
    rw [w 4 (by omega)] at h4
    have h3 : 0 ≤ weekday (t a) := by unfold weekday; omega
    push_cast at h4
    omega
  · exact .inr (.inr (.inl ⟨rfl, ⟨fun i hi => h1 (a + i) (by omega), whole h4, fun i hi => h3 (a + i) (by omega)⟩, same h4⟩))
  · exact .inr (.inr (.inr ⟨rfl, ⟨fun i hi => h1 (a + i) (by omega), whole h4, fun i hi => h3 (a + i) (by omega)⟩, same h4⟩))

/-- C129. A model fitted on a sample uses the step size of the original data: the labels of the sample give the same frequency,
provided that it has three rows (six for business days). -/
theorem refit_same_step (o : Obj P) {l : List ℝ} {name : Label} {iname : Option String} {dt : Option ℝ}
    {code : String} (hn : 3 ≤ n) (hc : Calendar code t n) (hl : l ≠ []) {g : SampleArgs} {out : Out} {k : Nat}
    (hs : g.labelStart = none) (hf : g.labelFreq = none) (hinc : g.includeX0 = true)
    (hk : 2 ≤ k) (hB : code = "B" → 5 ≤ k)
    (hrows : ∀ p w d a, m.sample p w d g.numSteps g.numPaths = .ok a → a.rows = k + 1)
    (h : pathSample (pandas (dateRange other)) m
      (fit (pandas (dateRange other)) m o (.series l name (.dates (dates t n) iname)) dt).1 g = .ok out) :
    ∃ L, out.labels = some L ∧ stepSize L = stepSize (dates t n) := by
  obtain ⟨t', he, hcal, h1, h2⟩ := sample_dates o hn hc hl hs hf hinc hrows h
  have step : ∀ a, a + (k + 1) ≤ n + k → stepSize (dates (fun i => t' (a + i)) (k + 1)) = stepSize (dates t n) := by
    intro a ha
    unfold stepSize
    rw [calendar_infer hn hc, calendar_infer (by omega) (calendar_shift hcal ha (by omega) fun e => by have := hB e; omega)]
  by_cases hx : g.x0 = .str "last"
  · exact ⟨_, h2 hx, step (n - 1) (by omega)⟩
  · refine ⟨_, h1 fun s hs e => hx (by rw [hs, e]), ?_⟩
    have := step 0 (by omega)
    simpa using this

/-- C129, defect. A `label_start` off the calendar is moved: a sample of business days asked to start on a Saturday is
labelled from Monday on, and one of month ends asked to start in mid-month from the end of that month on. -/
theorem start_moved {a : Int} {k : Nat} :
    (weekday a = 5 → (dateRange other a "B" (k + 1)).map (·.head?) = .ok (some (a + 2 * nsPerDay))) ∧
      (¬ isMonthEnd a → ∃ b, (dateRange other a "ME" (k + 1)).map (·.head?) = .ok (some b) ∧ a < b) ∧
      (¬ isMonthStart a → ∃ b, (dateRange other a "MS" (k + 1)).map (·.head?) = .ok (some b) ∧ a < b) := by
  have head : ∀ (f : Offset), (f.range a (k + 1)).head? = some (f.roll a) := by
    intro f
    unfold Offset.range
    rw [List.range_succ_eq_map]
    rfl
  refine ⟨fun h => ?_, fun h => ⟨offME.roll a, ?_, ?_⟩, fun h => ⟨offMS.roll a, ?_, ?_⟩⟩
  · show Except.ok ((offB.range a (k + 1)).head?) = _
    rw [head]
    simp only [offB, if_pos h]
  · show Except.ok ((offME.range a (k + 1)).head?) = _
    rw [head]
  · simp only [offME]
    have h1 := monthOf_spec (dayOf a)
    have h2 : dayOf a ≠ monthStart (monthOf (dayOf a) + 1) - 1 := by
      intro e
      apply h
      rw [← dayField_last]
      unfold dayField daysInMonth
      omega
    have h3 : dayOf a < monthStart (monthOf (dayOf a) + 1) - 1 := by omega
    generalize monthStart (monthOf (dayOf a) + 1) - 1 = D at *
    unfold onDay dayOf nsPerDay at *
    omega
  · show Except.ok ((offMS.range a (k + 1)).head?) = _
    rw [head]
  · simp only [offMS]
    rw [if_neg (mt dayField_one.mp h)]
    have h1 := (monthOf_spec (dayOf a)).2
    generalize monthStart (monthOf (dayOf a) + 1) = D at *
    unfold onDay dayOf nsPerDay at *
    omega

/-- C129, defect. A forecast of business days that ends before the weekend reads as daily data: a model fitted on it uses
1/365 in place of 1/252. -/
theorem short_week (o : Obj P) {l : List ℝ} {name : Label} {iname : Option String} {dt : Option ℝ}
    (hn : 3 ≤ n) (hc : BusinessDays t n) (hl : l ≠ []) {g : SampleArgs} {out : Out} {k : Nat}
    (hs : g.labelStart = none) (hf : g.labelFreq = none) (hinc : g.includeX0 = true) (hx : g.x0 = .str "last")
    (hk : 2 ≤ k) (hw : weekday (t (n - 1)) + k ≤ 4)
    (hrows : ∀ p w d a, m.sample p w d g.numSteps g.numPaths = .ok a → a.rows = k + 1)
    (h : pathSample (pandas (dateRange other)) m
      (fit (pandas (dateRange other)) m o (.series l name (.dates (dates t n) iname)) dt).1 g = .ok out) :
    stepSize (dates t n) = .ok (1 / 252) ∧ ∃ L, out.labels = some L ∧ stepSize L = .ok (1 / 365) := by
  refine ⟨(step_default_iff hn).mpr (.inl hc), ?_⟩
  obtain ⟨t', he, hcal, -, h2⟩ := sample_dates o hn (.inr (.inl ⟨rfl, hc⟩)) hl hs hf hinc hrows h
  refine ⟨_, h2 hx, (step_day_iff (by omega)).mpr ?_⟩
  have hB : BusinessDays t' (n + k) := by
    rcases hcal with ⟨h, -⟩ | ⟨-, h⟩ | ⟨h, -⟩ | ⟨h, -⟩
    · exact absurd h (by decide)
    · exact h
    · exact absurd h (by decide)
    · exact absurd h (by decide)
  have hw0 : weekday (t' (n - 1)) + k ≤ 4 := by rw [he (n - 1) (by omega)]; exact hw
  have w : ∀ i, i < k → weekday (t' (n - 1 + i)) = weekday (t' (n - 1)) + i ∧
      t' (n - 1 + (i + 1)) - t' (n - 1 + i) = nsPerDay := by
    intro i
    induction i with
    | zero =>
      intro hi
      rcases hB.1 (n - 1 + 0) (by omega) with h' | h'
      · exfalso
        have := h'.1
        rw [add_zero] at this
        omega
      · exact ⟨by simp, h'.2⟩
    | succ i ih =>
      intro hi
      obtain ⟨h1, h2⟩ := ih (by omega)
      have h3 : 0 ≤ weekday (t' (n - 1)) := by unfold weekday; omega
      have h4 : weekday (t' (n - 1 + (i + 1))) = weekday (t' (n - 1)) + (i + 1 : Nat) := by
        push_cast
        unfold weekday dayOf nsPerDay at *
        omega
      rcases hB.1 (n - 1 + (i + 1)) (by omega) with h' | h'
      · exfalso
        have := h'.1
        rw [h4] at this
        push_cast at this
        omega
      · exact ⟨h4, h'.2⟩
  intro i hi
  exact (w i (by omega)).2

theorem calendar_dt {code : String} (hc : Calendar code t n) : ∃ d : ℝ, 0 < d ∧ resolveDt (some code) none = .ok d := by
  rcases hc with ⟨rfl, -⟩ | ⟨rfl, -⟩ | ⟨rfl, -⟩ | ⟨rfl, -⟩
  · exact ⟨1 / 365, by norm_num, rfl⟩
  · exact ⟨1 / 252, by norm_num, rfl⟩
  · exact ⟨1 / 12, by norm_num, rfl⟩
  · exact ⟨1 / 12, by norm_num, rfl⟩

/-- The forecasts exist: a Brownian motion fitted on any such calendar can be sampled from the last value. -/
theorem forecast_returns (z : Nat → ℝ) {l : List ℝ} {name : Label} {iname : Option String} {code : String} (hn : 3 ≤ n)
    (hc : Calendar code t n) (hl : l ≠ []) (k : Nat) :
    ∃ out, pathSample (pandas (dateRange other)) (demoModel z)
      (fit (pandas (dateRange other)) (demoModel z) ⟨⟨[0], [1], none⟩, .init⟩
        (.series l name (.dates (dates t n) iname)) none).1 { x0 := .str "last", numSteps := k } = .ok out ∧
      ∃ t' : Nat → Int, (∀ i, i < n → t' i = t i) ∧ Calendar code t' (n + k) ∧
        out.labels = some (dates (fun i => t' (n - 1 + i)) (k + 1)) := by
  have hrows : ∀ p w d a, (demoModel z).sample p w d (k : Int) 1 = .ok a → a.rows = k + 1 := by
    intro p w d a ha
    exact (bm_increments (s := k) (n := 1) ha).1.1
  suffices hout : ∃ out, pathSample (pandas (dateRange other)) (demoModel z)
      (fit (pandas (dateRange other)) (demoModel z) ⟨⟨[0], [1], none⟩, .init⟩
        (.series l name (.dates (dates t n) iname)) none).1 { x0 := .str "last", numSteps := k } = .ok out by
    obtain ⟨out, h⟩ := hout
    obtain ⟨t', h1, h2, -, h3⟩ := sample_dates (g := { x0 := .str "last", numSteps := k }) _ hn hc hl rfl rfl rfl hrows h
    exact ⟨out, h, t', h1, h2, h3 rfl⟩
  obtain ⟨d, hd, hdt⟩ := calendar_dt hc
  obtain ⟨e1, e2⟩ := fit_records (m := demoModel z) (dr := dateRange other) ⟨⟨[0], [1], none⟩, .init⟩ (name := name)
    (iname := iname) (dt := none) hn hc hl
  have hi : indexInfo (pandas (dateRange other)) (.series l name (.dates (dates t n) iname)) =
      .ok ⟨true, iname, some (t 0), some (t (n - 1)), some code⟩ := by
    cases hii : indexInfo (pandas (dateRange other)) (.series l name (.dates (dates t n) iname)) with
    | ok i =>
      have hlen : l.length ≠ 0 := by simpa using hl
      have : i = ⟨true, iname, some (t 0), some (t (n - 1)), some code⟩ := by
        rw [← e1]
        unfold fit preprocessFit
        simp only [hii, SimData.toMatrix]
        rw [if_neg (by simpa [Arr.ofList] using hlen)]
        cases resolveDt i.freq none <;> rfl
      rw [this]
    | error e =>
      exfalso
      revert e2
      unfold fit preprocessFit
      simp only [hii]
      simp [FitState.init]
  have hlen : l.length ≠ 0 := by simpa using hl
  have hfit : (fit (pandas (dateRange other)) (demoModel z) ⟨⟨[0], [1], none⟩, .init⟩
      (.series l name (.dates (dates t n) iname)) none).1 =
      ⟨⟨[0], [1], none⟩, ⟨some .series, some [name], ⟨true, iname, some (t 0), some (t (n - 1)), some code⟩, some 1,
        some l.length, some ((Arr.ofList l.length 1 l).row 0), some ((Arr.ofList l.length 1 l).row (l.length - 1)), some d⟩⟩ := by
    unfold fit preprocessFit
    simp only [hi, SimData.toMatrix, hdt]
    rw [if_neg (by simpa [Arr.ofList] using hlen)]
    rfl
  rw [hfit]
  obtain ⟨a, ha⟩ := (bm_succeeds_iff (p := ⟨[0], [1], none⟩) (x0 := (Arr.ofList l.length 1 l).row (l.length - 1)) (dt := d)
    (z := z) k 1).mpr ⟨by omega, by omega, by simp, by simp, by simp, by simp [Arr.row, Arr.ofList], by simp [Arr.row, Arr.ofList]⟩
  obtain ⟨⟨hr, hcol⟩, -⟩ := bm_increments (s := k) (n := 1) ha
  have hcol : a.cols = 1 := by simpa using hcol
  obtain ⟨t', -, -, hrange⟩ := calendar_extend hn hc k
  have hidx := hrange other (n - 1) (k + 1) (by omega) (by omega)
  obtain ⟨out, ho, -⟩ := dated_sample_returns (pd := pandas (dateRange other)) (m := demoModel z)
    (o := ⟨⟨[0], [1], none⟩, ⟨some .series, some [name], ⟨true, iname, some (t 0), some (t (n - 1)), some code⟩, some 1,
        some l.length, some ((Arr.ofList l.length 1 l).row 0), some ((Arr.ofList l.length 1 l).row (l.length - 1)), some d⟩⟩)
    (g := { x0 := .str "last", numSteps := k }) (a := a)
    (idx := dates (fun i => t' (n - 1 + i)) (k + 1)) (names := [name])
    (r := ((Arr.ofList l.length 1 l).row (l.length - 1), d, some (t (n - 1)), some code)) (Or.inl rfl)
    (by
      have : resolveSimDt ⟨some .series, some [name], ⟨true, iname, some (t 0), some (t (n - 1)), some code⟩, some 1,
        some l.length, some ((Arr.ofList l.length 1 l).row 0), some ((Arr.ofList l.length 1 l).row (l.length - 1)), some d⟩ none
          = .ok d := by
        simp only [resolveSimDt, Option.isSome, if_true]
        rw [if_pos hd]
      unfold preprocessSim
      dsimp only
      rw [this]
      rfl) ha (by rw [hr]; exact hidx) (by rw [hcol]; rfl) (Or.inl rfl)
  exact ⟨out, ho⟩

/-- Three business days over a weekend, sampled for as many rows, carry the same dates. -/
example (z : Nat → ℝ) (out : Out) (h : pathSample (pandas (dateRange other)) (demoModel z)
      (fit (pandas (dateRange other)) (demoModel z) ⟨⟨[0], [1], none⟩, .init⟩
        (.series [1, 2, 4] .none (.dates (dates overWeekend 3) none)) none).1 { numSteps := (2 : Nat) } = .ok out) :
    out.labels = some (dates overWeekend 3) :=
  sample_reproduces_dates (g := { numSteps := (2 : Nat) }) _ (by omega) (.inr (.inl ⟨rfl, overWeekend_business⟩)) (by simp)
    rfl rfl rfl (by intro s hs; cases hs) (fun p w d a ha => (bm_increments (s := 2) (n := 1) ha).1.1) h

/-- A forecast over two days from Monday on, the last of these three dates, reads as daily. -/
example (z : Nat → ℝ) : ∃ out L, pathSample (pandas (dateRange other)) (demoModel z)
      (fit (pandas (dateRange other)) (demoModel z) ⟨⟨[0], [1], none⟩, .init⟩
        (.series [1, 2, 4] .none (.dates (dates overWeekend 3) none)) none).1 { x0 := .str "last", numSteps := (2 : Nat) } = .ok out ∧
      out.labels = some L ∧ stepSize L = .ok (1 / 365) := by
  obtain ⟨out, h, -⟩ := forecast_returns (other := other) z (name := .none) (iname := none) (l := [1, 2, 4]) (by omega)
    (.inr (.inl ⟨rfl, overWeekend_business⟩)) (by simp) 2
  obtain ⟨-, L, h1, h2⟩ := short_week (g := { x0 := .str "last", numSteps := (2 : Nat) }) (k := 2) _ (by omega)
    overWeekend_business (by simp) rfl rfl rfl rfl (by omega) (by decide)
    (fun p w d a ha => (bm_increments (s := 2) (n := 1) ha).1.1) h
  exact ⟨out, L, h, h1, h2⟩

end Verif.Sim
