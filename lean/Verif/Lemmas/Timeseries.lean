import Verif.Model.Timeseries
import Mathlib.Tactic.Linarith
import Mathlib.Tactic.Ring

/-!
# Calendar and counting lemmas for frequency inference
-/

namespace Verif.TS

theorem monthStart_succ (n : Int) : monthStart n + 28 ≤ monthStart (n + 1) ∧ monthStart (n + 1) ≤ monthStart n + 31 := by
  unfold monthStart
  have h12 : (n + 1) / 12 = n / 12 ∧ (n + 1) % 12 = n % 12 + 1 ∧ n % 12 < 11 ∨
      (n + 1) / 12 = n / 12 + 1 ∧ (n + 1) % 12 = 0 ∧ n % 12 = 11 := by omega
  have hm : 0 ≤ n % 12 := by omega
  generalize (n + 1) / 12 = y' at *
  generalize (n + 1) % 12 = m' at *
  generalize n / 12 = y at *
  generalize n % 12 = m at *
  rcases h12 with ⟨rfl, rfl, h⟩ | ⟨rfl, rfl, rfl⟩
  · omega
  · omega

theorem monthStart_add (n : Int) (k : Nat) : monthStart n + 28 * k ≤ monthStart (n + k) := by
  induction k with
  | zero => simp
  | succ k ih =>
    have := (monthStart_succ (n + k)).1
    push_cast
    rw [← add_assoc]
    linarith

theorem monthStart_lt {m n : Int} (h : m < n) : monthStart m + 28 ≤ monthStart n := by
  obtain ⟨k, rfl⟩ : ∃ k : Nat, n = m + k := ⟨(n - m).toNat, by omega⟩
  have := monthStart_add m k
  have hk : 1 ≤ k := by omega
  have : (1 : Int) ≤ k := by exact_mod_cast hk
  linarith

theorem monthStart_inj {m n : Int} (h : monthStart m = monthStart n) : m = n := by
  rcases lt_trichotomy m n with h' | h' | h'
  · have := monthStart_lt h'; omega
  · exact h'
  · have := monthStart_lt h'; omega

theorem yearStart_quarter {t : Int} (h : isYearStart t) : isQuarterStart t := by
  obtain ⟨n, h1, h2⟩ := h
  exact ⟨n, h1, by omega⟩

theorem quarterStart_month {t : Int} (h : isQuarterStart t) : isMonthStart t := by
  obtain ⟨n, h1, -⟩ := h
  exact ⟨n, h1⟩

theorem day_shift (t : Int) : (t + nsPerDay) / nsPerDay = t / nsPerDay + 1 := by
  unfold nsPerDay; omega

/-- No day both starts and ends a month. -/
theorem not_start_and_end {t : Int} (h : isMonthStart t) : ¬ isMonthEnd t := by
  rintro ⟨m, hm⟩
  obtain ⟨n, hn⟩ := h
  rw [day_shift] at hm
  rcases lt_trichotomy m n with h' | h' | h'
  · have := monthStart_lt h'; omega
  · subst h'; omega
  · have := monthStart_lt h'; omega

/-- Two month starts on different days are at least 28 days apart. -/
theorem month_gap {s t : Int} (hs : isMonthStart s) (ht : isMonthStart t) (h : s / nsPerDay < t / nsPerDay) :
    s / nsPerDay + 28 ≤ t / nsPerDay := by
  obtain ⟨m, hm⟩ := hs
  obtain ⟨n, hn⟩ := ht
  rcases lt_trichotomy m n with h' | h' | h'
  · have := monthStart_lt h'; omega
  · subst h'; omega
  · have := monthStart_lt h'; omega

theorem countFlag_succ (p : Int → Prop) (t : Nat → Int) (n : Nat) :
    countFlag p ((List.range (n + 1)).map t) =
      countFlag p ((List.range n).map t) + (open Classical in if p (t n) then 1 else 0) := by
  unfold countFlag
  rw [List.range_succ, List.map_append, List.countP_append]
  by_cases h : p (t n) <;> simp [h]

theorem countFlag_mono {p q : Int → Prop} {l : List Int} (h : ∀ t ∈ l, p t → q t) :
    countFlag p l ≤ countFlag q l := by
  unfold countFlag
  apply List.countP_mono_left
  intro t ht hp
  simp only [decide_eq_true_eq] at hp ⊢
  exact h t ht hp

theorem countFlag_congr {p q : Int → Prop} {l : List Int} (h : ∀ t ∈ l, p t ↔ q t) :
    countFlag p l = countFlag q l :=
  le_antisymm (countFlag_mono fun t ht => (h t ht).mp) (countFlag_mono fun t ht => (h t ht).mpr)

theorem countFlag_all {p : Int → Prop} {l : List Int} (h : ∀ t ∈ l, p t) : countFlag p l = l.length := by
  unfold countFlag
  rw [List.countP_eq_length]
  intro t ht
  simpa using h t ht

theorem countFlag_none {p : Int → Prop} {l : List Int} (h : ∀ t ∈ l, ¬ p t) : countFlag p l = 0 := by
  unfold countFlag
  rw [List.countP_eq_zero]
  intro t ht
  simpa using h t ht

/-- Steps of one to seven days. -/
def SmallSteps (t : Nat → Int) (n : Nat) : Prop :=
  ∀ i, i + 1 < n → nsPerDay ≤ t (i + 1) - t i ∧ t (i + 1) - t i ≤ 7 * nsPerDay

theorem SmallSteps.days {t : Nat → Int} {n : Nat} (h : SmallSteps t n) {i k : Nat} (hk : i + k < n) :
    t i / nsPerDay + k ≤ t (i + k) / nsPerDay ∧ t (i + k) / nsPerDay ≤ t i / nsPerDay + 7 * k := by
  induction k with
  | zero => simp
  | succ k ih =>
    have h1 := ih (by omega)
    have h2 := h (i + k) (by omega)
    unfold nsPerDay at *
    rw [show i + (k + 1) = i + k + 1 by omega]
    push_cast
    omega

/-- Flags at least 28 days apart are rare on an index with small steps. -/
theorem smallSteps_count {t : Nat → Int} {n : Nat} (h : SmallSteps t n) {p : Int → Prop}
    (hp : ∀ a b, p a → p b → a / nsPerDay < b / nsPerDay → a / nsPerDay + 28 ≤ b / nsPerDay) :
    4 * countFlag p ((List.range n).map t) ≤ n + 3 := by
  -- either there is no flag, or the last flagged position bounds the count
  have key : ∀ m, m ≤ n → countFlag p ((List.range m).map t) = 0 ∨
      ∃ L, L < m ∧ p (t L) ∧ 4 * countFlag p ((List.range m).map t) ≤ L + 4 := by
    intro m
    induction m with
    | zero => intro _; left; rfl
    | succ m ih =>
      intro hm
      rw [countFlag_succ]
      by_cases hpm : p (t m)
      · right
        rw [if_pos hpm]
        refine ⟨m, by omega, hpm, ?_⟩
        rcases ih (by omega) with h0 | ⟨L, hL, hpL, hc⟩
        · omega
        · obtain ⟨k, rfl⟩ : ∃ k, m = L + k := ⟨m - L, by omega⟩
          have hd := h.days (i := L) (k := k) (by omega)
          have hk : 1 ≤ k := by omega
          have := hp _ _ hpL hpm (by omega)
          omega
      · rw [if_neg hpm, Nat.add_zero]
        rcases ih (by omega) with h0 | ⟨L, hL, hpL, hc⟩
        · exact Or.inl h0
        · exact Or.inr ⟨L, by omega, hpL, hc⟩
  rcases key n (le_refl n) with h0 | ⟨L, hL, -, hc⟩
  · omega
  · omega

theorem gap_start {p : Int → Prop} (h : ∀ t, p t → isMonthStart t) : ∀ a b, p a → p b →
    a / nsPerDay < b / nsPerDay → a / nsPerDay + 28 ≤ b / nsPerDay :=
  fun a b ha hb => month_gap (h a ha) (h b hb)

theorem gap_end {p : Int → Prop} (h : ∀ t, p t → isMonthEnd t) : ∀ a b, p a → p b →
    a / nsPerDay < b / nsPerDay → a / nsPerDay + 28 ≤ b / nsPerDay := by
  intro a b ha hb hab
  have := month_gap (h a ha) (h b hb) (by rw [day_shift, day_shift]; omega)
  rw [day_shift, day_shift] at this
  omega

/-- An index with small steps is never dominated by period boundaries. -/
theorem smallSteps_not_dominated {t : Nat → Int} {n : Nat} (h : SmallSteps t n) :
    ¬ dominates (countFlag isYearEnd ((List.range n).map t)) n ∧
    ¬ dominates (countFlag isYearStart ((List.range n).map t)) n ∧
    ¬ dominates (countFlag isQuarterEnd ((List.range n).map t)) n ∧
    ¬ dominates (countFlag isQuarterStart ((List.range n).map t)) n ∧
    ¬ dominates (countFlag isMonthEnd ((List.range n).map t)) n ∧
    ¬ dominates (countFlag isMonthStart ((List.range n).map t)) n := by
  have main : ∀ p : Int → Prop, (∀ a b, p a → p b → a / nsPerDay < b / nsPerDay →
      a / nsPerDay + 28 ≤ b / nsPerDay) → ¬ dominates (countFlag p ((List.range n).map t)) n := by
    intro p hp hd
    have := smallSteps_count h hp
    obtain ⟨h1, h2⟩ := hd
    omega
  exact ⟨main _ (gap_end fun t h => quarterStart_month (yearStart_quarter h)),
    main _ (gap_start fun t h => quarterStart_month (yearStart_quarter h)),
    main _ (gap_end fun t h => quarterStart_month h), main _ (gap_start fun t h => quarterStart_month h),
    main _ (gap_end fun t h => h), main _ (gap_start fun t h => h)⟩

theorem npDiff_range (t : Nat → Int) (n : Nat) :
    npDiff ((List.range (n + 1)).map t) = (List.range n).map fun i => t (i + 1) - t i := by
  induction n generalizing t with
  | zero => rfl
  | succ n ih =>
    have e : ∀ {α : Type} (f : Nat → α) (m : Nat), (List.range (m + 1)).map f = f 0 :: (List.range m).map (fun i => f (i + 1)) := by
      intro α f m
      rw [List.range_succ_eq_map, List.map_cons, List.map_map]
      rfl
    rw [e, e, npDiff, ← e (fun i => t (i + 1)) n, ih, e (fun i => t (i + 1) - t i)]

end Verif.TS
