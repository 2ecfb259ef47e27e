import Verif.Prelude
import Mathlib.Tactic.Linarith
import Mathlib.Order.Bounds.Basic

/-! # Lemmas about the numpy list primitives -/

namespace Verif

theorem pyGet_ok {α} {l : List α} {i : Nat} {a : α} : pyGet l i = .ok a ↔ l[i]? = some a := by
  unfold pyGet
  cases h : l[i]? <;> simp

theorem pyGet_lt {α} {l : List α} {i : Nat} (h : i < l.length) : pyGet l i = .ok l[i] := by
  rw [pyGet_ok]; simp [h]

theorem pyGet_ge {α} {l : List α} {i : Nat} (h : l.length ≤ i) : pyGet l i = .error .indexError := by
  unfold pyGet; simp [h]

theorem pyLast_ok {α} {l : List α} {a : α} : pyLast l = .ok a ↔ l.getLast? = some a := by
  unfold pyLast
  cases h : l.getLast? <;> simp

theorem npDiff_all {l : List Int} :
    (npDiff l).all (fun d => decide (0 ≤ d)) = true ↔ l.Pairwise (· ≤ ·) := by
  rw [← List.isChain_iff_pairwise]
  induction l with
  | nil => simp [npDiff]
  | cons a l ih =>
    cases l with
    | nil => simp [npDiff]
    | cons b l =>
      rw [npDiff, List.all_cons, Bool.and_eq_true, ih, List.isChain_cons_cons]
      simp

theorem mem_npUnique {l : List Nat} {i : Nat} : i ∈ npUnique l ↔ i ∈ l := by
  simp [npUnique]

theorem npUnique_sorted (l : List Nat) : (npUnique l).Pairwise (· < ·) := by
  have h1 : (npUnique l).Pairwise (· ≤ ·) := List.pairwise_insertionSort _ _
  have h2 : (npUnique l).Nodup := by
    unfold npUnique
    exact (List.perm_insertionSort _ _).nodup_iff.mpr (List.nodup_dedup l)
  have h3 : (npUnique l).Pairwise (fun a b => a ≤ b ∧ a ≠ b) := List.pairwise_and_iff.mpr ⟨h1, h2⟩
  exact h3.imp (fun h => lt_of_le_of_ne h.1 h.2)

theorem mem_npSetdiff1d {a b : List Nat} {i : Nat} : i ∈ npSetdiff1d a b ↔ i ∈ a ∧ i ∉ b := by
  simp [npSetdiff1d, mem_npUnique]

theorem npSetdiff1d_sorted (a b : List Nat) : (npSetdiff1d a b).Pairwise (· < ·) :=
  (npUnique_sorted a).filter _

/-- Strictly increasing lists are determined by their elements. -/
theorem sorted_ext {l₁ l₂ : List Nat} (h₁ : l₁.Pairwise (· < ·)) (h₂ : l₂.Pairwise (· < ·))
    (h : ∀ i, i ∈ l₁ ↔ i ∈ l₂) : l₁ = l₂ := by
  have hp : l₁.Perm l₂ := by
    rw [List.perm_ext_iff_of_nodup (h₁.imp (fun h => Nat.ne_of_lt h)) (h₂.imp (fun h => Nat.ne_of_lt h))]
    exact h
  exact hp.eq_of_pairwise (le := (· < ·)) (fun a b _ _ h1 h2 => absurd h1 (Nat.lt_asymm h2)) h₁ h₂

theorem mem_maskZip_range' {m : List Bool} {a i : Nat} :
    i ∈ maskZip (List.range' a m.length) m ↔ a ≤ i ∧ m[i - a]? = some true := by
  induction m generalizing a with
  | nil => simp [maskZip]
  | cons b m ih =>
    rw [List.length_cons, List.range'_succ]
    cases b with
    | true =>
      simp only [maskZip, List.mem_cons, ih]
      constructor
      · rintro (rfl | ⟨h1, h2⟩)
        · simp
        · refine ⟨by omega, ?_⟩
          rw [show i - a = (i - (a + 1)) + 1 by omega]; simpa using h2
      · rintro ⟨h1, h2⟩
        rcases Nat.eq_or_lt_of_le h1 with h | h
        · left; exact h.symm
        · right; refine ⟨by omega, ?_⟩
          rw [show i - a = (i - (a + 1)) + 1 by omega] at h2; simpa using h2
    | false =>
      simp only [maskZip, ih]
      constructor
      · rintro ⟨h1, h2⟩
        refine ⟨by omega, ?_⟩
        rw [show i - a = (i - (a + 1)) + 1 by omega]; simpa using h2
      · rintro ⟨h1, h2⟩
        rcases Nat.eq_or_lt_of_le h1 with h | h
        · subst h; simp at h2
        · refine ⟨by omega, ?_⟩
          rw [show i - a = (i - (a + 1)) + 1 by omega] at h2; simpa using h2

theorem mem_maskZip_range {m : List Bool} {i : Nat} :
    i ∈ maskZip (List.range m.length) m ↔ m[i]? = some true := by
  rw [List.range_eq_range', mem_maskZip_range']; simp

theorem maskZip_sublist {α} (l : List α) (m : List Bool) : (maskZip l m).Sublist l := by
  induction l generalizing m with
  | nil => cases m <;> simp [maskZip]
  | cons a l ih =>
    cases m with
    | nil => simp [maskZip]
    | cons b m =>
      cases b with
      | true => simpa [maskZip] using ih m
      | false => simpa [maskZip] using (ih m).trans (List.sublist_cons_self a l)

theorem maskZip_range_sorted (m : List Bool) :
    (maskZip (List.range m.length) m).Pairwise (· < ·) :=
  List.Pairwise.sublist (maskZip_sublist _ _) List.pairwise_lt_range

theorem mem_npWhere {m : List Bool} {i : Nat} : i ∈ npWhere m ↔ m[i]? = some true :=
  mem_maskZip_range

/-- Selecting the positions `0 … n-1` by a predicate on the labels. -/
theorem npMask_range {n : Nat} {vals : List Int} (h : vals.length = n) (p : Int → Bool) :
    ∃ r, npMask (List.range n) (vals.map p) = .ok r ∧ r.Pairwise (· < ·) ∧
      ∀ i, i ∈ r ↔ i < n ∧ p (vals.getD i 0) = true := by
  subst h
  refine ⟨maskZip (List.range (vals.map p).length) (vals.map p), ?_, maskZip_range_sorted _, ?_⟩
  · simp [npMask]
  · intro i
    rw [mem_maskZip_range, List.getElem?_map]
    by_cases hi : i < vals.length
    · simp [hi]
    · simp [hi]

theorem npMask_range_ne {n : Nat} {vals : List Int} (h : vals.length ≠ n) (p : Int → Bool) :
    npMask (List.range n) (vals.map p) = .error .indexError := by
  simp [npMask, Ne.symm h]

/-- The first `True` position. -/
theorem head_npWhere {m : List Bool} {s : Nat} :
    pyGet (npWhere m) 0 = .ok s ↔ m[s]? = some true ∧ ∀ j < s, m[j]? ≠ some true := by
  rw [pyGet_ok]
  have hs := maskZip_range_sorted m
  have hm : ∀ i, i ∈ npWhere m ↔ m[i]? = some true := fun i => mem_npWhere
  change (npWhere m).Pairwise (· < ·) at hs
  generalize npWhere m = w at hs hm ⊢
  cases w with
  | nil => simp; intro h; exact absurd ((hm s).mpr h) (by simp)
  | cons a w =>
    rw [List.pairwise_cons] at hs
    simp only [List.getElem?_cons_zero, Option.some.injEq]
    constructor
    · rintro rfl
      refine ⟨(hm a).mp (by simp), fun j hj hc => ?_⟩
      rcases List.mem_cons.mp ((hm j).mpr hc) with h | h
      · omega
      · have := hs.1 j h; omega
    · rintro ⟨h1, h2⟩
      rcases List.mem_cons.mp ((hm s).mpr h1) with h | h
      · exact h.symm
      · exact absurd ((hm a).mp (by simp)) (h2 a (hs.1 s h))

/-- The last `True` position. -/
theorem last_npWhere {m : List Bool} {e : Nat} :
    pyLast (npWhere m) = .ok e ↔ m[e]? = some true ∧ ∀ j, e < j → m[j]? ≠ some true := by
  rw [pyLast_ok]
  have hs := maskZip_range_sorted m
  have hm : ∀ i, i ∈ npWhere m ↔ m[i]? = some true := fun i => mem_npWhere
  change (npWhere m).Pairwise (· < ·) at hs
  generalize npWhere m = w at hs hm ⊢
  rcases List.eq_nil_or_concat w with h | ⟨w', a, h⟩
  · subst h; simp; intro h; exact absurd ((hm e).mpr h) (by simp)
  · rw [List.concat_eq_append] at h; subst h
    rw [List.pairwise_append] at hs
    simp only [List.getLast?_append, List.getLast?_singleton, Option.some_or, Option.some.injEq]
    constructor
    · rintro rfl
      refine ⟨(hm a).mp (by simp), fun j hj hc => ?_⟩
      rcases List.mem_append.mp ((hm j).mpr hc) with h | h
      · have := hs.2.2 j h a (by simp); omega
      · simp at h; omega
    · rintro ⟨h1, h2⟩
      rcases List.mem_append.mp ((hm e).mpr h1) with h | h
      · exact absurd ((hm a).mp (by simp)) (h2 a (hs.2.2 e h a (by simp)))
      · simp at h; exact h.symm

theorem foldl_max_spec (l : List Int) (a : Int) :
    IsGreatest {x | x ∈ a :: l} (l.foldl max a) := by
  induction l generalizing a with
  | nil => simp [IsGreatest, upperBounds]
  | cons b l ih =>
    have := ih (max a b)
    constructor
    · have h := this.1
      simp only [List.foldl_cons, Set.mem_ofPred_eq, List.mem_cons] at h ⊢
      rcases h with h | h
      · rcases max_choice a b with h' | h' <;> rw [h'] at h <;> simp only [h'] <;> simp [h]
      · right; right; exact h
    · intro x hx
      simp only [Set.mem_ofPred_eq, List.mem_cons] at hx
      simp only [List.foldl_cons]
      have hm : max a b ≤ l.foldl max (max a b) := this.2 (by simp)
      rcases hx with rfl | rfl | h
      · exact le_trans (le_max_left _ _) hm
      · exact le_trans (le_max_right _ _) hm
      · exact this.2 (by simp [h])

theorem foldl_min_spec (l : List Int) (a : Int) :
    IsLeast {x | x ∈ a :: l} (l.foldl min a) := by
  induction l generalizing a with
  | nil => simp [IsLeast, lowerBounds]
  | cons b l ih =>
    have := ih (min a b)
    constructor
    · have h := this.1
      simp only [List.foldl_cons, Set.mem_ofPred_eq, List.mem_cons] at h ⊢
      rcases h with h | h
      · rcases min_choice a b with h' | h' <;> rw [h'] at h <;> simp only [h'] <;> simp [h]
      · right; right; exact h
    · intro x hx
      simp only [Set.mem_ofPred_eq, List.mem_cons] at hx
      simp only [List.foldl_cons]
      have hm : l.foldl min (min a b) ≤ min a b := this.2 (by simp)
      rcases hx with rfl | rfl | h
      · exact le_trans hm (min_le_left _ _)
      · exact le_trans hm (min_le_right _ _)
      · exact this.2 (by simp [h])

theorem listMax?_some {l : List Int} {m : Int} (h : listMax? l = some m) :
    IsGreatest {x | x ∈ l} m := by
  cases l with
  | nil => simp [listMax?] at h
  | cons a l => simp only [listMax?, Option.some.injEq] at h; rw [← h]; exact foldl_max_spec l a

theorem listMin?_some {l : List Int} {m : Int} (h : listMin? l = some m) :
    IsLeast {x | x ∈ l} m := by
  cases l with
  | nil => simp [listMin?] at h
  | cons a l => simp only [listMin?, Option.some.injEq] at h; rw [← h]; exact foldl_min_spec l a

theorem listMax?_none {l : List Int} : listMax? l = none ↔ l = [] := by
  cases l <;> simp [listMax?]

theorem listMin?_none {l : List Int} : listMin? l = none ↔ l = [] := by
  cases l <;> simp [listMin?]

theorem npTake_ok {vals : List Int} {idx : List Nat} (h : ∀ i ∈ idx, i < vals.length) :
    npTake vals idx = .ok (idx.map fun i => vals.getD i 0) := by
  unfold npTake
  induction idx with
  | nil => rfl
  | cons a idx ih =>
    rw [List.mapM_cons, pyGet_lt (h a (by simp)), ih (fun i hi => h i (by simp [hi]))]
    have : a < vals.length := h a (by simp)
    simp [List.getD, this]; rfl

theorem mem_npArange {a b i : Nat} : i ∈ npArange a b ↔ a ≤ i ∧ i < b := by
  simp [npArange, List.mem_range'_1]; omega

theorem npArange_sorted (a b : Nat) : (npArange a b).Pairwise (· < ·) :=
  List.pairwise_lt_range'

end Verif
