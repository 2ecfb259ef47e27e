import Verif.Model.Clustering
import Verif.Lemmas.Micro
import Mathlib.Algebra.BigOperators.Intervals
import Mathlib.Tactic.Ring
import Mathlib.Tactic.Linarith
import Mathlib.Tactic.FieldSimp
import Mathlib.Tactic.Positivity

/-!
# Lemmas for the clustering model
-/

namespace Verif.Clust

open Verif Ser Classical Finset

variable {α β : Type} [DecidableEq α] [DecidableEq β]

theorem foldl_add_fin (l : List ℝ) (a : ℝ) : (l.map XF.fin).foldl (· + ·) (.fin a) = XF.fin (a + l.sum) := by
  induction l generalizing a with
  | nil => simp
  | cons b l ih => rw [List.map_cons, List.foldl_cons, XF.add_fin, ih, List.sum_cons, add_assoc]

theorem list_sum_range (n : Nat) (f : Nat → ℝ) : ((List.range n).map f).sum = ∑ i ∈ range n, f i := rfl

theorem npSum2_fin (n : Nat) (f : Nat → Nat → ℝ) :
    npSum2 n (fun i j => .fin (f i j)) = .fin (∑ i ∈ range n, ∑ j ∈ range n, f i j) := by
  have h : ((List.range n).flatMap fun i => (List.range n).map fun j => XF.fin (f i j))
      = (((List.range n).flatMap fun i => (List.range n).map fun j => f i j)).map XF.fin := by
    rw [List.map_flatMap]; simp [Function.comp_def]
  rw [npSum2, h, foldl_add_fin, zero_add]
  congr 1
  have : ∀ q r : List Nat, (q.flatMap fun i => r.map fun j => f i j).sum = (q.map fun i => (r.map fun j => f i j).sum).sum := by
    intro q r
    induction q with
    | nil => rfl
    | cons i q ih => rw [List.flatMap_cons, List.sum_append, ih, List.map_cons, List.sum_cons]
  exact this (List.range n) (List.range n)

theorem npSum2_congr {n : Nat} {a b : Nat → Nat → XF} (h : ∀ i j, i < n → j < n → a i j = b i j) :
    npSum2 n a = npSum2 n b := by
  unfold npSum2
  congr 1
  refine List.flatMap_congr fun i hi => List.map_congr_left fun j hj => h i j ?_ ?_
  · exact List.mem_range.mp hi
  · exact List.mem_range.mp hj

/-! ### Numbers of clusters -/

theorem dedup_length_image (l : List α) : l.dedup.length = ((range l.length).image fun i => l[i]?).card := by
  rw [← List.card_toFinset, ← Finset.card_map Function.Embedding.some]
  congr 1
  ext x
  simp only [Finset.mem_map, List.mem_toFinset, Function.Embedding.some_apply, mem_image, Finset.mem_range]
  constructor
  · rintro ⟨a, ha, rfl⟩
    obtain ⟨i, hi, rfl⟩ := List.getElem_of_mem ha
    exact ⟨i, hi, List.getElem?_eq_getElem hi⟩
  · rintro ⟨i, hi, rfl⟩
    exact ⟨l[i], List.getElem_mem hi, (List.getElem?_eq_getElem hi).symm⟩

/-- Two lists of labels describe the same clusters. -/
def SamePartition (l : List α) (l' : List β) : Prop :=
  l.length = l'.length ∧ ∀ i j, i < l.length → j < l.length → (l[i]? = l[j]? ↔ l'[i]? = l'[j]?)

theorem card_image_le {γ δ : Type} [DecidableEq γ] [DecidableEq δ] {s : Finset Nat} {g : Nat → γ} {g' : Nat → δ}
    (h : ∀ i ∈ s, ∀ j ∈ s, g' i = g' j → g i = g j) : (s.image g).card ≤ (s.image g').card := by
  have : ∀ y : δ, ∃ x : Option γ, ∀ i ∈ s, g' i = y → x = some (g i) := by
    intro y
    by_cases hy : ∃ i ∈ s, g' i = y
    · obtain ⟨i, hi, rfl⟩ := hy
      exact ⟨some (g i), fun j hj e => by rw [h i hi j hj e.symm]⟩
    · exact ⟨none, fun i hi e => absurd ⟨i, hi, e⟩ hy⟩
  choose F hF using this
  have hs : (s.image g).map Function.Embedding.some ⊆ (s.image g').image F := by
    intro x hx
    simp only [Finset.mem_map, mem_image, Function.Embedding.some_apply] at hx ⊢
    obtain ⟨_, ⟨i, hi, rfl⟩, rfl⟩ := hx
    exact ⟨g' i, ⟨i, hi, rfl⟩, hF _ i hi rfl⟩
  calc (s.image g).card = ((s.image g).map Function.Embedding.some).card := (card_map _).symm
    _ ≤ ((s.image g').image F).card := card_le_card hs
    _ ≤ (s.image g').card := Finset.card_image_le

theorem SamePartition.dedup {l : List α} {l' : List β} (h : SamePartition l l') : l.dedup.length = l'.dedup.length := by
  rw [dedup_length_image, dedup_length_image, ← h.1]
  apply le_antisymm
  · exact card_image_le fun i hi j hj e => (h.2 i j (mem_range.mp hi) (mem_range.mp hj)).mpr e
  · exact card_image_le fun i hi j hj e => (h.2 i j (mem_range.mp hi) (mem_range.mp hj)).mp e

omit [DecidableEq α] [DecidableEq β] in
theorem samePartition_map {l : List α} {f : α → β} (hf : ∀ a ∈ l, ∀ b ∈ l, f a = f b → a = b) :
    SamePartition l (l.map f) := by
  refine ⟨(List.length_map f).symm, fun i j hi hj => ?_⟩
  rw [List.getElem?_map, List.getElem?_map, List.getElem?_eq_getElem hi, List.getElem?_eq_getElem hj]
  simp only [Option.some.injEq, Option.map_some]
  exact ⟨fun e => by rw [e], hf _ (List.getElem_mem hi) _ (List.getElem_mem hj)⟩

/-! ### Inputs -/

omit [DecidableEq α] in
theorem checkInputs_table (m : Dist.Table) (l : List α) : checkInputs (.table m) (.vec l) =
    if l.length < 2 then .error .valueError else if m.cols < 2 then .error .valueError
    else if m.rows = l.length then .ok (m, l) else .error .assertionError := by
  unfold checkInputs validateLabels validateDist
  by_cases h1 : l.length < 2
  · simp only [if_pos h1]; rfl
  · by_cases h2 : m.cols < 2
    · simp only [if_neg h1, if_pos h2]; rfl
    · simp only [if_neg h1, if_neg h2]; rfl

omit [DecidableEq α] in
theorem checkInputs_ok {dist : DistArg} {labels : LabArg α} {m : Dist.Table} {l : List α} :
    checkInputs dist labels = .ok (m, l) ↔
      dist = .table m ∧ labels = .vec l ∧ 2 ≤ l.length ∧ 2 ≤ m.cols ∧ m.rows = l.length := by
  cases labels with
  | none_ =>
    cases dist with
    | none_ => exact ⟨fun h => (by cases h), fun h => by cases h.1⟩
    | other => exact ⟨fun h => (by cases h), fun h => by cases h.1⟩
    | table m' =>
      refine ⟨fun h => ?_, fun h => by cases h.2.1⟩
      unfold checkInputs validateDist at h
      by_cases h2 : m'.cols < 2
      · simp only [if_pos h2] at h; cases h
      · simp only [if_neg h2] at h; cases h
  | other => exact ⟨fun h => (by cases dist <;> cases h), fun h => by cases h.2.1⟩
  | vec l' =>
    cases dist with
    | none_ =>
      refine ⟨fun h => ?_, fun h => by cases h.1⟩
      unfold checkInputs validateLabels at h
      by_cases h2 : l'.length < 2
      · simp only [if_pos h2] at h; cases h
      · simp only [if_neg h2] at h; cases h
    | other =>
      refine ⟨fun h => ?_, fun h => by cases h.1⟩
      unfold checkInputs validateLabels at h
      by_cases h2 : l'.length < 2
      · simp only [if_pos h2] at h; cases h
      · simp only [if_neg h2] at h; cases h
    | table m' =>
      rw [checkInputs_table]
      by_cases h1 : l'.length < 2
      · rw [if_pos h1]
        exact ⟨fun h => (by cases h), fun ⟨_, h, h', _⟩ => by cases h; omega⟩
      · by_cases h2 : m'.cols < 2
        · rw [if_neg h1, if_pos h2]
          exact ⟨fun h => (by cases h), fun ⟨h, _, _, h', _⟩ => by cases h; omega⟩
        · rw [if_neg h1, if_neg h2]
          by_cases h3 : m'.rows = l'.length
          · rw [if_pos h3]
            constructor
            · intro h; cases h; exact ⟨rfl, rfl, by omega, by omega, h3⟩
            · rintro ⟨h, h', _⟩; cases h; cases h'; rfl
          · rw [if_neg h3]
            exact ⟨fun h => (by cases h), fun ⟨h, h', _, _, h5⟩ => by cases h; cases h'; exact absurd h5 h3⟩

end Verif.Clust
