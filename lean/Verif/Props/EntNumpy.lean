import Verif.Props.EntNorm

/-!
# C113: the order in which numpy adds
-/

namespace Verif.Info

open Verif.Round
open Verif.Sim (IsSum)

theorem seqFrom_leaves (t : SumTree) (l : List ℝ) : (seqFrom t l).leaves = t.leaves ++ l := by
  induction l generalizing t with
  | nil => simp [seqFrom]
  | cons x l ih => rw [seqFrom, ih, SumTree.leaves, SumTree.leaves, List.append_assoc]; rfl

theorem seqFrom_height (t : SumTree) (l : List ℝ) : (seqFrom t l).height = t.height + l.length := by
  induction l generalizing t with
  | nil => simp [seqFrom]
  | cons x l ih =>
    rw [seqFrom, ih, SumTree.height, SumTree.height, Nat.max_eq_left (Nat.zero_le _), List.length_cons]
    omega

theorem npSeq_leaves {l : List ℝ} (h : l ≠ []) : (npSeq l).leaves = l := by
  cases l with
  | nil => exact absurd rfl h
  | cons x l => rw [npSeq, seqFrom_leaves]; rfl

theorem npSeq_height {l : List ℝ} (h : l ≠ []) : (npSeq l).height = l.length - 1 := by
  cases l with
  | nil => exact absurd rfl h
  | cons x l => rw [npSeq, seqFrom_height, SumTree.height]; simp

/-- The values of one running sum. -/
def stride (l : List ℝ) (q j : Nat) : List ℝ := (List.range q).map fun i => l.getD (8 * i + j) 0

theorem stride_succ (l : List ℝ) (q j : Nat) : stride l (q + 1) j = stride l q j ++ [l.getD (8 * q + j) 0] := by
  unfold stride
  rw [List.range_succ, List.map_append]
  rfl

theorem take_succ8 (l : List ℝ) (q : Nat) (h : 8 * (q + 1) ≤ l.length) :
    l.take (8 * (q + 1)) = l.take (8 * q) ++ (List.range 8).map fun j => l.getD (8 * q + j) 0 := by
  apply List.ext_getElem?
  intro i
  rw [List.getElem?_append, List.length_take, Nat.min_eq_left (by omega), List.getElem?_take, List.getElem?_take]
  by_cases h1 : i < 8 * q
  · rw [if_pos (by omega), if_pos h1, if_pos h1]
  · rw [if_neg h1]
    by_cases h2 : i < 8 * (q + 1)
    · rw [if_pos h2, List.getElem?_map, List.getElem?_range (by omega), Option.map_some, List.getD_eq_getElem?_getD,
        show 8 * q + (i - 8 * q) = i by omega, List.getElem?_eq_getElem (by omega), Option.getD_some]
    · rw [if_neg h2, List.getElem?_eq_none]
      simp
      omega

theorem stride_perm (l : List ℝ) (q : Nat) (h : 8 * q ≤ l.length) :
    (stride l q 0 ++ stride l q 1 ++ (stride l q 2 ++ stride l q 3) ++ (stride l q 4 ++ stride l q 5 ++ (stride l q 6 ++ stride l q 7))).Perm
      (l.take (8 * q)) := by
  classical
  induction q with
  | zero => simp [stride]
  | succ q ih =>
    have ih := ih (by omega)
    rw [List.perm_iff_count] at ih ⊢
    intro a
    have ih := ih a
    rw [take_succ8 l q h]
    simp only [stride_succ, List.count_append] at ih ⊢
    have e : (List.range 8).map (fun j => l.getD (8 * q + j) 0) =
        [l.getD (8 * q + 0) 0] ++ [l.getD (8 * q + 1) 0] ++ [l.getD (8 * q + 2) 0] ++ [l.getD (8 * q + 3) 0] ++ [l.getD (8 * q + 4) 0] ++
          [l.getD (8 * q + 5) 0] ++ [l.getD (8 * q + 6) 0] ++ [l.getD (8 * q + 7) 0] := rfl
    rw [e]
    simp only [List.count_append]
    omega

theorem npEighth_leaves {l : List ℝ} (h : 8 ≤ l.length) (j : Nat) : (npEighth l j).leaves = stride l (l.length / 8) j := by
  unfold npEighth
  rw [npSeq_leaves]
  · rfl
  · intro hc
    have := congrArg List.length hc
    simp at this
    omega

theorem npEighth_height {l : List ℝ} (h : 8 ≤ l.length) (j : Nat) : (npEighth l j).height = l.length / 8 - 1 := by
  unfold npEighth
  rw [npSeq_height]
  · simp
  · intro hc
    have := congrArg List.length hc
    simp at this
    omega

theorem npBlock_perm {l : List ℝ} (h : 8 ≤ l.length) : (npBlock l).leaves.Perm l := by
  unfold npBlock
  dsimp only
  rw [seqFrom_leaves]
  simp only [SumTree.leaves, npEighth_leaves h]
  have := (stride_perm l (l.length / 8) (by omega)).append_right (l.drop (8 * (l.length / 8)))
  rwa [List.take_append_drop] at this

theorem npBlock_height {l : List ℝ} (h : 8 ≤ l.length) (h' : l.length ≤ 128) : (npBlock l).height ≤ 25 := by
  unfold npBlock
  dsimp only
  rw [seqFrom_height]
  simp only [SumTree.height, npEighth_height h, List.length_drop, Nat.max_self]
  omega

theorem npTree_perm (f : Nat) : ∀ l : List ℝ, l ≠ [] → (npTree f l).leaves.Perm l := by
  induction f with
  | zero => intro l hl; rw [npTree, npSeq_leaves hl]
  | succ f ih =>
    intro l hl
    rw [npTree]
    split
    · rw [npSeq_leaves hl]
    · split
      · exact npBlock_perm (by omega)
      · dsimp only
        rw [SumTree.leaves]
        have h1 := ih (l.take (l.length / 2 - l.length / 2 % 8)) (by
          intro hc
          have := congrArg List.length hc
          rw [List.length_take, List.length_nil] at this
          omega)
        have h2 := ih (l.drop (l.length / 2 - l.length / 2 % 8)) (by
          intro hc
          have := congrArg List.length hc
          rw [List.length_drop, List.length_nil] at this
          omega)
        have := h1.append h2
        rwa [List.take_append_drop] at this

/-- C113. numpy's order of summation adds every value once. -/
theorem npSum_isSum : IsSum npSum := fun l hl => npTree_perm _ l hl

theorem npTree_height (k : Nat) : ∀ (f : Nat) (l : List ℝ), l ≠ [] → l.length ≤ f → l.length ≤ 112 * 2 ^ k + 16 → (npTree f l).height ≤ 25 + k := by
  induction k with
  | zero =>
    intro f l hl hf hk
    cases f with
    | zero => exact absurd (List.length_eq_zero_iff.mp (by omega)) hl
    | succ f =>
      rw [npTree]
      split
      · rw [npSeq_height hl]; omega
      · rw [if_pos (by omega)]
        have := npBlock_height (l := l) (by omega) (by omega)
        omega
  | succ k ih =>
    intro f l hl hf hk
    cases f with
    | zero => exact absurd (List.length_eq_zero_iff.mp (by omega)) hl
    | succ f =>
      rw [npTree]
      split
      · rw [npSeq_height hl]; omega
      · split
        · have := npBlock_height (l := l) (by omega) (by omega)
          omega
        · dsimp only
          rw [pow_succ] at hk
          have l1 : (l.take (l.length / 2 - l.length / 2 % 8)).length = l.length / 2 - l.length / 2 % 8 := by
            rw [List.length_take]; omega
          have l2 : (l.drop (l.length / 2 - l.length / 2 % 8)).length = l.length - (l.length / 2 - l.length / 2 % 8) := by
            rw [List.length_drop]
          have h1 := ih f (l.take (l.length / 2 - l.length / 2 % 8)) (by
            intro hc
            rw [hc, List.length_nil] at l1
            omega) (by omega) (by omega)
          have h2 := ih f (l.drop (l.length / 2 - l.length / 2 % 8)) (by
            intro hc
            rw [hc, List.length_nil] at l2
            omega) (by omega) (by omega)
          rw [SumTree.height]
          omega

/-- C113. With numpy's order no value goes through more than `25 + k` additions if there are at most `112 * 2 ^ k + 16`. -/
theorem npSum_depth {n k : Nat} (hn : 0 < n) (h : n ≤ 112 * 2 ^ k + 16) : Depth npSum n (25 + k) := by
  rintro l rfl
  exact npTree_height k _ l (by rintro rfl; simp at hn) le_rfl h

end Verif.Info
