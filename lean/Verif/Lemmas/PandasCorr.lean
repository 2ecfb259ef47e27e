import Verif.Model.PandasCorr
import Verif.Props.CorrMetric

/-!
# Lemmas about `DataFrame.corr`
-/

namespace Verif.Dist

/-! ### Welford's recurrence -/

theorem coSum_raw {x y : List ℝ} (h : x.length = y.length) :
    coSum x y = (List.zipWith (· * ·) x y).sum - x.length * (mean x * mean y) := by
  have e : ∀ (c d : ℝ) (x y : List ℝ), x.length = y.length →
      (List.zipWith (fun a b => (a - c) * (b - d)) x y).sum =
        (List.zipWith (· * ·) x y).sum - d * x.sum - c * y.sum + x.length * (c * d) := by
    intro c d x
    induction x with
    | nil => intro y hy; have : y = [] := List.length_eq_zero_iff.mp hy.symm; subst this; simp
    | cons a x ih =>
      intro y hy
      cases y with
      | nil => cases hy
      | cons b y =>
        have := ih y (by simpa using hy)
        simp only [List.zipWith_cons_cons, List.sum_cons, List.length_cons, this]
        push_cast
        ring
  unfold coSum
  rw [e _ _ _ _ h]
  by_cases hx : x.length = 0
  · have h1 : x = [] := List.length_eq_zero_iff.mp hx
    have h2 : y = [] := List.length_eq_zero_iff.mp (h ▸ hx)
    subst h1 h2
    simp
  · have hn : (x.length : ℝ) ≠ 0 := by exact_mod_cast hx
    have s1 : x.sum = x.length * mean x := by unfold mean; field_simp
    have s2 : y.sum = x.length * mean y := by unfold mean; rw [← h]; field_simp
    rw [s1, s2]
    ring

theorem mean_snoc (x : List ℝ) (a : ℝ) : mean (x ++ [a]) = mean x + 1 / (x.length + 1 : ℕ) * (a - mean x) := by
  unfold mean
  have h2 : ((x.length : ℝ) + 1) ≠ 0 := by positivity
  by_cases hx : x.length = 0
  · have : x = [] := List.length_eq_zero_iff.mp hx
    subst this
    simp
  · have hn : (x.length : ℝ) ≠ 0 := by exact_mod_cast hx
    simp only [List.sum_append, List.sum_cons, List.sum_nil, List.length_append, List.length_cons, List.length_nil]
    push_cast
    field_simp
    ring

theorem zipWith_snoc (f : ℝ → ℝ → ℝ) {x y : List ℝ} (h : x.length = y.length) (a b : ℝ) :
    List.zipWith f (x ++ [a]) (y ++ [b]) = List.zipWith f x y ++ [f a b] := by
  rw [List.zipWith_append h]
  rfl

theorem coSum_snoc {x y : List ℝ} (h : x.length = y.length) (a b : ℝ) :
    coSum (x ++ [a]) (y ++ [b]) = coSum x y + (a - mean (x ++ [a])) * (b - mean y) := by
  rw [coSum_raw (by simp [h]), coSum_raw h, zipWith_snoc _ h, List.sum_append, mean_snoc, mean_snoc, ← h]
  have h2 : ((x.length : ℝ) + 1) ≠ 0 := by positivity
  simp only [List.sum_cons, List.sum_nil, List.length_append, List.length_cons, List.length_nil]
  push_cast
  field_simp
  ring

/-- Without rounding the loop computes the means and the sums of products of deviations. -/
theorem welford_id (l : List (ℝ × ℝ)) : welford id l =
    ⟨l.length, mean (l.map (·.1)), mean (l.map (·.2)), coSum (l.map (·.1)) (l.map (·.1)), coSum (l.map (·.2)) (l.map (·.2)),
      coSum (l.map (·.1)) (l.map (·.2))⟩ := by
  induction l using List.reverseRecOn with
  | nil => simp [welford, mean, coSum]
  | append_singleton l p ih =>
    unfold welford at *
    rw [List.foldl_append, ih]
    simp only [List.foldl_cons, List.foldl_nil, Welford.step, id, List.map_append, List.map_cons, List.map_nil]
    have e1 := mean_snoc (l.map (·.1)) p.1
    have e2 := mean_snoc (l.map (·.2)) p.2
    rw [List.length_map] at e1 e2
    rw [← e1, ← e2, coSum_snoc rfl, coSum_snoc rfl, coSum_snoc (by simp)]
    simp

theorem pearson_eq (minp : Int) (x y : List XF) : pearsonR id minp x y =
    if ((complete x y).length : Int) < minp then .nan
    else match corrcoef ((complete x y).map (·.1)) ((complete x y).map (·.2)) with
      | .ok c => c
      | .error _ => .nan := by
  unfold pearsonR
  rw [welford_id]
  simp only [id]
  split
  · rfl
  unfold corrcoef
  have hl : ¬ ((complete x y).map (·.1)).length ≠ ((complete x y).map (·.2)).length := by simp
  rw [if_neg hl]
  have n1 := coSum_self (x := (complete x y).map (·.1)) rfl
  have n2 := coSum_self (x := (complete x y).map (·.2)) rfl
  have p1 : 0 ≤ coSum ((complete x y).map (·.1)) ((complete x y).map (·.1)) := by rw [n1]; positivity
  have p2 : 0 ≤ coSum ((complete x y).map (·.2)) ((complete x y).map (·.2)) := by rw [n2]; positivity
  have hiff := (Real.sqrt_eq_zero (mul_nonneg p1 p2)).trans mul_eq_zero
  by_cases hz : coSum ((complete x y).map (·.1)) ((complete x y).map (·.1)) = 0 ∨ coSum ((complete x y).map (·.2)) ((complete x y).map (·.2)) = 0
  · rw [if_pos (hiff.mpr hz), if_pos hz]
  · rw [if_neg (mt hiff.mp hz), if_neg hz, Real.sqrt_mul p1]

/-! ### Complete rows -/

theorem complete_fin (x y : List ℝ) : complete (x.map .fin) (y.map .fin) = x.zip y := by
  induction x generalizing y with
  | nil => cases y <;> rfl
  | cons a x ih =>
    cases y with
    | nil => rfl
    | cons b y => exact congrArg _ (ih y)

theorem complete_self (x : List XF) : ∀ p ∈ complete x x, p.1 = p.2 := by
  induction x with
  | nil => intro p hp; cases hp
  | cons a x ih =>
    cases a with
    | fin r =>
      intro p hp
      rcases List.mem_cons.mp hp with rfl | h
      · rfl
      · exact ih p h
    | nan => exact ih
    | pinf => exact ih
    | ninf => exact ih

theorem complete_swap (x y : List XF) : complete y x = (complete x y).map Prod.swap := by
  induction x generalizing y with
  | nil => cases y <;> first | rfl | (rename_i a l; cases a <;> rfl)
  | cons a x ih =>
    cases y with
    | nil => cases a <;> rfl
    | cons b y =>
      cases a <;> cases b <;> first | exact ih y | exact congrArg _ (ih y)

/-! ### Ranks -/

open Classical in
theorem ranks_sum (l : List ℝ) : (ranks l).sum = l.length * ((l.length + 1 : ℝ) / 2) := by
  have key : ∀ k l : List ℝ, (k.map fun v => ((l.countP fun w => decide (w < v)) : ℝ) + (l.countP fun w => decide (w = v)) / 2).sum +
      (l.map fun v => ((k.countP fun w => decide (w < v)) : ℝ) + (k.countP fun w => decide (w = v)) / 2).sum = k.length * l.length := by
    intro k l
    induction k with
    | nil => simp
    | cons a k ih =>
      have one : ∀ l : List ℝ, (((l.countP fun w => decide (w < a)) : ℝ) + (l.countP fun w => decide (w = a)) / 2) +
          (l.map fun v => ((if a < v then 1 else 0 : ℝ)) + (if a = v then 1 else 0) / 2).sum = l.length := by
        intro l
        induction l with
        | nil => simp
        | cons b l ihl =>
          simp only [List.countP_cons, List.map_cons, List.sum_cons, List.length_cons, decide_eq_true_eq] at ihl ⊢
          rcases lt_trichotomy a b with h | h | h
          · rw [if_neg (not_lt.mpr h.le), if_neg h.ne', if_pos h, if_neg h.ne]; push_cast; linarith
          · subst h; simp only [lt_irrefl, if_false, if_true]; push_cast; linarith
          · rw [if_pos h, if_neg h.ne, if_neg (not_lt.mpr h.le), if_neg h.ne']; push_cast; linarith
      have split : (l.map fun v => (((a :: k).countP fun w => decide (w < v)) : ℝ) + ((a :: k).countP fun w => decide (w = v)) / 2).sum =
          (l.map fun v => ((k.countP fun w => decide (w < v)) : ℝ) + (k.countP fun w => decide (w = v)) / 2).sum +
          (l.map fun v => ((if a < v then 1 else 0 : ℝ)) + (if a = v then 1 else 0) / 2).sum := by
        rw [← List.sum_map_add]
        congr 1
        refine List.map_congr_left fun v _ => ?_
        simp only [List.countP_cons, decide_eq_true_eq]
        push_cast
        ring
      rw [split, List.map_cons, List.sum_cons, List.length_cons]
      have := one l
      push_cast
      linarith
  have h := key l l
  have e : (ranks l).sum = (l.map fun v => ((l.countP fun w => decide (w < v)) : ℝ) + (l.countP fun w => decide (w = v)) / 2).sum +
      (l.map fun _ => (1 / 2 : ℝ)).sum := by
    rw [← List.sum_map_add]
    unfold ranks rank
    congr 1
    refine List.map_congr_left fun v _ => ?_
    ring
  rw [e]
  simp only [List.map_const', List.sum_replicate, nsmul_eq_mul]
  linarith

theorem ranks_mean {l : List ℝ} (h : l ≠ []) : mean (ranks l) = (l.length + 1 : ℝ) / 2 := by
  unfold mean
  rw [ranks_sum]
  have : (l.length : ℝ) ≠ 0 := by exact_mod_cast (List.length_pos_iff.mpr h).ne'
  have e : (ranks l).length = l.length := List.length_map _
  rw [e]
  field_simp

theorem rankSum_eq {x y : List ℝ} (h : x.length = y.length) (n : Nat) (hn : x.length = n) : rankSum id n (ranks x) (ranks y) = coSum (ranks x) (ranks y) := by
  by_cases hx : x = []
  · subst hx
    have : y = [] := List.length_eq_zero_iff.mp (by simpa using h.symm)
    subst this
    simp [rankSum, coSum, ranks]
  · have hy : y ≠ [] := by intro e; subst e; exact hx (List.length_eq_zero_iff.mp (by simpa using h))
    unfold rankSum coSum
    rw [ranks_mean hx, ranks_mean hy, ← h, hn]
    simp only [id]
    rw [List.sum_eq_foldl]

/-- Spearman's correlation is Pearson's correlation of the ranks. -/
theorem spearman_eq (minp : Int) (x y : List XF) : spearmanR id minp x y =
    if ((complete x y).length : Int) < minp then .nan
    else match corrcoef (ranks ((complete x y).map (·.1))) (ranks ((complete x y).map (·.2))) with
      | .ok c => c
      | .error _ => .nan := by
  unfold spearmanR
  generalize complete x y = c
  simp only [id_eq]
  rw [rankSum_eq rfl _ (by simp), rankSum_eq rfl _ (by simp), rankSum_eq (by simp) _ (by simp)]
  split
  · rfl
  have l1 : (ranks (c.map (·.1))).length = c.length := by simp [ranks]
  have l2 : (ranks (c.map (·.2))).length = c.length := by simp [ranks]
  generalize ranks (c.map (·.1)) = a at *
  generalize ranks (c.map (·.2)) = b at *
  unfold corrcoef
  have hl : ¬ a.length ≠ b.length := by rw [l1, l2]; simp
  rw [if_neg hl]
  have n1 := coSum_self l1
  have n2 := coSum_self l2
  have p1 : 0 ≤ coSum a a := by rw [n1]; positivity
  have p2 : 0 ≤ coSum b b := by rw [n2]; positivity
  have hiff := (Real.sqrt_eq_zero (mul_nonneg p1 p2)).trans mul_eq_zero
  by_cases hz : coSum a a = 0 ∨ coSum b b = 0
  · rw [if_pos (hiff.mpr hz), if_pos hz]
  · rw [if_neg (mt hiff.mp hz), if_neg hz, Real.sqrt_mul p1]
    have hs1 : Real.sqrt (coSum a a) = ‖cvec c.length a‖ := by rw [n1, Real.sqrt_sq (norm_nonneg _)]
    have hs2 : Real.sqrt (coSum b b) = ‖cvec c.length b‖ := by rw [n2, Real.sqrt_sq (norm_nonneg _)]
    have hab : |coSum a b / (Real.sqrt (coSum a a) * Real.sqrt (coSum b b))| ≤ 1 := by
      rw [coSum_eq_inner l1 l2, hs1, hs2]
      exact abs_real_inner_div_norm_mul_norm_le_one _ _
    obtain ⟨h1, h2⟩ := abs_le.mp hab
    dsimp only
    rw [max_eq_left h1, min_eq_left h2]

end Verif.Dist
