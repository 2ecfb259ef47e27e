import Verif.Model.CholR
import Verif.Spec.Round
import Mathlib.Algebra.Order.BigOperators.Group.Finset
import Mathlib.Algebra.Order.BigOperators.Ring.Finset
import Mathlib.Tactic.Linarith
import Mathlib.Tactic.FieldSimp
import Mathlib.Tactic.Positivity

/-!
# The rounded Cholesky factorisation
-/

namespace Verif.Round

variable {fl : ℝ → ℝ}

/-- The relative error that `k` roundings can amount to. -/
noncomputable def grow (k : Nat) : ℝ := (1 + u64) ^ k - 1

theorem u64_pos' : 0 < u64 := by unfold u64; positivity

theorem grow_nonneg (k : Nat) : 0 ≤ grow k := by
  unfold grow
  have : 1 ≤ (1 + u64) ^ k := one_le_pow₀ (by linarith [u64_pos'])
  linarith

theorem grow_mono {k l : Nat} (h : k ≤ l) : grow k ≤ grow l := by
  unfold grow
  have : (1 + u64) ^ k ≤ (1 + u64) ^ l := pow_le_pow_right₀ (by linarith [u64_pos']) h
  linarith

theorem one_add_grow (k : Nat) : 1 + grow k = (1 + u64) ^ k := by unfold grow; ring

theorem grow_succ (k : Nat) : u64 * (1 + grow k) + grow k = grow (k + 1) := by
  unfold grow; ring

theorem grow_le {k : Nat} (h : (k : ℝ) * u64 ≤ 1 / 64) : grow k ≤ 64 / 63 * (k * u64) := by
  have hu := u64_pos'
  have hu1 : u64 ≤ 1 := by unfold u64; norm_num
  have h1 : 1 - k * u64 ≤ (1 - u64) ^ k := by
    have := one_add_mul_le_pow (a := -u64) (by linarith) k
    calc 1 - k * u64 = 1 + (k : ℝ) * -u64 := by ring
      _ ≤ (1 + -u64) ^ k := this
      _ = _ := by ring
  have h2 : (1 + u64) ^ k * (1 - u64) ^ k ≤ 1 := by
    rw [← mul_pow]
    apply pow_le_one₀
    · nlinarith
    · nlinarith
  have h3 : 0 ≤ (1 + u64) ^ k := by positivity
  have h4 : (1 + u64) ^ k * (1 - k * u64) ≤ 1 := le_trans (mul_le_mul_of_nonneg_left h1 h3) h2
  have h5 : (0 : ℝ) ≤ k * u64 := by positivity
  unfold grow
  have h6 : (1 + u64) ^ k ≤ 64 / 63 := by
    have : (1 + u64) ^ k * (63 / 64) ≤ 1 := le_trans (mul_le_mul_of_nonneg_left (by linarith) h3) h4
    linarith
  have h7 : (1 + u64) ^ k * (k * u64) ≤ 64 / 63 * (k * u64) := mul_le_mul_of_nonneg_right h6 h5
  have h8 : (1 + u64) ^ k * (1 - k * u64) = (1 + u64) ^ k - (1 + u64) ^ k * (k * u64) := by ring
  linarith

theorem round_step (R : Rounding fl) {x X M : ℝ} {k : Nat} (h : |x - X| ≤ grow k * M) (hX : |X| ≤ M) :
    |fl x - X| ≤ grow (k + 1) * M := by
  have h1 := R.rel x
  have h2 : |x| ≤ (1 + grow k) * M := by
    have : |x| ≤ |x - X| + |X| := by
      have := abs_add_le (x - X) X
      simpa using this
    linarith
  have h3 : u64 * |x| ≤ u64 * ((1 + grow k) * M) := mul_le_mul_of_nonneg_left h2 u64_pos'.le
  have h4 : |fl x - X| ≤ |fl x - x| + |x - X| := by
    have := abs_add_le (fl x - x) (x - X)
    simpa using this
  rw [← grow_succ]
  nlinarith

/-- The error of a scalar product in any order. -/
theorem DotTree.eval_grow (R : Rounding fl) (T : DotTree) :
    |T.eval fl - (T.leaves.map fun p => p.1 * p.2).sum| ≤ grow T.height * (T.leaves.map fun p => |p.1 * p.2|).sum ∧
      |(T.leaves.map fun p => p.1 * p.2).sum| ≤ (T.leaves.map fun p => |p.1 * p.2|).sum := by
  have nn : ∀ l : List (ℝ × ℝ), 0 ≤ (l.map fun p => |p.1 * p.2|).sum := fun l =>
    List.sum_nonneg (by simp only [List.mem_map]; rintro x ⟨p, -, rfl⟩; exact abs_nonneg _)
  induction T with
  | prod a b =>
    simp only [DotTree.eval, DotTree.leaves, DotTree.height, List.map_cons, List.map_nil, List.sum_cons, List.sum_nil, add_zero]
    exact ⟨round_step (k := 0) R (by simp [grow]) (le_refl _), le_refl _⟩
  | node l r hl hr =>
    simp only [DotTree.eval, DotTree.leaves, DotTree.height, List.map_append, List.sum_append]
    have hX := (abs_add_le _ _).trans (add_le_add hl.2 hr.2)
    refine ⟨round_step R ?_ hX, hX⟩
    have e1 := hl.1.trans (mul_le_mul_of_nonneg_right (grow_mono (le_max_left l.height r.height)) (nn l.leaves))
    have e2 := hr.1.trans (mul_le_mul_of_nonneg_right (grow_mono (le_max_right l.height r.height)) (nn r.leaves))
    rw [mul_add]
    refine le_trans ?_ (add_le_add e1 e2)
    rw [show ∀ a b c d : ℝ, a + b - (c + d) = (a - c) + (b - d) by intros; ring]
    exact abs_add_le _ _
  | fma t a b ht =>
    simp only [DotTree.eval, DotTree.leaves, DotTree.height, List.map_append, List.sum_append, List.map_cons, List.map_nil,
      List.sum_cons, List.sum_nil, add_zero]
    have hX := (abs_add_le _ _).trans (add_le_add ht.2 (le_refl |a * b|))
    refine ⟨round_step R ?_ hX, hX⟩
    rw [show ∀ a b c : ℝ, a + b - (c + b) = a - c by intros; ring, mul_add]
    have := mul_nonneg (grow_nonneg t.height) (abs_nonneg (a * b))
    linarith [ht.1]

theorem DotTree.height_le' (T : DotTree) : T.height ≤ T.leaves.length := by
  have hpos : ∀ T : DotTree, 0 < T.leaves.length := by
    intro T
    induction T with
    | prod a b => simp [DotTree.leaves]
    | node l r hl hr => simp only [DotTree.leaves, List.length_append]; omega
    | fma t a b ht => simp [DotTree.leaves]
  induction T with
  | prod a b => simp [DotTree.height, DotTree.leaves]
  | node l r hl hr =>
    have := hpos l
    have := hpos r
    simp only [DotTree.height, DotTree.leaves, List.length_append]
    omega
  | fma t a b ht =>
    simp only [DotTree.height, DotTree.leaves, List.length_append, List.length_singleton]
    omega

end Verif.Round

namespace Verif.Sim

open Round

/-- A way to order the sums of the factorisation. -/
def IsCholOrder (ord : Nat → Nat → List (ℝ × ℝ) → DotTree) : Prop := ∀ i j l, l ≠ [] → (ord i j l).leaves.Perm l

variable {fl : ℝ → ℝ} {ord : Nat → Nat → List (ℝ × ℝ) → DotTree} {recip : Nat → Nat → Bool} {a L : Nat → Nat → ℝ} {n : Nat}

/-- What the first `n` columns satisfy. -/
structure CholDone (fl : ℝ → ℝ) (ord : Nat → Nat → List (ℝ × ℝ) → DotTree) (recip : Nat → Nat → Bool) (a L : Nat → Nat → ℝ)
    (n : Nat) : Prop where
  pos : ∀ j < n, 0 < cholRest fl ord a L j j
  diag : ∀ j < n, L j j = fl (Real.sqrt (cholRest fl ord a L j j))
  low : ∀ j < n, ∀ i, j < i → L i j = cholQuot fl recip i j (cholRest fl ord a L i j) (L j j)
  up : ∀ j < n, ∀ i, i < j → L i j = 0
  rest : ∀ j, n ≤ j → ∀ i, L i j = 0

theorem cholRest_congr {L' : Nat → Nat → ℝ} {i j : Nat} (h : ∀ i k, k < j → L i k = L' i k) :
    cholRest fl ord a L i j = cholRest fl ord a L' i j := by
  unfold cholRest cholPairs
  congr 3
  apply List.map_congr_left
  intro k hk
  have hk := List.mem_range.mp hk
  rw [h i k hk, h j k hk]

theorem cholCols_done : ∀ {n : Nat} {L : Nat → Nat → ℝ}, cholCols fl ord recip a n = some L → CholDone fl ord recip a L n := by
  intro n
  induction n with
  | zero =>
    intro L h
    cases h
    exact ⟨by simp, by simp, by simp, by simp, by simp⟩
  | succ n ih =>
    intro L h
    simp only [cholCols, Option.bind_eq_some_iff] at h
    obtain ⟨L0, h0, h⟩ := h
    have D := ih h0
    unfold cholCol at h
    split_ifs at h with hp
    simp only [Option.some.injEq] at h
    have hL : ∀ i k, k ≠ n → L i k = L0 i k := by
      intro i k hk
      rw [← h]
      simp only [if_neg hk]
    have hr : ∀ i j, j ≤ n → cholRest fl ord a L i j = cholRest fl ord a L0 i j := fun i j hj =>
      cholRest_congr fun i k hk => hL i k (by omega)
    have hd : L n n = fl (Real.sqrt (cholRest fl ord a L0 n n)) := by
      rw [← h]
      simp only [if_true]
    refine ⟨fun j hj => ?_, fun j hj => ?_, fun j hj i hi => ?_, fun j hj i hi => ?_, fun j hj i => ?_⟩
    · rw [hr j j (by omega)]
      rcases Nat.lt_succ_iff_lt_or_eq.mp hj with hj | rfl
      · exact D.pos j hj
      · exact hp
    · rw [hr j j (by omega)]
      rcases Nat.lt_succ_iff_lt_or_eq.mp hj with hj | rfl
      · rw [hL j j (by omega)]; exact D.diag j hj
      · exact hd
    · rw [hr i j (by omega)]
      rcases Nat.lt_succ_iff_lt_or_eq.mp hj with hj | rfl
      · rw [hL i j (by omega), hL j j (by omega)]; exact D.low j hj i hi
      · rw [hd]
        conv_lhs => rw [← h]
        simp only [if_true]
        rw [if_neg (by omega), if_pos hi]
    · rcases Nat.lt_succ_iff_lt_or_eq.mp hj with hj | rfl
      · rw [hL i j (by omega)]; exact D.up j hj i hi
      · conv_lhs => rw [← h]
        simp only [if_true]
        rw [if_neg (by omega), if_neg (by omega)]
    · rw [hL i j (by omega)]
      exact D.rest j (by omega) i

theorem cholCols_fail (h : cholCols fl ord recip a n = none) :
    ∃ j < n, ∃ L, CholDone fl ord recip a L j ∧ cholRest fl ord a L j j ≤ 0 := by
  induction n with
  | zero => cases h
  | succ n ih =>
    cases h0 : cholCols fl ord recip a n with
    | none =>
      obtain ⟨j, hj, r⟩ := ih h0
      exact ⟨j, by omega, r⟩
    | some L =>
      refine ⟨n, by omega, L, cholCols_done h0, ?_⟩
      simp only [cholCols, h0, Option.bind_some] at h
      unfold cholCol at h
      split_ifs at h with hp
      exact not_lt.mp hp

theorem sum_map_range (n : Nat) (f : Nat → ℝ) : ((List.range n).map f).sum = ∑ k ∈ Finset.range n, f k := by
  induction n with
  | zero => rfl
  | succ n ih => rw [List.range_succ, List.map_append, List.sum_append, ih, Finset.sum_range_succ]; simp

/-- The computed difference. -/
theorem cholRest_err (R : Rounding fl) (ho : IsCholOrder ord) (i j : Nat) :
    |cholRest fl ord a L i j - (a i j - ∑ k ∈ Finset.range j, L i k * L j k)| ≤
      grow (j + 1) * (|a i j| + ∑ k ∈ Finset.range j, |L i k * L j k|) := by
  have hp := ho i j (cholPairs a L i j) (by simp [cholPairs])
  have h1 := (DotTree.eval_grow R (ord i j (cholPairs a L i j))).1
  have hlen : (ord i j (cholPairs a L i j)).leaves.length = j + 1 := by rw [hp.length_eq]; simp [cholPairs]
  have hh := DotTree.height_le' (ord i j (cholPairs a L i j))
  rw [hlen] at hh
  rw [(hp.map _).sum_eq, (hp.map _).sum_eq] at h1
  have e1 : ((cholPairs a L i j).map fun p => p.1 * p.2).sum = a i j - ∑ k ∈ Finset.range j, L i k * L j k := by
    unfold cholPairs
    rw [List.map_cons, List.sum_cons, List.map_map, mul_one, sub_eq_add_neg, ← Finset.sum_neg_distrib, ← sum_map_range]
    congr 2
    apply List.map_congr_left
    intro k _
    simp
  have e2 : ((cholPairs a L i j).map fun p => |p.1 * p.2|).sum = |a i j| + ∑ k ∈ Finset.range j, |L i k * L j k| := by
    unfold cholPairs
    rw [List.map_cons, List.sum_cons, List.map_map, mul_one, ← sum_map_range]
    congr 2
    apply List.map_congr_left
    intro k _
    simp
  rw [e1, e2] at h1
  refine h1.trans (mul_le_mul_of_nonneg_right (grow_mono hh) ?_)
  exact add_nonneg (abs_nonneg _) (Finset.sum_nonneg fun k _ => abs_nonneg _)

theorem fl_rel (R : Rounding fl) (x : ℝ) : ∃ δ : ℝ, fl x = x * (1 + δ) ∧ |δ| ≤ u64 := by
  by_cases hx : x = 0
  · refine ⟨0, ?_, by simp [u64_pos'.le]⟩
    have := R.rel x
    rw [hx] at this ⊢
    simp at this
    simp [this]
  · refine ⟨(fl x - x) / x, by field_simp; ring, ?_⟩
    rw [abs_div, div_le_iff₀ (abs_pos.mpr hx)]
    exact R.rel x

theorem grow_two {δ ε : ℝ} (h1 : |δ| ≤ u64) (h2 : |ε| ≤ u64) : |(1 + δ) * (1 + ε) - 1| ≤ grow 2 := by
  have e : (1 + δ) * (1 + ε) - 1 = δ + ε + δ * ε := by ring
  rw [e]
  have h3 : |δ * ε| ≤ u64 * u64 := by
    rw [abs_mul]
    exact mul_le_mul h1 h2 (abs_nonneg _) u64_pos'.le
  have := abs_add_le (δ + ε) (δ * ε)
  have := abs_add_le δ ε
  unfold grow
  have e2 : (1 + u64) ^ 2 - 1 = u64 + u64 + u64 * u64 := by ring
  linarith

theorem fl_pos (R : Rounding fl) {x : ℝ} (hx : 0 < x) : 0 < fl x := by
  have := (abs_le.mp (R.rel x)).1
  rw [abs_of_pos hx] at this
  have hu : u64 < 1 := by unfold u64; norm_num
  nlinarith

/-- The entries give back what is under the root or divided, up to two roundings. -/
theorem CholDone.back (R : Rounding fl) (D : CholDone fl ord recip a L n) {i j : Nat} (hj : j < n) (hij : j ≤ i) :
    |L i j * L j j - cholRest fl ord a L i j| ≤ grow 2 * |cholRest fl ord a L i j| := by
  have hr := D.pos j hj
  have hd : 0 < L j j := by rw [D.diag j hj]; exact fl_pos R (Real.sqrt_pos.mpr hr)
  have fin : ∀ {s δ ε x : ℝ}, |δ| ≤ u64 → |ε| ≤ u64 → x = s * ((1 + δ) * (1 + ε)) → |x - s| ≤ grow 2 * |s| := by
    intro s δ ε x h1 h2 e
    rw [e, show s * ((1 + δ) * (1 + ε)) - s = ((1 + δ) * (1 + ε) - 1) * s by ring, abs_mul]
    exact mul_le_mul_of_nonneg_right (grow_two h1 h2) (abs_nonneg _)
  rcases Nat.eq_or_lt_of_le hij with rfl | hij
  · obtain ⟨δ, e, h⟩ := fl_rel R (Real.sqrt (cholRest fl ord a L j j))
    refine fin h h ?_
    rw [D.diag j hj]
    have hs := Real.mul_self_sqrt hr.le
    rw [e]
    calc _ = Real.sqrt (cholRest fl ord a L j j) * Real.sqrt (cholRest fl ord a L j j) * ((1 + δ) * (1 + δ)) := by ring
      _ = _ := by rw [hs]
  · rw [D.low j hj i hij]
    unfold cholQuot
    have hd' := hd.ne'
    split_ifs
    · obtain ⟨δ, e1, h1⟩ := fl_rel R (1 / L j j)
      obtain ⟨ε, e2, h2⟩ := fl_rel R (cholRest fl ord a L i j * fl (1 / L j j))
      refine fin h1 h2 ?_
      rw [e2, e1]
      field_simp
    · obtain ⟨δ, e1, h1⟩ := fl_rel R (cholRest fl ord a L i j / L j j)
      refine fin (δ := δ) (ε := 0) h1 (by simp [u64_pos'.le]) ?_
      rw [e1]
      field_simp
      ring

/-- The product of the rows against the matrix, entry by entry. -/
theorem CholDone.entry (R : Rounding fl) (ho : IsCholOrder ord) (D : CholDone fl ord recip a L n) {i j : Nat} (hj : j < n) (hij : j ≤ i) :
    |(∑ k ∈ Finset.range (j + 1), L i k * L j k) - a i j| ≤
      grow (n + 2) * (|a i j| + ∑ k ∈ Finset.range j, |L i k * L j k|) := by
  have h1 := cholRest_err (a := a) (L := L) R ho i j
  have h2 := D.back R hj hij
  have hM : 0 ≤ |a i j| + ∑ k ∈ Finset.range j, |L i k * L j k| :=
    add_nonneg (abs_nonneg _) (Finset.sum_nonneg fun k _ => abs_nonneg _)
  have h0 : |a i j - ∑ k ∈ Finset.range j, L i k * L j k| ≤ |a i j| + ∑ k ∈ Finset.range j, |L i k * L j k| :=
    (abs_sub _ _).trans (add_le_add (le_refl _) (Finset.abs_sum_le_sum_abs _ _))
  generalize cholRest fl ord a L i j = r at *
  rw [Finset.sum_range_succ]
  generalize (∑ k ∈ Finset.range j, L i k * L j k) = S at *
  generalize |a i j| + ∑ k ∈ Finset.range j, |L i k * L j k| = M at *
  have h3 : |r| ≤ (1 + grow (j + 1)) * M := by
    have := abs_add_le (r - (a i j - S)) (a i j - S)
    rw [sub_add_cancel] at this
    linarith
  have h4 : grow 2 * |r| ≤ grow 2 * ((1 + grow (j + 1)) * M) := mul_le_mul_of_nonneg_left h3 (grow_nonneg 2)
  have h5 : grow 2 * (1 + grow (j + 1)) + grow (j + 1) = grow (j + 3) := by
    unfold grow
    ring
  have h6 : grow (j + 3) * M ≤ grow (n + 2) * M := mul_le_mul_of_nonneg_right (grow_mono (by omega)) hM
  have h7 := abs_add_le (L i j * L j j - r) (r - (a i j - S))
  rw [show L i j * L j j - r + (r - (a i j - S)) = S + L i j * L j j - a i j by ring] at h7
  have h8 : grow 2 * ((1 + grow (j + 1)) * M) + grow (j + 1) * M = grow (j + 3) * M := by rw [← h5]; ring
  linarith

end Verif.Sim
