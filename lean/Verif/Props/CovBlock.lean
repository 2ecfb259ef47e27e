import Verif.Model.Cov
import Mathlib.Algebra.Order.Chebyshev
import Mathlib.Tactic.Linarith
import Mathlib.Tactic.NormNum
import Mathlib.Tactic.LinearCombination

/-!
# C39: block-diagonal correlation matrices
-/

namespace Verif.Cov

/-- The block that contains position `a`. -/
def blockOf : List Nat → Nat → Option Nat
  | [], _ => none
  | s :: ss, a => if a < s then some 0 else (blockOf ss (a - s)).map (· + 1)

/-- Positive semidefiniteness of a matrix given by its size and entries. -/
def PSD (N : Nat) (m : Nat → Nat → ℝ) : Prop :=
  ∀ x : Nat → ℝ, 0 ≤ ∑ a ∈ Finset.range N, ∑ b ∈ Finset.range N, x a * m a b * x b

/-- The loop writes only from position `i` on. -/
theorem blockLoop_below (bs : List (Nat × ℝ)) : ∀ (m : Nat → Nat → ℝ) (i a b : Nat), a < i ∨ b < i →
    blockLoop m i bs a b = m a b := by
  induction bs with
  | nil => intros; rfl
  | cons p bs ih =>
    intro m i a b h
    obtain ⟨s, c⟩ := p
    rw [blockLoop, ih _ _ _ _ (by omega)]
    unfold setBlock
    rw [if_neg (by omega)]

/-- The loop started at `i` on zeros, in recursive form. -/
theorem blockLoop_shift (bs : List (Nat × ℝ)) : ∀ (m : Nat → Nat → ℝ) (i a b : Nat),
    (∀ a b, i ≤ a → i ≤ b → m a b = 0) →
    blockLoop m i bs (i + a) (i + b) = blockLoop (fun _ _ => 0) 0 bs a b := by
  induction bs with
  | nil => intro m i a b h; exact h _ _ (by omega) (by omega)
  | cons p bs ih =>
    intro m i a b h
    obtain ⟨s, c⟩ := p
    rw [blockLoop, blockLoop, Nat.zero_add]
    by_cases hab : a < s ∨ b < s
    · rw [blockLoop_below _ _ _ _ _ (by omega), blockLoop_below _ _ _ _ _ hab]
      unfold setBlock
      by_cases h2 : a < s ∧ b < s
      · rw [if_pos (by omega), if_pos (by omega)]
      · rw [if_neg (by omega), if_neg (by omega), h _ _ (by omega) (by omega)]
    · have h1 := ih (setBlock m i s c) (i + s) (a - s) (b - s) (fun x y hx hy => by
        unfold setBlock
        rw [if_neg (by omega), h _ _ (by omega) (by omega)])
      have h2 := ih (setBlock (fun _ _ => 0) 0 s c) s (a - s) (b - s) (fun x y hx hy => by
        unfold setBlock
        rw [if_neg (by omega)])
      have e1 : i + s + (a - s) = i + a := by omega
      have e2 : i + s + (b - s) = i + b := by omega
      have e3 : s + (a - s) = a := by omega
      have e4 : s + (b - s) = b := by omega
      rw [e1, e2] at h1
      rw [e3, e4] at h2
      rw [h1, h2]

/-- The entries off the diagonal, block by block. -/
theorem blockLoop_cons (s : Nat) (c : ℝ) (bs : List (Nat × ℝ)) (a b : Nat) :
    blockLoop (fun _ _ => 0) 0 ((s, c) :: bs) a b =
    if a < s ∧ b < s then c else if s ≤ a ∧ s ≤ b then blockLoop (fun _ _ => 0) 0 bs (a - s) (b - s) else 0 := by
  rw [blockLoop, Nat.zero_add]
  by_cases h : a < s ∨ b < s
  · rw [blockLoop_below _ _ _ _ _ h]
    unfold setBlock
    by_cases h2 : a < s ∧ b < s
    · rw [if_pos (by omega), if_pos h2]
    · rw [if_neg (by omega), if_neg h2, if_neg (by omega)]
  · rw [if_neg (by omega), if_pos (by omega)]
    have h2 := blockLoop_shift bs (setBlock (fun _ _ => 0) 0 s c) s (a - s) (b - s) (fun x y hx hy => by
      unfold setBlock
      rw [if_neg (by omega)])
    have e3 : s + (a - s) = a := by omega
    have e4 : s + (b - s) = b := by omega
    rwa [e3, e4] at h2

/-- Entries in terms of blocks. -/
theorem blockLoop_blockOf : ∀ (sizes : List Nat) (cors : List ℝ), sizes.length = cors.length → ∀ a b : Nat,
    blockLoop (fun _ _ => 0) 0 (sizes.zip cors) a b =
      if blockOf sizes a = blockOf sizes b then ((blockOf sizes a).bind fun k => cors[k]?).getD 0 else 0 := by
  intro sizes
  induction sizes with
  | nil => intro cors _ a b; simp [blockLoop, blockOf]
  | cons s ss ih =>
    intro cors hl a b
    cases cors with
    | nil => simp at hl
    | cons c cs =>
      rw [List.zip_cons_cons, blockLoop_cons]
      have ep : ∀ x, x < s → blockOf (s :: ss) x = some 0 := fun x hx => by rw [blockOf, if_pos hx]
      have en : ∀ x, ¬ x < s → blockOf (s :: ss) x = (blockOf ss (x - s)).map (· + 1) := fun x hx => by
        rw [blockOf, if_neg hx]
      by_cases ha : a < s <;> by_cases hb : b < s
      · rw [if_pos ⟨ha, hb⟩, ep a ha, ep b hb, if_pos rfl]; simp
      · rw [if_neg (by omega), if_neg (by omega), ep a ha, en b hb, if_neg]
        cases blockOf ss (b - s) <;> simp
      · rw [if_neg (by omega), if_neg (by omega), en a ha, ep b hb, if_neg]
        cases blockOf ss (a - s) <;> simp
      · rw [if_neg (by omega), if_pos (by omega), en a ha, en b hb, ih cs (by simpa using hl)]
        cases h1 : blockOf ss (a - s) <;> cases h2 : blockOf ss (b - s) <;> simp

/-- C39. The size is the sum of the block sizes, the diagonal is one, two different assets of block `k` have the
correlation `cors[k]`, and assets of different blocks are uncorrelated; the matrix is symmetric. -/
theorem block_entries {sizes : List Nat} {cors : List ℝ} {N : Nat} {m : Nat → Nat → ℝ}
    (h : corBlockDiagonal sizes cors = .ok (N, m)) : N = sizes.sum ∧ ∀ a b, a < N → b < N →
      (m a a = 1 ∧ m a b = m b a ∧ (a ≠ b → ∀ k, blockOf sizes a = some k → blockOf sizes b = some k →
        some (m a b) = cors[k]?) ∧ (blockOf sizes a ≠ blockOf sizes b → m a b = 0)) := by
  unfold corBlockDiagonal at h
  by_cases hl : sizes.length ≠ cors.length
  · rw [if_pos hl] at h; cases h
  rw [if_neg hl] at h
  push Not at hl
  by_cases h0 : sizes.length = 0
  · rw [if_pos h0] at h
    cases h
    rw [List.length_eq_zero_iff] at h0
    subst h0
    exact ⟨rfl, fun a b ha => absurd ha (by omega)⟩
  rw [if_neg h0] at h
  cases h
  refine ⟨rfl, fun a b ha hb => ⟨if_pos rfl, ?_, ?_, ?_⟩⟩
  · dsimp only
    by_cases hab : a = b
    · subst hab; rfl
    · rw [if_neg hab, if_neg (Ne.symm hab), blockLoop_blockOf _ _ hl, blockLoop_blockOf _ _ hl]
      by_cases hb : blockOf sizes a = blockOf sizes b
      · rw [if_pos hb, if_pos hb.symm, hb]
      · rw [if_neg hb, if_neg (Ne.symm hb)]
  · intro hab k hka hkb
    dsimp only
    rw [if_neg hab, blockLoop_blockOf _ _ hl, hka, hkb, if_pos rfl]
    have hk : k < cors.length := by
      rw [← hl]
      clear hkb ha hb hl h0 hab
      induction sizes generalizing a k with
      | nil => simp [blockOf] at hka
      | cons s ss ih =>
        rw [blockOf] at hka
        split at hka
        · cases hka; simp
        · cases h1 : blockOf ss (a - s) with
          | none => rw [h1] at hka; simp at hka
          | some j =>
            rw [h1] at hka
            simp at hka
            have := ih _ j h1
            simp
            omega
    simp [hk]
  · intro hne
    dsimp only
    rw [if_neg (fun hab => hne (by rw [hab])), blockLoop_blockOf _ _ hl, if_neg hne]

/-- C39. Every position below the size lies in some block. -/
theorem blockOf_total (sizes : List Nat) (a : Nat) : a < sizes.sum ↔ ∃ k, blockOf sizes a = some k := by
  induction sizes generalizing a with
  | nil => simp [blockOf]
  | cons s ss ih =>
    rw [List.sum_cons, blockOf]
    by_cases h : a < s
    · rw [if_pos h]
      exact ⟨fun _ => ⟨0, rfl⟩, fun _ => by omega⟩
    · rw [if_neg h]
      have := ih (a - s)
      constructor
      · intro h2
        obtain ⟨k, hk⟩ := this.mp (by omega)
        exact ⟨k + 1, by rw [hk]; rfl⟩
      · rintro ⟨k, hk⟩
        cases h1 : blockOf ss (a - s) with
        | none => rw [h1] at hk; simp at hk
        | some j =>
          have := this.mpr ⟨j, h1⟩
          omega

/-- A block is admissible. -/
def BlockOk (s : Nat) (c : ℝ) : Prop := 2 ≤ s → c ≤ 1 ∧ 0 ≤ 1 + ((s : ℝ) - 1) * c

/-- The quadratic form of one block. -/
theorem block_quad (s : Nat) (c : ℝ) (x : Nat → ℝ) :
    ∑ a ∈ Finset.range s, ∑ b ∈ Finset.range s, x a * (if a = b then 1 else c) * x b =
    (1 - c) * ∑ a ∈ Finset.range s, x a ^ 2 + c * (∑ a ∈ Finset.range s, x a) ^ 2 := by
  have : ∀ a ∈ Finset.range s, ∑ b ∈ Finset.range s, x a * (if a = b then 1 else c) * x b =
      (1 - c) * x a ^ 2 + c * (x a * ∑ b ∈ Finset.range s, x b) := by
    intro a ha
    have e : ∀ b ∈ Finset.range s, x a * (if a = b then 1 else c) * x b =
        (if a = b then (1 - c) * x a ^ 2 else 0) + c * (x a * x b) := by
      intro b _
      by_cases h : a = b
      · subst h; rw [if_pos rfl, if_pos rfl]; ring
      · rw [if_neg h, if_neg h]; ring
    rw [Finset.sum_congr rfl e, Finset.sum_add_distrib, Finset.sum_ite_eq, if_pos ha, ← Finset.mul_sum,
      ← Finset.mul_sum]
  rw [Finset.sum_congr rfl this, Finset.sum_add_distrib, ← Finset.mul_sum, ← Finset.mul_sum, ← Finset.sum_mul, pow_two]

/-- A single block is positive semidefinite exactly for correlations between `-1/(s-1)` and `1`. -/
theorem block_psd_iff (s : Nat) (c : ℝ) :
    (∀ x : Nat → ℝ, 0 ≤ (1 - c) * ∑ a ∈ Finset.range s, x a ^ 2 + c * (∑ a ∈ Finset.range s, x a) ^ 2) ↔ BlockOk s c := by
  constructor
  · intro h hs
    constructor
    · have := h fun a => if a = 0 then 1 else if a = 1 then -1 else 0
      have e1 : ∑ a ∈ Finset.range s, ((fun a : Nat => if a = 0 then (1 : ℝ) else if a = 1 then -1 else 0) a) ^ 2 = 2 := by
        obtain ⟨t, rfl⟩ : ∃ t, s = 2 + t := ⟨s - 2, by omega⟩
        rw [Finset.sum_range_add, Finset.sum_eq_zero (s := Finset.range t)]
        · simp [Finset.sum_range_succ]; norm_num
        · intro i _
          dsimp only
          rw [if_neg (by omega), if_neg (by omega)]; simp
      have e2 : ∑ a ∈ Finset.range s, ((fun a : Nat => if a = 0 then (1 : ℝ) else if a = 1 then -1 else 0) a) = 0 := by
        obtain ⟨t, rfl⟩ : ∃ t, s = 2 + t := ⟨s - 2, by omega⟩
        rw [Finset.sum_range_add, Finset.sum_eq_zero (s := Finset.range t)]
        · simp [Finset.sum_range_succ]
        · intro i _
          rw [if_neg (by omega), if_neg (by omega)]
      rw [e1, e2] at this
      linarith
    · have := h fun _ => 1
      simp only [one_pow, Finset.sum_const, Finset.card_range, nsmul_eq_mul, mul_one] at this
      have hs0 : (0 : ℝ) < s := by exact_mod_cast (by omega : 0 < s)
      have h2 : 0 ≤ (s : ℝ) * (1 + (s - 1) * c) := by linarith
      exact nonneg_of_mul_nonneg_right h2 hs0
  · intro h x
    by_cases hs : 2 ≤ s
    · obtain ⟨h1, h2⟩ := h hs
      have hq : 0 ≤ ∑ a ∈ Finset.range s, x a ^ 2 := Finset.sum_nonneg fun a _ => sq_nonneg _
      by_cases hc : 0 ≤ c
      · have := mul_nonneg hc (sq_nonneg (∑ a ∈ Finset.range s, x a))
        have := mul_nonneg (sub_nonneg.mpr h1) hq
        linarith
      · have hcs := sq_sum_le_card_mul_sum_sq (s := Finset.range s) (f := x)
        rw [Finset.card_range] at hcs
        have h3 : c * (s * ∑ a ∈ Finset.range s, x a ^ 2) ≤ c * (∑ a ∈ Finset.range s, x a) ^ 2 :=
          mul_le_mul_of_nonpos_left hcs (by linarith)
        have h4 := mul_nonneg h2 hq
        nlinarith
    · interval_cases s
      · simp
      · simp
        nlinarith [sq_nonneg (x 0)]

theorem loop_psd_iff : ∀ (bs : List (Nat × ℝ)),
    PSD (bs.map (·.1)).sum (fun a b => if a = b then 1 else blockLoop (fun _ _ => 0) 0 bs a b) ↔ ∀ p ∈ bs, BlockOk p.1 p.2 := by
  intro bs
  induction bs with
  | nil => simp [PSD]
  | cons p bs ih =>
    obtain ⟨s, c⟩ := p
    set M := (bs.map (·.1)).sum with hM
    have hq : ∀ x : Nat → ℝ, ∑ a ∈ Finset.range (s + M), ∑ b ∈ Finset.range (s + M),
        x a * (if a = b then 1 else blockLoop (fun _ _ => 0) 0 ((s, c) :: bs) a b) * x b =
        ((1 - c) * ∑ a ∈ Finset.range s, x a ^ 2 + c * (∑ a ∈ Finset.range s, x a) ^ 2) +
        ∑ a ∈ Finset.range M, ∑ b ∈ Finset.range M,
          x (s + a) * (if a = b then 1 else blockLoop (fun _ _ => 0) 0 bs a b) * x (s + b) := by
      intro x
      rw [Finset.sum_range_add, ← block_quad]
      congr 1
      · refine Finset.sum_congr rfl fun a ha => ?_
        rw [Finset.sum_range_add, Finset.sum_eq_zero (s := Finset.range M), add_zero]
        · refine Finset.sum_congr rfl fun b hb => ?_
          rw [blockLoop_cons, if_pos (c := a < s ∧ b < s) ⟨Finset.mem_range.mp ha, Finset.mem_range.mp hb⟩]
        · intro b _
          have := Finset.mem_range.mp ha
          rw [blockLoop_cons, if_neg (by omega), if_neg (by omega), if_neg (by omega)]
          ring
      · refine Finset.sum_congr rfl fun a _ => ?_
        rw [Finset.sum_range_add, Finset.sum_eq_zero (s := Finset.range s), zero_add]
        · refine Finset.sum_congr rfl fun b _ => ?_
          rw [blockLoop_cons, if_neg (c := s + a < s ∧ s + b < s) (by omega), if_pos (c := s ≤ s + a ∧ s ≤ s + b) (by omega)]
          simp
        · intro b hb
          have := Finset.mem_range.mp hb
          rw [blockLoop_cons, if_neg (by omega), if_neg (by omega), if_neg (by omega)]
          ring
    have hsum : (((s, c) :: bs).map (·.1)).sum = s + M := by simp [hM]
    rw [hsum]
    constructor
    · intro h p hp
      rcases List.mem_cons.mp hp with rfl | hp
      · rw [← block_psd_iff]
        intro x
        have := h fun a => if a < s then x a else 0
        rw [hq, Finset.sum_eq_zero (s := Finset.range M), add_zero] at this
        · have e1 : ∑ a ∈ Finset.range s, (if a < s then x a else 0) ^ 2 = ∑ a ∈ Finset.range s, x a ^ 2 :=
            Finset.sum_congr rfl fun a ha => by rw [if_pos (Finset.mem_range.mp ha)]
          have e2 : ∑ a ∈ Finset.range s, (if a < s then x a else 0) = ∑ a ∈ Finset.range s, x a :=
            Finset.sum_congr rfl fun a ha => by rw [if_pos (Finset.mem_range.mp ha)]
          rw [e1, e2] at this
          exact this
        · intro a _
          refine Finset.sum_eq_zero fun b _ => ?_
          rw [if_neg (by omega), zero_mul, zero_mul]
      · refine ih.mp ?_ p hp
        intro x
        have := h fun a => if a < s then 0 else x (a - s)
        rw [hq] at this
        rw [Finset.sum_eq_zero (s := Finset.range s) (f := fun a => (if a < s then 0 else x (a - s)) ^ 2)
          (fun a ha => by rw [if_pos (Finset.mem_range.mp ha)]; simp),
          Finset.sum_eq_zero (s := Finset.range s) (f := fun a => (if a < s then 0 else x (a - s)))
          (fun a ha => by rw [if_pos (Finset.mem_range.mp ha)])] at this
        simpa using this
    · intro h x
      rw [hq]
      refine add_nonneg ((block_psd_iff s c).mpr (h (s, c) (by simp)) x) ?_
      exact (ih.mpr fun p hp => h p (by simp [hp])) fun a => x (s + a)

/-- C39. The matrix is a correlation matrix (positive semidefinite) exactly if every block of at least two assets
has a correlation between `-1/(size-1)` and `1`. -/
theorem block_valid_iff {sizes : List Nat} {cors : List ℝ} {N : Nat} {m : Nat → Nat → ℝ}
    (h : corBlockDiagonal sizes cors = .ok (N, m)) :
    PSD N m ↔ ∀ (k : Nat) (s : Nat) (c : ℝ), sizes[k]? = some s → cors[k]? = some c → 2 ≤ s →
      c ≤ 1 ∧ -1 ≤ ((s : ℝ) - 1) * c := by
  have hl : sizes.length = cors.length := by
    unfold corBlockDiagonal at h
    by_contra hne
    rw [if_pos hne] at h
    cases h
  have key : (∀ p ∈ sizes.zip cors, BlockOk p.1 p.2) ↔ ∀ (k : Nat) (s : Nat) (c : ℝ), sizes[k]? = some s →
      cors[k]? = some c → 2 ≤ s → c ≤ 1 ∧ -1 ≤ ((s : ℝ) - 1) * c := by
    constructor
    · intro h k s c hs hc h2
      have hm : (s, c) ∈ sizes.zip cors := by
        apply List.mem_of_getElem? (i := k)
        rw [List.getElem?_zip_eq_some]
        exact ⟨hs, hc⟩
      obtain ⟨h3, h4⟩ := h _ hm h2
      exact ⟨h3, by linarith⟩
    · intro h p hp h2
      obtain ⟨k, hk⟩ := List.mem_iff_getElem?.mp hp
      rw [List.getElem?_zip_eq_some] at hk
      obtain ⟨h3, h4⟩ := h k _ _ hk.1 hk.2 h2
      exact ⟨h3, by linarith⟩
  rw [← key, ← loop_psd_iff]
  unfold corBlockDiagonal at h
  rw [if_neg (by simpa using hl)] at h
  by_cases h0 : sizes.length = 0
  · rw [if_pos h0] at h
    cases h
    rw [List.length_eq_zero_iff] at h0
    subst h0
    simp [PSD]
  · rw [if_neg h0] at h
    cases h
    rw [List.map_fst_zip (by omega)]

/-- C39. It is always valid for correlations in `[0, 1]`. -/
theorem block_valid {sizes : List Nat} {cors : List ℝ} {N : Nat} {m : Nat → Nat → ℝ}
    (h : corBlockDiagonal sizes cors = .ok (N, m)) (hc : ∀ c ∈ cors, 0 ≤ c ∧ c ≤ 1) : PSD N m := by
  rw [block_valid_iff h]
  intro k s c _ hk h2
  obtain ⟨h3, h4⟩ := hc c (List.mem_of_getElem? hk)
  refine ⟨h4, ?_⟩
  have : (2 : ℝ) ≤ s := by exact_mod_cast h2
  nlinarith

/-- C39, limit. The example of the docstring (sizes 3, 7, 12 with correlations 0.7, 0.3, -0.2) is not a
correlation matrix. -/
theorem doc_block_invalid : ∃ m, corBlockDiagonal [3, 7, 12] [7 / 10, 3 / 10, -2 / 10] = .ok (22, m) ∧ ¬ PSD 22 m := by
  refine ⟨_, rfl, fun h => ?_⟩
  have := (block_valid_iff (sizes := [3, 7, 12]) (cors := [7 / 10, 3 / 10, -2 / 10]) rfl).mp h 2 12 (-2 / 10) rfl rfl (by norm_num)
  norm_num at this

/-- C39. It fails exactly if the two lists differ in length. -/
theorem block_fails_iff (sizes : List Nat) (cors : List ℝ) :
    corBlockDiagonal sizes cors = .error .valueError ↔ sizes.length ≠ cors.length := by
  unfold corBlockDiagonal
  constructor
  · intro h
    by_contra hl
    rw [if_neg (by simpa using hl)] at h
    split at h <;> cases h
  · intro h; rw [if_pos h]

end Verif.Cov
