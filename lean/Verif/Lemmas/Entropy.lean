import Mathlib.Analysis.SpecialFunctions.Log.NegMulLog
import Mathlib.Algebra.BigOperators.Field
import Mathlib.Tactic.Linarith
import Mathlib.Tactic.FieldSimp
import Mathlib.Tactic.Positivity

/-!
# Entropy of labels on a finite set

`Ω` is a finite set with the uniform distribution, `f : Ω → α` attaches labels.
-/

namespace Verif.Ent

open Finset

variable {Ω α β γ : Type} [Fintype Ω] [DecidableEq α] [DecidableEq β] [DecidableEq γ]

/-- How many points have the label `a`. -/
def cnt (f : Ω → α) (a : α) : Nat := #{ω | f ω = a}

/-- The entropy. -/
noncomputable def H (f : Ω → α) : ℝ := (∑ ω, Real.log (Fintype.card Ω / cnt f (f ω))) / Fintype.card Ω

theorem cnt_pos (f : Ω → α) (ω : Ω) : 0 < cnt f (f ω) := card_pos.mpr ⟨ω, by simp⟩

theorem cnt_pos' (f : Ω → α) (ω : Ω) : (0 : ℝ) < cnt f (f ω) := by exact_mod_cast cnt_pos f ω

theorem card_pos' (ω : Ω) : (0 : ℝ) < Fintype.card Ω := by exact_mod_cast Fintype.card_pos_iff.mpr ⟨ω⟩

theorem sum_labels (f : Ω → α) (F : α → ℝ) : ∑ ω, F (f ω) = ∑ a ∈ univ.image f, (cnt f a : ℝ) * F a := by
  rw [Finset.sum_comp F f]
  simp [cnt, nsmul_eq_mul]

theorem sum_cnt (f : Ω → α) : ∑ a ∈ univ.image f, (cnt f a : ℝ) = Fintype.card Ω := by
  have := sum_labels f fun _ => 1
  simp only [mul_one] at this
  rw [← this]; simp

theorem cnt_eq_zero {f : Ω → α} {a : α} (h : a ∉ univ.image f) : cnt f a = 0 := by
  rw [cnt, card_eq_zero, filter_eq_empty_iff]
  intro ω _ h'
  exact h (mem_image.mpr ⟨ω, mem_univ _, h'⟩)

theorem sum_cnt_of_subset (f : Ω → α) {s : Finset α} (h : univ.image f ⊆ s) : ∑ a ∈ s, (cnt f a : ℝ) = Fintype.card Ω := by
  rw [← sum_cnt f]
  exact (sum_subset h fun a _ ha => by rw [cnt_eq_zero ha]; simp).symm

/-- The marginal of a pair of labels. -/
theorem sum_cnt_pair_left (f : Ω → α) (g : Ω → β) (b : β) :
    ∑ a ∈ univ.image f, (cnt (fun ω => (f ω, g ω)) (a, b) : ℝ) = cnt g b := by
  have : cnt g b = ∑ a ∈ univ.image f, cnt (fun ω => (f ω, g ω)) (a, b) := by
    unfold cnt
    rw [card_eq_sum_card_fiberwise (f := f) (t := univ.image f) fun ω _ => by simp]
    refine sum_congr rfl fun a _ => ?_
    rw [filter_filter]
    congr 1
    ext ω
    simp [and_comm]
  rw [this]; push_cast; rfl

theorem sum_cnt_pair_right (f : Ω → α) (g : Ω → β) (a : α) :
    ∑ b ∈ univ.image g, (cnt (fun ω => (f ω, g ω)) (a, b) : ℝ) = cnt f a := by
  have : cnt f a = ∑ b ∈ univ.image g, cnt (fun ω => (f ω, g ω)) (a, b) := by
    unfold cnt
    rw [card_eq_sum_card_fiberwise (f := g) (t := univ.image g) fun ω _ => by simp]
    refine sum_congr rfl fun b _ => ?_
    rw [filter_filter]
    congr 1
    ext ω
    simp
  rw [this]; push_cast; rfl

/-- A finer label has a smaller count. -/
theorem cnt_le_of_imp {f : Ω → α} {g : Ω → β} {ω : Ω} (h : ∀ ω', f ω' = f ω → g ω' = g ω) :
    cnt f (f ω) ≤ cnt g (g ω) :=
  card_le_card fun ω' hω => by simp only [mem_filter, mem_univ, true_and] at *; exact h ω' hω

theorem H_nonneg (f : Ω → α) : 0 ≤ H f := by
  refine div_nonneg (sum_nonneg fun ω _ => Real.log_nonneg ?_) (Nat.cast_nonneg _)
  rw [one_le_div (cnt_pos' f ω)]
  exact_mod_cast card_le_univ _

/-- A function of the labels has no larger entropy. -/
theorem H_mono {f : Ω → α} {g : Ω → β} (h : ∀ ω ω', f ω = f ω' → g ω = g ω') : H g ≤ H f := by
  unfold H
  refine div_le_div_of_nonneg_right (sum_le_sum fun ω _ => ?_) (Nat.cast_nonneg _)
  apply Real.log_le_log
  · exact div_pos (card_pos' ω) (cnt_pos' g ω)
  · apply div_le_div_of_nonneg_left (Nat.cast_nonneg _) (cnt_pos' f ω)
    exact_mod_cast cnt_le_of_imp fun ω' h' => h ω' ω h'

/-- Labels with the same partition have the same entropy. -/
theorem H_congr {f : Ω → α} {g : Ω → β} (h : ∀ ω ω', f ω = f ω' ↔ g ω = g ω') : H f = H g :=
  le_antisymm (H_mono fun ω ω' => (h ω ω').mpr) (H_mono fun ω ω' => (h ω ω').mp)

/-- Equal entropies along a coarsening mean equal partitions. -/
theorem H_eq_imp {f : Ω → α} {g : Ω → β} (h : ∀ ω ω', f ω = f ω' → g ω = g ω') (he : H f ≤ H g) :
    ∀ ω ω', g ω = g ω' → f ω = f ω' := by
  intro ω ω' hg
  by_contra hf
  have hn := card_pos' ω
  have hlt : ∑ ω, Real.log (Fintype.card Ω / cnt g (g ω)) < ∑ ω, Real.log (Fintype.card Ω / cnt f (f ω)) := by
    refine sum_lt_sum (fun ω _ => ?_) ⟨ω, mem_univ _, ?_⟩
    · apply Real.log_le_log
      · exact div_pos hn (cnt_pos' g ω)
      · apply div_le_div_of_nonneg_left hn.le (cnt_pos' f ω)
        exact_mod_cast cnt_le_of_imp fun ω' h' => h ω' ω h'
    · apply Real.log_lt_log
      · exact div_pos hn (cnt_pos' g ω)
      · apply div_lt_div_of_pos_left hn (cnt_pos' f ω)
        have : cnt f (f ω) < cnt g (g ω) := by
          refine card_lt_card ((ssubset_iff_of_subset fun a ha => ?_).mpr ⟨ω', ?_, ?_⟩)
          · simp only [mem_filter, mem_univ, true_and] at *; exact h _ _ ha
          · simp [hg]
          · simp only [mem_filter, mem_univ, true_and]; exact fun h' => hf h'.symm
        exact_mod_cast this
  unfold H at he
  rw [div_le_div_iff_of_pos_right hn] at he
  linarith

/-- The counting inequality behind strong subadditivity. -/
theorem sum_ratio_le (f : Ω → α) (g : Ω → β) (h : Ω → γ) :
    ∑ ω, (cnt (fun ω => (f ω, g ω)) (f ω, g ω) * cnt (fun ω => (g ω, h ω)) (g ω, h ω) : ℝ) /
      (cnt (fun ω => (f ω, g ω, h ω)) (f ω, g ω, h ω) * cnt g (g ω)) ≤ Fintype.card Ω := by
  set t : Ω → α × β × γ := fun ω => (f ω, g ω, h ω) with ht
  set F : α × β × γ → ℝ := fun p => (cnt (fun ω => (f ω, g ω)) (p.1, p.2.1) : ℝ) *
    cnt (fun ω => (g ω, h ω)) (p.2.1, p.2.2) / cnt g p.2.1 with hF
  have hF0 : ∀ p, 0 ≤ F p := fun p => by positivity
  have e1 : ∑ ω, (cnt (fun ω => (f ω, g ω)) (f ω, g ω) * cnt (fun ω => (g ω, h ω)) (g ω, h ω) : ℝ) /
      (cnt t (f ω, g ω, h ω) * cnt g (g ω)) = ∑ p ∈ univ.image t, F p := by
    have := sum_labels t fun p => F p / cnt t p
    have e : ∑ ω, (cnt (fun ω => (f ω, g ω)) (f ω, g ω) * cnt (fun ω => (g ω, h ω)) (g ω, h ω) : ℝ) /
      (cnt t (f ω, g ω, h ω) * cnt g (g ω)) = ∑ ω, F (t ω) / cnt t (t ω) := by
      refine sum_congr rfl fun ω _ => ?_
      rw [hF]
      dsimp only
      rw [div_div, mul_comm (cnt t (f ω, g ω, h ω) : ℝ)]
    rw [e, this]
    refine sum_congr rfl fun p hp => ?_
    obtain ⟨ω, -, rfl⟩ := mem_image.mp hp
    have := (cnt_pos' t ω).ne'
    field_simp
  rw [e1]
  have hsub : univ.image t ⊆ univ.image f ×ˢ (univ.image g ×ˢ univ.image h) := by
    intro p hp
    obtain ⟨ω, -, rfl⟩ := mem_image.mp hp
    simp [ht]
  refine (sum_le_sum_of_subset_of_nonneg hsub fun p _ _ => hF0 p).trans ?_
  rw [sum_product]
  have e2 : ∑ a ∈ univ.image f, ∑ q ∈ univ.image g ×ˢ univ.image h, F (a, q) =
      ∑ b ∈ univ.image g, ∑ a ∈ univ.image f, ∑ c ∈ univ.image h, F (a, b, c) := by
    rw [sum_comm, sum_product]
    refine sum_congr rfl fun b _ => ?_
    rw [sum_comm]
  rw [e2, ← sum_cnt g]
  refine sum_le_sum fun b hb => ?_
  have e3 : ∑ a ∈ univ.image f, ∑ c ∈ univ.image h, F (a, b, c) = (cnt g b : ℝ) * cnt g b / cnt g b := by
    have : ∀ a ∈ univ.image f, ∑ c ∈ univ.image h, F (a, b, c) =
        (cnt (fun ω => (f ω, g ω)) (a, b) : ℝ) * cnt g b / cnt g b := by
      intro a _
      rw [hF]
      dsimp only
      rw [← sum_div, ← mul_sum, sum_cnt_pair_right]
    rw [sum_congr rfl this, ← sum_div, ← sum_mul, sum_cnt_pair_left]
  obtain ⟨ω, -, rfl⟩ := mem_image.mp hb
  rw [e3, mul_div_assoc, div_self (cnt_pos' g ω).ne', mul_one]

/-- Strong subadditivity. -/
theorem H_submodular (f : Ω → α) (g : Ω → β) (h : Ω → γ) :
    H (fun ω => (f ω, g ω, h ω)) + H g ≤ H (fun ω => (f ω, g ω)) + H (fun ω => (g ω, h ω)) := by
  rcases isEmpty_or_nonempty Ω with hΩ | ⟨⟨ω0⟩⟩
  · simp [H]
  have hn := card_pos' ω0
  unfold H
  rw [← add_div, ← add_div, div_le_div_iff_of_pos_right hn, ← sum_add_distrib, ← sum_add_distrib, ← sub_nonneg,
    ← sum_sub_distrib]
  refine le_trans ?_ (sum_le_sum (f := fun ω => 1 - (cnt (fun ω => (f ω, g ω)) (f ω, g ω) *
    cnt (fun ω => (g ω, h ω)) (g ω, h ω) : ℝ) /
      (cnt (fun ω => (f ω, g ω, h ω)) (f ω, g ω, h ω) * cnt g (g ω))) fun ω _ => ?_)
  · rw [sum_sub_distrib]
    have := sum_ratio_le f g h
    simp only [sum_const, card_univ, nsmul_eq_mul, mul_one]
    linarith
  · have p1 := cnt_pos' (fun ω => (f ω, g ω)) ω
    have p2 := cnt_pos' (fun ω => (g ω, h ω)) ω
    have p3 := cnt_pos' (fun ω => (f ω, g ω, h ω)) ω
    have p4 := cnt_pos' g ω
    have := Real.one_sub_inv_le_log_of_pos (x := (cnt (fun ω => (f ω, g ω, h ω)) (f ω, g ω, h ω) * cnt g (g ω) : ℝ) /
      (cnt (fun ω => (f ω, g ω)) (f ω, g ω) * cnt (fun ω => (g ω, h ω)) (g ω, h ω))) (by positivity)
    rw [inv_div] at this
    refine this.trans (le_of_eq ?_)
    rw [Real.log_div (by positivity) (by positivity), Real.log_mul (by positivity) (by positivity),
      Real.log_mul (by positivity) (by positivity), Real.log_div hn.ne' (by positivity),
      Real.log_div hn.ne' (by positivity), Real.log_div hn.ne' (by positivity), Real.log_div hn.ne' (by positivity)]
    ring

/-- Subadditivity. -/
theorem H_pair_le (f : Ω → α) (h : Ω → γ) : H (fun ω => (f ω, h ω)) ≤ H f + H h := by
  have := H_submodular f (fun _ => ()) h
  have e0 : H (fun _ : Ω => ()) = 0 := by
    unfold H
    rw [div_eq_zero_iff]
    left
    refine sum_eq_zero fun ω _ => ?_
    have : cnt (fun _ : Ω => ()) () = Fintype.card Ω := by simp [cnt]
    rw [this, div_self (card_pos' ω).ne', Real.log_one]
  rw [e0, H_congr (g := fun ω => (f ω, h ω)) (by intro ω ω'; simp),
    H_congr (f := fun ω => (f ω, ())) (g := f) (by intro ω ω'; simp),
    H_congr (f := fun ω => ((), h ω)) (g := h) (by intro ω ω'; simp)] at this
  linarith

theorem H_le_pair_left (f : Ω → α) (g : Ω → β) : H f ≤ H (fun ω => (f ω, g ω)) :=
  H_mono fun _ _ h => (Prod.mk.inj h).1

theorem H_le_pair_right (f : Ω → α) (g : Ω → β) : H g ≤ H (fun ω => (f ω, g ω)) :=
  H_mono fun _ _ h => (Prod.mk.inj h).2

/-- The entropy is at most the logarithm of the number of labels. -/
theorem H_le_log (f : Ω → α) {s : Finset α} (hs : ∀ ω, f ω ∈ s) : H f ≤ Real.log #s := by
  rcases isEmpty_or_nonempty Ω with hΩ | ⟨⟨ω0⟩⟩
  · simp only [H, Finset.univ_eq_empty, Finset.sum_empty, zero_div]
    exact Real.log_natCast_nonneg _
  have hn := card_pos' ω0
  have hs0 : (0 : ℝ) < #s := by exact_mod_cast card_pos.mpr ⟨_, hs ω0⟩
  unfold H
  rw [div_le_iff₀ hn]
  have key : ∀ ω, Real.log (Fintype.card Ω / cnt f (f ω)) ≤ Real.log #s + (Fintype.card Ω / #s * (1 / cnt f (f ω)) - 1) := by
    intro ω
    have hc := cnt_pos' f ω
    have := Real.log_le_sub_one_of_pos (x := (Fintype.card Ω : ℝ) / #s * (1 / cnt f (f ω))) (by positivity)
    have e : (Fintype.card Ω : ℝ) / cnt f (f ω) = #s * (Fintype.card Ω / #s * (1 / cnt f (f ω))) := by field_simp
    rw [e, Real.log_mul hs0.ne' (by positivity)]
    linarith
  refine (sum_le_sum fun ω _ => key ω).trans ?_
  rw [sum_add_distrib, sum_sub_distrib, ← mul_sum, sum_labels f fun a => 1 / (cnt f a : ℝ)]
  have e2 : ∑ a ∈ univ.image f, (cnt f a : ℝ) * (1 / cnt f a) = #(univ.image f) := by
    rw [← nsmul_one, ← sum_const]
    refine sum_congr rfl fun a ha => ?_
    obtain ⟨ω, -, rfl⟩ := mem_image.mp ha
    have := (cnt_pos' f ω).ne'
    field_simp
  have hle : (#(univ.image f) : ℝ) ≤ #s := by
    exact_mod_cast card_le_card fun a ha => by
      obtain ⟨ω, -, rfl⟩ := mem_image.mp ha
      exact hs ω
  rw [e2]
  simp only [sum_const, card_univ, nsmul_eq_mul, mul_one]
  have : (Fintype.card Ω : ℝ) / #s * #(univ.image f) ≤ Fintype.card Ω := by
    rw [div_mul_eq_mul_div, div_le_iff₀ hs0]
    exact mul_le_mul_of_nonneg_left hle hn.le
  nlinarith

/-- Entropy zero means that there is only one label. -/
theorem H_eq_zero_iff (f : Ω → α) : H f = 0 ↔ ∀ ω ω', f ω = f ω' := by
  have e0 : H (fun _ : Ω => ()) = 0 := by
    unfold H
    rw [div_eq_zero_iff]
    left
    refine sum_eq_zero fun ω _ => ?_
    have : cnt (fun _ : Ω => ()) () = Fintype.card Ω := by simp [cnt]
    rw [this, div_self (card_pos' ω).ne', Real.log_one]
  constructor
  · intro h ω ω'
    exact H_eq_imp (f := f) (g := fun _ => ()) (fun _ _ _ => rfl) (by rw [h, e0]) ω ω' rfl
  · intro h
    rw [← e0]
    exact H_congr fun ω ω' => by simp [h ω ω']

/-- Mutual information zero means independence. -/
theorem H_indep_iff (f : Ω → α) (g : Ω → β) : H (fun ω => (f ω, g ω)) = H f + H g ↔
    ∀ a b, (cnt (fun ω => (f ω, g ω)) (a, b) : ℝ) * Fintype.card Ω = cnt f a * cnt g b := by
  rcases isEmpty_or_nonempty Ω with hΩ | ⟨⟨ω0⟩⟩
  · simp [H, cnt]
  have hn := card_pos' ω0
  set p : Ω → α × β := fun ω => (f ω, g ω) with hp
  have hlog : ∀ ω, Real.log (Fintype.card Ω / cnt f (f ω)) + Real.log (Fintype.card Ω / cnt g (g ω)) -
      Real.log (Fintype.card Ω / cnt p (p ω)) =
      Real.log ((cnt p (p ω) * Fintype.card Ω) / (cnt f (f ω) * cnt g (g ω))) := by
    intro ω
    have p1 := cnt_pos' f ω
    have p2 := cnt_pos' g ω
    have p3 := cnt_pos' p ω
    rw [Real.log_div hn.ne' p1.ne', Real.log_div hn.ne' p2.ne', Real.log_div hn.ne' p3.ne',
      Real.log_div (by positivity) (by positivity), Real.log_mul p3.ne' hn.ne', Real.log_mul p1.ne' p2.ne']
    ring
  have hsum : H f + H g - H p = (∑ ω, Real.log ((cnt p (p ω) * Fintype.card Ω) / (cnt f (f ω) * cnt g (g ω)))) /
      Fintype.card Ω := by
    unfold H
    rw [← add_div, ← sub_div, ← sum_add_distrib, ← sum_sub_distrib]
    congr 1
    exact sum_congr rfl fun ω _ => hlog ω
  constructor
  · intro h
    have h0 : ∑ ω, Real.log ((cnt p (p ω) * Fintype.card Ω) / (cnt f (f ω) * cnt g (g ω))) = 0 := by
      have : H f + H g - H p = 0 := by linarith
      rw [hsum, div_eq_zero_iff] at this
      exact this.resolve_right hn.ne'
    -- the lower bounds
    have hlow : ∀ ω, 1 - (cnt f (f ω) * cnt g (g ω)) / (cnt p (p ω) * Fintype.card Ω) ≤
        Real.log ((cnt p (p ω) * Fintype.card Ω : ℝ) / (cnt f (f ω) * cnt g (g ω))) := by
      intro ω
      have p1 := cnt_pos' f ω
      have p2 := cnt_pos' g ω
      have p3 := cnt_pos' p ω
      have := Real.one_sub_inv_le_log_of_pos (x := (cnt p (p ω) * Fintype.card Ω : ℝ) / (cnt f (f ω) * cnt g (g ω)))
        (by positivity)
      rwa [inv_div] at this
    have hF : ∑ ω, (cnt f (f ω) * cnt g (g ω) : ℝ) / (cnt p (p ω) * Fintype.card Ω) =
        (∑ q ∈ univ.image p, (cnt f q.1 * cnt g q.2 : ℝ)) / Fintype.card Ω := by
      rw [sum_labels p fun q => (cnt f q.1 * cnt g q.2 : ℝ) / (cnt p q * Fintype.card Ω), sum_div]
      refine sum_congr rfl fun q hq => ?_
      obtain ⟨ω, -, rfl⟩ := mem_image.mp hq
      have p3 := (cnt_pos' p ω).ne'
      field_simp
    have hsub : univ.image p ⊆ univ.image f ×ˢ univ.image g := by
      intro q hq
      obtain ⟨ω, -, rfl⟩ := mem_image.mp hq
      simp [hp]
    have htot : ∑ q ∈ univ.image f ×ˢ univ.image g, (cnt f q.1 * cnt g q.2 : ℝ) = Fintype.card Ω * Fintype.card Ω := by
      rw [sum_product]
      simp only [← mul_sum, sum_cnt, ← sum_mul]
    have hle : ∑ q ∈ univ.image p, (cnt f q.1 * cnt g q.2 : ℝ) ≤ Fintype.card Ω * Fintype.card Ω := by
      rw [← htot]
      exact sum_le_sum_of_subset_of_nonneg hsub fun q _ _ => by positivity
    have hlow_sum : (Fintype.card Ω : ℝ) - (∑ q ∈ univ.image p, (cnt f q.1 * cnt g q.2 : ℝ)) / Fintype.card Ω ≤ 0 := by
      have := sum_le_sum fun ω (_ : ω ∈ univ) => hlow ω
      rw [h0, sum_sub_distrib, hF] at this
      simpa using this
    have heq : ∑ q ∈ univ.image p, (cnt f q.1 * cnt g q.2 : ℝ) = Fintype.card Ω * Fintype.card Ω := by
      apply le_antisymm hle
      rw [sub_nonpos, le_div_iff₀ hn] at hlow_sum
      exact hlow_sum
    -- each bound is attained
    have hterm : ∀ ω, (cnt p (p ω) * Fintype.card Ω : ℝ) = cnt f (f ω) * cnt g (g ω) := by
      intro ω
      have p1 := cnt_pos' f ω
      have p2 := cnt_pos' g ω
      have p3 := cnt_pos' p ω
      by_contra hne
      have hx : (cnt f (f ω) * cnt g (g ω) : ℝ) / (cnt p (p ω) * Fintype.card Ω) ≠ 1 := by
        rw [Ne, div_eq_one_iff_eq (by positivity)]
        exact fun h' => hne h'.symm
      have hst : 1 - (cnt f (f ω) * cnt g (g ω)) / (cnt p (p ω) * Fintype.card Ω) <
          Real.log ((cnt p (p ω) * Fintype.card Ω : ℝ) / (cnt f (f ω) * cnt g (g ω))) := by
        have := Real.log_lt_sub_one_of_pos (x := (cnt f (f ω) * cnt g (g ω) : ℝ) / (cnt p (p ω) * Fintype.card Ω))
          (by positivity) hx
        have e : Real.log ((cnt p (p ω) * Fintype.card Ω : ℝ) / (cnt f (f ω) * cnt g (g ω))) =
            - Real.log ((cnt f (f ω) * cnt g (g ω) : ℝ) / (cnt p (p ω) * Fintype.card Ω)) := by
          rw [← Real.log_inv, inv_div]
        rw [e]
        linarith
      have := sum_lt_sum (fun ω _ => hlow ω) ⟨ω, mem_univ _, hst⟩
      rw [h0, sum_sub_distrib, hF, heq, mul_div_assoc, div_self hn.ne', mul_one] at this
      simp at this
    intro a b
    by_cases hab : (a, b) ∈ univ.image p
    · obtain ⟨ω, -, hω⟩ := mem_image.mp hab
      have := hterm ω
      rw [hω] at this
      have ea : f ω = a := (Prod.mk.inj hω).1
      have eb : g ω = b := (Prod.mk.inj hω).2
      rwa [ea, eb] at this
    · rw [cnt_eq_zero hab, Nat.cast_zero, zero_mul]
      by_contra hne
      have hpos : (0 : ℝ) < cnt f a * cnt g b := lt_of_le_of_ne (by positivity) hne
      have ha : a ∈ univ.image f := by
        by_contra h'
        rw [cnt_eq_zero h'] at hpos; simp at hpos
      have hb : b ∈ univ.image g := by
        by_contra h'
        rw [cnt_eq_zero h'] at hpos; simp at hpos
      have : ∑ q ∈ univ.image p, (cnt f q.1 * cnt g q.2 : ℝ) <
          ∑ q ∈ univ.image f ×ˢ univ.image g, (cnt f q.1 * cnt g q.2 : ℝ) :=
        sum_lt_sum_of_subset hsub (mem_product.mpr ⟨ha, hb⟩) hab hpos fun q _ _ => by positivity
      rw [heq, htot] at this
      exact lt_irrefl _ this
  · intro h
    have : H f + H g - H p = 0 := by
      rw [hsum, div_eq_zero_iff]
      left
      refine sum_eq_zero fun ω _ => ?_
      have p1 := cnt_pos' f ω
      have p2 := cnt_pos' g ω
      rw [show p ω = (f ω, g ω) from rfl, h, div_self (by positivity), Real.log_one]
    linarith

end Verif.Ent
