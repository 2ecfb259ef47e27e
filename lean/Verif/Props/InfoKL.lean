import Verif.Props.Info
import Mathlib.Tactic.IntervalCases

/-!
# C45: Kullback-Leibler divergence of two samples
-/

namespace Verif.Info

open Verif.Ent

/-- The share of a sample in bin `k`. -/
noncomputable def share (b : Nat) (x : List ℝ) (k : Nat) : ℝ := ((x.map (binOf b x)).count k : ℝ) / x.length

theorem share_nonneg (b : Nat) (x : List ℝ) (k : Nat) : 0 ≤ share b x k := by unfold share; positivity

theorem hist_sum {b : Nat} (hb : 0 < b) (x : List ℝ) : (hist b x).sum = x.length := by
  have key : ∀ l : List Nat, (∀ k ∈ l, k < b) → ((List.range b).map fun k => l.count k).sum = l.length := by
    intro l
    induction l with
    | nil => intro _; simp
    | cons a l ih =>
      intro h
      have ha := h a (by simp)
      have e : ((List.range b).map fun k => (a :: l).count k) =
          (List.range b).map fun k => l.count k + if a == k then 1 else 0 := by
        refine List.map_congr_left fun k _ => ?_
        rw [List.count_cons]
      rw [e, List.sum_map_add, ih fun k hk => h k (List.mem_cons_of_mem _ hk), List.length_cons]
      congr 1
      have e2 : ((List.range b).map fun k => if a == k then 1 else 0).sum = (List.range b).count a := by
        have : ∀ l : List Nat, (l.map fun k => if a == k then 1 else 0).sum = l.count a := by
          intro l
          induction l with
          | nil => rfl
          | cons c l ih =>
            rw [List.map_cons, List.sum_cons, ih, List.count_cons, Nat.add_comm]
            congr 2
            rw [beq_iff_eq, beq_iff_eq]
            exact propext eq_comm
        exact this _
      rw [e2, List.count_eq_one_of_mem List.nodup_range (List.mem_range.mpr ha)]
  unfold hist
  rw [key _ fun k hk => ?_, List.length_map]
  obtain ⟨v, -, rfl⟩ := List.mem_map.mp hk
  exact binOf_lt hb _ _

theorem normalise_hist {b : Nat} (hb : 0 < b) (x : List ℝ) : normalise (hist b x) = (List.range b).map (share b x) := by
  unfold normalise
  rw [hist_sum hb]
  unfold hist
  rw [List.map_map]
  rfl

theorem share_sum {b : Nat} (hb : 0 < b) {x : List ℝ} (hx : x ≠ []) : ∑ k ∈ Finset.range b, share b x k = 1 := by
  have h := hist_sum hb x
  have hl : (0 : ℝ) < x.length := by exact_mod_cast List.length_pos_of_ne_nil hx
  unfold share
  rw [← Finset.sum_div, div_eq_one_iff_eq hl.ne']
  rw [← h]
  unfold hist
  rw [← Nat.cast_sum]
  congr 1

/-- C45. What is computed: the sum over the bins that are not empty in either sample. -/
theorem kl_eq {x y : List XF} {a c : List ℝ} (hx : finiteList x = some a) (hy : finiteList y = some c)
    (hxl : 2 ≤ x.length) (hyl : 2 ≤ y.length) {b : Int} (hb : 1 ≤ b) :
    klDivergence (some b) x y = .ok (∑ k ∈ Finset.range b.toNat, klTerm (share b.toNat a k) (share b.toNat c k)) := by
  unfold klDivergence validate1D
  rw [if_neg (by omega), if_neg (by omega), hx, hy]
  simp only [bind, Except.bind, resolveBins]
  rw [if_neg (by omega), normalise_hist (by omega), normalise_hist (by omega), List.zipWith_map, List.zipWith_self]
  congr 1

/-- C45. `kl_divergence_xy` returns for two finite samples of at least two values, not necessarily equally many, and at
least one bin; all failures are `ValueError`. -/
theorem kl_ok_iff (x y : List XF) (b : Int) :
    ((∃ r, klDivergence (some b) x y = .ok r) ↔
      1 ≤ b ∧ 2 ≤ x.length ∧ 2 ≤ y.length ∧ (∃ a, finiteList x = some a) ∧ ∃ c, finiteList y = some c) ∧
    ∀ e, klDivergence (some b) x y = .error e → e = .valueError := by
  have key : (1 ≤ b ∧ 2 ≤ x.length ∧ 2 ≤ y.length ∧ (∃ a, finiteList x = some a) ∧ ∃ c, finiteList y = some c) ∨
      klDivergence (some b) x y = .error .valueError := by
    by_cases h1 : x.length < 2
    · right; unfold klDivergence validate1D; rw [if_pos h1]; rfl
    by_cases h2 : y.length < 2
    · right; unfold klDivergence validate1D; rw [if_neg h1, if_pos h2]; rfl
    cases hx : finiteList x with
    | none => right; unfold klDivergence validate1D; rw [if_neg h1, if_neg h2, hx]; rfl
    | some a =>
      cases hy : finiteList y with
      | none => right; unfold klDivergence validate1D; rw [if_neg h1, if_neg h2, hx, hy]; rfl
      | some c =>
        by_cases hb : b < 1
        · right
          unfold klDivergence validate1D
          rw [if_neg h1, if_neg h2, hx, hy]
          simp only [bind, Except.bind, resolveBins]
          rw [if_pos hb]
        · left
          exact ⟨by omega, by omega, by omega, ⟨a, rfl⟩, ⟨c, rfl⟩⟩
  constructor
  · constructor
    · rintro ⟨r, h⟩
      rcases key with k | k
      · exact k
      · rw [k] at h; cases h
    · rintro ⟨h1, h2, h3, ⟨a, ha⟩, ⟨c, hc⟩⟩
      exact ⟨_, kl_eq ha hc h2 h3 h1⟩
  · intro e h
    rcases key with ⟨h1, h2, h3, ⟨a, ha⟩, ⟨c, hc⟩⟩ | k
    · rw [kl_eq ha hc h2 h3 h1] at h; cases h
    · rw [k] at h; cases h; rfl

theorem klTerm_ge {p q : ℝ} (hp : 0 ≤ p) (hq : 0 ≤ q) (h : q = 0 → p = 0) :
    p - q ≤ klTerm p q ∧ (klTerm p q = p - q → p = q) := by
  unfold klTerm
  by_cases h0 : p ≠ 0 ∧ q ≠ 0
  · rw [if_pos h0]
    have pp : 0 < p := lt_of_le_of_ne hp (Ne.symm h0.1)
    have qp : 0 < q := lt_of_le_of_ne hq (Ne.symm h0.2)
    have e : Real.log (p / q) = - Real.log (q / p) := by rw [← Real.log_inv, inv_div]
    have l := Real.log_le_sub_one_of_pos (div_pos qp pp)
    have e2 : p * (q / p - 1) = q - p := by field_simp
    refine ⟨by rw [e]; nlinarith, fun he => ?_⟩
    by_contra hne
    have l' := Real.log_lt_sub_one_of_pos (div_pos qp pp) (by rw [Ne, div_eq_one_iff_eq h0.1]; exact fun h => hne h.symm)
    rw [e] at he
    nlinarith
  · rw [if_neg h0]
    have : p = 0 := by
      by_contra hp0
      exact h0 ⟨hp0, fun hq0 => hp0 (h hq0)⟩
    rw [this]
    exact ⟨by linarith, fun h => by linarith⟩

/-- C45. If every bin without values of `y` is also without values of `x` (in the bins of its own range), the divergence
is not negative, and zero exactly if all bins have equal shares. -/
theorem kl_nonneg {x y : List XF} {a c : List ℝ} (hx : finiteList x = some a) (hy : finiteList y = some c)
    (hxl : 2 ≤ x.length) (hyl : 2 ≤ y.length) {b : Int} (hb : 1 ≤ b)
    (hac : ∀ k, share b.toNat c k = 0 → share b.toNat a k = 0) :
    ∃ r, klDivergence (some b) x y = .ok r ∧ 0 ≤ r ∧
      (r = 0 ↔ ∀ k < b.toNat, share b.toNat a k = share b.toNat c k) := by
  refine ⟨_, kl_eq hx hy hxl hyl hb, ?_⟩
  have hbn : 0 < b.toNat := by omega
  have na : a ≠ [] := by
    have := (finiteList_some hx).1
    intro h; rw [h, List.length_nil] at this; omega
  have nc : c ≠ [] := by
    have := (finiteList_some hy).1
    intro h; rw [h, List.length_nil] at this; omega
  have hs : ∑ k ∈ Finset.range b.toNat, (share b.toNat a k - share b.toNat c k) = 0 := by
    rw [Finset.sum_sub_distrib, share_sum hbn na, share_sum hbn nc, sub_self]
  have hle : ∀ k ∈ Finset.range b.toNat, share b.toNat a k - share b.toNat c k ≤
      klTerm (share b.toNat a k) (share b.toNat c k) := fun k _ =>
    (klTerm_ge (share_nonneg _ _ _) (share_nonneg _ _ _) (hac k)).1
  refine ⟨by rw [← hs]; exact Finset.sum_le_sum hle, fun h k hk => ?_, fun h => ?_⟩
  · rw [← hs] at h
    have := (Finset.sum_eq_sum_iff_of_le hle).mp h.symm k (Finset.mem_range.mpr hk)
    exact (klTerm_ge (share_nonneg _ _ _) (share_nonneg _ _ _) (hac k)).2 this.symm
  · refine Finset.sum_eq_zero fun k hk => ?_
    rw [h k (Finset.mem_range.mp hk)]
    unfold klTerm
    by_cases h0 : share b.toNat c k = 0
    · rw [if_neg (by rw [h0]; simp)]
    · rw [if_pos ⟨h0, h0⟩, div_self h0, Real.log_one, mul_zero]

/-- C45 does not hold as a law of Kullback-Leibler divergences: values of `x` in a bin without values of `y` are left
out instead of making the result infinite, so that the result can be negative. -/
theorem kl_negative :
    klDivergence (some 3) [.fin 0, .fin 1, .fin 1, .fin 2] [.fin 0, .fin 0, .fin 2, .fin 2] = .ok (-(Real.log 2 / 2)) := by
  have lx : lo [0, 1, 1, 2] = 0 := by simp [lo]
  have hx : hi [0, 1, 1, 2] = 2 := by simp [hi]
  have ly : lo [0, 0, 2, 2] = 0 := by simp [lo]
  have hy : hi [0, 0, 2, 2] = 2 := by simp [hi]
  have b0 : ∀ l : List ℝ, lo l = 0 → hi l = 2 → binOf 3 l 0 = 0 ∧ binOf 3 l 1 = 1 ∧ binOf 3 l 2 = 2 := by
    intro l h1 h2
    have ho : outer l = (0, 2) := by unfold outer; rw [h1, h2, if_neg (by norm_num)]
    unfold binOf
    rw [ho]
    refine ⟨by simp, ?_, ?_⟩
    · have : ⌊((1 : ℝ) - (0, (2 : ℝ)).1) / ((0, (2 : ℝ)).2 - (0, (2 : ℝ)).1) * (3 : Nat)⌋₊ = 1 := by
        rw [Nat.floor_eq_iff (by norm_num)]
        norm_num
      rw [this]; rfl
    · have : ⌊((2 : ℝ) - (0, (2 : ℝ)).1) / ((0, (2 : ℝ)).2 - (0, (2 : ℝ)).1) * (3 : Nat)⌋₊ = 3 := by
        rw [Nat.floor_eq_iff (by norm_num)]
        norm_num
      rw [this]; rfl
  obtain ⟨x0, x1, x2⟩ := b0 _ lx hx
  obtain ⟨y0, y1, y2⟩ := b0 _ ly hy
  rw [kl_eq (a := [0, 1, 1, 2]) (c := [0, 0, 2, 2]) rfl rfl (by simp) (by simp) (by norm_num)]
  have hn : (3 : Int).toNat = 3 := rfl
  rw [hn, Finset.sum_range_succ, Finset.sum_range_succ, Finset.sum_range_one]
  have cx : [0, 1, 1, 2].map (binOf 3 [0, 1, 1, 2]) = [0, 1, 1, 2] := by simp [x0, x1, x2]
  have cy : [0, 0, 2, 2].map (binOf 3 [0, 0, 2, 2]) = [0, 0, 2, 2] := by simp [y0, y2]
  unfold share
  rw [cx, cy]
  have e : Real.log ((1 : ℝ) / 4 / (2 / 4)) = - Real.log 2 := by
    rw [← Real.log_inv]; norm_num
  unfold klTerm
  norm_num [List.count_cons] at e ⊢
  rw [e]; ring

theorem share_affine (b : Nat) (x : List ℝ) {a : ℝ} (ha : 0 < a) (c : ℝ) :
    share b (x.map fun t => a * t + c) = share b x := by
  funext k
  unfold share
  rw [List.length_map, List.map_map]
  have : x.map ((binOf b (x.map fun t => a * t + c)) ∘ fun t => a * t + c) = x.map (binOf b x) :=
    List.map_congr_left fun v hv => binOf_affine hv ha c
  rw [this]

theorem finiteList_map (a : List ℝ) (f : ℝ → ℝ) :
    finiteList (a.map fun t => XF.fin (f t)) = some (a.map f) := by
  induction a with
  | nil => rfl
  | cons c a ih => rw [List.map_cons, finiteList, ih]; rfl

/-- C45. The two samples are binned over their own ranges: a sample has divergence zero from itself, but also from every
increasing affine image of it, such as the same values shifted by 1000. -/
theorem kl_affine_zero {x : List XF} {v : List ℝ} (hx : finiteList x = some v) (hxl : 2 ≤ x.length) {b : Int} (hb : 1 ≤ b)
    {a : ℝ} (ha : 0 < a) (c : ℝ) :
    klDivergence (some b) x (v.map fun t => .fin (a * t + c)) = .ok 0 ∧
    klDivergence (some b) x x = .ok 0 := by
  have hz : ∀ s : Nat → ℝ, ∑ k ∈ Finset.range b.toNat, klTerm (s k) (s k) = 0 := by
    intro s
    refine Finset.sum_eq_zero fun k _ => ?_
    unfold klTerm
    by_cases h0 : s k = 0
    · rw [if_neg (by rw [h0]; simp)]
    · rw [if_pos ⟨h0, h0⟩, div_self h0, Real.log_one, mul_zero]
  constructor
  · rw [kl_eq hx (finiteList_map v fun t => a * t + c) hxl (by rw [List.length_map, ← (finiteList_some hx).1]; exact hxl) hb,
      share_affine _ _ ha, hz]
  · rw [kl_eq hx hx hxl hxl hb, hz]

/-- The hypothesis of `kl_nonneg` is met, for example, by a single bin. -/
example : ∀ k, share 1 [3, 5] k = 0 → share 1 [0, 7, 9] k = 0 := by
  intro k hk
  unfold share at *
  have : ∀ x : List ℝ, x.map (binOf 1 x) = x.map fun _ => 0 := fun x =>
    List.map_congr_left fun v _ => by unfold binOf; simp
  rw [this] at *
  cases k with
  | zero => norm_num at hk
  | succ k => simp

end Verif.Info
