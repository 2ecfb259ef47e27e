import Verif.Props.ClustSilh
import Verif.Props.ClustRecover

/-!
# The silhouette rule merges groups that belong together (C122)

Groups of equal size inside larger families of equal size: `silhouette_tstat` is the mean silhouette divided by its standard
deviation. For such points the silhouettes of the groups and of the families are both `λ (c - x)` for the same mean distances
`x` inside the groups, and the statistic does not see `λ`. So it always prefers the families, however little they differ from
the rest, while the mean silhouette prefers the groups.
-/

namespace Verif.Clust

open Verif Verif.Props Verif.Props.ClustSelect Verif.Props.ClustSilh Verif.Props.ClustGap Verif.Props.MicroEdge Classical Finset

variable {α : Type} [DecidableEq α]

/-! ### Specification -/

/-- `n` points in groups `grp` of `s` points each, `m` groups to a family `fam`. Points of different families are `b'` apart,
points of different groups of one family `b`, points of one group less than `b`. -/
structure Nested (n : Nat) (d : Nat → Nat → ℝ) (grp fam : Nat → Nat) (s m : Nat) (b b' : ℝ) : Prop where
  nest : ∀ i < n, ∀ j < n, grp i = grp j → fam i = fam j
  two : ∃ i < n, ∃ j < n, fam i ≠ fam j
  size : ∀ i < n, groupSize n grp (grp i) = s
  sizes : ∀ i < n, groupSize n fam (fam i) = m * s
  more : 2 ≤ s ∧ 2 ≤ m
  diag : ∀ i < n, d i i = 0
  tight : ∀ i < n, ∀ j < n, i ≠ j → grp i = grp j → 0 ≤ d i j ∧ d i j < b
  near : ∀ i < n, ∀ j < n, grp i ≠ grp j → fam i = fam j → d i j = b
  far : ∀ i < n, ∀ j < n, fam i ≠ fam j → d i j = b'
  order : b ≤ b'

/-- The mean distance from point `i` to the other points of its group. -/
noncomputable def own (n : Nat) (d : Nat → Nat → ℝ) (grp : Nat → Nat) (s : Nat) (i : Nat) : ℝ :=
  (∑ k ∈ (range n).filter fun k => grp k = grp i, d i k) / ((s : ℝ) - 1)

/-- The labels describe the groups. -/
def Names (n : Nat) (g : Nat → Nat) (l : List α) : Prop := l.length = n ∧ ∀ i < n, ∀ j < n, (l[i]? = l[j]? ↔ g i = g j)

/-! ### The silhouettes -/

theorem Names.size_eq {n : Nat} {g : Nat → Nat} {l : List α} (h : Names n g l) {j : Nat} (hj : j < n) :
    ClustSilh.size l j = groupSize n g (g j) := by
  unfold ClustSilh.size groupSize
  rw [h.1, card_filter, Nat.cast_sum]
  refine sum_congr rfl fun k hk => ?_
  by_cases e : g k = g j
  · rw [if_pos ((h.2 k (mem_range.mp hk) j hj).mpr e), if_pos e, Nat.cast_one]
  · rw [if_neg fun c => e ((h.2 k (mem_range.mp hk) j hj).mp c), if_neg e, Nat.cast_zero]

theorem Names.total_eq {n : Nat} {g : Nat → Nat} {l : List α} (h : Names n g l) (d : Nat → Nat → ℝ) (i : Nat) {j : Nat} (hj : j < n) :
    ClustSilh.total l d i j = ∑ k ∈ (range n).filter fun k => g k = g j, d i k := by
  unfold ClustSilh.total
  rw [h.1, Finset.sum_filter]
  refine sum_congr rfl fun k hk => ?_
  by_cases e : g k = g j
  · rw [if_pos ((h.2 k (mem_range.mp hk) j hj).mpr e), if_pos e]
  · rw [if_neg fun c => e ((h.2 k (mem_range.mp hk) j hj).mp c), if_neg e]

theorem sum_group {n : Nat} {g : Nat → Nat} {d : Nat → Nat → ℝ} {i j : Nat} {c : ℝ} (h : ∀ k < n, g k = g j → d i k = c) :
    ∑ k ∈ (range n).filter (fun k => g k = g j), d i k = groupSize n g (g j) * c := by
  rw [sum_congr rfl fun k hk => h k (mem_range.mp (mem_filter.mp hk).1) (mem_filter.mp hk).2, sum_const, nsmul_eq_mul]
  rfl

namespace Nested

variable {n : Nat} {d : Nat → Nat → ℝ} {grp fam : Nat → Nat} {s m : Nat} {b b' : ℝ} (h : Nested n d grp fam s m b b')

include h

/-- Every point has another group in its family. -/
theorem sibling {i : Nat} (hi : i < n) : ∃ j < n, fam j = fam i ∧ grp j ≠ grp i := by
  by_contra hcon
  push Not at hcon
  have : groupSize n fam (fam i) ≤ groupSize n grp (grp i) := card_le_card fun k hk => by
    obtain ⟨h1, h2⟩ := mem_filter.mp hk
    exact mem_filter.mpr ⟨h1, hcon k (mem_range.mp h1) h2⟩
  rw [h.size i hi, h.sizes i hi] at this
  obtain ⟨h1, h2⟩ := h.more
  nlinarith

/-- Every point has another family. -/
theorem stranger (i : Nat) : ∃ j < n, fam j ≠ fam i := by
  obtain ⟨p, hp, q, hq, hne⟩ := h.two
  by_cases e : fam p = fam i
  · exact ⟨q, hq, fun c => hne (e.trans c.symm)⟩
  · exact ⟨p, hp, e⟩

theorem partner {i : Nat} (hi : i < n) : ∃ j < n, j ≠ i ∧ grp j = grp i := by
  have h1 : 1 < groupSize n grp (grp i) := by rw [h.size i hi]; exact h.more.1
  obtain ⟨x, hx, y, hy, hne⟩ := Finset.one_lt_card.mp h1
  obtain ⟨x1, x2⟩ := mem_filter.mp hx
  obtain ⟨y1, y2⟩ := mem_filter.mp hy
  by_cases e : x = i
  · exact ⟨y, mem_range.mp y1, fun c => hne (e.trans c.symm), y2⟩
  · exact ⟨x, mem_range.mp x1, e, x2⟩

theorem b_pos : 0 < b := by
  obtain ⟨i, hi, -⟩ := h.two
  obtain ⟨j, hj, hne, e⟩ := h.partner hi
  have := h.tight j hj i hi hne e
  linarith

theorem own_lt {i : Nat} (hi : i < n) : 0 ≤ own n d grp s i ∧ own n d grp s i < b := by
  have hs : (2 : ℝ) ≤ s := by exact_mod_cast h.more.1
  have h0 : ∀ k < n, grp k = grp i → 0 ≤ d i k := fun k hk e => by
    by_cases hik : i = k
    · rw [← hik, h.diag i hi]
    · exact (h.tight i hi k hk hik e.symm).1
  have hsum : ∑ k ∈ (range n).filter (fun k => grp k = grp i), d i k < ((s : ℝ) - 1) * b := by
    have hmem : i ∈ (range n).filter (fun k => grp k = grp i) := mem_filter.mpr ⟨mem_range.mpr hi, rfl⟩
    rw [← add_sum_erase _ _ hmem, h.diag i hi, zero_add]
    obtain ⟨j, hj, hne, e⟩ := h.partner hi
    have hlt : ∑ k ∈ ((range n).filter (fun k => grp k = grp i)).erase i, d i k < ∑ _k ∈ ((range n).filter (fun k => grp k = grp i)).erase i, b := by
      refine sum_lt_sum_of_nonempty ⟨j, mem_erase.mpr ⟨hne, mem_filter.mpr ⟨mem_range.mpr hj, e⟩⟩⟩ fun k hk => ?_
      obtain ⟨k1, k2⟩ := mem_erase.mp hk
      obtain ⟨k3, k4⟩ := mem_filter.mp k2
      exact (h.tight i hi k (mem_range.mp k3) (Ne.symm k1) k4.symm).2
    rw [sum_const, card_erase_of_mem hmem, nsmul_eq_mul] at hlt
    have hc : ((range n).filter (fun k => grp k = grp i)).card = s := h.size i hi
    rw [hc, Nat.cast_sub (by have := h.more.1; omega), Nat.cast_one] at hlt
    exact hlt
  constructor
  · exact div_nonneg (sum_nonneg fun k hk => h0 k (mem_range.mp (mem_filter.mp hk).1) (mem_filter.mp hk).2) (by linarith)
  · unfold own
    rw [div_lt_iff₀ (by linarith)]
    linarith

/-- The silhouettes of the groups. -/
theorem sil_groups {l : List α} (hl : Names n grp l) {i : Nat} (hi : i < n) : IsSil l d i (1 / b * (b - own n d grp s i)) := by
  have hb := h.b_pos
  have hs : (2 : ℝ) ≤ s := by exact_mod_cast h.more.1
  obtain ⟨-, ho⟩ := h.own_lt hi
  have hsz : ∀ j < n, ClustSilh.size l j = s := fun j hj => by rw [hl.size_eq hj, h.size j hj]
  have hco : cohesion l d i = own n d grp s i := by
    unfold cohesion own
    rw [hl.total_eq d i hi, hsz i hi]
  refine .inr ⟨by rw [hsz i hi]; linarith, b, ⟨?_, ?_⟩, ?_⟩
  · obtain ⟨j, hj, e, hne⟩ := h.sibling hi
    refine ⟨j, hl.1 ▸ hj, fun c => hne ((hl.2 j hj i hi).mp c), ?_⟩
    rw [hl.total_eq d i hj, hsz j hj, sum_group (c := b), h.size j hj]
    · field_simp
    · intro k hk ek
      exact h.near i hi k hk (fun c => hne (ek.symm.trans c.symm)) ((h.nest k hk j hj ek).trans e).symm
  · intro j hj hne
    rw [hl.1] at hj
    have hne' : grp j ≠ grp i := fun c => hne ((hl.2 j hj i hi).mpr c)
    rw [hl.total_eq d i hj, hsz j hj, le_div_iff₀ (by linarith)]
    by_cases e : fam j = fam i
    · rw [sum_group (c := b), h.size j hj, mul_comm]
      intro k hk ek
      exact h.near i hi k hk (fun c => hne' (ek.symm.trans c.symm)) ((h.nest k hk j hj ek).trans e).symm
    · rw [sum_group (c := b'), h.size j hj, mul_comm]
      · exact mul_le_mul_of_nonneg_left h.order (by linarith)
      · intro k hk ek
        exact h.far i hi k hk fun c => e ((h.nest k hk j hj ek).symm.trans c.symm)
  · rw [hco, max_eq_right ho.le, if_neg hb.ne']
    field_simp

/-- Splitting the distances inside a family. -/
theorem total_family {i : Nat} (hi : i < n) :
    ∑ k ∈ (range n).filter (fun k => fam k = fam i), d i k = ((s : ℝ) - 1) * own n d grp s i + ((m : ℝ) - 1) * s * b := by
  have hs : (2 : ℝ) ≤ s := by exact_mod_cast h.more.1
  have hm2 := h.more.2
  set F := (range n).filter fun k => fam k = fam i with hF
  set G := (range n).filter fun k => grp k = grp i with hG
  have hsub : G ⊆ F := fun k hk => by
    obtain ⟨h1, h2⟩ := mem_filter.mp hk
    exact mem_filter.mpr ⟨h1, h.nest k (mem_range.mp h1) i hi h2⟩
  have hcF : F.card = m * s := h.sizes i hi
  have hcG : G.card = s := h.size i hi
  have hrest : ∑ k ∈ F \ G, d i k = ((m : ℝ) - 1) * s * b := by
    rw [sum_congr rfl (g := fun _ => b) fun k hk => ?_, sum_const, card_sdiff_of_subset hsub, hcF, hcG, nsmul_eq_mul,
      Nat.cast_sub (Nat.le_mul_of_pos_left _ (by omega))]
    · push_cast
      ring
    · obtain ⟨h1, h2⟩ := mem_sdiff.mp hk
      obtain ⟨h3, h4⟩ := mem_filter.mp h1
      exact h.near i hi k (mem_range.mp h3) (fun c => h2 (mem_filter.mpr ⟨h3, c.symm⟩)) h4.symm
  rw [← sum_sdiff hsub, hrest, add_comm]
  congr 1
  unfold own
  rw [← hG]
  field_simp [show (s : ℝ) - 1 ≠ 0 by linarith]

/-- The constant of the silhouettes of the families. -/
theorem const_ge : b ≤ (((m : ℝ) * s - 1) * b' - ((m : ℝ) - 1) * s * b) / ((s : ℝ) - 1) ∧
    (b < b' → b < (((m : ℝ) * s - 1) * b' - ((m : ℝ) - 1) * s * b) / ((s : ℝ) - 1)) := by
  have hs : (2 : ℝ) ≤ s := by exact_mod_cast h.more.1
  have hm2 : (2 : ℝ) ≤ m := by exact_mod_cast h.more.2
  have h1 : (0 : ℝ) < m * s - 1 := by nlinarith
  constructor
  · rw [le_div_iff₀ (by linarith)]
    nlinarith [mul_le_mul_of_nonneg_left h.order h1.le]
  · intro hlt
    rw [lt_div_iff₀ (by linarith)]
    nlinarith [mul_lt_mul_of_pos_left hlt h1]

/-- The silhouettes of the families. -/
theorem sil_families {l : List α} (hl : Names n fam l) {i : Nat} (hi : i < n) :
    IsSil l d i (((s : ℝ) - 1) / (((m : ℝ) * s - 1) * b') *
      ((((m : ℝ) * s - 1) * b' - ((m : ℝ) - 1) * s * b) / ((s : ℝ) - 1) - own n d grp s i)) := by
  have hb := h.b_pos
  have hb' : 0 < b' := hb.trans_le h.order
  have hs : (2 : ℝ) ≤ s := by exact_mod_cast h.more.1
  have hm2 : (2 : ℝ) ≤ m := by exact_mod_cast h.more.2
  have hms : (4 : ℝ) ≤ m * s := by nlinarith
  obtain ⟨-, ho⟩ := h.own_lt hi
  have hsz : ∀ j < n, ClustSilh.size l j = (m : ℝ) * s := fun j hj => by rw [hl.size_eq hj, h.sizes j hj]; push_cast; rfl
  have hco : cohesion l d i = (((s : ℝ) - 1) * own n d grp s i + ((m : ℝ) - 1) * s * b) / ((m : ℝ) * s - 1) := by
    unfold cohesion
    rw [hl.total_eq d i hi, hsz i hi, h.total_family hi]
  have hle : cohesion l d i ≤ b' := by
    rw [hco, div_le_iff₀ (by linarith)]
    have e1 := mul_le_mul_of_nonneg_left ho.le (show (0 : ℝ) ≤ s - 1 by linarith)
    have e2 := mul_le_mul_of_nonneg_right h.order (show (0 : ℝ) ≤ m * s - 1 by linarith)
    nlinarith
  have htot : ∀ j < n, fam j ≠ fam i → ClustSilh.total l d i j / ClustSilh.size l j = b' := fun j hj e => by
    rw [hl.total_eq d i hj, hsz j hj, sum_group (c := b'), h.sizes j hj]
    · push_cast
      field_simp
    · intro k hk ek
      exact h.far i hi k hk fun c => e (ek.symm.trans c.symm)
  refine .inr ⟨by rw [hsz i hi]; linarith, b', ⟨?_, ?_⟩, ?_⟩
  · obtain ⟨j, hj, e⟩ := h.stranger i
    exact ⟨j, hl.1 ▸ hj, fun c => e ((hl.2 j hj i hi).mp c), (htot j hj e).symm⟩
  · intro j hj hne
    rw [hl.1] at hj
    exact (htot j hj fun c => hne ((hl.2 j hj i hi).mpr c)).ge
  · rw [max_eq_right hle, if_neg hb'.ne', hco]
    have h1 : (m : ℝ) * s - 1 ≠ 0 := by linarith
    have h2 : (s : ℝ) - 1 ≠ 0 := by linarith
    generalize (m : ℝ) * s - 1 = q at h1
    generalize (s : ℝ) - 1 = t at h2
    field_simp
    ring

end Nested

/-! ### The statistic -/

theorem avg_scale {n : Nat} (hn : 0 < n) (x : Nat → ℝ) (a c : ℝ) : avg n (fun i => a * (c - x i)) = a * (c - avg n x) := by
  have : (n : ℝ) ≠ 0 := by exact_mod_cast hn.ne'
  unfold avg
  rw [← mul_sum, sum_sub_distrib, sum_const, card_range, nsmul_eq_mul]
  field_simp

theorem vari_scale {n : Nat} (hn : 0 < n) (x : Nat → ℝ) (a c : ℝ) : vari n (fun i => a * (c - x i)) = a ^ 2 * vari n x := by
  unfold vari
  rw [avg_scale hn]
  unfold avg
  rw [← mul_div_assoc, mul_sum]
  congr 1
  refine sum_congr rfl fun i _ => ?_
  ring

theorem avg_lt {n : Nat} (hn : 0 < n) {x : Nat → ℝ} {c : ℝ} (h : ∀ i < n, x i < c) : avg n x < c := by
  have hp : (0 : ℝ) < n := by exact_mod_cast hn
  unfold avg
  rw [div_lt_iff₀ hp]
  calc ∑ j ∈ range n, x j < ∑ _j ∈ range n, c := sum_lt_sum_of_nonempty ⟨0, mem_range.mpr hn⟩ fun i hi => h i (mem_range.mp hi)
    _ = c * n := by rw [sum_const, card_range, nsmul_eq_mul, mul_comm]

/-- The score of silhouettes `a (c - x)`: the factor drops out. -/
noncomputable def score (n : Nat) (x : Nat → ℝ) (c : ℝ) : XF := if vari n x = 0 then .pinf else .fin ((c - avg n x) / √(vari n x))

theorem tstat_scale {n : Nat} {tb : Dist.Table} {l : List α} (hl : l.length = n) {d : Nat → Nat → ℝ} (hd : IsDist tb n d)
    (hin : SilhouetteInput tb l) {x : Nat → ℝ} {a c : ℝ} (ha : 0 < a) (hc : avg n x < c) (hs : ∀ i < n, IsSil l d i (a * (c - x i))) :
    silhouetteTstat (.table tb) (.vec l) = .ok (score n x c) := by
  subst hl
  have hlen := (List.dedup_sublist l).length_le
  have hk := hin.2.2.2.2.1
  have hn : 0 < l.length := by omega
  rw [silh_value hin (s := fun i => a * (c - x i)) fun i hi => (sil_table hd hi).mpr (hs i hi), avg_scale hn, vari_scale hn,
    Real.sqrt_mul (sq_nonneg a), Real.sqrt_sq ha.le]
  unfold score
  by_cases hv : vari l.length x = 0
  · rw [if_pos hv, hv, Real.sqrt_zero, mul_zero]
    have hp : 0 < a * (c - avg l.length x) := mul_pos ha (by linarith)
    have e : (XF.fin (a * (c - avg l.length x)) / XF.fin 0 : XF) = .pinf := by
      show (if (0 : ℝ) = 0 then _ else _) = _
      rw [if_pos rfl, XF.infSign, if_pos hp]
    rw [e]
  · have hsq : √(vari l.length x) ≠ 0 := fun e => hv ((Real.sqrt_eq_zero (vari_nonneg _ _)).mp e)
    rw [if_neg hv, XF.div_fin (mul_ne_zero ha.ne' hsq), mul_div_mul_left _ _ ha.ne']

theorem score_mono {n : Nat} {x : Nat → ℝ} {c c' : ℝ} (h : c ≤ c') : ¬ XF.lt (score n x c') (score n x c) := by
  unfold score
  by_cases hv : vari n x = 0
  · rw [if_pos hv, if_pos hv]
    exact id
  · rw [if_neg hv, if_neg hv, XF.lt_fin, not_lt]
    exact div_le_div_of_nonneg_right (by linarith) (Real.sqrt_nonneg _)

theorem score_strict {n : Nat} {x : Nat → ℝ} {c c' : ℝ} (h : c < c') (hv : vari n x ≠ 0) : XF.lt (score n x c) (score n x c') := by
  unfold score
  rw [if_neg hv, if_neg hv, XF.lt_fin]
  exact div_lt_div_of_pos_right (by linarith) (Real.sqrt_pos.mpr (lt_of_le_of_ne (vari_nonneg _ _) (Ne.symm hv)))

namespace Nested

variable {n : Nat} {d : Nat → Nat → ℝ} {grp fam : Nat → Nat} {s m : Nat} {b b' : ℝ} (h : Nested n d grp fam s m b b')

include h

theorem n_pos : 0 < n := by
  obtain ⟨i, hi, -⟩ := h.two
  omega

/-- The score of the groups. -/
theorem groups_score {tb : Dist.Table} (hd : IsDist tb n d) {l : List α} (hl : Names n grp l) (hin : SilhouetteInput tb l) :
    silhouetteTstat (.table tb) (.vec l) = .ok (score n (own n d grp s) b) :=
  tstat_scale hl.1 hd hin (one_div_pos.mpr h.b_pos) (avg_lt h.n_pos fun _ hi => (h.own_lt hi).2) fun _ hi => h.sil_groups hl hi

/-- The score of the families. -/
theorem families_score {tb : Dist.Table} (hd : IsDist tb n d) {l : List α} (hl : Names n fam l) (hin : SilhouetteInput tb l) :
    silhouetteTstat (.table tb) (.vec l) =
      .ok (score n (own n d grp s) ((((m : ℝ) * s - 1) * b' - ((m : ℝ) - 1) * s * b) / ((s : ℝ) - 1))) := by
  have hs : (2 : ℝ) ≤ s := by exact_mod_cast h.more.1
  have hm2 : (2 : ℝ) ≤ m := by exact_mod_cast h.more.2
  have hms : (4 : ℝ) ≤ m * s := by nlinarith
  refine tstat_scale hl.1 hd hin (div_pos (by linarith) (mul_pos (by linarith) (h.b_pos.trans_le h.order)))
    ((avg_lt h.n_pos fun _ hi => (h.own_lt hi).2).trans_le h.const_ge.1) fun i hi => h.sil_families hl hi

/-- There are `m` times as many groups as families. -/
theorem counts : numGroups n grp = m * numGroups n fam ∧ 2 ≤ numGroups n fam := by
  have key : ∀ (g : Nat → Nat) (c : Nat), (∀ i < n, groupSize n g (g i) = c) → numGroups n g * c = n := fun g c hc => by
    have := card_eq_sum_card_image g (range n)
    rw [card_range, sum_congr rfl (g := fun _ => c), sum_const, smul_eq_mul] at this
    · exact this.symm
    · intro v hv
      obtain ⟨i, hi, rfl⟩ := mem_image.mp hv
      exact hc i (mem_range.mp hi)
  have h1 := key grp s h.size
  have h2 := key fam (m * s) h.sizes
  have hs := h.more.1
  constructor
  · refine Nat.eq_of_mul_eq_mul_right (show 0 < s by omega) ?_
    rw [h1, mul_comm m, mul_assoc, h2]
  · obtain ⟨i, hi, j, hj, hne⟩ := h.two
    exact Finset.one_lt_card.mpr ⟨_, mem_image_of_mem _ (mem_range.mpr hi), _, mem_image_of_mem _ (mem_range.mpr hj), hne⟩

/-- **The search never returns the number of groups**, if its cuts contain the families and the groups. -/
theorem never_groups (rng : Int → Nat → ℝ) {cut : Int → List α} {tb : Dist.Table} (hd : IsDist tb n d)
    (hg : Names n grp (cut (numGroups n grp))) (hf : Names n fam (cut (numGroups n fam))) (M nb : Int) :
    optimizeNClusters rng cut (.table tb) M "silhouette" nb ≠ .ok (numGroups n grp) := by
  intro hr
  obtain ⟨hall, h2, hM, hbest⟩ := (silh_result_iff _ _ _ _ _ _).mp hr
  obtain ⟨hc1, hc2⟩ := h.counts
  have hm2 := h.more.2
  have hlt : numGroups n fam < numGroups n grp := by rw [hc1]; nlinarith
  have input : ∀ k : Int, 2 ≤ k → k ≤ M → SilhouetteInput tb (cut k) := fun k k1 k2 => by
    obtain ⟨t, ht, hin⟩ := (silh_ok_iff _ _).mp (hall k k1 k2)
    cases ht
    exact hin
  have eg : silhAt cut (.table tb) (numGroups n grp) = _ := h.groups_score hd hg (input _ h2 hM)
  have ef : silhAt cut (.table tb) (numGroups n fam) = _ := h.families_score hd hf (input _ (by omega) (by omega))
  rcases hbest with ⟨hnan, -⟩ | ⟨v, hv, -, -, hless⟩
  · rw [eg] at hnan
    unfold score at hnan
    split at hnan <;> cases hnan
  · rw [eg] at hv
    cases hv
    exact score_mono h.const_ge.1 (hless _ _ (by omega) (by exact_mod_cast hlt) ef)

/-- The mean silhouette of a point prefers the groups exactly when … -/
theorem mean_prefers {i : Nat} : ((s : ℝ) - 1) / (((m : ℝ) * s - 1) * b') *
      ((((m : ℝ) * s - 1) * b' - ((m : ℝ) - 1) * s * b) / ((s : ℝ) - 1) - own n d grp s i) < 1 / b * (b - own n d grp s i) ↔
    own n d grp s i * (((m : ℝ) * s - 1) * b' - ((s : ℝ) - 1) * b) < ((m : ℝ) - 1) * s * b ^ 2 := by
  have hb := h.b_pos
  have hb' : 0 < b' := hb.trans_le h.order
  have hs : (2 : ℝ) ≤ s := by exact_mod_cast h.more.1
  have hm2 : (2 : ℝ) ≤ m := by exact_mod_cast h.more.2
  have hms : (4 : ℝ) ≤ m * s := by nlinarith
  have h1 : (0 : ℝ) < m * s - 1 := by linarith
  have h2 : (0 : ℝ) < s - 1 := by linarith
  set x := own n d grp s i
  have key : 1 / b * (b - x) - ((s : ℝ) - 1) / (((m : ℝ) * s - 1) * b') *
      ((((m : ℝ) * s - 1) * b' - ((m : ℝ) - 1) * s * b) / ((s : ℝ) - 1) - x) =
      (((m : ℝ) - 1) * s * b ^ 2 - x * (((m : ℝ) * s - 1) * b' - ((s : ℝ) - 1) * b)) / ((((m : ℝ) * s - 1) * b') * b) := by
    have h3 : ((m : ℝ) - 1) * s = (m * s - 1) - (s - 1) := by ring
    rw [h3]
    generalize (m : ℝ) * s - 1 = q at h1
    generalize (s : ℝ) - 1 = t at h2
    field_simp
    ring
  rw [← sub_pos, key, div_pos_iff_of_pos_right (by positivity), sub_pos]

end Nested

namespace Nested

variable {n : Nat} {d : Nat → Nat → ℝ} {grp fam : Nat → Nat} {s m : Nat} {b b' : ℝ} (h : Nested n d grp fam s m b b')

include h

/-- **The mean silhouette prefers the groups**, if the distances inside the groups are small enough, while the statistic prefers the
families, strictly so if `b < b'` and the mean distances inside the groups are not all equal. -/
theorem mean_not_tstat {lg lf : List α} (hg : Names n grp lg) (hf : Names n fam lf) {u v : Nat → ℝ} (hu : ∀ i < n, IsSil lg d i (u i))
    (hv : ∀ i < n, IsSil lf d i (v i)) (hx : ∀ i < n, own n d grp s i * (((m : ℝ) * s - 1) * b' - ((s : ℝ) - 1) * b) < ((m : ℝ) - 1) * s * b ^ 2)
    {tb : Dist.Table} (hd : IsDist tb n d) (ing : SilhouetteInput tb lg) (inf : SilhouetteInput tb lf) :
    avg n v < avg n u ∧ ∃ y z, silhouetteTstat (.table tb) (.vec lg) = .ok y ∧ silhouetteTstat (.table tb) (.vec lf) = .ok z ∧ ¬ XF.lt z y ∧
      (b < b' → (∃ i < n, ∃ j < n, own n d grp s i ≠ own n d grp s j) → XF.lt y z) := by
  constructor
  · have hp : (0 : ℝ) < n := by exact_mod_cast h.n_pos
    unfold avg
    refine div_lt_div_of_pos_right (sum_lt_sum_of_nonempty ⟨0, mem_range.mpr h.n_pos⟩ fun i hi => ?_) hp
    have hi' := mem_range.mp hi
    rw [sil_unique (hu i hi') (h.sil_groups hg hi'), sil_unique (hv i hi') (h.sil_families hf hi')]
    exact h.mean_prefers.mpr (hx i hi')
  · refine ⟨_, _, h.groups_score hd hg ing, h.families_score hd hf inf, score_mono h.const_ge.1, fun hlt ⟨i, hi, j, hj, hne⟩ => score_strict (h.const_ge.2 hlt) fun h0 => hne ?_⟩
    have hp : (0 : ℝ) < n := by exact_mod_cast h.n_pos
    unfold vari avg at h0
    rw [div_eq_zero_iff, or_iff_left hp.ne', sum_eq_zero_iff_of_nonneg fun i _ => sq_nonneg _] at h0
    have e1 := pow_eq_zero_iff (two_ne_zero) |>.mp (h0 i (mem_range.mpr hi))
    have e2 := pow_eq_zero_iff (two_ne_zero) |>.mp (h0 j (mem_range.mpr hj))
    linarith

theorem inside_bound : ∃ c, 0 ≤ c ∧ c < b ∧ ∀ i < n, ∀ j < n, grp i = grp j → d i j ≤ c := by
  obtain ⟨i, hi, -⟩ := h.two
  obtain ⟨p, hp, hmax⟩ := exists_max_image (((range n) ×ˢ (range n)).filter fun p => grp p.1 = grp p.2) (fun p => d p.1 p.2)
    ⟨(i, i), by simp [hi]⟩
  rw [mem_filter, mem_product, mem_range, mem_range] at hp
  have hle : ∀ i < n, ∀ j < n, grp i = grp j → d i j ≤ d p.1 p.2 := fun i hi j hj e => hmax (i, j) (by simp [hi, hj, e])
  refine ⟨d p.1 p.2, ?_, ?_, hle⟩
  · rw [← h.diag i hi]
    exact hle i hi i hi rfl
  · by_cases e : p.1 = p.2
    · rw [e, h.diag _ hp.1.2]
      exact h.b_pos
    · exact (h.tight _ hp.1.1 _ hp.1.2 e hp.2).2

theorem nonneg : ∀ i < n, ∀ j < n, 0 ≤ d i j := by
  intro i hi j hj
  by_cases e : i = j
  · rw [e, h.diag j hj]
  by_cases eg : grp i = grp j
  · exact (h.tight i hi j hj e eg).1
  by_cases ef : fam i = fam j
  · rw [h.near i hi j hj eg ef]
    exact h.b_pos.le
  · rw [h.far i hi j hj ef]
    exact h.b_pos.le.trans h.order

/-- Inside a family no distance exceeds `b`. -/
theorem family_bound : ∀ i < n, ∀ j < n, fam i = fam j → d i j ≤ b := by
  intro i hi j hj ef
  obtain ⟨c, -, hc, hle⟩ := h.inside_bound
  by_cases eg : grp i = grp j
  · exact (hle i hi j hj eg).trans hc.le
  · exact (h.near i hi j hj eg ef).le

/-- Different groups are at least `b` apart. -/
theorem outside : ∀ i < n, ∀ j < n, grp i ≠ grp j → b ≤ d i j := by
  intro i hi j hj eg
  by_cases ef : fam i = fam j
  · exact (h.near i hi j hj eg ef).ge
  · rw [h.far i hi j hj ef]
    exact h.order

omit h in
theorem names_of {g : Nat → Nat} {l : List Nat} (hl : l.length = n) (hr : Recovers n g l) : Names n g l := by
  refine ⟨hl, fun i hi j hj => ?_⟩
  rw [← hr i hi j hj]
  unfold lab
  rw [List.getElem?_eq_getElem (hl.symm ▸ hi), List.getElem?_eq_getElem (hl.symm ▸ hj)]
  simp

/-- C122. **The groups can be asked for, but the search with the silhouette does not report them.** With `HC` on a matrix of such
distances, `b < b'`: `get_clusters` with the number of groups returns the groups and with the number of families the families, and
`get_optimal_nclusters(…, "silhouette")` never returns the number of groups, whatever `max_clust`. (Ward's method needs larger
gaps.) -/
theorem hc_never_groups (pdCorr : Dist.Table → String → Dist.Table) (X corr : Option Dist.CorrArg) (rng : Int → Nat → ℝ)
    {scipy : Dist.Table → String → Bool → Py (List Row)} (hs : LinkageSpec scipy) {tb : Dist.Table} (hd : IsDist tb n d) (hlt : b < b')
    {link : String} (hlink : link ∈ ["single", "complete", "average", "weighted"] ∨ link = "ward" ∧
      ∃ a, (∀ i < n, ∀ j < n, grp i = grp j → d i j ≤ a) ∧ a * √(s / 2) < b ∧ b * √((m * s : Nat) / 2) < b')
    (cod name : String) (ord : Bool) :
    ∃ (o : HC (List Row)) (lg lf : List Nat), HC.init pdCorr X corr (some (.table tb)) cod name link ord = .ok o ∧
      (o.step rng scipy cutLabels (.clusters (numGroups n grp))).1 = .ok (.labels lg) ∧ Recovers n grp lg ∧
      (o.step rng scipy cutLabels (.clusters (numGroups n fam))).1 = .ok (.labels lf) ∧ Recovers n fam lf ∧
      ∀ M nb : Int, (o.step rng scipy cutLabels (.optimal M "silhouette" nb)).1 ≠ .ok (.number (numGroups n grp)) := by
  have hn : 2 ≤ n := by
    obtain ⟨i, hi, j, hj, hne⟩ := h.two
    by_contra hcon
    exact hne (by rw [show i = j by omega])
  have sym : ∀ i < n, ∀ j < n, d i j = d j i := fun i hi j hj => hd.symm i j hi hj
  obtain ⟨lm, hlm, hmono, hrec⟩ : ∃ lm, Method.ofName link = some lm ∧ (lm ≠ .centroid ∧ lm ≠ .median) ∧
      ∀ Z, IsLinkage lm n d Z → Recovers n grp (cutLabels Z (numGroups n grp)) ∧ Recovers n fam (cutLabels Z (numGroups n fam)) := by
    rcases hlink with hl | ⟨rfl, a, ha, hb, hb'⟩
    · obtain ⟨lm, hlm, hcase⟩ : ∃ lm, Method.ofName link = some lm ∧ (lm = .single ∨ lm = .complete ∨ lm = .average ∨ lm = .weighted) := by
        simp only [List.mem_cons, List.not_mem_nil, or_false] at hl
        rcases hl with rfl | rfl | rfl | rfl
        · exact ⟨.single, rfl, by simp⟩
        · exact ⟨.complete, rfl, by simp⟩
        · exact ⟨.average, rfl, by simp⟩
        · exact ⟨.weighted, rfl, by simp⟩
      refine ⟨lm, hlm, by rcases hcase with rfl | rfl | rfl | rfl <;> simp, fun Z hZ => ⟨?_, ?_⟩⟩
      · obtain ⟨c, -, hc, hle⟩ := h.inside_bound
        exact separated_found hcase hn sym h.nonneg hZ (c := c) (fun i hi j hj _ e => hle i hi j hj e) fun i hi j hj e =>
          hc.trans_le (h.outside i hi j hj e)
      · exact separated_found hcase hn sym h.nonneg hZ (c := b) (fun i hi j hj _ e => h.family_bound i hi j hj e) fun i hi j hj e => by
          rw [h.far i hi j hj e]
          exact hlt
    · have hsz : ∀ (g : Nat → Nat) (c : Nat), (∀ i < n, groupSize n g (g i) = c) → ∀ v, groupSize n g v ≤ c := fun g c hc v => by
        by_cases hv : ∃ i < n, g i = v
        · obtain ⟨i, hi, rfl⟩ := hv
          exact (hc i hi).le
        · push Not at hv
          unfold groupSize
          rw [card_eq_zero.mpr (filter_eq_empty_iff.mpr fun i hi => hv i (mem_range.mp hi))]
          exact Nat.zero_le _
      refine ⟨.ward, rfl, by simp, fun Z hZ => ⟨?_, ?_⟩⟩
      · have ha0 : 0 ≤ a := by
          obtain ⟨i, hi, -⟩ := h.two
          rw [← h.diag i hi]
          exact ha i hi i hi rfl
        exact ward_found_size hn sym h.diag h.nonneg hZ ha0 (hsz grp s h.size) ha fun i hi j hj e => hb.trans_le (h.outside i hi j hj e)
      · exact ward_found_size hn sym h.diag h.nonneg hZ h.b_pos.le (hsz fam (m * s) h.sizes) h.family_bound fun i hi j hj e => by
          rw [h.far i hi j hj e]
          exact hb'
  obtain ⟨Z, hZ, hl⟩ := hc_linkage hs hn hd (method := link) hlm ord
  have hcut := linkage_cut hmono hn sym h.nonneg hZ
  obtain ⟨hg, hf⟩ := hrec Z hZ
  obtain ⟨hc1, hc2⟩ := h.counts
  have hm2 := h.more.2
  refine ⟨⟨.table tb, link, ord, none⟩, cutLabels Z (numGroups n grp), cutLabels Z (numGroups n fam), rfl, ?_, hg, ?_, hf, fun M nb he => ?_⟩
  · unfold HC.step
    dsimp only
    rw [hl]
    rfl
  · unfold HC.step
    dsimp only
    rw [hl]
    rfl
  · unfold HC.step at he
    dsimp only at he
    rw [hl] at he
    have hng := h.never_groups rng (cut := cutLabels Z) hd (names_of (hcut _ (by rw [hc1]; push_cast; nlinarith)).1 hg)
      (names_of (hcut _ (by omega)).1 hf) M nb
    change (optimizeNClusters rng (cutLabels Z) (.table tb) M "silhouette" nb).map Res.number = _ at he
    cases hr : optimizeNClusters rng (cutLabels Z) (.table tb) M "silhouette" nb with
    | error e => rw [hr] at he; cases he
    | ok r =>
      rw [hr] at he hng
      cases he
      exact hng rfl

end Nested

/-! ### A case: eight points in four pairs, two pairs to a family -/

/-- The first pair is 1/10 apart, the others 1/5; pairs of a family are 1 apart, the families 11/10. -/
noncomputable def pairsD (i j : Nat) : ℝ :=
  if i = j then 0 else if i / 2 = j / 2 then (if i / 2 = 0 then 1 / 10 else 1 / 5) else if i / 4 = j / 4 then 1 else 11 / 10

theorem pairs_nested : Nested 8 pairsD (fun i => i / 2) (fun i => i / 4) 2 2 1 (11 / 10) where
  nest := fun i _ j _ e => by omega
  two := ⟨0, by norm_num, 4, by norm_num, by norm_num⟩
  size := fun i hi => by unfold groupSize; interval_cases i <;> decide
  sizes := fun i hi => by unfold groupSize; interval_cases i <;> decide
  more := ⟨le_rfl, le_rfl⟩
  diag := fun i _ => by simp [pairsD]
  tight := fun i _ j _ hne e => by
    unfold pairsD
    rw [if_neg hne, if_pos e]
    split <;> norm_num
  near := fun i _ j _ e f => by
    unfold pairsD
    rw [if_neg (by rintro rfl; exact e rfl), if_neg e, if_pos f]
  far := fun i _ j _ f => by
    unfold pairsD
    rw [if_neg (by rintro rfl; exact f rfl), if_neg (by omega), if_neg f]
  order := by norm_num

theorem pairs_symm (i j : Nat) : pairsD i j = pairsD j i := by
  unfold pairsD
  by_cases h1 : i = j
  · rw [h1]
  · by_cases h2 : i / 2 = j / 2
    · rw [if_neg h1, if_neg (Ne.symm h1), if_pos h2, if_pos h2.symm, h2]
    · by_cases h3 : i / 4 = j / 4
      · rw [if_neg h1, if_neg (Ne.symm h1), if_neg h2, if_neg (Ne.symm h2), if_pos h3, if_pos h3.symm]
      · rw [if_neg h1, if_neg (Ne.symm h1), if_neg h2, if_neg (Ne.symm h2), if_neg h3, if_neg (Ne.symm h3)]

noncomputable def pairsTable : Dist.Table := ⟨8, 8, fun i j => .fin (pairsD i j)⟩

theorem pairs_dist : IsDist pairsTable 8 pairsD :=
  ⟨rfl, rfl, fun _ _ _ _ => rfl, fun i j _ _ => pairs_symm i j, fun i _ => by simp [pairsD]⟩

theorem pairs_own : ∀ i < 8, own 8 pairsD (fun i => i / 2) 2 i = if i < 2 then 1 / 10 else 1 / 5 := by
  intro i hi
  unfold own
  rw [Finset.sum_filter]
  interval_cases i <;> norm_num [sum_range_succ, pairsD]

/-- The hypotheses of `mean_not_tstat` hold: mean silhouettes prefer the four pairs, the statistic the two families. -/
example : (∀ i < 8, own 8 pairsD (fun i => i / 2) 2 i * ((((2 : Nat) : ℝ) * (2 : Nat) - 1) * (11 / 10) - (((2 : Nat) : ℝ) - 1) * 1) <
       (((2 : Nat) : ℝ) - 1) * (2 : Nat) * 1 ^ 2) ∧
    own 8 pairsD (fun i => i / 2) 2 0 ≠ own 8 pairsD (fun i => i / 2) 2 2 := by
  constructor
  · intro i hi
    rw [pairs_own i hi]
    split <;> norm_num
  · rw [pairs_own 0 (by norm_num), pairs_own 2 (by norm_num)]
    norm_num

/-- So `HC` on these points finds the four pairs when asked for four clusters, and never reports four. -/
example (pdCorr : Dist.Table → String → Dist.Table) (rng : Int → Nat → ℝ) : ∃ scipy, ∃ (o : HC (List Row)) (l : List Nat),
    HC.init pdCorr none none (some (.table pairsTable)) "pearson-correlation" "angular" "single" true = .ok o ∧
    (o.step rng scipy cutLabels (.clusters 4)).1 = .ok (.labels l) ∧ Recovers 8 (fun i => i / 2) l ∧
    ∀ M nb : Int, (o.step rng scipy cutLabels (.optimal M "silhouette" nb)).1 ≠ .ok (.number 4) := by
  obtain ⟨scipy, hs⟩ := linkageSpec_exists
  obtain ⟨o, lg, lf, h1, h2, h3, -, -, h4⟩ := pairs_nested.hc_never_groups pdCorr none none rng hs pairs_dist (by norm_num) (link := "single")
    (.inl (by simp)) "pearson-correlation" "angular" true
  have e : numGroups 8 (fun i => i / 2) = 4 := by unfold numGroups; decide
  rw [e] at h2 h4
  exact ⟨scipy, o, lg, h1, h2, h3, h4⟩

end Verif.Clust
