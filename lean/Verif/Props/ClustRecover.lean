import Verif.Props.ClustEuclid
import Verif.Props.ClustUse

/-!
# Separated groups are found (C117)

Points fall into groups, `grp p` the group of point `p`. When does `get_clusters(k)`, `k` the number of groups, return exactly
these groups?
-/

namespace Verif.Clust

open Verif Verif.Props.ClustSelect Classical Finset

/-- Every cluster of the state lies inside a group. -/
def Homog (grp : Nat → Nat) (s : Agg) : Prop := ∀ x ∈ s.live, ∀ p ∈ s.pts x, ∀ q ∈ s.pts x, grp p = grp q

/-- The number of groups. -/
def numGroups (n : Nat) (grp : Nat → Nat) : Nat := ((range n).image grp).card

/-- The labels of points are equal exactly within groups. -/
def Recovers (n : Nat) (grp : Nat → Nat) (l : List Nat) : Prop := ∀ p < n, ∀ q < n, lab l p = lab l q ↔ grp p = grp q

theorem Runs.snoc {m : Method} {s s' : Agg} {Z : List Row} (h : Runs m s Z s') {r : Row} (hc : s'.Closest r) :
    Runs m s (Z ++ [r]) (s'.merge m r) := by
  induction h with
  | nil => exact .cons hc (.nil _)
  | cons h1 _ ih => exact .cons h1 (ih hc)

/-- The general statement: it suffices that, as long as every cluster lies inside a group, merges at a height of at most `c`
join clusters of the same group, and there is one unless every group is a cluster. -/
theorem recover {m : Method} (hm : m ≠ .centroid ∧ m ≠ .median) {n : Nat} (hn : 2 ≤ n) {D : Nat → Nat → ℝ}
    (hD : ∀ i < n, ∀ j < n, D i j = D j i) (h0 : ∀ i < n, ∀ j < n, 0 ≤ D i j) {Z : List Row} (h : IsLinkage m n D Z) {grp : Nat → Nat} {c : ℝ}
    (hout : ∀ s Z1, Runs m (.init n D) Z1 s → s.Good n → Homog grp s → ∀ r, s.Closest r → r.d ≤ c → ∀ p ∈ s.pts r.a, ∀ q ∈ s.pts r.b, grp p = grp q)
    (hin : ∀ s Z1, Runs m (.init n D) Z1 s → s.Good n → Homog grp s → ∀ x ∈ s.live, ∀ y ∈ s.live, x ≠ y →
      (∃ p ∈ s.pts x, ∃ q ∈ s.pts y, grp p = grp q) → ∃ x' ∈ s.live, ∃ y' ∈ s.live, x' ≠ y' ∧ s.D x' y' ≤ c) :
    Recovers n grp (cutLabels Z (numGroups n grp)) := by
  have hs := linkage_sorted hm hD h0 h
  have hg := Agg.good_init (n := n) hD
  have hZ := h
  obtain ⟨hl, sf, hr⟩ := h
  have homog : ∀ {s : Agg} {Z1 : List Row}, Runs m (.init n D) Z1 s → (∀ r ∈ Z1, r.d ≤ c) → Homog grp s := by
    intro s Z1 hr hZ1
    refine (Runs.keep (n := n) (I := fun s => (∃ Z1, Runs m (.init n D) Z1 s) ∧ Homog grp s) (P := fun r => r.d ≤ c) ?_ hr hg ⟨⟨[], .nil _⟩, ?_⟩ hZ1).2.2
    · rintro s r hgs ⟨⟨Z2, hZ2⟩, hh⟩ hc hrc
      refine ⟨⟨_, hZ2.snoc hc⟩, ?_⟩
      have hab := hout s Z2 hZ2 hgs hh r hc hrc
      intro x hx p hp q hq
      rcases Agg.mem_merge.mp hx with rfl | ⟨hx, _, _⟩
      · rw [Agg.pts_new m (hgs.lt _ hc.1) (hgs.lt _ hc.2.1), List.mem_append] at hp hq
        rcases hp with hp | hp <;> rcases hq with hq | hq
        · exact hh _ hc.1 p hp q hq
        · exact hab p hp q hq
        · exact (hab q hq p hp).symm
        · exact hh _ hc.2.1 p hp q hq
      · rw [Agg.pts_merge (hgs.lt x hx)] at hp hq
        exact hh x hx p hp q hq
    · intro x hx p hp q hq
      rw [pts_init D ((live_init n D x).mp hx), List.mem_singleton] at hp hq
      rw [hp, hq]
  have apart : ∀ {s : Agg} {Z1 : List Row}, Runs m (.init n D) Z1 s → Homog grp s → (∀ x ∈ s.live, ∀ y ∈ s.live, x ≠ y → c < s.D x y) →
      ∀ x ∈ s.live, ∀ y ∈ s.live, (∃ p ∈ s.pts x, ∃ q ∈ s.pts y, grp p = grp q) → x = y := by
    intro s Z1 hr hh hgap x hx y hy he
    by_contra hne
    obtain ⟨x', hx', y', hy', hne', hle⟩ := hin s Z1 hr (hr.good hg) hh x hx y hy hne he
    exact absurd hle (not_le.mpr (hgap x' hx' y' hy' hne'))
  obtain ⟨Z1, Z2, rfl, g1, g2, g3⟩ := split_at hs c
  obtain ⟨s, r1, r2⟩ := hr.append
  have hgs := r1.good hg
  obtain ⟨x0, hx0, -⟩ := Runs.last hD hn hl hr
  have hgap : ∀ x ∈ s.live, ∀ y ∈ s.live, x ≠ y → c < s.D x y := by
    intro x hx y hy hne
    cases r2 with
    | nil =>
      have := Finset.one_lt_card.mpr ⟨x, hx, y, hy, hne⟩
      rw [hx0, Finset.card_singleton] at this
      omega
    | cons hcl _ => exact (g2 _ List.mem_cons_self).trans_le (hcl.2.2.2.2 x hx y hy hne)
  have hcard : s.live.card = numGroups n grp := by
    have hne : ∀ x ∈ s.live, ∃ p, p ∈ s.pts x := fun x hx => List.exists_mem_of_ne_nil _ (hgs.ne x hx)
    refine Finset.card_bij (fun x hx => grp (hne x hx).choose) ?_ ?_ ?_
    · intro x hx
      exact mem_image_of_mem _ (mem_range.mpr (hgs.range x hx _ (hne x hx).choose_spec))
    · intro x hx y hy e
      exact apart r1 (homog r1 g1) hgap x hx y hy ⟨_, (hne x hx).choose_spec, _, (hne y hy).choose_spec, e⟩
    · intro v hv
      obtain ⟨p, hp, rfl⟩ := mem_image.mp hv
      obtain ⟨x, hx, hpx⟩ := hgs.cover p (mem_range.mp hp)
      exact ⟨x, hx, homog r1 g1 x hx _ (hne x hx).choose_spec p hpx⟩
  have hcn : (Agg.init n D).live.card = n := by simp [Agg.init]
  have hc1 := (r1.card hg).1
  have hk1 : 1 ≤ numGroups n grp := Finset.card_pos.mpr ⟨grp 0, mem_image_of_mem _ (mem_range.mpr (by omega))⟩
  have hk2 : numGroups n grp ≤ n := Finset.card_image_le.trans_eq (card_range n)
  obtain ⟨s', hr', hg', -, hgap', hlab⟩ := cut_state hm hn hD h0 hZ hk1 hk2 (c := c) (by rw [g3]; omega)
  rw [g3] at hr'
  intro p hp q hq
  rw [hlab p hp q hq]
  constructor
  · rintro ⟨x, hx, hpx, hqx⟩
    exact homog hr' g1 x hx p hpx q hqx
  · intro e
    obtain ⟨x, hx, hpx⟩ := hg'.cover p hp
    obtain ⟨y, hy, hqy⟩ := hg'.cover q hq
    have := apart hr' (homog hr' g1) hgap' x hx y hy ⟨p, hpx, q, hqy, e⟩
    exact ⟨x, hx, hpx, this ▸ hqy⟩

/-! ### Single, complete, average and weighted linkage -/

/-- The distance of two clusters is between the smallest and the greatest distance of their points. -/
theorem pair_between {m : Method} (hm : m = .single ∨ m = .complete ∨ m = .average ∨ m = .weighted) {n : Nat} {D : Nat → Nat → ℝ}
    (hD : ∀ i < n, ∀ j < n, D i j = D j i) {s : Agg} {Z : List Row} (hr : Runs m (.init n D) Z s) :
    ∀ x ∈ s.live, ∀ y ∈ s.live, x ≠ y → (∀ b, (∀ p ∈ s.pts x, ∀ q ∈ s.pts y, b < D p q) → b < s.D x y) ∧
      ∀ b, (∀ p ∈ s.pts x, ∀ q ∈ s.pts y, D p q ≤ b) → s.D x y ≤ b := by
  refine hr.pairs hD (F := fun l l' d => (∀ b, (∀ p ∈ l, ∀ q ∈ l', b < D p q) → b < d) ∧ ∀ b, (∀ p ∈ l, ∀ q ∈ l', D p q ≤ b) → d ≤ b) ?_ ?_ ?_
  · intro i hi j hj
    exact ⟨fun b h => h i (by simp) j (by simp), fun b h => h i (by simp) j (by simp)⟩
  · rintro l l' d hl hl' ⟨h1, h2⟩
    exact ⟨fun b h => h1 b fun p hp q hq => hD _ (hl' q hq) _ (hl p hp) ▸ h q hq p hp,
      fun b h => h2 b fun p hp q hq => hD _ (hl' q hq) _ (hl p hp) ▸ h q hq p hp⟩
  · rintro s hg r hc y hy - - - ⟨a1, a2⟩ ⟨b1, b2⟩
    have sa := hg.sz_pos hc.1
    have sb := hg.sz_pos hc.2.1
    refine ⟨fun b h => ?_, fun b h => ?_⟩
    · have ha := a1 b fun p hp q hq => h p (List.mem_append.mpr (.inl hp)) q hq
      have hb := b1 b fun p hp q hq => h p (List.mem_append.mpr (.inr hp)) q hq
      rcases hm with rfl | rfl | rfl | rfl <;> simp only [Method.update]
      · exact lt_min ha hb
      · exact ha.trans_le (le_max_left _ _)
      · rw [lt_div_iff₀ (by positivity)]
        nlinarith [mul_lt_mul_of_pos_left ha sa, mul_lt_mul_of_pos_left hb sb]
      · linarith
    · have ha := a2 b fun p hp q hq => h p (List.mem_append.mpr (.inl hp)) q hq
      have hb := b2 b fun p hp q hq => h p (List.mem_append.mpr (.inr hp)) q hq
      rcases hm with rfl | rfl | rfl | rfl <;> simp only [Method.update]
      · exact (min_le_left _ _).trans ha
      · exact max_le ha hb
      · rw [div_le_iff₀ (by positivity)]
        nlinarith [mul_le_mul_of_nonneg_left ha sa.le, mul_le_mul_of_nonneg_left hb sb.le]
      · linarith

/-- C117. Single, complete, average and weighted linkage find groups if every distance inside a group is smaller than every
distance between groups. -/
theorem separated_found {m : Method} (hm : m = .single ∨ m = .complete ∨ m = .average ∨ m = .weighted) {n : Nat} (hn : 2 ≤ n) {D : Nat → Nat → ℝ}
    (hD : ∀ i < n, ∀ j < n, D i j = D j i) (h0 : ∀ i < n, ∀ j < n, 0 ≤ D i j) {Z : List Row} (h : IsLinkage m n D Z) {grp : Nat → Nat} {c : ℝ}
    (hi : ∀ i < n, ∀ j < n, i ≠ j → grp i = grp j → D i j ≤ c) (ho : ∀ i < n, ∀ j < n, grp i ≠ grp j → c < D i j) :
    Recovers n grp (cutLabels Z (numGroups n grp)) := by
  have hmono : m ≠ .centroid ∧ m ≠ .median := by rcases hm with rfl | rfl | rfl | rfl <;> simp
  refine recover hmono hn hD h0 h (c := c) ?_ ?_
  · intro s Z1 hr hg hh r hc hrc p hp q hq
    by_contra hne
    refine absurd hrc (not_le.mpr ?_)
    rw [hc.2.2.2.1]
    refine (pair_between hm hD hr _ hc.1 _ hc.2.1 hc.2.2.1).1 c fun p' hp' q' hq' => ?_
    refine ho _ (hg.range _ hc.1 _ hp') _ (hg.range _ hc.2.1 _ hq') ?_
    rw [hh _ hc.1 p' hp' p hp, hh _ hc.2.1 q' hq' q hq]
    exact hne
  · rintro s Z1 hr hg hh x hx y hy hne ⟨p, hp, q, hq, e⟩
    refine ⟨x, hx, y, hy, hne, (pair_between hm hD hr x hx y hy hne).2 c fun p' hp' q' hq' => ?_⟩
    refine hi _ (hg.range x hx _ hp') _ (hg.range y hy _ hq') ?_ ?_
    · rintro rfl
      exact hg.disj x hx y hy hne _ hp' hq'
    · rw [hh x hx p' hp' p hp, hh y hy q' hq' q hq, e]

/-- C117. For single linkage it suffices that the points of a group are joined by short steps. -/
theorem single_found {n : Nat} (hn : 2 ≤ n) {D : Nat → Nat → ℝ} (hD : ∀ i < n, ∀ j < n, D i j = D j i) (h0 : ∀ i < n, ∀ j < n, 0 ≤ D i j)
    {Z : List Row} (h : IsLinkage .single n D Z) {grp : Nat → Nat} {c : ℝ} (hi : ∀ i < n, ∀ j < n, grp i = grp j → Way n D c i j)
    (ho : ∀ i < n, ∀ j < n, grp i ≠ grp j → c < D i j) : Recovers n grp (cutLabels Z (numGroups n grp)) := by
  refine recover (by simp) hn hD h0 h (c := c) ?_ ?_
  · intro s Z1 hr hg hh r hc hrc p hp q hq
    by_contra hne
    refine absurd hrc (not_le.mpr ?_)
    rw [hc.2.2.2.1]
    refine (pair_between (.inl rfl) hD hr _ hc.1 _ hc.2.1 hc.2.2.1).1 c fun p' hp' q' hq' => ?_
    refine ho _ (hg.range _ hc.1 _ hp') _ (hg.range _ hc.2.1 _ hq') ?_
    rw [hh _ hc.1 p' hp' p hp, hh _ hc.2.1 q' hq' q hq]
    exact hne
  · rintro s Z1 hr hg hh x hx y hy hne ⟨p, hp, q, hq, e⟩
    have hle : ∀ x ∈ s.live, ∀ y ∈ s.live, x ≠ y → ∀ p ∈ s.pts x, ∀ q ∈ s.pts y, s.D x y ≤ D p q := by
      refine hr.pairs hD (F := fun l l' d => ∀ p ∈ l, ∀ q ∈ l', d ≤ D p q) (by simp) ?_ ?_
      · intro l l' d hl hl' h p hp q hq
        rw [hD _ (hl' p hp) _ (hl q hq)]
        exact h q hq p hp
      · intro s hg r hc y hy _ _ _ h1 h2 p hp q hq
        rcases List.mem_append.mp hp with hp | hp
        · exact (min_le_left _ _).trans (h1 p hp q hq)
        · exact (min_le_right _ _).trans (h2 p hp q hq)
    have hw := hi p (hg.range x hx p hp) q (hg.range y hy q hq) e
    have key : ∀ u v, Way n D c u v → u ∈ s.pts x → v ∉ s.pts x → ∃ x' ∈ s.live, ∃ y' ∈ s.live, x' ≠ y' ∧ s.D x' y' ≤ c := by
      intro u v hw hu
      induction hw with
      | refl => exact fun hv => absurd hu hv
      | @tail b d _ hstep ih =>
        intro hd
        by_cases hb : b ∈ s.pts x
        · obtain ⟨y', hy', hdy⟩ := hg.cover d hstep.2.1
          have hxy : x ≠ y' := by rintro rfl; exact hd hdy
          exact ⟨x, hx, y', hy', hxy, (hle x hx y' hy' hxy b hb d hdy).trans hstep.2.2⟩
        · exact ih hb
    exact key p q hw hp fun hqx => hg.disj x hx y hy hne q hqx hq

/-! ### Ward's method -/

theorem cross_le {f : Nat → Nat → ℝ} {M : ℝ} {l l' : List Nat} (h : ∀ p ∈ l, ∀ q ∈ l', f p q ≤ M) : cross f l l' ≤ l.length * l'.length * M := by
  unfold cross
  have h1 : ∀ p ∈ l, (l'.map fun q => f p q).sum ≤ l'.length * M := fun p hp => by
    simpa using List.sum_le_card_nsmul (l'.map fun q => f p q) M (by simpa using h p hp)
  have := List.sum_le_card_nsmul (l.map fun p => (l'.map fun q => f p q).sum) (l'.length * M) (by simpa using h1)
  simpa [mul_assoc] using this

theorem le_cross {f : Nat → Nat → ℝ} {M : ℝ} {l l' : List Nat} (h : ∀ p ∈ l, ∀ q ∈ l', M ≤ f p q) : l.length * l'.length * M ≤ cross f l l' := by
  unfold cross
  have h1 : ∀ p ∈ l, l'.length * M ≤ (l'.map fun q => f p q).sum := fun p hp => by
    simpa using List.card_nsmul_le_sum (l'.map fun q => f p q) M (by simpa using h p hp)
  have := List.card_nsmul_le_sum (l.map fun p => (l'.map fun q => f p q).sum) (l'.length * M) (by simpa using h1)
  simpa [mul_assoc] using this

theorem cross_self_eq {f : Nat → Nat → ℝ} {l : List Nat} (hl : l.Nodup) (h0 : ∀ p ∈ l, f p p = 0) :
    cross f l l = ∑ i ∈ l.toFinset, ∑ j ∈ l.toFinset.erase i, f i j := by
  rw [cross_finset f hl hl (A := l.toFinset) (B := l.toFinset) (by simp) (by simp)]
  refine sum_congr rfl fun i hi => ?_
  rw [← Finset.add_sum_erase _ _ hi, h0 i (by simpa using hi), zero_add]

theorem cross_self_le {f : Nat → Nat → ℝ} {M : ℝ} {l : List Nat} (hl : l.Nodup) (h0 : ∀ p ∈ l, f p p = 0)
    (h : ∀ p ∈ l, ∀ q ∈ l, p ≠ q → f p q ≤ M) : cross f l l ≤ l.length * (l.length - 1) * M := by
  rw [cross_self_eq hl h0]
  have hc : l.toFinset.card = l.length := List.toFinset_card_of_nodup hl
  have h1 : ∀ i ∈ l.toFinset, ∑ j ∈ l.toFinset.erase i, f i j ≤ (l.length - 1) * M := by
    intro i hi
    have := sum_le_card_nsmul (l.toFinset.erase i) (f i) M fun j hj =>
      h i (by simpa using hi) j (by simpa using (mem_erase.mp hj).2) (Ne.symm (mem_erase.mp hj).1)
    rw [card_erase_of_mem hi, hc, nsmul_eq_mul, Nat.cast_sub (by
      have := card_pos.mpr ⟨i, hi⟩
      omega), Nat.cast_one] at this
    exact this
  have := sum_le_card_nsmul _ _ _ h1
  rw [hc, nsmul_eq_mul, ← mul_assoc] at this
  exact this

theorem le_cross_self {f : Nat → Nat → ℝ} {M : ℝ} {l : List Nat} (hl : l.Nodup) (h0 : ∀ p ∈ l, f p p = 0)
    (h : ∀ p ∈ l, ∀ q ∈ l, p ≠ q → M ≤ f p q) : l.length * (l.length - 1) * M ≤ cross f l l := by
  have := cross_self_le (f := fun i j => - f i j) (M := -M) hl (fun p hp => by rw [h0 p hp, neg_zero]) fun p hp q hq hne =>
    neg_le_neg (h p hp q hq hne)
  have e : cross (fun i j => - f i j) l l = - cross f l l := by
    rw [cross_finset _ hl hl (A := l.toFinset) (B := l.toFinset) (by simp) (by simp),
      cross_finset f hl hl (A := l.toFinset) (B := l.toFinset) (by simp) (by simp)]
    simp only [sum_neg_distrib]
  rw [e] at this
  linarith

/-- The squared Ward distance from the sums over the pairs. -/
theorem ward_value {n : Nat} {D : Nat → Nat → ℝ} (hD : ∀ i < n, ∀ j < n, D i j = D j i) (hd : ∀ i < n, D i i = 0) (h0 : ∀ i < n, ∀ j < n, 0 ≤ D i j)
    {s : Agg} {Z : List Row} (hr : Runs .ward (.init n D) Z s) {x y : Nat} (hx : x ∈ s.live) (hy : y ∈ s.live) (hne : x ≠ y) :
    0 ≤ s.D x y ∧ s.D x y ^ 2 * (s.sz x + s.sz y) = 2 * cross (fun i j => D i j ^ 2) (s.pts x) (s.pts y)
      - cross (fun i j => D i j ^ 2) (s.pts x) (s.pts x) * (s.sz y / s.sz x) - cross (fun i j => D i j ^ 2) (s.pts y) (s.pts y) * (s.sz x / s.sz y) := by
  have hg := hr.good (Agg.good_init hD)
  have hD2 : ∀ i < n, ∀ j < n, D i j ^ 2 = D j i ^ 2 := fun i hi j hj => by rw [hD i hi j hj]
  obtain ⟨h1, h2⟩ := ward_pair hD hd h0 hr x hx y hy hne
  refine ⟨h1, ?_⟩
  have sx := hg.sz_pos hx
  have sy := hg.sz_pos hy
  rw [h2]
  have c1 := cross_symm hD2 (hg.range _ hy) (hg.range _ hx)
  unfold withinL
  simp only [cross_append, cross_append_right, c1, List.length_append, Nat.cast_add]
  unfold Agg.sz at *
  field_simp
  ring

/-- Lower bound: clusters whose points are more than `b` apart and whose inner distances are at most `b` are more than `b` apart. -/
theorem ward_lower {n : Nat} {D : Nat → Nat → ℝ} (hD : ∀ i < n, ∀ j < n, D i j = D j i) (hd : ∀ i < n, D i i = 0) (h0 : ∀ i < n, ∀ j < n, 0 ≤ D i j)
    {s : Agg} {Z : List Row} (hr : Runs .ward (.init n D) Z s) {x y : Nat} (hx : x ∈ s.live) (hy : y ∈ s.live) (hne : x ≠ y) {b : ℝ} (hb : 0 ≤ b)
    (hin : ∀ z ∈ s.live, z = x ∨ z = y → ∀ p ∈ s.pts z, ∀ q ∈ s.pts z, p ≠ q → D p q ≤ b) (hout : ∀ p ∈ s.pts x, ∀ q ∈ s.pts y, b < D p q) :
    b < s.D x y := by
  have hg := hr.good (Agg.good_init hD)
  obtain ⟨h1, h2⟩ := ward_value hD hd h0 hr hx hy hne
  have sx := hg.sz_pos hx
  have sy := hg.sz_pos hy
  obtain ⟨p, hp, q, hq, hmin⟩ : ∃ p ∈ s.pts x, ∃ q ∈ s.pts y, ∀ p' ∈ s.pts x, ∀ q' ∈ s.pts y, D p q ≤ D p' q' := by
    obtain ⟨⟨p, q⟩, hpq, hm⟩ := ((s.pts x).toFinset ×ˢ (s.pts y).toFinset).exists_min_image (fun z => D z.1 z.2) (by
      obtain ⟨p, hp⟩ := List.exists_mem_of_ne_nil _ (hg.ne x hx)
      obtain ⟨q, hq⟩ := List.exists_mem_of_ne_nil _ (hg.ne y hy)
      exact ⟨(p, q), by simp [hp, hq]⟩)
    simp only [mem_product, List.mem_toFinset] at hpq hm
    exact ⟨p, hpq.1, q, hpq.2, fun p' hp' q' hq' => hm (p', q') ⟨hp', hq'⟩⟩
  have hbpq := hout p hp q hq
  have e1 : s.sz x * s.sz y * D p q ^ 2 ≤ cross (fun i j => D i j ^ 2) (s.pts x) (s.pts y) :=
    le_cross fun p' hp' q' hq' => pow_le_pow_left₀ (hb.trans hbpq.le) (hmin p' hp' q' hq') 2
  have inner : ∀ z ∈ s.live, z = x ∨ z = y → cross (fun i j => D i j ^ 2) (s.pts z) (s.pts z) ≤ s.sz z * (s.sz z - 1) * b ^ 2 := by
    intro z hz hzz
    refine cross_self_le (hg.nodup z hz) (fun p hp => by rw [hd p (hg.range z hz p hp)]; norm_num) fun p hp q hq hpq => ?_
    exact pow_le_pow_left₀ (h0 _ (hg.range z hz p hp) _ (hg.range z hz q hq)) (hin z hz hzz p hp q hq hpq) 2
  have e2 := mul_le_mul_of_nonneg_right (inner x hx (.inl rfl)) (div_pos sy sx).le
  have e3 := mul_le_mul_of_nonneg_right (inner y hy (.inr rfl)) (div_pos sx sy).le
  have r2 : s.sz x * (s.sz x - 1) * b ^ 2 * (s.sz y / s.sz x) = (s.sz x - 1) * s.sz y * b ^ 2 := by field_simp
  have r3 : s.sz y * (s.sz y - 1) * b ^ 2 * (s.sz x / s.sz y) = (s.sz y - 1) * s.sz x * b ^ 2 := by field_simp
  rw [r2] at e2
  rw [r3] at e3
  have hsq : b ^ 2 < D p q ^ 2 := pow_lt_pow_left₀ hbpq hb two_ne_zero
  have hxy : 0 < s.sz x * s.sz y := by positivity
  have e4 : s.sz x * s.sz y * b ^ 2 < s.sz x * s.sz y * D p q ^ 2 := mul_lt_mul_of_pos_left hsq hxy
  have e5 : b ^ 2 * (s.sz x + s.sz y) < s.D x y ^ 2 * (s.sz x + s.sz y) := by
    rw [h2]
    linarith
  exact lt_of_pow_lt_pow_left₀ 2 h1 (lt_of_mul_lt_mul_right e5 (by positivity))

/-- Upper bound: for distances between `lo` and `hi`. -/
theorem ward_upper {n : Nat} {D : Nat → Nat → ℝ} (hD : ∀ i < n, ∀ j < n, D i j = D j i) (hd : ∀ i < n, D i i = 0) (h0 : ∀ i < n, ∀ j < n, 0 ≤ D i j)
    {s : Agg} {Z : List Row} (hr : Runs .ward (.init n D) Z s) {x y : Nat} (hx : x ∈ s.live) (hy : y ∈ s.live) (hne : x ≠ y) {lo hi : ℝ} (hlo : 0 ≤ lo)
    (hin : ∀ p ∈ s.pts x ++ s.pts y, ∀ q ∈ s.pts x ++ s.pts y, p ≠ q → lo ≤ D p q ∧ D p q ≤ hi) {m : ℝ} (hm : s.sz x + s.sz y ≤ m) :
    s.D x y ^ 2 ≤ m / 2 * (hi ^ 2 - lo ^ 2) + lo ^ 2 := by
  have hg := hr.good (Agg.good_init hD)
  obtain ⟨h1, h2⟩ := ward_value hD hd h0 hr hx hy hne
  have sx := hg.sz_pos hx
  have sy := hg.sz_pos hy
  have hl : ∀ p ∈ s.pts x, ∀ q ∈ s.pts y, p ≠ q := fun p hp q hq e => hg.disj x hx y hy hne p hp (e ▸ hq)
  have hrange : ∀ p ∈ s.pts x ++ s.pts y, p < n := fun p hp => (List.mem_append.mp hp).elim (hg.range x hx p) (hg.range y hy p)
  have hlohi : lo ^ 2 ≤ hi ^ 2 := by
    obtain ⟨p, hp⟩ := List.exists_mem_of_ne_nil _ (hg.ne x hx)
    obtain ⟨q, hq⟩ := List.exists_mem_of_ne_nil _ (hg.ne y hy)
    have := hin p (by simp [hp]) q (by simp [hq]) (hl p hp q hq)
    exact pow_le_pow_left₀ hlo (this.1.trans this.2) 2
  have e1 : cross (fun i j => D i j ^ 2) (s.pts x) (s.pts y) ≤ s.sz x * s.sz y * hi ^ 2 := by
    refine cross_le fun p hp q hq => ?_
    exact pow_le_pow_left₀ (h0 _ (hg.range x hx p hp) _ (hg.range y hy q hq)) (hin p (by simp [hp]) q (by simp [hq]) (hl p hp q hq)).2 2
  have inner : ∀ z ∈ s.live, z = x ∨ z = y → s.sz z * (s.sz z - 1) * lo ^ 2 ≤ cross (fun i j => D i j ^ 2) (s.pts z) (s.pts z) := by
    intro z hz hzz
    have sub : ∀ p ∈ s.pts z, p ∈ s.pts x ++ s.pts y := by
      intro p hp
      rcases hzz with rfl | rfl <;> simp [hp]
    refine le_cross_self (hg.nodup z hz) (fun p hp => by rw [hd p (hg.range z hz p hp)]; norm_num) fun p hp q hq hpq => ?_
    exact pow_le_pow_left₀ hlo (hin p (sub p hp) q (sub q hq) hpq).1 2
  have e2 := mul_le_mul_of_nonneg_right (inner x hx (.inl rfl)) (div_pos sy sx).le
  have e3 := mul_le_mul_of_nonneg_right (inner y hy (.inr rfl)) (div_pos sx sy).le
  have r2 : s.sz x * (s.sz x - 1) * lo ^ 2 * (s.sz y / s.sz x) = (s.sz x - 1) * s.sz y * lo ^ 2 := by field_simp
  have r3 : s.sz y * (s.sz y - 1) * lo ^ 2 * (s.sz x / s.sz y) = (s.sz y - 1) * s.sz x * lo ^ 2 := by field_simp
  rw [r2] at e2
  rw [r3] at e3
  have e5 : s.D x y ^ 2 * (s.sz x + s.sz y) ≤ ((s.sz x + s.sz y) / 2 * (hi ^ 2 - lo ^ 2) + lo ^ 2) * (s.sz x + s.sz y) := by
    rw [h2]
    have h4 : 2 * (s.sz x * s.sz y) * (hi ^ 2 - lo ^ 2) ≤ (s.sz x + s.sz y) ^ 2 / 2 * (hi ^ 2 - lo ^ 2) :=
      mul_le_mul_of_nonneg_right (by nlinarith [sq_nonneg (s.sz x - s.sz y)]) (by linarith)
    nlinarith
  have e6 := le_of_mul_le_mul_right e5 (by positivity)
  have e7 : (s.sz x + s.sz y) / 2 * (hi ^ 2 - lo ^ 2) ≤ m / 2 * (hi ^ 2 - lo ^ 2) :=
    mul_le_mul_of_nonneg_right (by linarith) (by linarith)
  linarith

/-- The number of points of a group. -/
def groupSize (n : Nat) (grp : Nat → Nat) (g : Nat) : Nat := ((range n).filter fun i => grp i = g).card

theorem size_le {n : Nat} {s : Agg} (hg : s.Good n) {x y : Nat} (hx : x ∈ s.live) (hy : y ∈ s.live) (hne : x ≠ y) {grp : Nat → Nat} {g : Nat}
    (same : ∀ i ∈ s.pts x ++ s.pts y, grp i = g) : s.sz x + s.sz y ≤ groupSize n grp g := by
  have hrange : ∀ i ∈ s.pts x ++ s.pts y, i < n := fun i hi' => (List.mem_append.mp hi').elim (hg.range x hx i) (hg.range y hy i)
  have hnd : (s.pts x ++ s.pts y).Nodup := by
    rw [List.nodup_append]
    exact ⟨hg.nodup x hx, hg.nodup y hy, fun i hi' j hj e => hg.disj x hx y hy hne i hi' (e ▸ hj)⟩
  have hcard : (s.pts x ++ s.pts y).toFinset.card ≤ groupSize n grp g := by
    refine card_le_card fun i hi' => ?_
    rw [List.mem_toFinset] at hi'
    exact mem_filter.mpr ⟨mem_range.mpr (hrange i hi'), same i hi'⟩
  rw [List.toFinset_card_of_nodup hnd, List.length_append] at hcard
  unfold Agg.sz
  exact_mod_cast hcard

/-- C117. Ward's method, the default. The distances inside a group of `m` points may vary between `lo` and `hi`; the distances
between groups must exceed `c`, where `c ^ 2 = m / 2 (hi ^ 2 - lo ^ 2) + lo ^ 2`. -/
theorem ward_found {n : Nat} (hn : 2 ≤ n) {D : Nat → Nat → ℝ} (hD : ∀ i < n, ∀ j < n, D i j = D j i) (hd : ∀ i < n, D i i = 0)
    (h0 : ∀ i < n, ∀ j < n, 0 ≤ D i j) {Z : List Row} (h : IsLinkage .ward n D Z) {grp : Nat → Nat} {lo hi : Nat → ℝ} {c : ℝ} (hc0 : 0 ≤ c)
    (hlo : ∀ g, 0 ≤ lo g) (hin : ∀ i < n, ∀ j < n, i ≠ j → grp i = grp j → lo (grp i) ≤ D i j ∧ D i j ≤ hi (grp i))
    (hc : ∀ i < n, groupSize n grp (grp i) / 2 * (hi (grp i) ^ 2 - lo (grp i) ^ 2) + lo (grp i) ^ 2 ≤ c ^ 2)
    (ho : ∀ i < n, ∀ j < n, grp i ≠ grp j → c < D i j) : Recovers n grp (cutLabels Z (numGroups n grp)) := by
  have inner : ∀ i < n, ∀ j < n, i ≠ j → grp i = grp j → D i j ≤ c := by
    intro i hi' j hj hne e
    obtain ⟨h1, h2⟩ := hin i hi' j hj hne e
    have hsize : (2 : ℝ) ≤ groupSize n grp (grp i) := by
      have : 1 < groupSize n grp (grp i) := Finset.one_lt_card.mpr
        ⟨i, mem_filter.mpr ⟨mem_range.mpr hi', rfl⟩, j, mem_filter.mpr ⟨mem_range.mpr hj, e.symm⟩, hne⟩
      exact_mod_cast this
    have h3 : lo (grp i) ^ 2 ≤ hi (grp i) ^ 2 := pow_le_pow_left₀ (hlo _) (h1.trans h2) 2
    have h4 : 1 * (hi (grp i) ^ 2 - lo (grp i) ^ 2) ≤ groupSize n grp (grp i) / 2 * (hi (grp i) ^ 2 - lo (grp i) ^ 2) :=
      mul_le_mul_of_nonneg_right (by linarith) (by linarith)
    have h5 : D i j ^ 2 ≤ hi (grp i) ^ 2 := pow_le_pow_left₀ (h0 i hi' j hj) h2 2
    exact le_of_sq_le_sq (by linarith [hc i hi']) hc0
  refine recover (by simp) hn hD h0 h (c := c) ?_ ?_
  · intro s Z1 hr hg hh r hcl hrc p hp q hq
    by_contra hne
    refine absurd hrc (not_le.mpr ?_)
    rw [hcl.2.2.2.1]
    refine ward_lower hD hd h0 hr hcl.1 hcl.2.1 hcl.2.2.1 hc0 ?_ ?_
    · intro z hz _ p hp q hq hpq
      exact inner p (hg.range z hz p hp) q (hg.range z hz q hq) hpq (hh z hz p hp q hq)
    · intro p' hp' q' hq'
      refine ho _ (hg.range _ hcl.1 _ hp') _ (hg.range _ hcl.2.1 _ hq') ?_
      rw [hh _ hcl.1 p' hp' p hp, hh _ hcl.2.1 q' hq' q hq]
      exact hne
  · rintro s Z1 hr hg hh x hx y hy hne ⟨p, hp, q, hq, e⟩
    have hpn := hg.range x hx p hp
    have same : ∀ i ∈ s.pts x ++ s.pts y, grp i = grp p := by
      intro i hi'
      rcases List.mem_append.mp hi' with hi' | hi'
      · exact hh x hx i hi' p hp
      · rw [hh y hy i hi' q hq, e]
    have hrange : ∀ i ∈ s.pts x ++ s.pts y, i < n := fun i hi' => (List.mem_append.mp hi').elim (hg.range x hx i) (hg.range y hy i)
    refine ⟨x, hx, y, hy, hne, le_of_sq_le_sq ((ward_upper hD hd h0 hr hx hy hne (hlo (grp p)) (hi := hi (grp p)) ?_
      (m := groupSize n grp (grp p)) ?_).trans (hc p hpn)) hc0⟩
    · intro i hi' j hj hij
      have := hin i (hrange i hi') j (hrange j hj) hij ((same i hi').trans (same j hj).symm)
      rwa [same i hi'] at this
    · exact size_le hg hx hy hne same

/-- C117. Ward's method with a bound `a` for the distances inside groups of at most `m` points: the distances between groups
must be greater than `a √(m / 2)`. -/
theorem ward_found_size {n : Nat} (hn : 2 ≤ n) {D : Nat → Nat → ℝ} (hD : ∀ i < n, ∀ j < n, D i j = D j i) (hd : ∀ i < n, D i i = 0)
    (h0 : ∀ i < n, ∀ j < n, 0 ≤ D i j) {Z : List Row} (h : IsLinkage .ward n D Z) {grp : Nat → Nat} {a : ℝ} {m : Nat} (ha : 0 ≤ a)
    (hm : ∀ g, groupSize n grp g ≤ m) (hin : ∀ i < n, ∀ j < n, grp i = grp j → D i j ≤ a)
    (ho : ∀ i < n, ∀ j < n, grp i ≠ grp j → a * √(m / 2) < D i j) : Recovers n grp (cutLabels Z (numGroups n grp)) := by
  refine ward_found hn hD hd h0 h (lo := fun _ => 0) (hi := fun _ => a) (c := a * √(m / 2)) (by positivity) (fun _ => le_rfl)
    (fun i hi j hj _ e => ⟨h0 i hi j hj, hin i hi j hj e⟩) (fun i _ => ?_) ho
  have h1 : (groupSize n grp (grp i) : ℝ) ≤ m := by exact_mod_cast hm (grp i)
  rw [mul_pow, Real.sq_sqrt (by positivity)]
  nlinarith [mul_le_mul_of_nonneg_right h1 (sq_nonneg a)]

/-! ### The size enters: two pairs and two single points on a line -/

/-- Points at 0, 0, 1, 1, 10 and 11.2. -/
noncomputable def sixPos (i : Nat) : ℝ := if i < 2 then 0 else if i < 4 then 1 else if i = 4 then 10 else 56 / 5

noncomputable def sixD (i j : Nat) : ℝ := |sixPos i - sixPos j|

/-- The groups: the first four points are at most 1 apart, every other distance is at least 1.2. -/
def sixGrp (i : Nat) : Nat := if i < 4 then 0 else i

theorem six_separated : (∀ i < 6, ∀ j < 6, sixGrp i = sixGrp j → sixD i j ≤ 1) ∧ ∀ i < 6, ∀ j < 6, sixGrp i ≠ sixGrp j → 6 / 5 ≤ sixD i j := by
  constructor <;> intro i hi j hj <;> interval_cases i <;> interval_cases j <;> norm_num [sixGrp, sixD, sixPos]

theorem six_groups : numGroups 6 sixGrp = 3 := by
  unfold numGroups
  decide

/-- What Ward's method finds instead: the two pairs and the two single points together. -/
def sixWard (i : Nat) : Nat := i / 2

theorem six_ward_groups : numGroups 6 sixWard = 3 := by
  unfold numGroups
  decide

theorem six_size (g : Nat) : groupSize 6 sixWard g ≤ 2 := by
  unfold groupSize sixWard
  by_cases h : g < 3
  · interval_cases g <;> decide
  · rw [card_eq_zero.mpr (filter_eq_empty_iff.mpr fun i hi => by have := mem_range.mp hi; omega)]
    omega

theorem six_ward {Z : List Row} (h : IsLinkage .ward 6 sixD Z) : Recovers 6 sixWard (cutLabels Z 3) := by
  have hD : ∀ i < 6, ∀ j < 6, sixD i j = sixD j i := fun i _ j _ => abs_sub_comm _ _
  have hd : ∀ i < 6, sixD i i = 0 := fun i _ => by simp [sixD]
  have h0 : ∀ i < 6, ∀ j < 6, 0 ≤ sixD i j := fun i _ j _ => abs_nonneg _
  have hle : ∀ i < 6, ∀ j < 6, sixWard i = sixWard j → sixD i j ≤ 6 / 5 := by
    intro i hi j hj
    interval_cases i <;> interval_cases j <;> norm_num [sixWard, sixD, sixPos]
  have hzero : ∀ i < 6, ∀ j < 6, sixWard i = sixWard j → sixWard i ≠ 2 → sixD i j = 0 := by
    intro i hi j hj
    interval_cases i <;> interval_cases j <;> norm_num [sixWard, sixD, sixPos]
  have hone : ∀ i < 6, ∀ j < 6, sixWard i ≠ sixWard j → sixWard i ≠ 2 → sixWard j ≠ 2 → sixD i j = 1 := by
    intro i hi j hj
    interval_cases i <;> interval_cases j <;> norm_num [sixWard, sixD, sixPos]
  have hfar : ∀ i < 6, ∀ j < 6, sixWard i ≠ sixWard j → sixWard i = 2 ∨ sixWard j = 2 → 6 / 5 < sixD i j := by
    intro i hi j hj
    interval_cases i <;> interval_cases j <;> norm_num [sixWard, sixD, sixPos]
  have res := recover (grp := sixWard) (by simp) (by norm_num) hD h0 h (c := 6 / 5) ?_ ?_
  · rw [six_ward_groups] at res
    exact res
  · intro s Z1 hr hg hh r hcl hrc p hp q hq
    by_contra hne
    have hpn := hg.range _ hcl.1 p hp
    have hqn := hg.range _ hcl.2.1 q hq
    rw [hcl.2.2.2.1] at hrc
    by_cases h2 : sixWard p = 2 ∨ sixWard q = 2
    · refine absurd hrc (not_le.mpr (ward_lower hD hd h0 hr hcl.1 hcl.2.1 hcl.2.2.1 (by norm_num) ?_ ?_))
      · intro z hz _ p hp q hq _
        exact hle p (hg.range z hz p hp) q (hg.range z hz q hq) (hh z hz p hp q hq)
      · intro p' hp' q' hq'
        refine hfar _ (hg.range _ hcl.1 _ hp') _ (hg.range _ hcl.2.1 _ hq') ?_ ?_
        · rw [hh _ hcl.1 p' hp' p hp, hh _ hcl.2.1 q' hq' q hq]
          exact hne
        · rw [hh _ hcl.1 p' hp' p hp, hh _ hcl.2.1 q' hq' q hq]
          exact h2
    · push Not at h2
      have hcross : ∀ p' ∈ s.pts r.a, ∀ q' ∈ s.pts r.b, sixD p' q' = 1 := by
        intro p' hp' q' hq'
        have e1 := hh _ hcl.1 p' hp' p hp
        have e2 := hh _ hcl.2.1 q' hq' q hq
        exact hone _ (hg.range _ hcl.1 _ hp') _ (hg.range _ hcl.2.1 _ hq') (by rw [e1, e2]; exact hne) (by rw [e1]; exact h2.1) (by rw [e2]; exact h2.2)
      have hsame : ∀ z ∈ s.live, ∀ p' ∈ s.pts z, sixWard p' ≠ 2 → ∀ q' ∈ s.pts z, sixD p' q' = 0 := fun z hz p' hp' h q' hq' =>
        hzero _ (hg.range z hz p' hp') _ (hg.range z hz q' hq') (hh z hz p' hp' q' hq') h
      have hin : ∀ z ∈ s.live, z = r.a ∨ z = r.b → ∀ p' ∈ s.pts z, ∀ q' ∈ s.pts z, sixD p' q' = 0 := by
        rintro z hz (rfl | rfl) p' hp' q' hq'
        · exact hsame _ hz p' hp' (by rw [hh _ hz p' hp' p hp]; exact h2.1) q' hq'
        · exact hsame _ hz p' hp' (by rw [hh _ hz p' hp' q hq]; exact h2.2) q' hq'
      have hpos : 0 < s.D r.a r.b := ward_lower hD hd h0 hr hcl.1 hcl.2.1 hcl.2.2.1 le_rfl
        (fun z hz hzz p' hp' q' hq' _ => (hin z hz hzz p' hp' q' hq').le) fun p' hp' q' hq' => by rw [hcross p' hp' q' hq']; norm_num
      have full : ∀ z ∈ s.live, z = r.a ∨ z = r.b → ∀ i < 6, ∀ p' ∈ s.pts z, sixWard i = sixWard p' → i ∈ s.pts z := by
        intro z hz hzz i hi p' hp' e
        by_contra hcon
        obtain ⟨w, hw, hiw⟩ := hg.cover i hi
        have hzw : z ≠ w := by rintro rfl; exact hcon hiw
        have hp2 : sixWard p' ≠ 2 := by
          rcases hzz with rfl | rfl
          · rw [hh _ hz p' hp' p hp]; exact h2.1
          · rw [hh _ hz p' hp' q hq]; exact h2.2
        have grp : ∀ j ∈ s.pts z ++ s.pts w, sixWard j = sixWard p' := by
          intro j hj
          rcases List.mem_append.mp hj with hj | hj
          · exact hh z hz j hj p' hp'
          · rw [hh w hw j hj i hiw, e]
        have hrange : ∀ j ∈ s.pts z ++ s.pts w, j < 6 := fun j hj => (List.mem_append.mp hj).elim (hg.range z hz j) (hg.range w hw j)
        have hup := ward_upper hD hd h0 hr hz hw hzw (lo := 0) (hi := 0) le_rfl (fun j hj j' hj' _ => by
          have := hzero j (hrange j hj) j' (hrange j' hj') ((grp j hj).trans (grp j' hj').symm) (by rw [grp j hj]; exact hp2)
          rw [this]; simp) le_rfl
        have hmin := hcl.2.2.2.2 z hz w hw hzw
        rw [hcl.2.2.2.1] at hmin
        nlinarith
      have two : ∀ z ∈ s.live, z = r.a ∨ z = r.b → ∀ p' ∈ s.pts z, 2 ≤ s.sz z := by
        intro z hz hzz p' hp'
        have hp6 := hg.range z hz p' hp'
        obtain ⟨i, hi, hip, e⟩ : ∃ i < 6, i ≠ p' ∧ sixWard i = sixWard p' := by
          have : ∀ p < 6, ∃ i < 6, i ≠ p ∧ sixWard i = sixWard p := by decide
          exact this p' hp6
        have hiz := full z hz hzz i hi p' hp' e
        have : 1 < (s.pts z).toFinset.card := Finset.one_lt_card.mpr ⟨i, by simpa using hiz, p', by simpa using hp', hip⟩
        rw [List.toFinset_card_of_nodup (hg.nodup z hz)] at this
        unfold Agg.sz
        exact_mod_cast this
      have ta := two _ hcl.1 (.inl rfl) p hp
      have tb := two _ hcl.2.1 (.inr rfl) q hq
      obtain ⟨-, hv⟩ := ward_value hD hd h0 hr hcl.1 hcl.2.1 hcl.2.2.1
      have c1 : s.sz r.a * s.sz r.b * 1 ≤ cross (fun i j => sixD i j ^ 2) (s.pts r.a) (s.pts r.b) :=
        le_cross fun p' hp' q' hq' => by rw [hcross p' hp' q' hq']; norm_num
      have c2 : ∀ z ∈ s.live, z = r.a ∨ z = r.b → cross (fun i j => sixD i j ^ 2) (s.pts z) (s.pts z) ≤ 0 := fun z hz hzz => by
        have := cross_le (f := fun i j => sixD i j ^ 2) (M := 0) (l := s.pts z) (l' := s.pts z) fun p' hp' q' hq' => by
          rw [hin z hz hzz p' hp' q' hq']; norm_num
        simpa using this
      have c3 := mul_nonpos_of_nonpos_of_nonneg (c2 _ hcl.1 (.inl rfl)) (div_nonneg (by linarith) (by linarith) : 0 ≤ s.sz r.b / s.sz r.a)
      have c4 := mul_nonpos_of_nonpos_of_nonneg (c2 _ hcl.2.1 (.inr rfl)) (div_nonneg (by linarith) (by linarith) : 0 ≤ s.sz r.a / s.sz r.b)
      have c5 : s.sz r.a + s.sz r.b ≤ s.sz r.a * s.sz r.b := by nlinarith
      have c6 : 2 * (s.sz r.a + s.sz r.b) ≤ s.D r.a r.b ^ 2 * (s.sz r.a + s.sz r.b) := by linarith
      have c7 : (2 : ℝ) ≤ s.D r.a r.b ^ 2 := le_of_mul_le_mul_right c6 (by linarith)
      nlinarith
  · rintro s Z1 hr hg hh x hx y hy hne ⟨p, hp, q, hq, e⟩
    have same : ∀ i ∈ s.pts x ++ s.pts y, sixWard i = sixWard p := by
      intro i hi'
      rcases List.mem_append.mp hi' with hi' | hi'
      · exact hh x hx i hi' p hp
      · rw [hh y hy i hi' q hq, e]
    have hrange : ∀ i ∈ s.pts x ++ s.pts y, i < 6 := fun i hi' => (List.mem_append.mp hi').elim (hg.range x hx i) (hg.range y hy i)
    have hsz : s.sz x + s.sz y ≤ 2 := (size_le hg hx hy hne same).trans (by exact_mod_cast six_size _)
    have hup := ward_upper hD hd h0 hr hx hy hne (lo := 0) (hi := 6 / 5) le_rfl (fun j hj j' hj' _ =>
      ⟨h0 j (hrange j hj) j' (hrange j' hj'), hle j (hrange j hj) j' (hrange j' hj') ((same j hj).trans (same j' hj').symm)⟩) hsz
    refine ⟨x, hx, y, hy, hne, le_of_sq_le_sq ?_ (by norm_num)⟩
    linarith

/-- C117, limit. Ward's method, the default, need not find separated groups: the distances inside the groups are at most 1, those
between them at least 1.2, and `get_clusters(3)` puts the two single points together and splits the group of four, whatever
choices are made among equal distances. Single, complete, average and weighted linkage find the groups. -/
theorem ward_size_matters {Z : List Row} :
    (IsLinkage .ward 6 sixD Z → lab (cutLabels Z 3) 4 = lab (cutLabels Z 3) 5 ∧ lab (cutLabels Z 3) 0 ≠ lab (cutLabels Z 3) 2) ∧
    ∀ m, m = .single ∨ m = .complete ∨ m = .average ∨ m = .weighted → IsLinkage m 6 sixD Z → Recovers 6 sixGrp (cutLabels Z 3) := by
  refine ⟨fun h => ?_, fun m hm h => ?_⟩
  · have := six_ward h
    refine ⟨(this 4 (by norm_num) 5 (by norm_num)).mpr rfl, fun hcon => ?_⟩
    have := (this 0 (by norm_num) 2 (by norm_num)).mp hcon
    simp [sixWard] at this
  · have := separated_found (grp := sixGrp) hm (by norm_num) (fun i _ j _ => abs_sub_comm _ _) (fun i _ j _ => abs_nonneg _) h (c := 1)
      (fun i hi j hj _ e => six_separated.1 i hi j hj e) fun i hi j hj e => lt_of_lt_of_le (by norm_num) (six_separated.2 i hi j hj e)
    rw [six_groups] at this
    exact this

/-- A chain: the points 0, 1, 2 and 4 on a line, joined up to 2 by steps of one; single linkage keeps the first three together although
0 and 2 are as far apart as 2 and 4. -/
example : ∃ Z, IsLinkage .single 4 (fun i j => |(if i = 3 then 4 else (i : ℝ)) - if j = 3 then 4 else (j : ℝ)|) Z ∧
    Recovers 4 (fun i => i / 3) (cutLabels Z (numGroups 4 fun i => i / 3)) := by
  obtain ⟨Z, hZ⟩ := linkage_exists .single (n := 4) (by norm_num) (D := fun i j => |(if i = 3 then 4 else (i : ℝ)) - if j = 3 then 4 else (j : ℝ)|)
    fun _ _ _ _ => abs_sub_comm _ _
  have hw : ∀ i < 3, Way 4 (fun i j => |(if i = 3 then 4 else (i : ℝ)) - if j = 3 then 4 else (j : ℝ)|) 1 0 i := by
    intro i hi
    interval_cases i
    · exact .refl
    · exact .single ⟨by norm_num, by norm_num, by norm_num⟩
    · exact .head (b := 1) ⟨by norm_num, by norm_num, by norm_num⟩ (.single ⟨by norm_num, by norm_num, by norm_num⟩)
  refine ⟨Z, hZ, single_found (by norm_num) (fun _ _ _ _ => abs_sub_comm _ _) (fun _ _ _ _ => abs_nonneg _) hZ (c := 1) (fun i hi j hj e => ?_) fun i hi j hj => ?_⟩
  · by_cases hi3 : i < 3
    · exact ((hw i hi3).symm fun _ _ _ _ => abs_sub_comm _ _).trans (hw j (by omega))
    · have : i = j := by omega
      rw [this]
      exact .refl
  · interval_cases i <;> interval_cases j <;> norm_num

/-- Both kinds of linkages exist. -/
example (m : Method) : ∃ Z, IsLinkage m 6 sixD Z := linkage_exists m (by norm_num) fun _ _ _ _ => abs_sub_comm _ _

end Verif.Clust
