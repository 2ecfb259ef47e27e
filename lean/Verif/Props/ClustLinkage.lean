import Verif.Lemmas.Linkage
import Verif.Props.ClustCut

/-!
# C91, C92: what the clusters are

The clusters that `HC.get_clusters` returns for the linkage methods of scipy.
-/

namespace Verif.Clust

open Verif Verif.Props.ClustSelect Classical Finset

/-- C91. For every method and all distances there is a matrix that `linkage` may return. -/
theorem linkage_exists (m : Method) {n : Nat} (hn : 1 ≤ n) {D : Nat → Nat → ℝ} (hD : ∀ i < n, ∀ j < n, D i j = D j i) : ∃ Z, IsLinkage m n D Z := by
  obtain ⟨Z, s, h1, h2⟩ := exists_runs m (n - 1) (Agg.good_init hD) (by simp [Agg.init]; omega)
  exact ⟨Z, by omega, s, h2⟩

/-- C91. What `linkage` returns for distances that are not negative is valid for `cut_tree`. -/
theorem linkage_valid {m : Method} {n : Nat} (hn : 2 ≤ n) {D : Nat → Nat → ℝ} (hD : ∀ i < n, ∀ j < n, D i j = D j i) (h0 : ∀ i < n, ∀ j < n, 0 ≤ D i j)
    {Z : List Row} (h : IsLinkage m n D Z) : ValidLinkage n Z := by
  obtain ⟨hl, s, hr⟩ := h
  have hg := Agg.good_init (n := n) hD
  obtain ⟨u1, _, u3⟩ := hr.used hg
  refine ⟨hn, hl, hr.nonneg hg ?_, ?_, u1⟩
  · intro x hx y hy _
    exact h0 x ((live_init n D x).mp hx) y ((live_init n D y).mp hy)
  · intro i hi
    have := u3 i hi
    simpa [Agg.init] using this

/-- C91. With each of the methods single, complete, average, weighted and ward the distances of the rows do not decrease. -/
theorem linkage_sorted {m : Method} (hm : m ≠ .centroid ∧ m ≠ .median) {n : Nat} {D : Nat → Nat → ℝ} (hD : ∀ i < n, ∀ j < n, D i j = D j i)
    (h0 : ∀ i < n, ∀ j < n, 0 ≤ D i j) {Z : List Row} (h : IsLinkage m n D Z) : Z.Pairwise fun r q => r.d ≤ q.d := by
  obtain ⟨_, s, hr⟩ := h
  refine (hr.sorted hm (Agg.good_init hD) le_rfl ?_).2
  intro x hx y hy _
  exact h0 x ((live_init n D x).mp hx) y ((live_init n D y).mp hy)

/-- C91. So that, with these methods, `get_clusters(k)` returns as many clusters as asked for. -/
theorem linkage_cut {m : Method} (hm : m ≠ .centroid ∧ m ≠ .median) {n : Nat} (hn : 2 ≤ n) {D : Nat → Nat → ℝ} (hD : ∀ i < n, ∀ j < n, D i j = D j i)
    (h0 : ∀ i < n, ∀ j < n, 0 ≤ D i j) {Z : List Row} (h : IsLinkage m n D Z) : CutSpec n (cutLabels Z) :=
  cutSpec_of_sorted (linkage_valid hn hD h0 h) (linkage_sorted hm hD h0 h)

/-! ### The clusters at a height -/

theorem split_at {Z : List Row} (hs : Z.Pairwise fun r q => r.d ≤ q.d) (c : ℝ) : ∃ Z1 Z2, Z = Z1 ++ Z2 ∧ (∀ r ∈ Z1, r.d ≤ c) ∧ (∀ r ∈ Z2, c < r.d) ∧
    (Z.filter fun r => decide (r.d ≤ c)) = Z1 := by
  induction Z with
  | nil => exact ⟨[], [], rfl, by simp, by simp, rfl⟩
  | cons r Z ih =>
    obtain ⟨h1, h2⟩ := List.pairwise_cons.mp hs
    by_cases hr : r.d ≤ c
    · obtain ⟨Z1, Z2, rfl, g1, g2, g3⟩ := ih h2
      refine ⟨r :: Z1, Z2, rfl, ?_, g2, ?_⟩
      · intro q hq
        rcases List.mem_cons.mp hq with rfl | hq
        exacts [hr, g1 q hq]
      · rw [List.filter_cons_of_pos (by simpa using hr), g3]
    · refine ⟨[], r :: Z, rfl, by simp, ?_, ?_⟩
      · intro q hq
        rcases List.mem_cons.mp hq with rfl | hq
        exacts [not_le.mp hr, (not_le.mp hr).trans_le (h1 q hq)]
      · rw [List.filter_eq_nil_iff]
        intro q hq
        rcases List.mem_cons.mp hq with rfl | hq
        · simpa using hr
        · simpa using (not_le.mp hr).trans_le (h1 q hq)

/-- The labels at a height are the clusters there are after the rows up to that height. -/
theorem cut_state {m : Method} (hm : m.Monotone) {n : Nat} (hn : 2 ≤ n) {D : Nat → Nat → ℝ} (hD : ∀ i < n, ∀ j < n, D i j = D j i)
    (h0 : ∀ i < n, ∀ j < n, 0 ≤ D i j) {Z : List Row} (h : IsLinkage m n D Z) {k : Nat} (h1 : 1 ≤ k) (hk : k ≤ n) {c : ℝ}
    (hc : (Z.filter fun r => decide (r.d ≤ c)).length = n - k) :
    ∃ s, Runs m (.init n D) (Z.filter fun r => decide (r.d ≤ c)) s ∧ s.Good n ∧ s.live.card = k ∧
      (∀ x ∈ s.live, ∀ y ∈ s.live, x ≠ y → c < s.D x y) ∧
      ∀ p < n, ∀ q < n, lab (cutLabels Z k) p = lab (cutLabels Z k) q ↔ ∃ x ∈ s.live, p ∈ s.pts x ∧ q ∈ s.pts x := by
  have hv := linkage_valid hn hD h0 h
  have hs := linkage_sorted hm hD h0 h
  obtain ⟨hl, sf, hr⟩ := h
  have hg := Agg.good_init (n := n) hD
  obtain ⟨x0, hx0, ht⟩ := Runs.last hD hn hl hr
  obtain ⟨Z1, Z2, rfl, g1, g2, g3⟩ := split_at hs c
  rw [g3] at hc ⊢
  obtain ⟨s, r1, r2⟩ := hr.append
  have hgs := r1.good hg
  have hcard := (r1.card hg).1
  have hcn : (Agg.init n D).live.card = n := by simp [Agg.init]
  refine ⟨s, r1, hgs, by omega, ?_, ?_⟩
  · intro x hx y hy hne
    cases r2 with
    | nil =>
      have := Finset.one_lt_card.mpr ⟨x, hx, y, hy, hne⟩
      rw [hx0, Finset.card_singleton] at this
      omega
    | cons hcl _ => exact (g2 _ List.mem_cons_self).trans_le (hcl.2.2.2.2 x hx y hy hne)
  · intro p hp q hq
    rw [cut_height hv hs ht h1 hk (by rw [g3]; exact hc) hp hq]
    constructor
    · rintro (rfl | ⟨u, hu, hud, hpu, hqu⟩)
      · obtain ⟨x, hx, hpx⟩ := hgs.cover p hp
        exact ⟨x, hx, hpx, hpx⟩
      · obtain ⟨y, hy, huy⟩ := r2.nodes_old hgs g2 x0 (by rw [hx0]; simp) u hu hud
        have sub : ∀ {t u : Tree}, u ∈ t.internal → ∀ p ∈ u.leaves, p ∈ t.leaves := by
          intro t
          induction t with
          | leaf i => exact fun h => absurd h List.not_mem_nil
          | node d l r ihl ihr =>
            intro u hu p hp
            rcases List.mem_cons.mp hu with rfl | hu
            · exact hp
            · rcases List.mem_append.mp hu with hu | hu
              · exact List.mem_append.mpr (.inl (ihl hu p hp))
              · exact List.mem_append.mpr (.inr (ihr hu p hp))
        refine ⟨y, hy, ?_, ?_⟩
        · rw [Agg.pts_eq (hgs.lt y hy)]
          exact sub huy p hpu
        · rw [Agg.pts_eq (hgs.lt y hy)]
          exact sub huy q hqu
    · rintro ⟨y, hy, hpy, hqy⟩
      rw [Agg.pts_eq (hgs.lt y hy)] at hpy hqy
      cases e : s.tree y with
      | leaf i =>
        rw [e] at hpy hqy
        left
        rw [List.mem_singleton.mp hpy, List.mem_singleton.mp hqy]
      | node d l r =>
        right
        have hmem : Tree.node d l r ∈ (s.tree y).internal := by rw [e]; exact List.mem_cons_self
        have hle := r1.nodes_le hg g1 (by
          intro x hx u hu
          rw [tree_init D ((live_init n D x).mp hx)] at hu
          exact absurd hu List.not_mem_nil) y hy _ hmem
        obtain ⟨z, hz, hzu⟩ := r2.nodes_stay hgs ⟨y, hy, hmem⟩
        rw [hx0, Finset.mem_singleton] at hz
        rw [e] at hpy hqy
        exact ⟨_, hz ▸ hzu, hle, hpy, hqy⟩

/-- If all distances of the rows are different, every number of clusters is a cut at some height. -/
theorem height_exists {Z : List Row} (hs : Z.Pairwise fun r q => r.d < q.d) {j : Nat} (hj : j ≤ Z.length) :
    ∃ c : ℝ, (Z.filter fun r => decide (r.d ≤ c)).length = j := by
  induction Z generalizing j with
  | nil => exact ⟨0, by simp at hj ⊢; omega⟩
  | cons r Z ih =>
    obtain ⟨h1, h2⟩ := List.pairwise_cons.mp hs
    cases j with
    | zero =>
      refine ⟨r.d - 1, ?_⟩
      rw [List.filter_eq_nil_iff.mpr]
      · rfl
      · intro q hq
        rcases List.mem_cons.mp hq with rfl | hq
        · simp
        · have := h1 q hq
          simp only [decide_eq_true_eq, not_le]
          linarith
    | succ j =>
      by_cases hj0 : j = 0
      · subst hj0
        refine ⟨r.d, ?_⟩
        rw [List.filter_cons_of_pos (by simp), List.filter_eq_nil_iff.mpr]
        · rfl
        · intro q hq
          simpa using h1 q hq
      · obtain ⟨c, hc⟩ := ih h2 (j := j) (by simpa using hj)
        refine ⟨c, ?_⟩
        have : (Z.filter fun r => decide (r.d ≤ c)) ≠ [] := by
          intro e
          rw [e] at hc
          exact hj0 hc.symm
        obtain ⟨q, hq⟩ := List.exists_mem_of_ne_nil _ this
        obtain ⟨hq, hqc⟩ := List.mem_filter.mp hq
        rw [List.filter_cons_of_pos (by simpa using (h1 q hq).le.trans (by simpa using hqc)), List.length_cons, hc]

/-! ### Single linkage -/

/-- A way from one point to another by steps of at most `c`. -/
def Way (n : Nat) (D : Nat → Nat → ℝ) (c : ℝ) : Nat → Nat → Prop := Relation.ReflTransGen fun i j => i < n ∧ j < n ∧ D i j ≤ c

theorem Way.symm {n : Nat} {D : Nat → Nat → ℝ} (hD : ∀ i < n, ∀ j < n, D i j = D j i) {c : ℝ} {p q : Nat} (h : Way n D c p q) : Way n D c q p := by
  induction h with
  | refl => exact .refl
  | tail _ h ih => exact .head ⟨h.2.1, h.1, by rw [hD _ h.2.1 _ h.1]; exact h.2.2⟩ ih

/-- C92. Single linkage: two points are in the same cluster if and only if there is a way from one to the other by steps of at
most `c`. -/
theorem single_clusters {n : Nat} (hn : 2 ≤ n) {D : Nat → Nat → ℝ} (hD : ∀ i < n, ∀ j < n, D i j = D j i) (h0 : ∀ i < n, ∀ j < n, 0 ≤ D i j)
    {Z : List Row} (h : IsLinkage .single n D Z) {k : Nat} (h1 : 1 ≤ k) (hk : k ≤ n) {c : ℝ} (hc : (Z.filter fun r => decide (r.d ≤ c)).length = n - k)
    {p q : Nat} (hp : p < n) (hq : q < n) :
    lab (cutLabels Z k) p = lab (cutLabels Z k) q ↔ Way n D c p q := by
  obtain ⟨s, hr, hg, -, hgap, hlab⟩ := cut_state ⟨by simp, by simp⟩ hn hD h0 h h1 hk hc
  rw [hlab p hp q hq]
  have hi := (Runs.keep (n := n) (I := fun s => (∀ x ∈ s.live, ∀ y ∈ s.live, x ≠ y → (∃ p ∈ s.pts x, ∃ q ∈ s.pts y, s.D x y = D p q) ∧
      ∀ p ∈ s.pts x, ∀ q ∈ s.pts y, s.D x y ≤ D p q) ∧ ∀ x ∈ s.live, ∀ p ∈ s.pts x, ∀ q ∈ s.pts x, Way n D c p q)
    (P := fun r => r.d ≤ c) ?_ hr (Agg.good_init hD) ⟨?_, ?_⟩ ?_).2
  · constructor
    · rintro ⟨x, hx, hpx, hqx⟩
      exact hi.2 x hx p hpx q hqx
    · intro hw
      have : ∀ r, Way n D c p r → r < n → ∃ x ∈ s.live, p ∈ s.pts x ∧ r ∈ s.pts x := by
        intro r hw
        induction hw with
        | refl =>
          intro _
          obtain ⟨x, hx, hpx⟩ := hg.cover p hp
          exact ⟨x, hx, hpx, hpx⟩
        | @tail b r _ hst ih =>
          intro _
          obtain ⟨x, hx, hpx, hbx⟩ := ih hst.1
          obtain ⟨y, hy, hry⟩ := hg.cover r hst.2.1
          by_cases e : x = y
          · exact ⟨x, hx, hpx, e ▸ hry⟩
          · have h2 := (hi.1 x hx y hy e).2 b hbx r hry
            have h3 := hgap x hx y hy e
            linarith [hst.2.2]
      exact this q hw hq
  · rintro s r hg ⟨i1, i2⟩ hc hrc
    have la := hg.lt _ hc.1
    have lb := hg.lt _ hc.2.1
    have hnew : ∀ y ∈ s.live, y ≠ r.a → y ≠ r.b → (∃ p ∈ (s.merge .single r).pts s.trees.length, ∃ q ∈ s.pts y, (s.merge .single r).D s.trees.length y = D p q) ∧
        ∀ p ∈ (s.merge .single r).pts s.trees.length, ∀ q ∈ s.pts y, (s.merge .single r).D s.trees.length y ≤ D p q := by
      intro y hy ha hb
      rw [Agg.D_new, Agg.pts_new _ la lb]
      obtain ⟨⟨p1, hp1, q1, hq1, e1⟩, l1⟩ := i1 _ hc.1 y hy (Ne.symm ha)
      obtain ⟨⟨p2, hp2, q2, hq2, e2⟩, l2⟩ := i1 _ hc.2.1 y hy (Ne.symm hb)
      show (∃ p ∈ _, ∃ q ∈ _, min _ _ = _) ∧ ∀ p ∈ _, ∀ q ∈ _, min _ _ ≤ _
      constructor
      · rcases min_choice (s.D r.a y) (s.D r.b y) with e | e <;> rw [e]
        · exact ⟨p1, List.mem_append.mpr (.inl hp1), q1, hq1, e1⟩
        · exact ⟨p2, List.mem_append.mpr (.inr hp2), q2, hq2, e2⟩
      · intro p hp q hq
        rcases List.mem_append.mp hp with hp | hp
        · exact (min_le_left _ _).trans (l1 p hp q hq)
        · exact (min_le_right _ _).trans (l2 p hp q hq)
    constructor
    · intro x hx y hy hne
      rcases Agg.mem_merge.mp hx with rfl | ⟨hx, hxa, hxb⟩ <;> rcases Agg.mem_merge.mp hy with rfl | ⟨hy, hya, hyb⟩
      · exact absurd rfl hne
      · rw [Agg.pts_merge (hg.lt y hy)]
        exact hnew y hy hya hyb
      · rw [Agg.pts_merge (hg.lt x hx), Agg.D_new' (hg.lt x hx)]
        obtain ⟨⟨p, hp, q, hq, e⟩, l⟩ := hnew x hx hxa hxb
        have hb : ∀ p ∈ (s.merge .single r).pts s.trees.length, p < n :=
          (hg.merge .single hc.1 hc.2.1 hc.2.2.1).range _ (Agg.mem_merge.mpr (.inl rfl))
        refine ⟨⟨q, hq, p, hp, by rw [e, hD _ (hb p hp) _ (hg.range x hx q hq)]⟩, fun q hq p hp => ?_⟩
        rw [hD _ (hg.range x hx q hq) _ (hb p hp)]
        exact l p hp q hq
      · rw [Agg.pts_merge (hg.lt x hx), Agg.pts_merge (hg.lt y hy), Agg.D_merge (hg.lt x hx) (hg.lt y hy)]
        exact i1 x hx y hy hne
    · intro x hx p hp q hq
      rcases Agg.mem_merge.mp hx with rfl | ⟨hx, hxa, hxb⟩
      · rw [Agg.pts_new _ la lb] at hp hq
        obtain ⟨⟨p1, hp1, q1, hq1, e1⟩, -⟩ := i1 _ hc.1 _ hc.2.1 hc.2.2.1
        have hstep : Way n D c p1 q1 := .single ⟨hg.range _ hc.1 _ hp1, hg.range _ hc.2.1 _ hq1, by rw [← e1, ← hc.2.2.2.1]; exact hrc⟩
        rcases List.mem_append.mp hp with hp | hp <;> rcases List.mem_append.mp hq with hq | hq
        · exact i2 _ hc.1 p hp q hq
        · exact (i2 _ hc.1 p hp p1 hp1).trans (hstep.trans (i2 _ hc.2.1 q1 hq1 q hq))
        · exact (i2 _ hc.2.1 p hp q1 hq1).trans ((hstep.symm hD).trans (i2 _ hc.1 p1 hp1 q hq))
        · exact i2 _ hc.2.1 p hp q hq
      · rw [Agg.pts_merge (hg.lt x hx)] at hp hq
        exact i2 x hx p hp q hq
  · intro x hx y hy hne
    have hx := (live_init n D x).mp hx
    have hy := (live_init n D y).mp hy
    rw [pts_init D hx, pts_init D hy]
    simp [Agg.init]
  · intro x hx p hp q hq
    rw [pts_init D ((live_init n D x).mp hx), List.mem_singleton] at hp hq
    rw [hp, hq]
    exact .refl
  · intro r hr
    simpa using (List.mem_filter.mp hr).2

/-! ### Relations between two clusters and their distance -/

/-- What holds for two points and their distance, in both directions, and is passed on by the formula of the method holds for
all clusters. -/
theorem Runs.pairs {m : Method} {n : Nat} {D : Nat → Nat → ℝ} (hD : ∀ i < n, ∀ j < n, D i j = D j i) {F : List Nat → List Nat → ℝ → Prop}
    (hi : ∀ i < n, ∀ j < n, F [i] [j] (D i j)) (hsym : ∀ l l' d, (∀ p ∈ l, p < n) → (∀ p ∈ l', p < n) → F l l' d → F l' l d)
    (hstep : ∀ s : Agg, s.Good n → ∀ r, s.Closest r → ∀ y ∈ s.live, y ≠ r.a → y ≠ r.b → F (s.pts r.a) (s.pts r.b) (s.D r.a r.b) →
      F (s.pts r.a) (s.pts y) (s.D r.a y) → F (s.pts r.b) (s.pts y) (s.D r.b y) →
      F (s.pts r.a ++ s.pts r.b) (s.pts y) (m.update (s.D r.a y) (s.D r.b y) (s.D r.a r.b) (s.sz r.a) (s.sz r.b) (s.sz y)))
    {s : Agg} {Z : List Row} (h : Runs m (.init n D) Z s) : ∀ x ∈ s.live, ∀ y ∈ s.live, x ≠ y → F (s.pts x) (s.pts y) (s.D x y) := by
  refine (Runs.keep (n := n) (I := fun s => ∀ x ∈ s.live, ∀ y ∈ s.live, x ≠ y → F (s.pts x) (s.pts y) (s.D x y)) (P := fun _ => True) ?_ h
    (Agg.good_init hD) ?_ fun _ _ => trivial).2
  · intro s r hg i1 hc _ x hx y hy hne
    have la := hg.lt _ hc.1
    have lb := hg.lt _ hc.2.1
    have hg' := hg.merge m hc.1 hc.2.1 hc.2.2.1
    have hnew : ∀ y ∈ s.live, y ≠ r.a → y ≠ r.b → F ((s.merge m r).pts s.trees.length) ((s.merge m r).pts y) ((s.merge m r).D s.trees.length y) := by
      intro y hy ha hb
      rw [Agg.D_new, Agg.pts_new _ la lb, Agg.pts_merge (hg.lt y hy)]
      exact hstep s hg r hc y hy ha hb (i1 _ hc.1 _ hc.2.1 hc.2.2.1) (i1 _ hc.1 _ hy (Ne.symm ha)) (i1 _ hc.2.1 _ hy (Ne.symm hb))
    rcases Agg.mem_merge.mp hx with rfl | ⟨hx', hxa, hxb⟩ <;> rcases Agg.mem_merge.mp hy with rfl | ⟨hy', hya, hyb⟩
    · exact absurd rfl hne
    · exact hnew y hy' hya hyb
    · rw [Agg.D_new' (hg.lt x hx')]
      exact hsym _ _ _ (hg'.range _ hy) (hg'.range _ hx) (hnew x hx' hxa hxb)
    · rw [Agg.pts_merge (hg.lt x hx'), Agg.pts_merge (hg.lt y hy'), Agg.D_merge (hg.lt x hx') (hg.lt y hy')]
      exact i1 x hx' y hy' hne
  · intro x hx y hy _
    have hx := (live_init n D x).mp hx
    have hy := (live_init n D y).mp hy
    rw [pts_init D hx, pts_init D hy]
    exact hi x hx y hy

/-! ### Complete linkage -/

/-- C92. Complete linkage: the points of a cluster are at distances of at most `c` from each other, and any two clusters have
points at a distance of more than `c`. -/
theorem complete_clusters {n : Nat} (hn : 2 ≤ n) {D : Nat → Nat → ℝ} (hD : ∀ i < n, ∀ j < n, D i j = D j i) (h0 : ∀ i < n, ∀ j < n, 0 ≤ D i j)
    {Z : List Row} (h : IsLinkage .complete n D Z) {k : Nat} (h1 : 1 ≤ k) (hk : k ≤ n) {c : ℝ}
    (hc : (Z.filter fun r => decide (r.d ≤ c)).length = n - k) {p q : Nat} (hp : p < n) (hq : q < n) :
    (lab (cutLabels Z k) p = lab (cutLabels Z k) q → p ≠ q → D p q ≤ c) ∧
    (lab (cutLabels Z k) p ≠ lab (cutLabels Z k) q → ∃ i < n, ∃ j < n, lab (cutLabels Z k) i = lab (cutLabels Z k) p ∧
      lab (cutLabels Z k) j = lab (cutLabels Z k) q ∧ c < D i j) := by
  obtain ⟨s, hr, hg, -, hgap, hlab⟩ := cut_state ⟨by simp, by simp⟩ hn hD h0 h h1 hk hc
  have hpair : ∀ {s : Agg} {Z : List Row}, Runs .complete (.init n D) Z s → ∀ x ∈ s.live, ∀ y ∈ s.live, x ≠ y →
      (∃ p ∈ s.pts x, ∃ q ∈ s.pts y, s.D x y = D p q) ∧ ∀ p ∈ s.pts x, ∀ q ∈ s.pts y, D p q ≤ s.D x y := by
    intro s Z hr
    refine hr.pairs hD (F := fun l l' d => (∃ p ∈ l, ∃ q ∈ l', d = D p q) ∧ ∀ p ∈ l, ∀ q ∈ l', D p q ≤ d) (by simp) ?_ ?_
    · rintro l l' d hl hl' ⟨⟨p, hp, q, hq, e⟩, hle⟩
      exact ⟨⟨q, hq, p, hp, by rw [e, hD _ (hl p hp) _ (hl' q hq)]⟩, fun q hq p hp => by rw [hD _ (hl' q hq) _ (hl p hp)]; exact hle p hp q hq⟩
    · rintro s _ r _ y _ _ _ - ⟨⟨p1, hp1, q1, hq1, e1⟩, l1⟩ ⟨⟨p2, hp2, q2, hq2, e2⟩, l2⟩
      show (∃ p ∈ _, ∃ q ∈ _, max _ _ = _) ∧ ∀ p ∈ _, ∀ q ∈ _, _ ≤ max _ _
      constructor
      · rcases max_choice (s.D r.a y) (s.D r.b y) with e | e <;> rw [e]
        · exact ⟨p1, List.mem_append.mpr (.inl hp1), q1, hq1, e1⟩
        · exact ⟨p2, List.mem_append.mpr (.inr hp2), q2, hq2, e2⟩
      · intro p hp q hq
        rcases List.mem_append.mp hp with hp | hp
        · exact (l1 p hp q hq).trans (le_max_left _ _)
        · exact (l2 p hp q hq).trans (le_max_right _ _)
  have hin := (Runs.keep (n := n) (I := fun s => (∃ Z, Runs .complete (.init n D) Z s) ∧ ∀ x ∈ s.live, ∀ p ∈ s.pts x, ∀ q ∈ s.pts x, p ≠ q → D p q ≤ c)
    (P := fun r => r.d ≤ c) ?_ hr (Agg.good_init hD) ⟨⟨[], .nil _⟩, ?_⟩ ?_).2.2
  · constructor
    · intro he hne
      obtain ⟨x, hx, hpx, hqx⟩ := (hlab p hp q hq).mp he
      exact hin x hx p hpx q hqx hne
    · intro hno
      obtain ⟨x, hx, hpx⟩ := hg.cover p hp
      obtain ⟨y, hy, hqy⟩ := hg.cover q hq
      have hxy : x ≠ y := by
        rintro rfl
        exact hno ((hlab p hp q hq).mpr ⟨x, hx, hpx, hqy⟩)
      obtain ⟨⟨i, hi, j, hj, e⟩, -⟩ := hpair hr x hx y hy hxy
      have hin := hg.range x hx i hi
      have hjn := hg.range y hy j hj
      exact ⟨i, hin, j, hjn, (hlab i hin p hp).mpr ⟨x, hx, hi, hpx⟩, (hlab j hjn q hq).mpr ⟨y, hy, hj, hqy⟩, e ▸ hgap x hx y hy hxy⟩
  · rintro s r hg ⟨⟨Z, hZ⟩, i2⟩ hc hrc
    have snoc : ∀ {s0 s1 : Agg} {Z : List Row}, Runs .complete s0 Z s1 → s1.Closest r → Runs .complete s0 (Z ++ [r]) (s1.merge .complete r) := by
      intro s0 s1 Z h
      induction h with
      | nil => exact fun h => .cons h (.nil _)
      | cons hc _ ih => exact fun h => .cons hc (ih h)
    refine ⟨⟨_, snoc hZ hc⟩, ?_⟩
    have la := hg.lt _ hc.1
    have lb := hg.lt _ hc.2.1
    have hab : ∀ p ∈ s.pts r.a, ∀ q ∈ s.pts r.b, D p q ≤ c := by
      intro p hp q hq
      have := (hpair hZ _ hc.1 _ hc.2.1 hc.2.2.1).2 p hp q hq
      rw [← hc.2.2.2.1] at this
      exact this.trans hrc
    intro x hx p hp q hq hne
    rcases Agg.mem_merge.mp hx with rfl | ⟨hx, hxa, hxb⟩
    · rw [Agg.pts_new _ la lb] at hp hq
      rcases List.mem_append.mp hp with hp | hp <;> rcases List.mem_append.mp hq with hq | hq
      · exact i2 _ hc.1 p hp q hq hne
      · exact hab p hp q hq
      · rw [hD _ (hg.range _ hc.2.1 _ hp) _ (hg.range _ hc.1 _ hq)]
        exact hab q hq p hp
      · exact i2 _ hc.2.1 p hp q hq hne
    · rw [Agg.pts_merge (hg.lt x hx)] at hp hq
      exact i2 x hx p hp q hq hne
  · intro x hx p hp q hq hne
    rw [pts_init D ((live_init n D x).mp hx), List.mem_singleton] at hp hq
    exact absurd (hp.trans hq.symm) hne
  · intro r hr
    simpa using (List.mem_filter.mp hr).2

/-! ### Average linkage -/

/-- The points with the label of `p`. -/
def cluster (n : Nat) (g : List Nat) (p : Nat) : Finset Nat := (range n).filter fun i => lab g i = lab g p

/-- The sum over the pairs of two lists. -/
def cross (f : Nat → Nat → ℝ) (l l' : List Nat) : ℝ := (l.map fun p => (l'.map fun q => f p q).sum).sum

theorem cross_append (f : Nat → Nat → ℝ) (l1 l2 l' : List Nat) : cross f (l1 ++ l2) l' = cross f l1 l' + cross f l2 l' := by
  simp [cross]

theorem cross_append_right (f : Nat → Nat → ℝ) (l l1 l2 : List Nat) : cross f l (l1 ++ l2) = cross f l l1 + cross f l l2 := by
  simp [cross, List.sum_map_add]

theorem cross_symm {n : Nat} {f : Nat → Nat → ℝ} (hf : ∀ i < n, ∀ j < n, f i j = f j i) {l l' : List Nat} (hl : ∀ p ∈ l, p < n) (hl' : ∀ p ∈ l', p < n) :
    cross f l l' = cross f l' l := by
  induction l with
  | nil => simp [cross]
  | cons p l ih =>
    have e1 : cross f (p :: l) l' = (l'.map fun q => f p q).sum + cross f l l' := by simp [cross]
    have e2 : cross f l' (p :: l) = (l'.map fun q => f q p).sum + cross f l' l := by simp [cross, List.sum_map_add]
    rw [e1, e2, ih fun q hq => hl q (List.mem_cons_of_mem _ hq)]
    congr 2
    exact List.map_congr_left fun q hq => hf _ (hl p List.mem_cons_self) _ (hl' q hq)

theorem cross_finset (f : Nat → Nat → ℝ) {l l' : List Nat} {A B : Finset Nat} (hl : l.Nodup) (hl' : l'.Nodup) (hA : ∀ p, p ∈ l ↔ p ∈ A)
    (hB : ∀ p, p ∈ l' ↔ p ∈ B) : cross f l l' = ∑ i ∈ A, ∑ j ∈ B, f i j := by
  have e1 : l.toFinset = A := by ext; simp [hA]
  have e2 : l'.toFinset = B := by ext; simp [hB]
  unfold cross
  rw [← e1, ← e2, List.sum_toFinset _ hl]
  congr 1
  exact List.map_congr_left fun p _ => (List.sum_toFinset _ hl').symm

/-- The points of a cluster of the state are those with the label of one of them. -/
theorem pts_cluster {n : Nat} {s : Agg} (hg : s.Good n) {g : List Nat} (hlab : ∀ p < n, ∀ q < n, lab g p = lab g q ↔ ∃ x ∈ s.live, p ∈ s.pts x ∧ q ∈ s.pts x)
    {x : Nat} (hx : x ∈ s.live) {p : Nat} (hp : p ∈ s.pts x) (i : Nat) : i ∈ s.pts x ↔ i ∈ cluster n g p := by
  have hpn := hg.range x hx p hp
  unfold cluster
  rw [mem_filter, mem_range]
  constructor
  · intro hi
    have hin := hg.range x hx i hi
    exact ⟨hin, (hlab i hin p hpn).mpr ⟨x, hx, hi, hp⟩⟩
  · rintro ⟨hin, e⟩
    obtain ⟨y, hy, hiy, hpy⟩ := (hlab i hin p hpn).mp e
    by_cases hxy : x = y
    · exact hxy ▸ hiy
    · exact absurd hpy (hg.disj x hx y hy hxy p hp)

theorem card_pts {n : Nat} {s : Agg} (hg : s.Good n) {x : Nat} (hx : x ∈ s.live) {A : Finset Nat} (hA : ∀ i, i ∈ s.pts x ↔ i ∈ A) : s.sz x = A.card := by
  have e : (s.pts x).toFinset = A := by ext; simp [hA]
  unfold Agg.sz
  rw [← e, List.toFinset_card_of_nodup (hg.nodup x hx)]

/-- C92. Average linkage: the mean distance between the points of two clusters is greater than `c`. -/
theorem average_clusters {n : Nat} (hn : 2 ≤ n) {D : Nat → Nat → ℝ} (hD : ∀ i < n, ∀ j < n, D i j = D j i) (h0 : ∀ i < n, ∀ j < n, 0 ≤ D i j)
    {Z : List Row} (h : IsLinkage .average n D Z) {k : Nat} (h1 : 1 ≤ k) (hk : k ≤ n) {c : ℝ}
    (hc : (Z.filter fun r => decide (r.d ≤ c)).length = n - k) {p q : Nat} (hp : p < n) (hq : q < n)
    (hne : lab (cutLabels Z k) p ≠ lab (cutLabels Z k) q) :
    c < (∑ i ∈ cluster n (cutLabels Z k) p, ∑ j ∈ cluster n (cutLabels Z k) q, D i j) /
      ((cluster n (cutLabels Z k) p).card * (cluster n (cutLabels Z k) q).card) := by
  obtain ⟨s, hr, hg, -, hgap, hlab⟩ := cut_state ⟨by simp, by simp⟩ hn hD h0 h h1 hk hc
  have hpair := hr.pairs hD (F := fun l l' d => d * (l.length * l'.length) = cross D l l') (by simp [cross]) (by
      intro l l' d hl hl' e
      rw [cross_symm hD hl' hl, ← e]
      ring) (by
      intro s hg r hc y hy _ _ _ e1 e2
      have hx := hg.sz_pos hc.1
      have hy := hg.sz_pos hc.2.1
      rw [cross_append, ← e1, ← e2]
      unfold Agg.sz at *
      simp only [Method.update, List.length_append, Nat.cast_add]
      field_simp)
  obtain ⟨x, hx, hpx⟩ := hg.cover p hp
  obtain ⟨y, hy, hqy⟩ := hg.cover q hq
  have hxy : x ≠ y := by
    rintro rfl
    exact hne ((hlab p hp q hq).mpr ⟨x, hx, hpx, hqy⟩)
  have hA := pts_cluster hg hlab hx hpx
  have hB := pts_cluster hg hlab hy hqy
  have e := hpair x hx y hy hxy
  rw [cross_finset D (hg.nodup x hx) (hg.nodup y hy) hA hB] at e
  have sx := hg.sz_pos hx
  have sy := hg.sz_pos hy
  rw [← e, ← card_pts hg hx hA, ← card_pts hg hy hB]
  rw [show ((s.pts x).length : ℝ) = s.sz x from rfl, show ((s.pts y).length : ℝ) = s.sz y from rfl, mul_div_assoc, div_self (by positivity), mul_one]
  exact hgap x hx y hy hxy

/-! ### Ward's method -/

/-- The sum of squares within a set of points: half the mean, over the points, of the sums of squared distances. For points in
a Euclidean space it is the sum of the squared distances to their mean. -/
noncomputable def wss (D : Nat → Nat → ℝ) (A : Finset Nat) : ℝ := (∑ i ∈ A, ∑ j ∈ A, D i j ^ 2) / (2 * A.card)

/-- The same for a list. -/
noncomputable def withinL (D : Nat → Nat → ℝ) (l : List Nat) : ℝ := cross (fun i j => D i j ^ 2) l l / (2 * l.length)

theorem ward_pair {n : Nat} {D : Nat → Nat → ℝ} (hD : ∀ i < n, ∀ j < n, D i j = D j i) (hd : ∀ i < n, D i i = 0) (h0 : ∀ i < n, ∀ j < n, 0 ≤ D i j)
    {s : Agg} {Z : List Row} (hr : Runs .ward (.init n D) Z s) : ∀ x ∈ s.live, ∀ y ∈ s.live, x ≠ y →
      0 ≤ s.D x y ∧ s.D x y ^ 2 = 2 * (withinL D (s.pts x ++ s.pts y) - withinL D (s.pts x) - withinL D (s.pts y)) := by
  have hD2 : ∀ i < n, ∀ j < n, D i j ^ 2 = D j i ^ 2 := fun i hi j hj => by rw [hD i hi j hj]
  refine hr.pairs hD (F := fun l l' d => 0 ≤ d ∧ d ^ 2 = 2 * (withinL D (l ++ l') - withinL D l - withinL D l')) ?_ ?_ ?_
  · intro i hi j hj
    refine ⟨h0 i hi j hj, ?_⟩
    simp [withinL, cross, hd i hi, hd j hj, hD j hj i hi]
    ring
  · rintro l l' d hl hl' ⟨h1, h2⟩
    refine ⟨h1, ?_⟩
    rw [h2]
    unfold withinL
    simp only [cross_append, cross_append_right, cross_symm hD2 hl hl', List.length_append, Nat.cast_add]
    ring
  · rintro s hg r hc y hy hya hyb ⟨p0, e0⟩ ⟨p1, e1⟩ ⟨p2, e2⟩
    have sa := hg.sz_pos hc.1
    have sb := hg.sz_pos hc.2.1
    have sy := hg.sz_pos hy
    refine ⟨Real.sqrt_nonneg _, ?_⟩
    have hnn : 0 ≤ ((s.sz y + s.sz r.a) * s.D r.a y ^ 2 + (s.sz y + s.sz r.b) * s.D r.b y ^ 2 - s.sz y * s.D r.a r.b ^ 2) / (s.sz r.a + s.sz r.b + s.sz y) := by
      have q1 : s.D r.a r.b ^ 2 ≤ s.D r.a y ^ 2 := pow_le_pow_left₀ p0 (hc.2.2.2.1 ▸ hc.2.2.2.2 _ hc.1 _ hy (Ne.symm hya)) 2
      refine div_nonneg ?_ (by positivity)
      nlinarith [mul_le_mul_of_nonneg_left q1 sy.le, sq_nonneg (s.D r.a y), sq_nonneg (s.D r.b y), mul_nonneg sa.le (sq_nonneg (s.D r.a y)),
        mul_nonneg (add_pos sy sb).le (sq_nonneg (s.D r.b y))]
    show √_ ^ 2 = _
    rw [Real.sq_sqrt hnn, e0, e1, e2]
    have c1 := cross_symm hD2 (hg.range _ hc.2.1) (hg.range _ hc.1)
    have c2 := cross_symm hD2 (hg.range _ hy) (hg.range _ hc.1)
    have c3 := cross_symm hD2 (hg.range _ hy) (hg.range _ hc.2.1)
    unfold withinL
    simp only [cross_append, cross_append_right, c1, c2, c3, List.length_append, Nat.cast_add]
    unfold Agg.sz at *
    field_simp
    ring

theorem withinL_eq (D : Nat → Nat → ℝ) {l : List Nat} (hl : l.Nodup) {A : Finset Nat} (hA : ∀ p, p ∈ l ↔ p ∈ A) : withinL D l = wss D A := by
  have e : l.toFinset = A := by ext; simp [hA]
  unfold withinL wss
  rw [cross_finset _ hl hl hA hA, ← e, List.toFinset_card_of_nodup hl]

/-- C92. Ward's method, the default: merging any two clusters would increase the sum of squares within the clusters by more than
half of `c ^ 2`. -/
theorem ward_clusters {n : Nat} (hn : 2 ≤ n) {D : Nat → Nat → ℝ} (hD : ∀ i < n, ∀ j < n, D i j = D j i) (hd : ∀ i < n, D i i = 0)
    (h0 : ∀ i < n, ∀ j < n, 0 ≤ D i j) {Z : List Row} (h : IsLinkage .ward n D Z) {k : Nat} (h1 : 1 ≤ k) (hk : k ≤ n) {c : ℝ} (hc0 : 0 ≤ c)
    (hc : (Z.filter fun r => decide (r.d ≤ c)).length = n - k) {p q : Nat} (hp : p < n) (hq : q < n)
    (hne : lab (cutLabels Z k) p ≠ lab (cutLabels Z k) q) :
    wss D (cluster n (cutLabels Z k) p) + wss D (cluster n (cutLabels Z k) q) + c ^ 2 / 2 <
      wss D (cluster n (cutLabels Z k) p ∪ cluster n (cutLabels Z k) q) := by
  obtain ⟨s, hr, hg, -, hgap, hlab⟩ := cut_state ⟨by simp, by simp⟩ hn hD h0 h h1 hk hc
  obtain ⟨x, hx, hpx⟩ := hg.cover p hp
  obtain ⟨y, hy, hqy⟩ := hg.cover q hq
  have hxy : x ≠ y := by
    rintro rfl
    exact hne ((hlab p hp q hq).mpr ⟨x, hx, hpx, hqy⟩)
  have hA := pts_cluster hg hlab hx hpx
  have hB := pts_cluster hg hlab hy hqy
  obtain ⟨hnn, e⟩ := ward_pair hD hd h0 hr x hx y hy hxy
  have hnod : (s.pts x ++ s.pts y).Nodup :=
    List.nodup_append.mpr ⟨hg.nodup x hx, hg.nodup y hy, fun i hi j hj e => hg.disj x hx y hy hxy i hi (e ▸ hj)⟩
  rw [withinL_eq D hnod (A := cluster n (cutLabels Z k) p ∪ cluster n (cutLabels Z k) q) (fun i => by simp [hA, hB]),
    withinL_eq D (hg.nodup x hx) hA, withinL_eq D (hg.nodup y hy) hB] at e
  have : c ^ 2 < s.D x y ^ 2 := pow_lt_pow_left₀ (hgap x hx y hy hxy) hc0 two_ne_zero
  linarith

theorem ward_state {n : Nat} {D : Nat → Nat → ℝ} (hD : ∀ i < n, ∀ j < n, D i j = D j i) (hd : ∀ i < n, D i i = 0) (h0 : ∀ i < n, ∀ j < n, 0 ≤ D i j)
    (Z : List Row) : ∀ s, Runs .ward (.init n D) Z s → ∑ x ∈ s.live, withinL D (s.pts x) = (Z.map fun r => r.d ^ 2).sum / 2 := by
  have hg := Agg.good_init (n := n) hD
  induction Z using List.reverseRecOn with
  | nil =>
    intro s h
    cases h
    rw [List.map_nil, List.sum_nil, zero_div]
    refine sum_eq_zero fun x hx => ?_
    have hx := (live_init n D x).mp hx
    rw [pts_init D hx]
    simp [withinL, cross, hd x hx]
  | append_singleton Z r ih =>
    intro s h
    obtain ⟨s1, r1, r2⟩ := h.append
    cases r2 with
    | cons hc h2 =>
      cases h2
      have hg1 := r1.good hg
      have la := hg1.lt _ hc.1
      have lb := hg1.lt _ hc.2.1
      have hab : r.b ∈ s1.live.erase r.a := Finset.mem_erase.mpr ⟨Ne.symm hc.2.2.1, hc.2.1⟩
      have hnew : s1.trees.length ∉ (s1.live.erase r.a).erase r.b := by
        intro h
        have := hg1.lt _ (Finset.mem_of_mem_erase (Finset.mem_of_mem_erase h))
        omega
      have e1 : ∑ x ∈ (s1.merge .ward r).live, withinL D ((s1.merge .ward r).pts x) =
          withinL D (s1.pts r.a ++ s1.pts r.b) + ∑ x ∈ (s1.live.erase r.a).erase r.b, withinL D (s1.pts x) := by
        show ∑ x ∈ insert s1.trees.length ((s1.live.erase r.a).erase r.b), withinL D ((s1.merge .ward r).pts x) = _
        rw [sum_insert hnew, Agg.pts_new _ la lb]
        congr 1
        refine sum_congr rfl fun x hx => ?_
        rw [Agg.pts_merge (hg1.lt x (Finset.mem_of_mem_erase (Finset.mem_of_mem_erase hx)))]
      have e2 := sum_erase_add _ (fun x => withinL D (s1.pts x)) hab
      have e3 := sum_erase_add _ (fun x => withinL D (s1.pts x)) hc.1
      have e4 := (ward_pair hD hd h0 r1 _ hc.1 _ hc.2.1 hc.2.2.1).2
      rw [← hc.2.2.2.1] at e4
      rw [e1, List.map_append, List.sum_append]
      have := ih s1 r1
      simp only [List.map_cons, List.map_nil, List.sum_cons, List.sum_nil]
      linarith

/-- C92. Ward's method: the sum of squares within the `k` clusters is half the sum of the squared distances of the rows that
have been merged. -/
theorem ward_total {n : Nat} (hn : 2 ≤ n) {D : Nat → Nat → ℝ} (hD : ∀ i < n, ∀ j < n, D i j = D j i) (hd : ∀ i < n, D i i = 0)
    (h0 : ∀ i < n, ∀ j < n, 0 ≤ D i j) {Z : List Row} (h : IsLinkage .ward n D Z) {k : Nat} (h1 : 1 ≤ k) (hk : k ≤ n) {c : ℝ}
    (hc : (Z.filter fun r => decide (r.d ≤ c)).length = n - k) :
    ∑ v ∈ range k, wss D ((range n).filter fun i => lab (cutLabels Z k) i = v) = ((Z.filter fun r => decide (r.d ≤ c)).map fun r => r.d ^ 2).sum / 2 := by
  have hm : Method.ward ≠ .centroid ∧ Method.ward ≠ .median := ⟨by simp, by simp⟩
  obtain ⟨s, hr, hg, hcard, -, hlab⟩ := cut_state hm hn hD h0 h h1 hk hc
  rw [← ward_state hD hd h0 _ s hr]
  have hne : ∀ x ∈ s.live, ∃ p, p ∈ s.pts x := fun x hx => List.exists_mem_of_ne_nil _ (hg.ne x hx)
  obtain ⟨t, ht, _⟩ := toTree_spec (linkage_valid hn hD h0 h)
  obtain ⟨g1, g2, _⟩ := cut_clusters (linkage_valid hn hD h0 h) (linkage_sorted hm hD h0 h) ht (k := k) (by exact_mod_cast h1)
  have hlt : ∀ p < n, lab (cutLabels Z k) p < k := by
    intro p hp
    have := (g2 (lab (cutLabels Z k) p)).mp (by
      unfold lab
      rw [List.getElem?_eq_getElem (by omega), Option.getD_some]
      exact List.getElem_mem _)
    omega
  symm
  refine sum_bij (fun x hx => lab (cutLabels Z k) (hne x hx).choose) ?_ ?_ ?_ ?_
  · intro x hx
    exact mem_range.mpr (hlt _ (hg.range x hx _ (hne x hx).choose_spec))
  · intro x hx y hy e
    have px := (hne x hx).choose_spec
    have py := (hne y hy).choose_spec
    obtain ⟨z, hz, h3, h4⟩ := (hlab _ (hg.range x hx _ px) _ (hg.range y hy _ py)).mp e
    have e1 : x = z := by
      by_contra h
      exact hg.disj x hx z hz h _ px h3
    have e2 : y = z := by
      by_contra h
      exact hg.disj y hy z hz h _ py h4
    rw [e1, e2]
  · intro v hv
    have hv := (g2 v).mpr (by have := mem_range.mp hv; omega)
    obtain ⟨p, hp, e⟩ := List.mem_iff_getElem.mp hv
    have hp' : p < n := by omega
    have e' : lab (cutLabels Z k) p = v := by
      unfold lab
      rw [List.getElem?_eq_getElem hp, Option.getD_some, e]
    obtain ⟨x, hx, hpx⟩ := hg.cover p hp'
    refine ⟨x, hx, ?_⟩
    have px := (hne x hx).choose_spec
    rw [← e']
    exact (hlab _ (hg.range x hx _ px) p hp').mpr ⟨x, hx, px, hpx⟩
  · intro x hx
    exact withinL_eq D (hg.nodup x hx) (pts_cluster hg hlab hx (hne x hx).choose_spec)

end Verif.Clust
