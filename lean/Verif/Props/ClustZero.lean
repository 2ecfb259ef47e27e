import Verif.Props.ClustLinkage

/-!
# Points at distance zero

C103: with the methods whose distances do not decrease, points at distance zero are merged first, so that a cut with at most
as many clusters as there are different points never separates them.
-/

namespace Verif.Clust

open Classical

/-- Merging two clusters at distance zero: the distances from the new cluster that are zero. -/
theorem update_zero {m : Method} {dx dy sx sy si : ℝ} (h1 : 0 ≤ dx) (h2 : 0 ≤ dy) (hx : 0 < sx) (hy : 0 < sy) (hs : 0 < si)
    (he : dx = 0 ↔ dy = 0) : m.update dx dy 0 sx sy si = 0 ↔ dx = 0 := by
  by_cases h : dx = 0
  · have hy0 := he.mp h
    subst h hy0
    cases m <;> simp [Method.update]
  · have p1 : 0 < dx := lt_of_le_of_ne h1 (Ne.symm h)
    have p2 : 0 < dy := lt_of_le_of_ne h2 fun e => h (he.mpr e.symm)
    refine iff_of_false (ne_of_gt ?_) h
    cases m <;> simp only [Method.update]
    · exact lt_min p1 p2
    · exact lt_max_of_lt_left p1
    · positivity
    · positivity
    · refine Real.sqrt_pos.mpr ?_
      have : sx * dx ^ 2 + sy * dy ^ 2 - sx * sy * 0 ^ 2 / (sx + sy) = sx * dx ^ 2 + sy * dy ^ 2 := by ring
      rw [this]
      positivity
    · refine Real.sqrt_pos.mpr ?_
      have : (dx ^ 2 + dy ^ 2) / 2 - 0 ^ 2 / 4 = (dx ^ 2 + dy ^ 2) / 2 := by ring
      rw [this]
      positivity
    · refine Real.sqrt_pos.mpr ?_
      have : (si + sx) * dx ^ 2 + (si + sy) * dy ^ 2 - si * 0 ^ 2 = (si + sx) * dx ^ 2 + (si + sy) * dy ^ 2 := by ring
      rw [this]
      positivity

/-- Merging at distance zero keeps: clusters consist of points at distance zero, and two clusters are at distance zero exactly if
their points are. -/
theorem zero_run {m : Method} {n : Nat} {D : Nat → Nat → ℝ} (hD : ∀ i < n, ∀ j < n, D i j = D j i)
    (h0 : ∀ i < n, ∀ j < n, 0 ≤ D i j) (hz : ∀ i < n, D i i = 0)
    (ht : ∀ i < n, ∀ j < n, ∀ k < n, D i j = 0 → D j k = 0 → D i k = 0) {Z : List Row} {s : Agg} (h : Runs m (.init n D) Z s)
    (hZ : ∀ r ∈ Z, r.d ≤ 0) :
    (∀ x ∈ s.live, ∀ p ∈ s.pts x, ∀ q ∈ s.pts x, D p q = 0) ∧
    ∀ x ∈ s.live, ∀ y ∈ s.live, x ≠ y → 0 ≤ s.D x y ∧ ∀ p ∈ s.pts x, ∀ q ∈ s.pts y, s.D x y = 0 ↔ D p q = 0 := by
  refine (Runs.keep (n := n) (P := fun r => r.d ≤ 0) (I := fun s => (∀ x ∈ s.live, ∀ p ∈ s.pts x, ∀ q ∈ s.pts x, D p q = 0) ∧
    ∀ x ∈ s.live, ∀ y ∈ s.live, x ≠ y → 0 ≤ s.D x y ∧ ∀ p ∈ s.pts x, ∀ q ∈ s.pts y, s.D x y = 0 ↔ D p q = 0) ?_ h
    (Agg.good_init hD) ⟨?_, ?_⟩ hZ).2
  · rintro s r hg ⟨i1, i2⟩ hc hr
    obtain ⟨ha, hb, hab, hd, -⟩ := hc
    have la := hg.lt _ ha
    have lb := hg.lt _ hb
    have hab0 : s.D r.a r.b = 0 := le_antisymm (hd ▸ hr) (i2 _ ha _ hb hab).1
    have hpq : ∀ p ∈ s.pts r.a, ∀ q ∈ s.pts r.b, D p q = 0 := fun p hp q hq => ((i2 _ ha _ hb hab).2 p hp q hq).mp hab0
    have swap : ∀ p < n, ∀ q < n, D p q = 0 ↔ D q p = 0 := fun p hp q hq => by rw [hD p hp q hq]
    have hnew : ∀ y ∈ s.live, y ≠ r.a → y ≠ r.b → 0 ≤ (s.merge m r).D s.trees.length y ∧
        ∀ p ∈ s.pts r.a ++ s.pts r.b, ∀ q ∈ s.pts y, (s.merge m r).D s.trees.length y = 0 ↔ D p q = 0 := by
      intro y hy ya yb
      obtain ⟨a1, a2⟩ := i2 _ ha _ hy (Ne.symm ya)
      obtain ⟨b1, b2⟩ := i2 _ hb _ hy (Ne.symm yb)
      rw [Agg.D_new, hab0]
      refine ⟨update_nonneg m a1 b1 (hg.sz_pos ha) (hg.sz_pos hb), ?_⟩
      obtain ⟨p0, hp0⟩ := List.exists_mem_of_ne_nil _ (hg.ne _ ha)
      obtain ⟨q0, hq0⟩ := List.exists_mem_of_ne_nil _ (hg.ne _ hb)
      have np := hg.range _ ha _ hp0
      have nq := hg.range _ hb _ hq0
      have key : ∀ z ∈ s.pts y, D p0 z = 0 ↔ D q0 z = 0 := by
        intro z hzy
        have nz := hg.range _ hy _ hzy
        exact ⟨ht q0 nq p0 np z nz ((swap _ np _ nq).mp (hpq p0 hp0 q0 hq0)), ht p0 np q0 nq z nz (hpq p0 hp0 q0 hq0)⟩
      intro p hp z hzy
      rw [update_zero a1 b1 (hg.sz_pos ha) (hg.sz_pos hb) (hg.sz_pos hy)
        (by rw [a2 p0 hp0 z hzy, b2 q0 hq0 z hzy]; exact key z hzy)]
      rcases List.mem_append.mp hp with hp | hp
      · exact a2 p hp z hzy
      · rw [a2 p0 hp0 z hzy, key z hzy, ← b2 q0 hq0 z hzy]
        exact b2 p hp z hzy
    constructor
    · intro x hx
      rcases Agg.mem_merge.mp hx with rfl | ⟨hx, hxa, hxb⟩
      · rw [Agg.pts_new m la lb]
        intro p hp q hq
        rcases List.mem_append.mp hp with hp | hp <;> rcases List.mem_append.mp hq with hq | hq
        · exact i1 _ ha p hp q hq
        · exact hpq p hp q hq
        · exact (swap _ (hg.range _ ha _ hq) _ (hg.range _ hb _ hp)).mp (hpq q hq p hp)
        · exact i1 _ hb p hp q hq
      · rw [Agg.pts_merge (hg.lt x hx)]
        exact i1 x hx
    · intro x hx y hy hne
      rcases Agg.mem_merge.mp hx with rfl | ⟨hx, hxa, hxb⟩ <;> rcases Agg.mem_merge.mp hy with rfl | ⟨hy, hya, hyb⟩
      · exact absurd rfl hne
      · rw [Agg.pts_new m la lb, Agg.pts_merge (hg.lt y hy)]
        exact hnew y hy hya hyb
      · rw [Agg.pts_new m la lb, Agg.pts_merge (hg.lt x hx), Agg.D_new' (hg.lt x hx)]
        obtain ⟨n1, n2⟩ := hnew x hx hxa hxb
        refine ⟨n1, fun p hp q hq => ?_⟩
        have nq : q < n := by
          rcases List.mem_append.mp hq with hq | hq
          exacts [hg.range _ ha _ hq, hg.range _ hb _ hq]
        rw [swap _ (hg.range _ hx _ hp) _ nq]
        exact n2 q hq p hp
      · rw [Agg.pts_merge (hg.lt x hx), Agg.pts_merge (hg.lt y hy), Agg.D_merge (hg.lt x hx) (hg.lt y hy)]
        exact i2 x hx y hy hne
  · intro x hx
    have := (live_init n D x).mp hx
    rw [pts_init D this]
    intro p hp q hq
    rw [List.mem_singleton.mp hp, List.mem_singleton.mp hq]
    exact hz x this
  · intro x hx y hy _
    have nx := (live_init n D x).mp hx
    have ny := (live_init n D y).mp hy
    rw [pts_init D nx, pts_init D ny]
    refine ⟨h0 x nx y ny, fun p hp q hq => ?_⟩
    rw [List.mem_singleton.mp hp, List.mem_singleton.mp hq]
    rfl

theorem labels_down {n : Nat} {Z : List Row} (h : ValidLinkage n Z) (hs : Z.Pairwise fun r s => r.d ≤ s.d) {k K : Nat} (h1 : 1 ≤ k) (hk : k ≤ K)
    (hK : K ≤ n) {p q : Nat} (hp : p < n) (hq : q < n) (he : lab (cutLabels Z K) p = lab (cutLabels Z K) q) :
    lab (cutLabels Z k) p = lab (cutLabels Z k) q := by
  induction K, hk using Nat.le_induction with
  | base => exact he
  | succ K hk ih =>
    refine ih (by omega) ?_
    obtain ⟨a, b, -, -, hab⟩ := cut_nested h hs (h1.trans hk) (by omega)
    rw [hab p hp, hab q hq, he]

/-- C103. Points at distance zero are not separated: with the methods single, complete, average, weighted and ward, if "at
distance zero" is transitive (as for every distance with the triangle inequality) and there are `k` points that are pairwise
not at distance zero, then a cut into `k` clusters (or fewer) puts any two points at distance zero into one cluster. -/
theorem zero_together {m : Method} (hm : m.Monotone) {n : Nat} (hn : 2 ≤ n) {D : Nat → Nat → ℝ} (hD : ∀ i < n, ∀ j < n, D i j = D j i)
    (h0 : ∀ i < n, ∀ j < n, 0 ≤ D i j) (hz : ∀ i < n, D i i = 0)
    (ht : ∀ i < n, ∀ j < n, ∀ k < n, D i j = 0 → D j k = 0 → D i k = 0) {Z : List Row} (h : IsLinkage m n D Z) {k : Nat} (h1 : 1 ≤ k)
    {S : Finset Nat} (hS : ∀ i ∈ S, i < n) (hk : k ≤ S.card) (hne : ∀ i ∈ S, ∀ j ∈ S, i ≠ j → D i j ≠ 0) {p q : Nat} (hp : p < n)
    (hq : q < n) (hpq : D p q = 0) : lab (cutLabels Z k) p = lab (cutLabels Z k) q := by
  have hlen : (Z.filter fun r => decide (r.d ≤ 0)).length ≤ Z.length := List.length_filter_le _ _
  have hl := h.1
  obtain ⟨s, hr, hg, hcard, hgt, hlab⟩ := cut_state hm hn hD h0 h (k := n - (Z.filter fun r => decide (r.d ≤ 0)).length) (by omega)
    (by omega) (c := 0) (by omega)
  obtain ⟨i1, i2⟩ := zero_run hD h0 hz ht hr fun r hr => by simpa using (List.mem_filter.mp hr).2
  have same : lab (cutLabels Z (n - (Z.filter fun r => decide (r.d ≤ 0)).length : Nat)) p =
      lab (cutLabels Z (n - (Z.filter fun r => decide (r.d ≤ 0)).length : Nat)) q := by
    rw [hlab p hp q hq]
    obtain ⟨x, hx, hpx⟩ := hg.cover p hp
    obtain ⟨y, hy, hqy⟩ := hg.cover q hq
    by_cases hxy : x = y
    · subst hxy
      exact ⟨x, hx, hpx, hqy⟩
    · have := ((i2 x hx y hy hxy).2 p hpx q hqy).mpr hpq
      exact absurd this (hgt x hx y hy hxy).ne'
  have hSc : S.card ≤ n - (Z.filter fun r => decide (r.d ≤ 0)).length := by
    rw [← hcard]
    refine Finset.card_le_card_of_injOn (fun i => if hi : i < n then (hg.cover i hi).choose else 0) ?_ ?_
    · intro i hi
      have := hS i hi
      simp only [dif_pos this]
      exact (hg.cover i this).choose_spec.1
    · intro i hi j hj hij
      have ni := hS i hi
      have nj := hS j hj
      simp only [dif_pos ni, dif_pos nj] at hij
      by_contra hc
      refine hne i hi j hj hc (i1 _ (hg.cover i ni).choose_spec.1 i (hg.cover i ni).choose_spec.2 j ?_)
      rw [hij]
      exact (hg.cover j nj).choose_spec.2
  exact labels_down (linkage_valid hn hD h0 h) (linkage_sorted hm hD h0 h) h1 (hk.trans hSc) (by omega) hp hq same

end Verif.Clust
