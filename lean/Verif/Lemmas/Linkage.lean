import Verif.Model.Linkage
import Verif.Lemmas.CutTree
import Mathlib.Tactic.Linarith
import Mathlib.Tactic.FieldSimp
import Mathlib.Tactic.Positivity

/-!
# Facts about agglomeration
-/

namespace Verif.Clust

open Classical

/-! ### The state after a row -/

structure Agg.Good (n : Nat) (s : Agg) : Prop where
  lt : ∀ x ∈ s.live, x < s.trees.length
  cover : ∀ p < n, ∃ x ∈ s.live, p ∈ s.pts x
  range : ∀ x ∈ s.live, ∀ p ∈ s.pts x, p < n
  disj : ∀ x ∈ s.live, ∀ y ∈ s.live, x ≠ y → ∀ p ∈ s.pts x, p ∉ s.pts y
  nodup : ∀ x ∈ s.live, (s.pts x).Nodup
  ne : ∀ x ∈ s.live, s.pts x ≠ []
  sym : ∀ x ∈ s.live, ∀ y ∈ s.live, x ≠ y → s.D x y = s.D y x

theorem Agg.pts_eq {s : Agg} {x : Nat} (h : x < s.trees.length) : s.pts x = (s.tree x).leaves := by
  unfold Agg.pts Agg.tree
  rw [List.getElem?_eq_getElem h]
  rfl

theorem Agg.merge_length (m : Method) (s : Agg) (r : Row) : (s.merge m r).trees.length = s.trees.length + 1 := by
  simp [Agg.merge]

theorem Agg.mem_merge {m : Method} {s : Agg} {r : Row} {x : Nat} :
    x ∈ (s.merge m r).live ↔ x = s.trees.length ∨ x ∈ s.live ∧ x ≠ r.a ∧ x ≠ r.b := by
  simp only [Agg.merge, Finset.mem_insert, Finset.mem_erase]
  tauto

theorem Agg.tree_merge {m : Method} {s : Agg} {r : Row} {x : Nat} (h : x < s.trees.length) : (s.merge m r).tree x = s.tree x := by
  unfold Agg.tree Agg.merge
  dsimp only
  rw [List.getElem?_append_left h]

theorem Agg.tree_new (m : Method) (s : Agg) (r : Row) : (s.merge m r).tree s.trees.length = .node r.d (s.tree r.a) (s.tree r.b) := by
  unfold Agg.merge
  conv_lhs => unfold Agg.tree
  dsimp only
  rw [List.getElem?_append_right le_rfl]
  simp only [Nat.sub_self, List.getElem?_cons_zero, Option.getD_some]
  rfl

theorem Agg.pts_merge {m : Method} {s : Agg} {r : Row} {x : Nat} (h : x < s.trees.length) : (s.merge m r).pts x = s.pts x := by
  rw [Agg.pts_eq h, Agg.pts_eq (by rw [Agg.merge_length]; omega), Agg.tree_merge h]

theorem Agg.pts_new (m : Method) {s : Agg} {r : Row} (ha : r.a < s.trees.length) (hb : r.b < s.trees.length) :
    (s.merge m r).pts s.trees.length = s.pts r.a ++ s.pts r.b := by
  rw [Agg.pts_eq ha, Agg.pts_eq hb, Agg.pts_eq (by rw [Agg.merge_length]; omega), Agg.tree_new]
  rfl

theorem Agg.D_merge {m : Method} {s : Agg} {r : Row} {x y : Nat} (hx : x < s.trees.length) (hy : y < s.trees.length) :
    (s.merge m r).D x y = s.D x y := by
  simp only [Agg.merge]
  rw [if_neg (by omega), if_neg (by omega)]

theorem Agg.D_new {m : Method} {s : Agg} {r : Row} {x : Nat} :
    (s.merge m r).D s.trees.length x = m.update (s.D r.a x) (s.D r.b x) (s.D r.a r.b) (s.sz r.a) (s.sz r.b) (s.sz x) := by
  simp [Agg.merge]

theorem Agg.D_new' {m : Method} {s : Agg} {r : Row} {x : Nat} (hx : x < s.trees.length) :
    (s.merge m r).D x s.trees.length = (s.merge m r).D s.trees.length x := by
  simp only [Agg.merge]
  rw [if_neg (by omega), if_pos trivial, if_pos trivial]

theorem Agg.good_init {n : Nat} {D : Nat → Nat → ℝ} (hD : ∀ i < n, ∀ j < n, D i j = D j i) : (Agg.init n D).Good n := by
  have e : ∀ x < n, (Agg.init n D).pts x = [x] := by
    intro x hx
    simp [Agg.init, Agg.pts, hx, Tree.leaves]
  have hl : ∀ x, x ∈ (Agg.init n D).live ↔ x < n := by simp [Agg.init]
  refine ⟨fun x hx => by simpa [Agg.init] using hx, fun p hp => ⟨p, (hl p).mpr hp, by rw [e p hp]; simp⟩, fun x hx p hp => ?_,
    fun x hx y hy hne p hp hq => ?_, fun x hx => ?_, fun x hx => ?_, fun x hx y hy _ => hD x ((hl x).mp hx) y ((hl y).mp hy)⟩
  · rw [e x ((hl x).mp hx), List.mem_singleton] at hp
    rw [hp]
    exact (hl x).mp hx
  · rw [e x ((hl x).mp hx), List.mem_singleton] at hp
    rw [e y ((hl y).mp hy), List.mem_singleton] at hq
    omega
  · rw [e x ((hl x).mp hx)]; simp
  · rw [e x ((hl x).mp hx)]; simp

theorem Agg.Good.merge {n : Nat} {s : Agg} (h : s.Good n) (m : Method) {r : Row} (ha : r.a ∈ s.live) (hb : r.b ∈ s.live) (hab : r.a ≠ r.b) :
    (s.merge m r).Good n := by
  have la := h.lt _ ha
  have lb := h.lt _ hb
  have old : ∀ x ∈ s.live, x < s.trees.length := h.lt
  have key : ∀ x ∈ (s.merge m r).live, x = s.trees.length ∨ x < s.trees.length ∧ x ∈ s.live ∧ x ≠ r.a ∧ x ≠ r.b := by
    intro x hx
    rcases Agg.mem_merge.mp hx with rfl | hx
    · exact .inl rfl
    · exact .inr ⟨old x hx.1, hx⟩
  refine ⟨fun x hx => ?_, fun p hp => ?_, fun x hx p hp => ?_, fun x hx y hy hne p hp hq => ?_, fun x hx => ?_, fun x hx => ?_,
    fun x hx y hy hne => ?_⟩
  · rw [Agg.merge_length]
    rcases key x hx with rfl | ⟨hx, _⟩ <;> omega
  · obtain ⟨x, hx, hpx⟩ := h.cover p hp
    by_cases hxa : x = r.a
    · refine ⟨_, Agg.mem_merge.mpr (.inl rfl), ?_⟩
      rw [Agg.pts_new m la lb]
      exact List.mem_append.mpr (.inl (hxa ▸ hpx))
    by_cases hxb : x = r.b
    · refine ⟨_, Agg.mem_merge.mpr (.inl rfl), ?_⟩
      rw [Agg.pts_new m la lb]
      exact List.mem_append.mpr (.inr (hxb ▸ hpx))
    exact ⟨x, Agg.mem_merge.mpr (.inr ⟨hx, hxa, hxb⟩), by rwa [Agg.pts_merge (old x hx)]⟩
  · rcases key x hx with rfl | ⟨hx, hx', _⟩
    · rw [Agg.pts_new m la lb] at hp
      rcases List.mem_append.mp hp with hp | hp
      exacts [h.range _ ha p hp, h.range _ hb p hp]
    · rw [Agg.pts_merge hx] at hp
      exact h.range x hx' p hp
  · rcases key x hx with rfl | ⟨hx, hx', hxa, hxb⟩ <;> rcases key y hy with rfl | ⟨hy, hy', hya, hyb⟩
    · exact hne rfl
    · rw [Agg.pts_new m la lb] at hp
      rw [Agg.pts_merge hy] at hq
      rcases List.mem_append.mp hp with hp | hp
      exacts [h.disj _ ha _ hy' (Ne.symm hya) p hp hq, h.disj _ hb _ hy' (Ne.symm hyb) p hp hq]
    · rw [Agg.pts_new m la lb] at hq
      rw [Agg.pts_merge hx] at hp
      rcases List.mem_append.mp hq with hq | hq
      exacts [h.disj _ hx' _ ha hxa p hp hq, h.disj _ hx' _ hb hxb p hp hq]
    · rw [Agg.pts_merge hx] at hp
      rw [Agg.pts_merge hy] at hq
      exact h.disj _ hx' _ hy' hne p hp hq
  · rcases key x hx with rfl | ⟨hx, hx', _⟩
    · rw [Agg.pts_new m la lb]
      exact List.nodup_append.mpr ⟨h.nodup _ ha, h.nodup _ hb, fun p hp q hq e => h.disj _ ha _ hb hab p hp (e ▸ hq)⟩
    · rw [Agg.pts_merge hx]
      exact h.nodup x hx'
  · rcases key x hx with rfl | ⟨hx, hx', _⟩
    · rw [Agg.pts_new m la lb]
      intro e
      exact h.ne _ ha (List.append_eq_nil_iff.mp e).1
    · rw [Agg.pts_merge hx]
      exact h.ne x hx'
  · rcases key x hx with rfl | ⟨hx, hx', _⟩ <;> rcases key y hy with rfl | ⟨hy, hy', _⟩
    · rfl
    · rw [Agg.D_new' hy]
    · rw [Agg.D_new' hx]
    · rw [Agg.D_merge hx hy, Agg.D_merge hy hx]
      exact h.sym x hx' y hy' hne

theorem Agg.Good.sz_pos {n : Nat} {s : Agg} (h : s.Good n) {x : Nat} (hx : x ∈ s.live) : 0 < s.sz x := by
  unfold Agg.sz
  have := List.length_pos_iff.mpr (h.ne x hx)
  exact_mod_cast this

theorem Runs.append {m : Method} {Z1 Z2 : List Row} : ∀ {s s' : Agg}, Runs m s (Z1 ++ Z2) s' → ∃ s1, Runs m s Z1 s1 ∧ Runs m s1 Z2 s' := by
  induction Z1 with
  | nil => exact fun h => ⟨_, .nil _, h⟩
  | cons r Z1 ih =>
    intro s s' h
    cases h with
    | cons hc h =>
      obtain ⟨s1, h1, h2⟩ := ih h
      exact ⟨s1, .cons hc h1, h2⟩

/-- What is kept by every row with a property `P` holds at the end. -/
theorem Runs.keep {m : Method} {n : Nat} {I : Agg → Prop} {P : Row → Prop}
    (hI : ∀ s r, s.Good n → I s → s.Closest r → P r → I (s.merge m r)) {s s' : Agg} {Z : List Row} (h : Runs m s Z s')
    (hg : s.Good n) (hs : I s) (hP : ∀ r ∈ Z, P r) : s'.Good n ∧ I s' := by
  induction h with
  | nil => exact ⟨hg, hs⟩
  | cons hc _ ih =>
    exact ih (hg.merge m hc.1 hc.2.1 hc.2.2.1) (hI _ _ hg hs hc (hP _ List.mem_cons_self)) fun r hr => hP r (List.mem_cons_of_mem _ hr)

theorem Runs.good {m : Method} {n : Nat} {s s' : Agg} {Z : List Row} (h : Runs m s Z s') (hg : s.Good n) : s'.Good n :=
  (Runs.keep (I := fun _ => True) (P := fun _ => True) (fun _ _ _ _ _ _ => trivial) h hg trivial fun _ _ => trivial).1

theorem Runs.card {m : Method} {n : Nat} {s s' : Agg} {Z : List Row} (h : Runs m s Z s') (hg : s.Good n) :
    s'.live.card + Z.length = s.live.card ∧ s'.trees.length = s.trees.length + Z.length := by
  induction h with
  | nil => simp
  | @cons s s' r Z hc _ ih =>
    obtain ⟨h1, h2⟩ := ih (hg.merge m hc.1 hc.2.1 hc.2.2.1)
    have : (s.merge m r).live.card + 1 = s.live.card := by
      show (insert s.trees.length ((s.live.erase r.a).erase r.b)).card + 1 = _
      have hb : r.b ∈ s.live.erase r.a := Finset.mem_erase.mpr ⟨Ne.symm hc.2.2.1, hc.2.1⟩
      rw [Finset.card_insert_of_notMem, Finset.card_erase_add_one hb, Finset.card_erase_of_mem hc.1]
      · have := Finset.card_pos.mpr ⟨_, hc.1⟩
        omega
      · intro h
        have := hg.lt _ (Finset.mem_of_mem_erase (Finset.mem_of_mem_erase h))
        omega
    rw [Agg.merge_length] at h2
    rw [List.length_cons]
    omega

theorem Runs.trees_eq {m : Method} {n : Nat} {s s' : Agg} {Z : List Row} (h : Runs m s Z s') (hg : s.Good n) :
    toTreeGo s.trees Z = some s'.trees := by
  induction h with
  | nil => rfl
  | @cons s s' r Z hc _ ih =>
    have := ih (hg.merge m hc.1 hc.2.1 hc.2.2.1)
    have la := hg.lt _ hc.1
    have lb := hg.lt _ hc.2.1
    rw [← this]
    conv_lhs => unfold toTreeGo
    rw [List.getElem?_eq_getElem la, List.getElem?_eq_getElem lb]
    simp only [Agg.merge, Agg.tree, List.getElem?_eq_getElem la, List.getElem?_eq_getElem lb, Option.getD_some]

/-! ### Rows that can be returned -/

theorem exists_closest {s : Agg} (h : 2 ≤ s.live.card) : ∃ r, s.Closest r := by
  obtain ⟨x, hx, y, hy, hne⟩ := Finset.one_lt_card.mp (by omega : 1 < s.live.card)
  have : ((s.live ×ˢ s.live).filter fun p => p.1 ≠ p.2).Nonempty := ⟨(x, y), by simp [hx, hy, hne]⟩
  obtain ⟨⟨a, b⟩, hab, hmin⟩ := Finset.exists_min_image _ (fun p : Nat × Nat => s.D p.1 p.2) this
  simp only [Finset.mem_filter, Finset.mem_product] at hab
  refine ⟨⟨a, b, s.D a b⟩, hab.1.1, hab.1.2, hab.2, rfl, fun x hx y hy hne => ?_⟩
  exact hmin (x, y) (by simp [hx, hy, hne])

theorem exists_runs (m : Method) {n : Nat} : ∀ (k : Nat) {s : Agg}, s.Good n → s.live.card = k + 1 → ∃ Z s', Z.length = k ∧ Runs m s Z s' := by
  intro k
  induction k with
  | zero => exact fun {s} _ _ => ⟨[], s, rfl, .nil s⟩
  | succ k ih =>
    intro s hg hk
    obtain ⟨r, hr⟩ := exists_closest (s := s) (by omega)
    have hg' := hg.merge m hr.1 hr.2.1 hr.2.2.1
    have := (Runs.card (.cons hr (.nil (s.merge m r))) hg).1
    rw [List.length_singleton] at this
    obtain ⟨Z, s', h1, h2⟩ := ih hg' (by omega)
    exact ⟨r :: Z, s', by simp [h1], .cons hr h2⟩

theorem Runs.used {m : Method} {n : Nat} {s s' : Agg} {Z : List Row} (h : Runs m s Z s') (hg : s.Good n) :
    (Z.flatMap fun r => [r.a, r.b]).Nodup ∧ (∀ i ∈ Z.flatMap fun r => [r.a, r.b], i ∈ s.live ∨ s.trees.length ≤ i) ∧
      ∀ i (h : i < Z.length), Z[i].a < s.trees.length + i ∧ Z[i].b < s.trees.length + i := by
  induction h with
  | nil => simp
  | @cons s s' r Z hc _ ih =>
    obtain ⟨h1, h2, h3⟩ := ih (hg.merge m hc.1 hc.2.1 hc.2.2.1)
    have la := hg.lt _ hc.1
    have lb := hg.lt _ hc.2.1
    have hne : ∀ i ∈ Z.flatMap fun r => [r.a, r.b], i ≠ r.a ∧ i ≠ r.b ∧ (i ∈ s.live ∨ s.trees.length ≤ i) := by
      intro i hi
      rcases h2 i hi with hi | hi
      · rcases Agg.mem_merge.mp hi with rfl | hi
        · exact ⟨by omega, by omega, .inr le_rfl⟩
        · exact ⟨hi.2.1, hi.2.2, .inl hi.1⟩
      · rw [Agg.merge_length] at hi
        exact ⟨by omega, by omega, .inr (by omega)⟩
    refine ⟨?_, ?_, ?_⟩
    · rw [List.flatMap_cons]
      refine List.nodup_append.mpr ⟨by simpa using hc.2.2.1, h1, ?_⟩
      intro i hi j hj e
      subst e
      simp only [List.mem_cons, List.not_mem_nil, or_false] at hi
      have := hne i hj
      tauto
    · intro i hi
      rw [List.flatMap_cons] at hi
      rcases List.mem_append.mp hi with hi | hi
      · simp only [List.mem_cons, List.not_mem_nil, or_false] at hi
        rcases hi with rfl | rfl
        exacts [.inl hc.1, .inl hc.2.1]
      · exact (hne i hi).2.2
    · intro i hi
      cases i with
      | zero => simpa using ⟨la, lb⟩
      | succ i =>
        have := h3 i (by simpa using hi)
        rw [Agg.merge_length] at this
        rw [List.getElem_cons_succ]
        omega

theorem update_nonneg (m : Method) {dx dy dxy sx sy si : ℝ} (h1 : 0 ≤ dx) (h2 : 0 ≤ dy) (hx : 0 < sx) (hy : 0 < sy) :
    0 ≤ m.update dx dy dxy sx sy si := by
  cases m <;> simp only [Method.update]
  · exact le_min h1 h2
  · exact h1.trans (le_max_left _ _)
  · positivity
  · positivity
  · exact Real.sqrt_nonneg _
  · exact Real.sqrt_nonneg _
  · exact Real.sqrt_nonneg _

theorem Runs.nonneg {m : Method} {n : Nat} {s s' : Agg} {Z : List Row} (h : Runs m s Z s') (hg : s.Good n)
    (h0 : ∀ x ∈ s.live, ∀ y ∈ s.live, x ≠ y → 0 ≤ s.D x y) : ∀ r ∈ Z, 0 ≤ r.d := by
  induction h with
  | nil => simp
  | @cons s s' r Z hc _ ih =>
    intro q hq
    rcases List.mem_cons.mp hq with rfl | hq
    · rw [hc.2.2.2.1]
      exact h0 _ hc.1 _ hc.2.1 hc.2.2.1
    · refine ih (hg.merge m hc.1 hc.2.1 hc.2.2.1) ?_ q hq
      have hu : ∀ y ∈ s.live, y ≠ r.a → y ≠ r.b → 0 ≤ (s.merge m r).D s.trees.length y := by
        intro y hy ha hb
        rw [Agg.D_new]
        exact update_nonneg m (h0 _ hc.1 _ hy (Ne.symm ha)) (h0 _ hc.2.1 _ hy (Ne.symm hb)) (hg.sz_pos hc.1) (hg.sz_pos hc.2.1)
      intro x hx y hy hne
      rcases Agg.mem_merge.mp hx with rfl | ⟨hx, hxa, hxb⟩ <;> rcases Agg.mem_merge.mp hy with rfl | ⟨hy, hya, hyb⟩
      · exact absurd rfl hne
      · exact hu y hy hya hyb
      · rw [Agg.D_new' (hg.lt x hx)]
        exact hu x hx hxa hxb
      · rw [Agg.D_merge (hg.lt x hx) (hg.lt y hy)]
        exact h0 x hx y hy hne

/-- The methods whose distances do not decrease. -/
def Method.Monotone (m : Method) : Prop := m ≠ .centroid ∧ m ≠ .median

theorem update_ge {m : Method} (hm : m.Monotone) {dx dy dxy sx sy si : ℝ} (h0 : 0 ≤ dxy) (h1 : dxy ≤ dx) (h2 : dxy ≤ dy) (hx : 0 < sx) (hy : 0 < sy)
    (hi : 0 < si) : dxy ≤ m.update dx dy dxy sx sy si := by
  cases m <;> simp only [Method.update]
  · exact le_min h1 h2
  · exact h1.trans (le_max_left _ _)
  · rw [le_div_iff₀ (by positivity)]
    nlinarith [mul_le_mul_of_nonneg_left h1 hx.le, mul_le_mul_of_nonneg_left h2 hy.le]
  · linarith
  · exact absurd rfl hm.1
  · exact absurd rfl hm.2
  · refine Real.le_sqrt_of_sq_le ?_
    rw [le_div_iff₀ (by positivity)]
    have q1 : dxy ^ 2 ≤ dx ^ 2 := pow_le_pow_left₀ h0 h1 2
    have q2 : dxy ^ 2 ≤ dy ^ 2 := pow_le_pow_left₀ h0 h2 2
    nlinarith [mul_le_mul_of_nonneg_left q1 (add_pos hi hx).le, mul_le_mul_of_nonneg_left q2 (add_pos hi hy).le]

theorem Runs.sorted {m : Method} (hm : m.Monotone) {n : Nat} {s s' : Agg} {Z : List Row} (h : Runs m s Z s') (hg : s.Good n) : ∀ {c : ℝ}, 0 ≤ c →
    (∀ x ∈ s.live, ∀ y ∈ s.live, x ≠ y → c ≤ s.D x y) → (∀ r ∈ Z, c ≤ r.d) ∧ Z.Pairwise fun r q => r.d ≤ q.d := by
  induction h with
  | nil => simp
  | @cons s s' r Z hc _ ih =>
    intro c hc0 h0
    have hr : c ≤ r.d := hc.2.2.2.1 ▸ h0 _ hc.1 _ hc.2.1 hc.2.2.1
    have hu : ∀ y ∈ s.live, y ≠ r.a → y ≠ r.b → r.d ≤ (s.merge m r).D s.trees.length y := by
      intro y hy ha hb
      rw [Agg.D_new, hc.2.2.2.1]
      have e := hc.2.2.2.1
      exact update_ge hm (e ▸ hc0.trans hr) (e ▸ hc.2.2.2.2 _ hc.1 _ hy (Ne.symm ha)) (e ▸ hc.2.2.2.2 _ hc.2.1 _ hy (Ne.symm hb))
        (hg.sz_pos hc.1) (hg.sz_pos hc.2.1) (hg.sz_pos hy)
    obtain ⟨g1, g2⟩ := ih (hg.merge m hc.1 hc.2.1 hc.2.2.1) (c := r.d) (hc0.trans hr) (by
      intro x hx y hy hne
      rcases Agg.mem_merge.mp hx with rfl | ⟨hx, hxa, hxb⟩ <;> rcases Agg.mem_merge.mp hy with rfl | ⟨hy, hya, hyb⟩
      · exact absurd rfl hne
      · exact hu y hy hya hyb
      · rw [Agg.D_new' (hg.lt x hx)]
        exact hu x hx hxa hxb
      · rw [Agg.D_merge (hg.lt x hx) (hg.lt y hy)]
        exact hc.2.2.2.2 x hx y hy hne)
    refine ⟨fun q hq => ?_, List.pairwise_cons.mpr ⟨g1, g2⟩⟩
    rcases List.mem_cons.mp hq with rfl | hq
    · exact hr
    · exact hr.trans (g1 q hq)

/-! ### The nodes of the trees -/

/-- Rows with distances of at most `c` make trees whose nodes have distances of at most `c`. -/
theorem Runs.nodes_le {m : Method} {n : Nat} {s s' : Agg} {Z : List Row} {c : ℝ} (h : Runs m s Z s') (hg : s.Good n) (hZ : ∀ r ∈ Z, r.d ≤ c)
    (h0 : ∀ x ∈ s.live, ∀ u ∈ (s.tree x).internal, u.dist ≤ c) : ∀ x ∈ s'.live, ∀ u ∈ (s'.tree x).internal, u.dist ≤ c := by
  refine (Runs.keep (I := fun s => ∀ x ∈ s.live, ∀ u ∈ (s.tree x).internal, u.dist ≤ c) (P := fun r => r.d ≤ c) ?_ h hg h0 hZ).2
  intro s r hg hs hc hr x hx u hu
  rcases Agg.mem_merge.mp hx with rfl | ⟨hx, _, _⟩
  · rw [Agg.tree_new] at hu
    rcases List.mem_cons.mp hu with rfl | hu
    · exact hr
    · rcases List.mem_append.mp hu with hu | hu
      exacts [hs _ hc.1 u hu, hs _ hc.2.1 u hu]
  · rw [Agg.tree_merge (hg.lt x hx)] at hu
    exact hs x hx u hu

/-- Rows with distances above `c` add no nodes with distances of at most `c`. -/
theorem Runs.nodes_old {m : Method} {n : Nat} {s s' : Agg} {Z : List Row} {c : ℝ} (h : Runs m s Z s') (hg : s.Good n) (hZ : ∀ r ∈ Z, c < r.d) :
    ∀ x ∈ s'.live, ∀ u ∈ (s'.tree x).internal, u.dist ≤ c → ∃ y ∈ s.live, u ∈ (s.tree y).internal := by
  refine (Runs.keep (I := fun s1 => ∀ x ∈ s1.live, ∀ u ∈ (s1.tree x).internal, u.dist ≤ c → ∃ y ∈ s.live, u ∈ (s.tree y).internal) (P := fun r => c < r.d)
    ?_ h hg (fun x hx u hu _ => ⟨x, hx, hu⟩) hZ).2
  intro s1 r hg hs hc hr x hx u hu hd
  rcases Agg.mem_merge.mp hx with rfl | ⟨hx, _, _⟩
  · rw [Agg.tree_new] at hu
    rcases List.mem_cons.mp hu with rfl | hu
    · exact absurd hd (not_le.mpr hr)
    · rcases List.mem_append.mp hu with hu | hu
      exacts [hs _ hc.1 u hu hd, hs _ hc.2.1 u hu hd]
  · rw [Agg.tree_merge (hg.lt x hx)] at hu
    exact hs x hx u hu hd

/-- Nodes stay. -/
theorem Runs.nodes_stay {m : Method} {n : Nat} {s s' : Agg} {Z : List Row} (h : Runs m s Z s') (hg : s.Good n) {u : Tree}
    (hu : ∃ x ∈ s.live, u ∈ (s.tree x).internal) : ∃ x ∈ s'.live, u ∈ (s'.tree x).internal := by
  refine (Runs.keep (I := fun s1 => ∃ x ∈ s1.live, u ∈ (s1.tree x).internal) (P := fun _ => True) ?_ h hg hu fun _ _ => trivial).2
  rintro s1 r hg ⟨x, hx, hxu⟩ hc -
  by_cases hxa : x = r.a
  · refine ⟨_, Agg.mem_merge.mpr (.inl rfl), ?_⟩
    rw [Agg.tree_new]
    exact List.mem_cons_of_mem _ (List.mem_append.mpr (.inl (hxa ▸ hxu)))
  by_cases hxb : x = r.b
  · refine ⟨_, Agg.mem_merge.mpr (.inl rfl), ?_⟩
    rw [Agg.tree_new]
    exact List.mem_cons_of_mem _ (List.mem_append.mpr (.inr (hxb ▸ hxu)))
  exact ⟨x, Agg.mem_merge.mpr (.inr ⟨hx, hxa, hxb⟩), by rwa [Agg.tree_merge (hg.lt x hx)]⟩

theorem live_init (n : Nat) (D : Nat → Nat → ℝ) (x : Nat) : x ∈ (Agg.init n D).live ↔ x < n := by simp [Agg.init]

theorem pts_init {n : Nat} (D : Nat → Nat → ℝ) {x : Nat} (h : x < n) : (Agg.init n D).pts x = [x] := by simp [Agg.init, Agg.pts, h, Tree.leaves]

theorem tree_init {n : Nat} (D : Nat → Nat → ℝ) {x : Nat} (h : x < n) : (Agg.init n D).tree x = .leaf x := by simp [Agg.init, Agg.tree, h]

/-- The last cluster is the tree of the matrix. -/
theorem Runs.last {m : Method} {n : Nat} {D : Nat → Nat → ℝ} (hD : ∀ i < n, ∀ j < n, D i j = D j i) {s : Agg} {Z : List Row} (hn : 2 ≤ n)
    (hl : Z.length + 1 = n) (h : Runs m (.init n D) Z s) : ∃ x, s.live = {x} ∧ toTree n Z = some (s.tree x) := by
  have hg := Agg.good_init (n := n) hD
  obtain ⟨h1, h2⟩ := h.card hg
  have hc : (Agg.init n D).live.card = n := by simp [Agg.init]
  have hlen : (Agg.init n D).trees.length = n := by simp [Agg.init]
  obtain ⟨x, hx⟩ := Finset.card_eq_one.mp (show s.live.card = 1 by omega)
  refine ⟨x, hx, ?_⟩
  have ht := h.trees_eq hg
  unfold toTree
  rw [show (List.range n).map Tree.leaf = (Agg.init n D).trees from rfl, ht, Option.bind_some]
  have hlast : s.trees.length - 1 ∈ s.live := by
    have : ∀ {s s' : Agg} {Z : List Row}, Runs m s Z s' → s.Good n → Z ≠ [] → s'.trees.length - 1 ∈ s'.live := by
      intro s s' Z h
      induction h with
      | nil => exact fun _ h => absurd rfl h
      | @cons s s' r Z hc hr ih =>
        intro hg _
        by_cases hZ : Z = []
        · subst hZ
          cases hr
          rw [Agg.merge_length, Nat.add_sub_cancel]
          exact Agg.mem_merge.mpr (.inl rfl)
        · exact ih (hg.merge m hc.1 hc.2.1 hc.2.2.1) hZ
    refine this h hg ?_
    rintro rfl
    simp at hl
    omega
  rw [hx, Finset.mem_singleton] at hlast
  rw [← hlast, List.getLast?_eq_getElem?]
  unfold Agg.tree
  have : s.trees.length - 1 < s.trees.length := by omega
  rw [List.getElem?_eq_getElem this, Option.getD_some]

end Verif.Clust
