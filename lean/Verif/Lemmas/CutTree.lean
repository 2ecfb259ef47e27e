import Verif.Model.CutTree
import Mathlib.Data.List.Nodup
import Mathlib.Tactic.Linarith

/-! # Trees, their order and their cuts -/

namespace Verif.Clust

open Verif

namespace Tree

/-- The nodes of a tree that are not leaves. -/
def internal : Tree → List Tree
  | leaf _ => []
  | node d l r => node d l r :: (l.internal ++ r.internal)

/-- `c` is a child of `u` and not a leaf. -/
def Child (c u : Tree) : Prop := ∃ d l r, u = node d l r ∧ (c = l ∨ c = r) ∧ c.internal ≠ []

/-- No node is closer together than one of its children. -/
def Monotone (t : Tree) : Prop := ∀ u ∈ t.internal, ∀ c, Child c u → c.dist ≤ u.dist

theorem leaves_ne_nil (t : Tree) : t.leaves ≠ [] := by
  induction t with
  | leaf i => simp [leaves]
  | node d l r hl _ => simp [leaves, hl]

theorem mem_internal_self {t : Tree} (h : t.internal ≠ []) : t ∈ t.internal := by
  cases t with
  | leaf i => exact absurd rfl h
  | node d l r => exact List.mem_cons_self

theorem internal_ne_nil {t u : Tree} (h : u ∈ t.internal) : u.internal ≠ [] := by
  induction t with
  | leaf i => exact absurd h (List.not_mem_nil)
  | node d l r hl hr =>
    rcases List.mem_cons.mp h with rfl | h
    · simp [internal]
    · rcases List.mem_append.mp h with h | h
      · exact hl h
      · exact hr h

theorem leaves_subset {t u : Tree} (h : u ∈ t.internal) : ∀ p ∈ u.leaves, p ∈ t.leaves := by
  induction t with
  | leaf i => exact absurd h (List.not_mem_nil)
  | node d l r hl hr =>
    rcases List.mem_cons.mp h with rfl | h
    · exact fun p hp => hp
    · intro p hp
      rcases List.mem_append.mp h with h | h
      · exact List.mem_append.mpr (.inl (hl h p hp))
      · exact List.mem_append.mpr (.inr (hr h p hp))

theorem internal_trans {t u v : Tree} (h : u ∈ t.internal) (hv : v ∈ u.internal) : v ∈ t.internal := by
  induction t with
  | leaf i => exact absurd h (List.not_mem_nil)
  | node d l r hl hr =>
    rcases List.mem_cons.mp h with rfl | h
    · exact hv
    · rcases List.mem_append.mp h with h | h
      · exact List.mem_cons_of_mem _ (List.mem_append.mpr (.inl (hl h)))
      · exact List.mem_cons_of_mem _ (List.mem_append.mpr (.inr (hr h)))

/-- Two nodes that share a point lie below each other. -/
theorem laminar {t : Tree} (hn : t.leaves.Nodup) {u v : Tree} (hu : u ∈ t.internal) (hv : v ∈ t.internal) {p : Nat}
    (hpu : p ∈ u.leaves) (hpv : p ∈ v.leaves) : u ∈ v.internal ∨ v ∈ u.internal := by
  induction t with
  | leaf i => exact absurd hu (List.not_mem_nil)
  | node d l r hl hr =>
    obtain ⟨n1, n2, n3⟩ := List.nodup_append.mp hn
    rcases List.mem_cons.mp hu with rfl | hu'
    · exact .inr hv
    · rcases List.mem_cons.mp hv with rfl | hv'
      · exact .inl hu
      · rcases List.mem_append.mp hu' with a | a <;> rcases List.mem_append.mp hv' with b | b
        · exact hl n1 a b
        · exact absurd rfl (n3 p (leaves_subset a p hpu) p (leaves_subset b p hpv))
        · exact absurd rfl (n3 p (leaves_subset b p hpv) p (leaves_subset a p hpu))
        · exact hr n2 a b

theorem internal_length (t : Tree) : t.internal.length + 1 = t.leaves.length := by
  induction t with
  | leaf i => rfl
  | node d l r hl hr =>
    simp only [internal, leaves, List.length_cons, List.length_append]
    omega

theorem leaves_nodup {t u : Tree} (hn : t.leaves.Nodup) (h : u ∈ t.internal) : u.leaves.Nodup := by
  induction t with
  | leaf i => exact absurd h (List.not_mem_nil)
  | node d l r hl hr =>
    obtain ⟨n1, n2, _⟩ := List.nodup_append.mp hn
    rcases List.mem_cons.mp h with rfl | h
    · exact hn
    · rcases List.mem_append.mp h with h | h
      · exact hl n1 h
      · exact hr n2 h

theorem internal_nodup {t : Tree} (hn : t.leaves.Nodup) : t.internal.Nodup := by
  induction t with
  | leaf i => exact List.nodup_nil
  | node d l r hl hr =>
    obtain ⟨n1, n2, n3⟩ := List.nodup_append.mp hn
    obtain ⟨p, hp⟩ := List.exists_mem_of_ne_nil _ (leaves_ne_nil l)
    obtain ⟨q, hq⟩ := List.exists_mem_of_ne_nil _ (leaves_ne_nil r)
    have top : ∀ u, u ∈ l.internal ∨ u ∈ r.internal → u ≠ node d l r := by
      rintro u h rfl
      have hp' : p ∈ (node d l r).leaves := List.mem_append.mpr (.inl hp)
      have hq' : q ∈ (node d l r).leaves := List.mem_append.mpr (.inr hq)
      rcases h with h | h
      · exact n3 q (leaves_subset h q hq') q hq rfl
      · exact n3 p hp p (leaves_subset h p hp') rfl
    refine List.nodup_cons.mpr ⟨fun h => top _ (List.mem_append.mp h) rfl, List.nodup_append.mpr ⟨hl n1, hr n2, ?_⟩⟩
    rintro u hu v hv rfl
    obtain ⟨s, hs⟩ := List.exists_mem_of_ne_nil _ (leaves_ne_nil u)
    exact n3 s (leaves_subset hu s hs) s (leaves_subset hv s hs) rfl

end Tree

open Tree

/-! ### The order of the nodes -/

theorem insort_perm (x : Tree) (l : List Tree) : (insort x l).Perm (x :: l) := by
  induction l with
  | nil => exact List.Perm.refl _
  | cons y l ih =>
    unfold insort
    split
    · exact (ih.cons y).trans (List.Perm.swap _ _ _)
    · exact List.Perm.refl _

theorem insort_sublist (x : Tree) (l : List Tree) : l.Sublist (insort x l) := by
  induction l with
  | nil => exact List.nil_sublist _
  | cons y l ih =>
    unfold insort
    split
    · exact ih.cons_cons y
    · exact List.sublist_cons_self _ _

/-- A new node comes before all that are not less. -/
theorem insort_before {x y : Tree} {l : List Tree} (hy : y ∈ l) (h : x.dist ≤ y.dist) : [x, y].Sublist (insort x l) := by
  induction l with
  | nil => exact absurd hy List.not_mem_nil
  | cons z l ih =>
    unfold insort
    split
    · next hz =>
      rcases List.mem_cons.mp hy with rfl | hy
      · exact absurd hz (not_lt.mpr h)
      · exact (ih hy).cons z
    · exact (List.singleton_sublist.mpr hy).cons_cons x

theorem sizes_lt_leaf (i : Nat) (q : List Tree) : (q.map Tree.size).sum < ((Tree.leaf i :: q).map Tree.size).sum := by
  simp [Tree.size]

theorem orderGo_nil (nodes : List Tree) : orderGo [] nodes = nodes := by unfold orderGo; rfl

theorem orderGo_leaf (i : Nat) (q nodes : List Tree) : orderGo (.leaf i :: q) nodes = orderGo q nodes := by
  conv_lhs => unfold orderGo

theorem orderGo_node (d : ℝ) (l r : Tree) (q nodes : List Tree) :
    orderGo (.node d l r :: q) nodes = orderGo (q ++ [r, l]) (insort (.node d l r) nodes) := by
  conv_lhs => unfold orderGo

/-- What the loop over the queue achieves: nothing is lost, every node of the queue is entered, and a node stands before its
parent unless it is farther apart. -/
theorem orderGo_spec (q nodes : List Tree) :
    nodes.Sublist (orderGo q nodes) ∧
    (orderGo q nodes).Perm (nodes ++ q.flatMap internal) ∧
    (∀ t ∈ q, ∀ u ∈ t.internal, ∀ c, Child c u → c.dist ≤ u.dist → [c, u].Sublist (orderGo q nodes)) ∧
    ∀ y ∈ nodes, ∀ t ∈ q, t.internal ≠ [] → t.dist ≤ y.dist → [t, y].Sublist (orderGo q nodes) := by
  induction hk : (q.map Tree.size).sum using Nat.strong_induction_on generalizing q nodes with
  | _ k ih =>
    cases q with
    | nil =>
      rw [orderGo_nil]
      exact ⟨List.Sublist.refl _, by simp, fun t ht => absurd ht List.not_mem_nil, fun y _ t ht => absurd ht List.not_mem_nil⟩
    | cons t q =>
      cases t with
      | leaf i =>
        rw [orderGo_leaf]
        obtain ⟨h1, h2, h3, h4⟩ := ih _ (by rw [← hk]; exact sizes_lt_leaf i q) q nodes rfl
        refine ⟨h1, ?_, fun t ht => ?_, fun y hy t ht hi => ?_⟩
        · simpa [internal] using h2
        · rcases List.mem_cons.mp ht with rfl | ht
          · intro u hu
            exact absurd hu List.not_mem_nil
          · exact h3 t ht
        · rcases List.mem_cons.mp ht with rfl | ht
          · exact absurd rfl hi
          · exact h4 y hy t ht hi
      | node d l r =>
        rw [orderGo_node]
        obtain ⟨h1, h2, h3, h4⟩ := ih _ (by rw [← hk]; simp [Tree.size]; omega) (q ++ [r, l]) (insort (.node d l r) nodes) rfl
        have hin : Tree.node d l r ∈ insort (.node d l r) nodes := (insort_perm _ _).mem_iff.mpr List.mem_cons_self
        refine ⟨(insort_sublist _ _).trans h1, ?_, fun t ht u hu c hc hd => ?_, fun y hy t ht hi hd => ?_⟩
        · refine h2.trans ?_
          refine ((insort_perm _ _).append_right _).trans ?_
          simp only [List.flatMap_append, List.flatMap_cons, List.flatMap_nil, List.append_nil, internal, List.cons_append]
          refine List.Perm.trans ?_ List.perm_middle.symm
          refine List.Perm.cons _ (List.Perm.append_left _ ?_)
          refine List.perm_append_comm.trans ?_
          exact List.Perm.append_right _ List.perm_append_comm
        · rcases List.mem_cons.mp ht with rfl | ht
          · rcases List.mem_cons.mp hu with rfl | hu
            · obtain ⟨d', l', r', e, hc', hi⟩ := hc
              cases e
              refine h4 _ hin c ?_ hi hd
              rcases hc' with rfl | rfl <;> simp
            · rcases List.mem_append.mp hu with hu | hu
              · exact h3 l (by simp) u hu c hc hd
              · exact h3 r (by simp) u hu c hc hd
          · exact h3 t (by simp [ht]) u hu c hc hd
        · rcases List.mem_cons.mp ht with rfl | ht
          · exact (insort_before hy hd).trans h1
          · exact h4 y ((insort_perm _ _).mem_iff.mpr (List.mem_cons_of_mem _ hy)) t (by simp [ht]) hi hd

theorem order_perm (t : Tree) : (orderNodes t).Perm t.internal := by
  have := (orderGo_spec [t] []).2.1
  simpa [orderNodes] using this

theorem order_before {t u c : Tree} (hu : u ∈ t.internal) (hc : Child c u) (hd : c.dist ≤ u.dist) :
    [c, u].Sublist (orderNodes t) := (orderGo_spec [t] []).2.2.1 t (by simp) u hu c hc hd

theorem mem_prefix {A B : List Tree} {c u : Tree} (hn : (A ++ B).Nodup) (h : [c, u].Sublist (A ++ B)) (hu : u ∈ A) : c ∈ A := by
  obtain ⟨l1, l2, e, h1, h2⟩ := List.sublist_append_iff.mp h
  have hd := (List.nodup_append.mp hn).2.2
  cases l1 with
  | nil =>
    rw [List.nil_append] at e
    have : u ∈ B := h2.subset (by rw [← e]; simp)
    exact absurd rfl (hd u hu u this)
  | cons x l1 =>
    rw [List.cons_append] at e
    injection e with e1 e2
    exact h1.subset (by rw [e1]; exact List.mem_cons_self)

end Verif.Clust
