import Verif.Model.Clustering

/-!
# scipy's trees

`HC.get_clusters` (`hierarchical.py:123-136`) and `optimize_n_clusters` (`hierarchical.py:172`, `182`) call
`scipy.cluster.hierarchy.cut_tree` on the matrix that `linkage` returns. This file writes down `cut_tree` of scipy 1.13
(the version required by `pyproject.toml`) with the functions it uses, `to_tree`, `_order_cluster_tree` and
`ClusterNode.pre_order`. In a linkage matrix the fourth column, the number of points below, is left out.
-/

namespace Verif.Clust

open Verif Classical

/-- A row of a linkage matrix: the two clusters that are merged and their distance. -/
structure Row where
  a : Nat
  b : Nat
  d : ℝ

/-- `is_valid_linkage` for a matrix over `n` points: one row less than points and at least one, distances that are not
negative, every cluster used after it is formed and at most once. -/
def ValidLinkage (n : Nat) (Z : List Row) : Prop :=
  2 ≤ n ∧ Z.length + 1 = n ∧ (∀ r ∈ Z, 0 ≤ r.d) ∧ (∀ i (h : i < Z.length), Z[i].a < n + i ∧ Z[i].b < n + i) ∧
  (Z.flatMap fun r => [r.a, r.b]).Nodup

/-- A `ClusterNode`: a leaf with its number, or a node with its distance and its two children. -/
inductive Tree
  | leaf (i : Nat)
  | node (d : ℝ) (l r : Tree)

namespace Tree

/-- `ClusterNode.dist`. -/
def dist : Tree → ℝ
  | leaf _ => 0
  | node d _ _ => d

/-- `ClusterNode.pre_order()`. -/
def leaves : Tree → List Nat
  | leaf i => [i]
  | node _ l r => l.leaves ++ r.leaves

/-- The number of nodes and leaves. -/
def size : Tree → Nat
  | leaf _ => 1
  | node _ l r => 1 + l.size + r.size

end Tree

/-- The loop of `to_tree`: the list `d` of the clusters formed so far grows by one in each round. -/
def toTreeGo : List Tree → List Row → Option (List Tree)
  | d, [] => some d
  | d, r :: Z =>
    match d[r.a]?, d[r.b]? with
    | some x, some y => toTreeGo (d ++ [.node r.d x y]) Z
    | _, _ => none

/-- `to_tree`: the cluster formed last. -/
def toTree (n : Nat) (Z : List Row) : Option Tree :=
  (toTreeGo ((List.range n).map .leaf) Z).bind fun d => d.getLast?

/-- `bisect.insort_left` with `ClusterNode.__lt__`, which compares distances: before the first element that is not less. -/
noncomputable def insort (x : Tree) : List Tree → List Tree
  | [] => [x]
  | y :: l => if y.dist < x.dist then y :: insort x l else x :: y :: l

/-- The loop of `_order_cluster_tree`: a queue of trees and the nodes seen so far. -/
noncomputable def orderGo : List Tree → List Tree → List Tree
  | [], nodes => nodes
  | .leaf _ :: q, nodes => orderGo q nodes
  | .node d l r :: q, nodes => orderGo (q ++ [r, l]) (insort (.node d l r) nodes)
termination_by q => (q.map Tree.size).sum
decreasing_by
  · simp [Tree.size]
  · simp [Tree.size]; omega

/-- `_order_cluster_tree`. -/
noncomputable def orderNodes (t : Tree) : List Tree := orderGo [t] []

/-- One round of the loop of `cut_tree`: the points of a node get the smallest of their labels; labels above the largest of
them go down by one. -/
def mergeStep (g : List Nat) (idx : List Nat) : List Nat :=
  let vals := idx.map fun p => (g[p]?).getD 0
  let lo := vals.foldl min ((g[idx.headD 0]?).getD 0)
  let hi := vals.foldl max 0
  (g.mapIdx fun p v => if p ∈ idx then lo else v).map fun v => if hi < v then v - 1 else v

/-- The loop of `cut_tree` for one column: `i` nodes have been merged, `g` are the labels, `out` is the column. -/
def cutGo (col : Nat) : Nat → List Nat → List Nat → List Tree → List Nat
  | _, _, out, [] => out
  | i, g, out, t :: ts =>
    cutGo col (i + 1) (mergeStep g t.leaves) (if i + 1 = col then mergeStep g t.leaves else out) ts

/-- `nobs - np.searchsorted(np.arange(nobs), n_clusters)`. -/
def cutColumn (n : Nat) (k : Int) : Nat := n - (min k n).toNat

/-- `cut_tree(Z, n_clusters=k).flatten()`; ValueError for an invalid matrix. -/
noncomputable def cutTree (Z : List Row) (k : Int) : Py (List Nat) :=
  let n := Z.length + 1
  if ValidLinkage n Z then
    match toTree n Z with
    | some t =>
      let col := cutColumn n k
      .ok (cutGo col 0 (List.range n) (if col = 0 then List.range n else List.replicate n 0) (orderNodes t))
    | none => .error .valueError
  else .error .valueError

/-- The labels of `cut_tree` (no labels for an invalid matrix, which `linkage` does not return). -/
noncomputable def cutLabels (Z : List Row) (k : Int) : List Nat :=
  match cutTree Z k with
  | .ok l => l
  | .error _ => []

end Verif.Clust
