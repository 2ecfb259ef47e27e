import Verif.Model.CutTree
import Mathlib.Analysis.Real.Sqrt

/-!
# scipy's linkage

`HC.linkage` (`hierarchical.py:112-121`) calls `scipy.cluster.hierarchy.linkage(squareform(dist), method, optimal_ordering)`.
This file says what that function returns, not how (scipy has three algorithms for it): the rows of the matrix merge, one after
the other, two clusters that are closest at that time, and the distances to the new cluster follow from the formula of the
method (`_hierarchy_distance_update.pxi`). Which of several closest pairs is taken, and which of the two clusters is named
first (`optimal_ordering` decides on that), is left open.
-/

namespace Verif.Clust

open Classical

/-- The values of `linkage_method` (`hierarchical.py:31-33`). -/
inductive Method
  | single | complete | average | weighted | centroid | median | ward

/-- The name of a method; scipy raises ValueError for other names. -/
def Method.ofName (s : String) : Option Method :=
  if s = "single" then some .single else if s = "complete" then some .complete else if s = "average" then some .average
  else if s = "weighted" then some .weighted else if s = "centroid" then some .centroid else if s = "median" then some .median
  else if s = "ward" then some .ward else none

/-- The distance of a cluster of `si` points to the union of two clusters of `sx` and `sy` points, from the distances `dx` and
`dy` to the two and the distance `dxy` between them. -/
noncomputable def Method.update (m : Method) (dx dy dxy sx sy si : ℝ) : ℝ :=
  match m with
  | .single => min dx dy
  | .complete => max dx dy
  | .average => (sx * dx + sy * dy) / (sx + sy)
  | .weighted => (dx + dy) / 2
  | .centroid => √((sx * dx ^ 2 + sy * dy ^ 2 - sx * sy * dxy ^ 2 / (sx + sy)) / (sx + sy))
  | .median => √((dx ^ 2 + dy ^ 2) / 2 - dxy ^ 2 / 4)
  | .ward => √(((si + sx) * dx ^ 2 + (si + sy) * dy ^ 2 - si * dxy ^ 2) / (sx + sy + si))

/-- The clusters formed so far, the numbers of those that are not yet part of another one, and the distances between these. -/
structure Agg where
  trees : List Tree
  live : Finset Nat
  D : Nat → Nat → ℝ

/-- The points of a cluster. -/
def Agg.pts (s : Agg) (x : Nat) : List Nat := ((s.trees[x]?).map Tree.leaves).getD []

/-- The number of points of a cluster. -/
def Agg.sz (s : Agg) (x : Nat) : ℝ := (s.pts x).length

/-- At first every point is a cluster. -/
def Agg.init (n : Nat) (D : Nat → Nat → ℝ) : Agg := ⟨(List.range n).map .leaf, Finset.range n, D⟩

/-- The tree of a cluster (a leaf stands in for a number that is not in use). -/
def Agg.tree (s : Agg) (x : Nat) : Tree := (s.trees[x]?).getD (.leaf 0)

/-- The state after a row. -/
noncomputable def Agg.merge (m : Method) (s : Agg) (r : Row) : Agg :=
  let new := s.trees.length
  let dist := fun i => m.update (s.D r.a i) (s.D r.b i) (s.D r.a r.b) (s.sz r.a) (s.sz r.b) (s.sz i)
  ⟨s.trees ++ [.node r.d (s.tree r.a) (s.tree r.b)], insert new ((s.live.erase r.a).erase r.b),
    fun i j => if i = new then dist j else if j = new then dist i else s.D i j⟩

/-- A row merges two clusters that are closest. -/
def Agg.Closest (s : Agg) (r : Row) : Prop :=
  r.a ∈ s.live ∧ r.b ∈ s.live ∧ r.a ≠ r.b ∧ r.d = s.D r.a r.b ∧ ∀ x ∈ s.live, ∀ y ∈ s.live, x ≠ y → r.d ≤ s.D x y

/-- The rows lead from one state to another. -/
inductive Runs (m : Method) : Agg → List Row → Agg → Prop
  | nil (s : Agg) : Runs m s [] s
  | cons {s s' : Agg} {r : Row} {Z : List Row} : s.Closest r → Runs m (s.merge m r) Z s' → Runs m s (r :: Z) s'

/-- A matrix that `linkage` may return for the distances `D` between `n` points. -/
def IsLinkage (m : Method) (n : Nat) (D : Nat → Nat → ℝ) (Z : List Row) : Prop :=
  Z.length + 1 = n ∧ ∃ s, Runs m (.init n D) Z s

end Verif.Clust
