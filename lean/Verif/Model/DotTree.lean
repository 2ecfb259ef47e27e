import Mathlib.Data.Real.Basic

/-!
# Scalar products with rounding

A matrix product (`@`, `np.dot`) adds the products of two rows in an order that depends on the BLAS kernel, which may also use fused
multiply-add instructions (one rounding for `t + a * b`).
-/

namespace Verif.Round

variable (fl : ℝ → ℝ)

/-- A way to compute a non-empty scalar product. -/
inductive DotTree
  | prod (a b : ℝ)
  | node (l r : DotTree)
  | fma (t : DotTree) (a b : ℝ)

namespace DotTree

/-- The pairs that are multiplied. -/
def leaves : DotTree → List (ℝ × ℝ)
  | prod a b => [(a, b)]
  | node l r => l.leaves ++ r.leaves
  | fma t a b => t.leaves ++ [(a, b)]

/-- The scalar product with rounding. -/
noncomputable def eval : DotTree → ℝ
  | prod a b => fl (a * b)
  | node l r => fl (l.eval + r.eval)
  | fma t a b => fl (t.eval + a * b)

/-- The largest number of roundings a product goes through. -/
def height : DotTree → Nat
  | prod _ _ => 1
  | node l r => max l.height r.height + 1
  | fma t _ _ => t.height + 1

end DotTree

end Verif.Round
