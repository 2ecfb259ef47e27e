import Verif.Model.SimCore

/-!
# Specification vocabulary for the path models
-/

namespace Verif.Sim

/-- The correlated standard noise of variate `j` in noise row `r`: row `r` of the stream, cut into rows of
`v` draws, multiplied by the Cholesky factor. -/
def shock (L : Option Arr) (v : Nat) (z : Nat → ℝ) (r j : Nat) : ℝ := match L with
  | none => z (r * v + j)
  | some L => ∑ m ∈ Finset.range v, L.get j m * z (r * v + m)

/-- Arguments that a sampler with `v` variates can use: at least one variate, shapes that broadcast,
a start row whose length divides the number of columns. -/
structure Shapes (v : Nat) (loc scale : List ℝ) (L : Option Arr) (x0 : List ℝ) (p : Nat) : Prop where
  pos : 0 < v
  loc : loc.length = v ∨ loc.length = 1
  scale : scale.length = v ∨ scale.length = 1
  chol : ∀ l ∈ L, l.rows = v ∧ l.cols = v
  start : 0 < x0.length ∧ x0.length ∣ v * p

/-- `a` has `s + 1` rows for `p` paths of `v` variates. -/
def IsPaths (a : Arr) (s v p : Nat) : Prop := a.rows = s + 1 ∧ a.cols = v * p

/-- Variate `j` of path `q` is stored in column `q * v + j`. -/
def path (a : Arr) (v q j t : Nat) : ℝ := a.get t (q * v + j)

/-- Mean of the first `n` values. -/
noncomputable def mean (n : Nat) (f : Nat → ℝ) : ℝ := (∑ i ∈ Finset.range n, f i) / n

/-- Sample covariance (divisor `n - ddof`) of the first `n` values of two sequences. -/
noncomputable def scov (n : Nat) (ddof : ℝ) (f g : Nat → ℝ) : ℝ :=
  (∑ i ∈ Finset.range n, (f i - mean n f) * (g i - mean n g)) / (n - ddof)

end Verif.Sim
