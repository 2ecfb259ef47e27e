import Verif.Model.Cov

/-!
# Specifications for `math/cov.py`
-/

namespace Verif.Cov

variable {n : Nat}

/-- A list of orthonormal vectors. -/
def OrthoList (vs : List (Fin n → ℝ)) : Prop :=
  (∀ v ∈ vs, dotProduct v v = 1) ∧ vs.Pairwise fun u v => dotProduct u v = 0

/-- Orthonormal eigenvectors with their eigenvalues. -/
structure IsEigen (C : Mat n) (ps : List (Pair n)) : Prop where
  ortho : OrthoList (ps.map (·.2))
  eig : ∀ p ∈ ps, C.mulVec p.2 = p.1 • p.2

/-- The eigenvalues are in decreasing order. -/
def Descending (ps : List (Pair n)) : Prop := (ps.map (·.1)).Pairwise (· ≥ ·)

/-- `np.linalg.eigh` of a symmetric matrix: `n` orthonormal eigenvectors, eigenvalues in increasing order. -/
def EighSpec (eigh : Mat n → List (Pair n)) : Prop :=
  ∀ C : Mat n, C.IsSymm → IsEigen C (eigh C) ∧ (eigh C).length = n ∧ ((eigh C).map (·.1)).Pairwise (· ≤ ·)

/-- `argsort` (any order among equal values). -/
def ArgsortSpec (f : List ℝ → List Nat) : Prop :=
  ∀ l : List ℝ, (f l).Perm (List.range l.length) ∧ ((f l).map fun i => l.getD i 0).Pairwise (· ≤ ·)

/-- The first factor of the full singular value decomposition of a matrix with at most `n` columns: an
orthonormal basis whose vectors beyond the number of columns are orthogonal to all columns. -/
def SvdSpec (svdU : List (Fin n → ℝ) → List (Fin n → ℝ)) : Prop :=
  ∀ vs : List (Fin n → ℝ), vs.length ≤ n → (svdU vs).length = n ∧ OrthoList (svdU vs) ∧
    ∀ u ∈ (svdU vs).drop vs.length, ∀ v ∈ vs, dotProduct u v = 0

/-- A correlation matrix: symmetric, positive semidefinite, ones on the diagonal. -/
structure IsCor (C : Mat n) : Prop where
  symm : C.IsSymm
  psd : ∀ x : Fin n → ℝ, 0 ≤ dotProduct x (C.mulVec x)
  diag : ∀ i, C i i = 1

/-- A covariance matrix: symmetric and positive semidefinite. -/
structure IsCov (C : Mat n) : Prop where
  symm : C.IsSymm
  psd : ∀ x : Fin n → ℝ, 0 ≤ dotProduct x (C.mulVec x)

theorem IsCor.isCov {C : Mat n} (h : IsCor C) : IsCov C := ⟨h.symm, h.psd⟩

end Verif.Cov
