import Verif.Spec.Cov

/-!
# What denoising a correlation matrix means
-/

namespace Verif.Cov

variable {n : Nat}

/-- A complete system of orthonormal eigenvectors with decreasing eigenvalues. -/
structure Sys (C : Mat n) (lam : Fin n → ℝ) (v : Fin n → Fin n → ℝ) : Prop where
  ortho : ∀ a b, dotProduct (v a) (v b) = if a = b then 1 else 0
  eig : ∀ a, C.mulVec (v a) = lam a • v a
  desc : Antitone lam

/-- The mean of the eigenvalues after the first `m`. -/
noncomputable def level (lam : Fin n → ℝ) (m : Nat) : ℝ := (∑ a : Fin n, if m ≤ a then lam a else 0) / ((n : ℝ) - m)

/-- The part of the first `m` eigenvectors above that mean. -/
noncomputable def excess (lam : Fin n → ℝ) (v : Fin n → Fin n → ℝ) (m : Nat) (i j : Fin n) : ℝ :=
  ∑ a : Fin n, if a < m then (lam a - level lam m) * (v a i * v a j) else 0

/-- `D` is `C` with the eigenvalues after the first `m` replaced by their mean, and ones on the diagonal. -/
def Denoised (C : Mat n) (m : Nat) (D : Mat n) : Prop :=
  ∃ lam v, Sys C lam v ∧ (∀ i, D i i = 1) ∧ ∀ i j, i ≠ j → D i j = excess lam v m i j

/-- The first `m` eigenvalues are separated from the others, or equal to the mean of the others. -/
def Clear (lam : Fin n → ℝ) (m : Nat) : Prop := ∀ a b : Fin n, a < m → m ≤ b → lam a = lam b → lam a = level lam m

end Verif.Cov
