import Verif.Model.CovX
import Verif.Spec.Cov

/-!
# Specifications for `math/cov.py` on floats
-/

namespace Verif.Cov

variable {n : Nat}

/-- `np.linalg.eigh` on floats, beside its real version `eigh`. It reads the lower triangle only. If that has a special value, LAPACK
reports that its iteration did not converge or returns `nan`. -/
structure EighX (eigh : Mat n → List (Pair n)) (f : XMat n → Py (List (XPair n))) : Prop where
  num : ∀ m : Mat n, m.IsSymm → f (.ofMat m) = .ok ((eigh m).map .of)
  lower : ∀ m m' : XMat n, (∀ i j, j ≤ i → m i j = m' i j) → f m = f m'
  special : ∀ m : XMat n, (∃ i j, j ≤ i ∧ (m i j).real? = none) →
    f m = .error .linAlgError ∨ f m = .ok (List.replicate n (.nan, fun _ => .nan))

/-- The first factor of `np.linalg.svd` on floats, beside its real version. -/
structure SvdX (svdU : List (Fin n → ℝ) → List (Fin n → ℝ)) (f : List (Fin n → XF) → Py (List (Fin n → XF))) : Prop where
  num : ∀ vs : List (Fin n → ℝ), f (vs.map xvec) = .ok ((svdU vs).map xvec)
  special : ∀ vs : List (Fin n → XF), (∃ v ∈ vs, ∃ i, (v i).real? = none) →
    f vs = .error .linAlgError ∨ f vs = .ok (List.replicate n fun _ => .nan)

end Verif.Cov
