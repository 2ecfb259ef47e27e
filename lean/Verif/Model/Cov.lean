import Verif.Model.SimFit
import Mathlib.LinearAlgebra.Matrix.PosDef
import Mathlib.Algebra.Order.Round

/-!
# `quantfinlib/math/cov.py`

Square arrays are matrices over `Fin n` with real entries. A pair of arrays `eigen_values`, `eigen_vectors`
(eigenvectors in columns) is a list of pairs (eigenvalue, eigenvector), so the two arrays always have matching
lengths. `np.linalg.eigh`, the full `np.linalg.svd` and the permutation of `argsort` are parameters: the theorems
hold for all of them that meet their specifications in `Spec/Cov.lean`.

Divisions by zero (`cov_reg <= 0` with zero variances) and matrices containing `nan` are modelled in `CovX`; negative
`num_timesteps` are outside the model.
-/

namespace Verif.Cov

open Verif.Sim (clip1)

variable {n : Nat}

/-- A square array. -/
abbrev Mat (n : Nat) := Matrix (Fin n) (Fin n) ℝ

/-- An eigenvalue with its eigenvector. -/
abbrev Pair (n : Nat) := ℝ × (Fin n → ℝ)

/-- `l[:k]` for any integer `k`. -/
def sliceTo {α : Type} (l : List α) (k : Int) : List α :=
  if 0 ≤ k then l.take k.toNat else l.take (l.length + k).toNat

/-- `l[k:]` for any integer `k`. -/
def sliceFrom {α : Type} (l : List α) (k : Int) : List α :=
  if 0 ≤ k then l.drop k.toNat else l.drop (l.length + k).toNat

/-! ### Conversions -/

/-- `std` of `_cov_to_cor` (`cov.py:75`). -/
noncomputable def covStd (cov : Mat n) (reg : ℝ) (i : Fin n) : ℝ := Real.sqrt (max (cov i i) reg)

/-- `_cov_to_cor` (`cov.py:59-79`). -/
noncomputable def covToCor (cov : Mat n) (reg : ℝ) : Mat n × (Fin n → ℝ) :=
  (fun i j => clip1 (cov i j / (covStd cov reg i * covStd cov reg j)), covStd cov reg)

/-- The default `cov_reg` (`cov.py:59`). -/
noncomputable def covReg : ℝ := 1 / 10 ^ 6

/-- `_cor_to_cov` (`cov.py:82-98`). -/
def corToCov (cor : Mat n) (std : Fin n → ℝ) : Mat n := fun i j => cor i j * (std i * std j)

/-- The product `V @ (lam[:, None] * V.T)` (`cov.py:116`). -/
noncomputable def eigSum (ps : List (Pair n)) : Mat n := fun i j => (ps.map fun p => p.2 i * (p.1 * p.2 j)).sum

/-- `_eig_to_cor` (`cov.py:101-122`). -/
noncomputable def eigToCor (ps : List (Pair n)) : Mat n := fun i j =>
  if i = j then 1 else clip1 (eigSum ps i j)

/-- `values[idx]`, `vectors[:, idx]`. -/
def takeIdx {α : Type} (l : List α) (idx : List Nat) : List α := idx.filterMap fun i => l[i]?

/-- `_cor_to_eig` (`cov.py:125-158`). `argsort` returns the positions in increasing order of the values.
`if k:` treats 0 like `None`; a negative `k` selects `argsort(values)[|k|:]`. -/
noncomputable def corToEig (eigh : Mat n → List (Pair n)) (argsort : List ℝ → List Nat) (cor : Mat n)
    (sort : Bool) (k : Option Int) : List (Pair n) :=
  let ps := eigh cor
  let ps := if k.getD 0 = 0 then ps
    else takeIdx ps (sliceFrom (argsort (ps.map (·.1))) (-k.getD 0)).reverse
  if sort then takeIdx ps (argsort (ps.map (·.1))).reverse else ps

/-- `_eig_complete` (`cov.py:161-189`). `svdU vs` are the `n` columns of the first factor of the full SVD of
the matrix with columns `vs`. -/
noncomputable def eigComplete (svdU : List (Fin n → ℝ) → List (Fin n → ℝ)) (ps : List (Pair n)) :
    Py (List (Pair n)) :=
  if ps.length = 0 then .error .assertionError
  else if ps.length < n then
    let fill := (n - (ps.map (·.1)).sum) / (n - ps.length)
    .ok (ps ++ ((svdU (ps.map (·.2))).drop ps.length).map fun u => (fill, u))
  else .ok ps

/-! ### Marchenko–Pastur -/

/-- `_marcenko_pastur_support` (`cov.py:192-213`) for a positive number of time steps. -/
noncomputable def mpSupport (var : ℝ) (T N : Nat) : ℝ × ℝ :=
  let q : ℝ := T / N
  (var * (1 - Real.sqrt (1 / q)) ^ 2, var * (1 + Real.sqrt (1 / q)) ^ 2)

open Classical in
/-- One value of `_marchenko_pastur_pdf` (`cov.py:241-250`) for a float array. -/
noncomputable def mpDensity (var : ℝ) (T N : Nat) (x : ℝ) : ℝ :=
  let s := mpSupport var T N
  if s.1 < x ∧ x < s.2 then
    (T / N : ℝ) / (2 * Real.pi * var * x) * Real.sqrt ((s.2 - x) * (x - s.1))
  else 0

open Classical in
/-- `_marchenko_pastur_pdf` (`cov.py:216-250`). `np.zeros_like` of an integer array is an integer array, which
truncates the densities. Both divisions of Python integers raise for zero. -/
noncomputable def mpPdf (intDtype : Bool) (var : ℝ) (T N : Nat) (xs : List ℝ) : Py (List ℝ) :=
  if var ≤ 0 then .error .valueError
  else if N = 0 ∨ T = 0 then .error .zeroDivisionError
  else .ok (xs.map fun x => if intDtype then (⌊mpDensity var T N x⌋ : ℝ) else mpDensity var T N x)

/-- `np.linspace(0.01, 4, 1000)` -/
noncomputable def mpGrid : List ℝ := (List.range 1000).map fun i : Nat => 0.01 + (i : ℝ) * (3.99 / 999)

/-- `np.max` of a non-empty list. -/
noncomputable def lmax (l : List ℝ) : ℝ := l.tail.foldl max (l.headD 0)

open Classical in
/-- The log-likelihood of a variance (`cov.py:278-281`), for eigenvalues with a positive maximum. -/
noncomputable def mpLogLik (T N : Nat) (xs : List ℝ) (var : ℝ) : ℝ :=
  (xs.map fun x => Real.log (if 0 < mpDensity var T N x then mpDensity var T N x else 1 / lmax xs)).sum

open Classical in
/-- The loop of `_marchenko_pastur_fit` (`cov.py:275-284`); the state is `(max_ll, max_var)`. -/
noncomputable def mpLoop (ll : ℝ → ℝ) : ℝ × ℝ → List ℝ → ℝ × ℝ
  | st, [] => st
  | st, v :: vs => mpLoop ll (if st.1 < ll v then (ll v, v) else st) vs

open Classical in
/-- `_marchenko_pastur_fit` (`cov.py:253-285`) for a float array. With the maximum 0 every density is replaced by
`1 / 0 = inf` and the first variance wins; with a negative maximum every likelihood is `nan` and 0 is returned. -/
noncomputable def mpFit (T N : Nat) (xs : List ℝ) : Py ℝ :=
  if N = 0 ∨ T = 0 then .error .zeroDivisionError
  else if xs = [] then .error .valueError
  else if lmax xs < 0 then .ok 0
  else if lmax xs = 0 then .ok 0.01
  else .ok (mpLoop (mpLogLik T N xs) (-10 ^ 9, 0) mpGrid).2

/-! ### Denoising -/

/-- The eigenvalues after the in-place assignment (`cov.py:375-376`). -/
noncomputable def truncateEig (lam : List ℝ) (T : Nat) : List ℝ :=
  if T < lam.length then lam.take T ++ List.replicate (lam.length - T) 0 else lam

/-- The replacement of the noise eigenvalues (`cov.py:393-394`). For an empty tail nothing is assigned. -/
noncomputable def flattenTail (lam : List ℝ) (k : Int) : List ℝ :=
  let tail := sliceFrom lam k
  lam.take (lam.length - tail.length) ++ List.replicate tail.length (Sim.lmean tail)

/-- The returned `info` dictionary: the number of factors, and the variance and threshold if fitted. -/
structure Info where
  k : Int
  fitted : Option (ℝ × ℝ)

open Classical in
/-- `_eigen_values_denoise` (`cov.py:352-395`): the improved eigenvalues, the info, and the caller's array
afterwards. Note the slice `eigen_values[:num_assets - num_timesteps]` used for the fit. -/
noncomputable def eigenValuesDenoise (lam : List ℝ) (T : Nat) (k : Option Int) : Py (List ℝ × Info × List ℝ) :=
  let N := lam.length
  let lam' := truncateEig lam T
  match k with
  | some k => .ok (flattenTail lam' k, ⟨k, none⟩, lam')
  | none => do
    let var ← mpFit T N (if T < N then lam'.take (N - T) else lam')
    let thr := (mpSupport var T N).2
    let k := lam'.countP fun x => decide (thr ≤ x)
    .ok (flattenTail lam' k, ⟨k, some (var, thr)⟩, lam')

/-- The argument of `_cor_denoise`. -/
inductive CorArg (n : Nat)
  | notArray
  | notSquare
  | square (m : Mat n)

/-- `_cor_denoise` (`cov.py:314-349`): the matrix and the info (the returned eigenvectors are left out). -/
noncomputable def corDenoise (eigh : Mat n → List (Pair n)) (argsort : List ℝ → List Nat)
    (svdU : List (Fin n → ℝ) → List (Fin n → ℝ)) (T : Nat) (k : Option Int) : CorArg n → Py (Mat n × Info)
  | .notArray => .error .typeError
  | .notSquare => .error .valueError
  | .square cor =>
    let ps := corToEig eigh argsort cor true none
    match k with
    | none => do
      let (lam, info, _) ← eigenValuesDenoise (ps.map (·.1)) T none
      .ok (eigToCor (lam.zip (ps.map (·.2))), info)
    | some k => do
      let e ← eigComplete svdU (sliceTo ps k)
      .ok (eigToCor e, ⟨k, none⟩)

/-- `_cov_denoise` (`cov.py:288-311`) of a square array. -/
noncomputable def covDenoise (eigh : Mat n → List (Pair n)) (argsort : List ℝ → List Nat)
    (svdU : List (Fin n → ℝ) → List (Fin n → ℝ)) (T : Nat) (k : Option Int) (cov : Mat n) : Py (Mat n × Info) := do
  let (cor, info) ← corDenoise eigh argsort svdU T k (.square (covToCor cov covReg).1)
  .ok (corToCov cor (covToCor cov covReg).2, info)

/-- `_random_cov` (`cov.py:398-415`): `x` are the normal draws, `2 * dim` rows. -/
def randomCov (x : Matrix (Fin (2 * n)) (Fin n) ℝ) : Mat n := x.transpose * x

/-- `_random_cor` (`cov.py:418-433`). -/
noncomputable def randomCor (x : Matrix (Fin (2 * n)) (Fin n) ℝ) : Mat n := (covToCor (randomCov x) covReg).1

/-! ### Block matrices -/

/-- The assignment `cor[i:i+s, i:i+s] = c` (`cov.py:53`). -/
def setBlock (m : Nat → Nat → ℝ) (i s : Nat) (c : ℝ) : Nat → Nat → ℝ := fun a b =>
  if (i ≤ a ∧ a < i + s) ∧ (i ≤ b ∧ b < i + s) then c else m a b

/-- The loop over the blocks (`cov.py:51-54`). -/
def blockLoop : (Nat → Nat → ℝ) → Nat → List (Nat × ℝ) → (Nat → Nat → ℝ)
  | m, _, [] => m
  | m, i, (s, c) :: bs => blockLoop (setBlock m i s c) (i + s) bs

/-- `_cor_block_diagonal` (`cov.py:6-56`) for non-negative sizes: the size and the entries. -/
def corBlockDiagonal (sizes : List Nat) (cors : List ℝ) : Py (Nat × (Nat → Nat → ℝ)) :=
  if sizes.length ≠ cors.length then .error .valueError
  else if sizes.length = 0 then .ok (0, fun _ _ => 0)
  else .ok (sizes.sum, fun a b => if a = b then 1 else blockLoop (fun _ _ => 0) 0 (sizes.zip cors) a b)

end Verif.Cov
