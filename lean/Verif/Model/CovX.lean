import Verif.Model.Cov
import Verif.Model.SimX

/-!
# `quantfinlib/math/cov.py` on floats with special values

`Cov` computes with real numbers. Here conversions, fit and denoising are modelled on floats: matrices with missing or infinite
entries, `cov_reg <= 0`. On ordinary numbers both models agree (`Props/CovX.lean`). `np.linalg.eigh` and `np.linalg.svd` may raise
and may return `nan`; they are parameters, as is `argsort`.
-/

namespace Verif.Cov

open Verif.Sim (xsum xmean xclip)

variable {n : Nat}

/-- A square array of floats. -/
abbrev XMat (n : Nat) := Fin n → Fin n → XF

/-- An eigenvalue with its eigenvector. -/
abbrev XPair (n : Nat) := XF × (Fin n → XF)

/-- A matrix of numbers as floats. -/
def XMat.ofMat (m : Mat n) : XMat n := fun i j => .fin (m i j)

/-- A vector of numbers as floats. -/
def xvec (v : Fin n → ℝ) : Fin n → XF := fun i => .fin (v i)

/-- A pair of numbers as floats. -/
def XPair.of (p : Pair n) : XPair n := (.fin p.1, xvec p.2)

open Classical in
/-- `np.maximum(a, b)`: `nan` if one of them is. -/
noncomputable def npMaximum (a b : XF) : XF :=
  if a = .nan ∨ b = .nan then .nan else if XF.lt a b then b else a

/-- `std` of `_cov_to_cor` (`cov.py:75`). -/
noncomputable def covStdX (cov : XMat n) (reg : XF) (i : Fin n) : XF := (npMaximum (cov i i) reg).sqrt

/-- `_cov_to_cor` (`cov.py:59-79`). The two assignments to masks clip to `[-1, 1]` and leave `nan`. -/
noncomputable def covToCorX (cov : XMat n) (reg : XF) : XMat n × (Fin n → XF) :=
  (fun i j => xclip (cov i j / (covStdX cov reg i * covStdX cov reg j)), covStdX cov reg)

/-- `_cor_to_cov` (`cov.py:82-98`). -/
noncomputable def corToCovX (cor : XMat n) (std : Fin n → XF) : XMat n := fun i j => cor i j * (std i * std j)

/-- The product `V @ (lam[:, None] * V.T)` (`cov.py:116`). -/
noncomputable def eigSumX (ps : List (XPair n)) : XMat n := fun i j => xsum (ps.map fun p => p.2 i * (p.1 * p.2 j))

/-- `_eig_to_cor` (`cov.py:101-122`). -/
noncomputable def eigToCorX (ps : List (XPair n)) : XMat n := fun i j => if i = j then .fin 1 else xclip (eigSumX ps i j)

/-- `_cor_to_eig` (`cov.py:125-158`) with `sort=True`, `k=None`. -/
noncomputable def corToEigX (eigh : XMat n → Py (List (XPair n))) (argsort : List XF → List Nat) (cor : XMat n) :
    Py (List (XPair n)) := do
  let ps ← eigh cor
  .ok (takeIdx ps (argsort (ps.map (·.1))).reverse)

/-- `_eig_complete` (`cov.py:161-189`). -/
noncomputable def eigCompleteX (svdU : List (Fin n → XF) → Py (List (Fin n → XF))) (ps : List (XPair n)) : Py (List (XPair n)) :=
  if ps.length = 0 then .error .assertionError
  else if ps.length < n then do
    let u ← svdU (ps.map (·.2))
    .ok (ps ++ (u.drop ps.length).map fun v => ((.fin n - xsum (ps.map (·.1))) / .fin (n - ps.length), v))
  else .ok ps

open Classical in
/-- One value of `_marchenko_pastur_pdf` (`cov.py:241-250`). -/
noncomputable def mpDensityX (var : ℝ) (T N : Nat) (x : XF) : XF :=
  let s := mpSupport var T N
  if XF.lt (.fin s.1) x ∧ XF.lt x (.fin s.2) then
    .fin (T / N) / (.fin (2 * Real.pi * var) * x) * ((.fin s.2 - x) * (x - .fin s.1)).sqrt
  else .fin 0

/-- `np.max` of a non-empty array. -/
noncomputable def npMaxX : List XF → XF
  | [] => .nan
  | a :: l => l.foldl npMaximum a

open Classical in
/-- The log-likelihood of a variance (`cov.py:278-281`). -/
noncomputable def mpLogLikX (T N : Nat) (xs : List XF) (var : ℝ) : XF :=
  xsum (xs.map fun x => (if XF.lt (.fin 0) (mpDensityX var T N x) then mpDensityX var T N x else .fin 1 / npMaxX xs).log)

open Classical in
/-- The loop of `_marchenko_pastur_fit` (`cov.py:275-284`). -/
noncomputable def mpLoopX (ll : ℝ → XF) : XF × ℝ → List ℝ → XF × ℝ
  | st, [] => st
  | st, v :: vs => mpLoopX ll (if XF.lt st.1 (ll v) then (ll v, v) else st) vs

/-- `_marchenko_pastur_fit` (`cov.py:253-285`). -/
noncomputable def mpFitX (T N : Nat) (xs : List XF) : Py ℝ :=
  if N = 0 ∨ T = 0 then .error .zeroDivisionError
  else if xs = [] then .error .valueError
  else .ok (mpLoopX (mpLogLikX T N xs) (.fin (-10 ^ 9), 0) mpGrid).2

/-- The eigenvalues after the in-place assignment (`cov.py:375-376`). -/
def truncateEigX (lam : List XF) (T : Nat) : List XF :=
  if T < lam.length then lam.take T ++ List.replicate (lam.length - T) (.fin 0) else lam

/-- The replacement of the noise eigenvalues (`cov.py:393-394`). -/
noncomputable def flattenTailX (lam : List XF) (k : Int) : List XF :=
  let tail := sliceFrom lam k
  lam.take (lam.length - tail.length) ++ List.replicate tail.length (xmean tail)

open Classical in
/-- `_eigen_values_denoise` (`cov.py:352-395`) with `k=None`: the improved eigenvalues and the info. -/
noncomputable def eigenValuesDenoiseX (lam : List XF) (T : Nat) : Py (List XF × Info) := do
  let N := lam.length
  let lam' := truncateEigX lam T
  let var ← mpFitX T N (if T < N then lam'.take (N - T) else lam')
  let thr := (mpSupport var T N).2
  let k := lam'.countP fun x => decide (XF.lt (.fin thr) x ∨ XF.eq (.fin thr) x)
  .ok (flattenTailX lam' k, ⟨k, some (var, thr)⟩)

/-- `_cor_denoise` (`cov.py:314-349`) of a square array. -/
noncomputable def corDenoiseX (eigh : XMat n → Py (List (XPair n))) (argsort : List XF → List Nat)
    (svdU : List (Fin n → XF) → Py (List (Fin n → XF))) (T : Nat) (k : Option Int) (cor : XMat n) : Py (XMat n × Info) := do
  let ps ← corToEigX eigh argsort cor
  match k with
  | none => do
    let (lam, info) ← eigenValuesDenoiseX (ps.map (·.1)) T
    .ok (eigToCorX (lam.zip (ps.map (·.2))), info)
  | some k => do
    let e ← eigCompleteX svdU (sliceTo ps k)
    .ok (eigToCorX e, ⟨k, none⟩)

/-- `_cov_denoise` (`cov.py:288-311`) of a square array. -/
noncomputable def covDenoiseX (eigh : XMat n → Py (List (XPair n))) (argsort : List XF → List Nat)
    (svdU : List (Fin n → XF) → Py (List (Fin n → XF))) (T : Nat) (k : Option Int) (cov : XMat n) : Py (XMat n × Info) := do
  let (cor, info) ← corDenoiseX eigh argsort svdU T k (covToCorX cov (.fin covReg)).1
  .ok (corToCovX cor (covToCorX cov (.fin covReg)).2, info)

end Verif.Cov
