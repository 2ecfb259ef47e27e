import Verif.Model.Labelled

/-!
# What labels are for
-/

namespace Verif.LSer

variable {ι κ : Type} [LinearOrder ι] [LinearOrder κ]

/-- The values `x` under the labels `i`. -/
def lab (i : List ι) (x : Ser) : LSer ι := i.zip x

/-- `pd.Series(x)` of an array. -/
def arr (x : Ser) : LSer Nat := lab (List.range x.length) x

/-- Other labels for the same values. -/
def relabel (φ : ι → κ) (a : LSer ι) : LSer κ := a.map fun p => (φ p.1, p.2)

/-- What is known at `l`. -/
def upto (l : ι) (a : LSer ι) : LSer ι := a.filter fun p => decide (p.1 ≤ l)

/-- A time series: increasing labels. -/
def Sorted (a : LSer ι) : Prop := a.idx.SortedLT

/-- A function of `n` labelled series respects labels; `f` is the same function of unlabelled series. -/
structure Respects (n : Nat) (F : ∀ κ : Type, [LinearOrder κ] → (Fin n → LSer κ) → Py (LSer κ)) (f : (Fin n → Ser) → Py Ser) : Prop where
  /-- On one index (labels may repeat, in any order) the index is kept and the values do not depend on it. -/
  same : ∀ {κ : Type} [LinearOrder κ] (i : List κ) (xs : Fin n → Ser), (∀ k, (xs k).length = i.length) →
    F κ (fun k => lab i (xs k)) = (f xs).map (lab i) ∧ ∀ u, f xs = .ok u → u.length = i.length
  /-- Arrays of any lengths. -/
  arrays : ∀ xs : Fin n → Ser, F Nat (fun k => arr (xs k)) = (f xs).map arr
  /-- Only the order of the labels matters. -/
  relabel : ∀ {κ μ : Type} [LinearOrder κ] [LinearOrder μ] (φ : κ → μ), StrictMono φ → ∀ as : Fin n → LSer κ,
    F μ (fun k => (as k).relabel φ) = (F κ as).map (LSer.relabel φ)
  /-- Time series, of different times or not, give a time series whose times are times of the arguments. -/
  sorted : ∀ {κ : Type} [LinearOrder κ] (as : Fin n → LSer κ), (∀ k, (as k).Sorted) → ∀ u, F κ as = .ok u →
    u.Sorted ∧ ∀ l ∈ u.idx, ∃ k, l ∈ (as k).idx
  /-- The values at times up to `l` are computed from what is known at `l`. -/
  causal : ∀ {κ : Type} [LinearOrder κ] (as : Fin n → LSer κ), (∀ k, (as k).Sorted) → ∀ l,
    F κ (fun k => (as k).upto l) = (F κ as).map (LSer.upto l)

end Verif.LSer
