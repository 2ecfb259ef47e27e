import Verif.Model.Micro

/-!
# The Chu-Stinchcombe-White CUSUM test

`quantfinlib/feature/structural_breaks/cusumtest.py` for a one-dimensional float array.
-/

namespace Verif.Cusum

open Verif Ser Classical

/-- `a <= b` for floats. -/
def le (a b : XF) : Prop := XF.lt a b ∨ XF.eq a b

/-- `np.maximum(a, b)`: NaN if one of them is. -/
noncomputable def maximum (a b : XF) : XF :=
  if a = .nan then .nan else if b = .nan then .nan else if XF.lt a b then b else a

/-- `np.max` of a non-empty array. -/
noncomputable def npMax : Ser → XF
  | [] => .nan
  | a :: x => x.foldl maximum a

/-- The loop of `np.argmax`: `best` at `bi`, the next position is `i`; a NaN ends the search. -/
noncomputable def argmaxGo : XF → Nat → Nat → Ser → Nat
  | _, bi, _, [] => bi
  | best, bi, i, v :: x =>
    if best = .nan then bi
    else if le v best then argmaxGo best bi (i + 1) x
    else argmaxGo v i (i + 1) x

/-- `np.argmax` of a non-empty array. -/
noncomputable def argmax : Ser → Nat
  | [] => 0
  | a :: x => argmaxGo a 0 1 x

/-- `cusumtest.py:61`, `squared_diffs`. -/
noncomputable def sqDiffs (l : Ser) : Ser := List.zipWith (fun a b => sqF (b - a)) l l.tail

/-- `cusumtest.py:62`, `sigma_hats[t - 1]`. -/
noncomputable def sigmaHat (l : Ser) (t : Nat) : XF :=
  (((sqDiffs l).take t).foldl (· + ·) (XF.fin 0) / XF.fin t).sqrt

/-- `cusumtest.py:70-72`, `S_n_t` for `n = 0, …, t - 1`. -/
noncomputable def departures (l : Ser) (t : Nat) : Ser :=
  (List.range t).map fun n =>
    ((l[t]?).getD .nan - (l[n]?).getD .nan) / (sigmaHat l t * .fin (Real.sqrt ((t : ℝ) - n)))

/-- `cusumtest.py:68-74`, one step of the loop. -/
noncomputable def step (l : Ser) (t : Nat) : XF × XF :=
  if t = 0 then (.fin 0, .fin 0)
  else (npMax (departures l t), (.fin (4.6 + Real.log ((t : ℝ) - argmax (departures l t))) : XF).sqrt)

/-- `cusumtest.py:6-75`, `chu_stinchcombe_white_cusum_test`: the statistic and the critical values. -/
noncomputable def test (y : Ser) : Ser × Ser :=
  let l := y.map XF.log
  ((List.range y.length).map fun t => (step l t).1, (List.range y.length).map fun t => (step l t).2)

end Verif.Cusum
