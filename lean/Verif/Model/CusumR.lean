import Verif.Model.Cusum
import Verif.Model.RoundSum

/-!
# The CUSUM test with rounding after every operation

As `Model/Cusum`, with every operation rounded by `fl`; roots and logarithms are rounded once. `np.cumsum` adds from left to
right.
-/

namespace Verif.Cusum

open Verif Ser Round

variable (fl : ℝ → ℝ)

/-- `cusumtest.py:61`, `squared_diffs`. -/
noncomputable def sqDiffsR (l : Ser) : Ser :=
  List.zipWith (fun a b => rnd fl (rnd fl (b - a) * rnd fl (b - a))) l l.tail

/-- `cusumtest.py:62`, `sigma_hats[t - 1]`. -/
noncomputable def sigmaHatR (l : Ser) (t : Nat) : XF :=
  rnd fl (rnd fl (((sqDiffsR fl l).take t).foldl (fun a b => rnd fl (a + b)) (XF.fin 0) / XF.fin t)).sqrt

/-- `cusumtest.py:70-72`, `S_n_t` for `n = 0, …, t - 1`. -/
noncomputable def departuresR (l : Ser) (t : Nat) : Ser :=
  (List.range t).map fun (n : Nat) =>
    rnd fl (rnd fl ((l[t]?).getD .nan - (l[n]?).getD .nan) / rnd fl (sigmaHatR fl l t * .fin (fl (Real.sqrt ((t : ℝ) - n)))))

/-- `cusumtest.py:68-74`, one step of the loop. -/
noncomputable def stepR (l : Ser) (t : Nat) : XF × XF :=
  if t = 0 then (.fin 0, .fin 0)
  else (npMax (departuresR fl l t),
    rnd fl (.fin (fl (fl 4.6 + fl (Real.log ((t : ℝ) - argmax (departuresR fl l t))))) : XF).sqrt)

/-- `cusumtest.py:6-75`, `chu_stinchcombe_white_cusum_test`. -/
noncomputable def testR (y : Ser) : Ser × Ser :=
  let l := y.map fun v => rnd fl v.log
  ((List.range y.length).map fun t => (stepR fl l t).1, (List.range y.length).map fun t => (stepR fl l t).2)

end Verif.Cusum
