import Verif.Model.SimBase
import Verif.Model.SimFit

/-!
# `quantfinlib/sim/_quasi_random.py`: `QuasiRandom`

The base model's sample is a parameter, `f_signal_vol` is a number. The technical indicator is any function from
the values of a column to values with `nan` = `none` (infinities and exceptions of the function are left out).
-/

namespace Verif.Sim

/-- A column of the indicator (`_quasi_random.py:85-87`): zero first, then the indicator of the path without its
last value, `nan` replaced by zero; a length mismatch is a `ValueError`, a single value is broadcast. -/
noncomputable def signalColumn (ind : List ℝ → List (Option ℝ)) (c : List ℝ) : Py (List ℝ) :=
  let r := (ind c.dropLast).map (·.getD 0)
  if r.length = c.length - 1 then .ok (0 :: r)
  else if r.length = 1 then .ok (0 :: List.replicate (c.length - 1) (r.headD 0))
  else .error .valueError

open Classical in
/-- The factor `signal_vol * sqrt(dt) / std(indicator[1:-1], ddof=2)` of a column (`_quasi_random.py:90-91`).
`none`: the whole column, including its first entry `0 / std`, becomes `nan`. With two values the variance is
`x / 0 = inf`, and the factor 0. -/
noncomputable def signalFactor (sv : ℝ) (col : List ℝ) : Option ℝ :=
  let w := col.tail.dropLast
  if w.length ≤ 1 then none
  else if sqDev w = 0 then none
  else if w.length = 2 then some 0
  else some (sv / Real.sqrt (sqDev w / (w.length - 2)))

/-- One column of the result: `bm + cumsum(indicator * factor)` (`none` = `nan`). -/
noncomputable def quasiColumn (ind : List ℝ → List (Option ℝ)) (sv : ℝ) (c : List ℝ) : Py (List (Option ℝ)) := do
  let s ← signalColumn ind c
  .ok ((List.range c.length).map fun t =>
    (signalFactor sv s).map fun k => c.getD t 0 + k * ((s.take (t + 1)).sum))

/-- `QuasiRandom._path_sample_np` (`_quasi_random.py:69-92`) after the base sample, as its list of columns.
`np.tile(vol, num_paths)` repeats the volatility row; broadcasting it against the columns is a `ValueError`
unless the lengths agree or it has length 1 (a single column against several volatilities is not modelled). -/
noncomputable def quasiSample (ind : List ℝ → List (Option ℝ)) (f : ℝ) (vol : List ℝ) (numPaths : Nat) (dt : ℝ)
    (base : Arr) : Py (List (List (Option ℝ))) :=
  let tiled := (List.range numPaths).flatMap fun _ => vol
  if tiled.length = base.cols ∨ tiled.length = 1 then
    (List.range base.cols).mapM fun j => quasiColumn ind (f * bentry tiled j * Real.sqrt dt) (base.col j)
  else .error .valueError

end Verif.Sim
