import Verif.Model.Indicators
import Verif.Model.NdArray

/-!
# Sums, paths and indicators with rounding after every operation
-/

namespace Verif.Round

variable (fl : ℝ → ℝ)

/-- An order in which a non-empty array is summed: `np.sum`, `np.mean` and `np.std` add in blocks and pairs, pandas from left to
right; every such order is a binary tree. -/
inductive SumTree
  | leaf (x : ℝ)
  | node (l r : SumTree)

namespace SumTree

/-- The numbers that are summed. -/
def leaves : SumTree → List ℝ
  | leaf x => [x]
  | node l r => l.leaves ++ r.leaves

/-- The sum with rounding. -/
noncomputable def eval : SumTree → ℝ
  | leaf x => x
  | node l r => fl (l.eval + r.eval)

/-- The largest number of additions a summand goes through. -/
def height : SumTree → Nat
  | leaf _ => 0
  | node l r => max l.height r.height + 1

/-- The sum of the same shape of other numbers. -/
def map (f : ℝ → ℝ) : SumTree → SumTree
  | leaf x => leaf (f x)
  | node l r => node (l.map f) (r.map f)

end SumTree

/-- `np.mean` of an array summed in a given order. -/
noncomputable def meanR (t : SumTree) : ℝ := fl (t.eval fl / t.leaves.length)

/-- `np.sum((x - mean)**2)`, the sum in `np.std`, in the same order. -/
noncomputable def sqDevR (t : SumTree) : ℝ := (t.map fun x => fl (fl (x - meanR fl t) ^ 2)).eval fl

/-- One column of `np.cumsum(ans, axis=0)` (`_bm.py:216`): row by row. -/
noncomputable def pathR (d : Nat → ℝ) : Nat → ℝ
  | 0 => d 0
  | t + 1 => fl (pathR d t + d (t + 1))

/-- `np.cumsum(ans, axis=0)` (`_bm.py:216`, `_gbm.py:228`). -/
noncomputable def cumsumR (a : Arr) : Arr :=
  ⟨a.rows, a.cols, fun k => pathR fl (fun i => a.get i (k % a.cols)) (k / a.cols)⟩

/-- Rounding of a float that may be special. -/
noncomputable def rnd : XF → XF
  | .fin r => .fin (fl r)
  | x => x

/-- `100.0 * (up / (up + down))` (`_rsi.py:27`, `_rsi.py:50`). -/
noncomputable def rsiOfR (up down : Ser) : Ser :=
  (Ser.op2 (fun a b => rnd fl (a / b)) up (Ser.op2 (fun a b => rnd fl (a + b)) up down)).map fun x => rnd fl (.fin 100 * x)

/-- `rolling_mean + (rolling_std * multiplier)` (`_bands.py:75`). -/
noncomputable def upperR (b : Ind.Bands) : Ser :=
  Ser.op2 (fun a c => rnd fl (a + c)) b.mean (b.std.map fun s => rnd fl (s * .fin b.mult))

/-- `rolling_mean - (rolling_std * multiplier)` (`_bands.py:86`). -/
noncomputable def lowerR (b : Ind.Bands) : Ser :=
  Ser.op2 (fun a c => rnd fl (a - c)) b.mean (b.std.map fun s => rnd fl (s * .fin b.mult))

end Verif.Round
