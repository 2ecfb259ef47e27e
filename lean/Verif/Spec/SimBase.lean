import Verif.Model.SimBase

/-!
# What a caller sees of a sample

Written without reference to the functions that produce it.
-/

namespace Verif.Sim

/-- The number of rows (points in time). -/
def Out.rows : Out → Nat
  | .nd a => a.rows
  | .series l _ _ _ => l.length
  | .frame a _ _ _ => a.rows

/-- The number of columns. -/
def Out.cols : Out → Nat
  | .nd a => a.cols
  | .series _ _ _ _ => 1
  | .frame a _ _ _ => a.cols

/-- The value at a row and column. -/
noncomputable def Out.value : Out → Nat → Nat → ℝ
  | .nd a, i, j => a.get i j
  | .series l _ _ _, i, _ => l.getD i 0
  | .frame a _ _ _, i, j => a.get i j

/-- The time labels, if any. -/
def Out.labels : Out → Option (List Int)
  | .nd _ => none
  | .series _ i _ _ => some i
  | .frame _ _ i _ => some i

/-- The column names, if any. -/
def Out.names : Out → Option (List Label)
  | .nd _ => none
  | .series _ _ _ n => some [n]
  | .frame _ c _ _ => some c

/-- `pd.date_range(…, periods=n)` returns `n` dates. -/
def Pandas.Sound (pd : Pandas) : Prop := ∀ a f n l, pd.dateRange a f n = .ok l → l.length = n

/-- The caller asked for dates or columns, or the fitted data had them. -/
def WantsLabels (s : FitState) (g : SampleArgs) : Prop :=
  s.index.has = true ∨ g.labelStart ≠ none ∨ g.labelFreq ≠ none

/-- A call on a model object. -/
inductive Call
  | fit (x : SimData) (dt : Option ℝ)
  | score (k : Score) (x : SimData) (dt : Option ℝ)
  | sample (g : SampleArgs)

end Verif.Sim
