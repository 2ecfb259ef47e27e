import Verif.Model.SimBase
import Verif.Model.SimCore

/-!
# `quantfinlib/sim`: the constructors of the path models

`chol` is `np.linalg.cholesky` on square matrices (`none`: it raises `LinAlgError`). A `cor` argument is a matrix here; other
numbers of dimensions are outside the model. `num_parameters_` is in `SimLik`.
-/

namespace Verif.Sim

/-- `if cor is None: … else: self.cor = np.asarray(cor); self.L_ = np.linalg.cholesky(self.cor)`
(`_bm.py:150-155`, `_gbm.py:158-163`, `_ou.py:180-185`). -/
def initL (chol : Arr → Option Arr) : Option Arr → Py (Option Arr)
  | none => .ok none
  | some c =>
    if c.rows = c.cols then
      match chol c with
      | some L => .ok (some L)
      | none => .error .linAlgError
    else .error .linAlgError

/-- `BrownianMotion.__init__` (`_bm.py:130-159`) and `GeometricBrownianMotion.__init__` (`_gbm.py:134-167`). Neither the
lengths of the arguments nor the entries of `cor` are compared with each other. -/
noncomputable def bmInit (chol : Arr → Option Arr) (drift vol : SimData) (cor : Option Arr) : Py BMParams := do
  let d ← drift.toRow
  let v ← vol.toRow
  let L ← initL chol cor
  .ok ⟨d, v, L⟩

/-- `OrnsteinUhlenbeck.__init__` (`_ou.py:152-189`). -/
noncomputable def ouInit (chol : Arr → Option Arr) (mean mrr vol : SimData) (cor : Option Arr) : Py OUParams := do
  let m ← mean.toRow
  let r ← mrr.toRow
  let v ← vol.toRow
  let L ← initL chol cor
  .ok ⟨.row m, .row r, v, L⟩

end Verif.Sim
