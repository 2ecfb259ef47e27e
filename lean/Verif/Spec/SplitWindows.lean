import Verif.Spec.KFold

/-!
# Specification vocabulary: information shared by training and test samples

A sample with label `g` is built from data with labels `g - b` to `g + h`: its features look back `b`
label units and its target looks ahead `h` label units (returns over the next `h` days, say).
-/

namespace Verif.Split

/-- Some training sample and some test sample of the split are built from data with a common label. -/
def SharesData (vals : List Int) (b h : Nat) (s : TrainTest) : Prop :=
  ∃ i ∈ s.1, ∃ j ∈ s.2, ∃ t : Int, (label vals i - b ≤ t ∧ t ≤ label vals i + h) ∧
    (label vals j - b ≤ t ∧ t ≤ label vals j + h)

end Verif.Split
