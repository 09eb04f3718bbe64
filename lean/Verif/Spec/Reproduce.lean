import Verif.Model.Program

/-!
# Specification: the same command in two processes
-/

namespace Spec
open Model

/-- The same blocks of whole lines in another order. -/
def Shuffled (t t' : Text) : Prop :=
  ∃ bs bs' : List Text, bs.Perm bs' ∧ (∀ b ∈ bs, ∃ x, b = x ++ ['\n']) ∧ t = bs.flatten ∧ t' = bs'.flatten

/-- The same write, or a write of the same file of matrices with the blocks in another order. -/
def SameWrite (o o' : Write) : Prop :=
  o = o' ∨ ∃ ty n name t t', name ∈ ["result.mat".toList, "qhm_all.mat".toList] ∧ o = .putTop ty n name t ∧
    o' = .putTop ty n name t' ∧ Shuffled t t'

/-- The same write, or a write of the same file with the lines in another order. -/
def ShuffledWrite (o o' : Write) : Prop :=
  o = o' ∨ ∃ ty n name t t', o = .putTop ty n name t ∧ o' = .putTop ty n name t' ∧ Shuffled t t'

end Spec
