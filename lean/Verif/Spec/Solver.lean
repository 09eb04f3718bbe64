import Verif.Model.Solver

/-!
# Specification: what the equation file of a pair contains
-/

namespace Spec
open Model

/-- The signs of a sequence. -/
def signs (s : List ℤ) : List Char := s.map fun v => if v = 1 then '+' else '-'

/-- The comment: two lines with a letter and a sequence each, and the row sum. -/
def commentFor (l1 l2 : Char) (s1 s2 : List ℤ) (rs : Quad) : List Char :=
  ["* ".toList, [l1], ": ".toList, signs s1, "\n".toList,
   "* ".toList, [l2], ": ".toList, signs s2, "\n".toList,
   "* rowsum: (".toList, intText rs.1, ",".toList, intText rs.2.1, ",".toList, intText rs.2.2.1, ",".toList,
   intText rs.2.2.2, ")".toList].flatten

/-- `x` is the comment and the equations of the pair `(s1, s2)` placed at the positions of the two best row sums. -/
def PairFile (rs : Quad) (s1 s2 : List ℤ) (x : List Char) : Prop :=
  ∃ tag1 tag2 l1 l2 equations, indexToTag (getTwoBest rs).1.2 = some tag1 ∧ indexToTag (getTwoBest rs).2.2 = some tag2 ∧
    "WXYZ".toList[(getTwoBest rs).1.2]? = some l1 ∧ "WXYZ".toList[(getTwoBest rs).2.2]? = some l2 ∧
    generateEquations s1 tag1 s2 tag2 .quaternionType rs = some equations ∧
    x = commentFor l1 l2 s1 s2 rs ++ equations

end Spec
