import Verif.Spec.System
import Verif.Spec.Pipeline

/-!
# Specification: files that end in the middle of a line
-/

namespace Spec
open Model

/-- The beginning, of any length, of a list of ±1 sequences of length `n`. -/
def CutList (n : ℕ) (t : Text) : Prop :=
  ∃ ls : List Text, (∀ x ∈ ls, x.length = n ∧ ∀ c ∈ x, c = '+' ∨ c = '-') ∧ t <+: unlines ls

/-- The first `m` entries of the four sequences. -/
def firstEntries (m : ℕ) (q : QuadSeq) : QuadSeq :=
  { size := m, a := q.a.take m, b := q.b.take m, c := q.c.take m, d := q.d.take m }

end Spec
