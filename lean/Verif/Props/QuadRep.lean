import Verif.Proofs.QuadRep

/-!
# C71: representatives of row-sum quadruples
-/

namespace Props
open Model Spec Proofs

/-- C71. The representative never panics, is a permitted rearrangement of the quadruple, and is the lexicographically least
one. Permitted are all permutations, except that for quaternion-type and a quadruple without zero or repeated
entry only the even ones are. -/
theorem C71_representative (q : ℤ × ℤ × ℤ × ℤ) (ty : SeqType) : ∃ r, quadEquivalent q ty = some r ∧
    Rearranged (ty = .quaternionType) q r ∧ ∀ s, Rearranged (ty = .quaternionType) q s → lexLe r s :=
  QuadRep.equivalent_spec q ty

/-- C71. Two quadruples have the same representative exactly when one is a permitted rearrangement of the other. -/
theorem C71_classes (q r : ℤ × ℤ × ℤ × ℤ) (ty : SeqType) :
    quadEquivalent q ty = quadEquivalent r ty ↔ Rearranged (ty = .quaternionType) q r :=
  QuadRep.equivalent_eq_iff q r ty

example : quadEquivalent (7, 1, 5, 3) .quaternionType = some (1, 3, 5, 7) := by decide
example : quadEquivalent (1, 3, 7, 5) .quaternionType = some (1, 3, 7, 5) := by decide
example : quadEquivalent (1, 3, 7, 5) .williamsonType = some (1, 3, 5, 7) := by decide
example : quadEquivalent (3, 1, 7, 1) .quaternionType = some (1, 1, 3, 7) := by decide
example : ¬ Rearranged True (1, 3, 5, 7) (1, 3, 7, 5) := by
  have := (C71_classes (1, 3, 5, 7) (1, 3, 7, 5) .quaternionType).not.1 (by decide)
  simpa using this

end Props
