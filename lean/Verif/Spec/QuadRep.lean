import Mathlib.GroupTheory.Perm.Fin
import Mathlib.GroupTheory.Perm.Sign
import Mathlib.Order.Lex
import Mathlib.Data.Prod.Lex

/-!
# Specification: classes of row-sum quadruples

Written for the set of quadruples of integers, without reference to the program.
-/

namespace Spec

/-- The entry at a position. -/
def entryAt (q : ℤ × ℤ × ℤ × ℤ) : Fin 4 → ℤ := ![q.1, q.2.1, q.2.2.1, q.2.2.2]

/-- A quadruple with a zero entry or a repeated entry. -/
def Degenerate (q : ℤ × ℤ × ℤ × ℤ) : Prop := (∃ i, entryAt q i = 0) ∨ ∃ i j, i ≠ j ∧ entryAt q i = entryAt q j

/-- Same entries, rearranged by an arbitrary permutation, or, if `even` is asked for and the quadruple is not degenerate,
by an even permutation. -/
def Rearranged (even : Prop) (q r : ℤ × ℤ × ℤ × ℤ) : Prop :=
  ∃ σ : Equiv.Perm (Fin 4), (even → ¬ Degenerate q → Equiv.Perm.sign σ = 1) ∧ ∀ i, entryAt r i = entryAt q (σ i)

/-- Lexicographic order. -/
def lexLe (q r : ℤ × ℤ × ℤ × ℤ) : Prop :=
  toLex (q.1, toLex (q.2.1, toLex (q.2.2.1, q.2.2.2))) ≤ toLex (r.1, toLex (r.2.1, toLex (r.2.2.1, r.2.2.2)))

end Spec
