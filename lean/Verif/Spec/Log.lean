import Verif.Spec.Driver

/-!
# Specification: the numbers in the table
-/

namespace Spec
open Model

/-- The number of classes of sequences of type `ty` and length `n` for the equivalence of the type. -/
noncomputable def classCount (n : ℕ) [NeZero n] (ty : SeqType) : ℕ :=
  {c : Set QuadSeq | ∃ q, OfType n ty q ∧ c = {x | PMQuad n x ∧ TypeEquiv ty (fam n q) (fam n x)}}.ncard

/-- The number of classes of Hadamard matrices that come from QT sequences of length `n`. -/
noncomputable def hadamardCount (n : ℕ) [NeZero n] : ℕ :=
  {c : Set HM | ∃ q m, IsQTS n q ∧ HM.fromWilliamson q .quaternionType = some m ∧ c = {y | HMEquiv m y}}.ncard

end Spec
