import Verif.Spec.Correlation
import Verif.Model.Williamson

/-!
# Specification: quadruples of ±1 sequences
-/

namespace Spec
open Model

/-- A list of ±1 entries. -/
def IsPM (l : List ℤ) : Prop := ∀ x ∈ l, x = 1 ∨ x = -1

/-- A ±1 sequence of length `n`. -/
def PMSeq (n : ℕ) (l : List ℤ) : Prop := l.length = n ∧ IsPM l

/-- A quadruple of ±1 sequences of length `n`. -/
structure PMQuad (n : ℕ) (s : QuadSeq) : Prop where
  size : s.size = n
  a : PMSeq n s.a
  b : PMSeq n s.b
  c : PMSeq n s.c
  d : PMSeq n s.d

/-- A quadruple of entries ±1. -/
def PM4 (v : ℤ × ℤ × ℤ × ℤ) : Prop :=
  (v.1 = 1 ∨ v.1 = -1) ∧ (v.2.1 = 1 ∨ v.2.1 = -1) ∧ (v.2.2.1 = 1 ∨ v.2.2.1 = -1) ∧
    (v.2.2.2 = 1 ∨ v.2.2.2 = -1)

instance (l : List ℤ) : Decidable (IsPM l) := by unfold IsPM; infer_instance
instance (n : ℕ) (l : List ℤ) : Decidable (PMSeq n l) := by unfold PMSeq; infer_instance
instance (n : ℕ) (s : QuadSeq) : Decidable (PMQuad n s) :=
  decidable_of_iff (s.size = n ∧ PMSeq n s.a ∧ PMSeq n s.b ∧ PMSeq n s.c ∧ PMSeq n s.d)
    ⟨fun ⟨h1, h2, h3, h4, h5⟩ => ⟨h1, h2, h3, h4, h5⟩, fun ⟨h1, h2, h3, h4, h5⟩ => ⟨h1, h2, h3, h4, h5⟩⟩

variable {n : ℕ} [NeZero n]

/-- Quaternion-type (QT) sequence. -/
def IsQTS (n : ℕ) [NeZero n] (s : QuadSeq) : Prop :=
  PMQuad n s ∧ Complementary (cyc n s.a) (cyc n s.b) (cyc n s.c) (cyc n s.d) ∧
    QTCross (cyc n s.a) (cyc n s.b) (cyc n s.c) (cyc n s.d)

/-- Williamson-type sequence. -/
def IsWTS (n : ℕ) [NeZero n] (s : QuadSeq) : Prop :=
  PMQuad n s ∧ Complementary (cyc n s.a) (cyc n s.b) (cyc n s.c) (cyc n s.d) ∧
    PairwiseAmicable (cyc n s.a) (cyc n s.b) (cyc n s.c) (cyc n s.d)

/-- Williamson sequence. -/
def IsWS (n : ℕ) [NeZero n] (s : QuadSeq) : Prop :=
  PMQuad n s ∧ Complementary (cyc n s.a) (cyc n s.b) (cyc n s.c) (cyc n s.d) ∧
    Symm (cyc n s.a) ∧ Symm (cyc n s.b) ∧ Symm (cyc n s.c) ∧ Symm (cyc n s.d)

end Spec
