import Mathlib.Data.ZMod.Basic
import Mathlib.Algebra.BigOperators.Group.Finset.Basic

/-!
# Specification: cyclic sequences and their correlations

Textbook definitions on functions `ZMod n → ℤ`; nothing here refers to the model of the code.
-/

namespace Spec

variable {n : ℕ} [NeZero n]

/-- The cyclic sequence of length `n` stored in a list: position `i mod n` holds the `i`-th entry. -/
def cyc (n : ℕ) (l : List ℤ) : ZMod n → ℤ := fun i => l.getD i.val 0

/-- Every entry is `1` or `-1`. -/
def PM (x : ZMod n → ℤ) : Prop := ∀ i, x i = 1 ∨ x i = -1

/-- Periodic autocorrelation at shift `t`. -/
def paf (x : ZMod n → ℤ) (t : ZMod n) : ℤ := ∑ i, x i * x (i + t)

/-- Periodic cross-correlation at shift `t`. -/
def ccf (x y : ZMod n → ℤ) (t : ZMod n) : ℤ := ∑ i, x i * y (i - t)

/-- Four sequences whose autocorrelations cancel at every nonzero shift. -/
def Complementary (a b c d : ZMod n → ℤ) : Prop :=
  ∀ t : ZMod n, t ≠ 0 → paf a t + paf b t + paf c t + paf d t = 0

/-- Two sequences are amicable when their cross-correlation does not depend on the order. -/
def Amicable (x y : ZMod n → ℤ) : Prop := ∀ t, ccf x y t = ccf y x t

/-- All six pairs of a quadruple are amicable. -/
def PairwiseAmicable (a b c d : ZMod n → ℤ) : Prop :=
  Amicable a b ∧ Amicable a c ∧ Amicable a d ∧ Amicable b c ∧ Amicable b d ∧ Amicable c d

/-- The weak cross-correlation condition of quaternion-type (QT) sequences. -/
def QTCross (a b c d : ZMod n → ℤ) : Prop :=
  ∀ t, ccf a b t - ccf b a t = ccf d c t - ccf c d t ∧
       ccf a c t - ccf c a t = ccf b d t - ccf d b t ∧
       ccf a d t - ccf d a t = ccf c b t - ccf b c t

/-- A symmetric cyclic sequence. -/
def Symm (x : ZMod n → ℤ) : Prop := ∀ t, x t = x (-t)

end Spec
