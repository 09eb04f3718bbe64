import Verif.Spec.Numerics

/-!
# Specification: what the filter of the pair stage keeps
-/

namespace Spec
open Model

/-- The arithmetic is good enough for the keys of the matching option `mo` at length `n`. Unlike `Numerics` this says
nothing about the filter. -/
structure KeyNumerics {F : Type} (A : Fl F) (val : F → ℝ) (n : ℕ) [NeZero n] (mo : MatchOption) : Prop where
  correlation : mo = .correlation → Accurate A val n
  psd : mo = .psd → SpectrumKeys A n

/-- The filter, as computed by the arithmetic, keeps the pair of sequences. -/
def PairKept {F : Type} (A : Fl F) (n : ℕ) (x y : List ℤ) : Prop :=
  boundExceeded A ((dftSequence A x).map A.normSqr) ((dftSequence A y).map A.normSqr) (A.mul (A.lit 4 1) (A.ofInt n)) = false

/-- Both pairs of the quadruple, for a pairing, are kept. -/
def Kept {F : Type} (A : Fl F) (n : ℕ) (pr : Option Pairing) (q : QuadSeq) : Prop :=
  PairKept A n (q.sequence (pairingTags pr).1.1) (q.sequence (pairingTags pr).1.2) ∧
    PairKept A n (q.sequence (pairingTags pr).2.1) (q.sequence (pairingTags pr).2.2)

/-- The spectra of two sequences add up to the bound `4 n` at a frequency other than 0. -/
def PairTouches (n : ℕ) (x y : List ℤ) : Prop :=
  ∃ k, 1 ≤ k ∧ k ≤ n / 2 ∧ psd n x k + psd n y k = 4 * n

/-- The spectra of a pair of the quadruple, for a pairing, add up to the bound. -/
def Touches (n : ℕ) (pr : Option Pairing) (q : QuadSeq) : Prop :=
  PairTouches n (q.sequence (pairingTags pr).1.1) (q.sequence (pairingTags pr).1.2) ∨
    PairTouches n (q.sequence (pairingTags pr).2.1) (q.sequence (pairingTags pr).2.2)

/-- The class of `x` has a member that the pair stage keeps: one whose row sums are in the list and whose pairs pass the
filter. -/
def ClassKept {F : Type} (A : Fl F) (n : ℕ) [NeZero n] (ty : SeqType) (pr : Option Pairing) (l : List Quad) (x : QuadSeq) :
    Prop :=
  ∃ s, OfType n ty s ∧ rowsums s ∈ l ∧ Kept A n pr s ∧ TypeEquiv ty (fam n x) (fam n s)

end Spec
