import Verif.Spec.Quaternion
import Mathlib.Algebra.Field.ZMod
import Mathlib.Logic.Relation

/-!
# Specification: perfect sequences over the sixteen letters of the README

What a user of the program wants: the perfect sequences of length `n` over the alphabet
`±1, ±i, ±j, ±k, ±q, ±qi, ±qj, ±qk` with `q = (1 + i + j + k) / 2`, up to equivalence, written with the letters of the
table in `README.md:58-78`. Nothing here mentions quadruples of ±1 sequences or the functions of the program.
-/

namespace Spec
open scoped Quaternion

/-- The imaginary units and `q`. -/
def qi : ℍ[ℚ] := ⟨0, 1, 0, 0⟩
@[inherit_doc qi] def qj : ℍ[ℚ] := ⟨0, 0, 1, 0⟩
@[inherit_doc qi] def qk : ℍ[ℚ] := ⟨0, 0, 0, 1⟩
@[inherit_doc qi] def qq : ℍ[ℚ] := ⟨1 / 2, 1 / 2, 1 / 2, 1 / 2⟩

/-- The table of `README.md:58-78`: capital letters are negatives. -/
def readmeLetter : Char → Option ℍ[ℚ]
  | '+' => some 1
  | '-' => some (-1)
  | 'i' => some qi
  | 'j' => some qj
  | 'k' => some qk
  | 'q' => some qq
  | 'x' => some (qq * qi)
  | 'y' => some (qq * qj)
  | 'z' => some (qq * qk)
  | 'I' => some (-qi)
  | 'J' => some (-qj)
  | 'K' => some (-qk)
  | 'Q' => some (-qq)
  | 'X' => some (-(qq * qi))
  | 'Y' => some (-(qq * qj))
  | 'Z' => some (-(qq * qk))
  | _ => none

/-- The sixteen quaternions of the table. -/
def Alphabet : Set ℍ[ℚ] := {a | ∃ c, readmeLetter c = some a}

/-- The line of text writes the sequence `x`: one letter for each position. -/
def Writes {n : ℕ} (line : List Char) (x : ZMod n → ℍ[ℚ]) : Prop :=
  line.length = n ∧ ∀ i : ZMod n, (line[i.val]?).bind readmeLetter = some (x i)

/-- A perfect sequence over the alphabet. -/
def PerfectWord {n : ℕ} [NeZero n] (x : ZMod n → ℍ[ℚ]) : Prop := (∀ i, x i ∈ Alphabet) ∧ Perfect x

/-- Inner product of quaternions. -/
def inner4 (x y : ℍ[ℚ]) : ℚ := (x * star y).re

/-- One of the quaternions `(±1 ± i ± j ± k) / 2` outside the alphabet. Up to sign there are four, orthogonal to each
other, and every letter has inner product `±1/2` with each of them. -/
def OuterUnit (e : ℍ[ℚ]) : Prop :=
  (∀ c ∈ [e.re, e.imI, e.imJ, e.imK], c = 1 / 2 ∨ c = -1 / 2) ∧ e ∉ Alphabet

/-- The elementary moves on sequences of quaternions. -/
inductive WordMove {n : ℕ} [NeZero n] (x : ZMod n → ℍ[ℚ]) : (ZMod n → ℍ[ℚ]) → Prop
  /-- Cyclic shift. -/
  | shift (o : ZMod n) : WordMove x fun i => x (i + o)
  /-- Decimation by a unit of the integers modulo `n`. -/
  | decimate (u : (ZMod n)ˣ) : WordMove x fun i => x (u * i)
  /-- Negation of every second term (even length). -/
  | alternate (h : Even n) : WordMove x fun i => (-1) ^ i.val * x i
  /-- Multiplication of all terms by `u` from the left and by `v` from the right, if that maps letters to letters. -/
  | rotate (u v : ℍ[ℚ]) (h : ∀ a ∈ Alphabet, u * a * v ∈ Alphabet) : WordMove x fun i => u * x i * v
  /-- Shift by half the length of the components along two different outer units (even length). -/
  | half (h : Even n) (e₁ e₂ : ℍ[ℚ]) (h₁ : OuterUnit e₁) (h₂ : OuterUnit e₂) (hne : e₁ ≠ e₂) (hne' : e₁ ≠ -e₂) :
      WordMove x fun i => x i + inner4 (x (i + (n / 2 : ℕ)) - x i) e₁ • e₁ +
        inner4 (x (i + (n / 2 : ℕ)) - x i) e₂ • e₂

/-- Equivalence of sequences over the alphabet: the least equivalence relation containing the moves. -/
def WordEquiv {n : ℕ} [NeZero n] : (ZMod n → ℍ[ℚ]) → (ZMod n → ℍ[ℚ]) → Prop :=
  Relation.EqvGen fun x y => (∀ i, x i ∈ Alphabet) ∧ WordMove x y

/-- The text is a complete classification of the perfect sequences of length `n` over the alphabet: every line writes one,
no two lines write equivalent ones, and every perfect sequence is equivalent to the one on some line. -/
def Classifies (n : ℕ) [NeZero n] (lines : List (List Char)) : Prop :=
  ∃ ws : List (ZMod n → ℍ[ℚ]), List.Forall₂ Writes lines ws ∧ (∀ x ∈ ws, PerfectWord x) ∧
    ws.Pairwise (fun x y => ¬ WordEquiv x y) ∧ ∀ x, PerfectWord x → ∃ y ∈ ws, WordEquiv x y

end Spec
