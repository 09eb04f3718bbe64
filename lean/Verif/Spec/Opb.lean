import Verif.Spec.Equations

/-!
# Specification: reading a pseudo-Boolean text

A reader for the text format of pseudo-Boolean solvers, as far as it is needed for equations. A line that begins with `*` is
a comment, empty lines are skipped. Every other line is a sum of terms, `=`, a number, and `;`. A term is a number
followed by the variables of a product. A variable is `x` and its number.
-/

namespace Spec
open Model

/-- The pieces of a text between separators. -/
def pieces (sep : Char) : List Char → List (List Char)
  | [] => [[]]
  | c :: l => if c = sep then [] :: pieces sep l else
    match pieces sep l with
    | [] => [[c]]
    | p :: ps => (c :: p) :: ps

/-- A decimal digit after the number `a`. -/
def digit (a : ℕ) (c : Char) : Option ℕ := if '0'.toNat ≤ c.toNat ∧ c.toNat ≤ '9'.toNat then some (10 * a + (c.toNat - '0'.toNat)) else none

/-- At least one digit. -/
def digits (t : List Char) : Option ℕ := if t = [] then none else t.foldlM digit 0

/-- Digits with or without a sign. -/
def number (t : List Char) : Option ℤ :=
  if t.head? = some '+' then (digits t.tail).map fun k : ℕ => (k : ℤ)
  else if t.head? = some '-' then (digits t.tail).map fun k : ℕ => -(k : ℤ)
  else (digits t).map fun k : ℕ => (k : ℤ)

/-- The right side: one word that ends with `;`. -/
def readRight (terms : List (ℤ × List ℕ)) : List (List Char) → Option Equation
  | [r] => if r.getLast? = some ';' then (number r.dropLast).map fun z => ⟨terms, z⟩ else none
  | _ => none

/-- The words of a line; `acc` has the terms read so far, the last one first. -/
def readWords (acc : List (ℤ × List ℕ)) : List (List Char) → Option Equation
  | [] => none
  | w :: rest =>
    if w = ['='] then readRight acc.reverse rest
    else if w.head? = some 'x' then
      match acc with
      | [] => none
      | (c, vs) :: acc => (digits w.tail).bind fun k => readWords ((c, vs ++ [k]) :: acc) rest
    else (number w).bind fun c => readWords ((c, []) :: acc) rest

/-- A line. Several spaces count as one. -/
def readLine (l : List Char) : Option Equation := readWords [] ((pieces ' ' l).filter (· ≠ []))

/-- The equations of a text. -/
def readOpb (t : List Char) : Option (List Equation) :=
  ((pieces '\n' t).filter fun l => l ≠ [] ∧ l.head? ≠ some '*').mapM readLine

/-- The variable occurs in one of the equations. -/
def Occurs (v : ℕ) (es : List Equation) : Prop := ∃ e ∈ es, ∃ t ∈ e.terms, v ∈ t.2

end Spec
