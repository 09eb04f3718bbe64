import Verif.Spec.Quad
import Mathlib.Logic.Equiv.Basic
import Mathlib.Logic.Relation

/-!
# Specification: equivalence of quadruples of cyclic sequences

A quadruple is a family of four functions on `ZMod n`. The elementary moves and the equivalence relations they
generate are stated here without reference to lists, tables or hash sets.
-/

namespace Spec
open Model

variable {n : ℕ} [NeZero n]

/-- A quadruple of cyclic sequences of length `n`. -/
abbrev Fam (n : ℕ) := Tag → ZMod n → ℤ

/-- The family stored in a quadruple. -/
def fam (n : ℕ) (s : QuadSeq) : Fam n
  | .W => cyc n s.a
  | .X => cyc n s.b
  | .Y => cyc n s.c
  | .Z => cyc n s.d

/-- Negate one sequence. -/
def negAt (t₀ : Tag) (f : Fam n) : Fam n := fun t i => if t = t₀ then -f t i else f t i

/-- Exchange two sequences. -/
def swapFam (t₁ t₂ : Tag) (f : Fam n) : Fam n := fun t => f (Equiv.swap t₁ t₂ t)

/-- Shift all four sequences cyclically by `o`. -/
def shiftAll (o : ZMod n) (f : Fam n) : Fam n := fun t i => f t (i + o)

/-- Negate every second entry (index 1, 3, ...) of all four sequences. -/
def altAll (f : Fam n) : Fam n := fun t i => (-1) ^ i.val * f t i

/-- Apply the automorphism `i ↦ u i` of the cyclic group to all four sequences. -/
def autAll (u : (ZMod n)ˣ) (f : Fam n) : Fam n := fun t i => f t (u * i)

/-- Shift the sequences selected by `p` by half the length. -/
def halfAt (p : Tag → Bool) (f : Fam n) : Fam n :=
  fun t i => if p t then f t (i + ((n / 2 : ℕ) : ZMod n)) else f t i

/-- One negation followed by one exchange. -/
inductive NSMove (f : Fam n) : Fam n → Prop
  | mk (t₀ t₁ t₂ : Tag) (h : t₁ ≠ t₂) : NSMove f (swapFam t₁ t₂ (negAt t₀ f))

/-- One negation or one exchange. -/
inductive SNMove (f : Fam n) : Fam n → Prop
  | neg (t₀ : Tag) : SNMove f (negAt t₀ f)
  | swap (t₁ t₂ : Tag) (h : t₁ ≠ t₂) : SNMove f (swapFam t₁ t₂ f)

/-- Alternated negation (even length) and automorphisms. -/
inductive BaseMove (f : Fam n) : Fam n → Prop
  | alt (h : Even n) : BaseMove f (altAll f)
  | aut (u : (ZMod n)ˣ) : BaseMove f (autAll u f)

/-- Half shift of two or of all four sequences (even length). -/
inductive DualMove (f : Fam n) : Fam n → Prop
  | two (h : Even n) (t₁ t₂ : Tag) (h₁₂ : t₁ ≠ t₂) :
      DualMove f (halfAt (fun t => decide (t = t₁ ∨ t = t₂)) f)
  | four (h : Even n) : DualMove f (halfAt (fun _ => true) f)

/-- Half shift of one sequence (even length). -/
inductive SingleMove (f : Fam n) : Fam n → Prop
  | mk (h : Even n) (t₁ : Tag) : SingleMove f (halfAt (fun t => decide (t = t₁)) f)

/-- Cyclic shift of all sequences. -/
inductive ShiftMove (f : Fam n) : Fam n → Prop
  | mk (o : ZMod n) : ShiftMove f (shiftAll o f)

/-- The moves of quaternion-type sequences. -/
def QTMove (f g : Fam n) : Prop := ShiftMove f g ∨ BaseMove f g ∨ DualMove f g ∨ NSMove f g

/-- The moves of Williamson-type sequences. -/
def WTMove (f g : Fam n) : Prop := ShiftMove f g ∨ BaseMove f g ∨ SingleMove f g ∨ SNMove f g

/-- The moves of Williamson sequences. -/
def WSMove (f g : Fam n) : Prop := BaseMove f g ∨ SingleMove f g ∨ SNMove f g

/-- QT equivalence: the least equivalence relation containing the moves. -/
def QTEquiv : Fam n → Fam n → Prop := Relation.EqvGen QTMove

/-- Williamson-type equivalence. -/
def WTEquiv : Fam n → Fam n → Prop := Relation.EqvGen WTMove

/-- Williamson equivalence. -/
def WSEquiv : Fam n → Fam n → Prop := Relation.EqvGen WSMove

/-- Equivalence under negate-and-swap. -/
def NSEquiv : Fam n → Fam n → Prop := Relation.EqvGen NSMove

/-- Equivalence under negations and swaps. -/
def SNEquiv : Fam n → Fam n → Prop := Relation.EqvGen SNMove

/-- The equivalence relation of a sequence type. -/
def TypeEquiv : SeqType → Fam n → Fam n → Prop
  | .quaternionType => QTEquiv
  | .williamsonType => WTEquiv
  | .williamson => WSEquiv
  | _ => Eq

/-- All entries written one after the other. -/
def flat (s : QuadSeq) : List ℤ := s.a ++ s.b ++ s.c ++ s.d

end Spec
