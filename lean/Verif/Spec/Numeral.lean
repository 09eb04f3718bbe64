import Mathlib.Data.Nat.Digits.Defs

/-!
# Specification: decimal numerals
-/

namespace Spec

/-- The text is a nonempty sequence of decimal digits with this value; leading zeros are allowed. -/
def Digits (s : List Char) (n : ℕ) : Prop :=
  s ≠ [] ∧ ∃ ds : List ℕ, (∀ d ∈ ds, d < 10) ∧ s = ds.map (fun d => Char.ofNat (48 + d)) ∧ n = Nat.ofDigits 10 ds.reverse

/-- Digits, or `+` and digits. -/
def Unsigned (s : List Char) (n : ℕ) : Prop := Digits s n ∨ ∃ r, s = '+' :: r ∧ Digits r n

/-- An unsigned numeral, or `-` and digits. -/
def Numeral (s : List Char) (z : ℤ) : Prop := ∃ n : ℕ, (Unsigned s n ∧ z = n) ∨ ∃ r, s = '-' :: r ∧ Digits r n ∧ z = -n

/-- Two spellings of one argument: the same text, or numerals with the same value, both with a minus sign or both
without. -/
def SameArgument (s t : List Char) : Prop :=
  s = t ∨ (∃ n, Unsigned s n ∧ Unsigned t n) ∨ ∃ r r' n, s = '-' :: r ∧ t = '-' :: r' ∧ Digits r n ∧ Digits r' n

end Spec
