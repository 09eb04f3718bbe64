import Verif.Proofs.Numeral
import Verif.Props.Driver

/-!
# Property C96: numeric arguments are read and printed as decimal numerals
-/

namespace Props
open Model Spec Proofs Proofs.Numerals

/-- C96. A length or an index is read from a text exactly if the text is an unsigned numeral below `2^64`. -/
theorem C96_usize (s : Text) (n : ℕ) : parseUsize s = some n ↔ Unsigned s n ∧ n < 2 ^ 64 := usize_iff

example : parseUsize "+007".toList = some 7 ∧ parseUsize "18446744073709551615".toList = some (2 ^ 64 - 1) ∧
    parseUsize "18446744073709551616".toList = none ∧ parseUsize "-0".toList = none ∧ parseUsize "+".toList = none := by
  decide +kernel

/-- C96. The number of a pair is read exactly if the text is an unsigned numeral below 256. -/
theorem C96_u8 (s : Text) (n : ℕ) : parseU8 s = some n ↔ Unsigned s n ∧ n < 256 := u8_iff

example : parseU8 "0255".toList = some 255 ∧ parseU8 "256".toList = none := by decide +kernel

/-- C96. A row sum is read exactly if the text is a numeral from `-2^63` to `2^63 - 1`. -/
theorem C96_isize (s : Text) (z : ℤ) : parseIsize s = some z ↔ Numeral s z ∧ -2 ^ 63 ≤ z ∧ z < 2 ^ 63 := isize_iff

example : parseIsize "-9223372036854775808".toList = some (-2 ^ 63) ∧ parseIsize "9223372036854775808".toList = none ∧
    parseIsize "-0".toList = some 0 ∧ parseIsize "+-1".toList = none ∧ parseIsize "-+1".toList = none := by decide +kernel

/-- C96. Numbers are printed in decimal without leading zeros, a minus sign in front of negative numbers. -/
theorem C96_print (n : ℕ) (z : ℤ) : natText n = (toString n).toList ∧ intText z = (toString z).toList :=
  ⟨natText_eq n, intText_eq z⟩

example : natText 1048576 = ['1', '0', '4', '8', '5', '7', '6'] ∧ intText (-3) = ['-', '3'] := by decide +kernel

theorem digits_natText (n : ℕ) : Digits (natText n) n := by
  rw [← parseDigits_iff]
  unfold parseDigits
  rw [if_neg (Txt.natText_ne n), Txt.natText_parse]

/-- C96. What is printed is read back, whenever it is in range. -/
theorem C96_roundtrip (n : ℕ) (z : ℤ) : (parseUsize (natText n) = some n ↔ n < 2 ^ 64) ∧
    (parseU8 (natText n) = some n ↔ n < 256) ∧ (parseIsize (intText z) = some z ↔ -2 ^ 63 ≤ z ∧ z < 2 ^ 63) := by
  have hn : Unsigned (natText n) n := .inl (digits_natText n)
  refine ⟨by rw [C96_usize]; exact and_iff_right hn, by rw [C96_u8]; exact and_iff_right hn, ?_⟩
  rw [C96_isize]
  refine and_iff_right ⟨z.natAbs, ?_⟩
  unfold intText
  split
  · exact .inr ⟨_, rfl, digits_natText _, by omega⟩
  · exact .inl ⟨.inl (digits_natText _), by omega⟩

/-- C96. Every command does the same whatever spelling of its numbers is used: with leading zeros, with or without `+`.
The scripts do not, see `C80_wrong_arguments`. -/
theorem C96_spelling {F κ : Type} [DecidableEq κ] (env : Env F κ) (s : Store) (args args' : List Text)
    (h : List.Forall₂ SameArgument args args') : runProgram env s args = runProgram env s args' := by
  unfold runProgram
  rw [main_same env s h]

/-- A length with leading zeros and row sums with signs. -/
example : List.Forall₂ SameArgument (["create", "qts", "007", "-1", "+3", "3", "3", "WX"].map String.toList)
    (["create", "qts", "7", "-01", "3", "3", "03", "WX"].map String.toList) := by
  have d : ∀ s n, parseDigits s = some n → Digits s n := fun s n => parseDigits_iff.1
  refine .cons (.inl rfl) (.cons (.inl rfl) (.cons ?_ (.cons ?_ (.cons ?_ (.cons (.inl rfl) (.cons ?_ (.cons (.inl rfl) .nil)))))))
  · exact .inr (.inl ⟨7, .inl (d _ _ (by decide)), .inl (d _ _ (by decide))⟩)
  · exact .inr (.inr ⟨['1'], ['0', '1'], 1, by decide, by decide, d _ _ (by decide), d _ _ (by decide)⟩)
  · exact .inr (.inl ⟨3, .inr ⟨['3'], by decide, d _ _ (by decide)⟩, .inl (d _ _ (by decide))⟩)
  · exact .inr (.inl ⟨3, .inl (d _ _ (by decide)), .inl (d _ _ (by decide))⟩)

/-- The two signs of zero are not interchangeable: `-0` is no length. -/
example : parseUsize "0".toList = some 0 ∧ parseUsize "-0".toList = none ∧ parseIsize "-0".toList = parseIsize "0".toList := by
  decide +kernel

end Props
