import Mathlib.Algebra.Order.Field.Rat
import Mathlib.Algebra.Order.Group.Unbundled.Abs

/-!
# Specification: single-precision numbers
-/

namespace Spec

/-- The finite numbers of the binary32 format. -/
def Representable (x : ℚ) : Prop := ∃ m e : ℤ, |m| < 2 ^ 24 ∧ -149 ≤ e ∧ e ≤ 104 ∧ x = m * (2 : ℚ) ^ e

/-- A rounding: exact on representable numbers, arbitrary on others. -/
def ExactRounding (rd : ℚ → ℚ) : Prop := ∀ x, Representable x → rd x = x

/-- Round to nearest, with any rule for ties; nothing is asked beyond the largest finite number. -/
def RoundNearest (rd : ℚ → ℚ) : Prop :=
  ∀ x, |x| ≤ (2 ^ 24 - 1) * 2 ^ 104 → Representable (rd x) ∧ ∀ y, Representable y → |rd x - x| ≤ |y - x|

end Spec
