import Mathlib.Analysis.SpecialFunctions.Trigonometric.Basic
import Verif.Spec.Rounding

/-!
# Specification: double-precision arithmetic

The numbers of the IEEE binary64 format and the operations on them, each rounded to a nearest number of the format. The
transforms are computed by direct summation, from rounded values of the cosine and sine. (The library computes them with
fewer operations. The format, the operations and the accuracy of single steps are the same.)
-/

namespace Spec
open Model

/-- The finite numbers of the binary64 format. -/
def Double (x : ℝ) : Prop := ∃ m e : ℤ, |m| < 2 ^ 53 ∧ -1074 ≤ e ∧ e ≤ 971 ∧ x = m * (2 : ℝ) ^ e

/-- The largest finite number. -/
noncomputable def maxDouble : ℝ := (2 ^ 53 - 1) * 2 ^ 971

/-- Round to nearest, with any rule for ties; nothing is asked beyond the largest finite number. -/
def NearestDouble (rd : ℝ → ℝ) : Prop :=
  ∀ x, |x| ≤ maxDouble → Double (rd x) ∧ ∀ y, Double y → |rd x - x| ≤ |y - x|

section
variable (rd : ℝ → ℝ)

open Classical in
/-- The result of an operation with exact result `x`. Infinities and NaN are both represented by `none`. -/
noncomputable def roundDouble (x : ℝ) : Option ℝ := if |x| ≤ maxDouble then some (rd x) else none

/-- An operation with two arguments. -/
noncomputable def binDouble (f : ℝ → ℝ → ℝ) (x y : Option ℝ) : Option ℝ :=
  x.bind fun a => y.bind fun b => roundDouble rd (f a b)

/-- A sum from left to right. -/
noncomputable def sumDouble (l : List (Option ℝ)) : Option ℝ := l.foldl (binDouble rd (· + ·)) (some 0)

/-- The rounded cosine and sine of `2 π m / n`. -/
noncomputable def cosDouble (n m : ℕ) : Option ℝ := roundDouble rd (Real.cos (2 * Real.pi * m / n))
noncomputable def sinDouble (n m : ℕ) : Option ℝ := roundDouble rd (Real.sin (2 * Real.pi * m / n))

open Classical in
/-- Double-precision arithmetic. -/
noncomputable def doubleFl : Fl (Option ℝ) where
  ofInt z := roundDouble rd z
  lit a b := roundDouble rd (a / b)
  add := binDouble rd (· + ·)
  sub := binDouble rd (· - ·)
  mul := binDouble rd (· * ·)
  div x y := if y = some 0 then none else binDouble rd (· / ·) x y
  neg x := x.map (- ·)
  abs x := x.map (|·|)
  fract x := x.map fun a => a - truncZero a
  gt x y := decide (∃ a ∈ x, ∃ b ∈ y, a > b)
  round x := (x.map roundAway).getD 0
  r2c l := (List.range (l.length / 2 + 1)).map fun k =>
    (sumDouble rd ((List.range l.length).map fun j =>
        binDouble rd (· * ·) (l.getD j none) (cosDouble rd l.length (j * k))),
     sumDouble rd ((List.range l.length).map fun j =>
        (binDouble rd (· * ·) (l.getD j none) (sinDouble rd l.length (j * k))).map (- ·)))
  c2r n X := (List.range n).map fun t => sumDouble rd ((List.range n).map fun k =>
    let z := if k ≤ n / 2 then X.getD k (none, none) else
      ((X.getD (n - k) (none, none)).1, (X.getD (n - k) (none, none)).2.map (- ·))
    binDouble rd (· - ·) (binDouble rd (· * ·) z.1 (cosDouble rd n (k * t)))
      (binDouble rd (· * ·) z.2 (sinDouble rd n (k * t))))

end

/-- The real number, and being a finite number of the format. -/
noncomputable def doubleVal (x : Option ℝ) : ℝ := x.getD 0
def DoubleOk (x : Option ℝ) : Prop := ∃ a, x = some a ∧ Double a

end Spec
