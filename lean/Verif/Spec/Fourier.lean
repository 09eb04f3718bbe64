import Mathlib.Analysis.SpecialFunctions.Complex.Circle
import Mathlib.Analysis.SpecialFunctions.Complex.CircleAddChar
import Mathlib.Algebra.Order.Floor.Ring
import Mathlib.Algebra.Order.Archimedean.Real.Basic
import Verif.Spec.Quad
import Verif.Model.Matching

/-!
# Specification: discrete Fourier transforms, exact arithmetic, and accurate arithmetic

Textbook transforms over the complex numbers; the arithmetic `exactFl` in which no rounding error occurs; and the error
bound under which the floating-point results are analysed.
-/

namespace Spec
open Model Complex

/-- `exp (2 π i m / n)`. -/
noncomputable def unit (n : ℕ) (m : ℤ) : ℂ := exp (2 * Real.pi * I * m / n)

/-- Discrete Fourier transform at frequency `k` of a list of length `n`. -/
noncomputable def dft (n : ℕ) (x : List ℤ) (k : ℕ) : ℂ :=
  ∑ j ∈ Finset.range n, ((x.getD j 0 : ℤ) : ℂ) * unit n (-(j * k : ℕ))

/-- Power spectral density. -/
noncomputable def psd (n : ℕ) (x : List ℤ) (k : ℕ) : ℝ := normSq (dft n x k)

/-- Inverse transform of the power spectral density. -/
noncomputable def exactAuto (n : ℕ) (x : List ℤ) (t : ℕ) : ℂ :=
  (∑ k ∈ Finset.range n, (psd n x k : ℂ) * unit n (k * t : ℕ)) / n

/-- Inverse transform of the cross power spectral density. -/
noncomputable def exactCross (n : ℕ) (x y : List ℤ) (t : ℕ) : ℂ :=
  (∑ k ∈ Finset.range n, dft n x k * (starRingEnd ℂ) (dft n y k) * unit n (k * t : ℕ)) / n

/-- `f64::round` in exact arithmetic: to the nearest integer, halves away from zero. -/
noncomputable def roundAway (x : ℝ) : ℤ := if 0 ≤ x then ⌊x + 1 / 2⌋ else ⌈x - 1 / 2⌉

/-- `f64::trunc` in exact arithmetic. -/
noncomputable def truncZero (x : ℝ) : ℤ := if 0 ≤ x then ⌊x⌋ else ⌈x⌉

/-- The Hermitian extension of the `n / 2 + 1` stored frequencies. -/
noncomputable def hermitian (n : ℕ) (X : List (ℝ × ℝ)) (k : ℕ) : ℂ :=
  if k ≤ n / 2 then ⟨(X.getD k (0, 0)).1, (X.getD k (0, 0)).2⟩
  else ⟨(X.getD (n - k) (0, 0)).1, -(X.getD (n - k) (0, 0)).2⟩

open Classical in
/-- Arithmetic without rounding errors. The transforms are those documented for the real-to-complex and complex-to-real
plans: the first `n / 2 + 1` frequencies of the transform, and the (real) unnormalised inverse transform of the
Hermitian extension. -/
noncomputable def exactFl : Fl ℝ where
  ofInt z := z
  lit a b := a / b
  add x y := x + y
  sub x y := x - y
  mul x y := x * y
  div x y := x / y
  neg x := -x
  abs x := |x|
  fract x := x - truncZero x
  gt x y := decide (x > y)
  round := roundAway
  r2c l := (List.range (l.length / 2 + 1)).map fun k =>
    let z := ∑ j ∈ Finset.range l.length, ((l.getD j 0 : ℝ) : ℂ) * unit l.length (-(j * k : ℕ))
    (z.re, z.im)
  c2r n X := (List.range n).map fun t =>
    ∑ k ∈ Finset.range n, (hermitian n X k * unit n (k * t : ℕ)).re

/-- The conversion of `f` to an integer returns the integer at distance less than one half, if its magnitude is at most
`2 n`. -/
def RoundsWell {F : Type} (A : Fl F) (val : F → ℝ) (n : ℕ) (f : F) : Prop :=
  ∀ k : ℤ, |k| ≤ 2 * n → |val f - k| < 1 / 2 → A.round f = k

/-- The error bounds for sequences of length `n` under which the correlation keys are analysed. `val` is the real number
denoted by a floating-point number. The computed inverse transforms differ from the exact ones by less than one half, and
they are converted to the nearest integer. -/
structure Accurate {F : Type} (A : Fl F) (val : F → ℝ) (n : ℕ) : Prop where
  /-- the inverse transform returns `n` values -/
  length : ∀ X, (inverseDft A X n).length = n
  /-- error of the autocorrelations -/
  auto : ∀ x, PMSeq n x → ∀ t < n,
    let f := (inverseDft A (((dftSequence A x).map A.normSqr).map fun e => (e, A.ofInt 0)) n).getD t (A.ofInt 0)
    |val f - (exactAuto n x t).re| < 1 / 2 ∧ RoundsWell A val n f
  /-- error of the difference of the two cross-correlations -/
  cross : ∀ x y, PMSeq n x → PMSeq n y → ∀ t < n,
    let f := A.sub
        ((inverseDft A (seqMultiplyPointwiseComplex A (dftSequence A x) ((dftSequence A y).map A.conj)) n).getD t
          (A.ofInt 0))
        ((inverseDft A (seqMultiplyPointwiseComplex A (dftSequence A y) ((dftSequence A x).map A.conj)) n).getD t
          (A.ofInt 0))
    |val f - ((exactCross n x y t).re - (exactCross n y x t).re)| < 1 / 2 ∧ RoundsWell A val n f

/-- The filter of the pair stage lets through every pair taken from a complementary quadruple. The code compares without
a tolerance, so this is an assumption on the arithmetic; `exactFl` satisfies it. -/
def FilterSafe {F : Type} (A : Fl F) (n : ℕ) [NeZero n] : Prop :=
  ∀ s, PMQuad n s → Complementary (cyc n s.a) (cyc n s.b) (cyc n s.c) (cyc n s.d) → ∀ t1 t2, t1 ≠ t2 →
    boundExceeded A ((dftSequence A (s.sequence t1)).map A.normSqr) ((dftSequence A (s.sequence t2)).map A.normSqr)
      (A.mul (A.lit 4 1) (A.ofInt n)) = false

end Spec
