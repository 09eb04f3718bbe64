import Verif.Spec.Fourier

/-!
# Specification: a standard error model for floating-point arithmetic

The usual model of floating-point arithmetic, with one relative-and-absolute error `e` for every operation, exact
conversion of small integers, and the error bounds commonly stated for library transforms. Numbers for which nothing is
promised (infinities, NaN) are excluded by the predicate `ok`, and magnitudes are limited by `B`.
-/

namespace Spec
open Model Complex

structure FloatModel {F : Type} (A : Fl F) (val : F → ℝ) (ok : F → Prop) (n : ℕ) (B e : ℝ) : Prop where
  /-- integers up to `4 n` are converted exactly -/
  ofInt : ∀ z : ℤ, |z| ≤ 4 * n → ok (A.ofInt z) ∧ val (A.ofInt z) = z
  /-- literals have an error of at most `e` -/
  lit : ∀ (a : ℤ) (b : ℕ), |a| ≤ 4 → 0 < b → ok (A.lit a b) ∧ |val (A.lit a b) - a / b| ≤ e
  add : ∀ x y, ok x → ok y → |val x| ≤ B → |val y| ≤ B →
    ok (A.add x y) ∧ |val (A.add x y) - (val x + val y)| ≤ e * (|val x + val y| + 1)
  sub : ∀ x y, ok x → ok y → |val x| ≤ B → |val y| ≤ B →
    ok (A.sub x y) ∧ |val (A.sub x y) - (val x - val y)| ≤ e * (|val x - val y| + 1)
  mul : ∀ x y, ok x → ok y → |val x * val y| ≤ B →
    ok (A.mul x y) ∧ |val (A.mul x y) - val x * val y| ≤ e * (|val x * val y| + 1)
  div : ∀ x y, ok x → ok y → |val x| ≤ B → 1 ≤ |val y| →
    ok (A.div x y) ∧ |val (A.div x y) - val x / val y| ≤ e * (|val x / val y| + 1)
  neg : ∀ x, ok x → ok (A.neg x) ∧ val (A.neg x) = -val x
  abs : ∀ x, ok x → ok (A.abs x) ∧ val (A.abs x) = |val x|
  gt : ∀ x y, ok x → ok y → (A.gt x y = true ↔ val y < val x)
  /-- conversion to a nearest integer within the range `B` -/
  round : ∀ x : F, ok x → |val x| ≤ B → |val x - A.round x| ≤ 1 / 2
  /-- the forward transform of ±1 sequences -/
  r2c : ∀ x, PMSeq n x → (A.r2c (x.map fun v => A.ofInt v)).length = n / 2 + 1 ∧
    ∀ k ≤ n / 2, ∀ z, (A.r2c (x.map fun v => A.ofInt v))[k]? = some z →
      ok z.1 ∧ ok z.2 ∧ |val z.1 - (dft n x k).re| ≤ e ∧ |val z.2 - (dft n x k).im| ≤ e
  /-- the unnormalised inverse transform returns `n` values -/
  c2r_length : ∀ X, (A.c2r n X).length = n
  /-- its error is relative to the sum of the magnitudes of the input, except near 0 -/
  c2r : ∀ X, X.length = n / 2 + 1 → (∀ z ∈ X, ok z.1 ∧ ok z.2 ∧ |val z.1| ≤ B ∧ |val z.2| ≤ B) →
    ∀ t < n, ∀ y, (A.c2r n X)[t]? = some y →
      ok y ∧ |val y - ∑ k ∈ Finset.range n,
          (hermitian n (X.map fun z => (val z.1, val z.2)) k * unit n (k * t : ℕ)).re| ≤
        e * ((X.map fun z => |val z.1| + |val z.2|).sum + 1)

/-- An explicit precision: the errors of a few operations stay below the least distance from the places where rounding
decides. `(8 n + 1) ^ (φ(n) / 2 - 1)` bounds the product of the other conjugates of such a distance. -/
structure PreciseEnough (n : ℕ) (B e : ℝ) : Prop where
  nonneg : 0 ≤ e
  small : 1000000 * n * (e * ((n : ℝ) + 1) ^ 2) ≤ 1
  gap : 50 * (e * ((n : ℝ) + 1) ^ 2) * (8 * n + 1) ^ (Nat.totient n / 2 - 1) ≤ 1
  range : 16 * ((n : ℝ) + 1) ^ 3 ≤ B

end Spec
