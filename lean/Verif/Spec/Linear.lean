import Verif.Spec.Binary64

/-!
# Specification: transforms computed by any sequence of linear steps

A transform library computes every output from the inputs by additions, subtractions, changes of sign and multiplications
by stored constants, some of them fused with an addition. Such a computation is a term of `Lin`. (Values that are used twice
occur twice in the terms. This changes no value, because the operations are functions.) Which computation is used is left
open: only that it would give the transform if there were no rounding, and how deep it is and how much it can enlarge its
inputs.
-/

namespace Spec
open Model Complex

/-- A computation by linear steps. A constant is given twice: the number that is meant and the one that is stored. -/
inductive Lin where
  | input (i : ℕ)
  | add (a b : Lin)
  | sub (a b : Lin)
  | neg (a : Lin)
  | scale (c stored : ℝ) (a : Lin)
  | fma (c stored : ℝ) (a b : Lin)

namespace Lin

/-- The result without rounding, with the constants that are meant. -/
def exact (x : ℕ → ℝ) : Lin → ℝ
  | input i => x i
  | add a b => a.exact x + b.exact x
  | sub a b => a.exact x - b.exact x
  | neg a => -a.exact x
  | scale c _ a => c * a.exact x
  | fma c _ a b => c * a.exact x + b.exact x

/-- The result in double precision: one rounding for each operation, also for the fused one. -/
noncomputable def run (rd : ℝ → ℝ) (x : ℕ → Option ℝ) : Lin → Option ℝ
  | input i => x i
  | add a b => binDouble rd (· + ·) (a.run rd x) (b.run rd x)
  | sub a b => binDouble rd (· - ·) (a.run rd x) (b.run rd x)
  | neg a => (a.run rd x).map (- ·)
  | scale _ s a => (a.run rd x).bind fun v => roundDouble rd (s * v)
  | fma _ s a b => binDouble rd (fun v w => s * v + w) (a.run rd x) (b.run rd x)

/-- The length of the longest chain of operations. -/
def depth : Lin → ℕ
  | input _ => 0
  | add a b => max a.depth b.depth + 1
  | sub a b => max a.depth b.depth + 1
  | neg a => a.depth
  | scale _ _ a => a.depth + 1
  | fma _ _ a b => max a.depth b.depth + 1

/-- How much larger than the inputs the intermediate results can become. -/
noncomputable def gain : Lin → ℝ
  | input _ => 1
  | add a b => a.gain + b.gain
  | sub a b => a.gain + b.gain
  | neg a => a.gain
  | scale c _ a => max 1 |c| * a.gain
  | fma c _ a b => max 1 |c| * a.gain + b.gain

/-- The stored constants are numbers of the format within two units in the last place of those that are meant, and only
the first `m` inputs are read. -/
def Proper (m : ℕ) : Lin → Prop
  | input i => i < m
  | add a b => a.Proper m ∧ b.Proper m
  | sub a b => a.Proper m ∧ b.Proper m
  | neg a => a.Proper m
  | scale c s a => (Double s ∧ |s - c| ≤ max 1 |c| / 2 ^ 51) ∧ a.Proper m
  | fma c s a b => (Double s ∧ |s - c| ≤ max 1 |c| / 2 ^ 51) ∧ a.Proper m ∧ b.Proper m

end Lin

/-- The computations used for every length: real and imaginary part of every frequency, and every value of the inverse. -/
structure Library where
  fwd : ℕ → ℕ → Lin × Lin
  bwd : ℕ → ℕ → Lin

/-- Real and imaginary parts of a list of complex numbers, in turn. -/
def parts {F : Type} (d : F) (X : List (F × F)) (i : ℕ) : F :=
  if i % 2 = 0 then (X.getD (i / 2) (d, d)).1 else (X.getD (i / 2) (d, d)).2

/-- Double-precision arithmetic with the transforms of a library. -/
noncomputable def libraryFl (rd : ℝ → ℝ) (L : Library) : Fl (Option ℝ) :=
  { doubleFl rd with
    r2c := fun l => (List.range (l.length / 2 + 1)).map fun k =>
      ((L.fwd l.length k).1.run rd fun j => l.getD j none, (L.fwd l.length k).2.run rd fun j => l.getD j none)
    c2r := fun n X => (List.range n).map fun t => (L.bwd n t).run rd (parts none X) }

/-- The computations of the library at length `n` are those of the transforms, with depth at most `D` and gain at most
`G`. -/
structure Transforms (L : Library) (n D : ℕ) (G : ℝ) : Prop where
  /-- the forward transform of a ±1 sequence -/
  fwd : ∀ x, PMSeq n x → ∀ k ≤ n / 2,
    (L.fwd n k).1.exact (fun j => ((x.getD j 0 : ℤ) : ℝ)) = (dft n x k).re ∧
      (L.fwd n k).2.exact (fun j => ((x.getD j 0 : ℤ) : ℝ)) = (dft n x k).im
  /-- the unnormalised inverse transform of the Hermitian extension -/
  bwd : ∀ X : List (ℝ × ℝ), X.length = n / 2 + 1 → ∀ t < n,
    (L.bwd n t).exact (parts 0 X) = ∑ k ∈ Finset.range n, (hermitian n X k * unit n (k * t : ℕ)).re
  fwd_cost : ∀ k ≤ n / 2, ∀ a, a = (L.fwd n k).1 ∨ a = (L.fwd n k).2 → a.Proper n ∧ a.depth ≤ D ∧ a.gain ≤ G
  bwd_cost : ∀ t < n, (L.bwd n t).Proper (2 * (n / 2 + 1)) ∧ (L.bwd n t).depth ≤ D ∧ (L.bwd n t).gain ≤ G

end Spec
