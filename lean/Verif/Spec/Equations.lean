import Verif.Model.Equations
import Mathlib.Algebra.BigOperators.Group.List.Basic

/-!
# Specification: 0/1 solutions of pseudo-Boolean equations
-/

namespace Spec
open Model

/-- The equation holds when the variable `xi` has the value `ρ i`. -/
def Holds (ρ : ℕ → ℤ) (e : Equation) : Prop := (e.terms.map fun t => t.1 * (t.2.map ρ).prod).sum = e.rhs

/-- No products of variables. -/
def Linear (e : Equation) : Prop := ∀ t ∈ e.terms, t.2.length = 1

/-- The variables `x1 ... xn` encode `u` and `xn+1 ... x2n` encode `v`: 1 for 1 and 0 for -1. The variable `x0`, which
occurs in the generated equations, is not constrained. -/
def Encodes (ρ : ℕ → ℤ) (n : ℕ) (u v : List ℤ) : Prop :=
  ∀ k < n, 2 * ρ (k + 1) - 1 = u.getD k 0 ∧ 2 * ρ (n + k + 1) - 1 = v.getD k 0

/-- The sequence at a position. -/
def part (s : QuadSeq) : Tag → List ℤ
  | .W => s.a
  | .X => s.b
  | .Y => s.c
  | .Z => s.d

/-- Positions in the order W, X, Y, Z. -/
def pos : Tag → ℕ
  | .W => 0
  | .X => 1
  | .Y => 2
  | .Z => 3

/-- The sums of the four sequences. -/
def sums (s : QuadSeq) : ℤ × ℤ × ℤ × ℤ := (s.a.sum, s.b.sum, s.c.sum, s.d.sum)

/-- The component of a quadruple at a position. -/
def component (r : ℤ × ℤ × ℤ × ℤ) : Tag → ℤ
  | .W => r.1
  | .X => r.2.1
  | .Y => r.2.2.1
  | .Z => r.2.2.2

/-- The entry of a quadruple with an index 0, 1, 2, 3. -/
def entry (q : ℤ × ℤ × ℤ × ℤ) (i : ℕ) : ℤ := [q.1, q.2.1, q.2.2.1, q.2.2.2].getD i 0

instance (ρ : ℕ → ℤ) (e : Equation) : Decidable (Holds ρ e) := by unfold Holds; infer_instance

end Spec
