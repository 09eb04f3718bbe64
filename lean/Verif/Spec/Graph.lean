import Mathlib.Logic.Equiv.Defs
import Mathlib.Data.Fintype.Perm
import Verif.Spec.Matrix
import Verif.Model.Graph

/-!
# Specification: graph isomorphism and equivalence of Hadamard matrices
-/

namespace Spec
open Model
open scoped Quaternion

/-- Two nodes of an undirected graph are joined by an edge. -/
def Graph.Adj (g : Graph) (u v : ℕ) : Prop := (u, v) ∈ g.edges ∨ (v, u) ∈ g.edges

/-- Isomorphism of graphs: a bijection of the nodes that preserves and reflects adjacency. -/
def Graph.Iso (g1 g2 : Graph) : Prop :=
  ∃ f : Fin g1.nodes ≃ Fin g2.nodes, ∀ u v : Fin g1.nodes, Graph.Adj g1 u v ↔ Graph.Adj g2 (f u) (f v)

/-- Equivalence of matrices: permuting and negating rows and columns. -/
def HEquiv {n : ℕ} (H K : Matrix (Fin n) (Fin n) ℤ) : Prop :=
  ∃ (σ τ : Equiv.Perm (Fin n)) (a b : Fin n → ℤ), (∀ i, a i = 1 ∨ a i = -1) ∧ (∀ j, b j = 1 ∨ b j = -1) ∧
    ∀ i j, K (σ i) (τ j) = a i * b j * H i j

/-- Equivalence of stored matrices. -/
def HMEquiv (m1 m2 : HM) : Prop :=
  m1.size = m2.size ∧ HEquiv (zmat m1.size m1.matrix) (zmat m1.size m2.matrix)

/-- An exact canonical labelling: equal labels exactly for isomorphic graphs. -/
def ExactLabelling {κ : Type} (canon : Graph → κ) : Prop := ∀ g1 g2, canon g1 = canon g2 ↔ Graph.Iso g1 g2

/-- A stored Hadamard matrix. -/
def HMHadamard (m : HM) : Prop := Square m.size m.matrix ∧ IsHadamard (zmat m.size m.matrix)

/-- The normalised circulant matrix of a periodic quaternion sequence: entry `(i, j)` is
`a(0) a(-i)* a(j-i) a(j)*`, so that the first row and the first column are 1. -/
def Normalised (n : ℕ) [NeZero n] (a : ZMod n → ℍ[ℚ]) (m : QHM) : Prop :=
  m.size = n ∧ Square n m.matrix ∧ ∀ i j : ℕ, i < n → j < n →
    toH ((m.matrix.getD i []).getD j Q0) = a 0 * star (a (-(i : ZMod n))) * a ((j : ZMod n) - i) * star (a j)

/-- Two entries outside the first row and column do not commute. -/
def NonCommuting {n : ℕ} (M : Matrix (Fin n) (Fin n) ℍ[ℚ]) : Prop :=
  ∃ i j k l : Fin n, 1 ≤ i.val ∧ 1 ≤ j.val ∧ 1 ≤ k.val ∧ 1 ≤ l.val ∧ M i j * M k l ≠ M k l * M i j

end Spec
