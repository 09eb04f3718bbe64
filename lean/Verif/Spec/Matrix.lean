import Mathlib.LinearAlgebra.Matrix.ConjTranspose
import Mathlib.Data.Fintype.Defs
import Mathlib.Data.Fintype.Basic
import Verif.Spec.Quaternion
import Verif.Spec.Quad

/-!
# Specification: Hadamard matrices and quaternionic Hadamard matrices
-/

namespace Spec
open Model
open scoped Quaternion Matrix

/-- The integer matrix stored as a list of rows. -/
def zmat (n : ℕ) (m : List (List ℤ)) : Matrix (Fin n) (Fin n) ℤ := fun i j => (m.getD i []).getD j 0

/-- The quaternion matrix stored as a list of rows. -/
def qmat (n : ℕ) (m : List (List Quat)) : Matrix (Fin n) (Fin n) ℍ[ℚ] := fun i j => toH ((m.getD i []).getD j Q0)

/-- `n` rows of length `n`. -/
def Square {α : Type} (n : ℕ) (m : List (List α)) : Prop := m.length = n ∧ ∀ r ∈ m, r.length = n

/-- A matrix with entries ±1. -/
def PMMat {n : ℕ} (H : Matrix (Fin n) (Fin n) ℤ) : Prop := ∀ i j, H i j = 1 ∨ H i j = -1

/-- Hadamard matrix: entries ±1 and orthogonal rows. -/
def IsHadamard {n : ℕ} (H : Matrix (Fin n) (Fin n) ℤ) : Prop := PMMat H ∧ H * Hᵀ = (n : ℤ) • (1 : Matrix (Fin n) (Fin n) ℤ)

/-- Quaternionic Hadamard matrix: unit entries and `M M* = n I`. -/
def IsQHadamard {n : ℕ} (M : Matrix (Fin n) (Fin n) ℍ[ℚ]) : Prop :=
  (∀ i j, M i j * star (M i j) = 1) ∧ M * Mᴴ = (n : ℚ) • (1 : Matrix (Fin n) (Fin n) ℍ[ℚ])

instance {α : Type} (n : ℕ) (m : List (List α)) : Decidable (Square n m) := by unfold Square; infer_instance
instance {n : ℕ} (H : Matrix (Fin n) (Fin n) ℤ) : Decidable (PMMat H) :=
  @Fintype.decidableForallFintype _ _ (fun i => Fintype.decidableForallFintype (p := fun j => H i j = 1 ∨ H i j = -1)) _
instance {n : ℕ} (H : Matrix (Fin n) (Fin n) ℤ) : Decidable (IsHadamard H) := by unfold IsHadamard; infer_instance

end Spec
