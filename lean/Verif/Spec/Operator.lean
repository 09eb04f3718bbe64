import Verif.Spec.Matrix
import Verif.Model.Mum
import Mathlib.Data.Complex.Basic

/-!
# Specification: complex operators
-/

namespace Spec
open Model
open scoped Matrix

/-- A rational pair as a complex number. -/
noncomputable def toC (c : Cx) : ℂ := ⟨c.re, c.im⟩

/-- The complex matrix of size `N` stored as a list of rows. -/
noncomputable def cmat (N : ℕ) (m : List (List Cx)) : Matrix (Fin N) (Fin N) ℂ :=
  fun i j => toC ((m.getD i []).getD j Cx.zero)

/-- The operator holds a square matrix of its recorded size. -/
def OpSized (o : Operator) : Prop := Square o.size o.values

/-- A complete family of mutually orthogonal projections, up to normalisation: the members are self-adjoint, `Q_b Q_b'` is
`s Q_b` for `b = b'` and zero otherwise, and they add up to `t` times the identity. -/
def Measurement {L N : ℕ} (Q : Fin L → Matrix (Fin N) (Fin N) ℂ) (s t : ℂ) : Prop :=
  (∀ b, (Q b)ᴴ = Q b) ∧ (∀ b b', Q b * Q b' = if b = b' then s • Q b else 0) ∧ ∑ b, Q b = t • 1

/-- The `b`-th operator of a measurement set, as a matrix of size `N`. -/
noncomputable def mumMat (A : MUM) (N : ℕ) (b : ℕ) : Matrix (Fin N) (Fin N) ℂ :=
  cmat N (A.sequence.getD b (Operator.empty 0)).values

/-- Every operator has the recorded size. -/
def MumSized (A : MUM) : Prop := ∀ o ∈ A.sequence, o.size = A.matrixSize ∧ OpSized o

end Spec
