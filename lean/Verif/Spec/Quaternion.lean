import Verif.Spec.Correlation
import Verif.Model.Sequence
import Mathlib.Algebra.Quaternion

/-!
# Specification: perfect and odd-perfect quaternion sequences

Stated with Mathlib's Hamilton quaternions over ℚ.
-/

namespace Spec
open Model
open scoped Quaternion

/-- A model quaternion as a Hamilton quaternion. -/
def toH (q : Quat) : ℍ[ℚ] := ⟨q.w, q.x, q.y, q.z⟩

/-- The cyclic sequence of Hamilton quaternions stored in a list. -/
def qcyc (n : ℕ) (l : List Quat) : ZMod n → ℍ[ℚ] := fun i => toH (l.getD i.val Q0)

/-- Periodic autocorrelation of a quaternion sequence. -/
def qpaf {n : ℕ} [NeZero n] (x : ZMod n → ℍ[ℚ]) (t : ZMod n) : ℍ[ℚ] := ∑ i, x i * star (x (i + t))

/-- Perfect: the autocorrelation vanishes at every nonzero shift. -/
def Perfect {n : ℕ} [NeZero n] (x : ZMod n → ℍ[ℚ]) : Prop := ∀ t, t ≠ 0 → qpaf x t = 0

/-- The negacyclic extension of a list to all natural positions: sign change at each wrap-around. -/
def negacyc (n : ℕ) (l : List Quat) (i : ℕ) : ℍ[ℚ] := (-1) ^ (i / n) * toH (l.getD (i % n) Q0)

/-- Odd (negacyclic) periodic autocorrelation. -/
def oddPaf (n : ℕ) (l : List Quat) (t : ℕ) : ℍ[ℚ] :=
  ∑ i ∈ Finset.range n, negacyc n l i * star (negacyc n l (i + t))

/-- Odd-perfect: the odd autocorrelation vanishes at the shifts `1..n-1`. -/
def OddPerfect (n : ℕ) (l : List Quat) : Prop := ∀ t, 1 ≤ t → t < n → oddPaf n l t = 0

end Spec
