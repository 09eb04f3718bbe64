import Verif.Spec.Quaternion

/-!
# Specification: symmetric quaternion sequences

The four symmetry types of `sequences/symmetries.rs:6-11`, written as conditions on the entries. Types II to IV are
meant for even lengths and relate the two halves.
-/

namespace Spec
open Model

/-- `x` or `-x`. -/
def signed (e : ℕ) (x : Quat) : Quat := if e % 2 = 0 then x else -x

/-- The symmetry types. -/
def HasSymmetry (ty : Symmetry) (v : List Quat) : Prop :=
  match ty with
  | .I => ∀ i < v.length, v.getD (v.length - 1 - i) Q0 = v.getD i Q0
  | .II => ∀ i < v.length / 2, v.getD (i + v.length / 2) Q0 = signed i (v.getD i Q0)
  | .III => ∀ i < v.length / 2, v.getD (i + v.length / 2) Q0 = signed (i / 2) (v.getD i Q0)
  | .IV => ∀ i < v.length / 2, v.getD (i + v.length / 2) Q0 = -v.getD i Q0

/-- First entry one, all entries in the alphabet, perfect. -/
def PerfectOver (alphabet : List Quat) (n : ℕ) [NeZero n] (v : List Quat) : Prop :=
  v.length = n ∧ v.getD 0 Q0 = Q1 ∧ (∀ x ∈ v, x ∈ alphabet) ∧ Perfect (qcyc n v)

end Spec
