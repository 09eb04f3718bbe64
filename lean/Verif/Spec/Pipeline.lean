import Verif.Spec.Equivalence
import Verif.Model.FindWrite

/-!
# Specification: the enumeration task
-/

namespace Spec
open Model

/-- The sequences enumerated for a type. -/
def OfType (n : ℕ) [NeZero n] (ty : SeqType) (s : QuadSeq) : Prop :=
  match ty with
  | .quaternionType => IsQTS n s
  | .williamsonType => IsWTS n s
  | .williamson => IsWS n s
  | _ => False

/-- The types for which the pipeline is implemented. -/
def Supported (ty : SeqType) : Prop := ty = .quaternionType ∨ ty = .williamsonType ∨ ty = .williamson

/-- The cross-correlation condition shared by the two pairs of a pairing. -/
def PairCross {n : ℕ} [NeZero n] (pairing : Option Pairing) (f : Fam n) : Prop :=
  match pairing with
  | some .WX => ∀ t, ccf (f .W) (f .X) t - ccf (f .X) (f .W) t = ccf (f .Y) (f .Z) t - ccf (f .Z) (f .Y) t
  | some .WY => ∀ t, ccf (f .W) (f .Y) t - ccf (f .Y) (f .W) t = ccf (f .Z) (f .X) t - ccf (f .X) (f .Z) t
  | _ => ∀ t, ccf (f .W) (f .Z) t - ccf (f .Z) (f .W) t = ccf (f .X) (f .Y) t - ccf (f .Y) (f .X) t

/-- Values separated by underscores. -/
def keyOf : List ℤ → Text
  | [] => []
  | [v] => intText v
  | v :: w :: vs => intText v ++ '_' :: keyOf (w :: vs)

/-- The directories as found by the join stage: those written by the pair stage, with the pair files sorted, listed in
any order and each with its files in any order. -/
def Listing (written dirs : List (Text × Dir)) : Prop :=
  ∃ ds, ds.Perm written ∧ List.Forall₂ (fun a b => a.1 = b.1 ∧ a.2.Perm (sortDir b.2)) dirs ds

/-- The lexicographically least members of the classes of sequences of a type. -/
def LeastInClass (n : ℕ) [NeZero n] (ty : SeqType) (x : QuadSeq) : Prop :=
  OfType n ty x ∧ ∀ t, PMQuad n t → TypeEquiv ty (fam n x) (fam n t) → flat x ≤ flat t

end Spec
