import Verif.Model.Sequence

/-!
# Model: `sequences/williamson.rs`
-/

namespace Model

/-- `QUADRUPLETS`, `sequences/williamson.rs:26-43`. -/
def QUADRUPLETS : List (Int × Int × Int × Int) :=
  [(-1,-1,-1,-1), (1,1,1,1), (1,-1,-1,1), (-1,1,1,-1), (1,1,-1,-1), (-1,-1,1,1), (1,-1,1,-1), (-1,1,-1,1),
   (1,-1,-1,-1), (-1,1,1,1), (1,1,-1,1), (-1,-1,1,-1), (1,1,1,-1), (-1,-1,-1,1), (1,-1,1,1), (-1,1,-1,-1)]

/-- `quaternion_to_quad`, `sequences/williamson.rs:45-54`. `none` is a panic: either an unknown quaternion
or an index beyond the 16 quadruplets. -/
def quaternionToQuad (q : Quat) : Option (Int × Int × Int × Int) :=
  (firstIndex Q24 q).bind fun i => QUADRUPLETS[i]?

/-- `struct QuadSeq`, `sequences/williamson.rs:60-67`. -/
structure QuadSeq where
  size : Nat
  a : List Int
  b : List Int
  c : List Int
  d : List Int
  deriving DecidableEq, Repr

/-- `periodic_autocorrelation`, `sequences/williamson.rs:301-310` (the product is an `i8` product). -/
def periodicAutocorrelation (seq : List Int) (offset : Nat) : Int :=
  sumTo seq.length fun i => mul8 (at0 seq i) (at0 seq ((i + offset) % seq.length))

/-- `cross_correlation`, `sequences/williamson.rs:313-324`, for sequences of equal length
(the code asserts this). -/
def crossCorrelation (seq1 seq2 : List Int) (offset : Nat) : Int :=
  sumTo seq1.length fun i => mul8 (at0 seq1 i) (at0 seq2 ((i + seq1.length - offset) % seq1.length))

namespace QuadSeq

/-- `QuadSeq::new`, `sequences/williamson.rs:74-82`. -/
def new (size : Nat) : QuadSeq :=
  { size, a := List.replicate size (-1), b := List.replicate size (-1),
    c := List.replicate size (-1), d := List.replicate size (-1) }

/-- `QuadSeq::sequence`, `sequences/williamson.rs:94-101`. -/
def sequence (s : QuadSeq) : Tag → List Int
  | .W => s.a
  | .X => s.b
  | .Y => s.c
  | .Z => s.d

/-- `QuadSeq::values`, `sequences/williamson.rs:107-110`. -/
def values (s : QuadSeq) (i : Nat) : Int × Int × Int × Int := (at0 s.a i, at0 s.b i, at0 s.c i, at0 s.d i)

/-- `QuadSeq::set_all_values`, `sequences/williamson.rs:112-119` (the size field is not touched). -/
def setAllValues (s : QuadSeq) (a b c d : List Int) : QuadSeq := { s with a, b, c, d }

/-- `QuadSeq::set_sequence`, `sequences/williamson.rs:121-129`. -/
def setSequence (s : QuadSeq) (seq : List Int) : Tag → QuadSeq
  | .W => { s with a := seq }
  | .X => { s with b := seq }
  | .Y => { s with c := seq }
  | .Z => { s with d := seq }

/-- `QuadSeq::set_sequence_value`, `sequences/williamson.rs:141-148`. -/
def setSequenceValue (s : QuadSeq) (v : Int × Int × Int × Int) (i : Nat) : QuadSeq :=
  { s with a := s.a.set i v.1, b := s.b.set i v.2.1, c := s.c.set i v.2.2.1, d := s.d.set i v.2.2.2 }

/-- `QuadSeq::from_pqs`, `sequences/williamson.rs:151-168`. -/
def fromPqs (q : QS) : Option QuadSeq :=
  (q.values.mapM quaternionToQuad).map fun l =>
    (new q.size).setAllValues (l.map fun v => v.1) (l.map fun v => v.2.1)
      (l.map fun v => v.2.2.1) (l.map fun v => v.2.2.2)

/-- `QuadSeq::is_periodic_complementary`, `sequences/williamson.rs:202-210`. For size 0 the code computes
`0 - 1` on `usize` (debug panic); the model returns `true` there and no theorem uses that case. -/
def isPeriodicComplementary (s : QuadSeq) : Bool :=
  (List.range' 1 (s.size - 1)).all fun t =>
    periodicAutocorrelation s.a t + periodicAutocorrelation s.b t +
      periodicAutocorrelation s.c t + periodicAutocorrelation s.d t = 0

/-- `QuadSeq::is_amicable`, `sequences/williamson.rs:212-226`. -/
def isAmicable (s : QuadSeq) : Bool :=
  (List.range' 1 (s.size - 1)).all fun t =>
    crossCorrelation s.a s.b t = crossCorrelation s.b s.a t ∧
    crossCorrelation s.a s.c t = crossCorrelation s.c s.a t ∧
    crossCorrelation s.a s.d t = crossCorrelation s.d s.a t ∧
    crossCorrelation s.b s.c t = crossCorrelation s.c s.b t ∧
    crossCorrelation s.b s.d t = crossCorrelation s.d s.b t ∧
    crossCorrelation s.c s.d t = crossCorrelation s.d s.c t

/-- `QuadSeq::verify_cross_correlation`, `sequences/williamson.rs:228-239`. -/
def verifyCrossCorrelation (s : QuadSeq) : Bool :=
  (List.range s.size).all fun t =>
    crossCorrelation s.a s.b t - crossCorrelation s.b s.a t =
      crossCorrelation s.d s.c t - crossCorrelation s.c s.d t ∧
    crossCorrelation s.a s.c t - crossCorrelation s.c s.a t =
      crossCorrelation s.b s.d t - crossCorrelation s.d s.b t ∧
    crossCorrelation s.a s.d t - crossCorrelation s.d s.a t =
      crossCorrelation s.c s.b t - crossCorrelation s.b s.c t

/-- `QuadSeq::is_symmetric`, `sequences/williamson.rs:241-250`. -/
def isSymmetric (s : QuadSeq) : Bool :=
  (List.range' 1 (s.size / 2)).all fun t => s.values t = s.values (s.size - t)

/-- `QuadSeq::verify_qts`, `sequences/williamson.rs:180-185`. -/
def verifyQts (s : QuadSeq) : Bool := s.isPeriodicComplementary && s.verifyCrossCorrelation

/-- `QuadSeq::verify_wts`, `sequences/williamson.rs:187-192`. -/
def verifyWts (s : QuadSeq) : Bool := s.isPeriodicComplementary && s.isAmicable

/-- `QuadSeq::verify_ws`, `sequences/williamson.rs:194-200`. -/
def verifyWs (s : QuadSeq) : Bool := s.isPeriodicComplementary && s.isSymmetric

/-- `QuadSeq::verify`, `sequences/williamson.rs:171-178`. -/
def verify (s : QuadSeq) : SeqType → Bool
  | .quaternionType => s.verifyQts
  | .williamsonType => s.verifyWts
  | .williamson => s.verifyWs
  | _ => false

/-- `QuadSeq::has_duplicate_seq`, `sequences/williamson.rs:252-259`. -/
def hasDuplicateSeq (s : QuadSeq) : Bool :=
  s.a = s.b || s.a = s.c || s.a = s.d || s.b = s.c || s.b = s.d || s.c = s.d

/-- The table inside `QuadSeq::to_qs`, `sequences/williamson.rs:271-289`. `none` is the panic. -/
def quadToQuat : Int × Int × Int × Int → Option Quat
  | (1,1,1,1) => QPLUS[1]?
  | (1,1,1,-1) => QPLUS[12]?
  | (1,1,-1,1) => QPLUS[10]?
  | (1,1,-1,-1) => QPLUS[4]?
  | (1,-1,1,1) => QPLUS[14]?
  | (1,-1,1,-1) => QPLUS[6]?
  | (1,-1,-1,1) => QPLUS[2]?
  | (1,-1,-1,-1) => QPLUS[8]?
  | (-1,1,1,1) => QPLUS[9]?
  | (-1,1,1,-1) => QPLUS[3]?
  | (-1,1,-1,1) => QPLUS[7]?
  | (-1,1,-1,-1) => QPLUS[15]?
  | (-1,-1,1,1) => QPLUS[5]?
  | (-1,-1,1,-1) => QPLUS[11]?
  | (-1,-1,-1,1) => QPLUS[13]?
  | (-1,-1,-1,-1) => QPLUS[0]?
  | _ => none

/-- `QuadSeq::to_qs`, `sequences/williamson.rs:266-293`. -/
def toQs (s : QuadSeq) : Option QS :=
  (List.range s.size).foldlM (fun qs i => (quadToQuat (s.values i)).bind fun q => qs.setValue q i)
    (QS.new s.size none)

end QuadSeq

/-- `seq_less_than`, `sequences/williamson.rs:366-382` (sequences of equal length). -/
def seqLessThan : List Int → List Int → Bool
  | x :: xs, y :: ys => if x < y then true else if x > y then false else seqLessThan xs ys
  | _, _ => false

end Model
