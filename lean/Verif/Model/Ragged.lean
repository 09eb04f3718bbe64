import Verif.Model.FindWrite

/-!
# Model: the test of a candidate whose four sequences may have different lengths

The sequences of a candidate come from four files. If one of these files ends in the middle of a line (the lines are
written with `write`, which may write only a part; the number of bytes it returns is not looked at, `find_write.rs:92`),
the lengths differ, and the assertion of `cross_correlation` and the bounds checks of the vectors can fail. The definitions below are those of
`Model/Williamson.lean` and `Model/FindWrite.lean` with these panics (`none`).
-/

namespace Model.Ragged
open Model

/-- A loop that stops at the first failure. -/
def allM (p : Nat → Option Bool) : List Nat → Option Bool
  | [] => some true
  | t :: ts => (p t).bind fun b => if b then allM p ts else some false

/-- `&&` on conditions that may panic. -/
def andM (x y : Option Bool) : Option Bool := x.bind fun b => if b then y else some false

/-- `cross_correlation`, `williamson.rs:313-324`, with the assertion of line 315. The index `i + n - offset` is computed
on `usize`: it is not negative if the offset is at most the length (`is_amicable` compares the first sequence, which is
longer than the offset, with the other ones before it compares these). -/
def crossCorrelation (seq1 seq2 : List Int) (offset : Nat) : Option Int :=
  if seq1.length = seq2.length ∧ offset ≤ seq1.length then some (Model.crossCorrelation seq1 seq2 offset) else none

/-- `cross_correlation(x, y, t) == cross_correlation(y, x, t)`. -/
def crossEq (x y : List Int) (t : Nat) : Option Bool :=
  (crossCorrelation x y t).bind fun u => (crossCorrelation y x t).map fun v => u = v

/-- `QuadSeq::is_amicable`, `williamson.rs:212-226`. -/
def isAmicable (s : QuadSeq) : Option Bool :=
  allM (fun t => andM (crossEq s.a s.b t) (andM (crossEq s.a s.c t) (andM (crossEq s.a s.d t)
    (andM (crossEq s.b s.c t) (andM (crossEq s.b s.d t) (crossEq s.c s.d t)))))) (List.range' 1 (s.size - 1))

/-- `QuadSeq::values`, `williamson.rs:107-110`, with the bounds checks. -/
def values (s : QuadSeq) (i : Nat) : Option (Int × Int × Int × Int) :=
  if i < s.a.length ∧ i < s.b.length ∧ i < s.c.length ∧ i < s.d.length then some (s.values i) else none

/-- `QuadSeq::is_symmetric`, `williamson.rs:241-250`. -/
def isSymmetric (s : QuadSeq) : Option Bool :=
  allM (fun t => (values s t).bind fun u => (values s (s.size - t)).map fun v => u = v) (List.range' 1 (s.size / 2))

/-- `QuadSeq::is_periodic_complementary`, `williamson.rs:202-210`: `self.size-1` is computed on `usize`. Every
correlation is taken with the length of its own sequence, which may differ from `size`. -/
def isPeriodicComplementary (s : QuadSeq) : Option Bool :=
  if s.size = 0 then none else some s.isPeriodicComplementary

/-- `QuadSeq::to_qs`, `williamson.rs:266-293`, with the bounds checks of `values`. -/
def toQs (s : QuadSeq) : Option QS :=
  (List.range s.size).foldlM (fun qs i => (values s i).bind fun v => (QuadSeq.quadToQuat v).bind fun q => qs.setValue q i)
    (QS.new s.size none)

/-- `condition`, `find_write.rs:732-737`. -/
def joinCondition (ty : SeqType) (q : QuadSeq) : Option Bool :=
  match ty with
  | .quaternionType => (toQs q).map fun qs => qs.isPerfect
  | .williamsonType => andM (isPeriodicComplementary q) (isAmicable q)
  | .williamson => andM (isPeriodicComplementary q) (isSymmetric q)
  | _ => some false

/-- One candidate, `find_write.rs:724-741`. -/
def testMatch (ty : SeqType) (tab : SeqTable) (order : TagOrder) (m : (Nat × Nat) × (Nat × Nat)) :
    Option (List QuadSeq) :=
  (getSequences tab order (m.1.1, m.1.2, m.2.1, m.2.2)).bind fun q =>
    (joinCondition ty q).map fun ok => if ok then [q] else []

/-- `join_pairs_files`, `find_write.rs:669-755`. -/
def joinPairsFiles (ty : SeqType) (files : Text × Text) (order : TagOrder) (tab : SeqTable) : Option (List QuadSeq) :=
  let l12 := readLines files.1
  let l34 := readLines files.2
  (joinLoop (l12.length + l34.length + 1) l12 l34).bind fun ms =>
    (ms.mapM (testMatch ty tab order)).map List.flatten

/-- The body of the loop of `join_pairs`, `find_write.rs:500-509`. -/
def joinDir (ty : SeqType) (d : Dir) : Option (List QuadSeq) :=
  (getSequencesFromDir d).bind fun tab => (getOrderFromDir d).bind fun o => joinPairsFiles ty o.1 o.2 tab

end Model.Ragged
