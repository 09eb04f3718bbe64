import Verif.Model.Equivalence

/-!
# Model: `sequences/rowsum.rs`, and `filter_by_rowsums` of `sequences/equivalence.rs`

`isize` arithmetic is exact (`Int`); `Model/Word` has the 64-bit version, and property C98 that the two agree.
-/

namespace Model

/-- `type Quad`, `rowsum.rs:10`. -/
abbrev Quad := Int × Int × Int × Int

/-- `quad_contains_zero`, `rowsum.rs:12-14`. -/
def quadContainsZero (q : Quad) : Bool := q.1 = 0 || q.2.1 = 0 || q.2.2.1 = 0 || q.2.2.2 = 0

/-- `quad_contains_dup`, `rowsum.rs:16-18`. -/
def quadContainsDup (q : Quad) : Bool :=
  q.1 = q.2.1 || q.1 = q.2.2.1 || q.1 = q.2.2.2 || q.2.1 = q.2.2.1 || q.2.1 = q.2.2.2 || q.2.2.1 = q.2.2.2

/-- One character of `sequence_to_string`, `rowsum.rs:24-28`; `none` is the panic. -/
def pmToChar (x : Int) : Option Char := if x = 1 then some '+' else if x = -1 then some '-' else none

/-- `sequence_to_string`, `rowsum.rs:20-33`. -/
def sequenceToString (seq : List Int) : Option (List Char) := seq.mapM pmToChar

/-- `rowsum`, `rowsum.rs:37-40`. -/
def rowsum (seq : List Int) : Int := seq.foldl (fun acc x => acc + x) 0

/-- The quadruple of row sums, `rowsum.rs:44`. -/
def rowsums (s : QuadSeq) : Quad := (rowsum s.a, rowsum s.b, rowsum s.c, rowsum s.d)

/-- `has_sorted_rowsums`, `rowsum.rs:43-51`. -/
def hasSortedRowsums (s : QuadSeq) : Bool :=
  let q := rowsums s
  if quadContainsDup q || quadContainsZero q then
    decide (0 ≤ q.1 ∧ q.1 ≤ q.2.1 ∧ q.2.1 ≤ q.2.2.1 ∧ q.2.2.1 ≤ q.2.2.2)
  else
    decide (0 ≤ q.1 ∧ q.1 ≤ q.2.1 ∧ q.2.1 ≤ q.2.2.1 ∧ q.2.2.1 ≤ (q.2.2.2.natAbs : Int))

/-- `filter_by_rowsums`, `equivalence.rs:265-267`. -/
def filterByRowsums (l : List QuadSeq) : List QuadSeq := l.filter fun s => hasSortedRowsums s

/-- `gen_seq_rec`, `rowsum.rs:70-94`. The vector `seq` is threaded through as the second component; the recursion
depth is bounded by the length of the vector, and the fuel `seq.len() + 1` given by the caller suffices. -/
def genSeqRec : Nat → List Int → Nat → Nat → List (List Int) × List Int
  | 0, seq, _, _ => ([], seq)
  | fuel + 1, seq, remaining, pos =>
    if remaining = 0 then ([seq], seq)
    else if pos + remaining > seq.length then ([], seq)
    else
      let (results2, seq) := genSeqRec fuel seq remaining (pos + 1)
      let seq := seq.set pos 1
      let (results1, seq) := genSeqRec fuel seq (remaining - 1) (pos + 1)
      let seq := seq.set pos (-1)
      (results1 ++ results2, seq)

/-- `generate_sequences_with_rowsum`, `rowsum.rs:53-67`. Integer division truncates towards zero; `as usize`
reduces modulo `2^64`. -/
def generateSequencesWithRowsum (rs : Int) (size : Nat) : List (List Int) :=
  if rs.natAbs % 2 ≠ size % 2 then []
  else
    let nbOnes := Int.tdiv ((size : Int) + rs) 2
    (genSeqRec (size + 1) (List.replicate size (-1)) (asUsize nbOnes) 0).1

/-- `square_sum`, `rowsum.rs:101-103`. -/
def squareSum (s : Quad) : Int := s.1 * s.1 + s.2.1 * s.2.1 + s.2.2.1 * s.2.2.1 + s.2.2.2 * s.2.2.2

/-- `increment_squares`, `rowsum.rs:105-131`. -/
def incrementSquares (s : Quad) (bound : Nat) : Quad :=
  let s := (s.1, s.2.1, s.2.2.1, s.2.2.2 + 1)
  if squareSum s ≤ bound then s
  else
    let s := (s.1, s.2.1, s.2.2.1 + 1, s.2.2.1 + 1)
    if squareSum s ≤ bound then s
    else
      let s := (s.1, s.2.1 + 1, s.2.1 + 1, s.2.1 + 1)
      if squareSum s ≤ bound then s
      else (s.1 + 1, s.1 + 1, s.1 + 1, s.1 + 1)

/-- The loop of `sum_of_four_squares`, `rowsum.rs:142-148`; `none` if the fuel runs out. -/
def fourSquaresLoop (p : Nat) : Nat → Quad → List Quad → Option (List Quad)
  | 0, _, _ => none
  | fuel + 1, s, acc =>
    if s.1 * s.1 ≤ p then
      fourSquaresLoop p fuel (incrementSquares s p) (if squareSum s = p then acc ++ [s] else acc)
    else some acc

/-- `sum_of_four_squares`, `rowsum.rs:135-151`. That `(p + 2)^4 + 1` iterations are enough is property C23. -/
def sumOfFourSquares (p : Nat) : Option (List Quad) := fourSquaresLoop p ((p + 2) ^ 4 + 1) (0, 0, 0, 0) []

/-- The body of the loop of `generate_rowsums`, `rowsum.rs:290-297`. -/
def rowsumStep (p : Nat) (ty : SeqType) (elm : Quad) : List Quad :=
  let parity : Int := ((p % 2 : Nat) : Int)
  if parity = Int.tmod elm.1 2 ∧ parity = Int.tmod elm.2.1 2 ∧ parity = Int.tmod elm.2.2.1 2 ∧
      parity = Int.tmod elm.2.2.2 2 then
    if elm.1 ≠ 0 ∧ elm.1 ≠ elm.2.1 ∧ elm.2.1 ≠ elm.2.2.1 ∧ elm.2.2.1 ≠ elm.2.2.2 ∧ ty = .quaternionType then
      [elm, (elm.1, elm.2.1, elm.2.2.1, -elm.2.2.2)]
    else [elm]
  else []

/-- `generate_rowsums`, `rowsum.rs:280-301`. -/
def generateRowsums (p : Nat) (ty : SeqType) : Option (List Quad) :=
  (sumOfFourSquares (4 * p)).map fun quads => quads.flatMap (rowsumStep p ty)

end Model
