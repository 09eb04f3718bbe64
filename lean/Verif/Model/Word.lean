import Verif.Model.Matching
import Verif.Model.Rowsum

/-!
# Model: 64-bit arithmetic

The other model files compute with `isize` and `usize` as with unbounded integers. Here the same functions are written with
64-bit words, on a 64-bit machine. Each takes the kind of build: with `dbg = true` an operation whose exact result is not
representable panics (`none`), as in a debug build; with `dbg = false` it wraps, as in a release build. Products of `i8`
entries wrap at 8 bits in both (`mul8`); that they do not overflow is property C93.
-/

namespace Model.Word

/-- The result of an `isize` operation whose exact value is `x`. -/
def i64 (dbg : Bool) (x : Int) : Option Int :=
  if -2 ^ 63 ≤ x ∧ x < 2 ^ 63 then some x else if dbg then none else some (Int.bmod x (2 ^ 64))

/-- The result of a `usize` operation whose exact value is `x`. -/
def u64 (dbg : Bool) (x : Int) : Option Nat :=
  if 0 ≤ x ∧ x < 2 ^ 64 then some x.toNat else if dbg then none else some (x % 2 ^ 64).toNat

/-- `isize::abs`. -/
def abs64 (dbg : Bool) (x : Int) : Option Int := if x < 0 then i64 dbg (-x) else some x

/-- `x as isize` for a `usize`. -/
def asIsize (x : Nat) : Int := Int.bmod x (2 ^ 64)

variable (dbg : Bool)

/-! ## `rowsum.rs` -/

/-- `rowsum`, `rowsum.rs:37-40`. -/
def rowsum (seq : List Int) : Option Int := seq.foldlM (fun acc x => i64 dbg (acc + x)) 0

/-- `has_sorted_rowsums`, `rowsum.rs:43-51`. The absolute value is computed before the comparisons; the code computes it only
if the comparisons before it succeed. -/
def hasSortedRowsums (s : QuadSeq) : Option Bool :=
  (rowsum dbg s.a).bind fun a => (rowsum dbg s.b).bind fun b => (rowsum dbg s.c).bind fun c => (rowsum dbg s.d).bind fun d =>
    if quadContainsDup (a, b, c, d) || quadContainsZero (a, b, c, d) then some (decide (0 ≤ a ∧ a ≤ b ∧ b ≤ c ∧ c ≤ d))
    else (abs64 dbg d).map fun e => decide (0 ≤ a ∧ a ≤ b ∧ b ≤ c ∧ c ≤ e)

/-- `gen_seq_rec`, `rowsum.rs:70-94`. An index out of range panics in both builds; running out of fuel is `none` as well. -/
def genSeqRec : Nat → List Int → Nat → Nat → Option (List (List Int) × List Int)
  | 0, _, _, _ => none
  | fuel + 1, seq, remaining, pos =>
    if remaining = 0 then some ([seq], seq)
    else (u64 dbg (pos + remaining)).bind fun t =>
      if t > seq.length then some ([], seq)
      else (u64 dbg (pos + 1)).bind fun next =>
        (genSeqRec fuel seq remaining next).bind fun r2 =>
          if pos < r2.2.length then
            (u64 dbg (remaining - 1)).bind fun fewer =>
              (genSeqRec fuel (r2.2.set pos 1) fewer next).map fun r1 => (r1.1 ++ r2.1, r1.2.set pos (-1))
          else none

/-- `generate_sequences_with_rowsum`, `rowsum.rs:53-67`. The division is by 2 and cannot overflow. -/
def generateSequencesWithRowsum (rs : Int) (size : Nat) : Option (List (List Int)) :=
  (abs64 dbg rs).bind fun a =>
    if asUsize (Int.tmod a 2) ≠ size % 2 then some []
    else (i64 dbg (asIsize size + rs)).bind fun total =>
      (genSeqRec dbg (size + 1) (List.replicate size (-1)) (asUsize (Int.tdiv total 2)) 0).map fun r => r.1

/-- `square_sum`, `rowsum.rs:101-103`. -/
def squareSum (s : Quad) : Option Nat :=
  (i64 dbg (s.1 * s.1)).bind fun a => (i64 dbg (s.2.1 * s.2.1)).bind fun b => (i64 dbg (a + b)).bind fun ab =>
    (i64 dbg (s.2.2.1 * s.2.2.1)).bind fun c => (i64 dbg (ab + c)).bind fun abc =>
      (i64 dbg (s.2.2.2 * s.2.2.2)).bind fun d => (i64 dbg (abc + d)).map fun t => asUsize t

/-- `increment_squares`, `rowsum.rs:105-131`. -/
def incrementSquares (s : Quad) (bound : Nat) : Option Quad :=
  (i64 dbg (s.2.2.2 + 1)).bind fun x3 =>
    (squareSum dbg (s.1, s.2.1, s.2.2.1, x3)).bind fun t3 =>
      if t3 ≤ bound then some (s.1, s.2.1, s.2.2.1, x3)
      else (i64 dbg (s.2.2.1 + 1)).bind fun x2 =>
        (squareSum dbg (s.1, s.2.1, x2, x2)).bind fun t2 =>
          if t2 ≤ bound then some (s.1, s.2.1, x2, x2)
          else (i64 dbg (s.2.1 + 1)).bind fun x1 =>
            (squareSum dbg (s.1, x1, x1, x1)).bind fun t1 =>
              if t1 ≤ bound then some (s.1, x1, x1, x1)
              else (i64 dbg (s.1 + 1)).map fun x0 => (x0, x0, x0, x0)

/-- The loop of `sum_of_four_squares`, `rowsum.rs:142-148`; running out of fuel is `none`. -/
def fourSquaresLoop (p : Nat) : Nat → Quad → List Quad → Option (List Quad)
  | 0, _, _ => none
  | fuel + 1, s, acc =>
    (i64 dbg (s.1 * s.1)).bind fun q =>
      if asUsize q ≤ p then
        (squareSum dbg s).bind fun t => (incrementSquares dbg s p).bind fun s' =>
          fourSquaresLoop p fuel s' (if t = p then acc ++ [s] else acc)
      else some acc

/-- `sum_of_four_squares`, `rowsum.rs:135-151`, with the fuel of the unbounded model. -/
def sumOfFourSquares (p : Nat) : Option (List Quad) := fourSquaresLoop dbg p ((p + 2) ^ 4 + 1) (0, 0, 0, 0) []

/-- The body of the loop of `generate_rowsums`, `rowsum.rs:290-297`. -/
def rowsumStep (p : Nat) (ty : SeqType) (elm : Quad) : Option (List Quad) :=
  let parity : Int := asIsize (p % 2)
  if parity = Int.tmod elm.1 2 ∧ parity = Int.tmod elm.2.1 2 ∧ parity = Int.tmod elm.2.2.1 2 ∧
      parity = Int.tmod elm.2.2.2 2 then
    if elm.1 ≠ 0 ∧ elm.1 ≠ elm.2.1 ∧ elm.2.1 ≠ elm.2.2.1 ∧ elm.2.2.1 ≠ elm.2.2.2 ∧ ty = .quaternionType then
      (i64 dbg (-elm.2.2.2)).map fun m => [elm, (elm.1, elm.2.1, elm.2.2.1, m)]
    else some [elm]
  else some []

/-- `generate_rowsums`, `rowsum.rs:280-301`. -/
def generateRowsums (p : Nat) (ty : SeqType) : Option (List Quad) :=
  (u64 dbg (4 * p)).bind fun p4 =>
    (sumOfFourSquares dbg p4).bind fun quads => (quads.mapM (rowsumStep dbg p ty)).map fun l => l.flatten

/-! ## `williamson.rs` -/

/-- `let mut res = 0; for i in 0..n { res += f(i) as isize }`. -/
def sumTo (n : Nat) (f : Nat → Option Int) : Option Int :=
  (List.range n).foldlM (fun acc i => (f i).bind fun x => i64 dbg (acc + x)) 0

/-- `periodic_autocorrelation`, `williamson.rs:301-310`. -/
def periodicAutocorrelation (seq : List Int) (offset : Nat) : Option Int :=
  sumTo dbg seq.length fun i => (u64 dbg (i + offset)).map fun j => mul8 (at0 seq i) (at0 seq (j % seq.length))

/-- `cross_correlation`, `williamson.rs:313-324`. -/
def crossCorrelation (seq1 seq2 : List Int) (offset : Nat) : Option Int :=
  if seq1.length = seq2.length then
    sumTo dbg seq1.length fun i =>
      (u64 dbg (i + seq1.length)).bind fun j => (u64 dbg (j - offset)).map fun k =>
        mul8 (at0 seq1 i) (at0 seq2 (k % seq1.length))
  else none

/-- Conjunction over a list, stopping at the first failure. -/
def allM {α : Type} (f : α → Option Bool) : List α → Option Bool
  | [] => some true
  | x :: l => (f x).bind fun b => if b then allM f l else some false

/-- `&&`. -/
def andM (x y : Option Bool) : Option Bool := x.bind fun b => if b then y else some false

/-- `QuadSeq::is_periodic_complementary`, `williamson.rs:202-210`. The bound `size - 1` underflows for size 0: a panic, or a
loop over all 64-bit words. -/
def isPeriodicComplementary (s : QuadSeq) : Option Bool :=
  (u64 dbg (s.size - 1)).bind fun last =>
    allM (fun t =>
      (periodicAutocorrelation dbg s.a t).bind fun a => (periodicAutocorrelation dbg s.b t).bind fun b =>
        (i64 dbg (a + b)).bind fun ab => (periodicAutocorrelation dbg s.c t).bind fun c =>
          (i64 dbg (ab + c)).bind fun abc => (periodicAutocorrelation dbg s.d t).bind fun d =>
            (i64 dbg (abc + d)).map fun r => decide (r = 0))
      (List.range' 1 last)

/-- `cross_correlation(x, y, t) == cross_correlation(y, x, t)`. -/
def crossEq (x y : List Int) (t : Nat) : Option Bool :=
  (crossCorrelation dbg x y t).bind fun u => (crossCorrelation dbg y x t).map fun v => decide (u = v)

/-- `cross_correlation(x, y, t) - cross_correlation(y, x, t)`. -/
def crossDiff (x y : List Int) (t : Nat) : Option Int :=
  (crossCorrelation dbg x y t).bind fun u => (crossCorrelation dbg y x t).bind fun v => i64 dbg (u - v)

/-- Equality of two such differences. -/
def diffEq (x y z w : List Int) (t : Nat) : Option Bool :=
  (crossDiff dbg x y t).bind fun u => (crossDiff dbg z w t).map fun v => decide (u = v)

/-- `QuadSeq::is_amicable`, `williamson.rs:212-226`. -/
def isAmicable (s : QuadSeq) : Option Bool :=
  allM (fun t =>
    andM (crossEq dbg s.a s.b t) (andM (crossEq dbg s.a s.c t) (andM (crossEq dbg s.a s.d t)
      (andM (crossEq dbg s.b s.c t) (andM (crossEq dbg s.b s.d t) (crossEq dbg s.c s.d t))))))
    (List.range' 1 (s.size - 1))

/-- `QuadSeq::verify_cross_correlation`, `williamson.rs:228-239`. -/
def verifyCrossCorrelation (s : QuadSeq) : Option Bool :=
  allM (fun t =>
    andM (diffEq dbg s.a s.b s.d s.c t) (andM (diffEq dbg s.a s.c s.b s.d t) (diffEq dbg s.a s.d s.c s.b t)))
    (List.range s.size)

/-- `QuadSeq::verify`, `williamson.rs:171-200`. `is_symmetric` computes `size - t` with `t` at most `size / 2`. -/
def verify (s : QuadSeq) : SeqType → Option Bool
  | .quaternionType => andM (isPeriodicComplementary dbg s) (verifyCrossCorrelation dbg s)
  | .williamsonType => andM (isPeriodicComplementary dbg s) (isAmicable dbg s)
  | .williamson => andM (isPeriodicComplementary dbg s) (some s.isSymmetric)
  | _ => some false

/-! ## `matching.rs` -/

/-- `compute_auto_correlation`, `matching.rs:31-38`. -/
def computeAutoCorrelation (seq : List Int) : Option (List Int) :=
  (List.range' 1 (seq.length / 2)).mapM fun offset => periodicAutocorrelation dbg seq offset

/-- `compute_auto_correlation_pair`, `matching.rs:41-51`. -/
def computeAutoCorrelationPair (seq1 seq2 : List Int) : Option (List Int) :=
  (computeAutoCorrelation dbg seq1).bind fun a1 => (computeAutoCorrelation dbg seq2).bind fun a2 =>
    (List.zip a1 a2).mapM fun p => i64 dbg (p.1 + p.2)

/-- `compute_cross_correlations`, `matching.rs:79-97`. -/
def computeCrossCorrelations (seq1 seq2 : List Int) (tags : Tag × Tag) : Option (List Int) :=
  (crossSign tags).bind fun pos =>
    (List.range' 1 (seq1.length / 2)).mapM fun offset =>
      if pos then crossDiff dbg seq1 seq2 offset else crossDiff dbg seq2 seq1 offset

/-- `compute_complementary_auto_correlations`, `matching.rs:159-166`. -/
def computeComplementaryAutoCorrelations (seq1 seq2 : List Int) : Option (List Int) :=
  (List.range' 1 (seq1.length / 2)).mapM fun offset =>
    (periodicAutocorrelation dbg seq1 offset).bind fun a => (periodicAutocorrelation dbg seq2 offset).bind fun b =>
      (i64 dbg (a + b)).bind fun c => i64 dbg (-c)

/-- `compute_complementary_cross_correlations`, `matching.rs:168-187`. -/
def computeComplementaryCrossCorrelations (seq1 seq2 : List Int) (tags : Tag × Tag) : Option (List Int) :=
  (crossSign tags).bind fun pos =>
    (List.range' 1 (seq1.length / 2)).mapM fun offset =>
      (if pos then crossDiff dbg seq1 seq2 offset else crossDiff dbg seq2 seq1 offset).bind fun d => i64 dbg (-d)

/-- One cross-correlation condition, `matching.rs:248-251`, evaluated from left to right. -/
def crossCond (c : Four) (t : Nat) : Option Int :=
  (crossDiff dbg c.1 c.2.1 t).bind fun d => (crossCorrelation dbg c.2.2.1 c.2.2.2 t).bind fun u =>
    (i64 dbg (d + u)).bind fun e => (crossCorrelation dbg c.2.2.2 c.2.2.1 t).bind fun v => i64 dbg (e - v)

/-- `verify_cross_correlation`, `matching.rs:191-257`. The second condition of an offset is evaluated only if the first holds. -/
def verifyCrossCorrelationTagged (seqs : Four) (tags : Tag × Tag × Tag × Tag) : Option Bool :=
  let ss := [seqs.1, seqs.2.1, seqs.2.2.1, seqs.2.2.2]
  let ts := [tags.1, tags.2.1, tags.2.2.1, tags.2.2.2]
  (findTagged ss ts .W).bind fun w =>
  (findTagged ss ts .X).bind fun x =>
  (findTagged ss ts .Y).bind fun y =>
  (findTagged ss ts .Z).bind fun z =>
  (remainingConds w x y z (tags.1, tags.2.1)).bind fun c =>
    allM (fun t => andM ((crossCond dbg c.1 t).map fun r => decide (r = 0)) ((crossCond dbg c.2 t).map fun r => decide (r = 0)))
      (List.range seqs.1.length)

end Model.Word
