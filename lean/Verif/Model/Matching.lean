import Verif.Model.Williamson

/-!
# Model: `sequences/matching.rs` and the computations of `sequences/fourier.rs`

The floating-point functions are written over an arbitrary number type `F` with the operations the code uses, collected
in the structure `Fl`. The theorems instantiate it with exact real arithmetic or quantify over every such structure that
satisfies an error bound. The cache of transform plans is modelled separately (`Model/Plan.lean`); here a transform is
always applied at the length of its argument.
-/

namespace Model

/-- The operations on `f64` used by `matching.rs`, `fourier.rs` and `find_write.rs`. -/
structure Fl (F : Type) where
  /-- `x as f64` for integers -/
  ofInt : Int → F
  /-- a literal (numerator and denominator) -/
  lit : Int → Nat → F
  add : F → F → F
  sub : F → F → F
  mul : F → F → F
  div : F → F → F
  neg : F → F
  abs : F → F
  fract : F → F
  /-- `x > y` -/
  gt : F → F → Bool
  /-- `x.round() as isize` -/
  round : F → Int
  /-- `R2CPlan::r2c`: real input of length `n`, complex output of length `n / 2 + 1` -/
  r2c : List F → List (F × F)
  /-- `C2RPlan::c2r` for length `n` (no normalisation) -/
  c2r : Nat → List (F × F) → List F

section
variable {F : Type} (A : Fl F)

/-- Product of complex numbers (`num_complex`). -/
def Fl.cmul (x y : F × F) : F × F :=
  (A.sub (A.mul x.1 y.1) (A.mul x.2 y.2), A.add (A.mul x.1 y.2) (A.mul x.2 y.1))

/-- Difference of complex numbers. -/
def Fl.csub (x y : F × F) : F × F := (A.sub x.1 y.1, A.sub x.2 y.2)

/-- `Complex::conj`. -/
def Fl.conj (x : F × F) : F × F := (x.1, A.neg x.2)

/-- `Complex::norm_sqr`. -/
def Fl.normSqr (x : F × F) : F := A.add (A.mul x.1 x.1) (A.mul x.2 x.2)

/-- `dft_sequence`, `fourier.rs:12-27`. -/
def dftSequence (seq : List Int) : List (F × F) := A.r2c (seq.map fun x => A.ofInt x)

/-- `inverse_dft`, `fourier.rs:29-43`: the first `n / 2 + 1` frequencies are copied, transformed and divided by `n`.
An index beyond `freq` would panic; the callers pass `n / 2 + 1` frequencies. -/
def inverseDft (freq : List (F × F)) (n : Nat) : List F :=
  (A.c2r n ((List.range (n / 2 + 1)).map fun i => freq.getD i (A.ofInt 0, A.ofInt 0))).map
    fun x => A.div x (A.ofInt n)

/-- `seq_multiply_pointwise_complex`, `sequence.rs:198-200`. -/
def seqMultiplyPointwiseComplex (s1 s2 : List (F × F)) : List (F × F) := List.zipWith A.cmul s1 s2

/-- `SequencePairData`, `fourier.rs:87-94`. -/
structure PairData (F : Type) where
  i1 : Nat
  seq1 : List Int
  i2 : Nat
  seq2 : List Int
  dft1 : List (F × F)
  norm1 : List F
  dft2 : List (F × F)
  norm2 : List F

/-- `bound_exceeded`, `fourier.rs:106`: some frequency other than 0 exceeds the bound. -/
def boundExceeded (norm1 norm2 : List F) (bound : F) : Bool :=
  ((List.zip norm1 norm2).drop 1).any fun p => A.gt (A.add p.1 p.2) bound

/-- The closure of `iter_over_enumerate_filtered_couples_psds`, `fourier.rs:99-120`. -/
def pairData (bound : F) (e1 e2 : List Int × Nat) : Option (PairData F) :=
  let dft1 := dftSequence A e1.1
  let dft2 := dftSequence A e2.1
  let norm1 := dft1.map A.normSqr
  let norm2 := dft2.map A.normSqr
  if boundExceeded A norm1 norm2 bound then none
  else some { i1 := e1.2, seq1 := e1.1, i2 := e2.2, seq2 := e2.1, dft1, norm1, dft2, norm2 }

/-- `iter_over_enumerate_filtered_couples_psds`, `fourier.rs:96-121`. -/
def filteredCouplesPsds (sequences1 sequences2 : List (List Int)) (bound : F) : List (PairData F) :=
  sequences1.zipIdx.flatMap fun e1 => sequences2.zipIdx.filterMap fun e2 => pairData A bound e1 e2

/-- The test of `iter_over_filtered_couples`, `fourier.rs:62-69` (frequency 0 included). -/
def coupleAllowed (bound : F) (seq1 seq2 : List Int) : Bool :=
  (List.zip ((dftSequence A seq1).map A.normSqr) ((dftSequence A seq2).map A.normSqr)).all
    fun p => !A.gt (A.add p.1 p.2) bound

/-- `iter_over_filtered_couples`, `fourier.rs:59-70`. -/
def filteredCouples (sequences1 sequences2 : List (List Int)) (bound : F) : List (List Int × List Int) :=
  (sequences1.flatMap fun s1 => sequences2.map fun s2 => (s1, s2)).filter fun c => coupleAllowed A bound c.1 c.2

/-- `iter_over_enumerate_filtered_couples`, `fourier.rs:74-85`. -/
def filteredEnumCouples (sequences1 sequences2 : List (List Int)) (bound : F) :
    List ((List Int × Nat) × (List Int × Nat)) :=
  (sequences1.zipIdx.flatMap fun s1 => sequences2.zipIdx.map fun s2 => (s1, s2)).filter
    fun c => coupleAllowed A bound c.1.1 c.2.1

/-- `iter_over_filtered_dft`, `fourier.rs:46-56`: compares the squared norm with the *square* of the bound. -/
def filteredDft (sequences : List (List Int)) (bound : F) : List (List Int) :=
  sequences.filter fun seq =>
    (dftSequence A seq).all fun elm => !A.gt (A.normSqr elm) (A.mul bound bound)

/-- `compute_auto_correlation_dft`, `matching.rs:53-58`. -/
def computeAutoCorrelationDft (psd : List F) (len : Nat) : List Int :=
  (inverseDft A (psd.map fun e => (e, A.ofInt 0)) len).map A.round

/-- `compute_auto_correlation_pair_dft`, `matching.rs:60-70`. -/
def computeAutoCorrelationPairDft (psd1 : List F) (len1 : Nat) (psd2 : List F) (len2 : Nat) : List Int :=
  let auto1 := computeAutoCorrelationDft A psd1 len1
  let auto2 := computeAutoCorrelationDft A psd2 len2
  (List.range' 1 (auto1.length / 2)).map fun offset => at0 auto1 offset + at0 auto2 offset

/-- `EquationSide`, `find_write.rs:33-36`. -/
inductive Side
  | left | right
  deriving DecidableEq, Repr

/-- `compute_psd_pair`, `matching.rs:72-77`. -/
def computePsdPair (psd1 psd2 : List F) (len : Nat) (side : Side) : List F :=
  List.zipWith (fun a b =>
    match side with
    | .left => A.add a b
    | .right => A.sub (A.ofInt (4 * len)) (A.add a b)) (psd1.drop 1) (psd2.drop 1)

/-- The sign convention of the cross-correlations, the `match` in `matching.rs:81-90`, `106-114`, `130-138`, `170-179`:
`some true` when the order is (first, second), `some false` when it is exchanged, `none` is the panic. The first
matching arm is taken, so `(Z, Z)` is accepted as `(Z, _)`. -/
def crossSign : Tag × Tag → Option Bool
  | (.Z, _) | (.W, .X) | (.X, .Y) | (.Y, .W) => some true
  | (_, .Z) | (.X, .W) | (.Y, .X) | (.W, .Y) => some false
  | _ => none

/-- `compute_cross_correlations_dft`, `matching.rs:99-123`. -/
def computeCrossCorrelationsDft (dft1 dft2 : List (F × F)) (tags : Tag × Tag) (len : Nat) : Option (List Int) :=
  let cross1 := inverseDft A (seqMultiplyPointwiseComplex A dft1 (dft2.map A.conj)) len
  let cross2 := inverseDft A (seqMultiplyPointwiseComplex A dft2 (dft1.map A.conj)) len
  let zero := A.ofInt 0
  (crossSign tags).map fun pos =>
    (List.range' 1 (len / 2)).map fun offset =>
      A.round (if pos then A.sub (cross1.getD offset zero) (cross2.getD offset zero)
        else A.sub (cross2.getD offset zero) (cross1.getD offset zero))

/-- `compute_cross_psd`, `matching.rs:151-156`. -/
def computeCrossPsd (dft1 dft2 : List (F × F)) : List (F × F) :=
  List.zipWith (fun e1 e2 => A.cmul e1 (A.conj e2)) dft1 dft2

/-- `compute_cross_psd_pair`, `matching.rs:126-147`. -/
def computeCrossPsdPair (dft1 dft2 : List (F × F)) (tags : Tag × Tag) (len : Nat) : Option (List (F × F)) :=
  let c1 := computeCrossPsd A dft1 dft2
  let c2 := computeCrossPsd A dft2 dft1
  let zero := (A.ofInt 0, A.ofInt 0)
  (crossSign tags).map fun pos =>
    (List.range' 1 (len / 2)).map fun offset =>
      if pos then A.csub (c1.getD offset zero) (c2.getD offset zero)
      else A.csub (c2.getD offset zero) (c1.getD offset zero)

end

/-- `compute_auto_correlation`, `matching.rs:31-38`. -/
def computeAutoCorrelation (seq : List Int) : List Int :=
  (List.range' 1 (seq.length / 2)).map fun offset => periodicAutocorrelation seq offset

/-- `compute_auto_correlation_pair`, `matching.rs:41-51`. -/
def computeAutoCorrelationPair (seq1 seq2 : List Int) : List Int :=
  List.zipWith (fun x y => x + y) (computeAutoCorrelation seq1) (computeAutoCorrelation seq2)

/-- `compute_cross_correlations`, `matching.rs:79-97`. -/
def computeCrossCorrelations (seq1 seq2 : List Int) (tags : Tag × Tag) : Option (List Int) :=
  (crossSign tags).map fun pos =>
    (List.range' 1 (seq1.length / 2)).map fun offset =>
      if pos then crossCorrelation seq1 seq2 offset - crossCorrelation seq2 seq1 offset
      else crossCorrelation seq2 seq1 offset - crossCorrelation seq1 seq2 offset

/-- `compute_complementary_auto_correlations`, `matching.rs:159-166`. -/
def computeComplementaryAutoCorrelations (seq1 seq2 : List Int) : List Int :=
  (List.range' 1 (seq1.length / 2)).map fun offset =>
    -(periodicAutocorrelation seq1 offset + periodicAutocorrelation seq2 offset)

/-- `compute_complementary_cross_correlations`, `matching.rs:168-187`. -/
def computeComplementaryCrossCorrelations (seq1 seq2 : List Int) (tags : Tag × Tag) : Option (List Int) :=
  (crossSign tags).map fun pos =>
    (List.range' 1 (seq1.length / 2)).map fun offset =>
      -(if pos then crossCorrelation seq1 seq2 offset - crossCorrelation seq2 seq1 offset
        else crossCorrelation seq2 seq1 offset - crossCorrelation seq1 seq2 offset)

/-- `MatchData`, `matching.rs:10-14`. -/
structure MatchData where
  auto : List Int
  cross : List Int
  deriving DecidableEq, Repr

/-- `MatchData::from`, `matching.rs:19-21`. -/
def MatchData.from (seq1 seq2 : List Int) (tags : Tag × Tag) : Option MatchData :=
  (computeCrossCorrelations seq1 seq2 tags).map fun cross =>
    { auto := computeAutoCorrelationPair seq1 seq2, cross }

/-- Looks up the sequence carrying a tag, `matching.rs:193-228` (the last occurrence wins). -/
def findTagged (sequences : List (List Int)) (tags : List Tag) (t : Tag) : Option (List Int) :=
  (((List.zip tags sequences).filter fun p => p.1 = t).getLast?).map fun p => p.2

/-- The four sequences of one cross-correlation condition. -/
abbrev Four := List Int × List Int × List Int × List Int

/-- The two conditions that remain to be checked for a pairing, `matching.rs:232-243`. -/
def remainingConds (w x y z : List Int) : Tag × Tag → Option (Four × Four)
  | (.W, .X) | (.X, .W) | (.Z, .Y) | (.Y, .Z) => some ((z, w, x, y), (z, x, y, w))
  | (.W, .Y) | (.Y, .W) | (.Z, .X) | (.X, .Z) => some ((z, w, x, y), (z, y, w, x))
  | (.W, .Z) | (.Z, .W) | (.X, .Y) | (.Y, .X) => some ((z, x, y, w), (z, y, w, x))
  | _ => none

/-- One cross-correlation condition, `matching.rs:248-251`. -/
def crossCond (c : Four) (t : Nat) : Int :=
  crossCorrelation c.1 c.2.1 t - crossCorrelation c.2.1 c.1 t +
    crossCorrelation c.2.2.1 c.2.2.2 t - crossCorrelation c.2.2.2 c.2.2.1 t

/-- `verify_cross_correlation`, `matching.rs:191-257`, for four sequences with four tags; `none` is a panic. -/
def verifyCrossCorrelationTagged (seqs : Four) (tags : Tag × Tag × Tag × Tag) : Option Bool :=
  let ss := [seqs.1, seqs.2.1, seqs.2.2.1, seqs.2.2.2]
  let ts := [tags.1, tags.2.1, tags.2.2.1, tags.2.2.2]
  (findTagged ss ts .W).bind fun w =>
  (findTagged ss ts .X).bind fun x =>
  (findTagged ss ts .Y).bind fun y =>
  (findTagged ss ts .Z).bind fun z =>
  (remainingConds w x y z (tags.1, tags.2.1)).map fun c =>
    (List.range seqs.1.length).all fun t => crossCond c.1 t = 0 && crossCond c.2 t = 0

/-- The hash map of `generate_matching_table`, as an association list. -/
abbrev MatchTable := List (MatchData × List (List Int × List Int))

/-- Insertion of one pair, `matching.rs:272-275`: a new key is inserted with an *empty* list. -/
def tableInsert (table : MatchTable) (key : MatchData) (pair : List Int × List Int) : MatchTable :=
  match table with
  | [] => [(key, [])]
  | (k, l) :: rest => if k = key then (k, l ++ [pair]) :: rest else (k, l) :: tableInsert rest key pair

/-- `generate_matching_table`, `matching.rs:263-279`. -/
def generateMatchingTable {F : Type} (A : Fl F) (sequences1 sequences2 : List (List Int)) (tags : Tag × Tag) (p : Nat) :
    Option MatchTable :=
  (filteredCouples A sequences1 sequences2 (A.mul (A.lit 4 1) (A.ofInt p))).foldlM
    (fun table c => (MatchData.from c.1 c.2 tags).map fun key => tableInsert table key c) []

end Model
