import Verif.Props.RepoTests
import Verif.Model.Mum
import Verif.Props.Equations

/-!
# The assertions of the repository's unit tests, evaluated in the model

Every `assert` of `rust/src/tests` on concrete inputs, and every output given there in a comment, as an `example` about the
model; `#guard` where the kernel would take too long (the interpreter evaluates the model, nothing is proved). These are checks of the model against the expectations of the authors, not proofs of properties; assertions about
files that are not in the repository (`reduce_equiv`, `test_prop_5`, `test_wts_qts`) have no counterpart here (their general
content is `C94_order`, `C94_prop5` and `C04`, `C09`).
-/

namespace Props
open Model Spec Proofs

/-- A quadruple built as the tests do: `QuadSeq::new(n)` and `set_all_values`. -/
def quad (n : ℕ) (a b c d : List ℤ) : QuadSeq := (QuadSeq.new n).setAllValues a b c d

/-! ## `test_equivalence.rs` -/

-- check_equiv_four, lines 12-49
def t4a := quad 4 [-1,-1,-1,1] [-1,-1,-1,1] [-1,-1,-1,1] [-1,-1,-1,1]
def t4b := quad 4 [1,-1,-1,-1] [1,-1,-1,-1] [1,-1,-1,-1] [1,-1,-1,-1]
def t4c := quad 4 [1,1,1,1] [-1,1,-1,1] [1,1,-1,-1] [-1,1,1,-1]
example : t4a.verify .quaternionType = true ∧ t4b.verify .quaternionType = true ∧ t4c.verify .quaternionType = false := by
  decide
#guard equiv t4a t4b .quaternionType = some true

-- check_equiv_five, lines 51-78
def t5a := quad 5 [1,-1,-1,-1,-1] [1,-1,-1,-1,-1] [-1,-1,1,1,-1] [1,-1,1,1,-1]
def t5b := quad 5 [1,1,-1,-1,1] [-1,1,-1,-1,1] [-1,1,1,1,1] [-1,1,1,1,1]
example : t5a.verify .quaternionType = true ∧ t5b.verify .quaternionType = true := by decide
#guard equiv t5a t5b .quaternionType = some true

-- check_equiv_seven, lines 80-155
def t7a := quad 7 [1,-1,-1,-1,-1,-1,-1] [-1,-1,1,1,1,1,-1] [-1,1,1,-1,-1,1,1] [-1,1,-1,1,1,-1,1]
def t7b := quad 7 [-1,-1,-1,-1,-1,1,1] [-1,-1,-1,-1,-1,1,1] [-1,1,-1,1,-1,1,1] [-1,1,1,1,-1,1,1]
def t7c := quad 7 [1,1,-1,-1,1,1,-1] [-1,1,-1,-1,1,-1,1] [-1,1,1,1,1,-1,-1] [-1,-1,-1,-1,-1,-1,1]
def t7d := quad 7 [-1,1,1,1,1,1,1] [-1,-1,1,1,1,1,-1] [-1,1,1,-1,-1,1,1] [-1,1,-1,1,1,-1,1]
def t7e := quad 7 [1,1,1,1,1,1,-1] [-1,1,1,1,1,-1,-1] [1,-1,1,1,-1,1,-1] [1,1,-1,-1,1,1,-1]
example : ∀ s ∈ [t7a, t7b, t7c, t7d, t7e], s.verify .quaternionType = true := by decide
#guard equiv t7a t7b .quaternionType = some false
#guard equiv t7a t7c .quaternionType = some true
#guard equiv t7a t7d .quaternionType = some false
#guard equiv t7b t7c .quaternionType = some false
#guard equiv t7b t7d .quaternionType = some false
#guard equiv t7c t7d .quaternionType = some false
#guard equiv t7a t7e .quaternionType = some true
#guard equiv t7a t7b .williamsonType = some false
#guard equiv t7a t7c .williamsonType = some true
#guard equiv t7a t7d .williamsonType = some true
#guard equiv t7b t7c .williamsonType = some false
#guard equiv t7b t7d .williamsonType = some false
#guard equiv t7c t7d .williamsonType = some true
#guard equiv t7a t7e .williamsonType = some true

-- check_equiv_eight, lines 157-203
def t8a := quad 8 [-1,-1,-1,1,-1,1,-1,-1] [-1,-1,-1,1,-1,1,-1,-1] [1,-1,-1,1,1,1,-1,-1] [1,-1,-1,1,1,1,-1,-1]
def t8b := quad 8 [-1,-1,-1,-1,1,1,1,1] [-1,-1,-1,1,-1,-1,-1,1] [-1,-1,-1,1,-1,-1,-1,1] [-1,1,1,-1,1,-1,-1,1]
def t8c := quad 8 [-1,-1,-1,-1,1,1,1,1] [-1,-1,-1,1,-1,-1,-1,1] [-1,1,-1,-1,-1,1,-1,-1] [-1,1,1,-1,1,-1,-1,1]
example : ∀ s ∈ [t8a, t8b, t8c], s.verify .quaternionType = true := by decide

-- equ_runtimes, lines 266-275: the size field is 3, the sequences have length 13
example : (quad 3 [-1,-1,-1,-1,-1,-1,-1,-1,1,1,-1,1,1] [-1,-1,1,1,1,1,-1,-1,-1,1,-1,1,-1] [-1,1,-1,1,1,-1,1,-1,1,1,1,1,1]
    [1,-1,-1,1,1,-1,-1,1,1,-1,1,-1,1]).verify .quaternionType = true := by decide

-- test_equiv, lines 384-406
def t3 := quad 3 [-1,-1,-1] [-1,-1,1] [-1,-1,1] [-1,-1,1]
example : ∃ G c d, generateSymmetryGroup 3 (equivalences .quaternionType) = some G ∧
    generateEquivalenceClassFast t3 G = some c ∧ generateEquivalenceClass (equivalences .quaternionType) t3 = some d ∧
    c.Nodup ∧ d.Nodup ∧ ∀ t, t ∈ c ↔ t ∈ d :=
  C12_fast_eq 3 (by norm_num) (equivalences .quaternionType) (equivalences_sub .quaternionType) t3 (by decide)

-- test_disjoint_swap, lines 408-427
example : t3.verify .quaternionType = true ∧ (equivalentDisjointSwaps t3).dedup.length = 4 := by decide

-- test_coprime, lines 429-436
example : coprime 5 7 = true ∧ coprime 16 12 = false ∧ coprime 42 15 = false ∧ coprime 33 28 = true ∧
    coprime 12 11 = true := by decide

-- equ_reorder, lines 444-461; equ_perm, 605-625; test_class, 627-644
def t7f := quad 7 [-1,1,1,-1,1,1,1] [-1,1,1,-1,-1,-1,-1] [-1,1,1,-1,-1,-1,-1] [-1,1,1,-1,1,-1,1]
example : (equivalentDoubleReorder t7f).dedup.length = 12 := by decide +kernel
example : ∀ s ∈ equivalentDoubleReorder t7f, (s.toQs.map QS.isPerfect) = some true := by decide +kernel
example : ∀ s ∈ equivalentAutomorphism t7f, (s.toQs.map QS.isPerfect) = some true := by decide +kernel
example : ∃ c, generateEquivalenceClass (equivalences .quaternionType) t7f = some c ∧ t7f ∈ c ∧
    (∀ t ∈ c, ∀ op ∈ equivalences .quaternionType, ∀ u ∈ op t, u ∈ c) ∧
    ∀ t ∈ c, t.verify .quaternionType = true ∧ ∃ q, t.toQs = some q ∧ q.isPerfect = true :=
  C94_class 7 (by norm_num) _ (by simp [equivalences, keepingOps]) t7f ((C08_verify_qts 7 _ (by decide)).1 (by decide))

-- equ_shift, equ_negate, lines 464-506
def t10 := quad 10 [1,-1,-1,-1,1,1,-1,1,-1,1] [-1,1,1,1,-1,1,-1,-1,-1,1] [1,1,1,1,1,-1,-1,1,-1,-1] [1,1,-1,1,1,1,1,-1,1,1]
example : (equivalentUniformShift t10).dedup.length = 10 ∧ (equivalentDoubleNegate t10).dedup.length = 7 := by decide +kernel
example : ∀ s ∈ equivalentUniformShift t10 ++ equivalentDoubleNegate t10, (s.toQs.map QS.isPerfect) = some true := by
  decide +kernel

-- equ_negate_swap, lines 508-531
def t3n := quad 3 [-1,-1,-1] [-1,-1,1] [-1,-1,1] [1,1,-1]
example : ∃ c, generateEquivalenceClass [equivalentNegateSwap] t3n = some c ∧ t3n ∈ c ∧
    (∀ t ∈ c, ∀ op ∈ [equivalentNegateSwap], ∀ u ∈ op t, u ∈ c) ∧
    ∀ t ∈ c, t.verify .quaternionType = true ∧ ∃ q, t.toQs = some q ∧ q.isPerfect = true :=
  C94_class 3 (by norm_num) _ (by simp [keepingOps]) t3n ((C08_verify_qts 3 _ (by decide)).1 (by decide))

-- equ_alt_negate, lines 533-551
def t8d := quad 8 [-1,-1,1,-1,-1,1,1,1] [-1,-1,-1,-1,-1,1,-1,1] [-1,-1,-1,-1,-1,1,-1,1] [-1,-1,1,-1,-1,1,1,1]
example : (equivalentEvenAlternatedNegation t8d).dedup.length = 2 ∧
    ∀ s ∈ equivalentEvenAlternatedNegation t8d, (s.toQs.map QS.isPerfect) = some true := by decide +kernel

/-! ## `test_matching.rs` -/

-- test_sort, lines 7-22
example : sortQuad (5, 3, 1, 2) = ([5, 3, 2, 1], [0, 1, 3, 2]) ∧ sortQuad (2, 6, 4, 7) = ([7, 6, 4, 2], [3, 1, 2, 0]) ∧
    sortQuad (2, 6, 4, 1) = ([6, 4, 2, 1], [1, 2, 0, 3]) := by decide

-- test_verify_crossc, lines 24-48
def sx : List ℤ := [1,-1,-1,-1,1,1,-1,1,-1,1]
def sy : List ℤ := [-1,1,1,1,-1,1,-1,-1,-1,1]
def sz : List ℤ := [1,1,1,1,1,-1,-1,1,-1,-1]
def sw : List ℤ := [1,1,-1,1,1,1,1,-1,1,1]
def sw' : List ℤ := [1,1,-1,1,1,1,1,-1,-1,1]
example : verifyCrossCorrelationTagged (sx, sy, sz, sw) (.X, .Y, .Z, .W) = some true ∧
    verifyCrossCorrelationTagged (sx, sz, sw, sy) (.X, .Z, .W, .Y) = some true ∧
    verifyCrossCorrelationTagged (sz, sx, sw, sy) (.Z, .X, .W, .Y) = some true ∧
    verifyCrossCorrelationTagged (sz, sx, sw', sy) (.Z, .X, .W, .Y) = some false := by decide +kernel

-- test_autocorrelation, lines 50-59
example : computeAutoCorrelationPair sx sy = computeComplementaryAutoCorrelations sz sw ∧
    computeAutoCorrelationPair sw sy = computeComplementaryAutoCorrelations sz sx := by decide +kernel

-- test_crosscorrelation, lines 128-137; the values of test_crosscorrelation_dft, lines 139-166
example : computeCrossCorrelations sx sy (.X, .Y) = computeComplementaryCrossCorrelations sz sw (.Z, .W) ∧
    computeCrossCorrelations sw sy (.W, .Y) = computeComplementaryCrossCorrelations sz sx (.Z, .X) := by decide +kernel
example : computeCrossCorrelations sx sy (.X, .Y) = some [0, 0, 0, 0, 0] ∧
    computeCrossCorrelations sx sz (.X, .Z) = some [0, 0, 0, 0, 0] ∧
    computeCrossCorrelations sx sw (.X, .W) = some [0, 0, 0, 0, 0] ∧
    computeCrossCorrelations sw sy (.W, .Y) = some [0, 0, 0, 0, 0] := by decide +kernel

-- test_autocorrelation_dft, test_crosscorrelation_dft: in exact arithmetic, and (C74) in every precise enough one
example (tags : Tag × Tag) : computeAutoCorrelationPairDft exactFl ((dftSequence exactFl sx).map exactFl.normSqr) 10
      ((dftSequence exactFl sy).map exactFl.normSqr) 10 = computeAutoCorrelationPair sx sy ∧
    computeCrossCorrelationsDft exactFl (dftSequence exactFl sx) (dftSequence exactFl sy) tags 10 =
      computeCrossCorrelations sx sy tags :=
  ⟨C28_auto_pair exactFl id 10 Fourier.exact_accurate sx sy (by decide) (by decide),
    C28_cross exactFl id 10 Fourier.exact_accurate sx sy (by decide) (by decide) tags⟩

/-! ## `test_matrices.rs` -/

-- qhmtest, lines 9-15
example : ((QS.fromStr "+JJ+x".toList).map fun q => (QHM.fromPqs q).verify) = some true := by decide +kernel
-- test_qts_from_hm, lines 17-31
example : ((HM.fromWilliamson t3 .quaternionType).map HM.getQts) = some t3 := by decide +kernel
-- matrix_from_seq, matrix_op, lines 54-81
example : (HM.fromSequence [1,-1,-1,1,-1]).verify = false := by decide +kernel
-- matrix_from_will, lines 83-99
def t3w := quad 3 [-1,-1,1] [-1,-1,1] [-1,-1,1] [-1,-1,-1]
example : t3w.verify .quaternionType = true ∧ ((HM.fromWilliamson t3w .quaternionType).map HM.verify) = some true := by
  decide +kernel

/-! ## `test_product.rs` -/

-- test_sequence_product, lines 6-32: lengths 7 and 10
#guard (((t7f.toQs).bind fun q1 => (t10.toQs).bind fun q2 => sequenceProduct q1 q2).map QS.isPerfect) = some true
-- test_different_products, lines 75-100: the comment naming the first sequence is right, the second sequence is
-- `+JiQ`, which is not perfect, and not the perfect `+YIQ` of the comment
#guard (t3.toQs.bind QS.toString) = some "[++Q]".toList
#guard ((quad 4 [-1,-1,1,-1] [-1,-1,-1,1] [-1,1,-1,1] [-1,1,1,1]).toQs.bind QS.toString) = some "[+JiQ]".toList
#guard ["+YIQ", "+JiQ"].map (fun t => (QS.fromStr t.toList).map QS.isPerfect) = [some true, some false]

/-! ## `test_rowsum.rs` -/

-- test_prop_5, lines 7-45
example : hasSortedRowsums (quad 6 [-1,-1,-1,1,1,1] [-1,-1,1,1,1,1] [-1,1,1,1,1,1] [1,1,1,1,1,1]) = true ∧
    hasSortedRowsums (quad 6 [-1,-1,1,1,1,1] [-1,-1,1,1,1,1] [-1,1,1,1,1,1] [-1,-1,-1,-1,-1,-1]) = false ∧
    hasSortedRowsums (quad 6 [-1,-1,1,1,1,1] [-1,-1,1,1,1,1] [-1,1,1,1,1,1] [1,1,1,1,1,1]) = true := by decide
-- test_rowsum, lines 96-104
example : rowsum (List.replicate 18 1) = 18 ∧ rowsum [1,-1,-1,-1,1,-1,1,1,-1,-1,1,1] = 0 := by decide
-- test_generate_sequence, lines 112-122
example : ∀ p ∈ [(4, 3), (6, 4), (2, 1), (4, 0), (7, 3)],
    (genSeqRec (p.1 + 1) (List.replicate p.1 (-1)) p.2 0).1.length = p.1.choose p.2 := by decide
-- test_rowsum_generate, lines 125-137
example : (generateSequencesWithRowsum 2 4).length = Nat.choose 4 3 ∧
    (generateSequencesWithRowsum 4 6).length = Nat.choose 6 5 ∧ (generateSequencesWithRowsum (-3) 7).length = Nat.choose 7 2 ∧
    (generateSequencesWithRowsum 0 4).length = Nat.choose 4 2 ∧ (generateSequencesWithRowsum 4 3).length = 0 := by decide
-- test_four_squares, lines 140-152
#guard sumOfFourSquares (4 * 19) = some [(0,2,6,6), (1,1,5,7), (1,5,5,5), (2,2,2,8), (3,3,3,7)]
-- test_possible_rowsums, lines 190-198
#guard generateRowsums 17 .quaternionType = some [(1,3,3,7), (3,3,5,5)]
-- test_rowsum_gen, lines 84-93
#guard (List.range' 1 22).all fun p => (generateRowsums p .quaternionType).elim false fun l =>
  l.all fun rs => rs.1 * rs.1 + rs.2.1 * rs.2.1 + rs.2.2.1 * rs.2.2.1 + rs.2.2.2 * rs.2.2.2 = 4 * (p : ℤ)

/-! ## `test_sequence.rs` -/

def setAll (q : QS) (l : List Quat) : Option QS :=
  (l.zipIdx).foldlM (fun q v => q.setValue v.1 v.2) q

-- test_instance, lines 8-18
example : ((setAll (QS.new 24 none) Q24).bind QS.toString) = some "[+-iIjJkKqQxXyYzZsSuUvVwW]".toList := by decide +kernel
-- test_correlation, lines 20-45
def q5 : QS := { QS.new 5 none with values := [(QPLUS.getD 5 Q0), (QPLUS.getD 0 Q0), (QPLUS.getD 8 Q0), (QPLUS.getD 0 Q0), (QPLUS.getD 5 Q0)] }
def q6 : QS := { QS.new 6 none with values := [QI, -QQ, -QI, -QI, -QQ, QI] }
example : (QS.new 5 none).periodicAutocorrelation 4 = Q1.smul 5 ∧ (QS.new 5 none).oddPeriodicAutocorrelation 3 = -Q1 ∧
    q5.oddPeriodicAutocorrelation 1 = Q0 ∧ q5.oddPeriodicAutocorrelation 3 = Q0 ∧
    (QS.new 6 none).periodicAutocorrelation 1 = Q1.smul 6 ∧ (QS.new 6 none).oddPeriodicAutocorrelation 3 = Q0 ∧
    q6.oddPeriodicAutocorrelation 2 = Q0 ∧ q6.oddPeriodicAutocorrelation 4 = Q0 := by decide +kernel
-- test_perfection, test_perf_aux, lines 48-80
example : (QS.new 5 none).isPerfect = false ∧ q5.isOddPerfect = true ∧ (QS.new 6 none).isPerfect = false ∧
    q6.isOddPerfect = true ∧ ({ QS.new 6 none with
      values := [(QPLUS.getD 1 Q0), (QPLUS.getD 5 Q0), (QPLUS.getD 15 Q0), (QPLUS.getD 5 Q0), (QPLUS.getD 1 Q0), (QPLUS.getD 10 Q0)] } : QS).isPerfect = true := by
  decide +kernel
-- test_symmetric, lines 82-95
example : (QS.new 5 none).isSymmetric = true ∧
    ({ QS.new 5 none with values := [(QPLUS.getD 8 Q0), (QPLUS.getD 5 Q0), (QPLUS.getD 0 Q0), (QPLUS.getD 0 Q0), (QPLUS.getD 5 Q0)] } : QS).isSymmetric = true ∧
    ({ QS.new 5 none with values := [(QPLUS.getD 8 Q0), (QPLUS.getD 5 Q0), (QPLUS.getD 7 Q0), (QPLUS.getD 0 Q0), (QPLUS.getD 5 Q0)] } : QS).isSymmetric = false := by
  decide +kernel

/-! ## `test_williamson.rs` -/

def setQuads (s : QuadSeq) (l : List ℕ) : QuadSeq :=
  l.zipIdx.foldl (fun s v => s.setSequenceValue (QUADRUPLETS[v.1]!) v.2) s

-- test_conversion, lines 6-16
example : ((setQuads (QuadSeq.new 16) (List.range 16)).toQs.bind QS.toString) = some "[+-iIjJkKqQxXyYzZ]".toList := by
  decide +kernel
-- test_correlation, lines 18-43
example : periodicAutocorrelation [1,1,-1,1,1,-1,1] 0 = 7 ∧ periodicAutocorrelation [1,1,-1,1,1,-1,1] 2 = -1 ∧
    crossCorrelation [1,1,-1,1,1,-1,1] [1,-1,1,1,-1,1,-1] 1 = 5 ∧ crossCorrelation [1,1,-1,1,1,-1,1] [1,-1,1,1,-1,1,-1] 2 = -3 ∧
    periodicAutocorrelation [1,1,-1,1,1,-1] 0 = 6 ∧ periodicAutocorrelation [1,1,-1,1,1,-1] 2 = -2 ∧
    crossCorrelation [1,1,-1,1,1,-1] [1,-1,1,1,-1,1] 1 = 6 ∧ crossCorrelation [1,1,-1,1,1,-1] [1,-1,1,1,-1,1] 2 = -2 := by
  decide
-- test_periodic_complementary, lines 47-69
example : (QuadSeq.new 2).isPeriodicComplementary = false ∧ (setQuads (QuadSeq.new 2) [0, 5]).isPeriodicComplementary = true ∧
    (QuadSeq.new 4).isPeriodicComplementary = false ∧
    (setQuads (QuadSeq.new 4) [0, 0, 1, 0]).isPeriodicComplementary = true := by decide
-- test_symmetric, test_amicable, lines 72-104
example : (QuadSeq.new 4).isSymmetric = true ∧ (setQuads (QuadSeq.new 4) [0, 0, 15, 0]).isSymmetric = true ∧
    ((setQuads (QuadSeq.new 4) [0, 0, 15, 0]).setSequenceValue QUADRUPLETS[3]! 3).isSymmetric = false ∧
    (QuadSeq.new 4).isAmicable = true ∧ (setQuads (QuadSeq.new 4) [0, 0, 15, 0]).isAmicable = true ∧
    ((setQuads (QuadSeq.new 4) [0, 0, 15, 0]).setSequenceValue QUADRUPLETS[3]! 3).isAmicable = false := by decide
-- test_williamson_type, lines 157-169
example : ((quad 8 [-1,-1,-1,1,1,-1,1,1] [-1,-1,-1,-1,1,-1,1,-1] [-1,-1,-1,-1,1,-1,1,-1] [-1,-1,-1,1,1,-1,1,1]).toQs.map
    QS.isPerfect) = some true := by decide +kernel

/-! ## `test_equation.rs`: the output described in comments -/

-- test_single_gen, lines 10-27
example : (linearEquation [1,1,1,-1,-1,1,-1,1,1,0,0,1,0,1] 5).map Equation.text =
    ["1 x1 +1 x2 +1 x3 -1 x4 -1 x5 +1 x6 -1 x7 +1 x8 +1 x9 +1 x12 +1 x14 = 5;\n".toList] ∧
    linearEquation [0,0,0,0,0,0] 5 = [] ∧
    (linearEquation [1,-1,-1,-1,-2,-3,4,2,5,9,10] 12).map Equation.text =
      ["1 x1 -1 x2 -1 x3 -1 x4 -2 x5 -3 x6 +4 x7 +2 x8 +5 x9 +9 x10 +10 x11 = 12;\n".toList] := by decide +kernel

end Props
