import Verif.Model.Checked
import Verif.Model.Search
import Verif.Model.Graph

/-!
# Model: the debug assertions of the equivalence operations

The functions of `equivalence.rs` as in a debug build: with the overflow checks of `Model/Checked` and with the assertions
`debug_assert!(..verify(seqtype))`, which are skipped if the flag `symmetry_group` (here `sg`) is set. `none` is the panic.
-/

namespace Model.Asserted

/-- An operation whose new sequences are asserted to be of the type, e.g. `equivalence.rs:433-435`. The new sequences are
those after the first, which is the argument. -/
def onResults (ty : SeqType) (sg : Bool) (op : Checked.Op) : Checked.Op := fun s =>
  (op s).bind fun l => if sg || l.tail.all fun t => t.verify ty then some l else none

/-- An operation that asserts instead that its argument `seq` is of the type, once for every new sequence,
`equivalence.rs:577-579,593-595,623-625`. -/
def onArgument (ty : SeqType) (sg : Bool) (op : Checked.Op) : Checked.Op := fun s =>
  (op s).bind fun l => if sg || l.tail.all fun _ => s.verify ty then some l else none

/-- `equivalent_negate_swap`, `equivalence.rs:411-442`. -/
def equivalentNegateSwap (ty : SeqType) (sg : Bool) : Checked.Op := onResults ty sg Checked.equivalentNegateSwap

/-- `equivalent_reorder`, `equivalence.rs:445-466`. -/
def equivalentReorder (ty : SeqType) (sg : Bool) : Checked.Op := onResults ty sg (Checked.lift Model.equivalentReorder)

/-- `equivalent_double_reorder`, `equivalence.rs:469-497`. -/
def equivalentDoubleReorder (ty : SeqType) (sg : Bool) : Checked.Op :=
  onResults ty sg (Checked.lift Model.equivalentDoubleReorder)

/-- `equivalent_uniform_half_shift`, `equivalence.rs:500-528`. -/
def equivalentUniformHalfShift (ty : SeqType) (sg : Bool) : Checked.Op :=
  onResults ty sg (Checked.lift Model.equivalentUniformHalfShift)

/-- `equivalent_uniform_shift`, `equivalence.rs:531-552`. -/
def equivalentUniformShift (ty : SeqType) (sg : Bool) : Checked.Op :=
  onResults ty sg (Checked.lift Model.equivalentUniformShift)

/-- `equivalent_dual_half_shift`, `equivalence.rs:555-601`: the assertions examine `seq`, not the new sequence `s`. -/
def equivalentDualHalfShift (ty : SeqType) (sg : Bool) : Checked.Op :=
  onArgument ty sg (Checked.lift Model.equivalentDualHalfShift)

/-- `equivalent_single_half_shift`, `equivalence.rs:604-631`: the assertion examines `seq`, not the new sequence `s`. -/
def equivalentSingleHalfShift (ty : SeqType) (sg : Bool) : Checked.Op :=
  onArgument ty sg (Checked.lift Model.equivalentSingleHalfShift)

/-- `equivalent_reverse`, `equivalence.rs:634-652`. -/
def equivalentReverse (ty : SeqType) (sg : Bool) : Checked.Op := onResults ty sg (Checked.lift Model.equivalentReverse)

/-- `equivalent_negate`, `equivalence.rs:680-707`. -/
def equivalentNegate (ty : SeqType) (sg : Bool) : Checked.Op := onResults ty sg Checked.equivalentNegate

/-- `equivalent_double_negate`, `equivalence.rs:710-742`. -/
def equivalentDoubleNegate (ty : SeqType) (sg : Bool) : Checked.Op := onResults ty sg Checked.equivalentDoubleNegate

/-- `equivalent_alternated_negation`, `equivalence.rs:745-767`. -/
def equivalentAlternatedNegation (ty : SeqType) (sg : Bool) : Checked.Op :=
  onResults ty sg Checked.equivalentAlternatedNegation

/-- `equivalent_even_alternated_negation`, `equivalence.rs:770-796`. -/
def equivalentEvenAlternatedNegation (ty : SeqType) (sg : Bool) : Checked.Op :=
  onResults ty sg Checked.equivalentEvenAlternatedNegation

/-- `equivalent_automorphism`, `equivalence.rs:827-855`. -/
def equivalentAutomorphism (ty : SeqType) (sg : Bool) : Checked.Op := onResults ty sg Checked.equivalentAutomorphism

/-- `equivalent_disjoint_swaps`, `equivalence.rs:859-889`. -/
def equivalentDisjointSwaps (ty : SeqType) (sg : Bool) : Checked.Op :=
  onResults ty sg (Checked.lift Model.equivalentDisjointSwaps)

/-- `SequenceType::equivalences`, `symmetries.rs:22-30`, the operations called with the type and the flag. -/
def equivalences (ty : SeqType) (sg : Bool) : List Checked.Op :=
  match ty with
  | .quaternionType => [equivalentUniformShift ty sg, equivalentEvenAlternatedNegation ty sg, equivalentAutomorphism ty sg,
      equivalentNegateSwap ty sg, equivalentDualHalfShift ty sg]
  | .williamsonType => [equivalentNegate ty sg, equivalentUniformShift ty sg, equivalentReorder ty sg,
      equivalentEvenAlternatedNegation ty sg, equivalentAutomorphism ty sg, equivalentSingleHalfShift ty sg]
  | .williamson => [equivalentNegate ty sg, equivalentReorder ty sg, equivalentEvenAlternatedNegation ty sg,
      equivalentAutomorphism ty sg, equivalentSingleHalfShift ty sg]
  | _ => []

/-- The operation lists of `reduce_to_canonical_reps`, `find_unique.rs:191-195`. -/
def canonicalOps (ty : SeqType) (sg : Bool) : List Checked.Op :=
  match ty with
  | .quaternionType => [equivalentAutomorphism ty sg, equivalentEvenAlternatedNegation ty sg, equivalentUniformShift ty sg,
      equivalentDualHalfShift ty sg]
  | _ => [equivalentAutomorphism ty sg, equivalentEvenAlternatedNegation ty sg, equivalentUniformShift ty sg,
      equivalentUniformHalfShift ty sg]

/-- `generate_equivalence_class` as called by `generate_canonical_representative`, `generate_equivalent_quad_seqs` and
`QuadSeq::equivalent_to`: `equivalence.rs:145,256`, `williamson.rs:263`. -/
def generateEquivalenceClass (s : QuadSeq) (ty : SeqType) : Option (List QuadSeq) :=
  Checked.generateEquivalenceClass (equivalences ty false) s

/-- `generate_canonical_representative`, `equivalence.rs:144-153`. -/
def generateCanonicalRepresentative (s : QuadSeq) (ty : SeqType) : Option QuadSeq :=
  (generateEquivalenceClass s ty).map fun set => minFrom s set

/-- `generate_equivalent_quad_seqs`, `equivalence.rs:247-263`. -/
def generateEquivalentQuadSeqs (l : List QuadSeq) (ty : SeqType) : Option (List QuadSeq) :=
  l.foldlM (fun result q =>
    if q ∈ result then some result else (generateEquivalenceClass q ty).map fun c => (result ++ c).dedup) []

/-- The classes collected by `reduce_to_equivalence`, `find_unique.rs:163-178`, with
`debug_assert_eq!(new_class, generate_equivalence_class(..))` (equality of sets). -/
def collectClasses (ops : Bool → List Checked.Op) (g : List QuadSeq) (sequences : List QuadSeq) :
    Option (List (List QuadSeq)) :=
  sequences.foldlM (fun classes s =>
    if classes.any fun c => decide (s ∈ c) then some classes
    else (Checked.generateEquivalenceClassFast s g).bind fun c =>
      (Checked.generateEquivalenceClass (ops false) s).bind fun d =>
        if (c.all fun t => decide (t ∈ d)) && (d.all fun t => decide (t ∈ c)) then some (classes ++ [c]) else none) []

/-- `reduce_to_equivalence`, `find_unique.rs:160-187`; the operations are given the flag when they are called. -/
def reduceToEquivalence (sequences : List QuadSeq) (ops : Bool → List Checked.Op) : Option (List QuadSeq) :=
  match sequences with
  | [] => none
  | s0 :: _ =>
    (Checked.generateSymmetryGroup s0.size (ops true)).bind fun g =>
      (collectClasses ops g sequences).bind fun classes => classes.mapM findMinimum

/-- The classes collected by `find`, `find_unique.rs:62-76`. -/
def findClasses (sequences : List QuadSeq) : Option (List (List QuadSeq)) :=
  sequences.foldlM (fun classes s =>
    if classes.any fun c => decide (s ∈ c) then some classes
    else (generateEquivalenceClass s .quaternionType).map fun c => classes ++ [c]) []

/-- `find`, `find_unique.rs:56-91`. -/
def findUnique (size : Nat) : Option Text :=
  (findAux size).bind fun sequences => (findClasses sequences).bind fun classes =>
    (classes.mapM fun (c : List QuadSeq) => c.mapM fun (e : QuadSeq) => e.toQs.bind fun q => if q.isPerfect then q.toStringRaw else none).bind
      fun _ =>
        (classes.mapM findMinimum).bind fun mins =>
          (mins.mapM fun (w : QuadSeq) => w.toQs.bind QS.toStringRaw).map fun ls =>
            ls.foldl (fun s t => s ++ t ++ ['\n']) []

/-- `qhm_write_all`, `main.rs:212-238`. -/
def qhmWriteAll (order : List QuadSeq → List QuadSeq) (ty : SeqType) (t : Text) : Option Text :=
  ((readLines t).mapM fun line => (QS.fromStr line).bind QuadSeq.fromPqs).bind fun qts =>
    (generateEquivalentQuadSeqs qts ty).bind fun equ =>
      ((order equ).mapM fun (seq : QuadSeq) => seq.toQs.bind fun qs => (QHM.fromPqs qs).dephased.toString.map fun s =>
        s ++ ['\n', '\n']).map List.flatten

/-- `half_shift`, `equivalence.rs:798-806`, with `debug_assert!(n % 2 == 0)`. -/
def halfShift (seq : List Int) : Option (List Int) := if seq.length % 2 = 0 then some (Model.halfShift seq) else none

/-- The expansion of Williamson-type representatives, `main.rs:126-147`. -/
def expandWts (i : Nat) (result : List QuadSeq) : Option (List QuadSeq) :=
  (result.mapM fun q => (Checked.negated q.a).bind fun w =>
    if i % 2 = 0 then
      (halfShift q.a).bind fun h => (halfShift q.a).bind fun h' => (Checked.negated h').map fun nh =>
        [q.setSequence w .W, q.setSequence h .W, q.setSequence nh .W]
    else some [q.setSequence w .W]).map fun l => result ++ l.flatten

end Model.Asserted
