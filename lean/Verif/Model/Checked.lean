import Verif.Model.FindUnique
import Verif.Model.Matrices

/-!
# Model: 8-bit arithmetic in a debug build

`cargo build --release` (all the scripts in `/repo/rust/*.sh`) compiles without overflow checks, and the other model files
use wrapping arithmetic. `cargo test` and a plain `cargo build` compile with overflow checks: an `i8` operation whose
result does not fit panics (`rust/Cargo.toml` sets no profile). This file models the functions that compute with `i8`
once more, with `none` for such a panic. Conversions `x as i8` and `x as usize` are never checked. The functions are the
same otherwise, and the citations are those of the wrapping versions.
-/

namespace Model.Checked

open Model

/-- An `i8` result: `none` if it does not fit. -/
def ck8 (x : Int) : Option Int := if -128 ≤ x ∧ x ≤ 127 then some x else none

/-- `-x`. -/
def neg8 (x : Int) : Option Int := ck8 (-x)

/-- `x * y`. -/
def mul8 (x y : Int) : Option Int := ck8 (x * y)

/-- `x + y`. -/
def add8 (x y : Int) : Option Int := ck8 (x + y)

/-- `x - y`. -/
def sub8 (x y : Int) : Option Int := ck8 (x - y)

/-- `i8::abs`: panics on `-128`. -/
def abs8 (x : Int) : Option Int := if x < 0 then neg8 x else some x

/-- `x - 1` on `usize`: panics on 0. -/
def predUsize (x : Nat) : Option Nat := if x = 0 then none else some (x - 1)

/-- A vector written index by index by a function that may panic. -/
def tab (n : Nat) (f : Nat → Option Int) : Option (List Int) := (List.range n).mapM f

/-! ## Correlations -/

/-- `let mut res = 0; for i in 0..n { res += f(i) as isize }`. -/
def sumTo (n : Nat) (f : Nat → Option Int) : Option Int :=
  (List.range n).foldlM (fun acc i => (f i).map fun x => acc + x) 0

/-- `periodic_autocorrelation`, `williamson.rs:301-310`: the product is an `i8` product, the sum is an `isize`. -/
def periodicAutocorrelation (seq : List Int) (offset : Nat) : Option Int :=
  sumTo seq.length fun i => mul8 (at0 seq i) (at0 seq ((i + offset) % seq.length))

/-- `cross_correlation`, `williamson.rs:313-324`. -/
def crossCorrelation (seq1 seq2 : List Int) (offset : Nat) : Option Int :=
  sumTo seq1.length fun i => mul8 (at0 seq1 i) (at0 seq2 ((i + seq1.length - offset) % seq1.length))

/-! ## Equivalence operations -/

/-- `negated`, `equivalence.rs:656-662`. -/
def negated (seq : List Int) : Option (List Int) := tab seq.length fun i => neg8 (at0 seq i)

/-- `alt_negated`, `equivalence.rs:664-677`. -/
def altNegated (seq : List Int) (frequency : Nat) : Option (List Int) :=
  tab seq.length fun i => if i % frequency = frequency - 1 then neg8 (at0 seq i) else some (at0 seq i)

/-- Four sequences transformed by the same function. -/
def mapAll (s : QuadSeq) (f : List Int → Option (List Int)) : Option QuadSeq :=
  (f s.a).bind fun a => (f s.b).bind fun b => (f s.c).bind fun c => (f s.d).map fun d =>
    (QuadSeq.new s.size).setAllValues a b c d

/-- One sequence negated, in place. -/
def negateAt (s : QuadSeq) (t : Tag) : Option QuadSeq := (negated (s.sequence t)).map fun l => s.setSequence l t

/-- A sequence, negated if the condition holds. -/
def negateIf (p : Bool) (l : List Int) : Option (List Int) := if p then negated l else some l

/-- An equivalence operation that may panic. -/
abbrev Op := QuadSeq → Option (List QuadSeq)

/-- An operation without arithmetic on entries. -/
def lift (op : Model.Op) : Op := fun s => some (op s)

/-- `equivalent_negate_swap`, `equivalence.rs:411-442`. -/
def equivalentNegateSwap : Op := fun s =>
  ((couples.flatMap fun c => tags.map fun t => (c, t)).mapM fun p =>
    (negateAt s p.2).map fun r => swapTags r p.1).map fun l => s :: l

/-- `equivalent_negate`, `equivalence.rs:680-707`. -/
def equivalentNegate : Op := fun s =>
  (tags.mapM fun t =>
    (negateIf (t = .W) s.a).bind fun a => (negateIf (t = .X) s.b).bind fun b =>
      (negateIf (t = .Y) s.c).bind fun c => (negateIf (t = .Z) s.d).map fun d =>
        (QuadSeq.new s.size).setAllValues a b c d).map fun l => s :: l

/-- `equivalent_double_negate`, `equivalence.rs:710-742`. -/
def equivalentDoubleNegate : Op := fun s =>
  (couples.mapM fun p =>
    (negateIf (p.1 = .W ∨ p.2 = .W) s.a).bind fun a => (negateIf (p.1 = .X ∨ p.2 = .X) s.b).bind fun b =>
      (negateIf (p.1 = .Y ∨ p.2 = .Y) s.c).bind fun c => (negateIf (p.1 = .Z ∨ p.2 = .Z) s.d).map fun d =>
        (QuadSeq.new s.size).setAllValues a b c d).map fun l => s :: l

/-- `equivalent_alternated_negation`, `equivalence.rs:745-767`. -/
def equivalentAlternatedNegation : Op := fun s => (mapAll s fun l => altNegated l 2).map fun r => [s, r]

/-- `equivalent_even_alternated_negation`, `equivalence.rs:770-796`. -/
def equivalentEvenAlternatedNegation : Op := fun s =>
  if s.size % 2 = 1 then some [s] else (mapAll s fun l => altNegated l 2).map fun r => [s, r]

/-- `equivalent_automorphism`, `equivalence.rs:827-855`: the index `COPRIMES[size]` panics from size 101 on. -/
def equivalentAutomorphism : Op := fun s => if s.size ≤ 100 then some (Model.equivalentAutomorphism s) else none

/-- `SequenceType::equivalences`, `symmetries.rs:22-30`. -/
def equivalences : SeqType → List Op
  | .quaternionType => [lift equivalentUniformShift, equivalentEvenAlternatedNegation, equivalentAutomorphism,
      equivalentNegateSwap, lift equivalentDualHalfShift]
  | .williamsonType => [equivalentNegate, lift equivalentUniformShift, lift equivalentReorder,
      equivalentEvenAlternatedNegation, equivalentAutomorphism, lift equivalentSingleHalfShift]
  | .williamson => [equivalentNegate, lift equivalentReorder, equivalentEvenAlternatedNegation,
      equivalentAutomorphism, lift equivalentSingleHalfShift]
  | _ => []

/-- The operation lists used by `reduce_to_canonical_reps`, `find_unique.rs:191-195`. -/
def canonicalOps : SeqType → List Op
  | .quaternionType => [equivalentAutomorphism, equivalentEvenAlternatedNegation, lift equivalentUniformShift,
      lift equivalentDualHalfShift]
  | _ => [equivalentAutomorphism, equivalentEvenAlternatedNegation, lift equivalentUniformShift,
      lift equivalentUniformHalfShift]

/-! ## Equivalence classes -/

/-- The set `new` of one iteration, `equivalence.rs:165-175`. -/
def classNew (ops : List Op) (cls : List QuadSeq) : Option (List QuadSeq) :=
  (cls.mapM fun s => ops.mapM fun (f : Op) => f s).map fun l =>
    ((l.flatMap fun r => r.flatten).filter fun t => t ∉ cls).dedup

/-- The loop of `generate_equivalence_class`, `equivalence.rs:164-184`. -/
def classLoop (ops : List Op) : Nat → List QuadSeq → Option (List QuadSeq)
  | 0, _ => none
  | fuel + 1, cls => (classNew ops cls).bind fun new =>
    if new.length = 0 then some cls else classLoop ops fuel (cls ++ new)

/-- `generate_equivalence_class`, `equivalence.rs:158-187`. -/
def generateEquivalenceClass (ops : List Op) (s : QuadSeq) : Option (List QuadSeq) :=
  classLoop ops (classFuel s) [s]

/-- `generate_symmetry_group`, `equivalence.rs:190-200` (the labels are made with `as i8`). -/
def generateSymmetryGroup (len : Nat) (ops : List Op) : Option (List QuadSeq) :=
  generateEquivalenceClass ops (labelSeq len)

/-- `tag_ind`, `equivalence.rs:214`. -/
def labelTag (n : Nat) (elm : Int) : Option Nat :=
  (abs8 elm).bind fun x => (sub8 x 1).bind fun y => (predUsize (asUsize x)).bind fun z =>
    (sub8 y (wrap8 ((z % n : Nat) : Int))).map fun d => asUsize d / n

/-- `seq_ind`, `equivalence.rs:224`. -/
def labelIdx (n : Nat) (elm : Int) : Option Nat :=
  (abs8 elm).bind fun x => (sub8 x 1).map fun y => asUsize y % n

/-- The body of the inner loop of `generate_equivalence_class_fast`, `equivalence.rs:212-232`. -/
def applyLabel (s : QuadSeq) (elm : Int) : Option Int :=
  (labelTag s.size elm).bind fun t => (labelSub s t).bind fun l => (labelIdx s.size elm).bind fun i =>
    if elm < 0 then neg8 (at0 l i) else some (at0 l i)

/-- One symmetry applied to a sequence, `equivalence.rs:207-239`. -/
def applySymmetry (s g : QuadSeq) : Option QuadSeq :=
  ((g.a ++ g.b ++ g.c ++ g.d).mapM (applyLabel s)).map fun r =>
    let n := s.size
    { size := n, a := r.take n, b := (r.drop n).take n, c := (r.drop (2 * n)).take n,
      d := (r.drop (3 * n)).take n }

/-- `generate_equivalence_class_fast`, `equivalence.rs:203-243`. -/
def generateEquivalenceClassFast (s : QuadSeq) (symmetries : List QuadSeq) : Option (List QuadSeq) :=
  (symmetries.mapM (applySymmetry s)).map List.dedup

/-! ## Canonical forms and reduction -/

/-- First loop of `sn_ss_canonical`, `equivalence.rs:317-322`. -/
def snNormalize (s : QuadSeq) : Option QuadSeq :=
  tags.foldlM (fun r t => if at0 (r.sequence t) 0 ≠ -1 then negateAt r t else some r) s

/-- `sn_ss_canonical`, `equivalence.rs:313-352`. -/
def snSsCanonical (s : QuadSeq) : Option QuadSeq :=
  (snNormalize s).map fun c =>
    let m := minTag c .W [.X, .Y, .Z]
    let c := if m ≠ .W then swapTags c (.W, m) else c
    let m := minTag c .X [.Y, .Z]
    let c := if m ≠ .X then swapTags c (.X, m) else c
    if seqLessThan c.d c.c then swapTags c (.Y, .Z) else c

/-- The labelled loop of `ns_canonical`, `equivalence.rs:359-369`. -/
def nsNormalize : Nat → QuadSeq → Option QuadSeq
  | 0, _ => none
  | fuel + 1, s =>
    match tags.find? fun t => decide (at0 (s.sequence t) 0 ≠ -1) with
    | some t => (negateAt s t).bind fun r => nsNormalize fuel (swapTags r (.W, .X))
    | none => some s

/-- The part of `ns_canonical` after the loop, `equivalence.rs:371-407`. -/
def nsSort (c : QuadSeq) : Option QuadSeq :=
  let m := minTag c .W [.X, .Y, .Z]
  let c := if m ≠ .W then swapTags (swapTags c (.W, m)) (.Y, .Z) else c
  let m := minTag c .X [.Y, .Z]
  let c := if m ≠ .X then swapTags (swapTags c (.X, m)) (.Y, .Z) else c
  (if seqLessThan c.d c.c then (negateAt c .Y).map fun r => swapTags r (.Y, .Z) else some c).bind fun c =>
    if at0 c.d 0 = 1 ∧ c.hasDuplicateSeq then negateAt c .Z else some c

/-- `ns_canonical`, `equivalence.rs:355-408`. -/
def nsCanonical (s : QuadSeq) : Option QuadSeq := (nsNormalize 5 s).bind nsSort

/-- `qt_canonical`, `equivalence.rs:288-310`. -/
def qtCanonical (s : QuadSeq) (symmetries : List QuadSeq) : SeqType → Option QuadSeq
  | .quaternionType =>
      (generateEquivalenceClassFast s symmetries).bind fun c => (c.mapM nsCanonical).bind minBy
  | .williamsonType | .williamson =>
      (generateEquivalenceClassFast s symmetries).bind fun c => (c.mapM snSsCanonical).bind minBy
  | _ => none

/-- `reduce_to_canonical_reps`, `find_unique.rs:189-198`. -/
def reduceToCanonicalReps (sequences : List QuadSeq) (ty : SeqType) : Option (List QuadSeq) :=
  match sequences with
  | [] => none
  | s0 :: _ =>
    (generateSymmetryGroup s0.size (canonicalOps ty)).bind fun g =>
      (sequences.mapM fun s => qtCanonical s g ty).map unique

/-! ## Hadamard matrices -/

/-- `for i in 0..n { for j in 0..n { body } }` with a mutable matrix and a body that may panic. -/
def loop2 {α : Type} (n : Nat) (body : List (List α) → Nat → Nat → Option (List (List α))) (m : List (List α)) :
    Option (List (List α)) :=
  (List.range n).foldlM (fun m i => (List.range n).foldlM (fun m j => body m i j) m) m

namespace HM

/-- `HM::get_with_op_mat`, `matrices.rs:310-317`. -/
def getWithOpMat (m : Model.HM) (row col : Nat) : OpMat → Option Int
  | .none => some (get2 0 m.matrix row col)
  | .minus => neg8 (get2 0 m.matrix row col)
  | .transpose => some (get2 0 m.matrix col row)
  | .minusTranspose => neg8 (get2 0 m.matrix col row)

/-- `HM::copy_block_to`, `matrices.rs:288-294`. -/
def copyBlockTo (m block : Model.HM) (rowOffset colOffset : Nat) (op : OpMat) : Option Model.HM :=
  (loop2 block.size (fun m row col => (getWithOpMat block row col op).map fun v =>
    set2 m (row + rowOffset) (col + colOffset) v) m.matrix).map fun r => { m with matrix := r }

/-- `HM::from_williamson`, `matrices.rs:250-283`. -/
def fromWilliamson (will : QuadSeq) (ty : SeqType) : Option Model.HM :=
  let size := will.size
  let matw := HM.fromSequence (will.sequence .W)
  let matx := HM.fromSequence (will.sequence .X)
  let maty := HM.fromSequence (will.sequence .Y)
  let matz := HM.fromSequence (will.sequence .Z)
  match ty with
  | .quaternionType => (HM.williamsonBlocks size matw matx maty matz).foldlM
      (fun hm b => copyBlockTo hm b.1 b.2.1 b.2.2.1 b.2.2.2) (HM.new (4 * size))
  | _ => Option.none

/-- `HM::dephase`, `matrices.rs:328-343`. -/
def dephase (m : Model.HM) : Option Model.HM :=
  let n := m.size
  (loop2 n (fun m invRow col =>
    let row := n - 1 - invRow
    (mul8 (get2 0 m 0 col) (get2 0 m row col)).map fun v => set2 m row col v) m.matrix).bind fun m1 =>
  (loop2 n (fun m invCol row =>
    let col := n - 1 - invCol
    (mul8 (get2 0 m row 0) (get2 0 m row col)).map fun v => set2 m row col v) m1).map fun m2 =>
  { m with matrix := m2 }

/-- `HM::dephased`, `matrices.rs:346-365`: both loops read `self`. -/
def dephased (m : Model.HM) : Option Model.HM :=
  let n := m.size
  (loop2 n (fun new invRow col =>
    let row := n - 1 - invRow
    (mul8 (get2 0 m.matrix 0 col) (get2 0 m.matrix row col)).map fun v => set2 new row col v)
    (List.replicate n (List.replicate n 1))).bind fun new1 =>
  (loop2 n (fun new invCol row =>
    let col := n - 1 - invCol
    (mul8 (get2 0 m.matrix row 0) (get2 0 m.matrix row col)).map fun v => set2 new row col v) new1).map fun new2 =>
  { size := m.size, matrix := new2 }

/-- The inner product in `HM::verify`, `matrices.rs:459-462`: an `i8` accumulator. -/
def innerProduct (n : Nat) (r1 r2 : List Int) : Option Int :=
  (List.range n).foldlM (fun acc i => (mul8 (r1.getD i 0) (r2.getD i 0)).bind fun x => add8 acc x) 0

/-- `HM::verify`, `matrices.rs:449-472`: the rows are compared in order and the function returns at the first product that
is not 0, so that later products are not computed. -/
def verify (m : Model.HM) : Option Bool :=
  ((List.range m.size).flatMap fun row1 =>
    (List.range' (row1 + 1) (m.size - (row1 + 1))).map fun row2 => (row1, row2)).foldlM (fun ok p =>
      if ok then (innerProduct m.size (m.row p.1) (m.row p.2)).map fun x => decide (x = 0) else some false) true

end HM

end Model.Checked
