import Verif.Model.Williamson
import Mathlib.Data.List.Dedup

/-!
# Model: `sequences/equivalence.rs` and `sequences/symmetries.rs`

Hash sets are lists used only through membership. The debug assertions `verify(seqtype)` inside the
operations are not part of the functions; `Model/Asserted` has the functions with them, and C108 says when they fire.
-/

namespace Model

/-! ## Coprimes -/

/-- The loop of `coprime`, `equivalence.rs:19-21`; the fuel `b` suffices because `b` decreases. -/
def coprimeLoop : Nat → Nat → Nat → Nat
  | 0, a, _ => a
  | fuel + 1, a, b => if b ≠ 0 then coprimeLoop fuel b (a % b) else a

/-- `coprime`, `equivalence.rs:14-23`. -/
def coprime (a b : Nat) : Bool :=
  let (a, b) := if b < a then (b, a) else (a, b)
  coprimeLoop (b + 1) a b = 1

/-- `COPRIMES`, `equivalence.rs:25-49` (`N = 101`; row 0 is a dummy). -/
def COPRIMES : List (List Nat) :=
  [] :: (List.range' 1 100).map fun i => (List.range' 1 i).filter fun j => coprime i j

/-! ## Order -/

/-- `will_less_than_aux` and `Comp`, `equivalence.rs:74-95` (sequences of equal length). -/
def willLessThanAux : List Int → List Int → Ordering
  | x :: xs, y :: ys => if x < y then .lt else if x > y then .gt else willLessThanAux xs ys
  | _, _ => .eq

/-- `will_less_than`, `equivalence.rs:97-116`. -/
def willLessThan (s t : QuadSeq) : Bool :=
  match willLessThanAux s.a t.a with
  | .lt => true
  | .gt => false
  | .eq =>
    match willLessThanAux s.b t.b with
    | .lt => true
    | .gt => false
    | .eq =>
      match willLessThanAux s.c t.c with
      | .lt => true
      | .gt => false
      | .eq => seqLessThan s.d t.d

/-! ## Elementary transformations of one sequence -/

/-- A vector written index by index: `for i in 0..n { s.push(f(i)) }` or `s.set(.., i)` for all `i`. -/
def tab (n : Nat) (f : Nat → Int) : List Int := (List.range n).map f

/-- `negated`, `equivalence.rs:656-662`. -/
def negated (seq : List Int) : List Int := tab seq.length fun i => neg8 (at0 seq i)

/-- `alt_negated`, `equivalence.rs:664-677`. -/
def altNegated (seq : List Int) (frequency : Nat) : List Int :=
  tab seq.length fun i => if i % frequency = frequency - 1 then neg8 (at0 seq i) else at0 seq i

/-- `half_shift`, `equivalence.rs:798-806`. -/
def halfShift (seq : List Int) : List Int :=
  tab seq.length fun i => at0 seq ((i + seq.length / 2) % seq.length)

/-- `permute`, `equivalence.rs:808-821`. -/
def permute (seq : List Int) (k : Nat) : List Int :=
  tab seq.length fun i => at0 seq (i * k % seq.length)

/-- The cyclic shift written by `set_single_value`/`set_sequence_value` loops,
`equivalence.rs:514-516,540-542`. -/
def shiftBy (n : Nat) (seq : List Int) (offset : Nat) : List Int :=
  tab n fun i => at0 seq ((i + offset) % n)

/-- The four tags in code order. -/
def tags : List Tag := [.W, .X, .Y, .Z]

/-- The six ordered couples, e.g. `equivalence.rs:417`. -/
def couples : List (Tag × Tag) := [(.W, .X), (.W, .Y), (.W, .Z), (.X, .Y), (.X, .Z), (.Y, .Z)]

/-- `swap`, `equivalence.rs:269-285`, for an ordered couple (the code panics otherwise, and is only called
with ordered couples). -/
def swapTags (s : QuadSeq) (c : Tag × Tag) : QuadSeq :=
  (s.setSequence (s.sequence c.2) c.1).setSequence (s.sequence c.1) c.2

/-- Four sequences transformed by the same function into a fresh quadruple of the same size. -/
def mapAll (s : QuadSeq) (f : List Int → List Int) : QuadSeq :=
  (QuadSeq.new s.size).setAllValues (f s.a) (f s.b) (f s.c) (f s.d)

/-! ## Equivalence operations -/

/-- `equivalent_negate_swap`, `equivalence.rs:411-442`. -/
def equivalentNegateSwap (s : QuadSeq) : List QuadSeq :=
  s :: couples.flatMap fun c => tags.map fun t => swapTags (s.setSequence (negated (s.sequence t)) t) c

/-- `equivalent_reorder`, `equivalence.rs:445-466`. -/
def equivalentReorder (s : QuadSeq) : List QuadSeq := s :: couples.map fun c => swapTags s c

/-- `equivalent_double_reorder`, `equivalence.rs:469-497`. -/
def equivalentDoubleReorder (s : QuadSeq) : List QuadSeq :=
  s :: couples.flatMap fun c1 => couples.map fun c2 =>
    if ¬ (c1.1 = c2.1 ∧ c1.2 = c2.2) then swapTags (swapTags s c1) c2 else s

/-- One sequence shifted by half the length, `equivalence.rs:511-516,585-590,619-624`. -/
def halfShiftTag (s : QuadSeq) (t : Tag) : QuadSeq :=
  s.setSequence (shiftBy s.size (s.sequence t) (s.size / 2)) t

/-- `equivalent_uniform_half_shift`, `equivalence.rs:500-528`. -/
def equivalentUniformHalfShift (s : QuadSeq) : List QuadSeq :=
  if s.size % 2 = 1 then [s] else s :: tags.map fun t => halfShiftTag s t

/-- `equivalent_uniform_shift`, `equivalence.rs:531-552`. -/
def equivalentUniformShift (s : QuadSeq) : List QuadSeq :=
  s :: (List.range' 1 (s.size - 1)).map fun offset => mapAll s fun l => shiftBy s.size l offset

/-- `equivalent_dual_half_shift`, `equivalence.rs:555-601`. -/
def equivalentDualHalfShift (s : QuadSeq) : List QuadSeq :=
  if s.size % 2 = 1 then [s]
  else
    s :: ((couples.map fun c => halfShiftTag (halfShiftTag s c.1) c.2) ++
      [tags.foldl (fun r t => r.setSequence (shiftBy s.size (s.sequence t) (s.size / 2)) t) s])

/-- `equivalent_single_half_shift`, `equivalence.rs:604-631`. -/
def equivalentSingleHalfShift (s : QuadSeq) : List QuadSeq :=
  if s.size % 2 = 1 then [s] else s :: tags.map fun t => halfShiftTag s t

/-- `equivalent_reverse`, `equivalence.rs:634-652`. -/
def equivalentReverse (s : QuadSeq) : List QuadSeq :=
  [s, mapAll s fun l => tab s.size fun i => at0 l (s.size - 1 - i)]

/-- `equivalent_negate`, `equivalence.rs:680-707`. -/
def equivalentNegate (s : QuadSeq) : List QuadSeq :=
  s :: tags.map fun t => (QuadSeq.new s.size).setAllValues
    (if t = .W then negated s.a else s.a) (if t = .X then negated s.b else s.b)
    (if t = .Y then negated s.c else s.c) (if t = .Z then negated s.d else s.d)

/-- `equivalent_double_negate`, `equivalence.rs:710-742`. -/
def equivalentDoubleNegate (s : QuadSeq) : List QuadSeq :=
  s :: couples.map fun c => (QuadSeq.new s.size).setAllValues
    (if c.1 = .W ∨ c.2 = .W then negated s.a else s.a) (if c.1 = .X ∨ c.2 = .X then negated s.b else s.b)
    (if c.1 = .Y ∨ c.2 = .Y then negated s.c else s.c) (if c.1 = .Z ∨ c.2 = .Z then negated s.d else s.d)

/-- `equivalent_alternated_negation`, `equivalence.rs:745-767`. -/
def equivalentAlternatedNegation (s : QuadSeq) : List QuadSeq :=
  [s, mapAll s fun l => altNegated l 2]

/-- `equivalent_even_alternated_negation`, `equivalence.rs:770-796`. -/
def equivalentEvenAlternatedNegation (s : QuadSeq) : List QuadSeq :=
  if s.size % 2 = 1 then [s] else [s, mapAll s fun l => altNegated l 2]

/-- `equivalent_automorphism`, `equivalence.rs:827-855`. The table look-up `COPRIMES[size]` panics for
`size > 100`; in the model the row is then empty and theorems assume `size ≤ 100`. -/
def equivalentAutomorphism (s : QuadSeq) : List QuadSeq :=
  s :: (COPRIMES.getD s.size []).map fun k => mapAll s fun l => permute l k

/-- `equivalent_disjoint_swaps`, `equivalence.rs:859-889`. -/
def equivalentDisjointSwaps (s : QuadSeq) : List QuadSeq :=
  [s, swapTags (swapTags s (.W, .X)) (.Y, .Z), swapTags (swapTags s (.W, .Y)) (.X, .Z),
    swapTags (swapTags s (.W, .Z)) (.X, .Y)]

/-- An equivalence operation `fn(&QuadSeq, SequenceType, bool) -> HashSet<QuadSeq>`. -/
abbrev Op := QuadSeq → List QuadSeq

/-- `SequenceType::equivalences`, `symmetries.rs:22-30`. -/
def equivalences : SeqType → List Op
  | .quaternionType => [equivalentUniformShift, equivalentEvenAlternatedNegation, equivalentAutomorphism,
      equivalentNegateSwap, equivalentDualHalfShift]
  | .williamsonType => [equivalentNegate, equivalentUniformShift, equivalentReorder,
      equivalentEvenAlternatedNegation, equivalentAutomorphism, equivalentSingleHalfShift]
  | .williamson => [equivalentNegate, equivalentReorder, equivalentEvenAlternatedNegation,
      equivalentAutomorphism, equivalentSingleHalfShift]
  | _ => []

/-! ## Equivalence classes -/

/-- The set `new` of one iteration, `equivalence.rs:165-175`. -/
def classNew (ops : List Op) (cls : List QuadSeq) : List QuadSeq :=
  ((cls.flatMap fun s => ops.flatMap fun f => f s).filter fun t => t ∉ cls).dedup

/-- The loop of `generate_equivalence_class`, `equivalence.rs:164-184`; `none` if the fuel runs out. -/
def classLoop (ops : List Op) : Nat → List QuadSeq → Option (List QuadSeq)
  | 0, _ => none
  | fuel + 1, cls =>
    if (classNew ops cls).length = 0 then some cls else classLoop ops fuel (cls ++ classNew ops cls)

/-- Number of iterations that is always enough (a property, see C11). -/
def classFuel (s : QuadSeq) : Nat := (8 * s.size + 1) ^ (4 * s.size) + 1

/-- `generate_equivalence_class`, `equivalence.rs:158-187`. -/
def generateEquivalenceClass (ops : List Op) (s : QuadSeq) : Option (List QuadSeq) :=
  classLoop ops (classFuel s) [s]

/-- `QuadSeq::equivalent_to`, `williamson.rs:262-264`. -/
def QuadSeq.equivalentTo (s t : QuadSeq) (ty : SeqType) : Option Bool :=
  (generateEquivalenceClass (equivalences ty) s).map fun c => decide (t ∈ c)

/-- The selection loop of `generate_canonical_representative`, `equivalence.rs:146-151`. -/
def minFrom (init : QuadSeq) (set : List QuadSeq) : QuadSeq :=
  set.foldl (fun mini e => if willLessThan e mini then e else mini) init

/-- `generate_canonical_representative`, `equivalence.rs:144-153`. -/
def generateCanonicalRepresentative (s : QuadSeq) (ty : SeqType) : Option QuadSeq :=
  (generateEquivalenceClass (equivalences ty) s).map fun set => minFrom s set

/-! ## Symbolic symmetry group -/

/-- The symbolic sequence `w` of `generate_symmetry_group`, `equivalence.rs:191-197` (labels `as i8`). -/
def labelSeq (len : Nat) : QuadSeq :=
  (QuadSeq.new len).setAllValues
    (tab len fun i => wrap8 ((i + 1 : Nat) : Int)) (tab len fun i => wrap8 ((i + len + 1 : Nat) : Int))
    (tab len fun i => wrap8 ((i + 2 * len + 1 : Nat) : Int)) (tab len fun i => wrap8 ((i + 3 * len + 1 : Nat) : Int))

/-- `generate_symmetry_group`, `equivalence.rs:190-200`. -/
def generateSymmetryGroup (len : Nat) (ops : List Op) : Option (List QuadSeq) :=
  generateEquivalenceClass ops (labelSeq len)

/-- `x as usize` for an `i8` value. -/
def asUsize (x : Int) : Nat := (x % 2 ^ 64).toNat

/-- `i8::abs`, release-mode wrapping semantics. -/
def abs8 (x : Int) : Int := wrap8 (if x < 0 then -x else x)

/-- The match on `tag_ind`, `equivalence.rs:215-221`; `none` is the panic. -/
def labelSub (s : QuadSeq) : Nat → Option (List Int)
  | 0 => some s.a
  | 1 => some s.b
  | 2 => some s.c
  | 3 => some s.d
  | _ => none

/-- `(elm.abs() as usize - 1) % n`, `equivalence.rs:214` (`usize` subtraction wraps as in a release build). -/
def labelRem (n : Nat) (elm : Int) : Nat := (asUsize (abs8 elm) + (2 ^ 64 - 1)) % 2 ^ 64 % n

/-- `tag_ind`, `equivalence.rs:214`. -/
def labelTag (n : Nat) (elm : Int) : Nat :=
  asUsize (wrap8 (wrap8 (abs8 elm - 1) - wrap8 (labelRem n elm : Int))) / n

/-- `seq_ind`, `equivalence.rs:224`. -/
def labelIdx (n : Nat) (elm : Int) : Nat := asUsize (wrap8 (abs8 elm - 1)) % n

/-- The body of the inner loop of `generate_equivalence_class_fast`, `equivalence.rs:212-232`
(`none` is the panic on an invalid sequence index). -/
def applyLabel (s : QuadSeq) (elm : Int) : Option Int :=
  (labelSub s (labelTag s.size elm)).map fun l =>
    if elm < 0 then neg8 (at0 l (labelIdx s.size elm)) else at0 l (labelIdx s.size elm)

/-- One symmetry applied to a sequence, `equivalence.rs:207-239`. -/
def applySymmetry (s g : QuadSeq) : Option QuadSeq :=
  ((g.a ++ g.b ++ g.c ++ g.d).mapM (applyLabel s)).map fun r =>
    let n := s.size
    { size := n, a := r.take n, b := (r.drop n).take n, c := (r.drop (2 * n)).take n,
      d := (r.drop (3 * n)).take n }

/-- `generate_equivalence_class_fast`, `equivalence.rs:203-243`. -/
def generateEquivalenceClassFast (s : QuadSeq) (symmetries : List QuadSeq) : Option (List QuadSeq) :=
  (symmetries.mapM (applySymmetry s)).map List.dedup

/-- `generate_equivalent_quad_seqs`, `equivalence.rs:247-263`. -/
def generateEquivalentQuadSeqs (l : List QuadSeq) (ty : SeqType) : Option (List QuadSeq) :=
  l.foldlM (fun result q =>
    if q ∈ result then some result
    else (generateEquivalenceClass (equivalences ty) q).map fun c => (result ++ c).dedup) []

/-! ## Canonical forms -/

/-- `for tag in rest { if seq_less_than(seq(tag), seq(min_tag)) { min_tag = tag } }`,
`equivalence.rs:326-330,337-341,373-377,385-389`. -/
def minTag (s : QuadSeq) (start : Tag) (rest : List Tag) : Tag :=
  rest.foldl (fun m t => if seqLessThan (s.sequence t) (s.sequence m) then t else m) start

/-- First loop of `sn_ss_canonical`, `equivalence.rs:317-322`. -/
def snNormalize (s : QuadSeq) : QuadSeq :=
  tags.foldl (fun r t => if at0 (r.sequence t) 0 ≠ -1 then r.setSequence (negated (r.sequence t)) t else r) s

/-- `sn_ss_canonical`, `equivalence.rs:313-352`. -/
def snSsCanonical (s : QuadSeq) : QuadSeq :=
  let c := snNormalize s
  let m := minTag c .W [.X, .Y, .Z]
  let c := if m ≠ .W then swapTags c (.W, m) else c
  let m := minTag c .X [.Y, .Z]
  let c := if m ≠ .X then swapTags c (.X, m) else c
  if seqLessThan c.d c.c then swapTags c (.Y, .Z) else c

/-- The labelled loop of `ns_canonical`, `equivalence.rs:359-369`; `none` if the fuel runs out. -/
def nsNormalize : Nat → QuadSeq → Option QuadSeq
  | 0, _ => none
  | fuel + 1, s =>
    match tags.find? fun t => decide (at0 (s.sequence t) 0 ≠ -1) with
    | some t => nsNormalize fuel (swapTags (s.setSequence (negated (s.sequence t)) t) (.W, .X))
    | none => some s

/-- The part of `ns_canonical` after the loop, `equivalence.rs:371-407`. -/
def nsSort (c : QuadSeq) : QuadSeq :=
  let m := minTag c .W [.X, .Y, .Z]
  let c := if m ≠ .W then swapTags (swapTags c (.W, m)) (.Y, .Z) else c
  let m := minTag c .X [.Y, .Z]
  let c := if m ≠ .X then swapTags (swapTags c (.X, m)) (.Y, .Z) else c
  let c := if seqLessThan c.d c.c then swapTags (c.setSequence (negated c.c) .Y) (.Y, .Z) else c
  if at0 c.d 0 = 1 ∧ c.hasDuplicateSeq then c.setSequence (negated c.d) .Z else c

/-- `ns_canonical`, `equivalence.rs:355-408`. Five iterations of the loop suffice for ±1 sequences (C14);
`none` stands for non-termination. -/
def nsCanonical (s : QuadSeq) : Option QuadSeq := (nsNormalize 5 s).map nsSort

/-- `iter().min_by(..)` with `will_less_than`, `equivalence.rs:301-309`; `none` on an empty set. -/
def minBy : List QuadSeq → Option QuadSeq
  | [] => none
  | x :: xs => some (minFrom x xs)

/-- `qt_canonical`, `equivalence.rs:288-310`. `none` is a panic. -/
def qtCanonical (s : QuadSeq) (symmetries : List QuadSeq) : SeqType → Option QuadSeq
  | .quaternionType =>
      (generateEquivalenceClassFast s symmetries).bind fun c => (c.mapM nsCanonical).bind minBy
  | .williamsonType | .williamson =>
      (generateEquivalenceClassFast s symmetries).bind fun c => minBy (c.map snSsCanonical)
  | _ => none

end Model
