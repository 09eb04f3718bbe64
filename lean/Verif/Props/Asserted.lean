import Verif.Proofs.Asserted
import Verif.Props.Search
import Verif.Props.Convert

/-!
# Property C108: the debug assertions of the equivalence operations
-/

namespace Props
open Model Spec Proofs Proofs.Check Proofs.Assert

/-- C108. Each operation of a type, in a debug build, gives the sequences of a release build if its argument is of the type
or it has no new sequence, and panics otherwise. -/
theorem C108_operations (n : ℕ) [NeZero n] (hn : n ≤ 100) (ty : SeqType) :
    List.Forall₂ (fun (op' : Checked.Op) (op : Op) => ∀ s, PMQuad n s →
      (OfType n ty s ∨ (op s).tail = [] → op' s = some (op s)) ∧ (¬ OfType n ty s → (op s).tail ≠ [] → op' s = none))
      (Asserted.equivalences ty false) (equivalences ty) :=
  guards_equivalences hn ty

/-- C108. The class of a sequence of the type is generated without a panic and is that of a release build. -/
theorem C108_class (n : ℕ) [NeZero n] (hn : n ≤ 100) (ty : SeqType) (s : QuadSeq) (hs : OfType n ty s) :
    ∃ c, Asserted.generateEquivalenceClass s ty = some c ∧ generateEquivalenceClass (equivalences ty) s = some c ∧
      ∀ t, t ∈ c ↔ PMQuad n t ∧ TypeEquiv ty (fam n s) (fam n t) := by
  have hp := ofType_pm hs
  obtain ⟨c, h1, _, h2⟩ := C11_class_eq n hn ty s hp
  exact ⟨c, (class_ofType hn hp hs).trans h1, h1, h2⟩

/-- C108. Generating the class of any other quadruple panics. -/
theorem C108_class_panics (n : ℕ) [NeZero n] (hn : n ≤ 100) (ty : SeqType) (hty : Supported ty) (s : QuadSeq)
    (hs : PMQuad n s) (ht : ¬ OfType n ty s) : Asserted.generateEquivalenceClass s ty = none :=
  class_none hn hty hs ht

/-- C108. So the least member of the class is that of a release build. -/
theorem C108_representative (n : ℕ) [NeZero n] (hn : n ≤ 100) (ty : SeqType) (s : QuadSeq) (hs : OfType n ty s) :
    Asserted.generateCanonicalRepresentative s ty = generateCanonicalRepresentative s ty ∧
      (Asserted.generateCanonicalRepresentative s ty).isSome = true := by
  obtain ⟨c, h1, h2, _⟩ := C108_class n hn ty s hs
  unfold Asserted.generateCanonicalRepresentative generateCanonicalRepresentative
  rw [h1, h2]
  exact ⟨rfl, rfl⟩

/-- C108. Expanding a list to all equivalent sequences: as in a release build if all are of the type, a panic otherwise. -/
theorem C108_expand (n : ℕ) [NeZero n] (hn : n ≤ 100) (ty : SeqType) (hty : Supported ty) (l : List QuadSeq)
    (hl : ∀ q ∈ l, PMQuad n q) :
    ((∀ q ∈ l, OfType n ty q) → Asserted.generateEquivalentQuadSeqs l ty = generateEquivalentQuadSeqs l ty) ∧
    ((∃ q ∈ l, ¬ OfType n ty q) → Asserted.generateEquivalentQuadSeqs l ty = none) :=
  ⟨fun h => quads_eq hn l [] fun q hq => ⟨hl q hq, h q hq⟩,
    fun h => quads_none hn hty l [] hl (fun q hq => by cases hq) h⟩

/-- C108. The reduction that asserts the symbolic class to equal the generated one: as in a release build if all sequences
are of the type, a panic otherwise. -/
theorem C108_reduce (n : ℕ) [NeZero n] (hn : n ≤ 31) (ty : SeqType) (hty : Supported ty) (l : List QuadSeq)
    (hne : l ≠ []) (hl : ∀ q ∈ l, PMQuad n q) :
    ((∀ q ∈ l, OfType n ty q) → Asserted.reduceToEquivalence l (Asserted.equivalences ty) =
      reduceToEquivalence l (equivalences ty) ∧ (reduceToEquivalence l (equivalences ty)).isSome = true) ∧
    ((∃ q ∈ l, ¬ OfType n ty q) → Asserted.reduceToEquivalence l (Asserted.equivalences ty) = none) := by
  match l, hne with
  | s0 :: l, _ =>
    have hsize : s0.size = n := (PMQuad.wf (hl s0 List.mem_cons_self)).size
    obtain ⟨G, _, _, hG, _⟩ := C12_fast_eq n hn (equivalences ty) (equivalences_sub ty) s0 (hl s0 List.mem_cons_self)
    have hG' : Checked.generateSymmetryGroup s0.size (Asserted.equivalences ty true) = some G := by
      rw [flag_equivalences, hsize, group_eq hn (agrees_equivalences (by omega) ty) (equivalences_sub ty), hG]
    have e1 : Asserted.reduceToEquivalence (s0 :: l) (Asserted.equivalences ty) =
        ((s0 :: l).foldlM (aStep ty G) []).bind fun classes => classes.mapM findMinimum := by
      unfold Asserted.reduceToEquivalence
      dsimp only
      rw [hG']
      rfl
    have e2 : reduceToEquivalence (s0 :: l) (equivalences ty) =
        ((s0 :: l).foldlM (mStep G) []).bind fun classes => classes.mapM findMinimum := by
      unfold reduceToEquivalence
      dsimp only
      rw [hsize, hG]
      rfl
    constructor
    · intro h
      obtain ⟨r, hr, _⟩ := C19_one_per_class n hn ty (s0 :: l) (by simp) hl
      refine ⟨?_, by rw [hr]; rfl⟩
      rw [e1, e2, collect_eq hn hG _ [] fun q hq => ⟨hl q hq, h q hq⟩]
    · intro h
      rw [e1, collect_none hn hty hG _ [] hl (fun c hc => by cases hc) h]
      rfl

/-- C108. The exhaustive search for the least members of all classes is as in a release build. -/
theorem C108_unique (n : ℕ) [NeZero n] (hn : n ≤ 100) : Asserted.findUnique n = findUnique n := by
  unfold Asserted.findUnique findUnique
  obtain ⟨L, h1, _, h2⟩ := C48_quadruples n
  rw [h1, Option.bind_some, Option.bind_some]
  have e : Asserted.findClasses L = findClasses L := classes_eq hn L [] fun q hq => (h2 q).1 hq
  rw [e]

/-- C108. The command that writes the matrices of all equivalent sequences, on a result file: as in a release build if all
its sequences are of the type, a panic otherwise. -/
theorem C108_qhm_all (n : ℕ) [NeZero n] (hn : n ≤ 100) (ty : SeqType) (hty : Supported ty)
    (order : List QuadSeq → List QuadSeq) (l : List QuadSeq) (hl : ∀ q ∈ l, PMQuad n q) :
    ∃ t, resultText l = some t ∧
      ((∀ q ∈ l, OfType n ty q) → Asserted.qhmWriteAll order ty t = qhmWriteAll order ty t) ∧
      ((∃ q ∈ l, ¬ OfType n ty q) → Asserted.qhmWriteAll order ty t = none) := by
  obtain ⟨t, h1, h2⟩ := Conversion.resultText_spec (n := n) (l := l) hl
  have hm := Conversion.mapM_some_iff.2 (h2.imp fun _ _ h => h.1)
  refine ⟨t, h1, fun h => ?_, fun h => ?_⟩
  · unfold Asserted.qhmWriteAll qhmWriteAll
    rw [hm, Option.bind_some, Option.bind_some, (C108_expand n hn ty hty l hl).1 h]
  · unfold Asserted.qhmWriteAll
    rw [hm, Option.bind_some, (C108_expand n hn ty hty l hl).2 h]
    rfl

/-- C108. With the flag `symmetry_group` nothing is asserted. So the reduction to canonical representatives, which uses the
operations on labels, has no assertion. -/
theorem C108_flag (ty : SeqType) : Asserted.equivalences ty true = Checked.equivalences ty ∧
    Asserted.canonicalOps ty true = Checked.canonicalOps ty :=
  ⟨flag_equivalences ty, flag_canonicalOps ty⟩

/-- C108. The two operations that assert about their argument panic on the same arguments as if they asserted about their
results. -/
theorem C108_argument (n : ℕ) [NeZero n] (hn : n ≤ 100) (s : QuadSeq) (hs : PMQuad n s) :
    Asserted.equivalentDualHalfShift .quaternionType false s =
      Asserted.onResults .quaternionType false (Checked.lift equivalentDualHalfShift) s ∧
    ∀ ty, ty = .williamsonType ∨ ty = .williamson → Asserted.equivalentSingleHalfShift ty false s =
      Asserted.onResults ty false (Checked.lift equivalentSingleHalfShift) s := by
  have key : ∀ (ty : SeqType) (op : Op), op ∈ equivalences ty → Asserted.onArgument ty false (Checked.lift op) s =
      Asserted.onResults ty false (Checked.lift op) s := by
    intro ty op hop
    have h1 := guards_argument (ty := ty) (agrees_lift (n := n) op) s hs
    have h2 := guards_results hn (agrees_lift op) hop s hs
    by_cases h : OfType n ty s ∨ (op s).tail = []
    · rw [h1.1 h, h2.1 h]
    · push Not at h
      rw [h1.2 h.1 h.2, h2.2 h.1 h.2]
  refine ⟨key _ _ (by simp [equivalences]), fun ty hty => key _ _ ?_⟩
  rcases hty with rfl | rfl <;> simp [equivalences]

/-- C108. The half shifts of the expansion of Williamson-type results are only asked for at even lengths, so nothing panics
there. -/
theorem C108_half_shift (n : ℕ) [NeZero n] (l : List QuadSeq) (hl : ∀ q ∈ l, PMQuad n q) :
    Asserted.expandWts n l = some (expandWts n l) := by
  unfold Asserted.expandWts expandWts
  rw [Print.mapM_some (g := fun q : QuadSeq => q.setSequence (negated q.a) .W ::
      (if n % 2 = 0 then [q.setSequence (halfShift q.a) .W, q.setSequence (negated (halfShift q.a)) .W] else []))]
  · simp only [Option.map_some, List.flatMap_def]
  · intro q hq
    have hw := PMQuad.wf (hl q hq)
    have hlen : q.a.length = n := hw.len .W
    have hbd : ∀ x ∈ q.a, x ∈ B := (wf_shaped hw).seq .W |>.2
    rw [negated_eq hbd, Option.bind_some]
    split
    · rename_i he
      have hh : ∀ x ∈ halfShift q.a, x ∈ B := by
        intro x hx
        unfold halfShift at hx
        rw [mem_tab] at hx
        obtain ⟨i, hi, rfl⟩ := hx
        exact hbd _ (at0_mem (Nat.mod_lt _ (by omega)))
      have e : Asserted.halfShift q.a = some (halfShift q.a) := by
        unfold Asserted.halfShift
        rw [if_pos (by rw [hlen]; exact he)]
      rw [e, Option.bind_some, Option.bind_some, negated_eq hh]
      rfl
    · rfl

/-- C108. Two assertions that do fire on valid sequences: that of the unguarded alternated negation at an odd length, and
that of the uniform shift for Williamson sequences. The second operation is in the list of `reduce_to_canonical_reps` for
that type (C18), where the flag suppresses the assertion. -/
theorem C108_fires :
    OfType 5 .quaternionType exQTS5 ∧ Asserted.equivalentAlternatedNegation .quaternionType false exQTS5 = none ∧
    OfType 3 .williamson exWS3 ∧ Asserted.equivalentUniformShift .williamson false exWS3 = none ∧
    Asserted.equivalentUniformShift .williamson true exWS3 = some (equivalentUniformShift exWS3) :=
  ⟨exQTS5_isQTS, by decide +kernel, exWS3_isWS, by decide +kernel, by decide +kernel⟩

/-- The hypotheses are met: there are sequences of the types, and quadruples that are not of the type. -/
example : OfType 5 .quaternionType exQTS5 ∧ OfType 3 .williamson exWS3 ∧
    PMQuad 3 ⟨3, [1, 1, 1], [1, 1, 1], [1, 1, 1], [1, 1, 1]⟩ ∧
    ¬ OfType 3 .quaternionType ⟨3, [1, 1, 1], [1, 1, 1], [1, 1, 1], [1, 1, 1]⟩ :=
  ⟨exQTS5_isQTS, exWS3_isWS, by decide, fun h => absurd ((verify_iff (by decide)).2 h) (by decide)⟩

end Props
