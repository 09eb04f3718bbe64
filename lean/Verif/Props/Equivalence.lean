import Verif.Props.Sequences
import Verif.Proofs.Overflow

/-!
# Properties C09 - C12, C47: equivalence operations and equivalence classes
-/

namespace Props
open Model Spec Proofs

theorem exQTS5_isQTS : IsQTS 5 exQTS5 := (C08_verify_qts 5 exQTS5 exQTS5_pm).1 (by decide)
theorem exWS3_isWS : IsWS 3 exWS3 := (C08_verify_ws 3 exWS3 exWS3_pm).1 (by decide)

/-- A QT sequence of even length 4. -/
def exQTS4 : QuadSeq :=
  { size := 4, a := [1, 1, 1, -1], b := [1, 1, 1, -1], c := [1, 1, 1, -1], d := [1, 1, 1, -1] }

theorem exQTS4_pm : PMQuad 4 exQTS4 := by decide
theorem exQTS4_isQTS : IsQTS 4 exQTS4 := (C08_verify_qts 4 exQTS4 exQTS4_pm).1 (by decide)

/-! ## C47: the coprimality table -/

/-- C47. The test decides coprimality, for all arguments. -/
theorem C47_coprime_iff (a b : ℕ) : coprime a b = true ↔ Nat.Coprime a b := coprime_iff a b

/-- C47. Row `m` of the table lists exactly the units modulo `m`, in increasing order; there are 101 rows. -/
theorem C47_table (m : ℕ) (h1 : 1 ≤ m) (h2 : m ≤ 100) :
    COPRIMES.length = 101 ∧ (∀ k, k ∈ COPRIMES.getD m [] ↔ 1 ≤ k ∧ k ≤ m ∧ Nat.Coprime k m) ∧
      (COPRIMES.getD m []).Pairwise (· < ·) :=
  ⟨COPRIMES_length, fun k => by rw [mem_COPRIMES h1 h2, Nat.gcd_comm], COPRIMES_sorted h1 h2⟩

example : COPRIMES.getD 12 [] = [1, 5, 7, 11] := by decide

/-! ## C09: the operations of each type preserve the type -/

/-- C09, quaternion type. -/
theorem C09_qts (n : ℕ) [NeZero n] (hn : n ≤ 100) (s t : QuadSeq) (hs : IsQTS n s) (op : Op)
    (hop : op ∈ equivalences .quaternionType) (ht : t ∈ op s) : IsQTS n t ∧ t.verify .quaternionType = true := by
  have h : IsQTS n t := by
    rw [C04_isQTS_iff_isWTS, isWTS_iff] at hs ⊢
    rcases (step_qt hn hs.1 t).1 ⟨op, hop, ht⟩ with rfl | ⟨g, hg, e⟩
    · exact hs
    · exact wf_of_bdmove (valid_QTMove hg hs.2) (s := s) e
  exact ⟨h, (C08_verify_qts n t h.1).2 h⟩

/-- C09, Williamson type. -/
theorem C09_wts (n : ℕ) [NeZero n] (hn : n ≤ 100) (s t : QuadSeq) (hs : IsWTS n s) (op : Op)
    (hop : op ∈ equivalences .williamsonType) (ht : t ∈ op s) : IsWTS n t ∧ t.verify .williamsonType = true := by
  have h : IsWTS n t := by
    rw [isWTS_iff] at hs ⊢
    rcases (step_wt hn hs.1 t).1 ⟨op, hop, ht⟩ with rfl | ⟨g, hg, e⟩
    · exact hs
    · exact wf_of_bdmove (valid_WTMove hg hs.2) (s := s) e
  exact ⟨h, (C08_verify_wts n t h.1).2 h⟩

/-- C09, Williamson. -/
theorem C09_ws (n : ℕ) [NeZero n] (hn : n ≤ 100) (s t : QuadSeq) (hs : IsWS n s) (op : Op)
    (hop : op ∈ equivalences .williamson) (ht : t ∈ op s) : IsWS n t ∧ t.verify .williamson = true := by
  have h : IsWS n t := by
    rw [isWS_iff] at hs ⊢
    rcases (step_ws hn hs.1 t).1 ⟨op, hop, ht⟩ with rfl | ⟨g, hg, e⟩
    · exact hs
    · have := sym_WSMove hg hs.2
      subst e; rw [fam_ofFam]; exact ⟨wf_ofFam this.pm.bd, this⟩
  exact ⟨h, (C08_verify_ws n t h.1).2 h⟩

example : IsQTS 5 exQTS5 ∧ (equivalentNegateSwap exQTS5).dedup.length = 25 ∧
    (equivalentUniformShift exQTS5).length = 5 := ⟨exQTS5_isQTS, by decide, by decide⟩
example : IsQTS 4 exQTS4 ∧ ∃ t ∈ equivalentDualHalfShift exQTS4, t ≠ exQTS4 := ⟨exQTS4_isQTS, by decide⟩
example : IsWS 3 exWS3 ∧ ∃ t ∈ equivalentReorder exWS3, t ≠ exWS3 := ⟨exWS3_isWS, by decide⟩

/-! ## C10: auxiliary operations -/

/-- C10. Reversal, double negation, double reordering, disjoint double swaps and (half shifts do nothing for
odd lengths) the two single half shifts preserve QT validity for every length; so does the even alternated
negation, which does nothing for odd lengths. -/
theorem C10_auxiliary (n : ℕ) [NeZero n] (s t : QuadSeq) (hs : IsQTS n s) (op : Op)
    (hop : op ∈ [equivalentReverse, equivalentDoubleNegate, equivalentDoubleReorder, equivalentDisjointSwaps,
      equivalentSingleHalfShift, equivalentUniformHalfShift, equivalentEvenAlternatedNegation])
    (ht : t ∈ op s) : IsQTS n t ∧ t.verify .quaternionType = true := by
  have h : IsQTS n t := by
    rw [C04_isQTS_iff_isWTS, isWTS_iff] at hs ⊢
    obtain ⟨hw, hv⟩ := hs
    simp only [List.mem_cons, List.not_mem_nil, or_false] at hop
    rcases hop with rfl | rfl | rfl | rfl | rfl | rfl | rfl
    · rcases (reverse_is s hw t).1 ht with rfl | ⟨g, rfl, e⟩
      · exact ⟨hw, hv⟩
      · exact wf_of_bdmove (valid_reverse hv) (s := s) e
    · rcases (doubleNegate_is s hw t).1 ht with rfl | ⟨g, ⟨_, _, _, rfl⟩, e⟩
      · exact ⟨hw, hv⟩
      · exact wf_of_bdmove (valid_negAt (valid_negAt hv _) _) (s := s) e
    · rcases (doubleReorder_is s hw t).1 ht with rfl | ⟨g, ⟨_, _, _, _, _, _, rfl⟩, e⟩
      · exact ⟨hw, hv⟩
      · exact wf_of_bdmove (valid_swapFam (valid_swapFam hv _ _) _ _) (s := s) e
    · rcases (disjointSwaps_is s hw t).1 ht with rfl | ⟨g, rfl | rfl | rfl, e⟩
      · exact ⟨hw, hv⟩
      all_goals exact wf_of_bdmove (valid_swapFam (valid_swapFam hv _ _) _ _) (s := s) e
    · rcases (singleHalfShift_is s hw t).1 ht with rfl | ⟨g, hg, e⟩
      · exact ⟨hw, hv⟩
      · exact wf_of_bdmove (valid_SingleMove hg hv) (s := s) e
    · rcases (uniformHalfShift_is s hw t).1 ht with rfl | ⟨g, hg, e⟩
      · exact ⟨hw, hv⟩
      · exact wf_of_bdmove (valid_SingleMove hg hv) (s := s) e
    · rcases (evenAlternatedNegation_is s hw t).1 ht with rfl | ⟨g, ⟨he, rfl⟩, e⟩
      · exact ⟨hw, hv⟩
      · exact wf_of_bdmove (valid_altAll he hv) (s := s) e
  exact ⟨h, (C08_verify_qts n t h.1).2 h⟩

/-- C10. Alternated negation preserves QT validity for every even length. -/
theorem C10_alternated_even (n : ℕ) [NeZero n] (he : Even n) (s t : QuadSeq) (hs : IsQTS n s)
    (ht : t ∈ equivalentAlternatedNegation s) : IsQTS n t := by
  rw [C04_isQTS_iff_isWTS, isWTS_iff] at hs ⊢
  rcases (alternatedNegation_is s hs.1 t).1 ht with rfl | ⟨g, rfl, e⟩
  · exact hs
  · exact wf_of_bdmove (valid_altAll he hs.2) (s := s) e

/-- C10. For odd lengths it does not: a QT sequence of length 3 is sent to one that is not QT. -/
theorem C10_alternated_odd_fails :
    IsQTS 3 exWS3 ∧ ∃ t ∈ equivalentAlternatedNegation exWS3, PMQuad 3 t ∧ ¬ IsQTS 3 t := by
  refine ⟨(C08_verify_qts 3 exWS3 exWS3_pm).1 (by decide), _, List.mem_cons_of_mem _ List.mem_cons_self,
    by decide, fun h => ?_⟩
  have := (C08_verify_qts 3 _ h.1).2 h
  revert this
  decide

example : IsQTS 4 exQTS4 ∧ ∃ t ∈ equivalentAlternatedNegation exQTS4, t ≠ exQTS4 := ⟨exQTS4_isQTS, by decide⟩
example : IsQTS 5 exQTS5 ∧ (∃ t ∈ equivalentReverse exQTS5, t ≠ exQTS5) ∧
    (∃ t ∈ equivalentDisjointSwaps exQTS5, t ≠ exQTS5) := ⟨exQTS5_isQTS, by decide, by decide⟩

/-! ## C11: equivalence classes -/

/-- C11. Class generation terminates and returns, without repetition, exactly what finitely many operations
reach; for every list of the equivalence operations of the code and every quadruple of 8-bit sequences. -/
theorem C11_class_reach (n : ℕ) (h0 : 0 < n) (ops : List Op) (hops : ∀ op ∈ ops, op ∈ allOps) (s : QuadSeq)
    (hsize : s.size = n) (hlen : ∀ t, (s.sequence t).length = n)
    (hi8 : ∀ t, ∀ x ∈ s.sequence t, -128 ≤ x ∧ x ≤ 127) :
    ∃ c, generateEquivalenceClass ops s = some c ∧ c.Nodup ∧
      ∀ t, t ∈ c ↔ Relation.ReflTransGen (fun x y => ∃ op ∈ ops, y ∈ op x) s t :=
  generateEquivalenceClass_i8 h0 hops ⟨hsize, fun t => ⟨hlen t, hi8 t⟩⟩

/-- C11. For ±1 quadruples the class of a type is the equivalence class of the mathematical relation. -/
theorem C11_class_eq (n : ℕ) [NeZero n] (hn : n ≤ 100) (ty : SeqType) (s : QuadSeq) (hs : PMQuad n s) :
    ∃ c, generateEquivalenceClass (equivalences ty) s = some c ∧ c.Nodup ∧
      ∀ t, t ∈ c ↔ PMQuad n t ∧ TypeEquiv ty (fam n s) (fam n t) := by
  have hw := PMQuad.wf hs
  have hg : ∀ op ∈ equivalences ty, GoodOp n op := fun op h => good_all hn op (equivalences_sub ty op h)
  obtain ⟨c, h1, h2, h3⟩ := generateEquivalenceClass_spec hg hw
  refine ⟨c, h1, h2, fun t => ?_⟩
  rw [h3, reach_type hn ty hw]
  constructor
  · intro h
    refine ⟨pmquad_iff.2 ⟨h.1, ?_⟩, h.2⟩
    exact reach_ent (V := {x | x = 1 ∨ x = -1}) hg (by rintro x (rfl | rfl) <;> simp) hw (pmfam_fam hs)
      ((reach_type hn ty hw t).2 h)
  · exact fun h => ⟨PMQuad.wf h.1, h.2⟩

theorem typeEquiv_equivalence (n : ℕ) [NeZero n] (ty : SeqType) : Equivalence (TypeEquiv ty (n := n)) := by
  have hE : ∀ R : Fam n → Fam n → Prop, Equivalence (Relation.EqvGen R) := fun R =>
    ⟨.refl, fun h => .symm _ _ h, fun h1 h2 => .trans _ _ _ h1 h2⟩
  cases ty
  case quaternionType => exact hE _
  case williamsonType => exact hE _
  case williamson => exact hE _
  all_goals exact ⟨fun _ => rfl, Eq.symm, Eq.trans⟩

/-- C11. `equivalent_to` decides equivalence of ±1 quadruples. -/
theorem C11_equivalentTo (n : ℕ) [NeZero n] (hn : n ≤ 100) (ty : SeqType) (s t : QuadSeq) (hs : PMQuad n s)
    (ht : PMQuad n t) :
    ∃ b, s.equivalentTo t ty = some b ∧ (b = true ↔ TypeEquiv ty (fam n s) (fam n t)) := by
  obtain ⟨c, h1, _, h3⟩ := C11_class_eq n hn ty s hs
  refine ⟨decide (t ∈ c), by unfold QuadSeq.equivalentTo; rw [h1]; rfl, ?_⟩
  rw [decide_eq_true_iff, h3]
  exact ⟨fun h => h.2, fun h => ⟨ht, h⟩⟩

/-- C11. `equivalent_to` is reflexive, symmetric and transitive on ±1 quadruples of one length. -/
theorem C11_equivalence (n : ℕ) [NeZero n] (hn : n ≤ 100) (ty : SeqType) :
    (∀ s, PMQuad n s → s.equivalentTo s ty = some true) ∧
    (∀ s t, PMQuad n s → PMQuad n t → s.equivalentTo t ty = some true → t.equivalentTo s ty = some true) ∧
    (∀ s t u, PMQuad n s → PMQuad n t → PMQuad n u → s.equivalentTo t ty = some true →
      t.equivalentTo u ty = some true → s.equivalentTo u ty = some true) := by
  have key : ∀ s t, PMQuad n s → PMQuad n t →
      (s.equivalentTo t ty = some true ↔ TypeEquiv ty (fam n s) (fam n t)) := by
    intro s t hs ht
    obtain ⟨b, h1, h2⟩ := C11_equivalentTo n hn ty s t hs ht
    rw [h1, ← h2]; simp
  have hE := typeEquiv_equivalence n ty
  refine ⟨fun s hs => (key s s hs hs).2 (hE.refl _), fun s t hs ht h => ?_, fun s t u hs ht hu h1 h2 => ?_⟩
  · exact (key t s ht hs).2 (hE.symm ((key s t hs ht).1 h))
  · exact (key s u hs hu).2 (hE.trans ((key s t hs ht).1 h1) ((key t u ht hu).1 h2))

/-- C11. Two classes of ±1 quadruples are equal as sets or disjoint. -/
theorem C11_partition (n : ℕ) [NeZero n] (hn : n ≤ 100) (ty : SeqType) (s t : QuadSeq) (hs : PMQuad n s)
    (ht : PMQuad n t) (c d : List QuadSeq) (hc : generateEquivalenceClass (equivalences ty) s = some c)
    (hd : generateEquivalenceClass (equivalences ty) t = some d) :
    s ∈ c ∧ ((∀ u, u ∈ c ↔ u ∈ d) ∨ ∀ u, u ∈ c → u ∉ d) := by
  obtain ⟨c', h1, _, h3⟩ := C11_class_eq n hn ty s hs
  obtain ⟨d', k1, _, k3⟩ := C11_class_eq n hn ty t ht
  rw [hc] at h1; cases h1
  rw [hd] at k1; cases k1
  have hE := typeEquiv_equivalence n ty
  refine ⟨(h3 s).2 ⟨hs, hE.refl _⟩, ?_⟩
  by_cases h : TypeEquiv ty (fam n s) (fam n t)
  · left
    intro u
    rw [h3, k3]
    exact ⟨fun k => ⟨k.1, hE.trans (hE.symm h) k.2⟩, fun k => ⟨k.1, hE.trans h k.2⟩⟩
  · right
    intro u hu hu'
    exact h (hE.trans ((h3 u).1 hu).2 (hE.symm ((k3 u).1 hu').2))

/-- A quadruple of length 1. -/
def ex1 : QuadSeq := { size := 1, a := [1], b := [1], c := [-1], d := [1] }

/-- A single class of length 1, computed by running the model. -/
example : PMQuad 1 ex1 ∧ ((classLoop (equivalences .quaternionType) 10 [ex1]).map List.length) = some 16 := by
  decide +kernel

/-! ## C12: the symbolic class -/

/-- C12. For lengths 1 to 31 and every list of the equivalence operations the symbolic class has exactly the
members of the directly generated class. -/
theorem C12_fast_eq (n : ℕ) [NeZero n] (hn : n ≤ 31) (ops : List Op) (hops : ∀ op ∈ ops, op ∈ allOps) (s : QuadSeq)
    (hs : PMQuad n s) :
    ∃ G c d, generateSymmetryGroup n ops = some G ∧ generateEquivalenceClassFast s G = some c ∧
      generateEquivalenceClass ops s = some d ∧ c.Nodup ∧ d.Nodup ∧ ∀ t, t ∈ c ↔ t ∈ d := by
  have hg : ∀ op ∈ ops, GoodOp n op := fun op h => good_all (by omega) op (hops op h)
  obtain ⟨G, c, h1, h2, h3, h4⟩ := fast_spec hn hg (PMQuad.wf hs)
  obtain ⟨d, k1, k2, k3⟩ := generateEquivalenceClass_spec hg (PMQuad.wf hs)
  exact ⟨G, c, d, h1, h2, k1, h3, k2, fun t => by rw [h4, k3]⟩

/-- C12. The operation lists used by the code are covered. -/
theorem C12_lists (ty : SeqType) : (∀ op ∈ equivalences ty, op ∈ allOps) ∧ ∀ op ∈ canonicalOps ty, op ∈ allOps :=
  ⟨equivalences_sub ty, canonicalOps_sub ty⟩

/-- C12. At length 32 the guarantee is lost for every ±1 quadruple and every list of operations: the symbolic
class contains a quadruple that is not in the class. -/
theorem C12_overflow (ops : List Op) (hops : ∀ op ∈ ops, op ∈ allOps) (s : QuadSeq) (hs : PMQuad 32 s) :
    ∃ G c d, generateSymmetryGroup 32 ops = some G ∧ generateEquivalenceClassFast s G = some c ∧
      generateEquivalenceClass ops s = some d ∧ ∃ t ∈ c, t ∉ d := by
  obtain ⟨G, c, h1, h2, h3, h4⟩ := fast32 hops hs
  have hg : ∀ op ∈ ops, GoodOp 32 op := fun op h => good_all (by omega) op (hops op h)
  obtain ⟨d, k1, k2, k3⟩ := generateEquivalenceClass_spec hg (PMQuad.wf hs)
  exact ⟨G, c, d, h1, h2, k1, _, h3, fun h => h4 ((k3 _).1 h)⟩

example : PMQuad 5 exQTS5 ∧ PMQuad 32 (QuadSeq.new 32) := ⟨exQTS5_pm, by decide⟩

/-- The symbolic class at length 2, run in the model. -/
example : ((classLoop [equivalentUniformShift, equivalentNegate] 6 (labelSeq 2 :: [])).bind fun G =>
    generateEquivalenceClassFast { size := 2, a := [1, -1], b := [1, 1], c := [-1, 1], d := [1, 1] } G).map
      List.length = some 16 := by decide +kernel

end Props
