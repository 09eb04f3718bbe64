import Verif.Model.Driver
import Verif.Props.Program

/-!
# Helper lemmas: the row sums of the matches
-/

set_option linter.unusedSectionVars false
set_option linter.unusedVariables false

namespace Proofs.Joined
open Model Spec Proofs Proofs.Files Proofs.Program

variable {n : ℕ} [NeZero n]

theorem forall₂_left {α β : Type} {R : α → β → Prop} {l : List α} {l' : List β} (h : List.Forall₂ R l l') {b : β}
    (hb : b ∈ l') : ∃ a ∈ l, R a b := by
  induction h with
  | nil => cases hb
  | cons hab _ ih =>
    rcases List.mem_cons.1 hb with rfl | hb
    · exact ⟨_, List.mem_cons_self .., hab⟩
    · obtain ⟨a, ha, h⟩ := ih hb
      exact ⟨a, List.mem_cons_of_mem _ ha, h⟩

/-- The sequence files of a directory after sorting. -/
theorem seq_file {K : Type} {A : Fl K} {ty : SeqType} {rs : Quad} {mo : MatchOption} {pr : Option Pairing} {d0 : Dir}
    (h : writePairsRowsum A ty rs n mo pr = some d0) {f : Text × Text} (hf : f ∈ sortDir d0) {t : Tag}
    (ht : f.1 = seqFileName t) : sequencesText (rowsumSequences ty (tagRowsum rs t) n) = some f.2 := by
  unfold writePairsRowsum at h
  rcases hpt : pairingTags pr with ⟨⟨t1, t2⟩, ⟨t3, t4⟩⟩
  rw [hpt] at h
  dsimp only at h
  obtain ⟨tw, h1, h⟩ := Option.bind_eq_some_iff.1 h
  obtain ⟨tx, h2, h⟩ := Option.bind_eq_some_iff.1 h
  obtain ⟨ty', h3, h⟩ := Option.bind_eq_some_iff.1 h
  obtain ⟨tz, h4, h⟩ := Option.bind_eq_some_iff.1 h
  obtain ⟨p12, h5, h⟩ := Option.bind_eq_some_iff.1 h
  obtain ⟨p34, h6, rfl⟩ := Option.map_eq_some_iff.1 h
  unfold sortDir at hf
  simp only [List.map_cons, List.map_nil, Pipeline.seqName_notpair, Pipeline.pairName_suffix, if_true, Bool.false_eq_true,
    if_false, List.mem_cons, List.not_mem_nil, or_false] at hf
  have hne : ∀ u v, pairFileName u v ++ sortedSuffix ≠ seqFileName t := fun u v => by
    cases u <;> cases v <;> cases t <;> decide
  have hinj : ∀ u, seqFileName u = seqFileName t → u = t := fun u => by cases u <;> cases t <;> decide
  rcases hf with rfl | rfl | rfl | rfl | rfl | rfl
  · cases hinj _ ht; exact h1
  · cases hinj _ ht; exact h2
  · cases hinj _ ht; exact h3
  · cases hinj _ ht; exact h4
  · exact absurd ht (hne _ _)
  · exact absurd ht (hne _ _)

/-- Generated row sums are sorted in the sense of the assertion. -/
theorem sorted_of_generated {ty : SeqType} {l : List Quad} (hl : generateRowsums n ty = some l) {q : QuadSeq}
    (h : rowsums q ∈ l) : hasSortedRowsums q = true := by
  obtain ⟨l', h1, _, h3⟩ := Props.C24_rowsums_exact n ty
  rw [hl] at h1
  cases h1
  unfold rowsums at h
  rw [h3] at h
  obtain ⟨_, _, h⟩ := h
  unfold hasSortedRowsums quadContainsDup quadContainsZero rowsums
  simp only [Bool.or_eq_true, decide_eq_true_eq]
  split <;> rw [decide_eq_true_eq] <;> omega

/-- Every match found in the directories written by the pair stage has row sums that were generated. -/
theorem joined_rowsums {K : Type} {A : Fl K} (hn : n < 2 ^ 62) {ty : SeqType} (hty : Supported ty) {mo : MatchOption}
    {pr : Option Pairing} {w : List (Text × Dir)} (hw : writePairs A n ty mo pr = some w) {dirs : List (Text × Dir)}
    (hd : Listing w dirs) {m : List QuadSeq} (hm : joinAll ty dirs = some m) {l : List Quad}
    (hl : generateRowsums n ty = some l) : ∀ q ∈ m, OfType n ty q ∧ rowsums q ∈ l := by
  intro q hq
  unfold joinAll at hm
  obtain ⟨ls, hls, rfl⟩ := Option.map_eq_some_iff.1 hm
  obtain ⟨r, hr, hq⟩ := List.mem_flatten.1 hq
  obtain ⟨e, he, her⟩ := forall₂_left (Conversion.mapM_some_iff.1 hls) hr
  obtain ⟨ds, hp, hf⟩ := hd
  obtain ⟨e0, he0, hn0, hp0⟩ : ∃ e0 ∈ ds, e.1 = e0.1 ∧ e.2.Perm (sortDir e0.2) := by
    obtain ⟨b, hb, h⟩ := forall₂_left hf.flip he
    exact ⟨b, hb, h⟩
  obtain ⟨rs, hrs, _, hd0⟩ := forall₂_left (writePairs_dirs A hw hl) (hp.mem_iff.1 he0)
  have hsq := Complete.generated_squares hl hrs
  have hspec : ∀ t x, x ∈ rowsumSequences ty (tagRowsum rs t) n → PMSeq n x ∧ x.sum = tagRowsum rs t := fun t x hx =>
    ((Complete.rowsumSequences_spec hn ty (Complete.rowsum_small hn rs hsq t).1 (Complete.rowsum_small hn rs hsq t).2 x).1
      hx).1
  have hread : ∀ f ∈ e.2, ∀ t, f.1 = seqFileName t →
      fileToSequences f.2 = some (rowsumSequences ty (tagRowsum rs t) n) := by
    intro f hf t ht
    have := seq_file hd0 (hp0.mem_iff.1 hf) ht
    rw [sequencesText_pm fun s hs => (hspec t s hs).1.2] at this
    rw [← Option.some.inj this]
    exact fileToSeq_pm fun s hs => (hspec t s hs).1.2
  obtain ⟨hof, _, _, _, _, _, _, _, _, _, _, _, _, _, _, _, _, _, _, _, hq'⟩ := Enumerate.dir_sound (n := n) hty her
    (fun f hf t ht l hl x hx => by
      rw [hread f hf t ht] at hl
      cases hl
      exact (hspec t x hx).1.1) q hq
  refine ⟨hof, ?_⟩
  have hsum : ∀ t, (q.sequence t).sum = tagRowsum rs t := by
    intro t
    obtain ⟨f, hf, l, i, e1, e2, _, e4⟩ := hq' t
    rw [hread f hf t e1] at e2
    cases e2
    exact (hspec t _ (List.mem_of_getElem? e4)).2
  have : rowsums q = rs := by
    unfold rowsums
    simp only [rowsum_eq_sum]
    exact Prod.ext (hsum .W) (Prod.ext (hsum .X) (Prod.ext (hsum .Y) (hsum .Z)))
  rw [this]
  exact hrs

/-- The assertion of `join_pairs` holds. -/
theorem joined_sorted {K : Type} {A : Fl K} (hn : n < 2 ^ 62) {ty : SeqType} (hty : Supported ty) {mo : MatchOption}
    {pr : Option Pairing} {w : List (Text × Dir)} (hw : writePairs A n ty mo pr = some w) {dirs : List (Text × Dir)}
    (hd : Listing w dirs) {m : List QuadSeq} (hm : joinAll ty dirs = some m) : ∀ q ∈ m, hasSortedRowsums q = true := by
  obtain ⟨l, hl, _⟩ := Props.C24_rowsums_exact n ty
  exact fun q hq => sorted_of_generated hl (joined_rowsums hn hty hw hd hm hl q hq).2

end Proofs.Joined
