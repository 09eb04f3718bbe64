import Verif.Model.Split
import Verif.Proofs.Conversion
import Verif.Props.FindWrite
import Mathlib.Data.List.Perm.Basic

/-!
# C62: the pair stage in two processes
-/

namespace Props
open Model Spec Proofs

/-- C62. For one row sum and a recognised pairing, the one-process command ends normally exactly if both runs of the
single-pair command do, and it writes the same files. -/
theorem C62_rowsum {K : Type} (A : Fl K) (ty : SeqType) (rs : Quad) (p : ℕ) (mo : MatchOption) (pr : Pairing) :
    (∀ d, writePairsRowsum A ty rs p mo (some pr) = some d → ∃ d1 d2,
      writePairSingleRowsum A ty rs p mo (some pr) 1 = some d1 ∧
      writePairSingleRowsum A ty rs p mo (some pr) 2 = some d2 ∧ (d1 ++ d2).Perm d) ∧
    (writePairsRowsum A ty rs p mo (some pr) = none →
      writePairSingleRowsum A ty rs p mo (some pr) 1 = none ∨ writePairSingleRowsum A ty rs p mo (some pr) 2 = none) := by
  unfold writePairsRowsum writePairSingleRowsum
  have perm1 : ∀ w x y z a b : Text × Text, ([w, x, a] ++ [y, z, b]).Perm [w, x, y, z, a, b] := by
    intro w x y z a b
    rw [List.perm_iff_count]; intro u
    simp only [List.count_append, List.count_cons, List.count_nil]; omega
  have perm2 : ∀ w x y z a b : Text × Text, ([w, y, a] ++ [x, z, b]).Perm [w, x, y, z, a, b] := by
    intro w x y z a b
    rw [List.perm_iff_count]; intro u
    simp only [List.count_append, List.count_cons, List.count_nil]; omega
  have perm3 : ∀ w x y z a b : Text × Text, ([w, z, a] ++ [x, y, b]).Perm [w, x, y, z, a, b] := by
    intro w x y z a b
    rw [List.perm_iff_count]; intro u
    simp only [List.count_append, List.count_cons, List.count_nil]; omega
  cases pr <;> simp only [pairingTags, getIndices, if_true, show (2 : ℕ) ≠ 1 by omega, if_false]
  all_goals
    generalize writeSeqPairs A _ _ _ ty rs p .left mo = o1
    generalize writeSeqPairs A _ _ _ ty rs p .right mo = o2
    generalize sequencesText (rowsumSequences ty (tagRowsum rs .W) p) = ow
    generalize sequencesText (rowsumSequences ty (tagRowsum rs .X) p) = ox
    generalize sequencesText (rowsumSequences ty (tagRowsum rs .Y) p) = oy
    generalize sequencesText (rowsumSequences ty (tagRowsum rs .Z) p) = oz
    constructor
    · intro d h
      cases ow <;> cases ox <;> cases oy <;> cases oz <;> cases o1 <;> cases o2 <;>
        simp only [Option.bind_none, Option.bind_some, Option.map_none, Option.map_some, reduceCtorEq, Option.some.injEq] at h
      subst h
      exact ⟨_, _, rfl, rfl, by first | exact perm1 _ _ _ _ _ _ | exact perm2 _ _ _ _ _ _ | exact perm3 _ _ _ _ _ _⟩
    · intro h
      cases ow <;> cases ox <;> cases oy <;> cases oz <;> cases o1 <;> cases o2 <;>
        simp [Option.bind_none, Option.bind_some, Option.map_none, Option.map_some] at h ⊢

/-- C62. The two processes write different files, so the order in which they run is irrelevant. -/
theorem C62_distinct_files {K : Type} (A : Fl K) (ty : SeqType) (rs : Quad) (p : ℕ) (mo : MatchOption) (pr : Pairing)
    (d1 d2 : Dir) (h1 : writePairSingleRowsum A ty rs p mo (some pr) 1 = some d1)
    (h2 : writePairSingleRowsum A ty rs p mo (some pr) 2 = some d2) : ((d1 ++ d2).map Prod.fst).Nodup := by
  have key : ∀ k t d, getIndices (some pr) k = some t → writePairSingleRowsum A ty rs p mo (some pr) k = some d →
      d.map Prod.fst = [seqFileName t.1, seqFileName t.2, pairFileName t.1 t.2] := by
    intro k t d ht h
    unfold writePairSingleRowsum at h
    rw [ht] at h
    dsimp only at h
    simp only [Option.bind_eq_some_iff, Option.map_eq_some_iff] at h
    obtain ⟨_, _, _, _, _, _, rfl⟩ := h
    rfl
  cases pr
  · rw [List.map_append, key 1 _ _ rfl h1, key 2 _ _ rfl h2]; decide
  · rw [List.map_append, key 1 _ _ rfl h1, key 2 _ _ rfl h2]; decide
  · rw [List.map_append, key 1 _ _ rfl h1, key 2 _ _ rfl h2]; decide

theorem listing_of_forall₂ {w w' : List (Text × Dir)} (h : List.Forall₂ (fun a b => a.1 = b.1 ∧ a.2.Perm b.2) w w')
    {dirs : List (Text × Dir)} (hl : Listing w dirs) : Listing w' dirs := by
  obtain ⟨ds, hp, hf⟩ := hl
  obtain ⟨ds', h1, h2⟩ := (List.perm_comp_forall₂ hp h)
  refine ⟨ds', h2, ?_⟩
  clear hp h2
  induction hf generalizing ds' with
  | nil => cases h1; exact .nil
  | cons a b ih =>
    cases h1 with
    | cons c d =>
      refine .cons ⟨a.1.trans c.1, a.2.trans ?_⟩ (ih _ d)
      unfold sortDir
      exact c.2.map _

/-- C62. The whole pair stage: if the one-process command ends normally, so do both processes; the join stage finds the
same directories with the same files. So everything proved about the join stage after the one-process command (such as
`C32_enumeration`) holds after the two processes. -/
theorem C62_split {K : Type} (A : Fl K) (p : ℕ) (ty : SeqType) (mo : MatchOption) (pr : Pairing) (w : List (Text × Dir))
    (h : writePairs A p ty mo (some pr) = some w) :
    ∃ w1 w2, writePairSingle A p ty mo (some pr) 1 = some w1 ∧ writePairSingle A p ty mo (some pr) 2 = some w2 ∧
      w1.map Prod.fst = w.map Prod.fst ∧ w2.map Prod.fst = w.map Prod.fst ∧
      ∀ dirs, Listing (bothProcesses w1 w2) dirs ↔ Listing w dirs := by
  unfold writePairs at h
  rw [Option.bind_eq_some_iff] at h
  obtain ⟨l, hl, h⟩ := h
  have key : ∃ w1 w2, (l.mapM fun rs => (writePairSingleRowsum A ty rs p mo (some pr) 1).map fun d => (rowsumDirName rs, d)) = some w1 ∧
      (l.mapM fun rs => (writePairSingleRowsum A ty rs p mo (some pr) 2).map fun d => (rowsumDirName rs, d)) = some w2 ∧
      w1.map Prod.fst = w.map Prod.fst ∧ w2.map Prod.fst = w.map Prod.fst ∧
      List.Forall₂ (fun a b => a.1 = b.1 ∧ a.2.Perm b.2) (bothProcesses w1 w2) w := by
    clear hl
    induction l generalizing w with
    | nil =>
      simp only [List.mapM_nil, Option.pure_def, Option.some.injEq] at h
      subst h
      exact ⟨[], [], rfl, rfl, rfl, rfl, .nil⟩
    | cons rs l ih =>
      simp only [List.mapM_cons, Option.bind_eq_bind, Option.bind_eq_some_iff, Option.pure_def, Option.some.injEq,
        Option.map_eq_some_iff] at h
      obtain ⟨_, ⟨d, hd, rfl⟩, w', hw', rfl⟩ := h
      obtain ⟨d1, d2, e1, e2, e3⟩ := (C62_rowsum A ty rs p mo pr).1 d hd
      obtain ⟨w1, w2, f1, f2, f3, f4, f5⟩ := ih w' hw'
      refine ⟨(rowsumDirName rs, d1) :: w1, (rowsumDirName rs, d2) :: w2, ?_, ?_, ?_, ?_, .cons ⟨rfl, e3⟩ f5⟩
      · simp [List.mapM_cons, e1, f1]
      · simp [List.mapM_cons, e2, f2]
      · simp [f3]
      · simp [f4]
  obtain ⟨w1, w2, e1, e2, e3, e4, e5⟩ := key
  refine ⟨w1, w2, ?_, ?_, e3, e4, fun dirs => ⟨listing_of_forall₂ e5, listing_of_forall₂ ?_⟩⟩
  · unfold writePairSingle; rw [hl]; exact e1
  · unfold writePairSingle; rw [hl]; exact e2
  · exact (e5.flip).imp fun a b h => ⟨h.1.symm, h.2.symm⟩

/-- C62. The enumeration with the pair stage run in two processes: the same statement as `C32_enumeration`. -/
theorem C62_enumeration {K : Type} (A : Fl K) (val : K → ℝ) (n : ℕ) [NeZero n] (hn : n ≤ 31) {mo : MatchOption} (hN : Numerics A val n mo) (ty : SeqType) (hty : ty = .quaternionType ∨ ty = .williamsonType) (pr : Pairing) :
    ∃ w1 w2, writePairSingle A n ty mo (some pr) 1 = some w1 ∧
      writePairSingle A n ty mo (some pr) 2 = some w2 ∧
      ∀ dirs, Listing (bothProcesses w1 w2) dirs → (∃ q, OfType n ty q) →
        ∃ r, joinPairs ty dirs = some r ∧ r.Nodup ∧ ∀ x, x ∈ r ↔ LeastInClass n ty x := by
  obtain ⟨w, h1, _, h2⟩ := C32_enumeration A val n hn hN ty hty (some pr)
  obtain ⟨w1, w2, e1, e2, _, _, e3⟩ := C62_split A n ty mo pr w h1
  refine ⟨w1, w2, e1, e2, fun dirs hd hex => ?_⟩
  obtain ⟨r, hr, h3, h4, _⟩ := h2 dirs ((e3 dirs).1 hd) hex
  exact ⟨r, hr, h3, h4⟩

-- The hypotheses are met: the two processes end normally for length 5, and the join finds a sequence.
example : ∃ w1 w2 r, writePairSingle exactFl 5 .quaternionType .correlation (some .WX) 1 = some w1 ∧
    writePairSingle exactFl 5 .quaternionType .correlation (some .WX) 2 = some w2 ∧
    joinPairs .quaternionType ((bothProcesses w1 w2).map fun d => (d.1, sortDir d.2)) = some r ∧ r.Nodup := by
  obtain ⟨w1, w2, h1, h2, h3⟩ := C62_enumeration exactFl id 5 (by norm_num) (C28_numerics 5 _) .quaternionType (.inl rfl) .WX
  obtain ⟨r, hr, hn, _⟩ := h3 _ (listing_self _) ⟨exQTS5, exQTS5_isQTS⟩
  exact ⟨w1, w2, r, h1, h2, hr, hn⟩

/-- C62. With an unrecognised pairing argument the commands differ: the one-process command uses the pairing WZ, each of
the two processes creates no file. -/
theorem C62_unrecognised_pairing {K : Type} (A : Fl K) (ty : SeqType) (rs : Quad) (p : ℕ) (mo : MatchOption) :
    writePairsRowsum A ty rs p mo none = writePairsRowsum A ty rs p mo (some .WZ) ∧
      ∀ k, writePairSingleRowsum A ty rs p mo none k = some [] := ⟨rfl, fun _ => rfl⟩

end Props
