import Mathlib.Data.List.Forall2
import Verif.Proofs.Store
import Verif.Proofs.Complete
import Verif.Props.Split

/-!
# Helper lemmas: runs of the program
-/

set_option linter.unusedSectionVars false
set_option linter.unusedVariables false
set_option linter.unusedSimpArgs false

namespace Proofs.Program
open Model Spec Proofs.Store

/-! ## Runs -/

theorem op_bind {α : Type} (o : Write) (f : Unit → Run α) : (Run.op o >>= f) = ⟨o :: (f ()).ops, (f ()).result⟩ := rfl

theorem some_bind {α β : Type} (a : α) (f : α → Run β) : (Run.ofOption (some a) >>= f) = f a := by
  show (⟨[] ++ (f a).ops, (f a).result⟩ : Run β) = f a
  simp

theorem none_bind {α β : Type} (f : α → Run β) : (Run.ofOption (none : Option α) >>= f) = ⟨[], none⟩ := rfl

theorem mk_bind {α β : Type} (ops : List Write) (a : α) (f : α → Run β) :
    ((⟨ops, some a⟩ : Run α) >>= f) = ⟨ops ++ (f a).ops, (f a).result⟩ := rfl

theorem mk_bind_none {α β : Type} (ops : List Write) (f : α → Run β) :
    ((⟨ops, none⟩ : Run α) >>= f) = ⟨ops, none⟩ := rfl

theorem pure_eq {α : Type} (a : α) : (pure a : Run α) = ⟨[], some a⟩ := rfl

theorem bind_result {α β : Type} (r : Run α) (f : α → Run β) : (r >>= f).result = r.result.bind fun a => (f a).result := by
  obtain ⟨ops, res⟩ := r
  cases res <;> rfl

theorem mem_bind {α β : Type} {r : Run α} {f : α → Run β} {P : Write → Prop} (h1 : ∀ o ∈ r.ops, P o)
    (h2 : ∀ a, ∀ o ∈ (f a).ops, P o) : ∀ o ∈ (r >>= f).ops, P o := by
  obtain ⟨ops, res⟩ := r
  cases res with
  | none => exact h1
  | some a =>
    intro o ho
    rcases List.mem_append.1 ho with h | h
    · exact h1 o h
    · exact h2 a o h

/-! ## Writing the files of a directory -/

/-- Every file is created empty and then written. -/
def doubled (ty n dir : Text) (d : Dir) : List Write :=
  d.flatMap fun f => [.put ty n dir f.1 [], .put ty n dir f.1 f.2]

theorem doubled_cons (ty n dir : Text) (f : Text × Text) (d : Dir) :
    doubled ty n dir (f :: d) = .put ty n dir f.1 [] :: .put ty n dir f.1 f.2 :: doubled ty n dir d := rfl

theorem lastPut_doubled {ty n dir : Text} {d : Dir} (h : (d.map Prod.fst).Nodup) (name : Text) :
    lastPut (doubled ty n dir d) dir name = lookup d name := by
  induction d with
  | nil => rfl
  | cons f d ih =>
    rw [List.map_cons, List.nodup_cons] at h
    rw [doubled_cons, lookup_cons]
    have e : lastPut (.put ty n dir f.1 [] :: .put ty n dir f.1 f.2 :: doubled ty n dir d) dir name =
        (lastPut (doubled ty n dir d) dir name).or (if f.1 = name then some f.2 else none) := by
      have := lastPut_append [.put ty n dir f.1 [], .put ty n dir f.1 f.2] (doubled ty n dir d) dir name
      rw [List.cons_append, List.cons_append, List.nil_append] at this
      rw [this]
      congr 1
      unfold lastPut
      by_cases hf : f.1 = name <;> simp [hf]
    rw [e, ih h.2]
    by_cases hf : f.1 = name
    · rw [if_pos hf, if_pos hf]
      have : lookup d name = none := lookup_eq_none.2 (hf ▸ h.1)
      rw [this]; rfl
    · rw [if_neg hf, if_neg hf, Option.or_none]

theorem writes_doubled (ty n dir : Text) {d : Dir} (h : (d.map Prod.fst).Nodup) :
    Writes ty n dir d (.mkdir ty n dir :: doubled ty n dir d) := by
  refine ⟨_, rfl, ?_, lastPut_doubled h⟩
  intro o ho
  obtain ⟨f, _, hf⟩ := List.mem_flatMap.1 ho
  simp only [List.mem_cons, List.not_mem_nil, or_false] at hf
  rcases hf with rfl | rfl
  · exact ⟨_, _, rfl⟩
  · exact ⟨_, _, rfl⟩

theorem writeFile_some (ty n dir name text : Text) :
    writeFile ty n dir name (some text) = ⟨[.put ty n dir name [], .put ty n dir name text], some ()⟩ := rfl

theorem writeFile_none (ty n dir name : Text) : writeFile ty n dir name none = ⟨[.put ty n dir name []], none⟩ := rfl

/-- The number of pairs in one file. -/
def pairCount {F : Type} (A : Fl F) (ty : SeqType) (rs : Quad) (p : ℕ) (mo : MatchOption) (t : Tag × Tag) (side : Side) : ℕ :=
  ((pairLines A (rowsumSequences ty (tagRowsum rs t.1) p) (rowsumSequences ty (tagRowsum rs t.2) p) t ty p side mo).map
    List.length).getD 0

theorem seqPairs_some {F : Type} (A : Fl F) (folder n dir : Text) {seqs1 seqs2 : List (List Int)} {tags : Tag × Tag}
    {ty : SeqType} {rs : Quad} {p : ℕ} {side : Side} {mo : MatchOption} {text : Text}
    (h : writeSeqPairs A seqs1 seqs2 tags ty rs p side mo = some text) :
    writeSeqPairsRun A folder n dir seqs1 seqs2 tags ty rs p side mo =
      ⟨[.put folder n dir (pairFileName tags.1 tags.2) [], .put folder n dir (pairFileName tags.1 tags.2) text],
        some (((pairLines A seqs1 seqs2 tags ty p side mo).map List.length).getD 0)⟩ := by
  unfold writeSeqPairs at h
  unfold writeSeqPairsRun
  split at h
  · rename_i hv
    obtain ⟨lines, h1, rfl⟩ := Option.map_eq_some_iff.1 h
    rw [if_pos hv, h1, some_bind, op_bind, some_bind, op_bind]
    rfl
  · cases h

theorem seqPairs_none {F : Type} (A : Fl F) (folder n dir : Text) {seqs1 seqs2 : List (List Int)} {tags : Tag × Tag}
    {ty : SeqType} {rs : Quad} {p : ℕ} {side : Side} {mo : MatchOption}
    (h : writeSeqPairs A seqs1 seqs2 tags ty rs p side mo = none) :
    (writeSeqPairsRun A folder n dir seqs1 seqs2 tags ty rs p side mo).result = none := by
  unfold writeSeqPairs at h
  unfold writeSeqPairsRun
  split at h
  · rename_i hv
    rw [if_pos hv, some_bind, op_bind, Option.map_eq_none_iff.1 h, none_bind]
  · rename_i hv
    rw [if_neg hv, none_bind]

theorem seqtype_text (ty : SeqType) : strToSeqtype ty.toText = some ty := (Props.C55_seqtype_roundtrip ty _).2 rfl

theorem rowsumRun_some {F : Type} (A : Fl F) {ty : SeqType} {rs : Quad} {p : ℕ} {mo : MatchOption} {pr : Option Pairing}
    {d : Dir} (h : writePairsRowsum A ty rs p mo pr = some d) :
    writePairsRowsumRun A ty.toText rs p mo pr =
      ⟨.mkdir ty.toText (natText p) (rowsumDirName rs) :: doubled ty.toText (natText p) (rowsumDirName rs) d,
        some (pairCount A ty rs p mo (pairingTags pr).1 .left + pairCount A ty rs p mo (pairingTags pr).2 .right)⟩ := by
  unfold writePairsRowsum at h
  dsimp only at h
  simp only [Option.bind_eq_some_iff, Option.map_eq_some_iff] at h
  obtain ⟨tw, e1, tx, e2, ty', e3, tz, e4, p12, e5, p34, e6, rfl⟩ := h
  unfold writePairsRowsumRun
  dsimp only
  rw [seqtype_text, op_bind, some_bind]
  rw [e1, e2, e3, e4, writeFile_some, writeFile_some, writeFile_some, writeFile_some,
    seqPairs_some A _ _ _ e5, seqPairs_some A _ _ _ e6]
  rfl

theorem rowsumRun_none {F : Type} (A : Fl F) {ty : SeqType} {rs : Quad} {p : ℕ} {mo : MatchOption} {pr : Option Pairing}
    (h : writePairsRowsum A ty rs p mo pr = none) : (writePairsRowsumRun A ty.toText rs p mo pr).result = none := by
  unfold writePairsRowsum at h
  dsimp only at h
  unfold writePairsRowsumRun
  dsimp only
  rw [seqtype_text, op_bind, some_bind]
  dsimp only
  cases e1 : sequencesText (rowsumSequences ty (tagRowsum rs .W) p) with
  | none => rw [writeFile_none]; rfl
  | some tw =>
    cases e2 : sequencesText (rowsumSequences ty (tagRowsum rs .X) p) with
    | none => rw [writeFile_none, writeFile_some]; rfl
    | some tx =>
      cases e3 : sequencesText (rowsumSequences ty (tagRowsum rs .Y) p) with
      | none => rw [writeFile_none, writeFile_some, writeFile_some]; rfl
      | some ty' =>
        cases e4 : sequencesText (rowsumSequences ty (tagRowsum rs .Z) p) with
        | none => rw [writeFile_none, writeFile_some, writeFile_some, writeFile_some]; rfl
        | some tz =>
          simp only [writeFile_some]
          rw [e1, e2, e3, e4] at h
          simp only [Option.bind_some] at h
          simp only [bind_result]
          simp only [Option.bind_some]
          cases e5 : writeSeqPairs A (rowsumSequences ty (tagRowsum rs (pairingTags pr).1.1) p)
            (rowsumSequences ty (tagRowsum rs (pairingTags pr).1.2) p) (pairingTags pr).1 ty rs p .left mo with
          | none => rw [seqPairs_none A _ _ _ e5]; rfl
          | some p12 =>
            rw [seqPairs_some A _ _ _ e5]
            rw [e5, Option.bind_some, Option.map_eq_none_iff] at h
            rw [seqPairs_none A _ _ _ h]; rfl

theorem singleRun_some {F : Type} (A : Fl F) {ty : SeqType} {rs : Quad} {p : ℕ} {mo : MatchOption} {pr : Option Pairing}
    {k : ℕ} {d : Dir} (h : writePairSingleRowsum A ty rs p mo pr k = some d) :
    (writePairSingleRowsumRun A ty.toText rs p mo pr k).ops =
      .mkdir ty.toText (natText p) (rowsumDirName rs) :: doubled ty.toText (natText p) (rowsumDirName rs) d ∧
    (writePairSingleRowsumRun A ty.toText rs p mo pr k).result.isSome := by
  unfold writePairSingleRowsum at h
  unfold writePairSingleRowsumRun
  dsimp only
  rw [seqtype_text, op_bind, some_bind]
  cases hg : getIndices pr k with
  | none =>
    rw [hg] at h
    cases h
    exact ⟨rfl, rfl⟩
  | some t =>
    rw [hg] at h
    dsimp only at h
    simp only [Option.bind_eq_some_iff, Option.map_eq_some_iff] at h
    obtain ⟨t0, e1, t1, e2, pf, e3, rfl⟩ := h
    dsimp only
    rw [e1, e2, writeFile_some, writeFile_some, seqPairs_some A _ _ _ e3]
    exact ⟨rfl, rfl⟩

/-! ## Names of the files -/

theorem rowsum_names {F : Type} (A : Fl F) {ty : SeqType} {rs : Quad} {p : ℕ} {mo : MatchOption} {pr : Option Pairing}
    {d : Dir} (h : writePairsRowsum A ty rs p mo pr = some d) :
    d.map Prod.fst = [seqFileName .W, seqFileName .X, seqFileName .Y, seqFileName .Z,
      pairFileName (pairingTags pr).1.1 (pairingTags pr).1.2, pairFileName (pairingTags pr).2.1 (pairingTags pr).2.2] := by
  unfold writePairsRowsum at h
  dsimp only at h
  simp only [Option.bind_eq_some_iff, Option.map_eq_some_iff] at h
  obtain ⟨tw, e1, tx, e2, ty', e3, tz, e4, p12, e5, p34, e6, rfl⟩ := h
  rfl

theorem rowsum_nodup {F : Type} (A : Fl F) {ty : SeqType} {rs : Quad} {p : ℕ} {mo : MatchOption} {pr : Option Pairing}
    {d : Dir} (h : writePairsRowsum A ty rs p mo pr = some d) : (d.map Prod.fst).Nodup := by
  rw [rowsum_names A h]
  rcases pr with _ | (_ | _ | _) <;> decide

/-- What sorting needs: a pair file, and no sorted file. -/
def Sortable (d : Dir) : Prop :=
  (d.map Prod.fst).Nodup ∧ (∃ f ∈ d, pairSuffix.isSuffixOf f.1 = true) ∧ ∀ f ∈ d, sortedSuffix.isSuffixOf f.1 = false

theorem rowsum_sortable {F : Type} (A : Fl F) {ty : SeqType} {rs : Quad} {p : ℕ} {mo : MatchOption} {pr : Option Pairing}
    {d : Dir} (h : writePairsRowsum A ty rs p mo pr = some d) : Sortable d := by
  have hn := rowsum_names A h
  refine ⟨rowsum_nodup A h, ?_, ?_⟩
  · have : pairFileName (pairingTags pr).1.1 (pairingTags pr).1.2 ∈ d.map Prod.fst := by rw [hn]; simp
    obtain ⟨f, hf, e⟩ := List.mem_map.1 this
    refine ⟨f, hf, ?_⟩
    rw [e]
    rcases pr with _ | (_ | _ | _) <;> decide
  · intro f hf
    have : f.1 ∈ d.map Prod.fst := List.mem_map_of_mem (f := Prod.fst) hf
    rw [hn] at this
    revert this
    generalize f.1 = x
    intro hx
    have key : ∀ x ∈ [seqFileName .W, seqFileName .X, seqFileName .Y, seqFileName .Z,
      pairFileName (pairingTags pr).1.1 (pairingTags pr).1.2, pairFileName (pairingTags pr).2.1 (pairingTags pr).2.2],
      sortedSuffix.isSuffixOf x = false := by
      rcases pr with _ | (_ | _ | _) <;> decide
    exact key x hx

/-! ## The whole pair stage -/

theorem sum_run {F : Type} (A : Fl F) {ty : SeqType} {p : ℕ} {mo : MatchOption} {pr : Option Pairing} {l : List Quad}
    {w : List (Text × Dir)}
    (h : (l.mapM fun rs => (writePairsRowsum A ty rs p mo pr).map fun d => (rowsumDirName rs, d)) = some w) :
    Run.sum (fun rs => writePairsRowsumRun A ty.toText rs p mo pr) l =
      ⟨(w.map fun e => .mkdir ty.toText (natText p) e.1 :: doubled ty.toText (natText p) e.1 e.2).flatten,
        some ((l.map fun rs => pairCount A ty rs p mo (pairingTags pr).1 .left +
          pairCount A ty rs p mo (pairingTags pr).2 .right).sum)⟩ := by
  induction l generalizing w with
  | nil =>
    simp only [List.mapM_nil, Option.pure_def, Option.some.injEq] at h
    subst h
    rfl
  | cons rs l ih =>
    simp only [List.mapM_cons, Option.bind_eq_bind, Option.bind_eq_some_iff, Option.pure_def, Option.some.injEq,
      Option.map_eq_some_iff] at h
    obtain ⟨_, ⟨d, hd, rfl⟩, w', hw', rfl⟩ := h
    unfold Run.sum
    rw [rowsumRun_some A hd]
    show (_ >>= fun a => (Run.sum _ l >>= fun b => Run.pure (a + b))) = _
    rw [mk_bind, ih hw', mk_bind]
    simp [Run.pure]

theorem sum_run_none {F : Type} (A : Fl F) {ty : SeqType} {p : ℕ} {mo : MatchOption} {pr : Option Pairing} {l : List Quad}
    (h : (l.mapM fun rs => (writePairsRowsum A ty rs p mo pr).map fun d => (rowsumDirName rs, d)) = none) :
    (Run.sum (fun rs => writePairsRowsumRun A ty.toText rs p mo pr) l).result = none := by
  induction l with
  | nil => simp at h
  | cons rs l ih =>
    unfold Run.sum
    show (_ >>= fun a => (Run.sum _ l >>= fun b => Run.pure (a + b))).result = _
    simp only [bind_result]
    cases hd : writePairsRowsum A ty rs p mo pr with
    | none => rw [rowsumRun_none A hd]; rfl
    | some d =>
      rw [rowsumRun_some A hd]
      simp only [List.mapM_cons, hd, Option.map_some, Option.bind_eq_bind, Option.bind_some] at h
      rw [ih]
      · rfl
      · by_contra hc
        obtain ⟨w, hw⟩ := Option.ne_none_iff_exists'.1 hc
        rw [hw] at h
        cases h

theorem pairsRun_some {F : Type} (A : Fl F) {ty : SeqType} {p : ℕ} {mo : MatchOption} {pr : Option Pairing}
    {w : List (Text × Dir)} (h : writePairs A p ty mo pr = some w) :
    ∃ l, generateRowsums p ty = some l ∧ writePairsRun A p ty mo pr =
      ⟨(w.map fun e => .mkdir ty.toText (natText p) e.1 :: doubled ty.toText (natText p) e.1 e.2).flatten,
        some ((l.map fun rs => pairCount A ty rs p mo (pairingTags pr).1 .left +
          pairCount A ty rs p mo (pairingTags pr).2 .right).sum)⟩ := by
  unfold writePairs at h
  obtain ⟨l, hl, h⟩ := Option.bind_eq_some_iff.1 h
  refine ⟨l, hl, ?_⟩
  unfold writePairsRun
  rw [hl, some_bind, sum_run A h]

theorem pairsRun_none {F : Type} (A : Fl F) {ty : SeqType} {p : ℕ} {mo : MatchOption} {pr : Option Pairing}
    (h : writePairs A p ty mo pr = none) : (writePairsRun A p ty mo pr).result = none := by
  unfold writePairs at h
  unfold writePairsRun
  cases hl : generateRowsums p ty with
  | none => rw [none_bind]
  | some l =>
    rw [some_bind]
    rw [hl, Option.bind_some] at h
    exact sum_run_none A h

/-- The directories written: one for every row sum. -/
theorem writePairs_dirs {F : Type} (A : Fl F) {ty : SeqType} {p : ℕ} {mo : MatchOption} {pr : Option Pairing}
    {w : List (Text × Dir)} (h : writePairs A p ty mo pr = some w) {l : List Quad} (hl : generateRowsums p ty = some l) :
    List.Forall₂ (fun rs e => e.1 = rowsumDirName rs ∧ writePairsRowsum A ty rs p mo pr = some e.2) l w := by
  unfold writePairs at h
  rw [hl, Option.bind_some, Conversion.mapM_some_iff] at h
  refine h.imp fun rs e he => ?_
  obtain ⟨d, hd, rfl⟩ := Option.map_eq_some_iff.1 he
  exact ⟨rfl, hd⟩

end Proofs.Program
