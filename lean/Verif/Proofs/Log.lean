import Verif.Proofs.LogText
import Verif.Proofs.Detail

/-!
# Helper lemmas: the log
-/

set_option linter.unusedVariables false
set_option linter.unusedSimpArgs false

namespace Proofs.Log
open Model Spec

/-! ## Output without matches -/

/-- The patterns match no printed line. -/
def Quiet {α : Type} (o : Out α) : Prop := Shows o.text .nil

variable {α β : Type}

theorem Quiet.pure (a : α) : Quiet (Out.pure a) := Shows.nil

theorem Quiet.ofOption (a : Option α) : Quiet (Out.ofOption a) := Shows.nil

theorem Quiet.bind {o : Out α} {f : α → Out β} (h : Quiet o) (k : ∀ a, o.result = some a → Quiet (f a)) : Quiet (Out.bind o f) := by
  unfold Out.bind
  cases e : o.result with
  | none => exact h
  | some a => exact Shows.quiet_append h (k a e)

theorem Quiet.sum {f : α → Out ℕ} {l : List α} (h : ∀ x ∈ l, Quiet (f x)) : Quiet (Out.sum f l) := by
  induction l with
  | nil => exact .pure 0
  | cons x l ih =>
    exact .bind (h x (List.mem_cons_self ..)) fun a _ => .bind (ih fun y hy => h y (List.mem_cons_of_mem _ hy)) fun b _ => .pure _

theorem Quiet.concat {f : α → Out (List β)} {l : List α} (h : ∀ x ∈ l, Quiet (f x)) : Quiet (Out.concat f l) := by
  induction l with
  | nil => exact .pure []
  | cons x l ih =>
    exact .bind (h x (List.mem_cons_self ..)) fun a _ => .bind (ih fun y hy => h y (List.mem_cons_of_mem _ hy)) fun b _ => .pure _

theorem Quiet.each {f : α → Out Unit} {l : List α} (h : ∀ x ∈ l, Quiet (f x)) : Quiet (Out.each f l) := by
  induction l with
  | nil => exact .pure ()
  | cons x l ih => exact .bind (h x (List.mem_cons_self ..)) fun a _ => ih fun y hy => h y (List.mem_cons_of_mem _ hy)

/-- A printed line of a quiet form. -/
theorem Quiet.say (sh : List (Option Text)) (hs : List Text) {t : Text} (ht : t = fill sh hs) (hc : sh.count none = hs.length)
    (hq : quiet sh = true) (h : ∀ t ∈ hs, IsHoleText t) : Quiet (Out.say t) := quiet_fill sh hs hc h hq ht

/-- A line and an empty line. -/
theorem Quiet.say2 (sh : List (Option Text)) (hs : List Text) {t : Text} (ht : t = fill sh hs ++ ['\n']) (hc : sh.count none = hs.length)
    (hq : quiet sh = true) (h : ∀ t ∈ hs, IsHoleText t) : Quiet (Out.say t) := by
  unfold Quiet Out.say
  rw [ht]
  exact (quiet_fill sh hs hc h hq rfl).append_quiet shows_empty

theorem bind_eq (o : Out α) (f : α → Out β) : (o >>= f) = Out.bind o f := rfl
theorem pure_eq (a : α) : (Pure.pure a : Out α) = Out.pure a := rfl

/-! ## The pair stage -/

/-- The four holes of row sums. -/
def quadHoles (q : Quad) : List Text := [intText q.1, intText q.2.1, intText q.2.2.1, intText q.2.2.2]

theorem quadHoles_ok (q : Quad) : ∀ t ∈ quadHoles q, IsHoleText t := by
  intro t ht
  simp only [quadHoles, List.mem_cons, List.not_mem_nil, or_false] at ht
  rcases ht with rfl | rfl | rfl | rfl <;> exact hole_int _

theorem quiet_warning (t : Tag × Tag) (gap : Option (List (Fin 10))) (kind : Text) (hk : kind = "PSD".toList ∨ kind = "CPSD".toList) :
    Quiet (warningOut t kind gap) := by
  unfold warningOut
  cases gap with
  | none => exact .pure ()
  | some l =>
    refine .say [some "WARNING (pair ".toList, none, some "): ".toList, some kind,
      some " values approximate half-integer with error as small as ".toList, none] [[t.1.toChar, t.2.toChar], gapText l] ?_ rfl ?_ ?_
    · simp only [fill, pieces, render, Piece.text, List.flatMap_cons, List.flatMap_nil, List.append_assoc, List.append_nil]
    · rcases hk with rfl | rfl <;> decide
    · intro x hx
      simp only [List.mem_cons, List.not_mem_nil, or_false] at hx
      rcases hx with rfl | rfl
      · exact hole_tags _ _
      · exact hole_gap l

theorem quiet_seqPairs {F : Type} (A : Fl F) (tm : Terminal) (s1 s2 : List (List ℤ)) (t : Tag × Tag) (ty : SeqType) (rs : Quad) (p : ℕ)
    (side : Side) (mo : MatchOption) : Quiet (writeSeqPairsOut A tm s1 s2 t ty rs p side mo) := by
  unfold writeSeqPairsOut
  simp only [bind_eq, pure_eq]
  refine .bind (.ofOption _) fun _ _ => .bind (.ofOption _) fun lines _ => .bind ?_ fun _ _ =>
    .bind (quiet_warning _ _ _ (.inl rfl)) fun _ _ => .bind (quiet_warning _ _ _ (.inr rfl)) fun _ _ => .pure _
  refine .say [some "Generated ".toList, none, some " pairs for pairing ".toList, none] [natText lines.length, [t.1.toChar, t.2.toChar]] ?_ rfl
    (by decide) ?_
  · simp only [fill, pieces, render, Piece.text, List.flatMap_cons, List.flatMap_nil, List.append_assoc, List.append_nil]
  · intro x hx
    simp only [List.mem_cons, List.not_mem_nil, or_false] at hx
    rcases hx with rfl | rfl
    · exact hole_nat _
    · exact hole_tags _ _

theorem quiet_found (k : ℕ) (r : ℤ) : Quiet (foundSequences k r) := by
  unfold foundSequences
  refine .say [some "Found ".toList, none, some " sequences with rowsum ".toList, none] [natText k, intText r] ?_ rfl (by decide) ?_
  · simp only [fill, pieces, render, Piece.text, List.flatMap_cons, List.flatMap_nil, List.append_assoc, List.append_nil]
  · intro x hx
    simp only [List.mem_cons, List.not_mem_nil, or_false] at hx
    rcases hx with rfl | rfl
    · exact hole_nat _
    · exact hole_int _

theorem quiet_rowsum {F : Type} (A : Fl F) (tm : Terminal) (ty : SeqType) (rs : Quad) (p : ℕ) (mo : MatchOption) (pr : Option Pairing) :
    Quiet (writePairsRowsumOut A tm ty rs p mo pr) := by
  unfold writePairsRowsumOut
  simp only [bind_eq, pure_eq]
  refine .bind (quiet_found ..) fun _ _ => .bind (quiet_found ..) fun _ _ => .bind (quiet_found ..) fun _ _ =>
    .bind (quiet_found ..) fun _ _ => .bind (.ofOption _) fun _ _ => .bind (.ofOption _) fun _ _ =>
    .bind (.ofOption _) fun _ _ => .bind (.ofOption _) fun _ _ => .bind ?_ fun _ _ => .bind (quiet_seqPairs ..) fun _ _ =>
    .bind (quiet_seqPairs ..) fun _ _ => .bind ?_ fun _ _ => .pure _
  · refine .say [some "Generating all sequences with rowsums ".toList, some "(".toList, none, some ", ".toList, none, some ", ".toList, none,
      some ", ".toList, none, some ")".toList, some " took ".toList, none, some " seconds".toList] (quadHoles rs ++ [secsText (tm.seqsTime rs)]) ?_ rfl (by decide) ?_
    · simp only [quadDebug, quadHoles, List.cons_append, List.nil_append, fill, pieces, render, Piece.text, List.flatMap_cons, List.flatMap_nil, List.append_assoc, List.append_nil]
    · intro x hx
      rcases List.mem_append.1 hx with hx | hx
      · exact quadHoles_ok _ x hx
      · rw [List.mem_singleton.1 hx]
        exact hole_secs _
  · refine .say2 [some "Generating .pair files for both pairs took ".toList, none, some " seconds".toList] [secsText (tm.pairsTime rs)] ?_ rfl
      (by decide) (by simpa using hole_secs _)
    simp only [fill, pieces, render, Piece.text, List.flatMap_cons, List.flatMap_nil, List.append_assoc, List.append_nil]
    rfl

theorem result_bind (o : Out α) (f : α → Out β) : (Out.bind o f).result = o.result.bind fun a => (f a).result := by
  unfold Out.bind
  cases o.result <;> rfl

theorem text_bind {o : Out α} {f : α → Out β} {a : α} (h : o.result = some a) : (Out.bind o f).text = o.text ++ (f a).text := by
  unfold Out.bind
  rw [h]

theorem run_result_bind {α β : Type} (o : Run α) (f : α → Run β) : (o >>= f).result = o.result.bind fun a => (f a).result := by
  show (Run.bind o f).result = _
  unfold Run.bind
  cases o.result <;> rfl

theorem some_bind (a : α) (f : α → Out β) : (Out.ofOption (some a) >>= f) = f a := rfl
theorem text_say (t : Text) : (Out.say t).text = t ++ ['\n'] := rfl
theorem result_say (t : Text) : (Out.say t).result = some () := rfl
theorem result_print (t : Text) : (Out.print t).result = some () := rfl
theorem result_ofOption (a : Option α) : (Out.ofOption a).result = a := rfl
theorem result_pure (a : α) : (Out.pure a).result = some a := rfl

theorem result_warning (t : Tag × Tag) (k : Text) (g : Option (List (Fin 10))) : (warningOut t k g).result = some () := by
  unfold warningOut
  cases g <;> rfl

theorem result_seqPairs {F : Type} (A : Fl F) (tm : Terminal) (s1 s2 : List (List ℤ)) (t : Tag × Tag) (ty : SeqType) (rs : Quad) (p : ℕ)
    (side : Side) (mo : MatchOption) (folder n dir : Text) : (writeSeqPairsOut A tm s1 s2 t ty rs p side mo).result =
      (writeSeqPairsRun A folder n dir s1 s2 t ty rs p side mo).result := by
  unfold writeSeqPairsOut writeSeqPairsRun
  simp only [bind_eq, pure_eq, result_bind, run_result_bind, result_ofOption, result_say, result_warning, result_pure]
  show _ = Option.bind (if verifyRowsums s1 s2 t rs then some () else none) fun _ => _
  congr 1

theorem writeFile_result (folder n dir name : Text) (c : Option Text) : (writeFile folder n dir name c).result = c.map fun _ => () := by
  unfold writeFile
  simp only [run_result_bind]
  cases c <;> rfl

theorem result_rowsum {F : Type} (A : Fl F) (tm : Terminal) (ty : SeqType) (rs : Quad) (p : ℕ) (mo : MatchOption) (pr : Option Pairing) :
    (writePairsRowsumOut A tm ty rs p mo pr).result = (writePairsRowsumRun A ty.toText rs p mo pr).result := by
  unfold writePairsRowsumOut writePairsRowsumRun foundSequences
  simp only [bind_eq, pure_eq, result_bind, run_result_bind, result_ofOption, result_say, result_pure, writeFile_result, Program.seqtype_text,
    Option.bind_some, result_seqPairs A tm _ _ _ _ _ _ _ _ ty.toText (natText p) (rowsumDirName rs)]
  show _ = Option.bind (some ()) fun _ => Option.bind (some ty) fun _ => _
  simp only [Option.bind_some]
  cases sequencesText (rowsumSequences ty (tagRowsum rs Tag.W) p) <;> try rfl
  cases sequencesText (rowsumSequences ty (tagRowsum rs Tag.X) p) <;> try rfl
  cases sequencesText (rowsumSequences ty (tagRowsum rs Tag.Y) p) <;> try rfl
  cases sequencesText (rowsumSequences ty (tagRowsum rs Tag.Z) p) <;> rfl

theorem result_sum (f : α → Out ℕ) (g : α → Run ℕ) (h : ∀ x, (f x).result = (g x).result) (l : List α) :
    (Out.sum f l).result = (Run.sum g l).result := by
  induction l with
  | nil => rfl
  | cons x l ih =>
    unfold Out.sum Run.sum
    have e : ∀ {α β : Type} (o : Run α) (f : α → Run β), (Run.bind o f).result = o.result.bind fun a => (f a).result := run_result_bind
    simp only [result_bind, e, h, ih]
    rfl


/-- A time in seconds. -/
def secs (h : ℕ) : ℚ := (h : ℚ) / 100

/-- Flattens the text of a line. -/
syntax "fill_eq" : tactic
macro_rules
  | `(tactic| fill_eq) => `(tactic| simp only [quadDebug, quadHoles, List.cons_append, List.nil_append, fill, pieces, render, Piece.text,
      List.flatMap_cons, List.flatMap_nil, List.append_assoc, List.append_nil])

theorem result_pairs {F : Type} (A : Fl F) (tm : Terminal) (p : ℕ) (ty : SeqType) (mo : MatchOption) (pr : Option Pairing) :
    (writePairsOut A tm p ty mo pr).result = (writePairsRun A p ty mo pr).result.map fun _ => () := by
  have e : ∀ l, (Out.sum (fun rs => do
      Out.say ("Generating .pair files for rowsums ".toList ++ quadDebug rs ++ " ...".toList)
      writePairsRowsumOut A tm ty rs p mo pr) l).result = (Run.sum (fun rs => writePairsRowsumRun A ty.toText rs p mo pr) l).result := by
    refine result_sum _ _ fun rs => ?_
    rw [bind_eq, result_bind, result_say, Option.bind_some, result_rowsum]
  have h2 : ∀ l : List Quad, (Out.each (fun rs => Out.say (quadDebug rs)) l).result = some () := by
    intro l
    induction l with
    | nil => rfl
    | cons x l ih =>
      unfold Out.each
      rw [result_bind, result_say, Option.bind_some, ih]
  unfold writePairsOut writePairsRun
  rw [bind_eq, result_bind, result_say, Option.bind_some, bind_eq, result_bind, result_ofOption, run_result_bind]
  show _ = Option.map _ (Option.bind (generateRowsums p ty) _)
  cases generateRowsums p ty with
  | none => rfl
  | some l =>
    rw [Option.bind_some, Option.bind_some, bind_eq, result_bind, h2, Option.bind_some, bind_eq, result_bind, result_say,
      Option.bind_some, bind_eq, result_bind, e]
    cases (Run.sum (fun rs => writePairsRowsumRun A ty.toText rs p mo pr) l).result <;> rfl

/-- The output of the pair stage. -/
theorem shows_pairs {F : Type} (A : Fl F) (tm : Terminal) (p : ℕ) (ty : SeqType) (mo : MatchOption) (pr : Option Pairing) {total : ℕ}
    (h : (writePairsRun A p ty mo pr).result = some total) :
    Shows (writePairsOut A tm p ty mo pr).text { Found.nil with g := [total], t := [secs tm.totalTime] } := by
  unfold writePairsRun at h
  rw [run_result_bind] at h
  obtain ⟨l, hl, h⟩ := Option.bind_eq_some_iff.1 h
  have hl' : generateRowsums p ty = some l := hl
  have e : (Out.sum (fun rs => do
      Out.say ("Generating .pair files for rowsums ".toList ++ quadDebug rs ++ " ...".toList)
      writePairsRowsumOut A tm ty rs p mo pr) l).result = some total := by
    rw [← h]
    refine result_sum _ _ (fun rs => ?_) l
    rw [bind_eq, result_bind, result_say, Option.bind_some, result_rowsum]
  have h2 : (Out.each (fun rs => Out.say (quadDebug rs)) l).result = some () := by
    clear h hl hl' e
    induction l with
    | nil => rfl
    | cons x l ih =>
      unfold Out.each
      rw [result_bind, result_say, Option.bind_some, ih]
  unfold writePairsOut
  rw [hl']
  rw [bind_eq, text_bind (result_say _), bind_eq, text_bind (result_ofOption _), bind_eq, text_bind h2, bind_eq,
    text_bind (result_say _), bind_eq, text_bind e, bind_eq, text_bind (result_say _)]
  refine Shows.quiet_append (a := (Out.say _).text) ?_ (Shows.quiet_append Shows.nil (Shows.quiet_append (a := (Out.each _ _).text) ?_
    (Shows.quiet_append (a := (Out.say _).text) ?_ (Shows.quiet_append (a := (Out.sum _ _).text) ?_ ?_))))
  · exact Quiet.say [some "Generating rowsum decompositions for length ".toList, none, some " ...".toList] [natText p] (by fill_eq) rfl (by decide)
      (by simpa using hole_nat _)
  · exact Quiet.each fun rs _ => .say [some "(".toList, none, some ", ".toList, none, some ", ".toList, none, some ", ".toList, none, some ")".toList]
      (quadHoles rs) (by fill_eq) rfl (by decide) (quadHoles_ok rs)
  · exact Quiet.say2 [some "Generated ".toList, none, some " different rowsums".toList] [natText l.length] (by fill_eq; rfl) rfl (by decide)
      (by simpa using hole_nat _)
  · refine Quiet.sum fun rs _ => .bind ?_ fun _ _ => quiet_rowsum ..
    exact .say [some "Generating .pair files for rowsums ".toList, some "(".toList, none, some ", ".toList, none, some ", ".toList, none,
      some ", ".toList, none, some ")".toList, some " ...".toList] (quadHoles rs) (by fill_eq) rfl (by decide) (quadHoles_ok rs)
  · have h1 := shows_total total
    have h3 := (shows_time (p := "Total time to generate .pair files".toList) (q := []) tm.totalTime (by decide) (by decide) (by decide)).append_quiet shows_empty
    have h4 := h1.append h3
    refine (congrArg₂ Shows ?_ rfl).mp h4
    show _ = _ ++ ("Total time to generate .pair files: ".toList ++ secsText tm.totalTime ++ " seconds\n".toList ++ ['\n'])
    rw [show "Total time to generate .pair files: ".toList = "Total time to generate .pair files".toList ++ ": ".toList from by decide,
      show " seconds\n".toList = " seconds".toList ++ ['\n'] from by decide]
    simp only [text_say, List.append_assoc, List.append_nil, List.nil_append]

/-! ## The join stage -/

/-- Directories as written by the pair stage and sorted. -/
def Named (dirs : List (Text × Dir)) : Prop :=
  ∀ e ∈ dirs, (∃ rs, e.1 = rowsumDirName rs) ∧
    ∀ f ∈ e.2, (∃ t, f.1 = seqFileName t) ∨ (∃ t u, f.1 = pairFileName t u) ∨ ∃ t u, f.1 = pairFileName t u ++ sortedSuffix

theorem rowsum_pieces (rs : Quad) : rowsumDirName rs =
    fill [some "rowsum_".toList, none, some "_".toList, none, some "_".toList, none, some "_".toList, none] (quadHoles rs) := by
  unfold rowsumDirName
  rw [show ['r', 'o', 'w', 's', 'u', 'm', '_'] = "rowsum_".toList from rfl, show ['_'] = "_".toList from rfl]
  fill_eq

theorem sorted_names {d : Dir} (h : ∀ f ∈ d, (∃ t, f.1 = seqFileName t) ∨ (∃ t u, f.1 = pairFileName t u) ∨
    ∃ t u, f.1 = pairFileName t u ++ sortedSuffix) {x : Text} (hx : x ∈ sortedNames d) : ∃ t u, x = pairFileName t u ++ sortedSuffix := by
  unfold sortedNames at hx
  obtain ⟨f, hf, rfl⟩ := List.mem_map.1 hx
  obtain ⟨h1, h2⟩ := List.mem_filter.1 hf
  rcases h f h1 with ⟨t, e⟩ | ⟨t, u, e⟩ | h
  · rw [e] at h2
    cases t <;> exact absurd h2 (by decide)
  · rw [e] at h2
    cases t <;> cases u <;> exact absurd h2 (by decide)
  · exact h

theorem quiet_joinDir (ty : SeqType) {dirs : List (Text × Dir)} (hn : Named dirs) {e : Text × Dir} (he : e ∈ dirs) :
    Quiet (joinDirOut ty e) := by
  obtain ⟨⟨rs, h1⟩, h2⟩ := hn e he
  unfold joinDirOut
  simp only [bind_eq, pure_eq]
  refine .bind (.ofOption _) fun tab _ => .bind (.ofOption _) fun o ho => .bind ?_ fun _ _ => .bind (.ofOption _) fun _ _ =>
    .bind (.ofOption _) fun k _ => .bind ?_ fun _ _ => .pure _
  · refine .say [some "Matching files in /".toList, some "rowsum_".toList, none, some "_".toList, none, some "_".toList, none, some "_".toList, none,
      some " ...".toList] (quadHoles rs) ?_ rfl (by decide) (quadHoles_ok rs)
    rw [h1, rowsum_pieces]
    fill_eq
  · have hs : ∃ t u t' u', (sortedNames e.2).getD 0 [] = pairFileName t u ++ sortedSuffix ∧
        (sortedNames e.2).getD 1 [] = pairFileName t' u' ++ sortedSuffix := by
      have hl : ∃ f1 f2, (e.2.filter fun f => (pairSuffix ++ sortedSuffix).isSuffixOf f.1) = [f1, f2] := by
        have ho' : getOrderFromDir e.2 = some o := ho
        unfold getOrderFromDir at ho'
        split at ho'
        · rename_i f1 f2 hfl
          exact ⟨f1, f2, hfl⟩
        · cases ho'
      obtain ⟨f1, f2, hl⟩ := hl
      have hs : sortedNames e.2 = [f1.1, f2.1] := by unfold sortedNames; rw [hl]; rfl
      obtain ⟨t, u, e1⟩ := sorted_names h2 (x := f1.1) (by rw [hs]; simp)
      obtain ⟨t', u', e2⟩ := sorted_names h2 (x := f2.1) (by rw [hs]; simp)
      rw [hs]
      exact ⟨t, u, t', u', e1, e2⟩
    obtain ⟨t, u, t', u', e1, e2⟩ := hs
    rw [e1, e2]
    refine .say2 [some "Matches found in \"pair_".toList, none, some ".pair.sorted\" and \"pair_".toList, none, some ".pair.sorted\": ".toList, none]
      [[t.toChar, u.toChar], [t'.toChar, u'.toChar], natText k] ?_ rfl (by decide) ?_
    · unfold nameDebug pairFileName
      rw [show "Matches found in \"pair_".toList = "Matches found in ".toList ++ "\"".toList ++ ['p', 'a', 'i', 'r', '_'] from by decide,
        show ".pair.sorted\" and \"pair_".toList = pairSuffix ++ sortedSuffix ++ "\"".toList ++ " and ".toList ++ "\"".toList ++ ['p', 'a', 'i', 'r', '_'] from by decide,
        show ".pair.sorted\": ".toList = pairSuffix ++ sortedSuffix ++ "\"".toList ++ ": ".toList from by decide, show "\n".toList = ['\n'] from rfl]
      simp only [fill, pieces, render, Piece.text, List.flatMap_cons, List.flatMap_nil, List.append_assoc, List.append_nil]
    · intro x hx
      simp only [List.mem_cons, List.not_mem_nil, or_false] at hx
      rcases hx with rfl | rfl | rfl
      · exact hole_tags _ _
      · exact hole_tags _ _
      · exact hole_nat _

theorem result_joinDir (ty : SeqType) (e : Text × Dir) : (joinDirOut ty e).result = joinDir ty e.2 := by
  unfold joinDirOut joinDir
  simp only [bind_eq, pure_eq, result_bind, result_ofOption, result_say, result_pure, Option.bind_some]
  cases getSequencesFromDir e.2 with
  | none => rfl
  | some tab =>
    rw [Option.bind_some, Option.bind_some]
    cases getOrderFromDir e.2 with
    | none => rfl
    | some o =>
      rw [Option.bind_some, Option.bind_some]
      cases h : joinPairsFiles ty o.1 o.2 tab with
      | none => rfl
      | some r =>
        rw [Option.bind_some]
        have : ∃ k, matchCount o.1 = some k := by
          unfold joinPairsFiles at h
          obtain ⟨ms, h1, _⟩ := Option.bind_eq_some_iff.1 h
          exact ⟨ms.length, by unfold matchCount; dsimp only; rw [h1]; rfl⟩
        obtain ⟨k, hk⟩ := this
        rw [hk, Option.bind_some]

theorem result_joinAll (ty : SeqType) (dirs : List (Text × Dir)) : (Out.concat (joinDirOut ty) dirs).result = joinAll ty dirs := by
  unfold joinAll
  induction dirs with
  | nil => rfl
  | cons e dirs ih =>
    unfold Out.concat
    simp only [result_bind, result_pure, result_joinDir, ih, List.mapM_cons]
    cases joinDir ty e.2 with
    | none => rfl
    | some a =>
      show Option.bind _ _ = Option.map List.flatten (Option.bind (List.mapM (fun d => joinDir ty d.2) dirs) _)
      rw [Option.bind_some]
      cases List.mapM (fun d => joinDir ty d.2) dirs <;> rfl

/-- What the lines after a reduction show. -/
def reducedFound (ty : SeqType) (k h : ℕ) : Found :=
  match ty with
  | .quaternionType => { Found.nil with q := [k], r := [secs h] }
  | .williamsonType => { Found.nil with w := [k], r := [secs h] }
  | _ => { Found.nil with r := [secs h] }

theorem shows_reduced (ty : SeqType) (k h : ℕ) : Shows (reducedOut k ty.toText h).text (reducedFound ty k h) := by
  have e : (reducedOut k ty.toText h).text = ("Found ".toList ++ natText k ++ " ".toList ++ ty.toText ++ " after reducing to equivalence".toList ++ ['\n']) ++
      (("Reducing to equivalence took ".toList ++ secsText h ++ " seconds.".toList ++ ['\n']) ++ ['\n']) := by
    unfold reducedOut
    rw [bind_eq, text_bind (result_say _)]
    show _ ++ ("Reducing to equivalence took ".toList ++ secsText h ++ " seconds.\n".toList ++ ['\n']) = _
    rw [show " seconds.\n".toList = " seconds.".toList ++ ['\n'] from by decide]
    simp only [text_say, List.append_assoc]
  rw [e]
  have h2 := (shows_reduce h).append_quiet shows_empty
  have other : ∀ x : Text, quiet [some "Found ".toList, none, some (" ".toList ++ x ++ " after reducing to equivalence".toList)] = true →
      Shows ("Found ".toList ++ natText k ++ " ".toList ++ x ++ " after reducing to equivalence".toList ++ ['\n']) .nil := fun x hx =>
    quiet_fill [some "Found ".toList, none, some (" ".toList ++ x ++ " after reducing to equivalence".toList)] [natText k] rfl
      (by simpa using hole_nat _) hx (by fill_eq)
  cases ty
  case quaternionType =>
    have h1 := (shows_count_qts k).append h2
    refine (congrArg₂ Shows ?_ rfl).mp h1
    rw [show " qts after reducing to equivalence".toList = " ".toList ++ SeqType.quaternionType.toText ++ " after reducing to equivalence".toList from by decide]
    simp only [List.append_assoc]
  case williamsonType =>
    have h1 := (shows_count_wts k).append h2
    refine (congrArg₂ Shows ?_ rfl).mp h1
    rw [show " wts after reducing to equivalence".toList = " ".toList ++ SeqType.williamsonType.toText ++ " after reducing to equivalence".toList from by decide]
    simp only [List.append_assoc]
  all_goals exact (other _ (by decide)).quiet_append h2

/-- The output of the join stage up to the reduction. -/
theorem shows_joinPairs (debug : Bool) (tm : Terminal) (ty : SeqType) {dirs : List (Text × Dir)} (hn : Named dirs) {m r : List QuadSeq}
    (hm : joinAll ty dirs = some m) (hd : (debug && !m.all hasSortedRowsums) = false) (hr : joinPairs ty dirs = some r) :
    (joinPairsOut debug tm ty dirs).result = some r ∧ Shows (joinPairsOut debug tm ty dirs).text
      ({ Found.nil with t := [secs tm.matchTime] } ++ reducedFound ty r.length tm.reduceTime) := by
  unfold joinPairs at hr
  rw [hm, Option.bind_some] at hr
  obtain ⟨f, hf, hr⟩ := Option.bind_eq_some_iff.1 hr
  have hm' := (result_joinAll ty dirs).trans hm
  have hrd : ∀ k t h, (reducedOut k t h).result = some () := fun _ _ _ => rfl
  constructor
  · unfold joinPairsOut
    simp only [bind_eq, pure_eq, result_bind, result_ofOption, result_say, result_pure, hm', Option.bind_some, hd, hf, hr, hrd]
    rfl
  · unfold joinPairsOut
    rw [bind_eq, text_bind hm', bind_eq, text_bind (result_say _), hd, if_neg (by simp), bind_eq, text_bind (result_ofOption _), bind_eq,
      text_bind (result_say _), hf, bind_eq, text_bind (result_ofOption _), bind_eq, text_bind (result_say _), hr, bind_eq,
      text_bind (result_ofOption _), bind_eq, text_bind (hrd _ _ _)]
    refine Shows.quiet_append (Quiet.concat fun e he => quiet_joinDir ty hn he) (Shows.append ?_ (Shows.quiet_append (a := []) Shows.nil
      (Shows.quiet_append ?_ (Shows.quiet_append (a := []) Shows.nil (Shows.quiet_append ?_ (Shows.quiet_append (a := []) Shows.nil
      (Shows.append_quiet (shows_reduced ty _ _) Shows.nil)))))))
    · have := shows_time (p := "Matching took".toList) (q := ".".toList) tm.matchTime (by decide) (by decide) (by decide)
      refine (congrArg₂ Shows ?_ rfl).mp this
      show _ = "Matching took: ".toList ++ secsText tm.matchTime ++ " seconds.".toList ++ ['\n']
      rw [show "Matching took: ".toList = "Matching took".toList ++ ": ".toList from by decide,
        show " seconds.".toList = " seconds".toList ++ ".".toList from by decide]
      simp only [List.append_assoc]
    · have h1 : Shows ("Found ".toList ++ natText m.length ++ " ".toList ++ ty.toText ++ " after matching".toList ++ ['\n']) .nil :=
        quiet_fill [some "Found ".toList, none, some " ".toList, some ty.toText, some " after matching".toList] [natText m.length] rfl
          (by simpa using hole_nat _) (by cases ty <;> decide) (by fill_eq)
      refine (congrArg₂ Shows ?_ rfl).mp (shows_empty.quiet_append h1)
      show _ = "\nFound ".toList ++ natText m.length ++ " ".toList ++ ty.toText ++ " after matching".toList ++ ['\n']
      rw [show "\nFound ".toList = ['\n'] ++ "Found ".toList from by decide]
      simp only [List.append_assoc]
    · cases ty
      case quaternionType =>
        exact Quiet.say [some "Filtered with the NS (negate-and-swap) operation; now filtering ".toList, none,
          some " sequences up to QT equivalence ...".toList] [natText f.length] (by unfold filteredLine; fill_eq) rfl (by decide) (by simpa using hole_nat _)
      all_goals exact Quiet.say [some "Filtered with the SN (single negate) and SS (single swap) operations; now filtering ".toList, none,
          some " sequences up to Williamson-type equivalence ...".toList] [natText f.length] (by unfold filteredLine; fill_eq) rfl (by decide) (by simpa using hole_nat _)


/-- What the lines of the join stage show. -/
def joinFound (tm : Terminal) (ty : SeqType) (r : List QuadSeq) (l : Option (List QuadSeq)) : Found :=
  { Found.nil with t := [secs tm.matchTime] } ++ reducedFound ty r.length tm.reduceTime ++
    match l with
    | none => .nil
    | some l => reducedFound .quaternionType l.length tm.reduceQtTime

theorem quiet_amicable {debug : Bool} {q : QuadSeq} (h : q.isAmicable = true) : Quiet (amicableOut debug q) := by
  unfold amicableOut
  rw [h, if_pos rfl]
  exact .bind (.ofOption _) fun _ _ => .pure ()

theorem result_amicable {debug : Bool} {l : List QuadSeq} (h : ∀ q ∈ l, q.isAmicable = true) (hd : debug = true → ∀ q ∈ l, q.verifyQts = true) :
    (Out.each (amicableOut debug) l).result = some () := by
  induction l with
  | nil => rfl
  | cons q l ih =>
    unfold Out.each
    rw [result_bind, ih (fun x hx => h x (List.mem_cons_of_mem _ hx)) fun hb x hx => hd hb x (List.mem_cons_of_mem _ hx)]
    unfold amicableOut
    rw [bind_eq, result_bind, h q (List.mem_cons_self ..), if_pos rfl, result_ofOption]
    cases debug with
    | false => rfl
    | true => rw [hd rfl q (List.mem_cons_self ..)]; rfl

/-- The output of the join stage. -/
theorem shows_join {F κ : Type} (env : Env F κ) (tm : Terminal) {s : Store} {ty : SeqType} {p : ℕ} {d : FindDir}
    (hs : s ty.toText (natText p) = some d) (hn : Named (listedDirs env d)) {m r : List QuadSeq} {l : Option (List QuadSeq)}
    (hm : joinAll ty (listedDirs env d) = some m) (hd : (env.debug && !m.all hasSortedRowsums) = false)
    (hr : findWriteQuadSeq p ty (listedDirs env d) = some (r, l))
    (ha : ty = .quaternionType → ∀ q ∈ r, q.isAmicable = true ∧ q.verifyQts = true)
    (h1 : ∃ t, resultText r = some t) (h2 : ∃ t, qseqText r = some t)
    (h3 : ∀ l', l = some l' → (∃ t, resultText l' = some t) ∧ ∃ t, qseqText l' = some t) :
    (joinOut env tm s ty p).result = some () ∧ Shows (joinOut env tm s ty p).text (joinFound tm ty r l) := by
  unfold findWriteQuadSeq at hr
  obtain ⟨a, hj, hr⟩ := Option.bind_eq_some_iff.1 hr
  have har : a = r := by
    cases ty
    case williamsonType =>
      obtain ⟨_, _, e⟩ := Option.map_eq_some_iff.1 hr
      cases e
      rfl
    all_goals cases hr; rfl
  subst har
  obtain ⟨t, ht⟩ := h1
  obtain ⟨q, hq⟩ := h2
  obtain ⟨k1, k2⟩ := shows_joinPairs env.debug tm ty hn hm hd hj
  have kres : (checkAmicableOut env.debug ty a).result = some () := by
    unfold checkAmicableOut
    split
    · rename_i h
      exact result_amicable (fun x hx => (ha h x hx).1) fun _ x hx => (ha h x hx).2
    · rfl
  have kq : Quiet (checkAmicableOut env.debug ty a) := by
    unfold checkAmicableOut
    split
    · rename_i h
      exact .each fun x hx => quiet_amicable (ha h x hx).1
    · exact .pure ()
  unfold joinOut
  rw [hs, bind_eq, result_bind, text_bind (result_ofOption _), result_ofOption, Option.bind_some, bind_eq, result_bind, text_bind k1, k1,
    Option.bind_some, bind_eq, result_bind, text_bind kres, kres, Option.bind_some, ht, bind_eq, result_bind, text_bind (result_ofOption _),
    result_ofOption, Option.bind_some, hq, bind_eq, result_bind, text_bind (result_ofOption _), result_ofOption, Option.bind_some]
  unfold joinFound
  cases ty
  case williamsonType =>
    obtain ⟨l', hl, e⟩ := Option.map_eq_some_iff.1 hr
    cases e
    obtain ⟨⟨t', ht'⟩, ⟨q', hq'⟩⟩ := h3 l' rfl
    have hrd : ∀ k t h, (reducedOut k t h).result = some () := fun _ _ _ => rfl
    dsimp only
    rw [hl, bind_eq, result_bind, text_bind (result_say _), result_say, Option.bind_some, bind_eq, result_bind, text_bind (result_ofOption _),
      result_ofOption, Option.bind_some, bind_eq, result_bind, text_bind (hrd _ _ _), hrd, Option.bind_some, ht', bind_eq, result_bind,
      text_bind (result_ofOption _), result_ofOption, Option.bind_some, hq', bind_eq, result_bind, text_bind (result_ofOption _), result_ofOption,
      Option.bind_some]
    refine ⟨rfl, Shows.quiet_append (a := []) Shows.nil (k2.append (Shows.quiet_append kq (Shows.quiet_append (a := []) Shows.nil (Shows.quiet_append (a := []) Shows.nil
      (Shows.quiet_append ?_ (Shows.quiet_append (a := []) Shows.nil (Shows.append_quiet (shows_reduced .quaternionType _ _) Shows.nil)))))))⟩
    exact Quiet.say [some "In order to generate all Williamson-type sequences up to Hadamard equivalence, we now generate a complete list ".toList,
      some "up to QT equivalence ...".toList] [] (by fill_eq) rfl (by decide +kernel) (by simp)
  all_goals
    cases hr
    refine ⟨rfl, Shows.quiet_append (a := []) Shows.nil (k2.append (Shows.quiet_append kq (Shows.quiet_append (a := []) Shows.nil (Shows.quiet_append (a := []) Shows.nil
      Shows.nil))))⟩

/-! ## Sorting -/

theorem flatMap_shows {l : List α} {f : α → Text} (h : ∀ x ∈ l, Shows (f x) .nil) : Shows (l.flatMap f) .nil := by
  induction l with
  | nil => exact Shows.nil
  | cons x l ih => exact (h x (List.mem_cons_self ..)).quiet_append (ih fun y hy => h y (List.mem_cons_of_mem _ hy))

theorem shows_sort (tm : Terminal) (s : Store) (ty : SeqType) (n : ℕ) (hn : Named (((s ty.toText (natText n)).map FindDir.dirs).getD [])) :
    Shows (sortLog tm s ty.toText (natText n)) { Found.nil with t := [secs tm.sortTime] } := by
  have hq : ∀ (T : Text) (rs : Quad) (sh : List (Option Text)) (hs : List Text), (∀ t ∈ hs, IsHoleText t) → sh.count none = hs.length →
      quiet ([some "Sorting file results/pairs/".toList, some T, some "/find_".toList, none, some "/".toList, some "rowsum_".toList, none, some "_".toList, none, some "_".toList,
        none, some "_".toList, none, some "/".toList] ++ sh ++ [some " ...".toList]) = true →
      Shows ("Sorting file results/pairs/".toList ++ T ++ "/find_".toList ++ natText n ++ "/".toList ++ rowsumDirName rs ++
        "/".toList ++ fill sh hs ++ " ...\n".toList) .nil := by
    intro T rs sh hs hhs hc hqq
    have := quiet_fill _ ([natText n] ++ quadHoles rs ++ hs) (by simp [List.count_cons, hc, quadHoles]) (by
      intro x hx
      simp only [List.mem_append, List.mem_singleton] at hx
      rcases hx with (rfl | hx) | hx
      · exact hole_nat _
      · exact quadHoles_ok _ x hx
      · exact hhs x hx) hqq rfl
    refine (congrArg₂ Shows ?_ rfl).mp this
    have hfill : ∀ (sh : List (Option Text)) (hs : List Text) (t : Text), sh.count none = hs.length → fill (sh ++ [some t]) hs = fill sh hs ++ t := by
      intro sh
      induction sh with
      | nil =>
        intro hs t h
        cases hs with
        | nil => simp [fill, pieces, render, Piece.text]
        | cons x hs => cases h
      | cons a sh ih =>
        intro hs t h
        cases a with
        | some u =>
          rw [List.count_cons_of_ne (by simp)] at h
          have := ih hs t h
          unfold fill render at this ⊢
          simp only [List.cons_append, pieces, List.flatMap_cons, this, List.append_assoc]
        | none =>
          rw [List.count_cons_self] at h
          cases hs with
          | nil => cases h
          | cons x hs =>
            have := ih hs t (by simpa using h)
            unfold fill render at this ⊢
            simp only [List.cons_append, pieces, List.flatMap_cons, this, List.append_assoc]
    have h2 := hfill sh hs " ...".toList hc
    unfold fill at h2
    rw [rowsum_pieces, show " ...\n".toList = " ...".toList ++ ['\n'] from by decide]
    unfold fill
    simp only [List.cons_append, List.nil_append, quadHoles, pieces, render, List.flatMap_cons, List.flatMap_nil, Piece.text, List.append_assoc, List.append_nil]
    unfold render at h2
    rw [h2]
    simp only [List.append_assoc]
  unfold sortLog
  dsimp only
  rw [List.append_assoc, List.append_assoc]
  refine Shows.quiet_append (flatMap_shows fun e he => ?_) ?_
  · have he' := (List.mergeSort_perm _ _).mem_iff.1 he
    obtain ⟨⟨rs, h1⟩, h2⟩ := hn e he'
    rw [h1]
    refine flatMap_shows fun x hx => ?_
    have hx' : x = "*.pair".toList ∨ ∃ t u, x = pairFileName t u := by
      split at hx
      · exact .inl (List.mem_singleton.1 hx)
      · right
        have hx := (List.mergeSort_perm _ _).mem_iff.1 hx
        obtain ⟨f, hf, rfl⟩ := List.mem_map.1 hx
        obtain ⟨h3, h4⟩ := List.mem_filter.1 hf
        rcases h2 f h3 with ⟨t, e⟩ | h | ⟨t, u, e⟩
        · rw [e] at h4
          cases t <;> exact absurd h4 (by decide)
        · exact h
        · rw [e] at h4
          cases t <;> cases u <;> exact absurd h4 (by decide)
    rcases hx' with rfl | ⟨t, u, rfl⟩
    · have := hq ty.toText rs [some "*.pair".toList] [] (by simp) rfl (by cases ty <;> decide)
      refine (congrArg₂ Shows ?_ rfl).mp this
      rw [show fill [some "*.pair".toList] [] = "*.pair".toList from rfl]
    · have := hq ty.toText rs [some "pair_".toList, none, some ".pair".toList] [[t.toChar, u.toChar]] (by simpa using hole_tags t u) rfl (by cases ty <;> decide)
      refine (congrArg₂ Shows ?_ rfl).mp this
      rw [show fill [some "pair_".toList, none, some ".pair".toList] [[t.toChar, u.toChar]] = pairFileName t u from by cases t <;> cases u <;> rfl]
  · have := (shows_time (p := "Total time to sort".toList) (q := ".".toList) tm.sortTime (by decide) (by decide) (by decide)).append_quiet shows_empty
    refine (congrArg₂ Shows ?_ rfl).mp this
    rw [show "Total time to sort: ".toList = "Total time to sort".toList ++ ": ".toList from by decide,
      show " seconds.\n\n".toList = " seconds".toList ++ (".".toList ++ (['\n'] ++ ['\n'])) from by decide]
    simp only [List.append_assoc]


/-! ## The conversions -/

theorem quiet_hm {F κ : Type} [DecidableEq κ] (env : Env F κ) (s : Store) (ty : SeqType) (p : ℕ) : Quiet (convertHmOut env s ty p) := by
  unfold convertHmOut
  refine .bind ?_ fun _ _ => .bind (.ofOption _) fun _ _ => .bind (.ofOption _) fun _ _ => .bind (.ofOption _) fun _ _ =>
    .bind ?_ fun _ _ => .bind (.ofOption _) fun l _ => .bind ?_ fun _ _ => .bind (.ofOption _) fun _ _ => .pure _
  · have hq : ∀ name : Text, quiet [some "Converting sequences found in ".toList, some "results/pairs/".toList, some ty.toText, some "/find_".toList, none,
        some "/".toList, some name, some " to Hadamard matrices up to Hadamard equivalence ...".toList] = true →
        Quiet (Out.say ("Converting sequences found in ".toList ++ findPath ty p name ++
          " to Hadamard matrices up to Hadamard equivalence ...".toList)) := fun name h =>
      .say _ [natText p] (by unfold findPath; fill_eq) rfl h (by simpa using hole_nat _)
    cases ty <;> exact hq _ (by decide)
  · exact .say [some "Reducing matrices to equivalence via graph isomorphism...".toList] [] (by fill_eq) rfl (by decide) (by simp)
  · exact .say [some "Number of matrices up to equivalence : ".toList, none] [natText l.length] (by fill_eq) rfl (by decide)
      (by simpa using hole_nat _)

theorem quiet_qhm (s : Store) (ty : SeqType) (p : ℕ) : Quiet (convertQhmOut s ty p) := by
  unfold convertQhmOut
  refine .bind ?_ fun _ _ => ?_
  · exact .say [some "./".toList, some "results/pairs/".toList, some ty.toText, some "/find_".toList, none, some "/".toList, some "result.seq".toList] [natText p]
      (by unfold findPath; fill_eq) rfl (by cases ty <;> decide) (by simpa using hole_nat _)
  · cases readTop s ty.toText (natText p) "result.seq".toList with
    | none => exact .pure ()
    | some t =>
      refine .bind (.ofOption _) fun r _ => ?_
      refine .say [some "converted ".toList, none, some " sequences of size ".toList, none, some ". ".toList, none, some " contained non-commuting elements.".toList]
        [natText r.2.1, natText p, natText r.2.2] (by fill_eq) rfl (by decide) ?_
      intro x hx
      simp only [List.mem_cons, List.not_mem_nil, or_false] at hx
      rcases hx with rfl | rfl | rfl <;> exact hole_nat _

/-! ## The program -/

section
variable {F κ : Type} [DecidableEq κ] (env : Env F κ) (tm : Terminal) (s : Store) {T N : Text} {ty : SeqType} {n : ℕ}

theorem out_join (hty : strToSeqtype T = some ty) (hn : parseUsize N = some n) :
    mainOut env tm s ["join".toList, T, N] = joinOut env tm s ty n := by
  unfold mainOut
  dsimp only
  rw [if_pos rfl, hty, some_bind, hn, some_bind]

theorem out_hm (hty : strToSeqtype T = some ty) (hn : parseUsize N = some n) :
    mainOut env tm s ["convert".toList, "hm".toList, T, N] = convertHmOut env s ty n := by
  unfold mainOut
  dsimp only
  rw [if_neg (by decide), if_pos rfl, hty, some_bind, hn, some_bind, if_pos rfl]

theorem out_qhm (hty : strToSeqtype T = some ty) (hn : parseUsize N = some n) :
    mainOut env tm s ["convert".toList, "qhm".toList, T, N] = convertQhmOut s ty n := by
  unfold mainOut
  dsimp only
  rw [if_neg (by decide), if_pos rfl, hty, some_bind, hn, some_bind, if_neg (by decide), if_pos rfl]

theorem out_pairs (hty : strToSeqtype T = some ty) (hn : parseUsize N = some n) {M : Text} {mo : MatchOption} (hmo : strToMatchOption M = some mo)
    (P : Text) : mainOut env tm s ["pairs".toList, T, N, M, P] = writePairsOut env.A tm n ty mo (strToRowsumPairing P) := by
  unfold mainOut
  dsimp only
  rw [if_neg (by decide), if_neg (by decide), if_pos rfl, hty, some_bind, hn, some_bind, hmo, some_bind]

theorem shows_hmLog (hty : strToSeqtype T = some ty) (hn : parseUsize N = some n) :
    Shows (hmLog env tm T N s) { Found.nil with c := [secs tm.hmTime] } := by
  unfold hmLog stdout
  dsimp only
  rw [out_hm env tm s hty hn, List.append_assoc, List.append_assoc, List.append_assoc, List.append_assoc]
  refine Shows.quiet_append (quiet_hm env s ty n) ?_
  have h1 := shows_convert tm.hmTime
  have h2 : Shows (((readTop (runProgram env s ["convert".toList, "hm".toList, T, N]).1 T N "result.mat".toList).map fun t => natText (wcLines t)).getD [] ++
      " matrices were found after converting up to Hadamard equivalence.\n".toList) .nil := by
    rw [show " matrices were found after converting up to Hadamard equivalence.\n".toList =
      " matrices were found after converting up to Hadamard equivalence.".toList ++ ['\n'] from by decide]
    cases readTop (runProgram env s ["convert".toList, "hm".toList, T, N]).1 T N "result.mat".toList with
    | none => exact quiet_fill [some " matrices were found after converting up to Hadamard equivalence.".toList] [] rfl (by simp) (by decide) (by fill_eq)
    | some t =>
      have := quiet_fill [none, some " matrices were found after converting up to Hadamard equivalence.".toList] [natText (wcLines t)] rfl
        (by simpa using hole_nat _) (by decide) rfl
      refine (congrArg₂ Shows ?_ rfl).mp this
      show _ = natText (wcLines t) ++ _
      fill_eq
  refine (congrArg₂ Shows ?_ rfl).mp (h1.append_quiet h2)
  rw [show " seconds\n".toList = " seconds".toList ++ ['\n'] from by decide]
  simp only [List.append_assoc]

theorem shows_qhmLog (hty : strToSeqtype T = some ty) (hn : parseUsize N = some n) : Shows (qhmLog env tm T N s) .nil := by
  unfold qhmLog stdout
  rw [out_qhm env tm s hty hn, List.append_assoc, List.append_assoc]
  refine Shows.quiet_append (quiet_qhm s ty n) ?_
  have := quiet_fill [some "Converting to PQS to QHM took ".toList, none, some " seconds".toList] [secsText tm.qhmTime] rfl (by simpa using hole_secs _) (by decide) rfl
  refine (congrArg₂ Shows ?_ rfl).mp this
  rw [show " seconds\n".toList = " seconds".toList ++ ['\n'] from by decide]
  fill_eq

theorem shows_last : Shows ("\nTotal execution time was ".toList ++ secsText tm.wholeTime ++ " seconds.\n".toList) .nil := by
  have := quiet_fill [some "Total execution time was ".toList, none, some " seconds.".toList] [secsText tm.wholeTime] rfl (by simpa using hole_secs _) (by decide) rfl
  refine (congrArg₂ Shows ?_ rfl).mp (shows_empty.quiet_append this)
  rw [show " seconds.\n".toList = " seconds.".toList ++ ['\n'] from by decide,
    show "\nTotal execution time was ".toList = ['\n'] ++ "Total execution time was ".toList from by decide]
  fill_eq

theorem shows_pqs : Shows "Converting PQS to QHM ...\n".toList .nil := by
  have := quiet_fill [some "Converting PQS to QHM ...".toList] [] rfl (by simp) (by decide) rfl
  exact this

end

/-! ## The names of the files -/

theorem named_perm {D E : List (Text × Dir)} (h : Named E) (hf : List.Forall₂ (fun a b => a.1 = b.1 ∧ a.2.Perm b.2) D E) : Named D := by
  intro e he
  obtain ⟨i, hi, rfl⟩ := List.getElem_of_mem he
  obtain ⟨h1, h2⟩ := List.forall₂_iff_get.1 hf
  have h3 := h2 i hi (h1 ▸ hi)
  obtain ⟨⟨rs, k1⟩, k2⟩ := h _ (List.getElem_mem (h1 ▸ hi))
  exact ⟨⟨rs, h3.1.trans k1⟩, fun f hf => k2 f (h3.2.mem_iff.1 hf)⟩

theorem named_written {F : Type} {A : Fl F} {ty : SeqType} {p : ℕ} {mo : MatchOption} {pr : Option Pairing} {w : List (Text × Dir)}
    (hw : writePairs A p ty mo pr = some w) : Named w := by
  have hl : ∃ l, generateRowsums p ty = some l := by
    unfold writePairs at hw
    obtain ⟨l, h, _⟩ := Option.bind_eq_some_iff.1 hw
    exact ⟨l, h⟩
  obtain ⟨l, hl⟩ := hl
  have hf := Program.writePairs_dirs A hw hl
  intro e he
  obtain ⟨i, hi, rfl⟩ := List.getElem_of_mem he
  obtain ⟨h1, h2⟩ := List.forall₂_iff_get.1 hf
  obtain ⟨k1, k2⟩ := h2 i (h1 ▸ hi) hi
  refine ⟨⟨_, k1⟩, fun f hf => ?_⟩
  unfold writePairsRowsum at k2
  dsimp only at k2
  simp only [Option.bind_eq_some_iff, Option.map_eq_some_iff] at k2
  obtain ⟨tw, e1, tx, e2, ty', e3, tz, e4, p12, e5, p34, e6, e7⟩ := k2
  have hf' : f ∈ w[i].2 := hf
  rw [show w[i].2 = _ from e7.symm] at hf'
  simp only [List.mem_cons, List.not_mem_nil, or_false] at hf'
  rcases hf' with rfl | rfl | rfl | rfl | rfl | rfl
  · exact .inl ⟨_, rfl⟩
  · exact .inl ⟨_, rfl⟩
  · exact .inl ⟨_, rfl⟩
  · exact .inl ⟨_, rfl⟩
  · exact .inr (.inl ⟨_, _, rfl⟩)
  · exact .inr (.inl ⟨_, _, rfl⟩)

theorem named_same {D w : List (Text × Dir)} (h : Named w) (hs : SameDirs D w) : Named D := by
  obtain ⟨ds, hp, hf⟩ := hs
  exact named_perm (fun e he => h e (hp.mem_iff.1 he)) hf

theorem named_listing {dirs w : List (Text × Dir)} (h : Named w) (hs : Listing w dirs) : Named dirs := by
  obtain ⟨ds, hp, hf⟩ := hs
  refine named_perm (E := ds.map fun e => (e.1, sortDir e.2)) ?_ ?_
  · intro e he
    obtain ⟨d, hd, rfl⟩ := List.mem_map.1 he
    obtain ⟨h1, h2⟩ := h d (hp.mem_iff.1 hd)
    refine ⟨h1, fun f hf => ?_⟩
    unfold sortDir at hf
    obtain ⟨g, hg, rfl⟩ := List.mem_map.1 hf
    have h3 := h2 g hg
    split
    · rename_i hsuf
      rcases h3 with ⟨t, e⟩ | ⟨t, u, e⟩ | ⟨t, u, e⟩
      · rw [e] at hsuf
        cases t <;> exact absurd hsuf (by decide)
      · exact .inr (.inr ⟨t, u, by dsimp only; rw [e]⟩)
      · rw [e] at hsuf
        cases t <;> cases u <;> exact absurd hsuf (by decide)
    · exact h3
  · rw [List.forall₂_map_right_iff]
    exact hf

end Proofs.Log
