import Verif.Spec.Calls
import Verif.Proofs.Stages
import Verif.Proofs.Text

/-!
# The commands call by call
-/

set_option linter.unusedSectionVars false
set_option linter.unusedVariables false
set_option linter.unusedSimpArgs false
set_option linter.unusedTactic false
set_option linter.unreachableTactic false

namespace Proofs.Calls
open Model Model.Calls Spec Proofs.Store

/-! ## Directories -/

/-- The file exists and has the given text. -/
def Has (d : Dir) (name c : Text) : Prop := name ∈ d.map Prod.fst ∧ ∀ f ∈ d, f.1 = name → f.2 = c

theorem append_has {d : Dir} {name : Text} (h : Has d name []) (b : Text) : appendFile d name b = putFile d name b := by
  unfold putFile appendFile
  rw [if_pos h.1]
  refine List.map_congr_left fun f hf => ?_
  by_cases e : f.1 = name
  · rw [if_pos e, if_pos e, h.2 f hf e, e]; rfl
  · rw [if_neg e, if_neg e]

theorem has_put (d : Dir) (name c : Text) : Has (putFile d name c) name c := by
  unfold putFile
  by_cases h : name ∈ d.map Prod.fst
  · rw [if_pos h]
    refine ⟨?_, fun f hf e => ?_⟩
    · obtain ⟨f, hf, rfl⟩ := List.mem_map.1 h
      exact List.mem_map.2 ⟨_, List.mem_map.2 ⟨f, hf, rfl⟩, by rw [if_pos rfl]⟩
    · obtain ⟨g, hg, rfl⟩ := List.mem_map.1 hf
      by_cases e' : g.1 = name
      · rw [if_pos e']
      · rw [if_neg e'] at e; exact absurd e e'
  · rw [if_neg h]
    refine ⟨by simp, fun f hf e => ?_⟩
    rcases List.mem_append.1 hf with hf | hf
    · exact absurd (List.mem_map.2 ⟨f, hf, e⟩) h
    · rw [List.mem_singleton.1 hf]

theorem has_other {d : Dir} {a c : Text} (h : Has d a c) {b : Text} (hab : a ≠ b) (x : Text) : Has (putFile d b x) a c := by
  unfold putFile
  by_cases hb : b ∈ d.map Prod.fst
  · rw [if_pos hb]
    refine ⟨?_, fun f hf e => ?_⟩
    · obtain ⟨f, hf, e⟩ := List.mem_map.1 h.1
      exact List.mem_map.2 ⟨_, List.mem_map.2 ⟨f, hf, rfl⟩, by rw [if_neg (fun h => hab (e.symm.trans h)), e]⟩
    · obtain ⟨g, hg, rfl⟩ := List.mem_map.1 hf
      by_cases e' : g.1 = b
      · rw [if_pos e'] at e; exact absurd e.symm hab
      · rw [if_neg e'] at e ⊢; exact h.2 g hg e
  · rw [if_neg hb]
    refine ⟨by rw [List.map_append]; exact List.mem_append_left _ h.1, fun f hf e => ?_⟩
    rcases List.mem_append.1 hf with hf | hf
    · exact h.2 f hf e
    · rw [List.mem_singleton.1 hf] at e; exact absurd e.symm hab

theorem appendFile_nil (d : Dir) (name : Text) : appendFile d name [] = d := by
  unfold appendFile
  conv_rhs => rw [← List.map_id d]
  refine List.map_congr_left fun f _ => ?_
  by_cases e : f.1 = name
  · rw [if_pos e, List.append_nil]; rfl
  · rw [if_neg e]; rfl

theorem appendFile_append (d : Dir) (name a b : Text) :
    appendFile (appendFile d name a) name b = appendFile d name (a ++ b) := by
  unfold appendFile
  rw [List.map_map]
  refine List.map_congr_left fun f _ => ?_
  by_cases e : f.1 = name
  · simp only [Function.comp, e, if_true, List.append_assoc]
  · simp only [Function.comp, e, if_false]

/-! ## The store -/

/-- The write of the whole text of a file. -/
def put (f : FileName) (b : Text) : Write :=
  match f.dir with
  | some dir => .put f.ty f.n dir f.name b
  | none => .putTop f.ty f.n f.name b

theorem create_eq (s : Store) (f : FileName) : Calls.create s f = Write.apply s (put f []) := by
  obtain ⟨ty, n, dir, name⟩ := f
  cases dir <;> rfl

/-- The file has the given text wherever its directory exists. -/
def HasF (s : Store) (f : FileName) (c : Text) : Prop :=
  ∀ d, s f.ty f.n = some d →
    match f.dir with
    | some dir => ∀ e ∈ d.dirs, e.1 = dir → Has e.2 f.name c
    | none => Has d.files f.name c

theorem append_hasF {s : Store} {f : FileName} (h : HasF s f []) (b : Text) : Calls.append s f b = Write.apply s (put f b) := by
  obtain ⟨ty, n, dir, name⟩ := f
  funext t m
  unfold Calls.append Write.apply
  cases dir with
  | none =>
    simp only [put, Write.path, Write.act]
    by_cases e : (t, m) = (ty, n)
    · rw [if_pos e]
      refine Eq.trans ?_ (if_pos e).symm
      obtain ⟨rfl, rfl⟩ := Prod.mk.inj e
      cases hd : s t m with
      | none => rfl
      | some d =>
        have h' : Has d.files name [] := h d hd
        simp only [Option.map_some, append_has h' b]
    · rw [if_neg e]
      exact (if_neg e).symm
  | some dir =>
    simp only [put, Write.path, Write.act]
    by_cases e : (t, m) = (ty, n)
    · rw [if_pos e]
      refine Eq.trans ?_ (if_pos e).symm
      obtain ⟨rfl, rfl⟩ := Prod.mk.inj e
      cases hd : s t m with
      | none => rfl
      | some d =>
        have h' : ∀ e ∈ d.dirs, e.1 = dir → Has e.2 name [] := h d hd
        simp only [Option.map_some]
        congr 2
        refine List.map_congr_left fun e he => ?_
        by_cases e1 : e.1 = dir
        · rw [if_pos e1, if_pos e1, append_has (h' e he e1) b]
        · rw [if_neg e1, if_neg e1]
    · rw [if_neg e]
      exact (if_neg e).symm

theorem hasF_put (s : Store) (f : FileName) (c : Text) : HasF (Write.apply s (put f c)) f c := by
  obtain ⟨ty, n, dir, name⟩ := f
  intro d hd
  cases dir with
  | none =>
    simp only [put, Write.apply, Write.path, Write.act, if_true] at hd
    obtain ⟨d0, _, rfl⟩ := Option.map_eq_some_iff.1 hd
    exact has_put _ _ _
  | some dir =>
    simp only [put, Write.apply, Write.path, Write.act, if_true] at hd
    obtain ⟨d0, _, rfl⟩ := Option.map_eq_some_iff.1 hd
    intro e he e1
    obtain ⟨g, hg, rfl⟩ := List.mem_map.1 he
    by_cases e2 : g.1 = dir
    · rw [if_pos e2]; exact has_put _ _ _
    · rw [if_neg e2] at e1; exact absurd e1 e2

theorem hasF_other {s : Store} {ty n a b c : Text} (h : HasF s ⟨ty, n, none, a⟩ c) (hab : a ≠ b) (x : Text) :
    HasF (Write.apply s (put ⟨ty, n, none, b⟩ x)) ⟨ty, n, none, a⟩ c := by
  intro d hd
  simp only [put, Write.apply, Write.path, Write.act, if_true] at hd
  obtain ⟨d0, h0, rfl⟩ := Option.map_eq_some_iff.1 hd
  exact has_other (h d0 h0) hab x

theorem append_nil (s : Store) (f : FileName) : Calls.append s f [] = s := by
  obtain ⟨ty, n, dir, name⟩ := f
  funext t m
  unfold Calls.append
  by_cases e : (t, m) = (ty, n)
  · rw [if_pos e]
    cases s t m with
    | none => rfl
    | some d =>
      cases dir with
      | none => simp only [Option.map_some, appendFile_nil]
      | some dir =>
        simp only [Option.map_some, appendFile_nil]
        congr 1
        have : (d.dirs.map fun e => if e.1 = dir then (e.1, e.2) else e) = d.dirs := by
          conv_rhs => rw [← List.map_id d.dirs]
          refine List.map_congr_left fun e _ => ?_
          split <;> rfl
        rw [this]
  · rw [if_neg e]

theorem append_append (s : Store) (f : FileName) (a b : Text) :
    Calls.append (Calls.append s f a) f b = Calls.append s f (a ++ b) := by
  obtain ⟨ty, n, dir, name⟩ := f
  funext t m
  unfold Calls.append
  by_cases e : (t, m) = (ty, n)
  · rw [if_pos e, if_pos e, if_pos e]
    cases s t m with
    | none => rfl
    | some d =>
      cases dir with
      | none => simp only [Option.map_some, appendFile_append]
      | some dir =>
        simp only [Option.map_some, List.map_map]
        congr 2
        refine List.map_congr_left fun e _ => ?_
        by_cases e1 : e.1 = dir
        · simp only [Function.comp, e1, if_true, appendFile_append]
        · simp only [Function.comp, e1, if_false]
  · rw [if_neg e, if_neg e, if_neg e]

/-! ## Everything transferred -/

/-- The effect of one call that transfers everything. -/
def act (s : Store) : SysCall → Store
  | .mkdir ty n dir => Write.apply s (.mkdir ty n dir)
  | .create f => Calls.create s f
  | .write f b => Calls.append s f b

/-- All calls. -/
def exec (s : Store) (cs : List SysCall) : Store := cs.foldl act s

theorem exec_append (s : Store) (a b : List SysCall) : exec s (a ++ b) = exec (exec s a) b := List.foldl_append ..

theorem blocks_append (a b : List SysCall) : blocks (a ++ b) = blocks a ++ blocks b := by
  induction a with
  | nil => rfl
  | cons c a ih => cases c <;> simp only [List.cons_append, blocks, ih]

theorem perform_full {dev : Device} : ∀ (cs : List SysCall) (u : ℕ) (s : Store),
    (∀ b ∈ blocks cs, ∀ u, ∃ k, dev u b.length = some k ∧ b.length ≤ k) → perform dev u s cs = (exec s cs, true)
  | [], _, _, _ => rfl
  | .mkdir _ _ _ :: cs, u, s, h => perform_full cs u _ h
  | .create _ :: cs, u, s, h => perform_full cs u _ h
  | .write f b :: cs, u, s, h => by
    obtain ⟨k, h1, h2⟩ := h b List.mem_cons_self u
    unfold perform
    rw [h1]
    dsimp only
    rw [List.take_of_length_le h2, perform_full cs _ _ fun b hb => h b (List.mem_cons_of_mem _ hb)]
    rfl

/-- A command call by call has the same result, and if there is one the same effect. -/
structure Refines {α : Type} (c : Cmd α) (r : Run α) : Prop where
  result : c.result = r.result
  store : c.result.isSome → ∀ s, exec s c.calls = applyOps s r.ops

theorem Refines.pure {α : Type} (a : α) : Refines (Cmd.pure a) (Run.pure a) := ⟨rfl, fun _ _ => rfl⟩

theorem Refines.opt {α : Type} (a : Option α) : Refines (Cmd.ofOption a) (Run.ofOption a) := ⟨rfl, fun _ _ => rfl⟩

theorem Refines.bind {α β : Type} {c : Cmd α} {r : Run α} {f : α → Cmd β} {g : α → Run β} (h : Refines c r)
    (hf : ∀ a, Refines (f a) (g a)) : Refines (c >>= f) (r >>= g) := by
  change Refines (Cmd.bind c f) (Run.bind r g)
  unfold Cmd.bind Run.bind
  rw [← h.result]
  cases hc : c.result with
  | none => exact ⟨rfl, fun h => by cases h⟩
  | some a =>
    refine ⟨(hf a).result, fun h' s => ?_⟩
    dsimp only at h' ⊢
    rw [exec_append, h.store (by rw [hc]; rfl), (hf a).store h', applyOps, applyOps, applyOps, List.foldl_append]

theorem Refines.sum {α : Type} {f : α → Cmd ℕ} {g : α → Run ℕ} (h : ∀ a, Refines (f a) (g a)) :
    ∀ l : List α, Refines (Cmd.sum f l) (Run.sum g l)
  | [] => Refines.pure 0
  | x :: l => Refines.bind (h x) fun a => Refines.bind (Refines.sum h l) fun b => Refines.pure (a + b)

theorem Refines.mkdir (ty n dir : Text) : Refines (Cmd.call (.mkdir ty n dir)) (Run.op (.mkdir ty n dir)) := ⟨rfl, fun _ _ => rfl⟩

theorem each_write (f : FileName) (bs : List Text) :
    Cmd.each (fun b => Cmd.call (.write f b)) bs = ⟨bs.map (.write f), some ()⟩ := by
  induction bs with
  | nil => rfl
  | cons b bs ih =>
    rw [Cmd.each, ih]
    rfl

theorem exec_writes (f : FileName) : ∀ (bs : List Text) (s : Store), exec s (bs.map (.write f)) = Calls.append s f bs.flatten
  | [], s => (append_nil s f).symm
  | b :: bs, s => by
    change exec (Calls.append s f b) (bs.map (.write f)) = _
    rw [exec_writes f bs, append_append]
    rfl

/-- A file that is created and then written block by block. -/
theorem exec_file (f : FileName) (bs : List Text) (s : Store) :
    exec s (.create f :: bs.map (.write f)) = applyOps s [put f [], put f bs.flatten] := by
  change exec (Calls.create s f) (bs.map (.write f)) = Write.apply (Write.apply s (put f [])) (put f bs.flatten)
  rw [exec_writes, create_eq, append_hasF (hasF_put s f [])]

theorem put_put (f : FileName) (a : Text) (s : Store) : applyOps s [put f [], put f a] = applyOps s [put f a] := by
  have key : ∀ (d : Dir) (name : Text), putFile (putFile d name []) name a = putFile d name a := by
    intro d name
    rw [← append_has (has_put d name [])]
    unfold putFile appendFile
    by_cases h : name ∈ d.map Prod.fst
    · rw [if_pos h, if_pos h, List.map_map]
      refine List.map_congr_left fun g _ => ?_
      by_cases e : g.1 = name
      · simp only [Function.comp, e, if_true, List.nil_append]
      · simp only [Function.comp, e, if_false]
    · rw [if_neg h, if_neg h, List.map_append, List.map_cons, List.map_nil]
      dsimp only
      rw [if_pos rfl, List.nil_append]
      congr 1
      conv_rhs => rw [← List.map_id d]
      refine List.map_congr_left fun g hg => ?_
      rw [if_neg (fun e => h (List.mem_map.2 ⟨g, hg, e⟩))]
      rfl
  obtain ⟨ty, n, dir, name⟩ := f
  change Write.apply (Write.apply s _) _ = Write.apply s _
  funext t m
  cases dir with
  | none =>
    simp only [put, Write.apply, Write.path, Write.act]
    by_cases e : (t, m) = (ty, n)
    · simp only [e, if_true, Option.map_map]
      congr 1
      funext d
      simp only [Function.comp, key]
    · simp only [e, if_false]
  | some dir =>
    simp only [put, Write.apply, Write.path, Write.act]
    by_cases e : (t, m) = (ty, n)
    · simp only [e, if_true, Option.map_map]
      congr 1
      funext d
      simp only [Function.comp, List.map_map]
      congr 1
      refine List.map_congr_left fun g _ => ?_
      by_cases e1 : g.1 = dir
      · simp only [Function.comp, e1, if_true, key]
      · simp only [Function.comp, e1, if_false]
    · simp only [e, if_false]

/-! ## The commands -/

theorem each_lines (f : FileName) : ∀ (seqs : List (List ℤ)),
    (Cmd.each (fun seq => do
      let line ← Cmd.ofOption (sequenceToString seq)
      Cmd.call (.write f (line ++ ['\n']))) seqs).result = (seqs.mapM sequenceToString).map (fun _ => ()) ∧
    ∀ ls, seqs.mapM sequenceToString = some ls → (Cmd.each (fun seq => do
      let line ← Cmd.ofOption (sequenceToString seq)
      Cmd.call (.write f (line ++ ['\n']))) seqs).calls = ls.map fun l => .write f (l ++ ['\n'])
  | [] => ⟨rfl, fun ls h => by
    simp only [List.mapM_nil] at h
    cases h; rfl⟩
  | q :: seqs => by
    obtain ⟨h1, h2⟩ := each_lines f seqs
    rw [List.mapM_cons, Cmd.each]
    cases hq : sequenceToString q with
    | none => exact ⟨rfl, fun ls h => by cases h⟩
    | some l =>
      simp only [Cmd.bind, bind, Cmd.ofOption, Cmd.call, Option.bind_some] at h1 h2 ⊢
      cases hm : seqs.mapM sequenceToString with
      | none =>
        rw [hm] at h1
        refine ⟨?_, fun ls h => by cases h⟩
        rw [h1]; rfl
      | some ls' =>
        rw [hm] at h1
        refine ⟨by rw [h1]; rfl, fun ls h => ?_⟩
        cases h
        rw [h2 ls' hm]
        rfl

theorem ref_sequences (ty n dir : Text) (tag : Tag) (seqs : List (List ℤ)) :
    Refines (writeSequences ty n dir tag seqs) (writeFile ty n dir (seqFileName tag) (sequencesText seqs)) := by
  obtain ⟨h1, h2⟩ := each_lines ⟨ty, n, some dir, seqFileName tag⟩ seqs
  unfold writeSequences sequencesText
  cases hm : seqs.mapM sequenceToString with
  | none =>
    rw [hm] at h1
    refine ⟨?_, fun h => ?_⟩
    · change (Cmd.each _ seqs).result = none
      rw [h1]; rfl
    · change (Cmd.each _ seqs).result.isSome at h
      rw [h1] at h; cases h
  | some ls =>
    rw [hm] at h1
    refine ⟨?_, fun _ s => ?_⟩
    · change (Cmd.each _ seqs).result = some ()
      rw [h1]; rfl
    · change exec s (.create _ :: (Cmd.each _ seqs).calls) = applyOps s [put ⟨ty, n, some dir, seqFileName tag⟩ [],
        put ⟨ty, n, some dir, seqFileName tag⟩ (unlines ls)]
      rw [h2 ls hm]
      have := exec_file ⟨ty, n, some dir, seqFileName tag⟩ (ls.map fun l => l ++ ['\n']) s
      rw [List.map_map] at this
      rw [show (unlines ls) = (ls.map fun l => l ++ ['\n']).flatten from (List.flatMap_def ..).symm ▸ rfl]
      exact this

theorem ref_seqPairs {F : Type} (A : Fl F) (folder n dir : Text) (seqs1 seqs2 : List (List ℤ)) (tags : Tag × Tag) (ty : SeqType)
    (rs : Quad) (p : ℕ) (side : Side) (mo : MatchOption) :
    Refines (Calls.writeSeqPairs A folder n dir seqs1 seqs2 tags ty rs p side mo)
      (writeSeqPairsRun A folder n dir seqs1 seqs2 tags ty rs p side mo) := by
  unfold Calls.writeSeqPairs writeSeqPairsRun
  refine Refines.bind (Refines.opt _) fun _ => ?_
  cases hl : pairLines A seqs1 seqs2 tags ty p side mo with
  | none => exact ⟨rfl, fun h => by cases h⟩
  | some lines =>
    refine ⟨?_, fun _ s => ?_⟩
    · change (Cmd.bind (Cmd.each _ _) _).result = some lines.length
      rw [each_write]; rfl
    · change exec s (.create _ :: (Cmd.bind (Cmd.each _ _) _).calls) = applyOps s
        [put ⟨folder, n, some dir, pairFileName tags.1 tags.2⟩ [],
          put ⟨folder, n, some dir, pairFileName tags.1 tags.2⟩ (writeBlocks lines).flatten]
      rw [each_write, ← exec_file]
      change exec s (.create _ :: (List.map _ _ ++ [])) = _
      rw [List.append_nil]

theorem ref_rowsum {F : Type} (A : Fl F) (folder : Text) (rs : Quad) (p : ℕ) (mo : MatchOption) (pr : Option Pairing) :
    Refines (Calls.writePairsRowsum A folder rs p mo pr) (writePairsRowsumRun A folder rs p mo pr) := by
  unfold Calls.writePairsRowsum writePairsRowsumRun
  refine Refines.bind (Refines.mkdir _ _ _) fun _ => Refines.bind (Refines.opt _) fun ty => ?_
  refine Refines.bind (ref_sequences _ _ _ _ _) fun _ => Refines.bind (ref_sequences _ _ _ _ _) fun _ =>
    Refines.bind (ref_sequences _ _ _ _ _) fun _ => Refines.bind (ref_sequences _ _ _ _ _) fun _ => ?_
  exact Refines.bind (ref_seqPairs _ _ _ _ _ _ _ _ _ _ _ _) fun _ => Refines.bind (ref_seqPairs _ _ _ _ _ _ _ _ _ _ _ _)
    fun _ => Refines.pure _

theorem ref_pairs {F : Type} (A : Fl F) (p : ℕ) (ty : SeqType) (mo : MatchOption) (pr : Option Pairing) :
    Refines (Calls.writePairs A p ty mo pr) (writePairsRun A p ty mo pr) :=
  Refines.bind (Refines.opt _) fun _ => Refines.sum (fun rs => ref_rowsum _ _ _ _ _ _) _

theorem ref_single {F : Type} (A : Fl F) (folder : Text) (rs : Quad) (p : ℕ) (mo : MatchOption) (pr : Option Pairing) (pair : ℕ) :
    Refines (Calls.writePairSingleRowsum A folder rs p mo pr pair) (writePairSingleRowsumRun A folder rs p mo pr pair) := by
  unfold Calls.writePairSingleRowsum writePairSingleRowsumRun
  refine Refines.bind (Refines.mkdir _ _ _) fun _ => Refines.bind (Refines.opt _) fun ty => ?_
  cases getIndices pr pair with
  | none => exact Refines.pure _
  | some t =>
    exact Refines.bind (ref_sequences _ _ _ _ _) fun _ => Refines.bind (ref_sequences _ _ _ _ _) fun _ =>
      ref_seqPairs _ _ _ _ _ _ _ _ _ _ _ _

theorem ref_create (folder : Text) (p : ℕ) (rs : Quad) (pr : Option Pairing) :
    Refines (Calls.createRowsumDirs folder p rs pr) (createRowsumDirsRun folder p rs pr) := by
  refine Refines.bind (Refines.mkdir _ _ _) fun _ => Refines.bind (Refines.opt _) fun names => ⟨rfl, fun _ s => ?_⟩
  dsimp only
  clear * -
  induction names generalizing s with
  | nil => rfl
  | cons x names ih => exact ih _

theorem ref_top (ty n name : Text) (text : Option Text) :
    Refines (Cmd.call (.create ⟨ty, n, none, name⟩) >>= fun _ => Cmd.ofOption text >>= fun t => Cmd.call (.write ⟨ty, n, none, name⟩ t))
      (Run.op (.putTop ty n name []) >>= fun _ => Run.ofOption text >>= fun t => Run.op (.putTop ty n name t)) := by
  cases text with
  | none => exact ⟨rfl, fun h => by cases h⟩
  | some t =>
    refine ⟨rfl, fun _ s => ?_⟩
    have := exec_file ⟨ty, n, none, name⟩ [t] s
    rw [List.flatten_singleton] at this
    exact this

theorem ref_rowsums (s : Store) (p : ℕ) (ty : SeqType) : Refines (Calls.writeRowsums s p ty) (writeRowsumsRun s p ty) :=
  Refines.bind (Refines.opt _) fun _ => ref_top _ _ _ _

theorem exec_result (ty n : Text) {a b : Text} (hab : a ≠ b) (t q : Text) (s : Store) :
    exec s [.create ⟨ty, n, none, a⟩, .create ⟨ty, n, none, b⟩, .write ⟨ty, n, none, a⟩ t, .write ⟨ty, n, none, b⟩ q] =
      applyOps s [.putTop ty n a [], .putTop ty n b [], .putTop ty n a t, .putTop ty n b q] := by
  change Calls.append (Calls.append (Calls.create (Calls.create s ⟨ty, n, none, a⟩) ⟨ty, n, none, b⟩) ⟨ty, n, none, a⟩ t)
    ⟨ty, n, none, b⟩ q = applyOps s [put ⟨ty, n, none, a⟩ [], put ⟨ty, n, none, b⟩ [], put ⟨ty, n, none, a⟩ t, put ⟨ty, n, none, b⟩ q]
  rw [create_eq, create_eq, append_hasF (hasF_other (hasF_put s ⟨ty, n, none, a⟩ []) hab []),
    append_hasF (hasF_other (hasF_put _ ⟨ty, n, none, b⟩ []) hab.symm t)]
  rfl

theorem ref_result (ty n : Text) {a b : Text} (hab : a ≠ b) (l : List QuadSeq) :
    Refines (Calls.writeResult ty n a b l) (writeResultRun ty n a b l) := by
  unfold Calls.writeResult writeResultRun
  cases h1 : resultText l with
  | none => exact ⟨rfl, fun h => by cases h⟩
  | some t =>
    cases h2 : qseqText l with
    | none => exact ⟨rfl, fun h => by cases h⟩
    | some q =>
      exact ⟨rfl, fun _ s => exec_result ty n hab t q s⟩

variable {F κ : Type} [DecidableEq κ]

theorem ref_join (env : Env F κ) (s : Store) (ty : SeqType) (p : ℕ) : Refines (Calls.join env s ty p) (joinRun env s ty p) := by
  unfold Calls.join joinRun
  refine Refines.bind (Refines.opt _) fun d => Refines.bind (Refines.opt _) fun m => Refines.bind (Refines.opt _) fun _ =>
    Refines.bind (Refines.opt _) fun r => Refines.bind (Refines.opt _) fun _ =>
    Refines.bind (ref_result _ _ (by decide) _) fun _ => ?_
  cases ty <;> first
    | exact Refines.pure ()
    | exact Refines.bind (Refines.opt _) fun _ => ref_result _ _ (by decide) _

theorem ref_convertHm (env : Env F κ) (s : Store) (ty : SeqType) (p : ℕ) :
    Refines (Calls.convertHm env s ty p) (convertHmRun env s ty p) := by
  unfold Calls.convertHm convertHmRun
  refine Refines.bind (Refines.opt _) fun t => Refines.bind (Refines.opt _) fun text => ⟨rfl, fun _ s' => ?_⟩
  have := exec_file ⟨ty.toText, natText p, none, "result.mat".toList⟩ [text] s'
  rw [List.flatten_singleton, put_put] at this
  exact this

theorem ref_convertQhm (s : Store) (ty : SeqType) (p : ℕ) : Refines (Calls.convertQhm s ty p) (convertQhmRun s ty p) := by
  unfold Calls.convertQhm convertQhmRun
  cases readTop s ty.toText (natText p) "result.seq".toList with
  | none => exact Refines.pure ()
  | some t =>
    dsimp only
    cases h : convertQsToMatrices t with
    | none => exact ⟨rfl, fun h => by cases h⟩
    | some r =>
      refine ⟨rfl, fun _ s' => ?_⟩
      have := exec_file ⟨ty.toText, natText p, none, "result.qhm".toList⟩ [r.1] s'
      rw [List.flatten_singleton] at this
      exact this

theorem qhmAll_text (order : List QuadSeq → List QuadSeq) (ty : SeqType) (t : Text) :
    qhmWriteAll order ty t = (qhmAllBlocks order ty t).map List.flatten := by
  unfold qhmWriteAll qhmAllBlocks
  cases (readLines t).mapM fun line => (QS.fromStr line).bind QuadSeq.fromPqs with
  | none => rfl
  | some qts =>
    simp only [Option.bind_some]
    cases generateEquivalentQuadSeqs qts ty with
    | none => rfl
    | some equ => rfl

theorem ref_qhmAll (env : Env F κ) (s : Store) (ty : SeqType) (p : ℕ) : Refines (Calls.qhmAll env s ty p) (qhmAllRun env s ty p) := by
  unfold Calls.qhmAll qhmAllRun
  refine Refines.bind (Refines.opt _) fun t => ?_
  rw [qhmAll_text]
  cases h : qhmAllBlocks env.qsOrder ty t with
  | none => exact ⟨rfl, fun h => by cases h⟩
  | some bs =>
    refine ⟨?_, fun _ s' => ?_⟩
    · change (Cmd.each _ bs).result = some ()
      rw [each_write]
    · change exec s' (.create _ :: (Cmd.each _ bs).calls) = applyOps s' [put ⟨ty.toText, natText p, none, "qhm_all.mat".toList⟩ bs.flatten]
      rw [each_write, exec_file, put_put]

theorem ref_amicable (s : Store) (p : ℕ) : Refines (Calls.amicable s p) (amicableRun s p) :=
  Refines.bind (Refines.opt _) fun _ => Refines.opt _

theorem ref_ite {α : Type} {P : Prop} [Decidable P] {a b : Cmd α} {c d : Run α} (h1 : Refines a c) (h2 : Refines b d) :
    Refines (if P then a else b) (if P then c else d) := by
  split
  · exact h1
  · exact h2

theorem ref_main (env : Env F κ) (s : Store) (args : List Text) : Refines (Calls.main env s args) (mainRun env s args) := by
  have bad : Refines (Cmd.ofOption (none : Option Unit)) (Run.ofOption none) := Refines.opt _
  cases args with
  | nil => exact Refines.pure ()
  | cons cmd args =>
    unfold Calls.main mainRun
    refine ref_ite ?_ (ref_ite ?_ (ref_ite ?_ (ref_ite ?_ (ref_ite ?_ (ref_ite ?_ (ref_ite ?_ (ref_ite ?_ (ref_ite ?_
      (Refines.pure ())))))))))
    · split
      · exact Refines.bind (Refines.opt _) fun _ => Refines.bind (Refines.opt _) fun _ => ref_qhmAll _ _ _ _
      · rename_i h
        split
        · first
          | exact (h _ rfl).elim
          | exact (h _ _ rfl).elim
          | exact (h _ _ _ rfl).elim
          | exact (h _ _ _ _ rfl).elim
          | exact (h _ _ _ _ _ rfl).elim
          | exact (h _ _ _ _ _ _ rfl).elim
          | exact (h _ _ _ _ _ _ _ rfl).elim
          | exact (h _ _ _ _ _ _ _ _ rfl).elim
          | exact (h _ _ _ _ _ _ _ _ _ rfl).elim
        · exact bad
    · split
      · exact Refines.bind (Refines.opt _) fun _ => ref_amicable _ _
      · rename_i h
        split
        · first
          | exact (h _ rfl).elim
          | exact (h _ _ rfl).elim
          | exact (h _ _ _ rfl).elim
          | exact (h _ _ _ _ rfl).elim
          | exact (h _ _ _ _ _ rfl).elim
          | exact (h _ _ _ _ _ _ rfl).elim
          | exact (h _ _ _ _ _ _ _ rfl).elim
          | exact (h _ _ _ _ _ _ _ _ rfl).elim
          | exact (h _ _ _ _ _ _ _ _ _ rfl).elim
        · exact bad
    · split
      · exact Refines.bind (Refines.opt _) fun _ => Refines.bind (Refines.opt _) fun _ => ref_rowsums _ _ _
      · rename_i h
        split
        · first
          | exact (h _ rfl).elim
          | exact (h _ _ rfl).elim
          | exact (h _ _ _ rfl).elim
          | exact (h _ _ _ _ rfl).elim
          | exact (h _ _ _ _ _ rfl).elim
          | exact (h _ _ _ _ _ _ rfl).elim
          | exact (h _ _ _ _ _ _ _ rfl).elim
          | exact (h _ _ _ _ _ _ _ _ rfl).elim
          | exact (h _ _ _ _ _ _ _ _ _ rfl).elim
        · exact bad
    · split
      · exact Refines.bind (Refines.opt _) fun _ => Refines.bind (Refines.opt _) fun _ => ref_join _ _ _ _
      · rename_i h
        split
        · first
          | exact (h _ rfl).elim
          | exact (h _ _ rfl).elim
          | exact (h _ _ _ rfl).elim
          | exact (h _ _ _ _ rfl).elim
          | exact (h _ _ _ _ _ rfl).elim
          | exact (h _ _ _ _ _ _ rfl).elim
          | exact (h _ _ _ _ _ _ _ rfl).elim
          | exact (h _ _ _ _ _ _ _ _ rfl).elim
          | exact (h _ _ _ _ _ _ _ _ _ rfl).elim
        · exact bad
    · split
      · exact Refines.bind (Refines.opt _) fun _ => Refines.bind (Refines.opt _) fun _ =>
          ref_ite (ref_convertHm _ _ _ _) (ref_ite (ref_convertQhm _ _ _) bad)
      · rename_i h
        split
        · first
          | exact (h _ rfl).elim
          | exact (h _ _ rfl).elim
          | exact (h _ _ _ rfl).elim
          | exact (h _ _ _ _ rfl).elim
          | exact (h _ _ _ _ _ rfl).elim
          | exact (h _ _ _ _ _ _ rfl).elim
          | exact (h _ _ _ _ _ _ _ rfl).elim
          | exact (h _ _ _ _ _ _ _ _ rfl).elim
          | exact (h _ _ _ _ _ _ _ _ _ rfl).elim
        · exact bad
    · split
      · exact Refines.bind (Refines.opt _) fun _ => Refines.bind (Refines.opt _) fun _ => Refines.bind (Refines.opt _) fun _ =>
          Refines.bind (ref_pairs _ _ _ _ _) fun _ => Refines.pure ()
      · rename_i h
        split
        · first
          | exact (h _ rfl).elim
          | exact (h _ _ rfl).elim
          | exact (h _ _ _ rfl).elim
          | exact (h _ _ _ _ rfl).elim
          | exact (h _ _ _ _ _ rfl).elim
          | exact (h _ _ _ _ _ _ rfl).elim
          | exact (h _ _ _ _ _ _ _ rfl).elim
          | exact (h _ _ _ _ _ _ _ _ rfl).elim
          | exact (h _ _ _ _ _ _ _ _ _ rfl).elim
        · exact bad
    · split
      · exact Refines.bind (Refines.opt _) fun _ => Refines.bind (Refines.opt _) fun _ => Refines.bind (Refines.opt _) fun _ =>
          Refines.bind (Refines.opt _) fun _ => Refines.bind (ref_rowsum _ _ _ _ _ _) fun _ => Refines.pure ()
      · rename_i h
        split
        · first
          | exact (h _ rfl).elim
          | exact (h _ _ rfl).elim
          | exact (h _ _ _ rfl).elim
          | exact (h _ _ _ _ rfl).elim
          | exact (h _ _ _ _ _ rfl).elim
          | exact (h _ _ _ _ _ _ rfl).elim
          | exact (h _ _ _ _ _ _ _ rfl).elim
          | exact (h _ _ _ _ _ _ _ _ rfl).elim
          | exact (h _ _ _ _ _ _ _ _ _ rfl).elim
        · exact bad
    · split
      · exact Refines.bind (Refines.opt _) fun _ => Refines.bind (Refines.opt _) fun _ => Refines.bind (Refines.opt _) fun _ =>
          ref_create _ _ _ _
      · rename_i h
        split
        · first
          | exact (h _ rfl).elim
          | exact (h _ _ rfl).elim
          | exact (h _ _ _ rfl).elim
          | exact (h _ _ _ _ rfl).elim
          | exact (h _ _ _ _ _ rfl).elim
          | exact (h _ _ _ _ _ _ rfl).elim
          | exact (h _ _ _ _ _ _ _ rfl).elim
          | exact (h _ _ _ _ _ _ _ _ rfl).elim
          | exact (h _ _ _ _ _ _ _ _ _ rfl).elim
        · exact bad
    · split
      · exact Refines.bind (Refines.opt _) fun _ => Refines.bind (Refines.opt _) fun _ => Refines.bind (Refines.opt _) fun _ =>
          Refines.bind (Refines.opt _) fun _ => Refines.bind (Refines.opt _) fun _ =>
          Refines.bind (ref_single _ _ _ _ _ _ _) fun _ => Refines.pure ()
      · rename_i h
        split
        · first
          | exact (h _ rfl).elim
          | exact (h _ _ rfl).elim
          | exact (h _ _ _ rfl).elim
          | exact (h _ _ _ _ rfl).elim
          | exact (h _ _ _ _ _ rfl).elim
          | exact (h _ _ _ _ _ _ rfl).elim
          | exact (h _ _ _ _ _ _ _ rfl).elim
          | exact (h _ _ _ _ _ _ _ _ rfl).elim
          | exact (h _ _ _ _ _ _ _ _ _ rfl).elim
        · exact bad

/-! ## Little room -/

/-- The calls cut off after `r` bytes. -/
def trim : ℕ → List SysCall → List SysCall
  | _, [] => []
  | r, .write f b :: cs => .write f (b.take r) :: trim (r - b.length) cs
  | r, c :: cs => c :: trim r cs

/-- No call fails. -/
def Ok : ℕ → List Text → Prop
  | _, [] => True
  | r, b :: bs => (b = [] ∨ 0 < r) ∧ Ok (r - b.length) bs

theorem perform_room (R : ℕ) : ∀ (cs : List SysCall) (u : ℕ) (s : Store), u ≤ R →
    ((perform (room R) u s cs).2 = true ↔ Ok (R - u) (blocks cs)) ∧
      (Ok (R - u) (blocks cs) → (perform (room R) u s cs).1 = exec s (trim (R - u) cs))
  | [], _, _, _ => by simp [perform, blocks, Ok, exec, trim]
  | .mkdir _ _ _ :: cs, u, s, h => perform_room R cs u _ h
  | .create _ :: cs, u, s, h => perform_room R cs u _ h
  | .write f b :: cs, u, s, h => by
    unfold perform room
    simp only [blocks, Ok, trim]
    by_cases hb : b.length = 0
    · have hb' : b = [] := List.length_eq_zero_iff.1 hb
      subst hb'
      have ih := perform_room R cs u s h
      simp only [List.length_nil, if_true, List.take_nil, append_nil, Nat.sub_zero, true_or, true_and, Nat.add_zero]
      refine ⟨ih.1, fun h' => (ih.2 h').trans ?_⟩
      change _ = exec (Calls.append s f []) _
      rw [append_nil]
    · rw [if_neg hb]
      have hb' : b ≠ [] := fun e => hb (by rw [e]; rfl)
      by_cases hr : R ≤ u
      · rw [if_pos hr]
        have h0 : ¬ (b = [] ∨ 0 < R - u) := by rintro (e | e) <;> [exact hb' e; omega]
        exact ⟨⟨fun h => (by cases h), fun h => absurd h.1 h0⟩, fun h => absurd h.1 h0⟩
      · rw [if_neg hr]
        dsimp only
        have hk : b.take (min b.length (R - u)) = b.take (R - u) := by
          rw [Nat.min_comm, ← List.take_take, List.take_length]
        rw [hk]
        have hl : (b.take (R - u)).length = min (R - u) b.length := List.length_take
        have ih := perform_room R cs (u + (b.take (R - u)).length) (Calls.append s f (b.take (R - u))) (by rw [hl]; omega)
        have e : R - (u + (b.take (R - u)).length) = R - u - b.length := by rw [hl]; omega
        rw [e] at ih
        refine ⟨ih.1.trans ⟨fun h => ⟨.inr (by omega), h⟩, And.right⟩, fun h => ih.2 h.2⟩

theorem ok_iff : ∀ (bs : List Text) (r : ℕ), Ok r bs ↔ BegunBefore r bs
  | [], r => by simp [Ok, BegunBefore]
  | b :: bs, r => by
    rw [Ok, ok_iff bs]
    constructor
    · rintro ⟨h1, h2⟩ pre c post e hc
      cases pre with
      | nil =>
        obtain ⟨rfl, rfl⟩ := List.cons.inj e
        exact h1.resolve_left hc
      | cons x pre =>
        obtain ⟨rfl, rfl⟩ := List.cons.inj e
        have := h2 pre c post rfl hc
        simp only [List.flatten_cons, List.length_append]
        omega
    · intro h
      refine ⟨?_, fun pre c post e hc => ?_⟩
      · by_cases hb : b = []
        · exact .inl hb
        · exact .inr (by simpa using h [] b bs rfl hb)
      · have := h (b :: pre) c post (by rw [e]; rfl) hc
        simp only [List.flatten_cons, List.length_append] at this
        omega

theorem trim_all : ∀ (cs : List SysCall) (r : ℕ), (blocks cs).flatten.length ≤ r → trim r cs = cs
  | [], _, _ => rfl
  | .mkdir _ _ _ :: cs, r, h => by rw [trim, trim_all cs r h]; simp
  | .create _ :: cs, r, h => by rw [trim, trim_all cs r h]; simp
  | .write f b :: cs, r, h => by
    simp only [blocks, List.flatten_cons, List.length_append] at h
    rw [trim, trim_all cs _ (by omega), List.take_of_length_le (by omega)]

theorem ok_all {bs : List Text} {r : ℕ} (h : bs.flatten.length ≤ r) : BegunBefore r bs := by
  rintro pre b post rfl hb
  simp only [List.flatten_append, List.flatten_cons, List.length_append] at h
  have := List.length_pos_iff.2 hb
  omega

theorem trim_append : ∀ (a b : List SysCall) (r : ℕ), trim r (a ++ b) = trim r a ++ trim (r - (blocks a).flatten.length) b
  | [], b, r => by simp [trim, blocks]
  | .mkdir _ _ _ :: cs, b, r => by simp [trim, blocks, trim_append cs b]
  | .create _ :: cs, b, r => by simp [trim, blocks, trim_append cs b]
  | .write f x :: cs, b, r => by
    simp [trim, blocks, trim_append cs b, Nat.sub_sub]

theorem trim_writes (f : FileName) : ∀ (bs : List Text) (r : ℕ),
    ∃ bs' : List Text, trim r (bs.map (.write f)) = bs'.map (.write f) ∧ bs'.flatten = bs.flatten.take r
  | [], r => ⟨[], rfl, by simp⟩
  | b :: bs, r => by
    obtain ⟨bs', h1, h2⟩ := trim_writes f bs (r - b.length)
    refine ⟨b.take r :: bs', by rw [List.map_cons, trim, h1]; rfl, ?_⟩
    rw [List.flatten_cons, List.flatten_cons, h2, List.take_append]

theorem blocks_writes (f : FileName) (bs : List Text) : blocks (bs.map (.write f)) = bs := by
  induction bs with
  | nil => rfl
  | cons b bs ih => rw [List.map_cons, blocks, ih]

/-- If all blocks are begun in time, only the last one that is not empty can be cut. -/
theorem last_cut : ∀ (cs : List SysCall) (r : ℕ), BegunBefore r (blocks cs) → r < (blocks cs).flatten.length →
    ∃ pre f b post, cs = pre ++ .write f b :: post ∧ (blocks pre).flatten.length < r ∧
      r < (blocks pre).flatten.length + b.length ∧ (∀ x ∈ blocks post, x = []) ∧
      trim r cs = pre ++ .write f (b.take (r - (blocks pre).flatten.length)) :: post := by
  intro cs
  induction cs with
  | nil => intro r _ h; simp [blocks] at h
  | cons c cs ih =>
    intro r h1 h2
    cases c with
    | mkdir ty n dir =>
      obtain ⟨pre, f, b, post, e1, e2, e3, e4, e5⟩ := ih r h1 h2
      exact ⟨.mkdir ty n dir :: pre, f, b, post, by rw [e1]; rfl, e2, e3, e4, by rw [trim, e5]; rfl; simp⟩
    | create g =>
      obtain ⟨pre, f, b, post, e1, e2, e3, e4, e5⟩ := ih r h1 h2
      exact ⟨.create g :: pre, f, b, post, by rw [e1]; rfl, e2, e3, e4, by rw [trim, e5]; rfl; simp⟩
    | write g x =>
      have ok := (ok_iff _ _).2 h1
      simp only [blocks, Ok] at ok
      simp only [blocks, List.flatten_cons, List.length_append] at h2
      by_cases hx : r < x.length
      · have hr : 0 < r := ok.1.resolve_left (fun e => by rw [e] at hx; simp at hx)
        have h0 : r - x.length = 0 := by omega
        have hz : ∀ y ∈ blocks cs, y = [] := by
          have := ok.2
          rw [h0, ok_iff] at this
          intro y hy
          by_contra hne
          obtain ⟨a, b, e⟩ := List.append_of_mem hy
          have := this a y b e hne
          omega
        refine ⟨[], g, x, cs, rfl, hr, by simpa [blocks] using hx, hz, ?_⟩
        have hf : (blocks cs).flatten.length ≤ r - x.length := by
          rw [List.flatten_eq_nil_iff.2 hz]; simp
        rw [trim, trim_all cs _ hf]
        simp [blocks]
      · obtain ⟨pre, f, b, post, e1, e2, e3, e4, e5⟩ := ih (r - x.length) ((ok_iff _ _).1 ok.2) (by omega)
        refine ⟨.write g x :: pre, f, b, post, by rw [e1]; rfl, ?_, ?_, e4, ?_⟩
        · simp only [blocks, List.flatten_cons, List.length_append]; omega
        · simp only [blocks, List.flatten_cons, List.length_append]; omega
        · rw [trim, e5, List.take_of_length_le (by omega)]
          simp only [blocks, List.flatten_cons, List.length_append, Nat.sub_sub]
          rfl

/-! ## Short calls -/

/-- Every block cut to `m` bytes. -/
def short (m : ℕ) : SysCall → SysCall
  | .write f b => .write f (b.take m)
  | c => c

theorem perform_limit (m : ℕ) : ∀ (cs : List SysCall) (u : ℕ) (s : Store),
    perform (limit m) u s cs = (exec s (cs.map (short m)), true)
  | [], _, _ => rfl
  | .mkdir _ _ _ :: cs, u, s => perform_limit m cs u _
  | .create _ :: cs, u, s => perform_limit m cs u _
  | .write f b :: cs, u, s => by
    unfold perform limit
    dsimp only
    have hk : b.take (min b.length m) = b.take m := by
      rw [Nat.min_comm, ← List.take_take, List.take_length]
    rw [hk]
    exact perform_limit m cs _ _

end Proofs.Calls
