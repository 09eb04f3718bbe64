import Verif.Proofs.Calls
import Verif.Proofs.Rerun

/-!
# What a command leaves when calls fail or transfer a part
-/

set_option linter.unusedSectionVars false
set_option linter.unusedVariables false
set_option linter.unusedSimpArgs false
set_option linter.unreachableTactic false
set_option linter.unusedTactic false

namespace Proofs.Recall
open Model Model.Calls Spec Proofs.Calls Proofs.Rerun

/-- A call that did as much as it did: a part of the block is transferred. -/
def Trunc : SysCall → SysCall → Prop
  | .write f b', .write g b => f = g ∧ ∃ k, b' = b.take k
  | c', c => c' = c

/-- Some of the first calls, with blocks transferred in part. -/
def Cut (cs' cs : List SysCall) : Prop := ∃ pre post, cs = pre ++ post ∧ List.Forall₂ Trunc cs' pre

theorem trunc_refl (c : SysCall) : Trunc c c := by
  cases c with
  | write f b => exact ⟨rfl, b.length, (List.take_length).symm⟩
  | mkdir => rfl
  | create => rfl

theorem trunc_mkdir {c : SysCall} {ty n dir : Text} (h : Trunc c (.mkdir ty n dir)) : c = .mkdir ty n dir := by
  cases c <;> first | exact h | (simp [Trunc] at h)

theorem trunc_create {c : SysCall} {f : FileName} (h : Trunc c (.create f)) : c = .create f := by
  cases c <;> first | exact h | (simp [Trunc] at h)

theorem trunc_write {c : SysCall} {f : FileName} {b : Text} (h : Trunc c (.write f b)) : ∃ b', c = .write f b' := by
  cases c with
  | mkdir => simp [Trunc] at h
  | create => simp [Trunc] at h
  | write g b' => obtain ⟨rfl, _⟩ := h; exact ⟨b', rfl⟩

theorem cut_nil {cs' : List SysCall} (h : Cut cs' []) : cs' = [] := by
  obtain ⟨pre, post, e, h⟩ := h
  obtain ⟨rfl, rfl⟩ := List.append_eq_nil_iff.1 e.symm
  cases h
  rfl

theorem cut_cons {cs' cs : List SysCall} {c : SysCall} (h : Cut cs' (c :: cs)) :
    cs' = [] ∨ ∃ c' l, cs' = c' :: l ∧ Trunc c' c ∧ Cut l cs := by
  obtain ⟨pre, post, e, h⟩ := h
  cases pre with
  | nil => cases h; exact .inl rfl
  | cons x pre =>
    rw [List.cons_append, List.cons.injEq] at e
    obtain ⟨rfl, rfl⟩ := e
    cases h with
    | cons h1 h2 => exact .inr ⟨_, _, rfl, h1, pre, post, rfl, h2⟩

theorem perform_cut (dev : Device) : ∀ (cs : List SysCall) (u : ℕ) (s : Store), ∃ cs', Cut cs' cs ∧ (perform dev u s cs).1 = exec s cs'
  | [], u, s => ⟨[], ⟨[], [], rfl, .nil⟩, rfl⟩
  | c :: cs, u, s => by
    have step : ∀ c' u, Trunc c' c → ∃ cs', Cut cs' (c :: cs) ∧ (perform dev u (act s c') cs).1 = exec s cs' := by
      intro c' u hc
      obtain ⟨cs', ⟨pre, post, rfl, h⟩, e⟩ := perform_cut dev cs u (act s c')
      exact ⟨c' :: cs', ⟨c :: pre, post, rfl, .cons hc h⟩, e⟩
    cases c with
    | mkdir ty n dir => exact step _ u (trunc_refl _)
    | create f => exact step _ u (trunc_refl _)
    | write f b =>
      cases hd : dev u b.length with
      | none =>
        refine ⟨[], ⟨[], _, rfl, .nil⟩, ?_⟩
        unfold perform
        rw [hd]
        rfl
      | some k =>
        obtain ⟨cs', h, e⟩ := step (.write f (b.take k)) (u + (b.take k).length) ⟨rfl, k, rfl⟩
        refine ⟨cs', h, ?_⟩
        unfold perform
        rw [hd]
        exact e

/-- What is left is what some of the first writes leave with other texts. -/
structure KRef {α : Type} (c : Cmd α) (r : Run α) : Prop where
  result : c.result = r.result
  part : ∀ cs', Cut cs' c.calls → ∃ pre post pre', r.ops = pre ++ post ∧ List.Forall₂ SameTarget pre pre' ∧
    ∀ s, exec s cs' = applyOps s pre'
  full : c.result.isSome → ∀ cs', List.Forall₂ Trunc cs' c.calls → ∃ pre', List.Forall₂ SameTarget r.ops pre' ∧
    ∀ s, exec s cs' = applyOps s pre'

theorem KRef.quiet {α : Type} (a : Option α) : KRef ⟨[], a⟩ ⟨[], a⟩ := by
  refine ⟨rfl, fun cs' h => ?_, fun _ cs' h => ?_⟩
  · obtain ⟨pre, post, e, h⟩ := h
    obtain ⟨rfl, rfl⟩ := List.append_eq_nil_iff.1 e.symm
    cases h
    exact ⟨[], [], [], rfl, .nil, fun _ => rfl⟩
  · cases h
    exact ⟨[], .nil, fun _ => rfl⟩

theorem KRef.pure {α : Type} (a : α) : KRef (Cmd.pure a) (Run.pure a) := KRef.quiet _
theorem KRef.opt {α : Type} (a : Option α) : KRef (Cmd.ofOption a) (Run.ofOption a) := KRef.quiet _

theorem trunc_split : ∀ {a b l : List SysCall}, List.Forall₂ Trunc l (a ++ b) →
    ∃ x y, List.Forall₂ Trunc x a ∧ List.Forall₂ Trunc y b ∧ l = x ++ y
  | [], _, l, h => ⟨[], l, .nil, h, rfl⟩
  | o :: a, b, l, h => by
    cases h with
    | cons hs hl =>
      obtain ⟨x, y, hx, hy, rfl⟩ := trunc_split hl
      exact ⟨_, y, .cons hs hx, hy, rfl⟩

/-- The first calls of two lists of calls. -/
theorem cut_append {cs' a b : List SysCall} (h : Cut cs' (a ++ b)) :
    Cut cs' a ∨ ∃ x y, List.Forall₂ Trunc x a ∧ Cut y b ∧ cs' = x ++ y := by
  obtain ⟨pre, post, e, h⟩ := h
  rcases List.append_eq_append_iff.1 e with ⟨m, rfl, rfl⟩ | ⟨m, rfl, rfl⟩
  · obtain ⟨x, y, hx, hy, rfl⟩ := trunc_split h
    exact .inr ⟨x, y, hx, ⟨m, post, rfl, hy⟩, rfl⟩
  · exact .inl ⟨pre, m, rfl, h⟩

theorem same_append {a b c d : List Write} (h1 : List.Forall₂ SameTarget a c) (h2 : List.Forall₂ SameTarget b d) :
    List.Forall₂ SameTarget (a ++ b) (c ++ d) := List.rel_append h1 h2

theorem KRef.bind {α β : Type} {c : Cmd α} {r : Run α} {f : α → Cmd β} {g : α → Run β} (h : KRef c r)
    (hf : ∀ a, KRef (f a) (g a)) : KRef (c >>= f) (r >>= g) := by
  change KRef (Cmd.bind c f) (Run.bind r g)
  unfold Cmd.bind Run.bind
  rw [← h.result]
  cases hc : c.result with
  | none => exact ⟨rfl, h.part, fun h => by cases h⟩
  | some a =>
    refine ⟨(hf a).result, fun cs' hcut => ?_, fun hr cs' hcut => ?_⟩
    · rcases cut_append hcut with hcut | ⟨x, y, hx, hy, rfl⟩
      · obtain ⟨pre, post, pre', e1, e2, e3⟩ := h.part cs' hcut
        exact ⟨pre, post ++ (g a).ops, pre', by dsimp only; rw [e1, List.append_assoc], e2, e3⟩
      · obtain ⟨p1, e1, e2⟩ := h.full (by rw [hc]; rfl) x hx
        obtain ⟨pre, post, p2, e3, e4, e5⟩ := (hf a).part y hy
        refine ⟨r.ops ++ pre, post, p1 ++ p2, by dsimp only; rw [e3, List.append_assoc], same_append e1 e4, fun s => ?_⟩
        rw [exec_append, e2, e5, Store.applyOps_append]
    · obtain ⟨x, y, hx, hy, rfl⟩ := trunc_split hcut
      obtain ⟨p1, e1, e2⟩ := h.full (by rw [hc]; rfl) x hx
      obtain ⟨p2, e3, e4⟩ := (hf a).full hr y hy
      refine ⟨p1 ++ p2, same_append e1 e3, fun s => ?_⟩
      rw [exec_append, e2, e4, Store.applyOps_append]

theorem KRef.sum {α : Type} {f : α → Cmd ℕ} {g : α → Run ℕ} (h : ∀ a, KRef (f a) (g a)) :
    ∀ l : List α, KRef (Cmd.sum f l) (Run.sum g l)
  | [] => KRef.pure 0
  | x :: l => KRef.bind (h x) fun a => KRef.bind (KRef.sum h l) fun b => KRef.pure (a + b)

/-- The writes of one file: created, and then any blocks. -/
theorem cut_writes {f : FileName} : ∀ {bs : List Text} {cs' : List SysCall}, Cut cs' (bs.map (SysCall.write f)) →
    ∃ bs' : List Text, cs' = bs'.map (SysCall.write f)
  | [], _, h => ⟨[], cut_nil h⟩
  | b :: bs, _, h => by
    rcases cut_cons h with rfl | ⟨c', l, rfl, h1, h2⟩
    · exact ⟨[], rfl⟩
    · obtain ⟨bs', rfl⟩ := cut_writes h2
      obtain ⟨b', rfl⟩ := trunc_write h1
      exact ⟨b' :: bs', rfl⟩

theorem same_put (f : FileName) (a b : Text) : SameTarget (put f a) (put f b) := by
  obtain ⟨ty, n, dir, name⟩ := f
  cases dir <;> simp [put, SameTarget]

/-- The calls for one file. -/
theorem cut_file {f : FileName} {bs : List Text} {cs' : List SysCall} (h : Cut cs' (.create f :: bs.map (SysCall.write f))) :
    cs' = [] ∨ ∃ bs' : List Text, cs' = .create f :: bs'.map (SysCall.write f) := by
  rcases cut_cons h with rfl | ⟨c', l, rfl, h1, h2⟩
  · exact .inl rfl
  · obtain ⟨bs', rfl⟩ := cut_writes h2
    cases trunc_create h1
    exact .inr ⟨bs', rfl⟩

theorem exec_file_one (f : FileName) (bs : List Text) (s : Store) :
    exec s (.create f :: bs.map (.write f)) = applyOps s [put f bs.flatten] := by
  rw [exec_file, put_put]

/-- One file in a command that writes it in two steps in the coarse model. -/
theorem kref_two {α : Type} (f : FileName) (bs : List Text) (t : Text) (a : α) :
    KRef ⟨.create f :: bs.map (.write f), some a⟩ ⟨[put f [], put f t], some a⟩ := by
  refine ⟨rfl, fun cs' h => ?_, fun _ cs' h => ?_⟩
  · rcases cut_file h with rfl | ⟨bs', rfl⟩
    · exact ⟨[], _, [], rfl, .nil, fun _ => rfl⟩
    · exact ⟨_, [], [put f [], put f bs'.flatten], (List.append_nil _).symm, .cons (same_put f _ _) (.cons (same_put f _ _) .nil),
        fun s => exec_file f bs' s⟩
  · rcases cut_file ⟨_, [], (List.append_nil _).symm, h⟩ with rfl | ⟨bs', rfl⟩
    · cases h
    · exact ⟨[put f [], put f bs'.flatten], .cons (same_put f _ _) (.cons (same_put f _ _) .nil), fun s => exec_file f bs' s⟩

/-- One file in a command that writes it in one step in the coarse model. -/
theorem kref_one {α : Type} (f : FileName) (bs : List Text) (t : Text) (a : α) :
    KRef ⟨.create f :: bs.map (.write f), some a⟩ ⟨[put f t], some a⟩ := by
  refine ⟨rfl, fun cs' h => ?_, fun _ cs' h => ?_⟩
  · rcases cut_file h with rfl | ⟨bs', rfl⟩
    · exact ⟨[], _, [], rfl, .nil, fun _ => rfl⟩
    · exact ⟨_, [], [put f bs'.flatten], (List.append_nil _).symm, .cons (same_put f _ _) .nil, fun s => exec_file_one f bs' s⟩
  · rcases cut_file ⟨_, [], (List.append_nil _).symm, h⟩ with rfl | ⟨bs', rfl⟩
    · cases h
    · exact ⟨[put f bs'.flatten], .cons (same_put f _ _) .nil, fun s => exec_file_one f bs' s⟩

/-- A file whose text cannot be formed. -/
theorem kref_none {α : Type} (f : FileName) (bs : List Text) :
    KRef (⟨.create f :: bs.map (.write f), none⟩ : Cmd α) ⟨[put f []], none⟩ := by
  refine ⟨rfl, fun cs' h => ?_, fun h => by cases h⟩
  rcases cut_file h with rfl | ⟨bs', rfl⟩
  · exact ⟨[], _, [], rfl, .nil, fun _ => rfl⟩
  · exact ⟨_, [], [put f bs'.flatten], (List.append_nil _).symm, .cons (same_put f _ _) .nil, fun s => exec_file_one f bs' s⟩

theorem KRef.mkdir (ty n dir : Text) : KRef (Cmd.call (.mkdir ty n dir)) (Run.op (.mkdir ty n dir)) := by
  refine ⟨rfl, fun cs' h => ?_, fun _ cs' h => ?_⟩
  · rcases cut_cons h with rfl | ⟨c', l, rfl, h1, h2⟩
    · exact ⟨[], _, [], rfl, .nil, fun _ => rfl⟩
    · cases cut_nil h2
      cases trunc_mkdir h1
      exact ⟨_, [], [.mkdir ty n dir], (List.append_nil _).symm, .cons ⟨rfl, rfl, rfl⟩ .nil, fun _ => rfl⟩
  · cases h with
    | cons h1 h2 =>
      cases h2
      cases trunc_mkdir h1
      exact ⟨[.mkdir ty n dir], .cons ⟨rfl, rfl, rfl⟩ .nil, fun _ => rfl⟩

theorem each_lines_calls (f : FileName) : ∀ seqs : List (List ℤ), ∃ bs : List Text, (Cmd.each (fun seq => do
      let line ← Cmd.ofOption (sequenceToString seq)
      Cmd.call (.write f (line ++ ['\n']))) seqs).calls = bs.map (SysCall.write f)
  | [] => ⟨[], rfl⟩
  | q :: seqs => by
    obtain ⟨bs, h⟩ := each_lines_calls f seqs
    rw [Cmd.each]
    cases hq : sequenceToString q with
    | none => exact ⟨[], rfl⟩
    | some l =>
      refine ⟨(l ++ ['\n']) :: bs, ?_⟩
      simp only [Cmd.bind, Bind.bind, Cmd.ofOption, Cmd.call] at h ⊢
      rw [h]
      rfl

theorem kref_sequences (ty n dir : Text) (tag : Tag) (seqs : List (List ℤ)) :
    KRef (writeSequences ty n dir tag seqs) (writeFile ty n dir (seqFileName tag) (sequencesText seqs)) := by
  obtain ⟨h1, _⟩ := each_lines ⟨ty, n, some dir, seqFileName tag⟩ seqs
  obtain ⟨bs, h2⟩ := each_lines_calls ⟨ty, n, some dir, seqFileName tag⟩ seqs
  unfold writeSequences sequencesText
  change KRef ⟨SysCall.create _ :: (Cmd.each _ seqs).calls, (Cmd.each _ seqs).result⟩ _
  rw [h1, h2]
  cases hm : seqs.mapM sequenceToString with
  | none => exact kref_none ⟨ty, n, some dir, seqFileName tag⟩ bs
  | some ls => exact kref_two ⟨ty, n, some dir, seqFileName tag⟩ bs (unlines ls) ()

theorem kref_seqPairs {F : Type} (A : Fl F) (folder n dir : Text) (seqs1 seqs2 : List (List ℤ)) (tags : Tag × Tag) (ty : SeqType)
    (rs : Quad) (p : ℕ) (side : Side) (mo : MatchOption) :
    KRef (Calls.writeSeqPairs A folder n dir seqs1 seqs2 tags ty rs p side mo)
      (writeSeqPairsRun A folder n dir seqs1 seqs2 tags ty rs p side mo) := by
  unfold Calls.writeSeqPairs writeSeqPairsRun
  refine KRef.bind (KRef.opt _) fun _ => ?_
  cases hl : pairLines A seqs1 seqs2 tags ty p side mo with
  | none => exact kref_none ⟨folder, n, some dir, pairFileName tags.1 tags.2⟩ []
  | some lines =>
    have := kref_two ⟨folder, n, some dir, pairFileName tags.1 tags.2⟩ (writeBlocks lines) (writeBlocks lines).flatten lines.length
    change KRef ⟨SysCall.create _ :: (Cmd.bind (Cmd.each _ _) _).calls, (Cmd.bind (Cmd.each _ _) _).result⟩ _
    rw [each_write]
    change KRef ⟨SysCall.create _ :: (List.map _ _ ++ []), some lines.length⟩ _
    rw [List.append_nil]
    exact this

theorem kref_rowsum {F : Type} (A : Fl F) (folder : Text) (rs : Quad) (p : ℕ) (mo : MatchOption) (pr : Option Pairing) :
    KRef (Calls.writePairsRowsum A folder rs p mo pr) (writePairsRowsumRun A folder rs p mo pr) := by
  unfold Calls.writePairsRowsum writePairsRowsumRun
  refine KRef.bind (KRef.mkdir _ _ _) fun _ => KRef.bind (KRef.opt _) fun ty => ?_
  refine KRef.bind (kref_sequences _ _ _ _ _) fun _ => KRef.bind (kref_sequences _ _ _ _ _) fun _ =>
    KRef.bind (kref_sequences _ _ _ _ _) fun _ => KRef.bind (kref_sequences _ _ _ _ _) fun _ => ?_
  exact KRef.bind (kref_seqPairs _ _ _ _ _ _ _ _ _ _ _ _) fun _ => KRef.bind (kref_seqPairs _ _ _ _ _ _ _ _ _ _ _ _)
    fun _ => KRef.pure _

theorem kref_pairs {F : Type} (A : Fl F) (p : ℕ) (ty : SeqType) (mo : MatchOption) (pr : Option Pairing) :
    KRef (Calls.writePairs A p ty mo pr) (writePairsRun A p ty mo pr) :=
  KRef.bind (KRef.opt _) fun _ => KRef.sum (fun rs => kref_rowsum _ _ _ _ _ _) _

theorem kref_single {F : Type} (A : Fl F) (folder : Text) (rs : Quad) (p : ℕ) (mo : MatchOption) (pr : Option Pairing) (pair : ℕ) :
    KRef (Calls.writePairSingleRowsum A folder rs p mo pr pair) (writePairSingleRowsumRun A folder rs p mo pr pair) := by
  unfold Calls.writePairSingleRowsum writePairSingleRowsumRun
  refine KRef.bind (KRef.mkdir _ _ _) fun _ => KRef.bind (KRef.opt _) fun ty => ?_
  cases getIndices pr pair with
  | none => exact KRef.pure _
  | some t =>
    exact KRef.bind (kref_sequences _ _ _ _ _) fun _ => KRef.bind (kref_sequences _ _ _ _ _) fun _ =>
      kref_seqPairs _ _ _ _ _ _ _ _ _ _ _ _

theorem creates (folder n dir : Text) : ∀ (names : List Text) (cs' : List SysCall),
    List.Forall₂ Trunc cs' (names.map fun name => .create ⟨folder, n, some dir, name⟩) →
      ∀ s, exec s cs' = applyOps s (names.map fun name => .put folder n dir name [])
  | [], _, h, s => by cases h; rfl
  | x :: names, _, h, s => by
    cases h with
    | cons h1 h2 =>
      cases trunc_create h1
      exact creates folder n dir names _ h2 _

theorem kref_create (folder : Text) (p : ℕ) (rs : Quad) (pr : Option Pairing) :
    KRef (Calls.createRowsumDirs folder p rs pr) (createRowsumDirsRun folder p rs pr) := by
  refine KRef.bind (KRef.mkdir _ _ _) fun _ => KRef.bind (KRef.opt _) fun names => ⟨rfl, fun cs' h => ?_, fun _ cs' h => ?_⟩
  · obtain ⟨pre, post, e, h⟩ := h
    obtain ⟨a, b, rfl, rfl, _⟩ := List.map_eq_append_iff.1 e
    exact ⟨_, b.map fun name => .put folder (natText p) (rowsumDirName rs) name [], _, List.map_append .., same_refl _,
      creates folder (natText p) (rowsumDirName rs) a cs' h⟩
  · exact ⟨_, same_refl _, creates folder (natText p) (rowsumDirName rs) names cs' h⟩

theorem kref_top (ty n name : Text) (text : Option Text) :
    KRef (Cmd.call (.create ⟨ty, n, none, name⟩) >>= fun _ => Cmd.ofOption text >>= fun t => Cmd.call (.write ⟨ty, n, none, name⟩ t))
      (Run.op (.putTop ty n name []) >>= fun _ => Run.ofOption text >>= fun t => Run.op (.putTop ty n name t)) := by
  cases text with
  | none => exact kref_none ⟨ty, n, none, name⟩ []
  | some t => exact kref_two ⟨ty, n, none, name⟩ [t] t ()

theorem kref_rowsums (s : Store) (p : ℕ) (ty : SeqType) : KRef (Calls.writeRowsums s p ty) (writeRowsumsRun s p ty) :=
  KRef.bind (KRef.opt _) fun _ => kref_top _ _ _ _

theorem exec_result3 (ty n : Text) {a b : Text} (hab : a ≠ b) (t : Text) (s : Store) :
    exec s [.create ⟨ty, n, none, a⟩, .create ⟨ty, n, none, b⟩, .write ⟨ty, n, none, a⟩ t] =
      applyOps s [.putTop ty n a [], .putTop ty n b [], .putTop ty n a t] := by
  change Calls.append (Calls.create (Calls.create s ⟨ty, n, none, a⟩) ⟨ty, n, none, b⟩) ⟨ty, n, none, a⟩ t =
    applyOps s [put ⟨ty, n, none, a⟩ [], put ⟨ty, n, none, b⟩ [], put ⟨ty, n, none, a⟩ t]
  rw [create_eq, create_eq, append_hasF (hasF_other (hasF_put s ⟨ty, n, none, a⟩ []) hab [])]
  rfl

theorem kref_result (ty n : Text) {a b : Text} (hab : a ≠ b) (l : List QuadSeq) :
    KRef (Calls.writeResult ty n a b l) (writeResultRun ty n a b l) := by
  have same : ∀ (x : Text) (u v : Text), SameTarget (.putTop ty n x u) (.putTop ty n x v) := fun _ _ _ => ⟨rfl, rfl, rfl⟩
  have two : KRef (⟨[.create ⟨ty, n, none, a⟩, .create ⟨ty, n, none, b⟩], none⟩ : Cmd Unit)
      ⟨[.putTop ty n a [], .putTop ty n b []], none⟩ := by
    refine ⟨rfl, fun cs' h => ?_, fun h => by cases h⟩
    rcases cut_cons h with rfl | ⟨c', l0, rfl, i0, j0⟩
    · exact ⟨[], _, [], rfl, .nil, fun _ => rfl⟩
    cases trunc_create i0
    rcases cut_cons j0 with rfl | ⟨c', l1, rfl, i1, j1⟩
    · exact ⟨[.putTop ty n a []], [.putTop ty n b []], [.putTop ty n a []], rfl, same_refl _, fun _ => rfl⟩
    cases trunc_create i1
    cases cut_nil j1
    exact ⟨[.putTop ty n a [], .putTop ty n b []], [], _, rfl, same_refl _, fun _ => rfl⟩
  unfold Calls.writeResult writeResultRun
  cases h1 : resultText l with
  | none => exact two
  | some t =>
    cases h2 : qseqText l with
    | none => exact two
    | some q =>
      refine ⟨rfl, fun cs' h => ?_, fun _ cs' h => ?_⟩
      · rcases cut_cons h with rfl | ⟨c', l0, rfl, i0, j0⟩
        · exact ⟨[], _, [], rfl, .nil, fun _ => rfl⟩
        cases trunc_create i0
        rcases cut_cons j0 with rfl | ⟨c', l1, rfl, i1, j1⟩
        · exact ⟨[.putTop ty n a []], _, [.putTop ty n a []], rfl, same_refl _, fun _ => rfl⟩
        cases trunc_create i1
        rcases cut_cons j1 with rfl | ⟨c', l2, rfl, i2, j2⟩
        · exact ⟨[.putTop ty n a [], .putTop ty n b []], _, _, rfl, same_refl _, fun _ => rfl⟩
        obtain ⟨t', rfl⟩ := trunc_write i2
        rcases cut_cons j2 with rfl | ⟨c', l3, rfl, i3, j3⟩
        · exact ⟨[.putTop ty n a [], .putTop ty n b [], .putTop ty n a t], _, [.putTop ty n a [], .putTop ty n b [], .putTop ty n a t'],
            rfl, .cons (same _ _ _) (.cons (same _ _ _) (.cons (same _ _ _) .nil)), exec_result3 ty n hab t'⟩
        obtain ⟨q', rfl⟩ := trunc_write i3
        cases cut_nil j3
        exact ⟨[.putTop ty n a [], .putTop ty n b [], .putTop ty n a t, .putTop ty n b q], [],
          [.putTop ty n a [], .putTop ty n b [], .putTop ty n a t', .putTop ty n b q'],
          rfl, .cons (same _ _ _) (.cons (same _ _ _) (.cons (same _ _ _) (.cons (same _ _ _) .nil))), exec_result ty n hab t' q'⟩
      · cases h with
        | cons h1 h =>
        cases h with
        | cons h2 h =>
        cases h with
        | cons h3 h =>
        cases h with
        | cons h4 h =>
        cases h
        cases trunc_create h1
        cases trunc_create h2
        obtain ⟨t', rfl⟩ := trunc_write h3
        obtain ⟨q', rfl⟩ := trunc_write h4
        exact ⟨[.putTop ty n a [], .putTop ty n b [], .putTop ty n a t', .putTop ty n b q'],
          .cons (same _ _ _) (.cons (same _ _ _) (.cons (same _ _ _) (.cons (same _ _ _) .nil))), exec_result ty n hab t' q'⟩

variable {F κ : Type} [DecidableEq κ]

theorem kref_join (env : Env F κ) (s : Store) (ty : SeqType) (p : ℕ) : KRef (Calls.join env s ty p) (joinRun env s ty p) := by
  unfold Calls.join joinRun
  refine KRef.bind (KRef.opt _) fun d => KRef.bind (KRef.opt _) fun m => KRef.bind (KRef.opt _) fun _ =>
    KRef.bind (KRef.opt _) fun r => KRef.bind (KRef.opt _) fun _ =>
    KRef.bind (kref_result _ _ (by decide) _) fun _ => ?_
  cases ty <;> first
    | exact KRef.pure ()
    | exact KRef.bind (KRef.opt _) fun _ => kref_result _ _ (by decide) _

theorem kref_convertHm (env : Env F κ) (s : Store) (ty : SeqType) (p : ℕ) :
    KRef (Calls.convertHm env s ty p) (convertHmRun env s ty p) := by
  unfold Calls.convertHm convertHmRun
  exact KRef.bind (KRef.opt _) fun t => KRef.bind (KRef.opt _) fun text =>
    kref_one ⟨ty.toText, natText p, none, "result.mat".toList⟩ [text] text ()

theorem kref_convertQhm (s : Store) (ty : SeqType) (p : ℕ) : KRef (Calls.convertQhm s ty p) (convertQhmRun s ty p) := by
  unfold Calls.convertQhm convertQhmRun
  cases readTop s ty.toText (natText p) "result.seq".toList with
  | none => exact KRef.pure ()
  | some t =>
    dsimp only
    cases h : convertQsToMatrices t with
    | none => exact kref_none ⟨ty.toText, natText p, none, "result.qhm".toList⟩ []
    | some r => exact kref_two ⟨ty.toText, natText p, none, "result.qhm".toList⟩ [r.1] r.1 ()

theorem kref_qhmAll (env : Env F κ) (s : Store) (ty : SeqType) (p : ℕ) : KRef (Calls.qhmAll env s ty p) (qhmAllRun env s ty p) := by
  unfold Calls.qhmAll qhmAllRun
  refine KRef.bind (KRef.opt _) fun t => ?_
  rw [qhmAll_text]
  cases h : qhmAllBlocks env.qsOrder ty t with
  | none => exact KRef.quiet none
  | some bs =>
    have := kref_one ⟨ty.toText, natText p, none, "qhm_all.mat".toList⟩ bs bs.flatten ()
    change KRef ⟨SysCall.create _ :: (Cmd.each _ bs).calls, (Cmd.each _ bs).result⟩ _
    rw [each_write]
    exact this

theorem kref_amicable (s : Store) (p : ℕ) : KRef (Calls.amicable s p) (amicableRun s p) :=
  KRef.bind (KRef.opt _) fun _ => KRef.opt _

theorem kref_ite {α : Type} {P : Prop} [Decidable P] {a b : Cmd α} {c d : Run α} (h1 : KRef a c) (h2 : KRef b d) :
    KRef (if P then a else b) (if P then c else d) := by
  split
  · exact h1
  · exact h2

theorem kref_main (env : Env F κ) (s : Store) (args : List Text) : KRef (Calls.main env s args) (mainRun env s args) := by
  have bad : KRef (Cmd.ofOption (none : Option Unit)) (Run.ofOption none) := KRef.opt _
  cases args with
  | nil => exact KRef.pure ()
  | cons cmd args =>
    unfold Calls.main mainRun
    refine kref_ite ?_ (kref_ite ?_ (kref_ite ?_ (kref_ite ?_ (kref_ite ?_ (kref_ite ?_ (kref_ite ?_ (kref_ite ?_ (kref_ite ?_
      (KRef.pure ())))))))))
    · split
      · exact KRef.bind (KRef.opt _) fun _ => KRef.bind (KRef.opt _) fun _ => kref_qhmAll _ _ _ _
      · rename_i h
        split
        · first
          | exact (h _ rfl).elim
          | exact (h _ _ rfl).elim
          | exact (h _ _ _ rfl).elim
          | exact (h _ _ _ _ rfl).elim
          | exact (h _ _ _ _ _ rfl).elim
          | exact (h _ _ _ _ _ _ rfl).elim
          | exact (h _ _ _ _ _ _ _ rfl).elim
          | exact (h _ _ _ _ _ _ _ _ rfl).elim
          | exact (h _ _ _ _ _ _ _ _ _ rfl).elim
        · exact bad
    · split
      · exact KRef.bind (KRef.opt _) fun _ => kref_amicable _ _
      · rename_i h
        split
        · first
          | exact (h _ rfl).elim
          | exact (h _ _ rfl).elim
          | exact (h _ _ _ rfl).elim
          | exact (h _ _ _ _ rfl).elim
          | exact (h _ _ _ _ _ rfl).elim
          | exact (h _ _ _ _ _ _ rfl).elim
          | exact (h _ _ _ _ _ _ _ rfl).elim
          | exact (h _ _ _ _ _ _ _ _ rfl).elim
          | exact (h _ _ _ _ _ _ _ _ _ rfl).elim
        · exact bad
    · split
      · exact KRef.bind (KRef.opt _) fun _ => KRef.bind (KRef.opt _) fun _ => kref_rowsums _ _ _
      · rename_i h
        split
        · first
          | exact (h _ rfl).elim
          | exact (h _ _ rfl).elim
          | exact (h _ _ _ rfl).elim
          | exact (h _ _ _ _ rfl).elim
          | exact (h _ _ _ _ _ rfl).elim
          | exact (h _ _ _ _ _ _ rfl).elim
          | exact (h _ _ _ _ _ _ _ rfl).elim
          | exact (h _ _ _ _ _ _ _ _ rfl).elim
          | exact (h _ _ _ _ _ _ _ _ _ rfl).elim
        · exact bad
    · split
      · exact KRef.bind (KRef.opt _) fun _ => KRef.bind (KRef.opt _) fun _ => kref_join _ _ _ _
      · rename_i h
        split
        · first
          | exact (h _ rfl).elim
          | exact (h _ _ rfl).elim
          | exact (h _ _ _ rfl).elim
          | exact (h _ _ _ _ rfl).elim
          | exact (h _ _ _ _ _ rfl).elim
          | exact (h _ _ _ _ _ _ rfl).elim
          | exact (h _ _ _ _ _ _ _ rfl).elim
          | exact (h _ _ _ _ _ _ _ _ rfl).elim
          | exact (h _ _ _ _ _ _ _ _ _ rfl).elim
        · exact bad
    · split
      · exact KRef.bind (KRef.opt _) fun _ => KRef.bind (KRef.opt _) fun _ =>
          kref_ite (kref_convertHm _ _ _ _) (kref_ite (kref_convertQhm _ _ _) bad)
      · rename_i h
        split
        · first
          | exact (h _ rfl).elim
          | exact (h _ _ rfl).elim
          | exact (h _ _ _ rfl).elim
          | exact (h _ _ _ _ rfl).elim
          | exact (h _ _ _ _ _ rfl).elim
          | exact (h _ _ _ _ _ _ rfl).elim
          | exact (h _ _ _ _ _ _ _ rfl).elim
          | exact (h _ _ _ _ _ _ _ _ rfl).elim
          | exact (h _ _ _ _ _ _ _ _ _ rfl).elim
        · exact bad
    · split
      · exact KRef.bind (KRef.opt _) fun _ => KRef.bind (KRef.opt _) fun _ => KRef.bind (KRef.opt _) fun _ =>
          KRef.bind (kref_pairs _ _ _ _ _) fun _ => KRef.pure ()
      · rename_i h
        split
        · first
          | exact (h _ rfl).elim
          | exact (h _ _ rfl).elim
          | exact (h _ _ _ rfl).elim
          | exact (h _ _ _ _ rfl).elim
          | exact (h _ _ _ _ _ rfl).elim
          | exact (h _ _ _ _ _ _ rfl).elim
          | exact (h _ _ _ _ _ _ _ rfl).elim
          | exact (h _ _ _ _ _ _ _ _ rfl).elim
          | exact (h _ _ _ _ _ _ _ _ _ rfl).elim
        · exact bad
    · split
      · exact KRef.bind (KRef.opt _) fun _ => KRef.bind (KRef.opt _) fun _ => KRef.bind (KRef.opt _) fun _ =>
          KRef.bind (KRef.opt _) fun _ => KRef.bind (kref_rowsum _ _ _ _ _ _) fun _ => KRef.pure ()
      · rename_i h
        split
        · first
          | exact (h _ rfl).elim
          | exact (h _ _ rfl).elim
          | exact (h _ _ _ rfl).elim
          | exact (h _ _ _ _ rfl).elim
          | exact (h _ _ _ _ _ rfl).elim
          | exact (h _ _ _ _ _ _ rfl).elim
          | exact (h _ _ _ _ _ _ _ rfl).elim
          | exact (h _ _ _ _ _ _ _ _ rfl).elim
          | exact (h _ _ _ _ _ _ _ _ _ rfl).elim
        · exact bad
    · split
      · exact KRef.bind (KRef.opt _) fun _ => KRef.bind (KRef.opt _) fun _ => KRef.bind (KRef.opt _) fun _ =>
          kref_create _ _ _ _
      · rename_i h
        split
        · first
          | exact (h _ rfl).elim
          | exact (h _ _ rfl).elim
          | exact (h _ _ _ rfl).elim
          | exact (h _ _ _ _ rfl).elim
          | exact (h _ _ _ _ _ rfl).elim
          | exact (h _ _ _ _ _ _ rfl).elim
          | exact (h _ _ _ _ _ _ _ rfl).elim
          | exact (h _ _ _ _ _ _ _ _ rfl).elim
          | exact (h _ _ _ _ _ _ _ _ _ rfl).elim
        · exact bad
    · split
      · exact KRef.bind (KRef.opt _) fun _ => KRef.bind (KRef.opt _) fun _ => KRef.bind (KRef.opt _) fun _ =>
          KRef.bind (KRef.opt _) fun _ => KRef.bind (KRef.opt _) fun _ =>
          KRef.bind (kref_single _ _ _ _ _ _ _) fun _ => KRef.pure ()
      · rename_i h
        split
        · first
          | exact (h _ rfl).elim
          | exact (h _ _ rfl).elim
          | exact (h _ _ _ rfl).elim
          | exact (h _ _ _ _ rfl).elim
          | exact (h _ _ _ _ _ rfl).elim
          | exact (h _ _ _ _ _ _ rfl).elim
          | exact (h _ _ _ _ _ _ _ rfl).elim
          | exact (h _ _ _ _ _ _ _ _ rfl).elim
          | exact (h _ _ _ _ _ _ _ _ _ rfl).elim
        · exact bad

theorem device_killed (dev : Device) (env : Env F κ) (s : Store) (args : List Text) :
    Killed s (mainRun env s args).ops (Calls.run dev env s args).1 := by
  obtain ⟨cs', h, e⟩ := perform_cut dev (Calls.main env s args).calls 0 s
  obtain ⟨pre, post, pre', h1, h2, h3⟩ := (kref_main env s args).part cs' h
  exact ⟨pre, pre', post, h1, h2, e.trans (h3 s)⟩

end Proofs.Recall
