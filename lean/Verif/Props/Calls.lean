import Verif.Proofs.Calls
import Verif.Props.Cut

/-!
# Property C110: writes that transfer only a part of the text

The files are written with `write`, not with `write_all`. `write` may transfer only a part of the block and return the number of
bytes; the code looks at the error only. The property asked for is that a command that ends normally has written its files
completely. It is violated (`C110_violated`); `C110_complete_partial` says what remains true, and the other theorems say which
files can be incomplete after a normal end.
-/

set_option linter.unusedVariables false
set_option linter.unusedSectionVars false

namespace Props
open Model Spec Proofs Proofs.Stages

variable {F κ : Type} [DecidableEq κ]

/-- C110, partial. A command whose blocks are all taken as a whole ends as it does in the model without calls, and if it ends
normally it leaves the same files. Missing for the full property: that a command whose blocks are not taken as a whole does
not end normally (`C110_violated`). -/
theorem C110_complete_partial (dev : Calls.Device) (env : Env F κ) (s : Store) (args : List Text)
    (h : ∀ b ∈ blocks (Calls.main env s args).calls, ∀ u, ∃ k, dev u b.length = some k ∧ b.length ≤ k) :
    (Calls.run dev env s args).2 = (runProgram env s args).2 ∧
      ((runProgram env s args).2 = true → Calls.run dev env s args = runProgram env s args) := by
  have hr := Calls.ref_main env s args
  unfold Calls.run runProgram
  dsimp only
  rw [Calls.perform_full _ _ _ h, ← hr.result]
  refine ⟨Bool.true_and _, fun h' => ?_⟩
  rw [hr.store h', Bool.true_and]

/-- C110. On a file system with room for `R` more bytes a command ends normally exactly if it would with unlimited room and
every block that is not empty is begun before the room is used up. -/
theorem C110_room (env : Env F κ) (s : Store) (args : List Text) (R : ℕ) :
    (Calls.run (Calls.room R) env s args).2 = true ↔
      (runProgram env s args).2 = true ∧ BegunBefore R (blocks (Calls.main env s args).calls) := by
  have hr := Calls.ref_main env s args
  have hp := Calls.perform_room R (Calls.main env s args).calls 0 s (Nat.zero_le _)
  rw [Nat.sub_zero, Calls.ok_iff] at hp
  unfold Calls.run runProgram
  dsimp only
  rw [Bool.and_eq_true, hp.1, ← hr.result]
  exact and_comm

/-- C110. If it ends normally, either everything fitted and the files are those left with unlimited room, or the room ended
strictly inside a block after which only empty blocks follow, and just this block was cut. -/
theorem C110_room_files (env : Env F κ) (s : Store) (args : List Text) (R : ℕ)
    (h : (Calls.run (Calls.room R) env s args).2 = true) :
    ((blocks (Calls.main env s args).calls).flatten.length ≤ R →
      (Calls.run (Calls.room R) env s args).1 = (runProgram env s args).1) ∧
    (R < (blocks (Calls.main env s args).calls).flatten.length →
      ∃ pre f b post, (Calls.main env s args).calls = pre ++ .write f b :: post ∧
        (blocks pre).flatten.length < R ∧ R < (blocks pre).flatten.length + b.length ∧ (∀ x ∈ blocks post, x = []) ∧
        Calls.run (Calls.room R) env s args =
          Calls.perform (fun _ len => some len) 0 s
            (pre ++ .write f (b.take (R - (blocks pre).flatten.length)) :: post)) := by
  have hr := Calls.ref_main env s args
  have hb := (C110_room env s args R).1 h
  have hp := Calls.perform_room R (Calls.main env s args).calls 0 s (Nat.zero_le _)
  rw [Nat.sub_zero, Calls.ok_iff] at hp
  have hs : (Calls.run (Calls.room R) env s args).1 = Calls.exec s (Calls.trim R (Calls.main env s args).calls) := hp.2 hb.2
  refine ⟨fun hR => ?_, fun hR => ?_⟩
  · rw [hs, Calls.trim_all _ _ hR, hr.store]
    · rfl
    · rw [hr.result]; exact hb.1
  · obtain ⟨pre, f, b, post, e1, e2, e3, e4, e5⟩ := Calls.last_cut _ R hb.2 hR
    refine ⟨pre, f, b, post, e1, e2, e3, e4, ?_⟩
    rw [Calls.perform_full _ _ _ fun x _ u => ⟨_, rfl, le_rfl⟩, ← e5, ← hs, ← h]

/-- C110. On a system that transfers at most `m` bytes per call no call fails: every command ends as it would without the limit,
whatever is lost. -/
theorem C110_limit (env : Env F κ) (s : Store) (args : List Text) (m : ℕ) :
    (Calls.run (Calls.limit m) env s args).2 = (runProgram env s args).2 := by
  have hr := Calls.ref_main env s args
  unfold Calls.run runProgram
  dsimp only
  rw [Calls.perform_limit, hr.result, Bool.true_and]

/-! ## Files written with one call -/

/-- What becomes of a file written with one call. -/
private theorem one_file {env : Env F κ} {s : Store} {args : List Text} {ty n name t : Text} (hs : (s ty n).isSome)
    (hc : (Calls.main env s args).calls = [.create ⟨ty, n, none, name⟩, .write ⟨ty, n, none, name⟩ t])
    (hn : (runProgram env s args).2 = true) :
    readTop (runProgram env s args).1 ty n name = some t ∧
      (∀ R, ((Calls.run (Calls.room R) env s args).2 = true ↔ t = [] ∨ 0 < R) ∧
        ((Calls.run (Calls.room R) env s args).2 = true →
          readTop (Calls.run (Calls.room R) env s args).1 ty n name = some (t.take R))) ∧
      ∀ m, readTop (Calls.run (Calls.limit m) env s args).1 ty n name = some (t.take m) := by
  have hr := Calls.ref_main env s args
  have key : ∀ x : Text, readTop (Calls.exec s [.create ⟨ty, n, none, name⟩, .write ⟨ty, n, none, name⟩ x]) ty n name = some x := by
    intro x
    have := Calls.exec_file ⟨ty, n, none, name⟩ [x] s
    rw [Calls.put_put, List.flatten_singleton] at this
    refine (congrArg (fun s' => readTop s' ty n name) this).trans ?_
    change readTop (Write.apply s (.putTop ty n name x)) ty n name = some x
    rw [(effect_put hs name x).read, lookup_self]
    rfl
  refine ⟨?_, fun R => ⟨?_, fun h => ?_⟩, fun m => ?_⟩
  · have h' := hr.store (by rw [hr.result]; exact hn) s
    rw [hc] at h'
    exact (congrArg (fun s' => readTop s' ty n name) h').symm.trans (key t)
  · rw [C110_room, hc, ← Calls.ok_iff]
    simp only [blocks, Calls.Ok, and_true]
    exact ⟨And.right, fun h => ⟨hn, h⟩⟩
  · have hb := (C110_room env s args R).1 h
    have hp := Calls.perform_room R (Calls.main env s args).calls 0 s (Nat.zero_le _)
    rw [Nat.sub_zero, Calls.ok_iff] at hp
    have e : (Calls.run (Calls.room R) env s args).1 = Calls.exec s (Calls.trim R (Calls.main env s args).calls) := hp.2 hb.2
    rw [e, hc]
    exact key _
  · unfold Calls.run
    dsimp only
    rw [Calls.perform_limit, hc]
    exact key _

private theorem opt_some {α β : Type} {o : Option α} {f : α → Calls.Cmd β} (h : (Calls.Cmd.ofOption o >>= f).result.isSome) :
    ∃ a, o = some a ∧ (Calls.Cmd.ofOption o >>= f) = f a := by
  cases o with
  | none => cases h
  | some a => exact ⟨a, rfl, rfl⟩

private theorem bind_some {α β : Type} {c : Calls.Cmd α} {f : α → Calls.Cmd β} (h : (c >>= f).result.isSome) :
    ∃ a, c.result = some a ∧ (f a).result.isSome ∧ (c >>= f).calls = c.calls ++ (f a).calls := by
  change (Calls.Cmd.bind c f).result.isSome at h
  change ∃ a, c.result = some a ∧ (f a).result.isSome ∧ (Calls.Cmd.bind c f).calls = c.calls ++ (f a).calls
  unfold Calls.Cmd.bind at h ⊢
  cases hc : c.result with
  | none => rw [hc] at h; cases h
  | some a => rw [hc] at h; exact ⟨a, rfl, h, rfl⟩

private theorem hm_calls {env : Env F κ} {s : Store} {ty : SeqType} {p : ℕ} (h : (Calls.convertHm env s ty p).result.isSome) :
    ∃ text, (s ty.toText (natText p)).isSome ∧ (Calls.convertHm env s ty p).calls =
      [.create ⟨ty.toText, natText p, none, "result.mat".toList⟩, .write ⟨ty.toText, natText p, none, "result.mat".toList⟩ text] := by
  unfold Calls.convertHm at h ⊢
  dsimp only at h ⊢
  obtain ⟨t, h1, e1⟩ := opt_some h
  rw [e1] at h ⊢
  obtain ⟨text, h2, e2⟩ := opt_some h
  rw [e2]
  refine ⟨text, ?_, rfl⟩
  unfold readTop at h1
  cases hs : s ty.toText (natText p) with
  | none => rw [hs] at h1; cases h1
  | some d => rfl

/-- C110. `convert hm`: unless there is no room at all the command ends normally, and `result.mat` has as many bytes as there was
room for; with a limit per call it has as many bytes as the limit. -/
theorem C110_convert_hm (env : Env F κ) (s : Store) (a b : Text) (ty : SeqType) (p : ℕ) (ha : strToSeqtype a = some ty)
    (hb : parseUsize b = some p) (hn : (runProgram env s ["convert".toList, "hm".toList, a, b]).2 = true) :
    ∃ t, readTop (runProgram env s ["convert".toList, "hm".toList, a, b]).1 ty.toText (natText p) "result.mat".toList = some t ∧
      (∀ R, ((Calls.run (Calls.room R) env s ["convert".toList, "hm".toList, a, b]).2 = true ↔ t = [] ∨ 0 < R) ∧
        ((Calls.run (Calls.room R) env s ["convert".toList, "hm".toList, a, b]).2 = true →
          readTop (Calls.run (Calls.room R) env s ["convert".toList, "hm".toList, a, b]).1 ty.toText (natText p)
            "result.mat".toList = some (t.take R))) ∧
      ∀ m, readTop (Calls.run (Calls.limit m) env s ["convert".toList, "hm".toList, a, b]).1 ty.toText (natText p)
        "result.mat".toList = some (t.take m) := by
  have hm : Calls.main env s ["convert".toList, "hm".toList, a, b] = Calls.convertHm env s ty p := by
    unfold Calls.main
    dsimp only
    rw [if_neg (by decide), if_neg (by decide), if_neg (by decide), if_neg (by decide), if_pos rfl]
    simp only [ha, hb]
    rfl
  have hr := (Calls.ref_main env s ["convert".toList, "hm".toList, a, b]).result
  have hsome : (Calls.convertHm env s ty p).result.isSome := by rw [← hm, hr]; exact hn
  obtain ⟨text, h1, h2⟩ := hm_calls hsome
  exact ⟨text, one_file h1 (by rw [hm, h2]) hn⟩

/-- C110. `rowsums`: the same for the list of row sums, which the driver reads next. -/
theorem C110_rowsums (env : Env F κ) (s : Store) (a b : Text) (ty : SeqType) (p : ℕ) (ha : strToSeqtype a = some ty)
    (hb : parseUsize b = some p) (hn : (runProgram env s ["rowsums".toList, a, b]).2 = true) :
    ∃ t, rowsumsText p ty = some t ∧
      (∀ R, ((Calls.run (Calls.room R) env s ["rowsums".toList, a, b]).2 = true ↔ t = [] ∨ 0 < R) ∧
        ((Calls.run (Calls.room R) env s ["rowsums".toList, a, b]).2 = true →
          readTop (Calls.run (Calls.room R) env s ["rowsums".toList, a, b]).1 ty.toText (natText p)
            "rowsums.quad".toList = some (t.take R))) ∧
      ∀ m, readTop (Calls.run (Calls.limit m) env s ["rowsums".toList, a, b]).1 ty.toText (natText p)
        "rowsums.quad".toList = some (t.take m) := by
  have hm : Calls.main env s ["rowsums".toList, a, b] = Calls.writeRowsums s p ty := by
    unfold Calls.main
    dsimp only
    rw [if_neg (by decide), if_neg (by decide), if_pos rfl]
    simp only [ha, hb]
    rfl
  have hr := (Calls.ref_main env s ["rowsums".toList, a, b]).result
  have hsome : (Calls.writeRowsums s p ty).result.isSome := by rw [← hm, hr]; exact hn
  revert hm hsome
  unfold Calls.writeRowsums
  dsimp only
  cases hs : s ty.toText (natText p) with
  | none => intro _ h; cases h
  | some d =>
    cases h2 : rowsumsText p ty with
    | none => intro _ h; cases h
    | some text =>
      intro hm _
      exact ⟨text, rfl, (one_file (by rw [hs]; rfl) (by rw [hm]; rfl) hn).2⟩

/-! ## The join -/

/-- The calls that write two files. -/
private def twoFiles (ty n a b t q : Text) : List SysCall :=
  [.create ⟨ty, n, none, a⟩, .create ⟨ty, n, none, b⟩, .write ⟨ty, n, none, a⟩ t, .write ⟨ty, n, none, b⟩ q]

private theorem exec_two (ty n : Text) {a b : Text} (hab : a ≠ b) (t q : Text) (s : Store) (hs : (s ty n).isSome) :
    Effect ty n s (Calls.exec s (twoFiles ty n a b t q)) [(b, q), (a, t), (b, []), (a, [])] := by
  unfold twoFiles
  rw [Calls.exec_result ty n hab]
  exact effect_puts [(a, []), (b, []), (a, t), (b, q)] hs

private theorem result_calls {ty n a b : Text} {l : List QuadSeq} (h : (Calls.writeResult ty n a b l).result.isSome) :
    ∃ t q, (Calls.writeResult ty n a b l).calls = twoFiles ty n a b t q := by
  revert h
  unfold Calls.writeResult
  cases h1 : resultText l with
  | none => intro h; cases h
  | some t =>
    cases h2 : qseqText l with
    | none => intro h; cases h
    | some q => exact fun _ => ⟨t, q, rfl⟩

private theorem join_calls {env : Env F κ} {s : Store} {ty : SeqType} {p : ℕ} (h : (Calls.join env s ty p).result.isSome) :
    (s ty.toText (natText p)).isSome ∧ ∃ t q,
      (ty ≠ .williamsonType → (Calls.join env s ty p).calls =
        twoFiles ty.toText (natText p) "result.seq".toList "result.qseq".toList t q) ∧
      (ty = .williamsonType → ∃ t' q', (Calls.join env s ty p).calls =
        twoFiles ty.toText (natText p) "result.seq".toList "result.qseq".toList t q ++
          twoFiles ty.toText (natText p) "result-qts.seq".toList "result-qts.qseq".toList t' q') := by
  revert h
  unfold Calls.join
  dsimp only
  intro h
  obtain ⟨d, h1, e1⟩ := opt_some h
  rw [e1] at h ⊢
  refine ⟨by rw [h1]; rfl, ?_⟩
  obtain ⟨m, h2, e2⟩ := opt_some h
  rw [e2] at h ⊢
  obtain ⟨_, h3, e3⟩ := opt_some h
  rw [e3] at h ⊢
  obtain ⟨l, h4, e4⟩ := opt_some h
  rw [e4] at h ⊢
  obtain ⟨_, h5, e5⟩ := opt_some h
  rw [e5] at h ⊢
  obtain ⟨_, h6, h7, e6⟩ := bind_some h
  obtain ⟨t, q, e7⟩ := result_calls (by rw [h6]; rfl)
  rw [e6, e7]
  refine ⟨t, q, fun hty => ?_, fun hty => ?_⟩
  · cases ty <;> first | exact absurd rfl hty | exact List.append_nil _
  · subst hty
    dsimp only at h7 ⊢
    obtain ⟨r, h8, e8⟩ := opt_some h7
    rw [e8] at h7 ⊢
    obtain ⟨t', q', e9⟩ := result_calls h7
    exact ⟨t', q', by rw [e9]⟩

private theorem main_join {env : Env F κ} {s : Store} {a b : Text} {ty : SeqType} {p : ℕ} (ha : strToSeqtype a = some ty)
    (hb : parseUsize b = some p) : Calls.main env s ["join".toList, a, b] = Calls.join env s ty p := by
  unfold Calls.main
  dsimp only
  rw [if_neg (by decide), if_neg (by decide), if_neg (by decide), if_pos rfl]
  simp only [ha, hb]
  rfl

private theorem run_trim {env : Env F κ} {s : Store} {args : List Text} {R : ℕ}
    (h : (Calls.run (Calls.room R) env s args).2 = true) :
    (Calls.run (Calls.room R) env s args).1 = Calls.exec s (Calls.trim R (Calls.main env s args).calls) := by
  have hp := Calls.perform_room R (Calls.main env s args).calls 0 s (Nat.zero_le _)
  rw [Nat.sub_zero, Calls.ok_iff] at hp
  exact hp.2 ((C110_room env s args R).1 h).2

private theorem run_whole {env : Env F κ} {s : Store} {args : List Text} (h : (runProgram env s args).2 = true) :
    (runProgram env s args).1 = Calls.exec s (Calls.main env s args).calls := by
  have hr := Calls.ref_main env s args
  exact (hr.store (by rw [hr.result]; exact h) s).symm

private theorem run_short {env : Env F κ} {s : Store} {args : List Text} {m : ℕ} :
    (Calls.run (Calls.limit m) env s args).1 = Calls.exec s ((Calls.main env s args).calls.map (Calls.short m)) := by
  unfold Calls.run
  dsimp only
  rw [Calls.perform_limit]

/-- C110. `join` for the types with two result files: it ends normally exactly if the second file could be begun, and then the
first one is complete and the second one has what there was room for. With a limit per call both are cut to it. -/
theorem C110_join (env : Env F κ) (s : Store) (a b : Text) (ty : SeqType) (p : ℕ) (ha : strToSeqtype a = some ty)
    (hb : parseUsize b = some p) (hty : ty ≠ .williamsonType) (hn : (runProgram env s ["join".toList, a, b]).2 = true) :
    ∃ t q, readTop (runProgram env s ["join".toList, a, b]).1 ty.toText (natText p) "result.seq".toList = some t ∧
      readTop (runProgram env s ["join".toList, a, b]).1 ty.toText (natText p) "result.qseq".toList = some q ∧
      (∀ R, ((Calls.run (Calls.room R) env s ["join".toList, a, b]).2 = true ↔
          (t = [] ∨ 0 < R) ∧ (q = [] ∨ t.length < R)) ∧
        ((Calls.run (Calls.room R) env s ["join".toList, a, b]).2 = true →
          readTop (Calls.run (Calls.room R) env s ["join".toList, a, b]).1 ty.toText (natText p) "result.seq".toList =
            some (t.take R) ∧
          readTop (Calls.run (Calls.room R) env s ["join".toList, a, b]).1 ty.toText (natText p) "result.qseq".toList =
            some (q.take (R - t.length)))) ∧
      ∀ m, readTop (Calls.run (Calls.limit m) env s ["join".toList, a, b]).1 ty.toText (natText p) "result.seq".toList =
            some (t.take m) ∧
          readTop (Calls.run (Calls.limit m) env s ["join".toList, a, b]).1 ty.toText (natText p) "result.qseq".toList =
            some (q.take m) := by
  have hm := main_join (env := env) (s := s) ha hb
  have hr := (Calls.ref_main env s ["join".toList, a, b]).result
  obtain ⟨hs, t, q, hc, _⟩ := join_calls (env := env) (s := s) (ty := ty) (p := p) (by rw [← hm, hr]; exact hn)
  have hc := hc hty
  rw [← hm] at hc
  have key : ∀ x y : Text,
      readTop (Calls.exec s (twoFiles ty.toText (natText p) "result.seq".toList "result.qseq".toList x y)) ty.toText (natText p)
        "result.seq".toList = some x ∧
      readTop (Calls.exec s (twoFiles ty.toText (natText p) "result.seq".toList "result.qseq".toList x y)) ty.toText (natText p)
        "result.qseq".toList = some y := by
    intro x y
    have he := exec_two ty.toText (natText p) (a := "result.seq".toList) (b := "result.qseq".toList) (by decide) x y s hs
    constructor <;> rw [he.read] <;> rfl
  refine ⟨t, q, ?_, ?_, fun R => ⟨?_, fun h => ?_⟩, fun m => ?_⟩
  · rw [run_whole hn, hc]; exact (key t q).1
  · rw [run_whole hn, hc]; exact (key t q).2
  · rw [C110_room, hc, ← Calls.ok_iff]
    simp only [twoFiles, blocks, Calls.Ok, and_true, Nat.sub_pos_iff_lt]
    exact ⟨And.right, fun h => ⟨hn, h⟩⟩
  · rw [run_trim h, hc]; exact key _ _
  · rw [run_short, hc]; exact key _ _

/-- C110. `join` for Williamson-type sequences: four files are written one after the other, each gets what the earlier ones
left, and the command ends normally exactly if each that is not empty could be begun. -/
theorem C110_join_wts (env : Env F κ) (s : Store) (a b : Text) (p : ℕ) (ha : strToSeqtype a = some .williamsonType)
    (hb : parseUsize b = some p) (hn : (runProgram env s ["join".toList, a, b]).2 = true) :
    ∃ t q t' q',
      (∀ f ∈ [("result.seq".toList, t), ("result.qseq".toList, q), ("result-qts.seq".toList, t'), ("result-qts.qseq".toList, q')],
        readTop (runProgram env s ["join".toList, a, b]).1 "wts".toList (natText p) f.1 = some f.2) ∧
      (∀ R, ((Calls.run (Calls.room R) env s ["join".toList, a, b]).2 = true ↔
          (t = [] ∨ 0 < R) ∧ (q = [] ∨ t.length < R) ∧ (t' = [] ∨ t.length + q.length < R) ∧
            (q' = [] ∨ t.length + q.length + t'.length < R)) ∧
        ((Calls.run (Calls.room R) env s ["join".toList, a, b]).2 = true →
          ∀ f ∈ [("result.seq".toList, t.take R), ("result.qseq".toList, q.take (R - t.length)),
            ("result-qts.seq".toList, t'.take (R - (t.length + q.length))),
            ("result-qts.qseq".toList, q'.take (R - (t.length + q.length + t'.length)))],
          readTop (Calls.run (Calls.room R) env s ["join".toList, a, b]).1 "wts".toList (natText p) f.1 = some f.2)) ∧
      ∀ m, ∀ f ∈ [("result.seq".toList, t.take m), ("result.qseq".toList, q.take m), ("result-qts.seq".toList, t'.take m),
          ("result-qts.qseq".toList, q'.take m)],
        readTop (Calls.run (Calls.limit m) env s ["join".toList, a, b]).1 "wts".toList (natText p) f.1 = some f.2 := by
  have hm := main_join (env := env) (s := s) ha hb
  have hr := (Calls.ref_main env s ["join".toList, a, b]).result
  obtain ⟨hs, t, q, _, hc⟩ := join_calls (env := env) (s := s) (ty := .williamsonType) (p := p) (by rw [← hm, hr]; exact hn)
  obtain ⟨t', q', hc⟩ := hc rfl
  rw [← hm] at hc
  have key : ∀ x y x' y' : Text, ∀ f ∈ [("result.seq".toList, x), ("result.qseq".toList, y), ("result-qts.seq".toList, x'),
      ("result-qts.qseq".toList, y')],
      readTop (Calls.exec s (twoFiles (SeqType.toText .williamsonType) (natText p) "result.seq".toList "result.qseq".toList x y ++
        twoFiles (SeqType.toText .williamsonType) (natText p) "result-qts.seq".toList "result-qts.qseq".toList x' y'))
        "wts".toList (natText p) f.1 = some f.2 := by
    intro x y x' y' f hf
    have he := exec_two (SeqType.toText .williamsonType) (natText p) (a := "result.seq".toList) (b := "result.qseq".toList)
      (by decide) x y s hs
    have he' := he.trans (exec_two (SeqType.toText .williamsonType) (natText p) (a := "result-qts.seq".toList)
      (b := "result-qts.qseq".toList) (by decide) x' y' _ (he.keep hs))
    rw [← Calls.exec_append] at he'
    have := he'.read f.1
    simp only [List.mem_cons, List.not_mem_nil, or_false] at hf
    rcases hf with rfl | rfl | rfl | rfl <;> exact this
  refine ⟨t, q, t', q', ?_, fun R => ⟨?_, fun h => ?_⟩, fun m => ?_⟩
  · rw [run_whole hn, hc]; exact key _ _ _ _
  · rw [C110_room, hc, ← Calls.ok_iff]
    simp only [twoFiles, List.cons_append, List.nil_append, blocks, Calls.Ok, and_true, Nat.sub_sub, Nat.sub_pos_iff_lt]
    exact ⟨And.right, fun h => ⟨hn, h⟩⟩
  · rw [run_trim h, hc]
    simp only [twoFiles, List.cons_append, List.nil_append, Calls.trim, Nat.sub_sub]
    exact key _ _ _ _
  · rw [run_short, hc]; exact key _ _ _ _

/-! ## The pair files -/

/-- C110. A pair file: the call returns the full number of pairs in any case; with room for `R` bytes no call fails exactly if each
block of 1000 lines (the last may be shorter) is begun before the room is used up, and then the file has the first `R` bytes. -/
theorem C110_pairs (A : Fl F) (folder n dir : Text) (seqs1 seqs2 : List (List ℤ)) (tags : Tag × Tag) (ty : SeqType) (rs : Quad)
    (p : ℕ) (side : Side) (mo : MatchOption) (lines : List Text) (hv : verifyRowsums seqs1 seqs2 tags rs = true)
    (hl : pairLines A seqs1 seqs2 tags ty p side mo = some lines) (s : Store) (R : ℕ) :
    (Calls.writeSeqPairs A folder n dir seqs1 seqs2 tags ty rs p side mo).result = some lines.length ∧
    ((Calls.perform (Calls.room R) 0 s (Calls.writeSeqPairs A folder n dir seqs1 seqs2 tags ty rs p side mo).calls).2 = true ↔
      ∀ k, 1000 * k < lines.length → (unlines (lines.take (1000 * k))).length < R) ∧
    ((Calls.perform (Calls.room R) 0 s (Calls.writeSeqPairs A folder n dir seqs1 seqs2 tags ty rs p side mo).calls).2 = true →
      (Calls.perform (Calls.room R) 0 s (Calls.writeSeqPairs A folder n dir seqs1 seqs2 tags ty rs p side mo).calls).1 =
        Write.apply s (.put folder n dir (pairFileName tags.1 tags.2) ((unlines lines).take R))) := by
  have hc : Calls.writeSeqPairs A folder n dir seqs1 seqs2 tags ty rs p side mo =
      ⟨.create ⟨folder, n, some dir, pairFileName tags.1 tags.2⟩ ::
        (writeBlocks lines).map (.write ⟨folder, n, some dir, pairFileName tags.1 tags.2⟩), some lines.length⟩ := by
    unfold Calls.writeSeqPairs
    rw [hv, hl, if_pos rfl]
    change (⟨.create _ :: (Calls.Cmd.bind (Calls.Cmd.each _ _) _).calls, (Calls.Cmd.bind (Calls.Cmd.each _ _) _).result⟩ : Calls.Cmd ℕ) = _
    rw [Calls.each_write]
    simp [Calls.Cmd.bind, pure, Calls.Cmd.pure]
  rw [hc]
  dsimp only
  have hp := Calls.perform_room R (.create ⟨folder, n, some dir, pairFileName tags.1 tags.2⟩ ::
        (writeBlocks lines).map (.write ⟨folder, n, some dir, pairFileName tags.1 tags.2⟩)) 0 s (Nat.zero_le _)
  rw [Nat.sub_zero, Calls.ok_iff] at hp
  refine ⟨rfl, ?_, fun h => ?_⟩
  · rw [hp.1]
    simp only [blocks, Calls.blocks_writes]
    have hlen := Txt.writeBlocks_length lines
    have hsucc : ∀ k, k < (writeBlocks lines).length →
        ((writeBlocks lines).take (k + 1)).flatten = unlines (lines.take (1000 * (k + 1))) := by
      intro k hk
      by_cases hk' : k + 1 < (writeBlocks lines).length
      · exact Txt.writeBlocks_take lines hk'
      · rw [List.take_of_length_le (by omega), Txt.writeBlocks_flatten, List.take_of_length_le (by omega)]
    constructor
    · intro h k hk
      have hk' : k < (writeBlocks lines).length := by rw [hlen]; omega
      rw [← Txt.writeBlocks_take lines hk']
      refine h _ ((writeBlocks lines)[k]) _ (by rw [List.getElem_cons_drop, List.take_append_drop]) ?_
      intro e
      have e1 := hsucc k hk'
      rw [← List.take_append_getElem hk', e, List.flatten_append, Txt.writeBlocks_take lines hk',
        show lines.take (1000 * (k + 1)) = lines.take (1000 * k) ++ (lines.drop (1000 * k)).take 1000 by
          rw [← List.take_add]; rfl, Txt.unlines_append] at e1
      have e2 : unlines ((lines.drop (1000 * k)).take 1000) = [] := by simpa using e1
      rw [List.drop_eq_getElem_cons hk] at e2
      rw [List.take_succ_cons, unlines, List.flatMap_cons] at e2
      simp at e2
    · rintro h pre b post e hb
      have hk : pre.length < (writeBlocks lines).length := by rw [e]; simp
      have hpre : (writeBlocks lines).take pre.length = pre := by rw [e]; simp
      rw [← hpre, Txt.writeBlocks_take lines hk]
      refine h _ (not_le.1 fun hle => hb ?_)
      have e1 := hsucc pre.length hk
      have e2 := Txt.writeBlocks_take lines hk
      rw [show lines.take (1000 * (pre.length + 1)) = lines from List.take_of_length_le (by omega)] at e1
      rw [List.take_of_length_le hle, ← e1, hpre, show (writeBlocks lines).take (pre.length + 1) = pre ++ [b] by
          rw [e, List.take_length_add_append]; rfl] at e2
      simpa using e2
  · rw [hp.2 (hp.1.1 h), Calls.trim]
    obtain ⟨bs', e1, e2⟩ := Calls.trim_writes ⟨folder, n, some dir, pairFileName tags.1 tags.2⟩ (writeBlocks lines) R
    rw [e1, Calls.exec_file, Calls.put_put, e2, Txt.writeBlocks_flatten]
    · rfl
    · simp

/-- C110. A list of sequences is written line by line: with room for `R` bytes no call fails exactly if each line is begun before the
room is used up, and then the file has the first `R` bytes. -/
theorem C110_sequences (ty n dir : Text) (tag : Tag) (seqs : List (List ℤ)) (lines : List Text)
    (hl : seqs.mapM sequenceToString = some lines) (s : Store) (R : ℕ) :
    (Calls.writeSequences ty n dir tag seqs).result = some () ∧
    ((Calls.perform (Calls.room R) 0 s (Calls.writeSequences ty n dir tag seqs).calls).2 = true ↔
      ∀ k, k < lines.length → (unlines (lines.take k)).length < R) ∧
    ((Calls.perform (Calls.room R) 0 s (Calls.writeSequences ty n dir tag seqs).calls).2 = true →
      (Calls.perform (Calls.room R) 0 s (Calls.writeSequences ty n dir tag seqs).calls).1 =
        Write.apply s (.put ty n dir (seqFileName tag) ((unlines lines).take R))) := by
  obtain ⟨h1, h2⟩ := Calls.each_lines ⟨ty, n, some dir, seqFileName tag⟩ seqs
  have h2 := h2 lines hl
  rw [hl] at h1
  have hu : ∀ ls : List Text, unlines ls = (ls.map fun l => l ++ ['\n']).flatten := fun ls => (List.flatMap_def ..).symm ▸ rfl
  have hc : (Calls.writeSequences ty n dir tag seqs).calls = .create ⟨ty, n, some dir, seqFileName tag⟩ ::
      (lines.map fun l => l ++ ['\n']).map (.write ⟨ty, n, some dir, seqFileName tag⟩) := by
    change .create _ :: (Calls.Cmd.each _ seqs).calls = _
    rw [h2, List.map_map]
    rfl
  have hp := Calls.perform_room R (.create ⟨ty, n, some dir, seqFileName tag⟩ ::
      (lines.map fun l => l ++ ['\n']).map (.write ⟨ty, n, some dir, seqFileName tag⟩)) 0 s (Nat.zero_le _)
  rw [Nat.sub_zero, Calls.ok_iff] at hp
  rw [hc]
  refine ⟨?_, ?_, fun h => ?_⟩
  · change (Calls.Cmd.each _ seqs).result = some ()
    rw [h1]; rfl
  · rw [hp.1]
    simp only [blocks, Calls.blocks_writes]
    constructor
    · intro h k hk
      have e : (lines.map fun l => l ++ ['\n']) = (lines.take k).map (fun l => l ++ ['\n']) ++
          (lines[k] ++ ['\n']) :: (lines.drop (k + 1)).map (fun l => l ++ ['\n']) := by
        rw [← List.map_cons (f := fun l : Text => l ++ ['\n']), ← List.map_append, List.getElem_cons_drop, List.take_append_drop]
      rw [hu]
      exact h _ _ _ e (by simp)
    · rintro h pre b post e hb
      have hk : pre.length < lines.length := by
        have := congrArg List.length e
        simp only [List.length_map, List.length_append, List.length_cons] at this
        omega
      have := h pre.length hk
      rw [hu, List.map_take, e, List.take_left] at this
      exact this
  · rw [hp.2 (hp.1.1 h), Calls.trim]
    obtain ⟨bs', e1, e2⟩ := Calls.trim_writes ⟨ty, n, some dir, seqFileName tag⟩ (lines.map fun l => l ++ ['\n']) R
    rw [e1, Calls.exec_file, Calls.put_put, e2, hu]
    · rfl
    · simp

/-! ## The matrices -/

/-- C110. `convert qhm`: as `convert hm`. -/
theorem C110_convert_qhm (env : Env F κ) (s : Store) (a b : Text) (ty : SeqType) (p : ℕ) (ha : strToSeqtype a = some ty)
    (hb : parseUsize b = some p) (t : Text) (ht : readTop s ty.toText (natText p) "result.seq".toList = some t)
    (hn : (runProgram env s ["convert".toList, "qhm".toList, a, b]).2 = true) :
    ∃ t, readTop (runProgram env s ["convert".toList, "qhm".toList, a, b]).1 ty.toText (natText p) "result.qhm".toList = some t ∧
      (∀ R, ((Calls.run (Calls.room R) env s ["convert".toList, "qhm".toList, a, b]).2 = true ↔ t = [] ∨ 0 < R) ∧
        ((Calls.run (Calls.room R) env s ["convert".toList, "qhm".toList, a, b]).2 = true →
          readTop (Calls.run (Calls.room R) env s ["convert".toList, "qhm".toList, a, b]).1 ty.toText (natText p)
            "result.qhm".toList = some (t.take R))) ∧
      ∀ m, readTop (Calls.run (Calls.limit m) env s ["convert".toList, "qhm".toList, a, b]).1 ty.toText (natText p)
        "result.qhm".toList = some (t.take m) := by
  have hm : Calls.main env s ["convert".toList, "qhm".toList, a, b] = Calls.convertQhm s ty p := by
    unfold Calls.main
    dsimp only
    rw [if_neg (by decide), if_neg (by decide), if_neg (by decide), if_neg (by decide), if_pos rfl]
    simp only [ha, hb]
    rfl
  have hr := (Calls.ref_main env s ["convert".toList, "qhm".toList, a, b]).result
  have hsome : (Calls.convertQhm s ty p).result.isSome := by rw [← hm, hr]; exact hn
  have hs : (s ty.toText (natText p)).isSome := by
    unfold readTop at ht
    cases hs : s ty.toText (natText p) with
    | none => rw [hs] at ht; cases ht
    | some d => rfl
  revert hm hsome
  unfold Calls.convertQhm
  rw [ht]
  dsimp only
  cases h2 : convertQsToMatrices t with
  | none => intro _ h; cases h
  | some r =>
    intro hm _
    exact ⟨r.1, one_file hs (by rw [hm]; rfl) hn⟩

/-- C110. `qhm-all` writes one block per matrix: it ends normally exactly if each block is begun before the room is used up, and
then the file has what there was room for. -/
theorem C110_qhm_all (env : Env F κ) (s : Store) (a b : Text) (ty : SeqType) (p : ℕ) (ha : strToSeqtype a = some ty)
    (hb : parseUsize b = some p) (hn : (runProgram env s ["qhm-all".toList, a, b]).2 = true) :
    ∃ bs : List Text,
      readTop (runProgram env s ["qhm-all".toList, a, b]).1 ty.toText (natText p) "qhm_all.mat".toList = some bs.flatten ∧
      (∀ x ∈ bs, ['\n', '\n'] <:+ x) ∧
      ∀ R, ((Calls.run (Calls.room R) env s ["qhm-all".toList, a, b]).2 = true ↔
          ∀ k < bs.length, (bs.take k).flatten.length < R) ∧
        ((Calls.run (Calls.room R) env s ["qhm-all".toList, a, b]).2 = true →
          readTop (Calls.run (Calls.room R) env s ["qhm-all".toList, a, b]).1 ty.toText (natText p) "qhm_all.mat".toList =
            some (bs.flatten.take R)) := by
  have hm : Calls.main env s ["qhm-all".toList, a, b] = Calls.qhmAll env s ty p := by
    unfold Calls.main
    dsimp only
    rw [if_pos rfl]
    simp only [ha, hb]
    rfl
  have hr := (Calls.ref_main env s ["qhm-all".toList, a, b]).result
  have hsome : (Calls.qhmAll env s ty p).result.isSome := by rw [← hm, hr]; exact hn
  unfold Calls.qhmAll at hm hsome
  obtain ⟨t, h1, e1⟩ := opt_some hsome
  rw [e1] at hm hsome
  obtain ⟨bs, h2, e2⟩ := opt_some hsome
  rw [e2] at hm
  have hs : (s ty.toText (natText p)).isSome := by
    unfold readTop at h1
    cases hs : s ty.toText (natText p) with
    | none => rw [hs] at h1; cases h1
    | some d => rfl
  have hc : (Calls.main env s ["qhm-all".toList, a, b]).calls = .create ⟨ty.toText, natText p, none, "qhm_all.mat".toList⟩ ::
      bs.map (.write ⟨ty.toText, natText p, none, "qhm_all.mat".toList⟩) := by
    rw [hm]
    change .create _ :: (Calls.Cmd.each _ bs).calls = _
    rw [Calls.each_write]
  have hend : ∀ x ∈ bs, ['\n', '\n'] <:+ x := by
    unfold Calls.qhmAllBlocks at h2
    obtain ⟨qts, _, h2⟩ := Option.bind_eq_some_iff.1 h2
    obtain ⟨equ, _, h2⟩ := Option.bind_eq_some_iff.1 h2
    intro x hx
    have h3 := Conversion.mapM_some_iff.1 h2
    obtain ⟨i, hi, rfl⟩ := List.getElem_of_mem hx
    have h4 := h3.get (by rw [h3.length_eq]; exact hi) hi
    obtain ⟨qs, _, h5⟩ := Option.bind_eq_some_iff.1 h4
    obtain ⟨txt, _, h6⟩ := Option.map_eq_some_iff.1 h5
    exact ⟨txt, h6⟩
  have key : ∀ xs : List Text, readTop (Calls.exec s (.create ⟨ty.toText, natText p, none, "qhm_all.mat".toList⟩ ::
      xs.map (.write ⟨ty.toText, natText p, none, "qhm_all.mat".toList⟩))) ty.toText (natText p) "qhm_all.mat".toList =
      some xs.flatten := by
    intro xs
    rw [Calls.exec_file, Calls.put_put]
    change readTop (Write.apply s (.putTop ty.toText (natText p) "qhm_all.mat".toList xs.flatten)) _ _ _ = _
    rw [(effect_put hs _ _).read, lookup_self]
    rfl
  refine ⟨bs, ?_, hend, fun R => ⟨?_, fun h => ?_⟩⟩
  · rw [run_whole hn, hc]; exact key bs
  · rw [C110_room, hc]
    simp only [blocks, Calls.blocks_writes]
    constructor
    · rintro ⟨_, h⟩ k hk
      refine h _ bs[k] _ (by rw [List.getElem_cons_drop, List.take_append_drop]) fun e => ?_
      have := (hend _ (List.getElem_mem hk)).length_le
      rw [e] at this
      simp at this
    · refine fun h => ⟨hn, ?_⟩
      rintro pre x post e hx
      have hk : pre.length < bs.length := by rw [e]; simp
      have := h _ hk
      rwa [e, List.take_left] at this
  · rw [run_trim h, hc, Calls.trim]
    obtain ⟨bs', e1, e2⟩ := Calls.trim_writes ⟨ty.toText, natText p, none, "qhm_all.mat".toList⟩ bs R
    rw [e1, ← e2]
    · exact key bs'
    · simp

/-! ## The violation -/

/-- C110, violated. In any environment: with room for 8 more bytes `rowsums qts 7` ends normally and leaves a well-formed list
with one of the two row sums of length 7. The same on a system that transfers 8 bytes per call. -/
theorem C110_violated (env : Env F κ) (s : Store) (d : FindDir) (hs : s "qts".toList "7".toList = some d) :
    readTop (runProgram env s ["rowsums".toList, "qts".toList, "7".toList]).1 "qts".toList "7".toList "rowsums.quad".toList =
      some "1 1 1 5\n1 3 3 3\n".toList ∧
    (Calls.run (Calls.room 8) env s ["rowsums".toList, "qts".toList, "7".toList]).2 = true ∧
    readTop (Calls.run (Calls.room 8) env s ["rowsums".toList, "qts".toList, "7".toList]).1 "qts".toList "7".toList
      "rowsums.quad".toList = some "1 1 1 5\n".toList ∧
    (Calls.run (Calls.limit 8) env s ["rowsums".toList, "qts".toList, "7".toList]).2 = true ∧
    readTop (Calls.run (Calls.limit 8) env s ["rowsums".toList, "qts".toList, "7".toList]).1 "qts".toList "7".toList
      "rowsums.quad".toList = some "1 1 1 5\n".toList := by
  have h1 : strToSeqtype "qts".toList = some .quaternionType := by decide
  have h2 : parseUsize "7".toList = some 7 := by decide +kernel
  have ht : rowsumsText 7 .quaternionType = some "1 1 1 5\n1 3 3 3\n".toList := by decide +kernel
  have hn7 : natText 7 = "7".toList := by decide +kernel
  have hm : Calls.main env s ["rowsums".toList, "qts".toList, "7".toList] = Calls.writeRowsums s 7 .quaternionType := by
    unfold Calls.main
    dsimp only
    rw [if_neg (by decide), if_neg (by decide), if_pos rfl]
    simp only [h1, h2]
    rfl
  have hw : Calls.writeRowsums s 7 .quaternionType = ⟨[.create ⟨"qts".toList, "7".toList, none, "rowsums.quad".toList⟩,
      .write ⟨"qts".toList, "7".toList, none, "rowsums.quad".toList⟩ "1 1 1 5\n1 3 3 3\n".toList], some ()⟩ := by
    unfold Calls.writeRowsums
    dsimp only
    rw [ht, hn7, show SeqType.toText .quaternionType = "qts".toList from rfl, hs]
    rfl
  have hn : (runProgram env s ["rowsums".toList, "qts".toList, "7".toList]).2 = true := by
    have hr := (Calls.ref_main env s ["rowsums".toList, "qts".toList, "7".toList]).result
    unfold runProgram
    dsimp only
    rw [← hr, hm, hw]
    rfl
  obtain ⟨k1, k2, k3⟩ := one_file (name := "rowsums.quad".toList) (by rw [hs]; rfl) (by rw [hm, hw]) hn
  have k4 : (Calls.run (Calls.room 8) env s ["rowsums".toList, "qts".toList, "7".toList]).2 = true :=
    (k2 8).1.2 (.inr (by decide))
  exact ⟨k1, k4, (k2 8).2 k4, (C110_limit env s _ 8).trans hn, k3 8⟩

/-! ## Examples -/

-- With room for all 16 bytes, or none: complete, or a panic.
example :
    BegunBefore 16 ["1 1 1 5\n1 3 3 3\n".toList] ∧ ¬ BegunBefore 0 ["1 1 1 5\n1 3 3 3\n".toList] :=
  ⟨Calls.ok_all (by decide), fun h => absurd (h [] _ [] rfl (by decide)) (by decide)⟩

-- The hypothesis of `C110_complete_partial` holds for devices that take every block.
example : ∀ u len, ∃ k, (fun _ len => some len : Calls.Device) u len = some k ∧ len ≤ k := fun _ len => ⟨len, rfl, le_rfl⟩

-- A block that does not fit is cut, and the next call fails.
example : Calls.room 5 0 8 = some 5 ∧ Calls.room 5 5 8 = none ∧ Calls.room 5 5 0 = some 0 ∧ Calls.limit 3 100 8 = some 3 := by decide

/-- An environment; `join` uses no floating-point operations and no labels. -/
def exRoomEnv : Env Unit Unit where
  A := ⟨fun _ => (), fun _ _ => (), fun _ _ => (), fun _ _ => (), fun _ _ => (), fun _ _ => (), id, id, id, fun _ _ => false,
    fun _ => 0, fun _ => [], fun _ _ => []⟩
  canon := fun _ => ()
  hmOrder := id
  qsOrder := id
  lsDirs := id
  lsFiles := id
  debug := false

/-- A directory `find_3` with the sorted files of one row sum. -/
def exRoomStore : Store := fun _ n => if n = "3".toList then some ⟨[], [("rowsum_1_1_1_3".toList, exWhole)]⟩ else none

-- The hypotheses of `C110_join` and `C110_join_wts` are met, with results that are not empty; with little room the second file
-- is cut after a normal end, and with less there is a panic.
example : (runProgram exRoomEnv exRoomStore ["join".toList, "qts".toList, "3".toList]).2 = true ∧
    (runProgram exRoomEnv exRoomStore ["join".toList, "wts".toList, "3".toList]).2 = true ∧
    (Calls.run (Calls.room 6) exRoomEnv exRoomStore ["join".toList, "qts".toList, "3".toList]).2 = true ∧
    readTop (Calls.run (Calls.room 6) exRoomEnv exRoomStore ["join".toList, "qts".toList, "3".toList]).1 "qts".toList "3".toList
      "result.seq".toList = some "++Q\n".toList ∧
    readTop (Calls.run (Calls.room 6) exRoomEnv exRoomStore ["join".toList, "qts".toList, "3".toList]).1 "qts".toList "3".toList
      "result.qseq".toList = some "[\n".toList ∧
    (Calls.run (Calls.room 4) exRoomEnv exRoomStore ["join".toList, "qts".toList, "3".toList]).2 = false := by
  decide +kernel

-- The hypotheses of `C110_convert_hm` and `C110_rowsums` are met.
example : (runProgram exRoomEnv (fun _ _ => some ⟨[("result.seq".toList, "++Q\n".toList)], []⟩)
      ["convert".toList, "hm".toList, "qts".toList, "3".toList]).2 = true ∧
    (runProgram exRoomEnv exRoomStore ["rowsums".toList, "qts".toList, "3".toList]).2 = true := by decide +kernel

-- The hypotheses of `C110_pairs` are met, with a line.
example : verifyRowsums [[1, 1, 1]] [[-1, 1, 1]] (.W, .X) (3, 1, 1, 1) = true ∧
    (pairLines exRoomEnv.A [[1, 1, 1]] [[-1, 1, 1]] (.W, .X) .quaternionType 3 .left .correlation).map List.length = some 1 := by
  decide +kernel

-- The hypotheses of `C110_sequences`, `C110_convert_qhm` and `C110_qhm_all` are met.
example : [[1, 1, 1], [-1, 1, 1]].mapM sequenceToString = some ["+++".toList, "-++".toList] ∧
    (runProgram exRoomEnv (fun _ _ => some ⟨[("result.seq".toList, "++Q\n".toList)], []⟩)
      ["convert".toList, "qhm".toList, "qts".toList, "3".toList]).2 = true ∧
    (runProgram exRoomEnv (fun _ _ => some ⟨[("result.seq".toList, "Q\n".toList)], []⟩)
      ["qhm-all".toList, "qts".toList, "1".toList]).2 = true := by decide +kernel

end Props
