import Verif.Proofs.Rerun
import Verif.Model.Driver

/-!
# Running the driver again
-/

set_option linter.unusedSectionVars false
set_option linter.unusedVariables false
set_option linter.unusedSimpArgs false

namespace Proofs.Redrive
open Model Spec Proofs.Store Proofs.Program Proofs.Command Proofs.Stages Proofs.Rerun

/-! ## Writes to different files -/

theorem comm_one {a : Write} : ∀ (B : List Write) {D : Option FindDir}, Ex D a → (∀ b ∈ B, file b ≠ file a) →
    a.act (actAll D B) = actAll (a.act D) B
  | [], _, _, _ => rfl
  | b :: B, D, h, hf => by
    change a.act (actAll (b.act D) B) = actAll (b.act (a.act D)) B
    rw [act_comm h (hf b List.mem_cons_self)]
    exact comm_one B (ex_act h b) fun x hx => hf x (List.mem_cons_of_mem _ hx)

theorem comm_all : ∀ (A B : List Write) {D : Option FindDir}, (∀ a ∈ A, Ex D a) → (∀ a ∈ A, ∀ b ∈ B, file b ≠ file a) →
    actAll (actAll D B) A = actAll (actAll D A) B
  | [], _, _, _, _ => rfl
  | a :: A, B, D, h, hf => by
    change actAll (a.act (actAll D B)) A = actAll (actAll (a.act D) A) B
    rw [comm_one B (h a List.mem_cons_self) (hf a List.mem_cons_self)]
    exact comm_all A B (fun x hx => ex_act (h x (List.mem_cons_of_mem _ hx)) a) fun x hx => hf x (List.mem_cons_of_mem _ hx)

/-- Every write is to a named file of `find_<n>`. -/
def AllTops (names : List Text) (ops : List Write) : Prop := ∀ o ∈ ops, ∃ ty n name c, o = .putTop ty n name c ∧ name ∈ names

theorem noop {A B : List Write} {D : Option FindDir} {N M : List Text} (hA : AllTops N A) (hB : AllTops M B)
    (hd : ∀ x ∈ N, x ∉ M) (hr : AllRdy D A) : actAll (actAll (actAll D A) B) A = actAll (actAll D A) B := by
  rw [comm_all A B, redo A A (same_refl A) hr]
  · intro a ha
    have := pres_written (same_refl A) hr a ha
    unfold Rerun.Pres at this
    have hf : file a ≠ none := by
      obtain ⟨_, _, _, _, rfl, _⟩ := hA a ha
      simp [file]
    rwa [if_neg hf] at this
  · intro a ha b hb e
    obtain ⟨_, _, x, _, rfl, hx⟩ := hA a ha
    obtain ⟨_, _, y, _, rfl, hy⟩ := hB b hb
    obtain rfl : y = x := by simpa [file] using e
    exact hd _ hx hy

theorem store_noop {ty n : Text} {A B : List Write} {s : Store} {N M : List Text} (hA : AllTops N A) (hB : AllTops M B)
    (hd : ∀ x ∈ N, x ∉ M) (pA : ∀ o ∈ A, o.path = (ty, n)) (pB : ∀ o ∈ B, o.path = (ty, n)) (hr : AllRdy (s ty n) A) :
    applyOps (applyOps (applyOps s A) B) A = applyOps (applyOps s A) B := by
  rw [applyOps_path A _ pA, applyOps_path B _ pB, applyOps_path A s pA]
  funext a b
  dsimp only
  by_cases hab : (a, b) = (ty, n)
  · obtain ⟨rfl, rfl⟩ := Prod.mk.inj hab
    simp only [if_true]
    exact noop hA hB hd hr
  · simp only [hab, if_false]

theorem AllTops.append {N M : List Text} {A B : List Write} (hA : AllTops N A) (hB : AllTops M B) : AllTops (N ++ M) (A ++ B) := by
  intro o ho
  rcases List.mem_append.1 ho with ho | ho
  · obtain ⟨a, b, c, d, e, h⟩ := hA o ho
    exact ⟨a, b, c, d, e, List.mem_append_left _ h⟩
  · obtain ⟨a, b, c, d, e, h⟩ := hB o ho
    exact ⟨a, b, c, d, e, List.mem_append_right _ h⟩

/-! ## The pair stage -/

/-- Writes into directories of row sums only. -/
def InDirs (ops : List Write) : Prop :=
  ∀ o ∈ ops, (∃ ty n dir name c, o = .put ty n dir name c) ∨ ∃ ty n rs, o = .mkdir ty n (rowsumDirName rs)

/-- Every directory is one of a row sum. -/
def Rows (d : List (Text × Dir)) : Prop := ∀ e ∈ d, rowsumPrefix.isPrefixOf e.1 = true

theorem rows_name (rs : Quad) : rowsumPrefix.isPrefixOf (rowsumDirName rs) = true := by
  rw [List.isPrefixOf_iff_prefix]
  unfold rowsumDirName
  simp only [List.append_assoc]
  exact ⟨_, rfl⟩

theorem inDirs_act : ∀ (ops : List Write) (d : List (Text × Dir)), InDirs ops → Rows d →
    ∃ d', Rows d' ∧ ∀ f, actAll (some ⟨f, d⟩) ops = some ⟨f, d'⟩
  | [], d, _, hd => ⟨d, hd, fun _ => rfl⟩
  | o :: ops, d, h, hd => by
    have ih := fun d hd => inDirs_act ops d (fun x hx => h x (List.mem_cons_of_mem _ hx)) hd
    rcases h o List.mem_cons_self with ⟨ty, n, dir, name, c, rfl⟩ | ⟨ty, n, rs, rfl⟩
    · obtain ⟨d', h1, h2⟩ := ih (d.map fun (e : Text × Dir) => if e.1 = dir then (e.1, putFile e.2 name c) else e) (by
        intro e he
        obtain ⟨x, hx, rfl⟩ := List.mem_map.1 he
        split
        · exact hd x hx
        · exact hd x hx)
      exact ⟨d', h1, fun f => h2 f⟩
    · by_cases e : rowsumDirName rs ∈ d.map Prod.fst
      · obtain ⟨d', h1, h2⟩ := ih d hd
        refine ⟨d', h1, fun f => ?_⟩
        rw [← h2 f]
        change actAll ((Write.mkdir ty n (rowsumDirName rs)).act (some ⟨f, d⟩)) ops = _
        unfold Write.act
        dsimp only [Option.getD_some]
        rw [if_pos e]
      · obtain ⟨d', h1, h2⟩ := ih (d ++ [(rowsumDirName rs, [])]) (by
          intro x hx
          rcases List.mem_append.1 hx with hx | hx
          · exact hd x hx
          · rw [List.mem_singleton.1 hx]; exact rows_name rs)
        refine ⟨d', h1, fun f => ?_⟩
        rw [← h2 f]
        change actAll ((Write.mkdir ty n (rowsumDirName rs)).act (some ⟨f, d⟩)) ops = _
        unfold Write.act
        dsimp only [Option.getD_some]
        rw [if_neg e]

theorem InDirs.bind {α β : Type} {r : Run α} {f : α → Run β} (h : InDirs r.ops) (hf : ∀ a, InDirs (f a).ops) : InDirs (r >>= f).ops :=
  mem_bind h hf

theorem InDirs.opt {α : Type} (a : Option α) : InDirs (Run.ofOption a).ops := fun _ h => by cases h
theorem InDirs.pure {α : Type} (a : α) : InDirs (Run.pure a).ops := fun _ h => by cases h
theorem InDirs.put (ty n dir name c : Text) : InDirs (Run.op (.put ty n dir name c)).ops := fun o h =>
  .inl ⟨ty, n, dir, name, c, List.mem_singleton.1 h⟩
theorem InDirs.mkdir (ty n : Text) (rs : Quad) : InDirs (Run.op (.mkdir ty n (rowsumDirName rs))).ops := fun o h =>
  .inr ⟨ty, n, rs, List.mem_singleton.1 h⟩

theorem inDirs_file (ty n dir name : Text) (c : Option Text) : InDirs (writeFile ty n dir name c).ops :=
  InDirs.bind (InDirs.put _ _ _ _ _) fun _ => InDirs.bind (InDirs.opt _) fun _ => InDirs.put _ _ _ _ _

theorem inDirs_seqPairs {F : Type} (A : Fl F) (folder n dir : Text) (seqs1 seqs2 : List (List ℤ)) (tags : Tag × Tag) (ty : SeqType)
    (rs : Quad) (p : ℕ) (side : Side) (mo : MatchOption) :
    InDirs (writeSeqPairsRun A folder n dir seqs1 seqs2 tags ty rs p side mo).ops :=
  InDirs.bind (InDirs.opt _) fun _ => InDirs.bind (InDirs.put _ _ _ _ _) fun _ => InDirs.bind (InDirs.opt _) fun _ =>
    InDirs.bind (InDirs.put _ _ _ _ _) fun _ => InDirs.pure _

theorem inDirs_rowsum {F : Type} (A : Fl F) (folder : Text) (rs : Quad) (p : ℕ) (mo : MatchOption) (pr : Option Pairing) :
    InDirs (writePairsRowsumRun A folder rs p mo pr).ops :=
  InDirs.bind (InDirs.mkdir _ _ _) fun _ => InDirs.bind (InDirs.opt _) fun _ => InDirs.bind (inDirs_file _ _ _ _ _) fun _ =>
    InDirs.bind (inDirs_file _ _ _ _ _) fun _ => InDirs.bind (inDirs_file _ _ _ _ _) fun _ =>
    InDirs.bind (inDirs_file _ _ _ _ _) fun _ => InDirs.bind (inDirs_seqPairs _ _ _ _ _ _ _ _ _ _ _ _) fun _ =>
    InDirs.bind (inDirs_seqPairs _ _ _ _ _ _ _ _ _ _ _ _) fun _ => InDirs.pure _

theorem inDirs_sum {α : Type} {f : α → Run ℕ} (h : ∀ a, InDirs (f a).ops) : ∀ l, InDirs (Run.sum f l).ops
  | [] => InDirs.pure 0
  | x :: l => InDirs.bind (h x) fun _ => InDirs.bind (inDirs_sum h l) fun _ => InDirs.pure _

variable {F κ : Type} [DecidableEq κ]

/-- The pair stage, called by the driver. -/
theorem pairs_ops (env : Env F κ) (T : SeqType) {p : ℕ} (hp : p < 2 ^ 64) (rest : List Text) :
    ∃ ops, InDirs ops ∧ (∀ o ∈ ops, o.path = (T.toText, natText p)) ∧
      ∀ s, (mainRun env s ("pairs".toList :: T.toText :: natText p :: rest)).ops = ops := by
  have indep : ∀ s t, mainRun env s ("pairs".toList :: T.toText :: natText p :: rest) =
      mainRun env t ("pairs".toList :: T.toText :: natText p :: rest) := by
    intro s t
    rfl
  refine ⟨(mainRun env (fun _ _ => none) ("pairs".toList :: T.toText :: natText p :: rest)).ops, ?_, ?_, fun s => ?_⟩
  · by_cases h : ∃ ty n, Concerns ("pairs".toList :: T.toText :: natText p :: rest) ty n
    · obtain ⟨ty, n, h⟩ := h
      cases h with
      | pairs h1 h2 h3 =>
        obtain ⟨mo, h3⟩ := mo_some.1 h3
        rw [main_pairs env _ h1 h2 h3]
        exact InDirs.bind (InDirs.bind (InDirs.opt _) fun _ => inDirs_sum (fun _ => inDirs_rowsum _ _ _ _ _ _) _) fun _ => InDirs.pure _
    · rw [main_ill env _ _ h]
      exact fun _ h => by cases h
  · by_cases h : ∃ ty n, Concerns ("pairs".toList :: T.toText :: natText p :: rest) ty n
    · obtain ⟨ty, n, h⟩ := h
      have hi := (main_into env (fun _ _ => none) h).all
      cases h with
      | pairs h1 h2 h3 =>
        rw [seqtype_text] at h1
        rw [Txt.parse_natText hp] at h2
        cases h1; cases h2
        exact hi
    · rw [main_ill env _ _ h]
      exact fun _ h => by cases h
  · rw [indep s fun _ _ => none]

theorem pairs_writes (env : Env F κ) (T : SeqType) {p : ℕ} (hp : p < 2 ^ 64) (rest : List Text) :
    ∃ ops, InDirs ops ∧ (∀ o ∈ ops, o.path = (T.toText, natText p)) ∧
      ∀ s, (runProgram env s ("pairs".toList :: T.toText :: natText p :: rest)).1 = applyOps s ops := by
  obtain ⟨ops, h1, h2, h3⟩ := pairs_ops env T hp rest
  exact ⟨ops, h1, h2, fun s => by unfold runProgram; rw [h3]⟩

/-! ## The stages after sorting -/

/-- `join` and the conversions. -/
def late (env : Env F κ) (ty n : Text) (o : Options) (s : Store) : Store × Nat :=
  let (s, ok) := piped env s ty n ["join".toList, ty, n]
  if ¬ ok then (s, 1)
  else
    let s := if o.hadamard then (piped env s ty n ["convert".toList, "hm".toList, ty, n]).1 else s
    let s := (piped env s ty n ["convert".toList, "qhm".toList, ty, n]).1
    (s, 0)

theorem tops_join (env : Env F κ) (s : Store) (T : SeqType) (p : ℕ) : AllTops ["result.seq".toList, "result.qseq".toList,
    "result-qts.seq".toList, "result-qts.qseq".toList] (joinRun env s T p).ops := by
  have : Tops ["result.seq".toList, "result.qseq".toList, "result-qts.seq".toList,
      "result-qts.qseq".toList] (joinRun env s T p) := by
    refine Tops.bind (Tops.opt _) fun _ => Tops.bind (Tops.opt _) fun _ => Tops.bind (Tops.opt _) fun _ =>
      Tops.bind (Tops.opt _) fun _ => Tops.bind (Tops.opt _) fun _ =>
      Tops.bind (tops_result _ _ _ (by decide) (by decide)) fun _ => ?_
    cases T
    case williamsonType => exact Tops.bind (Tops.opt _) fun _ => tops_result _ _ _ (by decide) (by decide)
    all_goals exact Tops.pure _
  exact this

theorem tops_hm (env : Env F κ) (s : Store) (T : SeqType) (p : ℕ) : AllTops ["result.mat".toList] (convertHmRun env s T p).ops :=
  (Tops.bind (Tops.opt _) fun _ => Tops.bind (Tops.opt _) fun _ => Tops.op (by decide) : Tops _ (convertHmRun env s T p))

theorem tops_qhm (s : Store) (T : SeqType) (p : ℕ) : AllTops ["result.qhm".toList] (convertQhmRun s T p).ops := by
  have : Tops ["result.qhm".toList] (convertQhmRun s T p) := by
    unfold convertQhmRun
    split
    · exact Tops.pure ()
    · exact Tops.bind (Tops.op (by decide)) fun _ => Tops.bind (Tops.opt _) fun _ => Tops.op (by decide)
  exact this

theorem hm_reads (env : Env F κ) {s t : Store} {T : SeqType} {p : ℕ}
    (h1 : readTop t T.toText (natText p) "result-qts.seq".toList = readTop s T.toText (natText p) "result-qts.seq".toList)
    (h2 : readTop t T.toText (natText p) "result.seq".toList = readTop s T.toText (natText p) "result.seq".toList) :
    convertHmRun env t T p = convertHmRun env s T p := by
  unfold convertHmRun
  cases T
  case williamsonType => dsimp only; rw [h1]
  all_goals (dsimp only; rw [h2])

theorem qhm_reads {s t : Store} {T : SeqType} {p : ℕ}
    (h2 : readTop t T.toText (natText p) "result.seq".toList = readTop s T.toText (natText p) "result.seq".toList) :
    convertQhmRun t T p = convertQhmRun s T p := by
  unfold convertQhmRun
  rw [h2]

theorem tops_some {N : List Text} {ops : List Write} (h : AllTops N ops) {s : Store} {ty n : Text} (hs : (s ty n).isSome) :
    (applyOps s ops ty n).isSome := by
  have := tops_dirs ops s ty n h
  cases hd : applyOps s ops ty n with
  | some d => rfl
  | none =>
    rw [hd] at this
    cases hs' : s ty n with
    | none => rw [hs'] at hs; cases hs
    | some d => rw [hs'] at this; cases this

/-- The writes of the conversion to Hadamard matrices, if asked for. -/
def hmOps (env : Env F κ) (T : SeqType) (p : ℕ) (o : Options) (s : Store) : List Write :=
  if o.hadamard then (convertHmRun env s T p).ops else []

theorem tops_hmOps (env : Env F κ) (T : SeqType) (p : ℕ) (o : Options) (s : Store) :
    AllTops ["result.mat".toList] (hmOps env T p o s) := by
  unfold hmOps
  split
  · exact tops_hm env s T p
  · exact fun _ h => by cases h

theorem late_eq (env : Env F κ) (T : SeqType) {p : ℕ} (hp : p < 2 ^ 64) (o : Options) (s : Store)
    (hs : (s T.toText (natText p)).isSome) :
    let s2 := applyOps s (joinRun env s T p).ops
    let s3 := applyOps s2 (hmOps env T p o s2)
    late env T.toText (natText p) o s = (applyOps s3 (convertQhmRun s3 T p).ops, 0) := by
  have h1 := seqtype_text T
  have h2 := Txt.parse_natText hp
  have ht := tops_some (tops_join env s T p) hs
  unfold late piped runProgram teeStatus hmOps
  simp only [main_join env _ h1 h2, main_hm env _ h1 h2, main_qhm env _ h1 h2, ht]
  cases o.hadamard <;> rfl

theorem late_again (env : Env F κ) (T : SeqType) {p : ℕ} (hp : p < 2 ^ 64) (o : Options) (s : Store)
    (hs : (s T.toText (natText p)).isSome) :
    late env T.toText (natText p) o (late env T.toText (natText p) o s).1 = late env T.toText (natText p) o s ∧
      ((late env T.toText (natText p) o s).1 T.toText (natText p)).map FindDir.dirs = (s T.toText (natText p)).map FindDir.dirs ∧
      ∀ a b, (a, b) ≠ (T.toText, natText p) → (late env T.toText (natText p) o s).1 a b = s a b := by
  have h1 := seqtype_text T
  have h2 := Txt.parse_natText hp
  have e := late_eq env T hp o s hs
  dsimp only at e
  rw [e]
  dsimp only
  have tJ := tops_join env s T p
  have gJ := g_join env s T p
  have pJ := (into_join env s T p).all
  generalize hJ : (joinRun env s T p).ops = J at *
  have s2s := tops_some tJ hs
  have tH := tops_hmOps env T p o (applyOps s J)
  have gH : AllRdy (applyOps s J T.toText (natText p)) (hmOps env T p o (applyOps s J)) := by
    have := g_main env (applyOps s J) (args := ["convert".toList, "hm".toList, T.toText, natText p]) (.convert (.inl rfl) h1 h2)
    rw [main_hm env _ h1 h2] at this
    unfold hmOps
    split
    · exact this
    · trivial
  have pH : ∀ x ∈ hmOps env T p o (applyOps s J), x.path = (T.toText, natText p) := by
    unfold hmOps
    split
    · exact (into_hm env _ T p).all
    · exact fun _ h => by cases h
  generalize hH : hmOps env T p o (applyOps s J) = H at *
  have tQ := tops_qhm (applyOps (applyOps s J) H) T p
  have gQ := g_main env (applyOps (applyOps s J) H) (args := ["convert".toList, "qhm".toList, T.toText, natText p]) (.convert (.inr rfl) h1 h2)
  rw [main_qhm env _ h1 h2] at gQ
  have pQ := (into_qhm (applyOps (applyOps s J) H) T p).all
  generalize hQ : (convertQhmRun (applyOps (applyOps s J) H) T p).ops = Q at *
  have tHQ := tH.append tQ
  have pHQ : ∀ x ∈ H ++ Q, x.path = (T.toText, natText p) := fun x hx => (List.mem_append.1 hx).elim (pH x) (pQ x)
  have tt : applyOps (applyOps (applyOps s J) H) Q = applyOps (applyOps s J) (H ++ Q) := (applyOps_append ..).symm
  have ts := tops_some tHQ s2s
  have dd : (applyOps (applyOps s J) (H ++ Q) T.toText (natText p)).map FindDir.dirs = (s T.toText (natText p)).map FindDir.dirs := by
    rw [tops_dirs _ _ _ _ tHQ, tops_dirs _ _ _ _ tJ]
  refine ⟨?_, by rw [tt, dd], fun a b hab => ?_⟩
  · rw [late_eq env T hp o _ (tt ▸ ts)]
    have e1 : (joinRun env (applyOps (applyOps (applyOps s J) H) Q) T p).ops = J := by
      rw [tt, join_dirs env dd, hJ]
    have n1 : applyOps (applyOps (applyOps (applyOps s J) H) Q) J = applyOps (applyOps (applyOps s J) H) Q := by
      rw [tt]
      exact store_noop tJ tHQ (by decide) pJ pHQ gJ
    rw [e1, n1]
    have e2 : hmOps env T p o (applyOps (applyOps (applyOps s J) H) Q) = H := by
      refine Eq.trans ?_ hH
      unfold hmOps
      rw [tt, hm_reads env (tops_read (by decide) _ _ _ _ tHQ) (tops_read (by decide) _ _ _ _ tHQ)]
    have n2 : applyOps (applyOps (applyOps (applyOps s J) H) Q) H = applyOps (applyOps (applyOps s J) H) Q :=
      store_noop tH tQ (by decide) pH pQ gH
    rw [e2, n2]
    have e3 : (convertQhmRun (applyOps (applyOps (applyOps s J) H) Q) T p).ops = Q := by
      rw [qhm_reads (tops_read (by decide) _ _ _ _ tQ), hQ]
    have n3 : applyOps (applyOps (applyOps (applyOps s J) H) Q) Q = applyOps (applyOps (applyOps s J) H) Q := by
      have := store_noop (B := []) tQ (M := []) (fun _ h => by cases h) (fun _ _ h => by cases h) pQ (fun _ h => by cases h) gQ
      exact this
    rw [e3, n3]
  · rw [applyOps_path _ _ pQ, applyOps_path _ _ pH, applyOps_path _ _ pJ]
    simp only [hab, if_false]

/-! ## The driver -/

/-- The directory of the type and the length replaced. -/
def upd (s : Store) (ty n : Text) (D : Option FindDir) : Store := fun a b => if (a, b) = (ty, n) then D else s a b

theorem upd_self (s : Store) (ty n : Text) : upd s ty n (s ty n) = s := by
  funext a b
  unfold upd
  by_cases h : (a, b) = (ty, n)
  · obtain ⟨rfl, rfl⟩ := Prod.mk.inj h
    exact if_pos rfl
  · exact if_neg h

theorem upd_at (s : Store) (ty n : Text) (D : Option FindDir) : upd s ty n D ty n = D := if_pos rfl

theorem mem_skip {f : Flag} (h : Flag.d ≠ f) (l : List Flag) {α : Type} (x y : α) :
    (if Flag.d ∈ f :: l then x else y) = if Flag.d ∈ l then x else y := by
  by_cases hd : Flag.d ∈ l
  · rw [if_pos hd, if_pos (List.mem_cons_of_mem _ hd)]
  · rw [if_neg hd, if_neg fun e => (List.mem_cons.1 e).elim h hd]

/-- The options do not depend on the store, and the flag `-d` removes the directories. -/
theorem flags_eq (ty n : Text) : ∀ (flags : List Flag) (o : Options) (s : Store),
    ∃ o', ∀ s, flags.foldl (driverFlag ty n) (o, s) = (o', if Flag.d ∈ flags then cleanupSh s ty n else s)
  | [], o, _ => ⟨o, fun s => by simp⟩
  | f :: flags, o, s => by
    have twice : ∀ s, cleanupSh (cleanupSh s ty n) ty n = cleanupSh s ty n := by
      intro s
      funext a b
      unfold cleanupSh
      split
      · cases s a b with
        | none => rfl
        | some d => simp [List.filter_filter]
      · rfl
    cases f with
    | d =>
      obtain ⟨o', h⟩ := flags_eq ty n flags o s
      refine ⟨o', fun s => ?_⟩
      change flags.foldl _ (o, cleanupSh s ty n) = _
      rw [h, twice, if_pos List.mem_cons_self]
      split <;> rfl
    | s =>
      obtain ⟨o', h⟩ := flags_eq ty n flags { o with slurm := true } s
      exact ⟨o', fun s => by rw [List.foldl_cons, mem_skip (by simp)]; exact h s⟩
    | h =>
      obtain ⟨o', h⟩ := flags_eq ty n flags { o with hadamard := true } s
      exact ⟨o', fun s => by rw [List.foldl_cons, mem_skip (by simp)]; exact h s⟩
    | c =>
      obtain ⟨o', h⟩ := flags_eq ty n flags { o with matchOption := "correlation".toList } s
      exact ⟨o', fun s => by rw [List.foldl_cons, mem_skip (by simp)]; exact h s⟩
    | p arg =>
      obtain ⟨o', h⟩ := flags_eq ty n flags { o with pairing := arg } s
      exact ⟨o', fun s => by rw [List.foldl_cons, mem_skip (by simp)]; exact h s⟩
    | other =>
      obtain ⟨o', h⟩ := flags_eq ty n flags o s
      exact ⟨o', fun s => by rw [List.foldl_cons, mem_skip (by simp)]; exact h s⟩

theorem clean (s : Store) (ty n : Text) (h : ∀ d, s ty n = some d → Rows d.dirs) :
    hasRowsumDirs (cleanupSh s ty n) ty n = false ∧
      mkdirFind (cleanupSh s ty n) ty n = upd s ty n (some ⟨topFiles s ty n, []⟩) := by
  have hc : cleanupSh s ty n ty n = (s ty n).map fun d => ⟨d.files, []⟩ := by
    unfold cleanupSh
    rw [if_pos rfl]
    cases hs : s ty n with
    | none => rfl
    | some d =>
      have : (d.dirs.filter fun e => !rowsumPrefix.isPrefixOf e.1) = [] := by
        rw [List.filter_eq_nil_iff]
        intro e he
        simp [h d hs e he]
      simp only [Option.map_some, this]
  constructor
  · unfold hasRowsumDirs
    rw [hc]
    cases s ty n <;> rfl
  · funext a b
    unfold mkdirFind upd
    by_cases hab : (a, b) = (ty, n)
    · rw [if_pos hab, if_pos hab]
      obtain ⟨rfl, rfl⟩ := Prod.mk.inj hab
      rw [hc]
      unfold topFiles
      cases s a b <;> rfl
    · rw [if_neg hab, if_neg hab]
      unfold cleanupSh
      rw [if_neg hab]

theorem drive (env : Env F κ) (T : SeqType) {p : ℕ} (hp : p < 2 ^ 64) (flags : List Flag) (hd : Flag.d ∈ flags) :
    ∃ o d2, Rows d2 ∧ ∀ s, (∀ d, s T.toText (natText p) = some d → Rows d.dirs) →
      driverSh env T.toText (natText p) flags s =
        late env T.toText (natText p) o (upd s T.toText (natText p) (some ⟨topFiles s T.toText (natText p), d2⟩)) := by
  obtain ⟨o, ho⟩ := flags_eq T.toText (natText p) flags .default (fun _ _ => none)
  obtain ⟨P, hP, pP, eP⟩ := pairs_writes env T hp (o.matchOption :: shellWords o.pairing)
  obtain ⟨d1, hd1, h1⟩ := inDirs_act P [] hP (fun _ h => by cases h)
  refine ⟨o, d1.map fun e => (e.1, sortDirSh e.2), fun e he => ?_, fun s hs => ?_⟩
  · obtain ⟨x, hx, rfl⟩ := List.mem_map.1 he
    exact hd1 x hx
  · obtain ⟨c1, c2⟩ := clean s T.toText (natText p) hs
    unfold driverSh
    have hne : ¬ (T.toText = [] ∨ natText p = []) := by
      rintro (h | h)
      · cases T <;> exact absurd h (by decide)
      · have := Txt.parse_natText hp
        rw [h, show parseUsize [] = none from by decide] at this
        cases this
    rw [if_neg hne, ho]
    dsimp only
    rw [if_pos hd, c1, c2]
    simp only [Bool.false_eq_true, if_false]
    have hp1 : applyOps (upd s T.toText (natText p) (some ⟨topFiles s T.toText (natText p), []⟩)) P =
        upd s T.toText (natText p) (some ⟨topFiles s T.toText (natText p), d1⟩) := by
      rw [applyOps_path _ _ pP]
      funext a b
      unfold upd
      by_cases hab : (a, b) = (T.toText, natText p)
      · simp only [hab, if_true]
        exact h1 _
      · simp only [hab, if_false]
    have hsort : sortPairsSh (upd s T.toText (natText p) (some ⟨topFiles s T.toText (natText p), d1⟩)) T.toText (natText p) =
        (upd s T.toText (natText p) (some ⟨topFiles s T.toText (natText p), d1.map fun e => (e.1, sortDirSh e.2)⟩), true) := by
      unfold sortPairsSh teeStatus
      rw [upd_at]
      refine Prod.ext ?_ rfl
      funext a b
      unfold upd
      dsimp only
      by_cases hab : (a, b) = (T.toText, natText p)
      · simp only [hab, if_true]; rfl
      · simp only [hab, if_false]
    have hpp : piped env (upd s T.toText (natText p) (some ⟨topFiles s T.toText (natText p), []⟩)) T.toText (natText p)
        (["pairs".toList, T.toText, natText p, o.matchOption] ++ shellWords o.pairing) =
        (upd s T.toText (natText p) (some ⟨topFiles s T.toText (natText p), d1⟩), true) := by
      unfold piped teeStatus
      have := eP (upd s T.toText (natText p) (some ⟨topFiles s T.toText (natText p), []⟩))
      simp only [List.cons_append, List.nil_append]
      rw [this, hp1, upd_at]
      rfl
    unfold driverStages
    rw [hpp]
    dsimp only
    rw [hsort]
    rfl

theorem drive_again (env : Env F κ) (T : SeqType) {p : ℕ} (hp : p < 2 ^ 64) (flags : List Flag) (hd : Flag.d ∈ flags) (s : Store)
    (hs : ∀ d, s T.toText (natText p) = some d → Rows d.dirs) :
    driverSh env T.toText (natText p) flags (driverSh env T.toText (natText p) flags s).1 =
      driverSh env T.toText (natText p) flags s := by
  obtain ⟨o, d2, hr, h⟩ := drive env T hp flags hd
  rw [h s hs]
  obtain ⟨e1, e2, _⟩ := late_again env T hp o (upd s T.toText (natText p) (some ⟨topFiles s T.toText (natText p), d2⟩))
    (by rw [upd_at]; rfl)
  generalize hu : upd s T.toText (natText p) (some ⟨topFiles s T.toText (natText p), d2⟩) = u at *
  rw [← hu, upd_at, hu] at e2
  generalize ht : (late env T.toText (natText p) o u).1 = t at *
  obtain ⟨d, hd1, hd2⟩ : ∃ d, t T.toText (natText p) = some d ∧ d.dirs = d2 := by
    cases h' : t T.toText (natText p) with
    | none => rw [h'] at e2; cases e2
    | some d => rw [h'] at e2; exact ⟨d, rfl, Option.some.inj e2⟩
  rw [h t (fun d' h' => by rw [hd1] at h'; cases h'; rw [hd2]; exact hr)]
  have : (some ⟨topFiles t T.toText (natText p), d2⟩ : Option FindDir) = t T.toText (natText p) := by
    unfold topFiles
    rw [hd1, ← hd2]
    rfl
  rw [this, upd_self, e1]

end Proofs.Redrive
