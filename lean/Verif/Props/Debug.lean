import Verif.Proofs.Detail

/-!
# Property C88: debug assertions

The environment says whether debug assertions are enabled. The program is normally run from a release build, where they
are not.
-/

set_option linter.unusedVariables false

namespace Props
open Model Spec Proofs Proofs.Store Proofs.Program Proofs.Driver Proofs.Command Proofs.Stages Proofs.Scripts Proofs.Detail

variable {F κ : Type} [DecidableEq κ]

/-- The debug build. -/
abbrev debugBuild (env : Env F κ) : Env F κ := { env with debug := true }

/-- The release build. -/
abbrev releaseBuild (env : Env F κ) : Env F κ := { env with debug := false }

/-! ## Helpers -/

theorem bind_release {α β : Type} {r r' : Run α} {f g : α → Run β} (h : (r >>= f).result.isSome)
    (hr : r.result.isSome → r' = r) (hfg : ∀ a, r.result = some a → (f a).result.isSome → g a = f a) :
    (r' >>= g) = (r >>= f) := by
  rcases r with ⟨ops, _ | a⟩
  · exact absurd h (by simp [Bind.bind, Run.bind])
  · have hr := hr rfl
    subst hr
    have h' : (f a).result.isSome := h
    have e := hfg a rfl h'
    simp only [Bind.bind, Run.bind, e]

theorem join_release (env : Env F κ) (s : Store) (ty : SeqType) (p : ℕ)
    (h : (joinRun (debugBuild env) s ty p).result.isSome) :
    joinRun (releaseBuild env) s ty p = joinRun (debugBuild env) s ty p := by
  unfold joinRun at h ⊢
  dsimp only at h ⊢
  refine bind_release h (fun _ => rfl) fun d _ h => ?_
  refine bind_release h (fun _ => rfl) fun m _ h => ?_
  refine bind_release h (fun h => ?_) fun _ _ h => ?_
  · simp only [Run.ofOption] at h ⊢
    split at h
    · cases h
    · rename_i hc
      rw [if_neg hc, if_neg (by simp)]
  refine bind_release h (fun _ => rfl) fun r _ h => ?_
  refine bind_release h (fun h => ?_) fun _ _ h => rfl
  simp only [Run.ofOption] at h ⊢
  split at h
  · cases h
  · rename_i hc
    rw [if_neg hc, if_neg (by simp)]

theorem hm_release (env : Env F κ) (s : Store) (ty : SeqType) (p : ℕ)
    (h : (convertHmRun (debugBuild env) s ty p).result.isSome) :
    convertHmRun (releaseBuild env) s ty p = convertHmRun (debugBuild env) s ty p := by
  unfold convertHmRun at h ⊢
  dsimp only at h ⊢
  refine bind_release h (fun _ => rfl) fun t _ h => ?_
  refine bind_release h (fun h => ?_) fun _ _ h => rfl
  obtain ⟨text, ht⟩ := Option.isSome_iff_exists.1 h
  simp only [Run.ofOption] at ht ⊢
  rw [ht, fromFile_weaken ht]

theorem pairs_build (env : Env F κ) (s : Store) (args : List Text) :
    runProgram (debugBuild env) s ("pairs".toList :: args) = runProgram (releaseBuild env) s ("pairs".toList :: args) := by
  have : mainRun (debugBuild env) s ("pairs".toList :: args) = mainRun (releaseBuild env) s ("pairs".toList :: args) := by
    unfold mainRun
    dsimp only
    rw [if_neg (by decide), if_neg (by decide), if_neg (by decide), if_neg (by decide), if_neg (by decide), if_pos rfl]
    rw [if_neg (by decide), if_neg (by decide), if_neg (by decide), if_neg (by decide), if_neg (by decide)]
  unfold runProgram
  rw [this]

theorem qhm_build (env : Env F κ) (s : Store) (T N : Text) :
    runProgram (debugBuild env) s ["convert".toList, "qhm".toList, T, N] =
      runProgram (releaseBuild env) s ["convert".toList, "qhm".toList, T, N] := by
  have : mainRun (debugBuild env) s ["convert".toList, "qhm".toList, T, N] =
      mainRun (releaseBuild env) s ["convert".toList, "qhm".toList, T, N] := by
    unfold mainRun
    dsimp only
    rw [if_neg (by decide), if_neg (by decide), if_neg (by decide), if_neg (by decide), if_pos rfl]
    rw [if_neg (by decide), if_neg (by decide), if_neg (by decide), if_neg (by decide), if_pos rfl]
    rfl
  unfold runProgram
  rw [this]

theorem joinState_build (env : Env F κ) (T N : Text) (flags : List Flag) (s : Store) :
    joinState (debugBuild env) T N flags s = joinState (releaseBuild env) T N flags s := by
  unfold joinState
  rw [List.cons_append, List.cons_append, pairs_build]

/-! ## C88 -/

/-- C88. If the debug build of the program, with any arguments in any store, ends without a panic, then the release build
performs exactly the same writes and ends normally. -/
theorem C88_release (env : Env F κ) (s : Store) (args : List Text)
    (h : (mainRun (debugBuild env) s args).result.isSome) :
    mainRun (releaseBuild env) s args = mainRun (debugBuild env) s args := by
  cases args with
  | nil => rfl
  | cons cmd args =>
    unfold mainRun at h ⊢
    dsimp only at h ⊢
    by_cases h1 : cmd = "qhm-all".toList
    · rw [if_pos h1, if_pos h1]
      rfl
    by_cases h2 : cmd = "amicable".toList
    · rw [if_neg h1, if_neg h1, if_pos h2, if_pos h2]
    by_cases h3 : cmd = "rowsums".toList
    · rw [if_neg h1, if_neg h1, if_neg h2, if_neg h2, if_pos h3, if_pos h3]
    rw [if_neg h1, if_neg h2, if_neg h3] at h ⊢
    rw [if_neg h1, if_neg h2, if_neg h3]
    by_cases h4 : cmd = "join".toList
    · rw [if_pos h4] at h ⊢
      rw [if_pos h4]
      rcases args with _ | ⟨a, _ | ⟨b, _ | _⟩⟩
      · rfl
      · rfl
      · refine bind_release h (fun _ => rfl) fun ty _ h => ?_
        refine bind_release h (fun _ => rfl) fun p _ h => ?_
        exact join_release env s ty p h
      · rfl
    rw [if_neg h4] at h ⊢
    rw [if_neg h4]
    by_cases h5 : cmd = "convert".toList
    · rw [if_pos h5] at h ⊢
      rw [if_pos h5]
      rcases args with _ | ⟨a, _ | ⟨b, _ | ⟨c, _ | _⟩⟩⟩
      · rfl
      · rfl
      · rfl
      · refine bind_release h (fun _ => rfl) fun ty _ h => ?_
        refine bind_release h (fun _ => rfl) fun p _ h => ?_
        by_cases h6 : a = "hm".toList
        · rw [if_pos h6] at h ⊢
          rw [if_pos h6]
          exact hm_release env s ty p h
        · rw [if_neg h6, if_neg h6]
      · rfl
    · rw [if_neg h5, if_neg h5]

-- The hypothesis is met: counting row sums in an empty store ends normally.
example (env : Env F κ) : (mainRun (debugBuild env) (fun _ _ => some ⟨[], []⟩) ["rowsums".toList, "qts".toList, "5".toList]).result.isSome :=
  (by decide +kernel : (writeRowsumsRun (fun _ _ => some ⟨[], []⟩) 5 .quaternionType).result.isSome)

/-- C88. The assertion that all matches have sorted row sums (`find_write.rs:517`) holds for every listing of the directories
written by the pair stage, in every arithmetic: the row sums are not negative and in order, except that for QT sequences
with four different positive row sums the last one may also be negative. -/
theorem C88_sorted (A : Fl F) (n : ℕ) [NeZero n] (hn : n < 2 ^ 62) (ty : SeqType)
    (hty : ty = .williamson ∨ ty = .williamsonType ∨ ty = .quaternionType) (mo : MatchOption) (pr : Option Pairing)
    (w dirs : List (Text × Dir)) (hw : writePairs A n ty mo pr = some w) (hd : Listing w dirs) (matched : List QuadSeq)
    (hm : joinAll ty dirs = some matched) :
    ∀ q ∈ matched, OfType n ty q ∧ hasSortedRowsums q = true ∧
      ((0 ≤ q.a.sum ∧ q.a.sum ≤ q.b.sum ∧ q.b.sum ≤ q.c.sum ∧ q.c.sum ≤ q.d.sum) ∨
        (ty = .quaternionType ∧ 0 < q.a.sum ∧ q.a.sum < q.b.sum ∧ q.b.sum < q.c.sum ∧ q.c.sum < -q.d.sum)) := by
  intro q hq
  obtain ⟨l, hl, _, hmem⟩ := C24_rowsums_exact n ty
  have hty' : Supported ty := by
    unfold Supported
    tauto
  obtain ⟨h1, h2⟩ := Joined.joined_rowsums hn hty' hw hd hm hl q hq
  refine ⟨h1, Joined.joined_sorted hn hty' hw hd hm q hq, ?_⟩
  unfold rowsums at h2
  rw [hmem] at h2
  simp only [rowsum_eq_sum] at h2
  exact h2.2.2

theorem run_release (env : Env F κ) (s : Store) (args : List Text) (h : (runProgram (debugBuild env) s args).2 = true) :
    runProgram (releaseBuild env) s args = runProgram (debugBuild env) s args := by
  unfold runProgram at h ⊢
  rw [C88_release env s args h]

theorem driver_build (env : Env F κ) {T N : Text} {flags : List Flag} {s : Store}
    (h1 : driverSh (debugBuild env) T N flags s =
      ((runProgram (debugBuild env) (afterHm (debugBuild env) T N flags s) ["convert".toList, "qhm".toList, T, N]).1, 0))
    (h2 : driverSh (releaseBuild env) T N flags s =
      ((runProgram (releaseBuild env) (afterHm (releaseBuild env) T N flags s) ["convert".toList, "qhm".toList, T, N]).1, 0))
    (h3 : (runProgram (debugBuild env) (joinState (debugBuild env) T N flags s) ["join".toList, T, N]).2 = true)
    (h4 : (runProgram (debugBuild env) (afterJoin (debugBuild env) T N flags s) ["convert".toList, "hm".toList, T, N]).2 = true) :
    driverSh (debugBuild env) T N flags s = driverSh (releaseBuild env) T N flags s := by
  have e1 : afterJoin (releaseBuild env) T N flags s = afterJoin (debugBuild env) T N flags s := by
    unfold afterJoin
    rw [← joinState_build, run_release env _ _ h3]
  have e2 : afterHm (releaseBuild env) T N flags s = afterHm (debugBuild env) T N flags s := by
    unfold afterHm
    rw [e1, run_release env _ _ h4]
  rw [h1, h2, e2, qhm_build]

theorem hm_runs (env : Env F κ) {s : Store} {ty : SeqType} {n : ℕ} (hn : n < 2 ^ 64) {t text : Text}
    (h1 : readTop s ty.toText (natText n) (hmSource ty) = some t)
    (h2 : hadamardEquivalenceFromFile env.canon env.hmOrder env.debug ty t = some text) :
    (runProgram env s ["convert".toList, "hm".toList, ty.toText, natText n]).2 = true := by
  unfold runProgram
  rw [main_hm env s (seqtype_text ty) (Txt.parse_natText hn)]
  have e : convertHmRun env s ty n = (Run.ofOption (readTop s ty.toText (natText n) (hmSource ty)) >>= fun t =>
      Run.ofOption (hadamardEquivalenceFromFile env.canon env.hmOrder env.debug ty t) >>= fun text =>
      Run.op (.putTop ty.toText (natText n) "result.mat".toList text)) := rfl
  rw [e, h1, some_bind, h2, some_bind]
  rfl

/-- C88. The driver gives the same result in both builds: with QT sequences or with Williamson-type sequences, any flags,
length up to 31 and arithmetic that is good enough. -/
theorem C88_driver (env : Env F κ) (hf : Env.Fair env) (hc : ExactLabelling env.canon) (val : F → ℝ) (n : ℕ) [NeZero n]
    (hn : n ≤ 31) (ty : SeqType) (hty : ty = .quaternionType ∨ ty = .williamsonType) (flags : List Flag)
    (hN : Numerics env.A val n (flagMatching flags)) (hex : ∃ q, OfType n ty q) (s : Store)
    (hr : Ready s ty.toText (natText n) flags) :
    driverSh (debugBuild env) ty.toText (natText n) flags s = driverSh (releaseBuild env) ty.toText (natText n) flags s := by
  rcases hty with rfl | rfl
  · obtain ⟨w, fd, r, t, out, text, _, _, _, _, _, _, _, _, d1, d2, _, _, d3, d4⟩ :=
      qts_detail (debugBuild env) ⟨hf.dirs, hf.files, hf.hm, hf.qs⟩ hc val n hn flags hN hex s hr
    obtain ⟨w', fd', r', t', out', text', _, _, _, _, _, _, _, _, _, _, _, _, _, d5⟩ :=
      qts_detail (releaseBuild env) ⟨hf.dirs, hf.files, hf.hm, hf.qs⟩ hc val n hn flags hN hex s hr
    exact driver_build env d4 d5 (by rw [show SeqType.quaternionType.toText = "qts".toList from rfl, d1])
      (hm_runs (debugBuild env) (by omega) (ty := .quaternionType) d2 d3)
  · obtain ⟨w, fd, r, l, t, t', out, text, _, _, _, _, _, _, _, _, _, _, _, _, _, _, d1, _, d2, _, _, d3, d4⟩ :=
      wts_detail (debugBuild env) ⟨hf.dirs, hf.files, hf.hm, hf.qs⟩ hc val n hn flags hN hex s hr
    obtain ⟨w', fd', r', l', t1, t1', out', text', _, _, _, _, _, _, _, _, _, _, _, _, _, _, _, _, _, _, _, _, d5⟩ :=
      wts_detail (releaseBuild env) ⟨hf.dirs, hf.files, hf.hm, hf.qs⟩ hc val n hn flags hN hex s hr
    exact driver_build env d4 d5 (by rw [show SeqType.williamsonType.toText = "wts".toList from rfl, d1])
      (hm_runs (debugBuild env) (by omega) (ty := .williamsonType) d2 d3)

-- The hypotheses are met (with both types, see C79).
example : ∃ (κ : Type) (_ : DecidableEq κ) (env : Env ℝ κ) (s : Store), env.A = exactFl ∧ Env.Fair env ∧
    ExactLabelling env.canon ∧ (∃ q, OfType 5 .quaternionType q) ∧ Ready s "qts".toList (natText 5) [.d, .h] := by
  obtain ⟨κ, canon, hc⟩ := exact_exists
  exact ⟨κ, Classical.decEq κ, ⟨exactFl, canon, id, id, id, id, false⟩,
    fun a b => if (a, b) = ("qts".toList, "5".toList) then some ⟨[], [("rowsum_1_1_3_3".toList, [])]⟩ else none, rfl,
    ⟨fun _ => .refl _, fun _ => .refl _, fun _ => .refl _, fun _ => .refl _⟩, hc, ⟨exQTS5, exQTS5_isQTS⟩,
    ⟨by decide, by unfold IsWord; decide⟩⟩

/-- A store with a result file for length 1 that was not written by the program: its sequence is not the least one. -/
def handWritten : Store := fun a b =>
  if (a, b) = ("qts".toList, "1".toList) then some ⟨[("result.seq".toList, "-\n".toList)], []⟩ else none

/-- C88. The converse of `C88_release` fails: `convert hm` on a result file with a sequence that is not least ends normally in
the release build and panics in the debug build. -/
theorem C88_converse_fails (env : Env F κ) (hf : Env.Fair env) :
    (mainRun (releaseBuild env) handWritten ["convert".toList, "hm".toList, "qts".toList, "1".toList]).result = some () ∧
      (mainRun (debugBuild env) handWritten ["convert".toList, "hm".toList, "qts".toList, "1".toList]).result = none := by
  have hq : IsQTS 1 { size := 1, a := [1], b := [1], c := [1], d := [1] } := (C08_verify_qts 1 _ (by decide)).1 (by decide)
  have h1 : strToSeqtype "qts".toList = some .quaternionType := seqtype_text .quaternionType
  have h2 : parseUsize "1".toList = some 1 := by decide
  have h3 : readTop handWritten (SeqType.quaternionType).toText (natText 1) "result.seq".toList = some "-\n".toList := by decide
  rw [main_hm _ _ h1 h2, main_hm _ _ h1 h2]
  unfold convertHmRun
  dsimp only
  rw [h3, some_bind, some_bind]
  refine ⟨?_, ?_⟩
  · obtain ⟨out, text, _, k, _⟩ := C46_succeeds env.canon env.hmOrder hf.hm false .quaternionType "-\n".toList
      fun line hl => ⟨1, inferInstance, { size := 1, a := [1], b := [1], c := [1], d := [1] }, (by
        have : line = "-".toList := by
          have e : readLines "-\n".toList = ["-".toList] := by decide
          rw [e] at hl
          exact List.mem_singleton.1 hl
        rw [this]
        decide), hq, fun h => by cases h⟩
    rw [k]
    rfl
  · have e : hadamardEquivalenceFromFile env.canon env.hmOrder true .quaternionType "-\n".toList = none := by
      have : (readLines "-\n".toList).mapM (readCanonicalLine true) = none := by decide
      unfold hadamardEquivalenceFromFile hadamardRepresentatives
      rw [this]
      rfl
    rw [e]
    rfl

end Props
