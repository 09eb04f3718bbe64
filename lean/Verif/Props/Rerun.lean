import Verif.Proofs.Redrive
import Verif.Props.Program

/-!
# Property C111: running a command or the driver again

Long searches are killed by time limits and started again. A second run of a command changes nothing, and a run after one
that was killed at any time leaves what an undisturbed run leaves, whatever texts the files begun had.
-/

set_option linter.unusedVariables false
set_option linter.unusedSectionVars false

namespace Props
open Model Spec Proofs Proofs.Store Proofs.Command

variable {F κ : Type} [DecidableEq κ]

/-- C111. Running a command a second time changes no file, directory or order, and ends as the first run did; also if the
command panics. -/
theorem C111_again (env : Env F κ) (s : Store) (args : List Text) :
    runProgram env (runProgram env s args).1 args = runProgram env s args :=
  Rerun.run_again env s args (Rerun.same_refl _) (List.append_nil _).symm

/-- C111. A command run after one that was killed at any time, with any texts in the files it had begun, leaves what it leaves
when it is not disturbed, and ends in the same way. -/
theorem C111_killed (env : Env F κ) (s t : Store) (args : List Text) (h : Killed s (mainRun env s args).ops t) :
    runProgram env t args = runProgram env s args := by
  obtain ⟨pre, pre', post, hr, hs, rfl⟩ := h
  exact Rerun.run_again env s args hs hr

/-- C111. Commands for different types or lengths can be run in any order. -/
theorem C111_commute (env : Env F κ) (s : Store) (args args' : List Text) (ty ty' : SeqType) (n n' : ℕ) (h : Concerns args ty n)
    (h' : Concerns args' ty' n') (hne : (ty.toText, natText n) ≠ (ty'.toText, natText n')) :
    (runProgram env (runProgram env s args).1 args').1 = (runProgram env (runProgram env s args').1 args).1 ∧
      (runProgram env (runProgram env s args).1 args').2 = (runProgram env s args').2 ∧
      (runProgram env (runProgram env s args').1 args).2 = (runProgram env s args).2 := by
  have e1 := Rerun.main_local env h' (C77_frame env s args ty n h _ _ (Ne.symm hne))
  have e2 := Rerun.main_local env h (C77_frame env s args' ty' n' h' _ _ hne)
  have p1 := (main_into env s h).all
  have p2 := (main_into env s h').all
  refine ⟨?_, ?_, ?_⟩
  · unfold runProgram at e1 e2 ⊢
    dsimp only at e1 e2 ⊢
    rw [e1, e2]
    rw [Rerun.applyOps_path _ _ p1, Rerun.applyOps_path _ _ p2, Rerun.applyOps_path _ _ p1, Rerun.applyOps_path _ _ p2]
    funext a b
    dsimp only
    by_cases h1 : (a, b) = (ty.toText, natText n)
    · have h2 : (a, b) ≠ (ty'.toText, natText n') := fun e => hne (h1.symm.trans e)
      rw [if_neg h2, if_pos h1, if_pos h1, if_neg h2]
    · rw [if_neg h1, if_neg h1]
  · rw [show runProgram env (runProgram env s args).1 args' = _ from rfl]
    unfold runProgram at e1 ⊢
    rw [e1]
  · unfold runProgram at e2 ⊢
    rw [e2]

-- A concrete case: `rowsums qts 7` killed in the middle of a line, and run again.
example (env : Env F κ) (s : Store) (hs : s "qts".toList "7".toList = some ⟨[], []⟩) :
    ∃ t, Killed s (mainRun env s ["rowsums".toList, "qts".toList, "7".toList]).ops t ∧
      readTop t "qts".toList "7".toList "rowsums.quad".toList = some "1 1 1".toList ∧
      readTop (runProgram env t ["rowsums".toList, "qts".toList, "7".toList]).1 "qts".toList "7".toList "rowsums.quad".toList =
        some "1 1 1 5\n1 3 3 3\n".toList := by
  have h1 : strToSeqtype "qts".toList = some .quaternionType := by decide
  have h2 : parseUsize "7".toList = some 7 := by decide +kernel
  have ht : rowsumsText 7 .quaternionType = some "1 1 1 5\n1 3 3 3\n".toList := by decide +kernel
  have hn : natText 7 = "7".toList := by decide
  have hq : SeqType.toText .quaternionType = "qts".toList := rfl
  have hops : mainRun env s ["rowsums".toList, "qts".toList, "7".toList] =
      ⟨[.putTop "qts".toList "7".toList "rowsums.quad".toList [],
        .putTop "qts".toList "7".toList "rowsums.quad".toList "1 1 1 5\n1 3 3 3\n".toList], some ()⟩ := by
    rw [main_rowsums env s h1 h2]
    unfold writeRowsumsRun writeTop
    rw [hn, hq, hs, ht]
    rfl
  have hk : Killed s (mainRun env s ["rowsums".toList, "qts".toList, "7".toList]).ops
      (applyOps s [.putTop "qts".toList "7".toList "rowsums.quad".toList [],
        .putTop "qts".toList "7".toList "rowsums.quad".toList "1 1 1".toList]) := by
    refine ⟨_, _, [], by rw [List.append_nil], ?_, rfl⟩
    rw [hops]
    exact .cons ⟨rfl, rfl, rfl⟩ (.cons ⟨rfl, rfl, rfl⟩ .nil)
  refine ⟨_, hk, ?_, ?_⟩
  · rw [Rerun.applyOps_path (ty := "qts".toList) (n := "7".toList) _ _ (by simp [Write.path])]
    unfold readTop
    dsimp only
    rw [if_pos rfl, hs]
    decide +kernel
  · rw [C111_killed env s _ _ hk]
    unfold runProgram
    rw [hops]
    dsimp only
    rw [Rerun.applyOps_path (ty := "qts".toList) (n := "7".toList) _ _ (by simp [Write.path])]
    unfold readTop
    dsimp only
    rw [if_pos rfl, hs]
    decide +kernel

-- Two commands for different lengths.
example (env : Env F κ) (s : Store) :
    (runProgram env (runProgram env s ["join".toList, "qts".toList, "5".toList]).1 ["rowsums".toList, "qts".toList, "7".toList]).1 =
      (runProgram env (runProgram env s ["rowsums".toList, "qts".toList, "7".toList]).1 ["join".toList, "qts".toList, "5".toList]).1 :=
  (C111_commute env s _ _ .quaternionType .quaternionType 5 7 (.join (by decide) (by decide +kernel))
    (.rowsums (by decide) (by decide +kernel)) (by decide)).1

/-! ## The driver -/

/-- C111. `driver.sh` with the flag `-d`, run a second time with the same flags, changes no file, directory or order and ends with
the same status; for every type and length, whatever the first run found, as long as the directory of the length holds only
directories of row sums. -/
theorem C111_driver (env : Env F κ) (ty : SeqType) (n : ℕ) (hn : n < 2 ^ 64) (flags : List Flag) (hd : Flag.d ∈ flags) (s : Store)
    (hs : ∀ d, s ty.toText (natText n) = some d → ∀ e ∈ d.dirs, "rowsum_".toList <+: e.1) :
    driverSh env ty.toText (natText n) flags (driverSh env ty.toText (natText n) flags s).1 =
      driverSh env ty.toText (natText n) flags s :=
  Redrive.drive_again env ty hn flags hd s fun d h e he => List.isPrefixOf_iff_prefix.2 (hs d h e he)

/-- C111. What is found in the directories of row sums has no influence on `driver.sh` with the flag `-d`. -/
theorem C111_driver_leftovers (env : Env F κ) (ty : SeqType) (n : ℕ) (hn : n < 2 ^ 64) (flags : List Flag) (hd : Flag.d ∈ flags)
    (s t : Store) (d e : FindDir) (h1 : s ty.toText (natText n) = some d) (h2 : t ty.toText (natText n) = some e)
    (hf : d.files = e.files) (hr : ∀ x ∈ d.dirs ++ e.dirs, "rowsum_".toList <+: x.1)
    (ho : ∀ a b, (a, b) ≠ (ty.toText, natText n) → s a b = t a b) :
    driverSh env ty.toText (natText n) flags s = driverSh env ty.toText (natText n) flags t := by
  obtain ⟨o, d2, _, h⟩ := Redrive.drive env ty hn flags hd
  rw [h s fun d' h' x hx => List.isPrefixOf_iff_prefix.2 (hr x (List.mem_append_left _ (by rw [h1] at h'; cases h'; exact hx))),
    h t fun d' h' x hx => List.isPrefixOf_iff_prefix.2 (hr x (List.mem_append_right _ (by rw [h2] at h'; cases h'; exact hx)))]
  have e1 : topFiles s ty.toText (natText n) = topFiles t ty.toText (natText n) := by
    unfold topFiles
    rw [h1, h2]
    exact hf
  rw [e1]
  congr 1
  funext a b
  unfold Redrive.upd
  by_cases hab : (a, b) = (ty.toText, natText n)
  · rw [if_pos hab, if_pos hab]
  · rw [if_neg hab, if_neg hab, ho a b hab]

/-- C111. Without the flag a second run is refused if a directory of a row sum is left: it changes nothing and ends with status 1,
also if the first run ended with status 0. -/
theorem C111_driver_refuses (env : Env F κ) (ty n : Text) (hty : ty ≠ []) (hn : n ≠ []) (flags : List Flag) (hd : Flag.d ∉ flags)
    (s : Store) (d : FindDir) (hs : s ty n = some d) (e : Text × Dir) (he : e ∈ d.dirs) (hr : "rowsum_".toList <+: e.1) :
    driverSh env ty n flags s = (s, 1) := by
  obtain ⟨o, h⟩ := Redrive.flags_eq ty n flags .default s
  unfold driverSh
  rw [if_neg (by rintro (h | h); exacts [hty h, hn h]), h s, if_neg hd]
  dsimp only
  have : hasRowsumDirs s ty n = true := by
    unfold hasRowsumDirs
    rw [hs]
    exact List.any_eq_true.2 ⟨e, he, List.isPrefixOf_iff_prefix.2 hr⟩
  rw [this]
  rfl

-- Without the hypothesis on the directories a second run can leave another store: the pair file of a foreign directory is sorted
-- by the first run; the second run finds none there and creates a file named like the pattern.
example : (sortDirSh [("a.pair".toList, "b\na\n".toList)]).map Prod.fst = ["a.pair.sorted".toList] ∧
    (sortDirSh (sortDirSh [("a.pair".toList, "b\na\n".toList)])).map Prod.fst =
      ["a.pair.sorted".toList, "*.pair.sorted".toList] := by decide +kernel

-- The hypotheses are met by a store without anything, and by what a killed pair stage left.
example (env : Env F κ) : driverSh env "qts".toList "5".toList [.d, .h] (driverSh env "qts".toList "5".toList [.d, .h] fun _ _ => none).1 =
    driverSh env "qts".toList "5".toList [.d, .h] fun _ _ => none := by
  have := C111_driver env .quaternionType 5 (by norm_num) [.d, .h] (by simp) (fun _ _ => none) (fun _ h => by cases h)
  rwa [show natText 5 = "5".toList by decide] at this

example (env : Env F κ) (s : Store) (ho : ∀ a b, (a, b) ≠ ("qts".toList, "5".toList) → s a b = none)
    (hs : s "qts".toList "5".toList = some ⟨[], [("rowsum_1_1_3_3".toList, [("rowsum_1_1_3_3_W.seq".toList, "++".toList)])]⟩) :
    driverSh env "qts".toList "5".toList [.d] s =
      driverSh env "qts".toList "5".toList [.d] fun a b => if (a, b) = ("qts".toList, "5".toList) then some ⟨[], []⟩ else none := by
  have h5 : natText 5 = "5".toList := by decide
  have := C111_driver_leftovers env .quaternionType 5 (by norm_num) [.d] (by simp) s
    (fun a b => if (a, b) = ("qts".toList, "5".toList) then some ⟨[], []⟩ else none)
    ⟨[], [("rowsum_1_1_3_3".toList, [("rowsum_1_1_3_3_W.seq".toList, "++".toList)])]⟩ ⟨[], []⟩
    (by rw [h5]; exact hs) (by rw [h5]; exact if_pos rfl) rfl
    (by
      intro x hx
      simp only [List.append_nil, List.mem_singleton] at hx
      rw [hx]
      decide)
    (by
      intro a b hab
      rw [h5] at hab
      rw [ho a b hab]
      exact (if_neg hab).symm)
  rwa [h5] at this

end Props
