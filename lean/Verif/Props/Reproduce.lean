import Verif.Proofs.Reproduce
import Verif.Props.Rerun

/-!
# Property C115: the same command in two processes

The iteration order of a hash collection is drawn anew in every process. Two processes that run the same command on the same files
write the same files; only the matrices in `result.mat` and `qhm_all.mat` may be in another order.
-/

set_option linter.unusedVariables false
set_option linter.unusedSectionVars false

namespace Props
open Model Spec Proofs

variable {F κ : Type} [DecidableEq κ]

/-- C115. Whatever the orders of the hash collections, a command does the same writes in the same order and ends in the same way;
only the blocks of lines in the two files of matrices may be in another order. -/
theorem C115_writes (env : Env F κ) (hf : Env.Fair env) (hm : List HM → List HM) (qs : List QuadSeq → List QuadSeq)
    (h1 : ∀ l, (hm l).Perm l) (h2 : ∀ l, (qs l).Perm l) (s : Store) (args : List Text) :
    List.Forall₂ SameWrite (mainRun env s args).ops (mainRun { env with hmOrder := hm, qsOrder := qs } s args).ops ∧
      (runProgram env s args).2 = (runProgram { env with hmOrder := hm, qsOrder := qs } s args).2 := by
  obtain ⟨h, h'⟩ := Reproduce.main_alike env hm qs hf.hm hf.qs h1 h2 s args
  refine ⟨h, ?_⟩
  unfold runProgram
  rw [h']

/-- C115. The commands other than `convert hm` and `qhm-all` leave the same store, byte for byte. -/
theorem C115_same (env : Env F κ) (hm : List HM → List HM) (qs : List QuadSeq → List QuadSeq) (s : Store) (args : List Text)
    (ha : ∀ l, args ≠ "qhm-all".toList :: l) (hb : ∀ l, args ≠ "convert".toList :: "hm".toList :: l) :
    runProgram { env with hmOrder := hm, qsOrder := qs } s args = runProgram env s args := by
  unfold runProgram
  rw [Reproduce.main_eq env hm qs s args ha hb]

/-- C115. After the command every file other than the two files of matrices, and every directory of pairs, is the same whatever the
orders. -/
theorem C115_read (env : Env F κ) (hf : Env.Fair env) (hm : List HM → List HM) (qs : List QuadSeq → List QuadSeq)
    (h1 : ∀ l, (hm l).Perm l) (h2 : ∀ l, (qs l).Perm l) (s : Store) (args : List Text) (ty n name : Text)
    (hn : name ∉ ["result.mat".toList, "qhm_all.mat".toList]) :
    readTop (runProgram { env with hmOrder := hm, qsOrder := qs } s args).1 ty n name = readTop (runProgram env s args).1 ty n name ∧
      ((runProgram { env with hmOrder := hm, qsOrder := qs } s args).1 ty n).map FindDir.dirs =
        ((runProgram env s args).1 ty n).map FindDir.dirs := by
  have h := (C115_writes env hf hm qs h1 h2 s args).1
  unfold runProgram
  dsimp only
  exact Reproduce.same_read hn h s s rfl rfl

/-- C115. Two runs of `driver.sh` with the same flags on the same files end with the same status and leave the same directories and
the same files, other than the files of matrices. -/
theorem C115_driver (env : Env F κ) (hf : Env.Fair env) (hm : List HM → List HM) (qs : List QuadSeq → List QuadSeq)
    (h1 : ∀ l, (hm l).Perm l) (h2 : ∀ l, (qs l).Perm l) (ty n : Text) (flags : List Flag) (s : Store) :
    (driverSh { env with hmOrder := hm, qsOrder := qs } ty n flags s).2 = (driverSh env ty n flags s).2 ∧
      ∀ a b name, name ∉ ["result.mat".toList, "qhm_all.mat".toList] →
        readTop (driverSh { env with hmOrder := hm, qsOrder := qs } ty n flags s).1 a b name =
            readTop (driverSh env ty n flags s).1 a b name ∧
          ((driverSh { env with hmOrder := hm, qsOrder := qs } ty n flags s).1 a b).map FindDir.dirs =
            ((driverSh env ty n flags s).1 a b).map FindDir.dirs := by
  unfold driverSh
  by_cases c : ty = [] ∨ n = []
  · rw [if_pos c, if_pos c]
    exact ⟨rfl, fun _ _ _ _ => ⟨rfl, rfl⟩⟩
  rw [if_neg c, if_neg c]
  generalize flags.foldl (driverFlag ty n) (.default, s) = st
  obtain ⟨o, t⟩ := st
  dsimp only
  by_cases c' : hasRowsumDirs t ty n
  · rw [if_pos c', if_pos c']
    exact ⟨rfl, fun _ _ _ _ => ⟨rfl, rfl⟩⟩
  rw [if_neg c', if_neg c']
  exact Reproduce.stages_close env hm qs hf.hm hf.qs h1 h2 ty n o (mkdirFind t ty n)

-- Every permutation is allowed, for example the reversal of every hash collection.
example (env : Env F κ) (hf : Env.Fair env) (s : Store) :
    readTop (runProgram { env with hmOrder := List.reverse, qsOrder := List.reverse } s
        ["qhm-all".toList, "qts".toList, "5".toList]).1 "qts".toList "5".toList "result.seq".toList =
      readTop (runProgram env s ["qhm-all".toList, "qts".toList, "5".toList]).1 "qts".toList "5".toList "result.seq".toList :=
  (C115_read env hf _ _ List.reverse_perm List.reverse_perm s _ _ _ _ (by decide)).1

example (env : Env F κ) (s : Store) :
    runProgram { env with hmOrder := List.reverse, qsOrder := List.reverse } s ["join".toList, "qts".toList, "5".toList] =
      runProgram env s ["join".toList, "qts".toList, "5".toList] :=
  C115_same env _ _ s _ (fun l h => absurd (List.cons.inj h).1 (by decide)) (fun l h => absurd (List.cons.inj h).1 (by decide))

example (env : Env F κ) (hf : Env.Fair env) :
    readTop (driverSh { env with hmOrder := List.reverse, qsOrder := List.reverse } "qts".toList "5".toList [.d, .h] fun _ _ => none).1
        "qts".toList "5".toList "result.qhm".toList =
      readTop (driverSh env "qts".toList "5".toList [.d, .h] fun _ _ => none).1 "qts".toList "5".toList "result.qhm".toList :=
  ((C115_driver env hf _ _ List.reverse_perm List.reverse_perm _ _ _ _).2 _ _ _ (by decide)).1

-- The exception is needed: the text of two matrices in the one order and in the other.
example : Shuffled "a\n\nb\n\n".toList "b\n\na\n\n".toList ∧ "a\n\nb\n\n".toList ≠ "b\n\na\n\n".toList :=
  ⟨⟨["a\n\n".toList, "b\n\n".toList], ["b\n\n".toList, "a\n\n".toList], List.Perm.swap _ _ _,
    by
      intro b hb
      rcases List.mem_cons.1 hb with rfl | hb
      · exact ⟨"a\n".toList, by decide⟩
      · rw [List.mem_singleton.1 hb]
        exact ⟨"b\n".toList, by decide⟩, by decide, by decide⟩, by decide⟩

end Props
