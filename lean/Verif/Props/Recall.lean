import Verif.Proofs.Recall
import Verif.Props.Calls
import Verif.Props.Rerun

/-!
# Property C112: running a command again after a full disk

A run on a device that takes a part of some blocks, or refuses them, may leave files that are cut or not begun, and may end
normally all the same (C110). Running the command again, once there is room, leaves what an undisturbed run leaves.
-/

set_option linter.unusedVariables false
set_option linter.unusedSectionVars false

namespace Props
open Model Spec Proofs

variable {F κ : Type} [DecidableEq κ]

/-- C112. What a device leaves of a run is what a process killed at some write may leave. -/
theorem C112_killed (dev : Calls.Device) (env : Env F κ) (s : Store) (args : List Text) :
    Killed s (mainRun env s args).ops (Calls.run dev env s args).1 := Recall.device_killed dev env s args

/-- C112. A command run after any number of runs on any devices, each ended normally or not, leaves what it leaves when there
were no earlier runs, and ends in the same way. -/
theorem C112_attempts (env : Env F κ) (args : List Text) (devs : List Calls.Device) (s : Store) :
    runProgram env (devs.foldl (fun t dev => (Calls.run dev env t args).1) s) args = runProgram env s args := by
  induction devs generalizing s with
  | nil => rfl
  | cons dev devs ih =>
    rw [List.foldl_cons, ih]
    exact C111_killed env s _ args (C112_killed dev env s args)

/-- C112. The same when the last run, too, is made call by call, on a device that takes every block. -/
theorem C112_last (env : Env F κ) (args : List Text) (devs : List Calls.Device) (s : Store) (dev : Calls.Device)
    (hd : ∀ u len, ∃ k, dev u len = some k ∧ len ≤ k) :
    (Calls.run dev env (devs.foldl (fun t dev => (Calls.run dev env t args).1) s) args).2 = (runProgram env s args).2 ∧
      ((runProgram env s args).2 = true →
        Calls.run dev env (devs.foldl (fun t dev => (Calls.run dev env t args).1) s) args = runProgram env s args) := by
  have h := C110_complete_partial dev env (devs.foldl (fun t dev => (Calls.run dev env t args).1) s) args
    fun b _ u => hd u b.length
  rw [C112_attempts] at h
  exact h

-- A concrete case: with room for six bytes `join` ends normally with a cut file, with room for four it panics; the run after
-- both leaves the whole files.
example : (Calls.run (Calls.room 6) exRoomEnv exRoomStore ["join".toList, "qts".toList, "3".toList]).2 = true ∧
    readTop ([Calls.room 6, Calls.room 4].foldl (fun t dev => (Calls.run dev exRoomEnv t ["join".toList, "qts".toList, "3".toList]).1)
      exRoomStore) "qts".toList "3".toList "result.qseq".toList = some [] ∧
    readTop (Calls.run (fun _ len => some len) exRoomEnv ([Calls.room 6, Calls.room 4].foldl
      (fun t dev => (Calls.run dev exRoomEnv t ["join".toList, "qts".toList, "3".toList]).1) exRoomStore)
      ["join".toList, "qts".toList, "3".toList]).1 "qts".toList "3".toList "result.seq".toList = some "++Q\n".toList ∧
    (runProgram exRoomEnv exRoomStore ["join".toList, "qts".toList, "3".toList]).2 = true := by
  decide +kernel

end Props
