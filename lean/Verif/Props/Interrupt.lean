import Verif.Proofs.Interrupt
import Verif.Props.Rerun

/-!
# Property C113: running the driver again after it was killed

`driver.sh` with the flag `-d` is killed in any stage, at any write of the command in progress, any number of times. Run again
with the same flags, it leaves what it leaves when it was never killed.
-/

set_option linter.unusedVariables false
set_option linter.unusedSectionVars false

namespace Props
open Model Spec Proofs

variable {F κ : Type} [DecidableEq κ]

/-- C113. A run of `driver.sh` with the flag `-d` after any number of runs with the same flags that were killed in some stage, at
any write and with any texts in the files begun, leaves what it leaves without those runs, and ends with the same status; for
every type and length, as long as the directory of the length held only directories of row sums. -/
theorem C113_driver (env : Env F κ) (ty : SeqType) (n : ℕ) (hn : n < 2 ^ 64) (flags : List Flag) (hd : Flag.d ∈ flags) (s t : Store)
    (hs : ∀ d, s ty.toText (natText n) = some d → ∀ e ∈ d.dirs, "rowsum_".toList <+: e.1)
    (h : Relation.ReflTransGen (Attempt env ty.toText (natText n) flags) s t) :
    driverSh env ty.toText (natText n) flags t = driverSh env ty.toText (natText n) flags s := by
  have hs' : ∀ d, s ty.toText (natText n) = some d → Redrive.Rows d.dirs := fun d h e he =>
    List.isPrefixOf_iff_prefix.2 (hs d h e he)
  have : driverSh env ty.toText (natText n) flags t = driverSh env ty.toText (natText n) flags s ∧
      ∀ d, t ty.toText (natText n) = some d → Redrive.Rows d.dirs := by
    induction h with
    | refl => exact ⟨rfl, hs'⟩
    | tail _ h ih =>
      obtain ⟨h1, h2⟩ := Interrupt.attempt env ty hn flags hd ih.2 h
      exact ⟨h1.trans ih.1, h2⟩
  exact this.1

-- A concrete attempt, from a store without results: the run is killed after the first directory is made.
example (env : Env F κ) (s : Store) (hs : s "qts".toList "1".toList = none) :
    ∃ t, Attempt env "qts".toList "1".toList [.d] s t ∧
      t "qts".toList "1".toList = some ⟨[], [("rowsum_1_1_1_1".toList, [])]⟩ := by
  have hm : mkdirFind (cleanupSh s "qts".toList "1".toList) "qts".toList "1".toList "qts".toList "1".toList = some ⟨[], []⟩ := by
    unfold mkdirFind cleanupSh
    rw [if_pos rfl, if_pos rfl, hs]
    rfl
  have hops : ∃ post, (mainRun env (mkdirFind (cleanupSh s "qts".toList "1".toList) "qts".toList "1".toList)
      (["pairs".toList, "qts".toList, "1".toList, "psd".toList] ++ shellWords "WZ".toList)).ops =
        [.mkdir "qts".toList "1".toList "rowsum_1_1_1_1".toList] ++ post := by
    have hw : ["pairs".toList, "qts".toList, "1".toList, "psd".toList] ++ shellWords "WZ".toList =
        ["pairs".toList, "qts".toList, "1".toList, "psd".toList, "WZ".toList] := by decide +kernel
    rw [hw, Command.main_pairs env _ (show strToSeqtype "qts".toList = some .quaternionType by decide)
      (show parseUsize "1".toList = some 1 by decide +kernel) (show strToMatchOption "psd".toList = some .psd by decide)]
    have hg : generateRowsums 1 .quaternionType = some [(1, 1, 1, 1)] := by decide +kernel
    have first : ∀ {α β : Type} {r : Run α} {f : α → Run β} {w : Write}, (∃ post, r.ops = [w] ++ post) →
        ∃ post, (r >>= f).ops = [w] ++ post := by
      rintro α β ⟨ops, res⟩ f w ⟨post, rfl⟩
      cases res with
      | none => exact ⟨post, rfl⟩
      | some a => exact ⟨post ++ (f a).ops, rfl⟩
    unfold writePairsRun
    rw [hg]
    refine first ?_
    change ∃ post, (Run.sum _ [(1, 1, 1, 1)]).ops = _
    rw [Run.sum]
    refine first (first ⟨[], ?_⟩)
    have h1 : natText 1 = "1".toList := by decide
    have h2 : rowsumDirName (1, 1, 1, 1) = "rowsum_1_1_1_1".toList := by decide +kernel
    rw [h1, h2]
    rfl
  obtain ⟨post, hpost⟩ := hops
  refine ⟨applyOps (mkdirFind (cleanupSh s "qts".toList "1".toList) "qts".toList "1".toList)
    [.mkdir "qts".toList "1".toList "rowsum_1_1_1_1".toList], .pairs ⟨_, _, post, hpost, Rerun.same_refl _, rfl⟩, ?_⟩
  rw [Rerun.applyOps_path (ty := "qts".toList) (n := "1".toList) _ _ (by simp [Write.path])]
  dsimp only
  rw [if_pos rfl, hm]
  rfl

-- Attempts killed late exist from every store: all the commands but the last have ended.
example (env : Env F κ) (ty n : Text) (flags : List Flag) (s : Store) : ∃ t, Attempt env ty n flags s t :=
  ⟨_, .qhm rfl rfl rfl rfl ⟨[], [], _, rfl, .nil, rfl⟩⟩

end Props
