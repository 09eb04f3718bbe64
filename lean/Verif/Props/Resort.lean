import Verif.Proofs.Resort
import Verif.Props.Driver

/-!
# Property C114: running the sorting script again after it was killed

The stages can be run one by one (`pairs.sh`, `sortpairs.sh`, `join_pairs.sh`). If `sortpairs.sh` is killed and run again, the
directory it was working on and those not begun end as they should. Every directory it had finished gets a further file, with
which `join` panics. So the script can be run again only if no directory was finished.
-/

set_option linter.unusedVariables false
set_option linter.unusedSectionVars false

namespace Props
open Model Spec Proofs Proofs.Scripts

variable {F κ : Type} [DecidableEq κ]

/-- C114, what holds: if no directory was finished when `sortpairs.sh` was killed, running it again leaves what an undisturbed run
leaves. (Missing: finished directories, for which the claim fails.) -/
theorem C114_again_partial (ty n : Text) (s t : Store)
    (hs : ∀ d, s ty n = some d → ∀ e ∈ d.dirs, ((pairFiles e.2).map Prod.fst).Nodup) (h : SortKilled ty n [] s t) :
    sortPairsSh t ty n = sortPairsSh s ty n := by
  obtain ⟨ho, files, name, d, rest, x, h1, h2, h3⟩ := h
  have hd := Resort.part_again (hs _ h1 (name, d) (by simp)) h2
  unfold sortPairsSh teeStatus
  rw [h1, h3]
  refine Prod.ext ?_ rfl
  funext a b
  dsimp only
  by_cases hab : (a, b) = (ty, n)
  · rw [if_pos hab, if_pos hab]
    obtain ⟨rfl, rfl⟩ := Prod.mk.inj hab
    rw [h1, h3]
    simp [hd]
  · rw [if_neg hab, if_neg hab, ho a b hab]

/-- C114, what holds in general: run again, the script leaves the directories that were not finished as an undisturbed run does, and
adds an empty file to each directory that was finished. -/
theorem C114_dirs_partial (ty n : Text) (s t : Store) (finished : List (Text × Dir))
    (hs : ∀ d, s ty n = some d → ∀ e ∈ d.dirs, ((pairFiles e.2).map Prod.fst).Nodup) (hf : ∀ e ∈ finished, pairFiles e.2 ≠ [])
    (h : SortKilled ty n finished s t) :
    ∃ later, subDirs (sortPairsSh s ty n).1 ty n = finished.map (fun e => (e.1, sortDirSh e.2)) ++ later ∧
      subDirs (sortPairsSh t ty n).1 ty n =
        finished.map (fun e => (e.1, putFile (sortDirSh e.2) "*.pair.sorted".toList [])) ++ later := by
  obtain ⟨ho, files, name, d, rest, x, h1, h2, h3⟩ := h
  have hd := Resort.part_again (hs _ h1 (name, d) (by simp)) h2
  refine ⟨((name, d) :: rest).map fun e => (e.1, sortDirSh e.2), ?_, ?_⟩
  · rw [sort_dirs]
    unfold subDirs
    rw [h1, Option.map_some, Option.getD_some, List.map_append]
  · rw [sort_dirs]
    unfold subDirs
    rw [h3, Option.map_some, Option.getD_some, List.map_append, List.map_map, List.map_cons, List.map_cons, hd]
    congr 1
    refine List.map_congr_left fun e he => ?_
    refine Prod.ext rfl ?_
    change sortDirSh ((pairFiles e.2).foldl sortedOne e.2) = _
    have : (pairFiles e.2).foldl sortedOne e.2 = sortDirSh e.2 := by rw [Resort.sort_eq, if_neg (hf e he)]
    rw [this, sort_twice]
    rfl

/-- C114 fails: if a directory was finished when `sortpairs.sh` was killed, `join` panics after the script is run again, and writes
nothing. -/
theorem C114_again_violated (env : Env F κ) (he : Env.Fair env) (ty : SeqType) (n : ℕ) (s t : Store) (finished : List (Text × Dir))
    (hne : finished ≠ []) (hs : ∀ d, s ty.toText (natText n) = some d → ∀ e ∈ d.dirs, ((pairFiles e.2).map Prod.fst).Nodup)
    (hf : ∀ e ∈ finished, pairFiles e.2 ≠ []) (h : SortKilled ty.toText (natText n) finished s t) :
    joinRun env (sortPairsSh t ty.toText (natText n)).1 ty n = ⟨[], none⟩ := by
  obtain ⟨later, _, h2⟩ := C114_dirs_partial _ _ s t finished hs hf h
  obtain ⟨e, hm⟩ := List.exists_mem_of_ne_nil _ hne
  refine join_hasName env he (dir := e.1) ⟨(e.1, putFile (sortDirSh e.2) "*.pair.sorted".toList []), ?_, rfl, ?_⟩
  · rw [h2]
    exact List.mem_append_left _ (List.mem_map.2 ⟨e, hm, rfl⟩)
  · exact (putFile_names _ _ _ _).2 (.inl rfl)

-- The hypotheses are met: two directories, killed in the first, or in the second after one of its two files.
example (s : Store) (hs : s "qts".toList "3".toList = some ⟨[], [("rowsum_a".toList, [("x.pair".toList, "b\na\n".toList)]),
      ("rowsum_b".toList, [("y.pair".toList, "d\nc\n".toList), ("z.pair".toList, [])])]⟩) :
    (∃ t, SortKilled "qts".toList "3".toList [] s t ∧ t "qts".toList "3".toList = some ⟨[],
      [("rowsum_a".toList, [("x.pair".toList, "b\na\n".toList), ("x.pair.sorted".toList, "a".toList)]),
      ("rowsum_b".toList, [("y.pair".toList, "d\nc\n".toList), ("z.pair".toList, [])])]⟩) ∧
    (∃ t, SortKilled "qts".toList "3".toList [("rowsum_a".toList, [("x.pair".toList, "b\na\n".toList)])] s t) ∧
    ∀ d, s "qts".toList "3".toList = some d → ∀ e ∈ d.dirs, ((pairFiles e.2).map Prod.fst).Nodup := by
  refine ⟨⟨fun a b => if (a, b) = ("qts".toList, "3".toList) then some ⟨[],
      [("rowsum_a".toList, [("x.pair".toList, "b\na\n".toList), ("x.pair.sorted".toList, "a".toList)]),
      ("rowsum_b".toList, [("y.pair".toList, "d\nc\n".toList), ("z.pair".toList, [])])]⟩ else s a b,
      ⟨fun a b hab => if_neg hab, _, _, _, _, _, hs,
        ⟨[], ("x.pair".toList, "b\na\n".toList), [], by decide +kernel, .inr ⟨"a".toList, rfl⟩⟩, ?_⟩, if_pos rfl⟩,
    ⟨fun a b => if (a, b) = ("qts".toList, "3".toList) then some ⟨[],
      [("rowsum_a".toList, [("x.pair".toList, "b\na\n".toList)])].map (fun e => (e.1, (pairFiles e.2).foldl sortedOne e.2)) ++
      [("rowsum_b".toList, [("y.pair".toList, "d\nc\n".toList)].foldl sortedOne
        [("y.pair".toList, "d\nc\n".toList), ("z.pair".toList, [])])]⟩ else s a b,
      ⟨fun a b hab => if_neg hab, _, _, _, _, _, hs,
        ⟨[("y.pair".toList, "d\nc\n".toList)], ("z.pair".toList, []), [], by decide +kernel, .inl rfl⟩, if_pos rfl⟩⟩, ?_⟩
  · dsimp only
    rw [if_pos rfl]
    rfl
  · intro d hd
    rw [hs] at hd
    cases hd
    decide +kernel

end Props
