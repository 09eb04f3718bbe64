import Verif.Proofs.Slurm
import Verif.Props.Driver

/-!
# Property C100: the flag `-s`
-/

set_option linter.unusedVariables false

namespace Props
open Model Spec Proofs Proofs.Store Proofs.Program Proofs.Driver Proofs.Command Proofs.Stages Proofs.Scripts Proofs.Slurm

variable {F κ : Type} [DecidableEq κ]

/-- Blank characters only, as when the variable is not set. -/
def Blank (t : Text) : Prop := ∀ c ∈ t, c = ' ' ∨ c = '\t' ∨ c = '\n'

/-- Two words with one blank between them. -/
def TwoWords (t : Text) : Prop := ∃ u v, t = u ++ ' ' :: v ∧ IsWord u ∧ IsWord v

theorem words_two {t : Text} (h : TwoWords t) : ∃ u v, shellWords t = [u, v] := by
  obtain ⟨u, v, rfl, hu, hv⟩ := h
  refine ⟨u, v, ?_⟩
  unfold shellWords
  have hsep : ∀ c ∈ u, decide (c ∈ [' ', '\t', '\n']) = false := by
    intro c hc
    obtain ⟨h1, h2, h3⟩ := hu.2 c hc
    simp [h1, h2, h3]
  rw [List.splitOnP_first (p := fun c => decide (c ∈ [' ', '\t', '\n'])) (h := hsep) (hsep := by decide), List.filter_cons,
    if_pos (by simpa using hu.1)]
  exact congrArg (u :: ·) (words_self hv)

/-- C100, what does hold: where a program has been compiled and `SLURM_TMPDIR` is one word, the driver does the same with
and without `-s`; without `-s` neither matters. -/
theorem C100_same_partial (b : Batch) (env : Env F κ) (T N : Text) (flags : List Flag) (s : Store)
    (h : .s ∈ flags → IsWord b.tmpdir ∧ b.built = true) : driverBatch b env T N flags s = driverSh env T N flags s := by
  unfold driverBatch driverSh
  by_cases h0 : T = [] ∨ N = []
  · rw [if_pos h0, if_pos h0]
  · rw [if_neg h0, if_neg h0]
    have hs := slurm_iff T N flags (.default, s)
    rcases hst : flags.foldl (driverFlag T N) (.default, s) with ⟨o, s1⟩
    rw [hst] at hs
    dsimp only at hs ⊢
    split
    · rfl
    · split
      · rename_i k
        have : Flag.s ∈ flags := (hs.1 k).resolve_left (by simp [Options.default])
        exact stages_word (h this).1 (h this).2 ..
      · rfl

/-- C100. The exit status does not depend on any of this, not even on whether there is a program. -/
theorem C100_status (b : Batch) (env : Env F κ) (T N : Text) (flags : List Flag) (s : Store) :
    (driverBatch b env T N flags s).2 = (driverSh env T N flags s).2 := by
  unfold driverBatch driverSh
  by_cases h0 : T = [] ∨ N = []
  · rw [if_pos h0, if_pos h0]
  · rw [if_neg h0, if_neg h0]
    rcases hst : flags.foldl (driverFlag T N) (.default, s) with ⟨o, s1⟩
    dsimp only
    split
    · rfl
    · split
      · rw [stages_eq env T N o (mkdir_some s1 T N)]
        cases hb : b.built
        · rw [stages_unbuilt hb env T N o (mkdir_some s1 T N)]
        · rw [stages_batch hb env T N o (mkdir_some s1 T N)]
      · rfl

/-- C100 fails: if `SLURM_TMPDIR` is not set, or has a blank in it, and there is nothing on the standard input, the driver with
`-s` ends with status 0 and has found nothing: `result.seq` and the other files of the join stage are those of an earlier run, or
missing. -/
theorem C100_lost (b : Batch) (hb : b.built = true) (hi : ∀ x y, b.stdin x y = []) (ht : Blank b.tmpdir ∨ TwoWords b.tmpdir)
    (env : Env F κ) (hf : Env.Fair env) (n : ℕ) [NeZero n] (hn : n < 2 ^ 62) (ty : SeqType) (flags : List Flag)
    (hs : .s ∈ flags) (s : Store) (hr : Ready s ty.toText (natText n) flags) (w : List (Text × Dir))
    (hw : writePairs env.A n ty (flagMatching flags) (strToRowsumPairing (flagPairing flags)) = some w) :
    (driverBatch b env ty.toText (natText n) flags s).2 = 0 ∧
      ∀ x ∈ ["result.seq".toList, "result.qseq".toList, "result-qts.seq".toList, "result-qts.qseq".toList],
        readTop (driverBatch b env ty.toText (natText n) flags s).1 ty.toText (natText n) x =
          readTop s ty.toText (natText n) x := by
  have hword : ∀ w, shellWords b.tmpdir ≠ [w] := by
    intro w h
    rcases ht with ht | ht
    · rw [words_blank ht] at h; cases h
    · obtain ⟨u, v, e⟩ := words_two ht
      rw [e] at h; cases h
  constructor
  · rw [C100_status]
    refine (C80_status ..).2 ⟨?_, Txt.natText_ne n, fun e he _ => (hr.dirs e he).1⟩
    cases ty <;> decide
  intro x hx
  have key : ∀ x ∈ ["result.seq".toList, "result.qseq".toList, "result-qts.seq".toList, "result-qts.qseq".toList],
      x ≠ "result.mat".toList ∧ x ≠ "result.qhm".toList := by decide
  have hTne : ¬ (ty.toText = [] ∨ natText n = []) := by
    rintro (h | h)
    · cases ty <;> revert h <;> decide
    · exact Txt.natText_ne n h
  obtain ⟨fd, s1, o, h1, h2, h3, h4, h5, h6, h7, h8, h9, h10, h11, h12⟩ := at_join env hf hn ty flags s hr rfl hw
  have hsl := slurm_iff ty.toText (natText n) flags (.default, s)
  unfold driverBatch
  rw [if_neg hTne, h1]
  rw [h1] at hsl
  dsimp only at hsl ⊢
  rw [if_neg (by rw [h2]; simp), if_pos (hsl.2 (.inr hs)), stages_batch hb env _ _ o (mkdir_some s1 _ _), h5]
  dsimp only
  set s3 := (runProgram env (mkdirFind s1 ty.toText (natText n))
    (["pairs".toList, ty.toText, natText n, o.matchOption] ++ [flagPairing flags])).1 with hs3
  have h10' : SameDirs (subDirs s3 ty.toText (natText n)) w := h10
  have h11' : (s3 ty.toText (natText n)).isSome := h11
  have h12' : joinState env ty.toText (natText n) flags s = (sortPairsSh s3 ty.toText (natText n)).1 := h12
  have hdirs : ∀ e ∈ subDirs s3 ty.toText (natText n), Emptied e.2 := by
    intro e he f hfe hsuf
    obtain ⟨ds, k1, k2⟩ := h10'
    obtain ⟨e', he', hee⟩ := forall₂_mem_left k2 he
    have := (sortable_perm hee.2 ((pairs_names hw).2.2 e' (k1.mem_iff.1 he'))).2.2 f hfe
    rw [this] at hsuf
    cases hsuf
  have hj : joinRun env (sortPairsBatch b s3 ty.toText (natText n)).1 ty n = ⟨[], none⟩ := by
    refine joinRun_none env fun fd' hfd' => joinPairs_emptied fun e he => ?_
    have hb := batch_dirs b s3 ty.toText (natText n)
    unfold subDirs at hb
    rw [hfd', Option.map_some, Option.getD_some] at hb
    unfold listedDirs at he
    obtain ⟨e', he', rfl⟩ := List.mem_map.1 he
    have he2 := (hf.dirs fd'.dirs).mem_iff.1 he'
    rw [hb] at he2
    obtain ⟨e'', he'', rfl⟩ := List.mem_map.1 he2
    intro f hfm
    exact sortDir_emptied hword hi _ (hdirs e'' he'') f ((hf.files _).mem_iff.1 hfm)
  rw [tail_read env (by omega) ty (batch_keep b _ _ h11') hj _ x (key x hx).1 (key x hx).2, batch_read]
  have := h9.read x
  rw [h12', sort_read, lookup_nil, Option.none_or] at this
  exact this

/-- The hypotheses are met: length 5 in exact arithmetic, where the driver without `-s` finds sequences. -/
example : ∃ (κ : Type) (_ : DecidableEq κ) (env : Env ℝ κ) (s : Store) (w : List (Text × Dir)), Env.Fair env ∧
    Ready s "qts".toList (natText 5) [.s] ∧ Blank [] ∧ TwoWords "/scratch/my files".toList ∧
    writePairs env.A 5 .quaternionType (flagMatching [.s]) (strToRowsumPairing (flagPairing [.s])) = some w ∧ w ≠ [] := by
  obtain ⟨κ, canon, hc⟩ := exact_exists
  obtain ⟨w, h1, _, h2⟩ := C32_enumeration exactFl id 5 (by norm_num) (C28_numerics 5 (flagMatching [.s]))
    .quaternionType (.inl rfl) (strToRowsumPairing (flagPairing [.s]))
  exact ⟨κ, Classical.decEq κ, ⟨exactFl, canon, id, id, id, id, false⟩, fun _ _ => none, w,
    ⟨fun _ => .refl _, fun _ => .refl _, fun _ => .refl _, fun _ => .refl _⟩,
    ⟨fun e he => absurd he (List.not_mem_nil), by unfold IsWord; decide⟩, fun c hc => absurd hc (List.not_mem_nil),
    ⟨"/scratch/my".toList, "files".toList, rfl, by unfold IsWord; decide, by unfold IsWord; decide⟩, h1,
    pairs_ne_nil (.inl rfl) fun dirs hd => h2 dirs hd ⟨exQTS5, exQTS5_isQTS⟩⟩

/-- C100 fails: with `SLURM_TMPDIR` not set, `sortpairs.sh -s` deletes every pair file and leaves empty files in their place. The
work of the pair stage cannot be recovered. -/
theorem C100_deleted (b : Batch) (hi : ∀ x y, b.stdin x y = []) (ht : Blank b.tmpdir) (s : Store) (T N : Text)
    (hd : ∀ e ∈ subDirs s T N, (∃ f ∈ e.2, ".pair".toList <:+ f.1) ∧ ∀ f ∈ e.2, ¬ ".sorted".toList <:+ f.1) :
    ∀ e ∈ subDirs (sortPairsBatch b s T N).1 T N, ∀ f ∈ e.2,
      ¬ ".pair".toList <:+ f.1 ∧ (".sorted".toList <:+ f.1 → f.2 = []) := by
  intro e he f hf
  rw [batch_dirs] at he
  obtain ⟨e, he1, rfl⟩ := List.mem_map.1 he
  obtain ⟨⟨g, hg, hp⟩, hs⟩ := hd e he1
  have hwd : shellWords b.tmpdir = [] := words_blank ht
  constructor
  · intro h
    have := sortDir_gone hwd e.1 ⟨g, hg, suffix_iff.2 hp⟩ f hf
    rw [Bool.eq_false_iff] at this
    exact this (suffix_iff.2 h)
  · intro h
    refine sortDir_emptied (fun w h => by rw [hwd] at h; cases h) hi e.1 (fun f hf h => ?_) f hf (suffix_iff.2 h)
    exact absurd (suffix_iff.1 h) (hs f hf)

/-- C100. If `SLURM_TMPDIR` has a blank in it, every call of `sort` fails and nothing is deleted; after the variable has been
corrected, `sortpairs.sh` repairs everything. -/
theorem C100_repair (b : Batch) (ht : TwoWords b.tmpdir) (s : Store) (T N : Text)
    (hd : ∀ e ∈ subDirs s T N, (e.2.map Prod.fst).Nodup ∧ (∃ f ∈ e.2, ".pair".toList <:+ f.1) ∧
      ∀ f ∈ e.2, ¬ ".sorted".toList <:+ f.1) (b' : Batch) (hb' : IsWord b'.tmpdir) :
    sortPairsBatch b' (sortPairsBatch b s T N).1 T N = sortPairsSh s T N := by
  obtain ⟨u, v, hw⟩ := words_two ht
  rw [sortPairs_word hb']
  have hd' : ∀ e ∈ subDirs s T N, sortDirSh (sortDirBatch b e.1 e.2) = sortDirSh e.2 := by
    intro e he
    obtain ⟨h1, ⟨g, hg, hp⟩, h3⟩ := hd e he
    refine sortDir_again hw e.1 ⟨h1, ⟨g, hg, suffix_iff.2 hp⟩, fun f hf => ?_⟩
    rw [Bool.eq_false_iff]
    exact fun h => h3 f hf (suffix_iff.1 h)
  unfold sortPairsSh sortPairsBatch teeStatus
  dsimp only
  refine Prod.ext ?_ ?_
  · funext x y
    dsimp only
    split
    · rename_i hxy
      cases hxy
      unfold subDirs at hd'
      cases hsx : s T N with
      | none => rfl
      | some fd =>
        rw [hsx, Option.map_some, Option.getD_some] at hd'
        simp only [Option.map_some, List.map_map, Option.some.injEq]
        congr 1
        refine List.map_congr_left fun e he => ?_
        rw [Function.comp_apply, hd' e he]
    · rfl
  · dsimp only
    rw [if_pos rfl, Option.isSome_map]

example : (∀ e ∈ [("rowsum_1_1_1_1".toList, [("pair_WZ.pair".toList, "1_:_0_0\n".toList)])],
    (e.2.map Prod.fst).Nodup ∧ (∃ f ∈ e.2, ".pair".toList <:+ f.1) ∧ ∀ f ∈ e.2, ¬ ".sorted".toList <:+ f.1) := by decide

/-- C100 fails: with `-s` and no program, the driver reports the error, goes on, and ends with status 0; the files are those of
before. -/
theorem C100_unbuilt (b : Batch) (hb : b.built = false) (env : Env F κ) (T N : Text) (hT : T ≠ []) (hN : N ≠ []) (flags : List Flag)
    (hs : .s ∈ flags) (s : Store) (hr : Ready s T N flags) :
    (driverBatch b env T N flags s).2 = 0 ∧ subDirs (driverBatch b env T N flags s).1 T N = [] ∧
      ∀ x, readTop (driverBatch b env T N flags s).1 T N x = readTop s T N x := by
  refine ⟨by rw [C100_status]; exact (C80_status ..).2 ⟨hT, hN, fun e he _ => (hr.dirs e he).1⟩, ?_⟩
  unfold driverBatch
  rw [if_neg (by rintro (h | h); exacts [hT h, hN h])]
  have hsl := slurm_iff T N flags (.default, s)
  have e1 := flags_effect T N flags (.default, s)
  have e2 := hasRowsum_flags T N flags (.default, s)
  have e0 := flags_dirs T N flags (.default, s)
  rcases hst : flags.foldl (driverFlag T N) (.default, s) with ⟨o, s1⟩
  rw [hst] at e1 e2 e0 hsl
  dsimp only at e1 e2 e0 hsl ⊢
  have hno : ¬ hasRowsumDirs s1 T N = true := by
    rw [e2]
    rintro ⟨e, he, _, h2⟩
    exact h2 (hr.dirs e he).1
  rw [if_neg hno, if_pos (hsl.2 (.inr hs)), stages_unbuilt hb env T N o (mkdir_some s1 T N)]
  refine ⟨?_, fun x => ?_⟩
  · rw [batch_dirs, mkdir_dirs, e0]
    split
    · rw [List.map_eq_nil_iff, List.filter_eq_nil_iff]
      intro e he
      simp only [Bool.not_eq_true', Bool.not_eq_false]
      exact List.isPrefixOf_iff_prefix.2 (hr.dirs e he).2
    · rename_i hnd
      rw [List.map_eq_nil_iff]
      exact List.eq_nil_iff_forall_not_mem.2 fun e he => hnd (hr.dirs e he).1
  · have e3 := (mkdir_effect s1 T N).read x
    have e4 := e1.read x
    rw [lookup_nil, Option.none_or] at e3 e4
    rw [batch_read, e3, e4]

end Props
