import Verif.Proofs.Scripts
import Verif.Model.Slurm

/-!
# Helper lemmas: the flag `-s`
-/

set_option linter.unusedSectionVars false
set_option linter.unusedVariables false

namespace Proofs.Slurm
open Model Spec Proofs Proofs.Store Proofs.Program Proofs.Driver Proofs.Command Proofs.Stages Proofs.Scripts

variable {F κ : Type} [DecidableEq κ]

/-! ## Equality with the model without the flag -/

theorem sortFile_word {b : Batch} (h : IsWord b.tmpdir) (dir : Text) : sortFileBatch b dir = sortStep := by
  funext d f
  unfold sortFileBatch sortCommand sortStep
  rw [words_self h]

theorem sortDir_word {b : Batch} (h : IsWord b.tmpdir) (dir : Text) (d : Dir) : sortDirBatch b dir d = sortDirSh d := by
  unfold sortDirBatch sortDirSh
  rw [sortFile_word h, words_self h]
  rfl

theorem sortPairs_word {b : Batch} (h : IsWord b.tmpdir) (s : Store) (T N : Text) :
    sortPairsBatch b s T N = sortPairsSh s T N := by
  unfold sortPairsBatch sortPairsSh
  simp only [sortDir_word h]

theorem piped_built {b : Batch} (h : b.built = true) (env : Env F κ) (s : Store) (T N : Text) (args : List Text) :
    pipedBatch b env s T N args = piped env s T N args := by
  unfold pipedBatch
  rw [if_pos h]

theorem stages_word {b : Batch} (h : IsWord b.tmpdir) (hb : b.built = true) (env : Env F κ) (T N : Text) (o : Options)
    (s : Store) : driverStagesBatch b env T N o s = driverStages env T N o s := by
  unfold driverStagesBatch driverStages
  simp only [piped_built hb, sortPairs_word h]

theorem slurm_iff (T N : Text) (flags : List Flag) : ∀ st : Options × Store,
    ((flags.foldl (driverFlag T N) st).1.slurm = true ↔ st.1.slurm = true ∨ .s ∈ flags) := by
  induction flags with
  | nil => intro st; simp
  | cons f l ih =>
    intro st
    rw [List.foldl_cons, ih]
    cases f <;> simp [driverFlag]

/-! ## The sort stage -/

theorem batch_keep {s : Store} (b : Batch) (T N : Text) {x y : Text} (h : (s x y).isSome) :
    ((sortPairsBatch b s T N).1 x y).isSome := by
  unfold sortPairsBatch
  dsimp only
  split
  · rw [Option.isSome_map]; exact h
  · exact h

theorem batch_read (b : Batch) (s : Store) (T N x y z : Text) :
    readTop (sortPairsBatch b s T N).1 x y z = readTop s x y z := by
  unfold readTop sortPairsBatch
  dsimp only
  split
  · cases s x y <;> rfl
  · rfl

theorem batch_dirs (b : Batch) (s : Store) (T N : Text) :
    subDirs (sortPairsBatch b s T N).1 T N = (subDirs s T N).map fun e => (e.1, sortDirBatch b e.1 e.2) := by
  unfold subDirs sortPairsBatch
  dsimp only
  rw [if_pos rfl]
  cases s T N <;> rfl

/-- Every sorted file is empty. -/
def Emptied (d : Dir) : Prop := ∀ f ∈ d, sortedSuffix.isSuffixOf f.1 = true → f.2 = []

theorem putFile_emptied {d : Dir} (h : Emptied d) (name : Text) : Emptied (putFile d name []) := by
  intro f hf hs
  unfold putFile at hf
  split at hf
  · obtain ⟨g, hg, rfl⟩ := List.mem_map.1 hf
    split at hs
    · rename_i e; rw [if_pos e]
    · rename_i e; rw [if_neg e]; exact h g hg hs
  · rw [List.mem_append, List.mem_singleton] at hf
    rcases hf with hf | rfl
    · exact h f hf hs
    · rfl

theorem sortText_nil : sortText [] = [] := by
  unfold sortText
  have : readLines [] = [] := by decide
  rw [this, List.mergeSort_nil]
  rfl

theorem sortFile_emptied {b : Batch} (hw : ∀ w, shellWords b.tmpdir ≠ [w]) (hi : ∀ x y, b.stdin x y = []) (dir : Text) {d : Dir}
    (h : Emptied d) (f : Text × Text) : Emptied (sortFileBatch b dir d f) := by
  unfold sortFileBatch sortCommand
  match hs : shellWords b.tmpdir with
  | [] =>
    dsimp only
    rw [hi, sortText_nil]
    exact fun g hg => putFile_emptied h _ g (List.mem_of_mem_filter hg)
  | [w] => exact absurd hs (hw w)
  | _ :: _ :: _ => exact putFile_emptied h _

theorem sortFiles_emptied {b : Batch} (hw : ∀ w, shellWords b.tmpdir ≠ [w]) (hi : ∀ x y, b.stdin x y = []) (dir : Text)
    (ps : List (Text × Text)) : ∀ {d : Dir}, Emptied d → Emptied (ps.foldl (sortFileBatch b dir) d) := by
  induction ps with
  | nil => exact fun h => h
  | cons f ps ih => exact fun h => ih (sortFile_emptied hw hi dir h f)

theorem sortDir_emptied {b : Batch} (hw : ∀ w, shellWords b.tmpdir ≠ [w]) (hi : ∀ x y, b.stdin x y = []) (dir : Text) {d : Dir}
    (h : Emptied d) : Emptied (sortDirBatch b dir d) := by
  unfold sortDirBatch
  dsimp only
  split
  · have : (if shellWords b.tmpdir = [] then sortText (b.stdin dir ("*".toList ++ pairSuffix)) else []) = [] := by
      rw [hi, sortText_nil, ite_self]
    rw [this]
    exact putFile_emptied h _
  · exact sortFiles_emptied hw hi dir _ h

/-- With `SLURM_TMPDIR` empty, no `*.pair` file is left. -/
theorem sortFiles_gone {b : Batch} (hw : shellWords b.tmpdir = []) (dir : Text) (ps : List (Text × Text)) : ∀ (d : Dir),
    ∀ g ∈ ps.foldl (sortFileBatch b dir) d, pairSuffix.isSuffixOf g.1 = true → g.1 ∈ d.map Prod.fst ∧ g.1 ∉ ps.map Prod.fst := by
  induction ps with
  | nil => exact fun d g hg _ => ⟨List.mem_map_of_mem hg, by simp⟩
  | cons f ps ih =>
    intro d g hg hp
    rw [List.foldl_cons] at hg
    obtain ⟨h1, h2⟩ := ih _ g hg hp
    have e : sortFileBatch b dir d f =
        (putFile d (f.1 ++ sortedSuffix) (sortText (b.stdin dir f.1))).filter fun g => g.1 ≠ f.1 := by
      unfold sortFileBatch sortCommand
      rw [hw]
    rw [e] at h1
    obtain ⟨k, hk, hkg⟩ := List.mem_map.1 h1
    rw [List.mem_filter] at hk
    have hne : g.1 ≠ f.1 := by
      have := hk.2
      rw [hkg] at this
      simpa using this
    have hn : g.1 ∈ (putFile d (f.1 ++ sortedSuffix) (sortText (b.stdin dir f.1))).map Prod.fst :=
      hkg ▸ List.mem_map_of_mem hk.1
    rw [Scripts.putFile_names] at hn
    refine ⟨hn.resolve_left fun e => ?_, by rw [List.map_cons, List.mem_cons, not_or]; exact ⟨hne, h2⟩⟩
    rw [e, pair_ne_sorted] at hp
    cases hp

theorem sortDir_gone {b : Batch} (hw : shellWords b.tmpdir = []) (dir : Text) {d : Dir}
    (hd : ∃ f ∈ d, pairSuffix.isSuffixOf f.1 = true) :
    ∀ g ∈ sortDirBatch b dir d, pairSuffix.isSuffixOf g.1 = false := by
  intro g hg
  unfold sortDirBatch at hg
  dsimp only at hg
  obtain ⟨f, hf, hp⟩ := hd
  rw [if_neg (List.ne_nil_of_mem (List.mem_filter.2 ⟨hf, hp⟩))] at hg
  rw [Bool.eq_false_iff]
  intro hgp
  obtain ⟨h1, h2⟩ := sortFiles_gone hw dir _ _ g hg hgp
  obtain ⟨k, hk, hkg⟩ := List.mem_map.1 h1
  exact h2 (hkg ▸ List.mem_map_of_mem (List.mem_filter.2 ⟨hk, by rw [hkg]; exact hgp⟩))

/-! ## Sorting again after a failure -/

/-- The files left by the failed commands. -/
def stubs (ps : List (Text × Text)) : Dir := ps.map fun f => (f.1 ++ sortedSuffix, [])

theorem failed_fold {b : Batch} {w1 w2 : Text} {ws : List Text} (hw : shellWords b.tmpdir = w1 :: w2 :: ws) (dir : Text)
    (ps : List (Text × Text)) : ∀ d : Dir, (ps.map Prod.fst).Nodup → (∀ f ∈ ps, f.1 ++ sortedSuffix ∉ d.map Prod.fst) →
    ps.foldl (sortFileBatch b dir) d = d ++ stubs ps := by
  induction ps with
  | nil => intro d _ _; simp [stubs]
  | cons f ps ih =>
    intro d hn hs
    rw [List.map_cons, List.nodup_cons] at hn
    have e : sortFileBatch b dir d f = d ++ [(f.1 ++ sortedSuffix, [])] := by
      unfold sortFileBatch sortCommand putFile
      rw [hw]
      exact if_neg (hs f List.mem_cons_self)
    rw [List.foldl_cons, e, ih _ hn.2]
    · simp [stubs]
    · intro g hg hm
      rw [List.map_append, List.mem_append] at hm
      rcases hm with hm | hm
      · exact hs g (List.mem_cons_of_mem _ hg) hm
      · simp only [List.map_cons, List.map_nil, List.mem_singleton, List.append_cancel_right_eq] at hm
        exact hn.1 (hm ▸ List.mem_map_of_mem hg)

theorem again_fold (ps : List (Text × Text)) : ∀ X : Dir, (ps.map Prod.fst).Nodup →
    (∀ f ∈ ps, pairSuffix.isSuffixOf f.1 = true) → (∀ f ∈ ps, f.1 ++ sortedSuffix ∉ X.map Prod.fst) →
    ps.foldl sortStep (X ++ stubs ps) = ps.foldl sortStep X := by
  induction ps with
  | nil => intro X _ _ _; simp [stubs]
  | cons f ps ih =>
    intro X hn hp hs
    rw [List.map_cons, List.nodup_cons] at hn
    have hf := hs f List.mem_cons_self
    have e1 : sortStep X f = (X.filter fun g => g.1 ≠ f.1) ++ [(f.1 ++ sortedSuffix, sortText f.2)] := by
      unfold sortStep putFile
      rw [if_neg hf, List.filter_append]
      congr 1
      simp [sortedSuffix]
    have e2 : sortStep (X ++ stubs (f :: ps)) f = sortStep X f ++ stubs ps := by
      rw [e1]
      unfold sortStep putFile
      rw [if_pos (by simp [stubs]), List.map_append, List.filter_append, List.append_assoc]
      congr 1
      · congr 1
        refine (List.map_congr_left fun g hg => ?_).trans (List.map_id _)
        rw [if_neg]
        · rfl
        · intro (e : g.1 = _)
          exact hf (e ▸ List.mem_map_of_mem hg)
      · have e3 : (stubs (f :: ps)).map (fun g => if g.1 = f.1 ++ sortedSuffix then (f.1 ++ sortedSuffix, sortText f.2) else g) =
            (f.1 ++ sortedSuffix, sortText f.2) :: stubs ps := by
          unfold stubs
          rw [List.map_cons, List.map_cons, if_pos rfl, List.map_map]
          congr 1
          refine List.map_congr_left fun g hg => ?_
          rw [Function.comp_apply, if_neg]
          intro e
          rw [List.append_cancel_right_eq] at e
          exact hn.1 (e ▸ List.mem_map_of_mem hg)
        rw [e3, List.filter_eq_self.2]
        · rfl
        · intro g hg
          rw [decide_eq_true_eq]
          intro e
          have hpf := hp f List.mem_cons_self
          rw [← e] at hpf
          rcases List.mem_cons.1 hg with rfl | hg
          · rw [pair_ne_sorted] at hpf; cases hpf
          · obtain ⟨k, _, rfl⟩ := List.mem_map.1 hg
            rw [pair_ne_sorted] at hpf; cases hpf
    rw [List.foldl_cons, List.foldl_cons, e2, ih _ hn.2 fun g hg => hp g (List.mem_cons_of_mem _ hg)]
    intro g hg hm
    rw [e1, List.map_append, List.mem_append] at hm
    rcases hm with hm | hm
    · obtain ⟨k, hk, e⟩ := List.mem_map.1 hm
      exact hs g (List.mem_cons_of_mem _ hg) (e ▸ List.mem_map_of_mem (List.mem_of_mem_filter hk))
    · simp only [List.map_cons, List.map_nil, List.mem_singleton, List.append_cancel_right_eq] at hm
      exact hn.1 (hm ▸ List.mem_map_of_mem hg)

theorem sortDir_again {b : Batch} {w1 w2 : Text} {ws : List Text} (hw : shellWords b.tmpdir = w1 :: w2 :: ws) (dir : Text) {d : Dir}
    (h : Sortable d) : sortDirSh (sortDirBatch b dir d) = sortDirSh d := by
  obtain ⟨hn, ⟨f0, hf0, hp0⟩, hs⟩ := h
  set ps := d.filter fun f => pairSuffix.isSuffixOf f.1 with hps
  have hne : ps ≠ [] := List.ne_nil_of_mem (List.mem_filter.2 ⟨hf0, hp0⟩)
  have hnp : (ps.map Prod.fst).Nodup := hn.sublist (List.filter_sublist.map _)
  have hsp : ∀ f ∈ ps, f.1 ++ sortedSuffix ∉ d.map Prod.fst := by
    intro f _ hmem
    obtain ⟨g, hg, e⟩ := List.mem_map.1 hmem
    have := hs g hg
    rw [e, Bool.eq_false_iff, Ne, suffix_iff] at this
    exact this (List.suffix_append _ _)
  have e1 : sortDirBatch b dir d = d ++ stubs ps := by
    unfold sortDirBatch
    dsimp only
    rw [if_neg hne, failed_fold hw dir ps d hnp hsp]
  have e2 : ((d ++ stubs ps).filter fun f => pairSuffix.isSuffixOf f.1) = ps := by
    rw [List.filter_append, ← hps]
    have : (stubs ps).filter (fun f => pairSuffix.isSuffixOf f.1) = [] := by
      rw [List.filter_eq_nil_iff]
      intro g hg
      obtain ⟨k, _, rfl⟩ := List.mem_map.1 hg
      rw [pair_ne_sorted]; simp
    rw [this, List.append_nil]
  rw [e1]
  unfold sortDirSh
  dsimp only
  rw [e2, ← hps, if_neg hne, if_neg hne]
  exact again_fold ps d hnp (fun f hf => (List.mem_filter.1 hf).2) hsp

/-! ## The join stage with empty files -/

theorem suffix_of_pair {x : Text} (h : (pairSuffix ++ sortedSuffix).isSuffixOf x = true) : sortedSuffix.isSuffixOf x = true := by
  rw [suffix_iff] at h ⊢
  exact (List.suffix_append _ _).trans h

theorem joinDir_emptied {ty : SeqType} {d : Dir} (h : Emptied d) : joinDir ty d = none ∨ joinDir ty d = some [] := by
  unfold joinDir
  cases getSequencesFromDir d with
  | none => exact .inl rfl
  | some tab =>
    rw [Option.bind_some]
    unfold getOrderFromDir
    have hall : ∀ f ∈ d.filter (fun f => (pairSuffix ++ sortedSuffix).isSuffixOf f.1), f.2 = [] := fun f hm =>
      h f (List.mem_filter.1 hm).1 (suffix_of_pair (List.mem_filter.1 hm).2)
    generalize d.filter (fun f => (pairSuffix ++ sortedSuffix).isSuffixOf f.1) = l at hall
    match l, hall with
    | [], _ => exact .inl rfl
    | [_], _ => exact .inl rfl
    | _ :: _ :: _ :: _, _ => exact .inl rfl
    | [f1, f2], hm =>
      have h1 := hm f1 (by simp)
      have h2 := hm f2 (by simp)
      dsimp only
      cases getTagFromFilename f1.1 with
      | none => exact .inl rfl
      | some t12 =>
        rw [Option.bind_some]
        cases getTagFromFilename f2.1 with
        | none => exact .inl rfl
        | some t34 =>
          right
          rw [Option.map_some, Option.bind_some]
          unfold joinPairsFiles
          rw [h1, h2]
          have : readLines [] = [] := by decide
          rw [this]
          rfl

theorem joinPairs_emptied {ty : SeqType} {dirs : List (Text × Dir)} (h : ∀ e ∈ dirs, Emptied e.2) :
    joinPairs ty dirs = none := by
  have key : joinAll ty dirs = none ∨ joinAll ty dirs = some [] := by
    unfold joinAll
    induction dirs with
    | nil => exact .inr rfl
    | cons e dirs ih =>
      rw [List.mapM_cons]
      rcases joinDir_emptied (ty := ty) (h e List.mem_cons_self) with h1 | h1
      · rw [h1]; exact .inl rfl
      · rw [h1]
        rcases ih fun e he => h e (List.mem_cons_of_mem _ he) with h2 | h2
        · rw [Option.map_eq_none_iff] at h2
          rw [h2]; exact .inl rfl
        · rw [Option.map_eq_some_iff] at h2
          obtain ⟨r, h2, h3⟩ := h2
          rw [h2]
          right
          simp [h3]
  unfold joinPairs
  rcases key with h | h
  · rw [h]; rfl
  · rw [h]; cases ty <;> rfl

/-! ## The stages after a failed join stage -/

theorem tail_read (env : Env F κ) {n : ℕ} (hn : n < 2 ^ 64) (ty : SeqType) {s2 : Store}
    (hs2 : (s2 ty.toText (natText n)).isSome) (hj : joinRun env s2 ty n = ⟨[], none⟩) (b : Bool) (x : Text)
    (hx1 : x ≠ "result.mat".toList) (hx2 : x ≠ "result.qhm".toList) :
    let s3 := (runProgram env s2 ["join".toList, ty.toText, natText n]).1
    let s4 := if b then (runProgram env s3 ["convert".toList, "hm".toList, ty.toText, natText n]).1 else s3
    readTop (runProgram env s4 ["convert".toList, "qhm".toList, ty.toText, natText n]).1 ty.toText (natText n) x =
      readTop s2 ty.toText (natText n) x := by
  set T := ty.toText with hT
  set N := natText n with hN
  have hty : strToSeqtype T = some ty := seqtype_text ty
  have hnn : parseUsize N = some n := Txt.parse_natText hn
  have hj' : runProgram env s2 ["join".toList, T, N] = (s2, false) := by
    unfold runProgram
    rw [main_join env s2 hty hnn, hj]
    rfl
  rw [hj']
  dsimp only
  have hq : ∀ s3 : Store, (s3 T N).isSome →
      readTop (runProgram env s3 ["convert".toList, "qhm".toList, T, N]).1 T N x = readTop s3 T N x := by
    intro s3 h3
    unfold runProgram
    rw [main_qhm env s3 hty hnn]
    obtain ⟨new, e, hnew, _⟩ := qhm_stage (ty := ty) (n := n) h3
    rw [e.read, lookup_of_names hnew hx2, Option.none_or]
  split
  · rw [hq _ (program_keep env _ hs2)]
    unfold runProgram
    rw [main_hm env s2 hty hnn]
    obtain ⟨new, e, hnew, _⟩ := hm_stage env (ty := ty) (n := n) hs2
    rw [e.read, lookup_of_names hnew hx1, Option.none_or]
  · exact hq _ hs2

/-- The stores of the stages. -/
theorem stages_batch {b : Batch} (hb : b.built = true) (env : Env F κ) (T N : Text) (o : Options) {s : Store} (h : (s T N).isSome) :
    driverStagesBatch b env T N o s =
      let s1 := (runProgram env s (["pairs".toList, T, N, o.matchOption] ++ shellWords o.pairing)).1
      let s2 := (sortPairsBatch b s1 T N).1
      let s3 := (runProgram env s2 ["join".toList, T, N]).1
      let s4 := if o.hadamard then (runProgram env s3 ["convert".toList, "hm".toList, T, N]).1 else s3
      ((runProgram env s4 ["convert".toList, "qhm".toList, T, N]).1, 0) := by
  unfold driverStagesBatch
  simp only [piped_built hb]
  unfold piped teeStatus
  dsimp only
  have h1 := program_keep env (["pairs".toList, T, N, o.matchOption] ++ shellWords o.pairing) h
  have h2 := batch_keep b T N h1
  have h3 := program_keep env ["join".toList, T, N] h2
  have e2 : (sortPairsBatch b (runProgram env s (["pairs".toList, T, N, o.matchOption] ++ shellWords o.pairing)).1 T N).2 = true := h1
  rw [h1, if_neg (by simp), e2, if_neg (by simp), h3, if_neg (by simp)]

theorem stages_unbuilt {b : Batch} (hb : b.built = false) (env : Env F κ) (T N : Text) (o : Options) {s : Store}
    (h : (s T N).isSome) : driverStagesBatch b env T N o s = ((sortPairsBatch b s T N).1, 0) := by
  have e : ∀ (s : Store) args, pipedBatch b env s T N args = (s, teeStatus s T N) := fun s args => by
    unfold pipedBatch
    rw [if_neg (by rw [hb]; simp)]
  unfold driverStagesBatch
  simp only [e]
  have h2 := batch_keep b T N h
  unfold teeStatus
  rw [h, if_neg (by simp)]
  have e2 : (sortPairsBatch b s T N).2 = true := h
  rw [e2, if_neg (by simp), h2, if_neg (by simp)]
  split <;> rfl

end Proofs.Slurm
