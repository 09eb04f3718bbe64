import Verif.Proofs.Stages
import Verif.Props.Psd
import Verif.Spec.Driver

/-!
# Helper lemmas: exit statuses and counts of the scripts
-/

set_option linter.unusedSectionVars false
set_option linter.unusedVariables false
set_option linter.unusedSimpArgs false

namespace Proofs.Scripts
open Model Spec Proofs Proofs.Store Proofs.Program Proofs.Driver Proofs.Command Proofs.Stages

variable {F κ : Type} [DecidableEq κ]

/-! ## Directories do not disappear -/

theorem act_keep (o : Write) {d : Option FindDir} (h : d.isSome) : (o.act d).isSome := by
  cases o <;> simp [Write.act, h]

theorem apply_keep {s : Store} (o : Write) {a b : Text} (h : (s a b).isSome) : (o.apply s a b).isSome := by
  unfold Write.apply
  split
  · exact act_keep o h
  · exact h

theorem applyOps_keep (ops : List Write) : ∀ {s : Store} {a b : Text}, (s a b).isSome → (applyOps s ops a b).isSome := by
  unfold applyOps
  induction ops with
  | nil => exact fun h => h
  | cons o l ih => exact fun h => ih (apply_keep o h)

theorem program_keep (env : Env F κ) {s : Store} (args : List Text) {a b : Text} (h : (s a b).isSome) :
    ((runProgram env s args).1 a b).isSome := applyOps_keep _ h

theorem sort_keep {s : Store} (T N : Text) {a b : Text} (h : (s a b).isSome) : ((sortPairsSh s T N).1 a b).isSome := by
  unfold sortPairsSh
  dsimp only
  split
  · simpa using h
  · exact h

/-- Sorting does not change plain files. -/
theorem sort_read (s : Store) (T N a b x : Text) : readTop (sortPairsSh s T N).1 a b x = readTop s a b x := by
  unfold sortPairsSh readTop
  dsimp only
  split
  · cases s a b <;> rfl
  · rfl

theorem sort_dirs (s : Store) (T N : Text) :
    subDirs (sortPairsSh s T N).1 T N = (subDirs s T N).map fun e => (e.1, sortDirSh e.2) := by
  unfold subDirs sortPairsSh
  dsimp only
  rw [if_pos rfl]
  cases s T N <;> rfl

/-- The stores of the stages. -/
theorem stages_eq (env : Env F κ) (T N : Text) (o : Options) {s : Store} (h : (s T N).isSome) :
    driverStages env T N o s =
      let s1 := (runProgram env s (["pairs".toList, T, N, o.matchOption] ++ shellWords o.pairing)).1
      let s2 := (sortPairsSh s1 T N).1
      let s3 := (runProgram env s2 ["join".toList, T, N]).1
      let s4 := if o.hadamard then (runProgram env s3 ["convert".toList, "hm".toList, T, N]).1 else s3
      ((runProgram env s4 ["convert".toList, "qhm".toList, T, N]).1, 0) := by
  unfold driverStages piped teeStatus
  dsimp only
  have h1 := program_keep env (["pairs".toList, T, N, o.matchOption] ++ shellWords o.pairing) h
  have h2 := sort_keep T N h1
  have h3 := program_keep env ["join".toList, T, N] h2
  have e2 : (sortPairsSh (runProgram env s (["pairs".toList, T, N, o.matchOption] ++ shellWords o.pairing)).1 T N).2 = true := h1
  rw [h1, if_neg (by simp), e2, if_neg (by simp), h3, if_neg (by simp)]

/-- The flags of `pairs.sh`. -/
theorem pairsFlags_eq (T N : Text) (flags : List Flag) : ∀ o o' (s : Store), o.matchOption = o'.matchOption →
    o.pairing = o'.pairing →
    (flags.foldl (pairsFlag T N) (o, s)).2 = (flags.foldl (driverFlag T N) (o', s)).2 ∧
    (flags.foldl (pairsFlag T N) (o, s)).1.matchOption = (flags.foldl (driverFlag T N) (o', s)).1.matchOption ∧
    (flags.foldl (pairsFlag T N) (o, s)).1.pairing = (flags.foldl (driverFlag T N) (o', s)).1.pairing := by
  induction flags with
  | nil => exact fun o o' s h1 h2 => ⟨rfl, h1, h2⟩
  | cons f l ih =>
    intro o o' s h1 h2
    rw [List.foldl_cons, List.foldl_cons]
    cases f
    case p a => exact ih _ _ _ h1 rfl
    case c => exact ih _ _ _ rfl h2
    all_goals exact ih _ _ _ h1 h2

/-- Are there `rowsum_*` directories? -/
theorem hasRowsum_iff (s : Store) (T N : Text) :
    hasRowsumDirs s T N = true ↔ ∃ e ∈ subDirs s T N, "rowsum_".toList <+: e.1 := by
  unfold hasRowsumDirs subDirs
  cases s T N with
  | none => simp
  | some d =>
    simp only [List.any_eq_true, Option.map_some, Option.getD_some]
    refine exists_congr fun e => and_congr_right fun _ => ?_
    exact List.isPrefixOf_iff_prefix

theorem hasRowsum_flags (T N : Text) (flags : List Flag) (st : Options × Store) :
    hasRowsumDirs (flags.foldl (driverFlag T N) st).2 T N = true ↔
      ∃ e ∈ subDirs st.2 T N, "rowsum_".toList <+: e.1 ∧ .d ∉ flags := by
  rw [hasRowsum_iff, flags_dirs]
  split
  · rename_i hd
    constructor
    · rintro ⟨e, he, hp⟩
      have h2 := (List.mem_filter.1 he).2
      rw [Bool.not_eq_true', Bool.eq_false_iff] at h2
      exact absurd (List.isPrefixOf_iff_prefix.2 hp) h2
    · rintro ⟨e, _, _, h⟩
      exact absurd hd h
  · rename_i hd
    exact exists_congr fun e => and_congr_right fun _ => ⟨fun h => ⟨h, hd⟩, fun h => h.1⟩

theorem flags_noclean (T N : Text) (flags : List Flag) (h : .d ∉ flags) : ∀ st : Options × Store,
    (flags.foldl (driverFlag T N) st).2 = st.2 := by
  induction flags with
  | nil => exact fun _ => rfl
  | cons f l ih =>
    intro st
    rw [List.foldl_cons, ih (fun h' => h (List.mem_cons_of_mem _ h'))]
    cases f
    case d => exact absurd (List.mem_cons_self ..) h
    all_goals rfl

/-! ## Arguments that name no sequences, or sequences kept elsewhere -/

theorem concerns_args {args : List Text} {ty : SeqType} {n : ℕ} (h : Concerns args ty n)
    (ha : args.head? ≠ some "amicable".toList) :
    (args.head? = some "convert".toList → (args[2]?.bind strToSeqtype) = some ty ∧ (args[3]?.bind parseUsize) = some n) ∧
    (args.head? ≠ some "convert".toList → (args[1]?.bind strToSeqtype) = some ty ∧ (args[2]?.bind parseUsize) = some n) := by
  have hne : ∀ {a b : Text}, a ≠ b → some a ≠ some b := fun h e => h (Option.some.inj e)
  cases h with
  | qhmAll h1 h2 => exact ⟨fun h => absurd h (hne (by decide)), fun _ => ⟨h1, h2⟩⟩
  | amicable h2 => exact absurd rfl ha
  | rowsums h1 h2 => exact ⟨fun h => absurd h (hne (by decide)), fun _ => ⟨h1, h2⟩⟩
  | join h1 h2 => exact ⟨fun h => absurd h (hne (by decide)), fun _ => ⟨h1, h2⟩⟩
  | convert h0 h1 h2 => exact ⟨fun _ => ⟨h1, h2⟩, fun h => absurd rfl h⟩
  | pairs h1 h2 h3 => exact ⟨fun h => absurd h (hne (by decide)), fun _ => ⟨h1, h2⟩⟩
  | pairsRowsum h1 h2 h3 h4 => exact ⟨fun h => absurd h (hne (by decide)), fun _ => ⟨h1, h2⟩⟩
  | create h1 h2 h4 => exact ⟨fun h => absurd h (hne (by decide)), fun _ => ⟨h1, h2⟩⟩
  | pairSingle h1 h2 h3 h4 h5 => exact ⟨fun h => absurd h (hne (by decide)), fun _ => ⟨h1, h2⟩⟩

/-- The type is unknown, or the length is not a number, or not in the form in which the program writes it. -/
def Elsewhere (T N : Text) : Prop := ∀ ty n, strToSeqtype T = some ty → parseUsize N = some n → N ≠ natText n

theorem elsewhere_run (env : Env F κ) (s : Store) {T N : Text} (h : Elsewhere T N) {args : List Text}
    (ha : args.head? ≠ some "amicable".toList)
    (hc : args.head? = some "convert".toList → args[2]? = some T ∧ args[3]? = some N)
    (hn : args.head? ≠ some "convert".toList → args[1]? = some T ∧ args[2]? = some N) :
    (runProgram env s args).1 T N = s T N := by
  by_cases hcon : ∃ ty n, Concerns args ty n
  · obtain ⟨ty, n, hcon⟩ := hcon
    refine Props.C77_frame env s args ty n hcon T N fun e => ?_
    obtain ⟨k1, k2⟩ := concerns_args hcon ha
    have : strToSeqtype T = some ty ∧ parseUsize N = some n := by
      by_cases hh : args.head? = some "convert".toList
      · obtain ⟨e1, e2⟩ := hc hh
        rw [e1, e2] at k1
        exact k1 hh
      · obtain ⟨e1, e2⟩ := hn hh
        rw [e1, e2] at k2
        exact k2 hh
    exact h ty n this.1 this.2 (congrArg Prod.snd e)
  · rw [(Props.C77_ill_formed env s args hcon).1]

theorem read_congr {s s' : Store} {T N : Text} (h : s' T N = s T N) (x : Text) : readTop s' T N x = readTop s T N x := by
  unfold readTop
  rw [h]

/-- What stays the same in every stage stays the same. -/
theorem driver_read (env : Env F κ) {T N : Text} (flags : List Flag) (s : Store) (hT : T ≠ []) (hN : N ≠ [])
    (hd : ∀ e ∈ subDirs s T N, "rowsum_".toList <+: e.1 → .d ∈ flags) (x : Text)
    (hp : ∀ s mo pw, readTop (runProgram env s (["pairs".toList, T, N, mo] ++ pw)).1 T N x = readTop s T N x)
    (hj : ∀ s, readTop (runProgram env s ["join".toList, T, N]).1 T N x = readTop s T N x)
    (hh : ∀ s, readTop (runProgram env s ["convert".toList, "hm".toList, T, N]).1 T N x = readTop s T N x)
    (hq : ∀ s, readTop (runProgram env s ["convert".toList, "qhm".toList, T, N]).1 T N x = readTop s T N x) :
    readTop (driverSh env T N flags s).1 T N x = readTop s T N x := by
  unfold driverSh
  rw [if_neg (by rintro (h | h); exacts [hT h, hN h])]
  have e1 := flags_effect T N flags (.default, s)
  have e2 := hasRowsum_flags T N flags (.default, s)
  rcases hst : flags.foldl (driverFlag T N) (.default, s) with ⟨o, s1⟩
  rw [hst] at e1 e2
  dsimp only at e1 e2 ⊢
  have hno : ¬ hasRowsumDirs s1 T N = true := by
    rw [e2]
    rintro ⟨e, he, h1, h2⟩
    exact h2 (hd e he h1)
  rw [if_neg hno, stages_eq env T N o (mkdir_some s1 T N)]
  dsimp only
  rw [hq]
  have e3 := (mkdir_effect s1 T N).read x
  have e4 := e1.read x
  rw [lookup_nil, Option.none_or] at e3 e4
  split
  · rw [hh, hj, sort_read, hp, e3, e4]
  · rw [hj, sort_read, hp, e3, e4]

/-! ## A missing pairing -/

theorem joinRun_none (env : Env F κ) {s : Store} {ty : SeqType} {n : ℕ}
    (h : ∀ fd, s ty.toText (natText n) = some fd → joinPairs ty (listedDirs env fd) = none) :
    joinRun env s ty n = ⟨[], none⟩ := by
  unfold joinRun
  dsimp only
  cases hs : s ty.toText (natText n) with
  | none => rw [none_bind]
  | some fd =>
    rw [some_bind]
    cases joinAll ty (listedDirs env fd) with
    | none => rw [none_bind]
    | some m =>
      rw [some_bind]
      split
      · rw [none_bind]
      · rw [some_bind, h fd hs, none_bind]


theorem words_blank {t : Text} (h : ∀ c ∈ t, c = ' ' ∨ c = '\t' ∨ c = '\n') : shellWords t = [] := by
  unfold shellWords
  induction t with
  | nil => rfl
  | cons c t ih =>
    have hc : (decide (c ∈ [' ', '\t', '\n'])) = true := by simpa using h c (List.mem_cons_self ..)
    rw [List.splitOnP_cons_eq_if_modifyHead, if_pos hc, List.filter_cons_of_neg (by simp),
      ih fun c hc => h c (List.mem_cons_of_mem _ hc)]

theorem pairs_without (env : Env F κ) (s : Store) (T N mo : Text) :
    runProgram env s ["pairs".toList, T, N, mo] = (s, false) := by
  unfold runProgram mainRun
  dsimp only
  rw [if_neg (by decide), if_neg (by decide), if_neg (by decide), if_neg (by decide), if_neg (by decide), if_pos rfl]
  rfl

theorem join_empty (ty : SeqType) : joinPairs ty [] = none := by
  cases ty <;> rfl

/-- Without a pairing the results of an earlier run stay, with no error. -/
theorem driver_blank (env : Env F κ) (hf : Env.Fair env) {n : ℕ} (hn : n < 2 ^ 64) (ty : SeqType) (flags : List Flag)
    (s : Store) (hd : ∀ e ∈ subDirs s ty.toText (natText n), .d ∈ flags ∧ "rowsum_".toList <+: e.1)
    (hb : ∀ c ∈ flagPairing flags, c = ' ' ∨ c = '\t' ∨ c = '\n') (x : Text) (hx1 : x ≠ "result.mat".toList)
    (hx2 : x ≠ "result.qhm".toList) :
    readTop (driverSh env ty.toText (natText n) flags s).1 ty.toText (natText n) x =
      readTop s ty.toText (natText n) x := by
  set T := ty.toText with hT
  set N := natText n with hN
  have hty : strToSeqtype T = some ty := seqtype_text ty
  have hnn : parseUsize N = some n := Txt.parse_natText hn
  have hTne : ¬ (T = [] ∨ N = []) := by
    rintro (h | h)
    · rw [hT] at h; cases ty <;> revert h <;> decide
    · exact Txt.natText_ne n h
  unfold driverSh
  rw [if_neg hTne]
  have e1 := flags_effect T N flags (.default, s)
  have e2 := hasRowsum_flags T N flags (.default, s)
  have e0 := flags_dirs T N flags (.default, s)
  obtain ⟨_, _, o3⟩ := flags_options T N flags (.default, s)
  rcases hst : flags.foldl (driverFlag T N) (.default, s) with ⟨o, s1⟩
  rw [hst] at e1 e2 e0 o3
  dsimp only at e1 e2 e0 o3 ⊢
  have hpr : o.pairing = flagPairing flags := o3
  have hfresh : subDirs s1 T N = [] := by
    rw [e0]
    split
    · rw [List.filter_eq_nil_iff]
      intro e he
      simp only [Bool.not_eq_true', Bool.not_eq_false]
      exact List.isPrefixOf_iff_prefix.2 (hd e he).2
    · rename_i hnd
      exact List.eq_nil_iff_forall_not_mem.2 fun e he => hnd (hd e he).1
  have hno : ¬ hasRowsumDirs s1 T N = true := by
    rw [e2]
    rintro ⟨e, he, _, h2⟩
    exact h2 (hd e he).1
  rw [if_neg hno, stages_eq env T N o (mkdir_some s1 T N), hpr, words_blank hb, List.append_nil]
  dsimp only
  rw [pairs_without]
  dsimp only
  have hs2 := sort_keep T N (mkdir_some s1 T N)
  have hsd : subDirs (sortPairsSh (mkdirFind s1 T N) T N).1 T N = [] := by
    rw [sort_dirs, mkdir_dirs, hfresh]; rfl
  have hr2 : readTop (sortPairsSh (mkdirFind s1 T N) T N).1 T N x = readTop s T N x := by
    have e3 := (mkdir_effect s1 T N).read x
    have e4 := e1.read x
    rw [lookup_nil, Option.none_or] at e3 e4
    rw [sort_read, e3, e4]
  generalize (sortPairsSh (mkdirFind s1 T N) T N).1 = s2 at hs2 hsd hr2
  have hj : runProgram env s2 ["join".toList, T, N] = (s2, false) := by
    unfold runProgram
    rw [main_join env s2 hty hnn]
    have : joinRun env s2 ty n = ⟨[], none⟩ := by
      refine joinRun_none env fun fd hfd => ?_
      unfold subDirs at hsd
      rw [hT, hN, hfd, Option.map_some, Option.getD_some] at hsd
      unfold listedDirs
      have : env.lsDirs fd.dirs = [] := by
        have := hf.dirs fd.dirs
        rw [hsd] at this ⊢
        exact this.eq_nil
      rw [this]
      exact join_empty ty
    rw [this]
    rfl
  rw [hj]
  dsimp only
  have hq : ∀ s3 : Store, (s3 T N).isSome →
      readTop (runProgram env s3 ["convert".toList, "qhm".toList, T, N]).1 T N x = readTop s3 T N x := by
    intro s3 h3
    unfold runProgram
    rw [main_qhm env s3 hty hnn]
    obtain ⟨new, e, hnew, _⟩ := qhm_stage (ty := ty) (n := n) h3
    rw [e.read, lookup_of_names hnew hx2, Option.none_or]
  split
  · rw [hq _ (program_keep env _ hs2)]
    unfold runProgram
    rw [main_hm env s2 hty hnn]
    obtain ⟨new, e, hnew, _⟩ := hm_stage env (ty := ty) (n := n) hs2
    rw [e.read, lookup_of_names hnew hx1, Option.none_or, hr2]
  · rw [hq _ hs2, hr2]

/-! ## Lines -/

theorem wc_append (a b : Text) : wcLines (a ++ b) = wcLines a + wcLines b := List.count_append

theorem wc_unlines (ls : List Text) (h : ∀ l ∈ ls, '\n' ∉ l) : wcLines (unlines ls) = ls.length := by
  induction ls with
  | nil => rfl
  | cons l ls ih =>
    have : unlines (l :: ls) = l ++ '\n' :: unlines ls := by simp [unlines]
    rw [this, wc_append, List.length_cons]
    have h1 : wcLines l = 0 := List.count_eq_zero.2 (h l (List.mem_cons_self ..))
    have h2 : wcLines ('\n' :: unlines ls) = wcLines (unlines ls) + 1 := List.count_cons_self
    rw [h1, h2, ih fun l hl => h l (List.mem_cons_of_mem _ hl)]
    omega

theorem wc_sorted {ls : List Text} (h : ∀ l ∈ ls, '\n' ∉ l ∧ '\r' ∉ l) : wcLines (sortText (unlines ls)) = ls.length := by
  unfold sortText
  rw [Txt.readLines_unlines ls h, wc_unlines _ fun l hl => (h l ((Txt.mergeSort_perm ls).mem_iff.1 hl)).1,
    (Txt.mergeSort_perm ls).length_eq]

/-! ## The lines of a pair file -/

theorem forall₂_mem_right {α β : Type} {R : α → β → Prop} {l : List α} {r : List β} (h : List.Forall₂ R l r) {y : β}
    (hy : y ∈ r) : ∃ x ∈ l, R x y := by
  induction h with
  | nil => simp at hy
  | cons hab _ ih =>
    rcases List.mem_cons.1 hy with rfl | hy
    · exact ⟨_, List.mem_cons_self .., hab⟩
    · obtain ⟨x, hx, h⟩ := ih hy
      exact ⟨x, List.mem_cons_of_mem _ hx, h⟩

/-- Every line of a pair file is a line text. -/
theorem pairLines_clean {A : Fl F} {s1 s2 : List (List ℤ)} {tags : Tag × Tag} {ty : SeqType} {p : ℕ} {side : Side}
    {mo : MatchOption} {lines : List Text} (h : pairLines A s1 s2 tags ty p side mo = some lines) :
    ∀ l ∈ lines, '\n' ∉ l ∧ '\r' ∉ l := by
  unfold pairLines at h
  obtain ⟨ks, h1, rfl⟩ := Option.map_eq_some_iff.1 h
  intro l hl
  rw [List.reduceOption_mem_iff] at hl
  obtain ⟨d, _, hd⟩ := forall₂_mem_right (Conversion.mapM_some_iff.1 h1) hl
  obtain ⟨k, _, hk⟩ := Option.map_eq_some_iff.1 hd
  obtain ⟨v, _, rfl⟩ := Option.map_eq_some_iff.1 hk
  exact Txt.lineText_clean ..

/-- The lines of the sorted files of a directory, `countpairs.sh:17-30`. -/
def dirLines (d : Dir) : ℕ := ((d.filter fun f => sortedSuffix.isSuffixOf f.1).map fun f => wcLines f.2).sum

theorem dirLines_perm {d e : Dir} (h : d.Perm e) : dirLines d = dirLines e := ((h.filter _).map _).sum_eq

theorem seqPairs_wc {A : Fl F} {s1 s2 : List (List ℤ)} {tags : Tag × Tag} {ty : SeqType} {rs : Quad} {p : ℕ} {side : Side}
    {mo : MatchOption} {text : Text} (h : writeSeqPairs A s1 s2 tags ty rs p side mo = some text) :
    wcLines (sortText text) = ((pairLines A s1 s2 tags ty p side mo).map List.length).getD 0 := by
  unfold writeSeqPairs at h
  split at h
  · obtain ⟨lines, h1, rfl⟩ := Option.map_eq_some_iff.1 h
    rw [h1, Txt.writeBlocks_flatten, wc_sorted (pairLines_clean h1)]
    rfl
  · cases h

theorem sortedDir_lines (A : Fl F) {ty : SeqType} {rs : Quad} {p : ℕ} {mo : MatchOption} {pr : Option Pairing}
    {d : Dir} (h : writePairsRowsum A ty rs p mo pr = some d) :
    dirLines (sortDir d) = pairCount A ty rs p mo (pairingTags pr).1 .left +
      pairCount A ty rs p mo (pairingTags pr).2 .right := by
  unfold writePairsRowsum at h
  dsimp only at h
  simp only [Option.bind_eq_some_iff, Option.map_eq_some_iff] at h
  obtain ⟨tw, e1, tx, e2, ty', e3, tz, e4, p12, e5, p34, e6, rfl⟩ := h
  have k1 := seqPairs_wc e5
  have k2 := seqPairs_wc e6
  unfold pairCount
  rw [← k1, ← k2]
  clear k1 k2 e1 e2 e3 e4 e5 e6
  rcases pr with _ | (_ | _ | _) <;> simp [dirLines, sortDir, pairingTags, seqFileName, pairFileName, Tag.toChar, pairSuffix,
    sortedSuffix, List.isSuffixOf, List.isPrefixOf]

/-! ## The number of pairs -/

theorem pairData_eq {A : Fl F} {p : ℕ} (e1 e2 : List ℤ × ℕ) :
    (pairData A (A.mul (A.lit 4 1) (A.ofInt p)) e1 e2).isSome = Psd.passes A p e1.1 e2.1 := by
  unfold pairData Psd.passes
  dsimp only
  split <;> simp_all

theorem filterMap_length {α β : Type} (f : α → Option β) (l : List α) :
    (l.filterMap f).length = l.countP fun x => (f x).isSome := by
  induction l with
  | nil => rfl
  | cons x l ih =>
    rw [List.filterMap_cons, List.countP_cons]
    cases h : f x <;> simp [ih]

theorem zipIdx_countP {α : Type} (q : α → Bool) (l : List α) (k : ℕ) :
    (l.zipIdx k).countP (fun e => q e.1) = l.countP q := by
  induction l generalizing k with
  | nil => rfl
  | cons x l ih => rw [List.zipIdx_cons, List.countP_cons, List.countP_cons, ih]

theorem couples_length (A : Fl F) (p : ℕ) (s1 s2 : List (List ℤ)) :
    (filteredCouplesPsds A s1 s2 (A.mul (A.lit 4 1) (A.ofInt p))).length =
      (s1 ×ˢ s2).countP fun e => Psd.passes A p e.1 e.2 := by
  unfold filteredCouplesPsds
  have key : ∀ e1 : List ℤ × ℕ, (s2.zipIdx.filterMap fun e2 => pairData A (A.mul (A.lit 4 1) (A.ofInt p)) e1 e2).length =
      s2.countP fun y => Psd.passes A p e1.1 y := by
    intro e1
    rw [filterMap_length]
    simp only [pairData_eq]
    exact zipIdx_countP (fun y => Psd.passes A p e1.1 y) s2 0
  suffices h : ∀ k, ((s1.zipIdx k).flatMap fun e1 => s2.zipIdx.filterMap fun e2 =>
      pairData A (A.mul (A.lit 4 1) (A.ofInt p)) e1 e2).length = (s1 ×ˢ s2).countP fun e => Psd.passes A p e.1 e.2 from h 0
  intro k
  induction s1 generalizing k with
  | nil => simp
  | cons x s1 ih =>
    rw [List.zipIdx_cons, List.flatMap_cons, List.length_append, key, ih, List.product_cons, List.countP_append,
      List.countP_map]
    rfl

theorem pairLines_length {A : Fl F} {s1 s2 : List (List ℤ)} {tags : Tag × Tag} {ty : SeqType} {p : ℕ} {side : Side}
    {mo : MatchOption}
    (hkey : ∀ x ∈ s1, ∀ y ∈ s2, ∀ i j d, pairData A (A.mul (A.lit 4 1) (A.ofInt p)) (x, i) (y, j) = some d →
      ∃ v, pairKey A ty side mo tags p d = some (some v)) :
    (pairLines A s1 s2 tags ty p side mo).map List.length =
      some ((s1 ×ˢ s2).countP fun e => Psd.passes A p e.1 e.2) := by
  rw [← couples_length]
  unfold pairLines
  have hmem : ∀ d ∈ filteredCouplesPsds A s1 s2 (A.mul (A.lit 4 1) (A.ofInt p)),
      ∃ v, pairKey A ty side mo tags p d = some (some v) := by
    intro d hd
    unfold filteredCouplesPsds at hd
    simp only [List.mem_flatMap, List.mem_filterMap] at hd
    obtain ⟨⟨x, i⟩, hx, ⟨y, j⟩, hy, h⟩ := hd
    exact hkey x (List.mem_of_getElem? (List.mem_zipIdx_iff_getElem?.1 hx)) y
      (List.mem_of_getElem? (List.mem_zipIdx_iff_getElem?.1 hy)) i j d h
  generalize filteredCouplesPsds A s1 s2 (A.mul (A.lit 4 1) (A.ofInt p)) = l at hmem
  rw [mapM_some (g := fun d => some (lineText (((pairKey A ty side mo tags p d).bind id).getD []) d.i1 d.i2)) fun d hd => by
    obtain ⟨v, hv⟩ := hmem d hd
    rw [hv]; rfl]
  rw [Option.map_some, Option.map_some]
  congr 1
  clear hmem
  induction l with
  | nil => rfl
  | cons d l ih => rw [List.map_cons, List.reduceOption_cons_of_some, List.length_cons, List.length_cons, ih]

theorem psd_mirror {n : ℕ} [NeZero n] (x : List ℤ) {k : ℕ} (hk : k < n) : psd n x (n - k) = psd n x k := by
  unfold psd
  rw [Fourier.dft_hermitian x hk, Complex.normSq_conj]

/-- The filter in exact arithmetic. -/
theorem passes_exact {n : ℕ} [NeZero n] {x y : List ℤ} (hx : PMSeq n x) (hy : PMSeq n y) :
    Psd.passes exactFl n x y = true ↔ ∀ k, 0 < k → k < n → psd n x k + psd n y k ≤ 4 * n := by
  unfold Psd.passes boundExceeded
  rw [Fourier.exact_psd hx.1, Fourier.exact_psd hy.1, Bool.not_eq_true', List.any_eq_false, List.zip_map']
  have hdrop : ((List.range (n / 2 + 1)).map fun k => (psd n x k, psd n y k)).drop 1 =
      (List.range' 1 (n / 2)).map fun k => (psd n x k, psd n y k) := by
    rw [← List.map_drop, List.range_eq_range', List.drop_range']
    simp
  rw [hdrop]
  simp only [List.mem_map, List.mem_range'_1, forall_exists_index, and_imp]
  have hn : 0 < n := Nat.pos_of_ne_zero (NeZero.ne n)
  constructor
  · intro h k h0 hk
    have main : ∀ k, 0 < k → k ≤ n / 2 → psd n x k + psd n y k ≤ 4 * n := by
      intro k h0 hk
      have := h _ k h0 (by omega) rfl
      simp [exactFl] at this
      linarith
    by_cases h2 : k ≤ n / 2
    · exact main k h0 h2
    · rw [← psd_mirror x hk, ← psd_mirror y hk]
      exact main (n - k) (by omega) (by omega)
  · rintro h _ k h0 hk rfl
    have := h k h0 (by omega)
    simp [exactFl]
    linarith

theorem rowsumSequences_nodup {n : ℕ} (hn : n < 2 ^ 62) (ty : SeqType) {r : ℤ} (h1 : -2 ^ 62 < r) (h2 : r < 2 ^ 62) :
    (rowsumSequences ty r n).Nodup := by
  have := (generate_spec r n hn h1 h2).1
  unfold rowsumSequences
  cases ty <;> first | exact this | exact this.filter _

/-- The number of pairs written for QT sequences in exact arithmetic. -/
theorem pairCount_exact {n : ℕ} [NeZero n] (hn : n < 2 ^ 62) {rs : Quad}
    (hrs : rs.1 ^ 2 + rs.2.1 ^ 2 + rs.2.2.1 ^ 2 + rs.2.2.2 ^ 2 = 4 * n) (mo : MatchOption) {t : Tag × Tag} {pos : Bool}
    (ht : crossSign t = some pos) (side : Side) :
    pairCount exactFl .quaternionType rs n mo t side = (PairSet n (tagRowsum rs t.1) (tagRowsum rs t.2)).ncard := by
  have hb := Complete.rowsum_small hn rs hrs
  have hmem : ∀ t x, x ∈ rowsumSequences .quaternionType (tagRowsum rs t) n ↔ PMSeq n x ∧ x.sum = tagRowsum rs t :=
    fun t x => (Complete.rowsumSequences_spec hn .quaternionType (hb t).1 (hb t).2 x).trans (by simp)
  have hnd : ∀ t, (rowsumSequences .quaternionType (tagRowsum rs t) n).Nodup :=
    fun t => rowsumSequences_nodup hn _ (hb t).1 (hb t).2
  unfold pairCount
  rw [pairLines_length, Option.getD_some, List.countP_eq_length_filter]
  · have hnd' := ((hnd t.1).product (hnd t.2)).filter fun e => Psd.passes exactFl n e.1 e.2
    rw [← List.toFinset_card_of_nodup hnd', ← Set.ncard_coe_finset]
    congr 1
    ext ⟨x, y⟩
    simp only [List.coe_toFinset, List.mem_filter, List.mem_product, hmem, Set.mem_ofPred_eq, PairSet]
    constructor
    · rintro ⟨⟨⟨a, b⟩, c, d⟩, h⟩
      exact ⟨a, c, b, d, (passes_exact a c).1 h⟩
    · rintro ⟨a, c, b, d, h⟩
      exact ⟨⟨⟨a, b⟩, c, d⟩, (passes_exact a c).2 h⟩
  · intro x hx y hy i j d hd
    have hx := ((hmem _ _).1 hx).1
    have hy := ((hmem _ _).1 hy).1
    cases mo with
    | correlation =>
      rw [Keys.pairKey_corr (Props.C28_exact_accurate n).1 hx hy ht hd]
      exact ⟨_, rfl⟩
    | psd =>
      rw [Psd.pairKey_psd hx hy ht (.inl rfl) hd]
      exact ⟨_, rfl⟩

/-! ## Sorting again -/

theorem putFile_names (d : Dir) (name c : Text) : ∀ x, x ∈ (putFile d name c).map Prod.fst ↔ x = name ∨ x ∈ d.map Prod.fst := by
  intro x
  unfold putFile
  split
  · rename_i h
    have e : (d.map fun f => if f.1 = name then (name, c) else f).map Prod.fst = d.map Prod.fst := by
      rw [List.map_map]
      refine List.map_congr_left fun f _ => ?_
      simp only [Function.comp]
      split
      · rename_i h; exact h.symm
      · rfl
    rw [e]
    exact ⟨.inr, fun h' => h'.elim (fun e => e ▸ h) id⟩
  · rw [List.map_append, List.mem_append]
    simp [or_comm]

theorem sort_step_names (ps : List (Text × Text)) : ∀ (d : Dir) (x : Text),
    x ∈ (ps.foldl sortStep d).map Prod.fst → pairSuffix.isSuffixOf x = true →
      x ∈ d.map Prod.fst ∧ x ∉ ps.map Prod.fst := by
  induction ps with
  | nil => intro d x h _; exact ⟨h, by simp⟩
  | cons f ps ih =>
    intro d x h hx
    obtain ⟨h1, h2⟩ := ih _ x h hx
    unfold sortStep at h1
    obtain ⟨g, hg, rfl⟩ := List.mem_map.1 h1
    obtain ⟨hg1, hg2⟩ := List.mem_filter.1 hg
    have hne : g.1 ≠ f.1 := by simpa using hg2
    refine ⟨?_, ?_⟩
    · rcases (putFile_names _ _ _ _).1 (List.mem_map_of_mem (f := Prod.fst) hg1) with e | h
      · rw [e, pair_ne_sorted] at hx; cases hx
      · exact h
    · rw [List.map_cons, List.mem_cons, not_or]
      exact ⟨hne, h2⟩

/-- Sorting leaves no pair file. -/
theorem sort_no_pair (d : Dir) : ∀ f ∈ sortDirSh d, pairSuffix.isSuffixOf f.1 = false := by
  intro f hf
  rw [Bool.eq_false_iff]
  intro hp
  unfold sortDirSh at hf
  dsimp only at hf
  split at hf
  · rename_i h0
    have hno : ∀ g ∈ d, ¬ pairSuffix.isSuffixOf g.1 = true := by simpa [List.filter_eq_nil_iff] using h0
    rcases (putFile_names _ _ _ _).1 (List.mem_map_of_mem (f := Prod.fst) hf) with e | h
    · rw [e] at hp; revert hp; decide
    · obtain ⟨g, hg, e⟩ := List.mem_map.1 h
      exact hno g hg (e ▸ hp)
  · obtain ⟨h1, h2⟩ := sort_step_names _ d f.1 (List.mem_map_of_mem (f := Prod.fst) hf) hp
    obtain ⟨g, hg, e⟩ := List.mem_map.1 h1
    refine h2 (List.mem_map.2 ⟨g, List.mem_filter.2 ⟨hg, ?_⟩, e⟩)
    rw [e]; exact hp

/-- Names that are not those of pair files stay. -/
theorem sort_keeps_name {d : Dir} {x : Text} (h : x ∈ d.map Prod.fst) (hx : pairSuffix.isSuffixOf x = false) :
    x ∈ (sortDirSh d).map Prod.fst := by
  unfold sortDirSh
  dsimp only
  split
  · exact (putFile_names _ _ _ _).2 (.inr h)
  · have hps : ∀ f ∈ d.filter (fun f => pairSuffix.isSuffixOf f.1), f.1 ≠ x := by
      intro f hf e
      have := (List.mem_filter.1 hf).2
      rw [e, hx] at this
      cases this
    rename_i hne
    clear hne
    generalize d.filter (fun f => pairSuffix.isSuffixOf f.1) = ps at hps
    induction ps generalizing d with
    | nil => exact h
    | cons f ps ih =>
      rw [List.foldl_cons]
      refine ih (d := (putFile d (f.1 ++ sortedSuffix) (sortText f.2)).filter fun g => g.1 ≠ f.1) ?_
        fun g hg => hps g (List.mem_cons_of_mem _ hg)
      obtain ⟨g, hg, e⟩ := List.mem_map.1 ((putFile_names d (f.1 ++ sortedSuffix) (sortText f.2) x).2 (.inr h))
      refine List.mem_map.2 ⟨g, List.mem_filter.2 ⟨hg, ?_⟩, e⟩
      rw [e]
      simpa using (hps f (List.mem_cons_self ..)).symm

/-- Sorting a directory without pair file. -/
theorem sort_without {d : Dir} (h : ∀ f ∈ d, pairSuffix.isSuffixOf f.1 = false) :
    sortDirSh d = putFile d unmatchedName [] := by
  have h0 : (d.filter fun f => pairSuffix.isSuffixOf f.1) = [] := by
    rw [List.filter_eq_nil_iff]
    intro f hf
    rw [h f hf]
    simp
  unfold sortDirSh
  exact if_pos h0

/-- The second run of the script. -/
theorem sort_twice (d : Dir) : sortDirSh (sortDirSh d) = putFile (sortDirSh d) unmatchedName [] :=
  sort_without (sort_no_pair d)

theorem forall₂_mem_left {α β : Type} {R : α → β → Prop} {l : List α} {r : List β} (h : List.Forall₂ R l r) {x : α}
    (hx : x ∈ l) : ∃ y ∈ r, R x y := by
  induction h with
  | nil => cases hx
  | cons hab _ ih =>
    rcases List.mem_cons.1 hx with rfl | hx
    · exact ⟨_, List.mem_cons_self .., hab⟩
    · obtain ⟨y, hy, h⟩ := ih hx
      exact ⟨y, List.mem_cons_of_mem _ hy, h⟩

theorem count_eq (s : Store) (T N : Text) :
    countPairsSh s T N = ((subDirs s T N).map fun e => dirLines e.2).sum := by
  unfold countPairsSh subDirs
  cases s T N <;> rfl

theorem unmatched_not_mem (A : Fl F) {ty : SeqType} {rs : Quad} {p : ℕ} {mo : MatchOption} {pr : Option Pairing} {d : Dir}
    (h : writePairsRowsum A ty rs p mo pr = some d) : unmatchedName ∉ (sortDir d).map Prod.fst := by
  have hn := rowsum_names A h
  have e : (sortDir d).map Prod.fst = (d.map Prod.fst).map fun x => if pairSuffix.isSuffixOf x then x ++ sortedSuffix else x := by
    unfold sortDir
    rw [List.map_map, List.map_map]
    refine List.map_congr_left fun f _ => ?_
    show Prod.fst (if _ then _ else _) = if _ then _ else _
    split <;> rfl
  rw [e, hn]
  rcases pr with _ | pr
  · decide
  · cases pr <;> decide

/-- A directory with the name of the unmatched pattern cannot be joined. -/
theorem order_none {d : Dir} (h : unmatchedName ∈ d.map Prod.fst) : getOrderFromDir d = none := by
  obtain ⟨f, hf, e⟩ := List.mem_map.1 h
  have hm : f ∈ d.filter fun f => (pairSuffix ++ sortedSuffix).isSuffixOf f.1 :=
    List.mem_filter.2 ⟨hf, by rw [e]; decide⟩
  have hn : getTagFromFilename unmatchedName = none := by decide
  unfold getOrderFromDir
  split
  · rename_i f1 f2 he
    rw [he] at hm
    rcases List.mem_cons.1 hm with rfl | hm
    · rw [e, hn]; rfl
    · rw [List.mem_singleton] at hm
      subst hm
      rw [e, hn]
      cases getTagFromFilename f1.1 <;> rfl
  · rfl

theorem joinPairs_none {ty : SeqType} {dirs : List (Text × Dir)} {e : Text × Dir} (he : e ∈ dirs)
    (h : getOrderFromDir e.2 = none) : joinPairs ty dirs = none := by
  have : dirs.mapM (fun d => joinDir ty d.2) = none := by
    rw [mapM_eq_none]
    refine ⟨e, he, ?_⟩
    unfold joinDir
    rw [h]
    cases getSequencesFromDir e.2 <;> rfl
  unfold joinPairs joinAll
  rw [this]
  rfl

/-- A name in some directory. -/
def HasName (s : Store) (T N dir x : Text) : Prop := ∃ e ∈ subDirs s T N, e.1 = dir ∧ x ∈ e.2.map Prod.fst

theorem apply_hasName {s : Store} {T N dir x : Text} (h : HasName s T N dir x) (o : Write) :
    HasName (o.apply s) T N dir x := by
  obtain ⟨e, he, e1, hx⟩ := h
  unfold HasName subDirs at *
  cases hs : s T N with
  | none => rw [hs] at he; simp at he
  | some fd =>
    rw [hs, Option.map_some, Option.getD_some] at he
    unfold Write.apply
    split
    · rw [hs]
      cases o with
      | mkdir a b c =>
        refine ⟨e, ?_, e1, hx⟩
        simp only [Write.act, Option.getD_some, Option.map_some]
        split
        · exact he
        · exact List.mem_append_left _ he
      | put a b c name content =>
        refine ⟨if e.1 = c then (e.1, putFile e.2 name content) else e, ?_, ?_, ?_⟩
        · exact List.mem_map_of_mem (f := fun e : Text × Dir => if e.1 = c then (e.1, putFile e.2 name content) else e) he
        · split <;> exact e1
        · split
          · exact (putFile_names _ _ _ _).2 (.inr hx)
          · exact hx
      | putTop a b name content => exact ⟨e, he, e1, hx⟩
    · rw [hs]
      exact ⟨e, he, e1, hx⟩

theorem applyOps_hasName (ops : List Write) : ∀ {s : Store} {T N dir x : Text}, HasName s T N dir x →
    HasName (applyOps s ops) T N dir x := by
  unfold applyOps
  induction ops with
  | nil => exact fun h => h
  | cons o l ih => exact fun h => ih (apply_hasName h o)

theorem sort_hasName {s : Store} {T N dir x : Text} (h : HasName s T N dir x) (hx : pairSuffix.isSuffixOf x = false) :
    HasName (sortPairsSh s T N).1 T N dir x := by
  obtain ⟨e, he, e1, h⟩ := h
  refine ⟨(e.1, sortDirSh e.2), ?_, e1, sort_keeps_name h hx⟩
  rw [sort_dirs]
  exact List.mem_map_of_mem (f := fun e : Text × Dir => (e.1, sortDirSh e.2)) he

theorem join_hasName (env : Env F κ) (hf : Env.Fair env) {s : Store} {ty : SeqType} {n : ℕ} {dir : Text}
    (h : HasName s ty.toText (natText n) dir unmatchedName) : joinRun env s ty n = ⟨[], none⟩ := by
  refine joinRun_none env fun fd hfd => ?_
  obtain ⟨e, he, _, hx⟩ := h
  unfold subDirs at he
  rw [hfd, Option.map_some, Option.getD_some] at he
  refine joinPairs_none (e := (e.1, env.lsFiles e.2)) ?_ (order_none ?_)
  · unfold listedDirs
    exact List.mem_map_of_mem (f := fun e : Text × Dir => (e.1, env.lsFiles e.2)) ((hf.dirs fd.dirs).mem_iff.2 he)
  · exact ((hf.files e.2).map Prod.fst).mem_iff.2 hx

end Proofs.Scripts
