import Verif.Model.Driver
import Verif.Props.Program
import Verif.Proofs.Joined

/-!
# Helper lemmas: the stages of the driver
-/

set_option linter.unusedSectionVars false
set_option linter.unusedVariables false
set_option linter.unusedSimpArgs false

namespace Proofs.Stages
open Model Spec Proofs.Store Proofs.Program Proofs.Driver Proofs.Command

/-! ## Plain files -/

theorem readTop_eq (s : Store) (ty n x : Text) : readTop s ty n x = lookup (topFiles s ty n) x := by
  unfold readTop topFiles lookup
  cases s ty n <;> rfl

theorem lookup_self (a c : Text) (d : Dir) : lookup ((a, c) :: d) a = some c := by rw [lookup_cons, if_pos rfl]

/-- What happens to the plain files of one directory and to the other directories. -/
structure Effect (ty n : Text) (s s' : Store) (new : Dir) : Prop where
  keep : (s ty n).isSome → (s' ty n).isSome
  read : ∀ x, readTop s' ty n x = (lookup new x).or (readTop s ty n x)
  frame : ∀ a b, (a, b) ≠ (ty, n) → s' a b = s a b

theorem Effect.refl (ty n : Text) (s : Store) : Effect ty n s s [] := ⟨id, fun x => by simp [lookup_nil], fun _ _ _ => rfl⟩

theorem Effect.trans {ty n : Text} {s s' s'' : Store} {new new' : Dir} (h : Effect ty n s s' new)
    (h' : Effect ty n s' s'' new') : Effect ty n s s'' (new' ++ new) :=
  ⟨h'.keep ∘ h.keep, fun x => by rw [h'.read, h.read, lookup_append, Option.or_assoc],
    fun a b hab => (h'.frame a b hab).trans (h.frame a b hab)⟩

theorem effect_of_top {ty n : Text} {s s' : Store} (h1 : (s ty n).isSome → (s' ty n).isSome)
    (h2 : topFiles s' ty n = topFiles s ty n) (h3 : ∀ a b, (a, b) ≠ (ty, n) → s' a b = s a b) : Effect ty n s s' [] :=
  ⟨h1, fun x => by simp [readTop_eq, h2, lookup_nil], h3⟩

theorem effect_put {ty n : Text} {s : Store} (hs : (s ty n).isSome) (name c : Text) :
    Effect ty n s ((Write.putTop ty n name c).apply s) [(name, c)] := by
  obtain ⟨fd, hfd⟩ := Option.isSome_iff_exists.1 hs
  have e : (Write.putTop ty n name c).apply s ty n = some { fd with files := putFile fd.files name c } := by
    rw [apply_path rfl, hfd]; rfl
  refine ⟨fun _ => by rw [e]; rfl, fun x => ?_, fun a b hab => apply_other hab s⟩
  rw [readTop_eq, readTop_eq]
  unfold topFiles
  rw [e, hfd, Option.map_some, Option.map_some, Option.getD_some, Option.getD_some, lookup_putFile, lookup_cons, lookup_nil]
  by_cases h : x = name
  · simp [h]
  · rw [if_neg h, if_neg (Ne.symm h)]; rfl

/-- A list of writes of plain files. -/
theorem effect_puts {ty n : Text} (l : Dir) : ∀ {s : Store}, (s ty n).isSome →
    Effect ty n s (applyOps s (l.map fun f => .putTop ty n f.1 f.2)) l.reverse := by
  induction l with
  | nil => intro s _; exact .refl ..
  | cons f l ih =>
    intro s hs
    have h1 := effect_put hs f.1 f.2
    rw [List.reverse_cons]
    exact h1.trans (ih (h1.keep hs))

/-! ## Flags -/

theorem cleanup_effect (s : Store) (ty n : Text) : Effect ty n s (cleanupSh s ty n) [] := by
  refine effect_of_top ?_ ?_ ?_
  · unfold cleanupSh; simp
  · unfold topFiles cleanupSh
    rw [if_pos rfl]
    cases s ty n <;> rfl
  · intro a b hab; unfold cleanupSh; exact if_neg hab

theorem flag_effect (ty n : Text) (st : Options × Store) (f : Flag) : Effect ty n st.2 (driverFlag ty n st f).2 [] := by
  cases f
  case d => exact cleanup_effect ..
  all_goals exact .refl ..

theorem flags_effect (ty n : Text) (flags : List Flag) : ∀ st : Options × Store,
    Effect ty n st.2 (flags.foldl (driverFlag ty n) st).2 [] := by
  induction flags with
  | nil => intro st; exact .refl ..
  | cons f l ih => intro st; exact (flag_effect ty n st f).trans (ih _)

theorem words_self {t : Text} (h : IsWord t) : shellWords t = [t] := by
  unfold shellWords
  rw [List.splitOnP_eq_singleton]
  · exact List.filter_eq_self.2 fun w hw => by simp only [List.mem_singleton] at hw; subst hw; simpa using h.1
  · intro c hc
    obtain ⟨h1, h2, h3⟩ := h.2 c hc
    simp [h1, h2, h3]

/-- The options do not depend on the store. -/
theorem flags_options (ty n : Text) (flags : List Flag) : ∀ (st : Options × Store),
    (flags.foldl (driverFlag ty n) st).1.matchOption = (if .c ∈ flags then "correlation".toList else st.1.matchOption) ∧
    (flags.foldl (driverFlag ty n) st).1.hadamard = (st.1.hadamard || decide (.h ∈ flags)) ∧
    (flags.foldl (driverFlag ty n) st).1.pairing =
      ((flags.filterMap pairingArg).getLast?).getD st.1.pairing := by
  induction flags with
  | nil => intro st; simp
  | cons f l ih =>
    intro st
    rw [List.foldl_cons]
    obtain ⟨h1, h2, h3⟩ := ih (driverFlag ty n st f)
    rw [h1, h2, h3]
    have hc : ∀ g : Flag, g ≠ .c → (Flag.c ∈ g :: l ↔ Flag.c ∈ l) := fun g hg =>
      ⟨fun h => (List.mem_cons.1 h).resolve_left (Ne.symm hg), List.mem_cons_of_mem _⟩
    have hh : ∀ g : Flag, g ≠ .h → (Flag.h ∈ g :: l ↔ Flag.h ∈ l) := fun g hg =>
      ⟨fun h => (List.mem_cons.1 h).resolve_left (Ne.symm hg), List.mem_cons_of_mem _⟩
    cases f
    case c =>
      refine ⟨?_, ?_, ?_⟩
      · rw [if_pos (List.mem_cons_self ..)]; exact ite_self _
      · simp only [hh _ (by simp : Flag.c ≠ .h)]; rfl
      · rw [List.filterMap_cons_none rfl]; rfl
    case h =>
      refine ⟨?_, ?_, ?_⟩
      · simp only [hc _ (by simp : Flag.h ≠ .c)]; rfl
      · rw [decide_eq_true (List.mem_cons_self ..), Bool.or_true]; exact Bool.true_or _
      · rw [List.filterMap_cons_none rfl]; rfl
    case p a =>
      refine ⟨by simp only [hc _ (by simp : Flag.p a ≠ .c)]; rfl, by simp only [hh _ (by simp : Flag.p a ≠ .h)]; rfl, ?_⟩
      rw [List.filterMap_cons_some (f := pairingArg) (a := .p a) (b := a) rfl, List.getLast?_cons]
      cases (l.filterMap pairingArg).getLast? <;> rfl
    all_goals
      refine ⟨?_, ?_, ?_⟩
      · rw [if_congr (hc _ (by simp)) rfl rfl]; rfl
      · rw [decide_eq_decide.2 (hh _ (by simp))]; rfl
      · rw [List.filterMap_cons_none rfl]; rfl

/-- The directories that remain. -/
theorem flags_dirs (ty n : Text) (flags : List Flag) : ∀ (st : Options × Store),
    subDirs (flags.foldl (driverFlag ty n) st).2 ty n =
      if .d ∈ flags then (subDirs st.2 ty n).filter (fun e => !rowsumPrefix.isPrefixOf e.1) else subDirs st.2 ty n := by
  have hclean : ∀ s, subDirs (cleanupSh s ty n) ty n = (subDirs s ty n).filter (fun e => !rowsumPrefix.isPrefixOf e.1) := by
    intro s
    unfold subDirs cleanupSh
    rw [if_pos rfl]
    cases s ty n <;> rfl
  induction flags with
  | nil => intro st; simp
  | cons f l ih =>
    intro st
    rw [List.foldl_cons, ih]
    cases f
    case d =>
      simp only [List.mem_cons, true_or, if_true]
      show (if _ then (subDirs (cleanupSh st.2 ty n) ty n).filter _ else subDirs (cleanupSh st.2 ty n) ty n) = _
      rw [hclean]
      split
      · rw [List.filter_filter]; simp
      · rfl
    all_goals simp [driverFlag]

theorem mkdir_effect (s : Store) (ty n : Text) : Effect ty n s (mkdirFind s ty n) [] := by
  refine effect_of_top ?_ ?_ ?_
  · unfold mkdirFind; simp
  · unfold topFiles mkdirFind
    rw [if_pos rfl]
    cases s ty n <;> rfl
  · intro a b hab; unfold mkdirFind; exact if_neg hab

theorem mkdir_some (s : Store) (ty n : Text) : (mkdirFind s ty n ty n).isSome := by
  unfold mkdirFind; rw [if_pos rfl]; rfl

theorem mkdir_dirs (s : Store) (ty n : Text) : subDirs (mkdirFind s ty n) ty n = subDirs s ty n := by
  unfold subDirs mkdirFind
  rw [if_pos rfl]
  cases s ty n <;> rfl

theorem fresh_iff {s : Store} {ty n : Text} : Fresh s ty n ↔ subDirs s ty n = [] := by
  unfold Fresh subDirs
  cases s ty n <;> simp

/-! ## Printed sequences -/

theorem chars_pm {n : ℕ} {s : List ℤ} (h : PMSeq n s) :
    (List.range n).mapM (fun i => (s[i]?).bind pmToChar) = some (Files.pmText s) := by
  obtain ⟨rfl, h⟩ := h
  rw [mapM_some (g := fun i => if (s[i]?).getD 0 = 1 then '+' else '-') fun i hi => by
    have hi := List.mem_range.1 hi
    rw [List.getElem?_eq_getElem hi, Option.bind_some, Option.getD_some]
    rcases h _ (List.getElem_mem hi) with e | e <;> rw [e] <;> rfl]
  congr 1
  refine List.ext_getElem (by simp [Files.pmText]) fun i h1 h2 => ?_
  have hi : i < s.length := by simpa using h1
  simp [Files.pmText, List.getElem?_eq_getElem hi]

theorem toText_eq {n : ℕ} {q : QuadSeq} (h : PMQuad n q) : q.toText = some ("[\n".toList ++
    ([q.a, q.b, q.c, q.d].flatMap fun s => "  [".toList ++ Files.pmText s ++ "]\n".toList) ++ "]".toList) := by
  unfold QuadSeq.toText
  rw [mapM_some (g := Files.pmText) fun s hs => ?_, Option.map_some]
  · simp
  · rw [h.size]
    simp only [List.mem_cons, List.not_mem_nil, or_false] at hs
    rcases hs with rfl | rfl | rfl | rfl
    · exact chars_pm h.a
    · exact chars_pm h.b
    · exact chars_pm h.c
    · exact chars_pm h.d

theorem toText_some {n : ℕ} {q : QuadSeq} (h : PMQuad n q) : ∃ t, q.toText = some t := ⟨_, toText_eq h⟩

theorem qseq_some {n : ℕ} {l : List QuadSeq} (h : ∀ q ∈ l, PMQuad n q) : ∃ t, qseqText l = some t := by
  have : ∃ ts, l.mapM QuadSeq.toText = some ts := by
    rw [← Option.isSome_iff_exists, Option.isSome_iff_ne_none, Ne, mapM_eq_none]
    rintro ⟨q, hq, h1⟩
    obtain ⟨t, ht⟩ := toText_some (h q hq)
    rw [h1] at ht
    cases ht
  obtain ⟨ts, hts⟩ := this
  exact ⟨unlines ts, by unfold qseqText; rw [hts]; rfl⟩

/-! ## The join stage and the conversions -/

variable {F κ : Type} [DecidableEq κ]

/-- The files written by the join stage, in the order of the writes. -/
def joinFiles (t q : Text) (second : Option (Text × Text)) : Dir :=
  [("result.seq".toList, []), ("result.qseq".toList, []), ("result.seq".toList, t), ("result.qseq".toList, q)] ++
    match second with
    | none => []
    | some (t', q') => [("result-qts.seq".toList, []), ("result-qts.qseq".toList, []), ("result-qts.seq".toList, t'),
        ("result-qts.qseq".toList, q')]

theorem writeResult_some {ty n a b : Text} {l : List QuadSeq} {t q : Text} (h1 : resultText l = some t)
    (h2 : qseqText l = some q) : writeResultRun ty n a b l =
      ⟨([(a, []), (b, []), (a, t), (b, q)] : Dir).map fun f => .putTop ty n f.1 f.2, some ()⟩ := by
  unfold writeResultRun
  rw [h1, h2]
  rfl

theorem joinRun_some (env : Env F κ) {s : Store} {ty : SeqType} {n : ℕ} {fd : FindDir} {r : List QuadSeq}
    {r' : Option (List QuadSeq)} {t q : Text} {second : Option (Text × Text)} (hfd : s ty.toText (natText n) = some fd)
    (hj : findWriteQuadSeq n ty (listedDirs env fd) = some (r, r'))
    (hsr : ∀ m, joinAll ty (listedDirs env fd) = some m → ∀ x ∈ m, hasSortedRowsums x = true) (hv : ty = .quaternionType → ∀ x ∈ r, x.verifyQts = true)
    (ht : resultText r = some t) (hq : qseqText r = some q)
    (h2 : ∀ l, r' = some l → ∃ t' q', resultText l = some t' ∧ qseqText l = some q' ∧ second = some (t', q'))
    (h3 : r' = none → second = none) :
    joinRun env s ty n = ⟨(joinFiles t q second).map fun f => .putTop ty.toText (natText n) f.1 f.2, some ()⟩ := by
  unfold findWriteQuadSeq at hj
  obtain ⟨r0, hr0, hj⟩ := Option.bind_eq_some_iff.1 hj
  obtain ⟨m0, hm0, _⟩ : ∃ m, joinAll ty (listedDirs env fd) = some m ∧ True := by
    unfold joinPairs at hr0
    obtain ⟨m, hm, _⟩ := Option.bind_eq_some_iff.1 hr0
    exact ⟨m, hm, trivial⟩
  have hsorted : (if env.debug && !m0.all hasSortedRowsums then none else some ()) = some () := by
    refine if_neg fun h => ?_
    simp only [Bool.and_eq_true, Bool.not_eq_true', List.all_eq_false] at h
    obtain ⟨_, x, hx, hxv⟩ := h
    exact hxv (hsr m0 hm0 x hx)
  have hassert : (if env.debug && ty = .quaternionType && !r0.all QuadSeq.verifyQts then none else some ()) = some () := by
    refine if_neg fun h => ?_
    simp only [Bool.and_eq_true, decide_eq_true_eq, Bool.not_eq_true', List.all_eq_false] at h
    obtain ⟨⟨_, hty⟩, x, hx, hxv⟩ := h
    rw [hty] at hj
    cases hj
    rw [hv hty x hx] at hxv
    simp at hxv
  unfold joinRun
  dsimp only
  rw [hfd, some_bind, hm0, some_bind, hsorted, some_bind, hr0, some_bind, hassert, some_bind]
  cases ty
  case williamsonType =>
    obtain ⟨l, hl, hj⟩ := Option.map_eq_some_iff.1 hj
    cases hj
    obtain ⟨t', q', k1, k2, rfl⟩ := h2 l rfl
    rw [writeResult_some ht hq, mk_bind]
    dsimp only
    rw [hl, some_bind, writeResult_some k1 k2, joinFiles, List.map_append]
  all_goals
    cases hj
    rw [h3 rfl, writeResult_some ht hq, mk_bind, pure_eq]
    rfl

/-- The file from which `convert hm` reads. -/
def hmSource (ty : SeqType) : Text := match ty with
  | .williamsonType => "result-qts.seq".toList
  | _ => "result.seq".toList

theorem hm_stage (env : Env F κ) {s : Store} {ty : SeqType} {n : ℕ} (hs : (s ty.toText (natText n)).isSome) :
    ∃ new, Effect ty.toText (natText n) s (applyOps s (convertHmRun env s ty n).ops) new ∧
      (∀ f ∈ new, f.1 = "result.mat".toList) ∧
      (∀ src text, readTop s ty.toText (natText n) (hmSource ty) = some src →
        hadamardEquivalenceFromFile env.canon env.hmOrder env.debug ty src = some text →
        lookup new "result.mat".toList = some text) ∧
      ∀ src, readTop s ty.toText (natText n) (hmSource ty) = some src →
        hadamardEquivalenceFromFile env.canon env.hmOrder env.debug ty src = none → new = [] := by
  have e : convertHmRun env s ty n = (Run.ofOption (readTop s ty.toText (natText n) (hmSource ty)) >>= fun t =>
      Run.ofOption (hadamardEquivalenceFromFile env.canon env.hmOrder env.debug ty t) >>= fun text =>
      Run.op (.putTop ty.toText (natText n) "result.mat".toList text)) := rfl
  rw [e]
  cases h1 : readTop s ty.toText (natText n) (hmSource ty) with
  | none => exact ⟨[], .refl .., by simp, (fun _ _ h => by cases h), fun _ _ _ => rfl⟩
  | some src =>
    rw [some_bind]
    cases h2 : hadamardEquivalenceFromFile env.canon env.hmOrder env.debug ty src with
    | none =>
      refine ⟨[], .refl .., by simp, fun src' text h h' => ?_, fun _ _ _ => rfl⟩
      cases h
      rw [h2] at h'
      cases h'
    | some text =>
      rw [some_bind]
      refine ⟨_, effect_put hs "result.mat".toList text, by simp, fun src' text' h h' => ?_, fun src' h h' => ?_⟩
      · cases h
        rw [h2] at h'
        cases h'
        exact lookup_self ..
      · cases h
        rw [h2] at h'
        cases h'

theorem qhm_stage {s : Store} {ty : SeqType} {n : ℕ} (hs : (s ty.toText (natText n)).isSome) :
    ∃ new, Effect ty.toText (natText n) s (applyOps s (convertQhmRun s ty n).ops) new ∧
      (∀ f ∈ new, f.1 = "result.qhm".toList) ∧
      ∀ t m, readTop s ty.toText (natText n) "result.seq".toList = some t → convertQsToMatrices t = some m →
        lookup new "result.qhm".toList = some m.1 := by
  unfold convertQhmRun
  cases h1 : readTop s ty.toText (natText n) "result.seq".toList with
  | none => exact ⟨[], .refl .., by simp, fun _ _ h => by cases h⟩
  | some t =>
    dsimp only
    rw [op_bind]
    cases h2 : convertQsToMatrices t with
    | none =>
      rw [none_bind]
      refine ⟨_, effect_put hs "result.qhm".toList [], by simp, fun t' m h h' => ?_⟩
      cases h
      rw [h2] at h'
      cases h'
    | some m =>
      rw [some_bind]
      refine ⟨_, effect_puts [("result.qhm".toList, []), ("result.qhm".toList, m.1)] hs, by simp, fun t' m' h h' => ?_⟩
      cases h
      rw [h2] at h'
      cases h'
      exact lookup_self ..

theorem lookup_of_names {new : Dir} {a x : Text} (h : ∀ f ∈ new, f.1 = a) (hx : x ≠ a) : lookup new x = none := by
  rw [lookup_eq_none]
  intro hm
  obtain ⟨f, hf, rfl⟩ := List.mem_map.1 hm
  exact hx (h f hf)

/-- The files of the join stage. -/
def joinNames : List Text :=
  ["result.seq".toList, "result.qseq".toList, "result-qts.seq".toList, "result-qts.qseq".toList]

theorem joinFiles_names (t q : Text) (second : Option (Text × Text)) : ∀ x ∈ (joinFiles t q second).map Prod.fst, x ∈ joinNames := by
  cases second with
  | none =>
    show ∀ x ∈ ["result.seq".toList, "result.qseq".toList, "result.seq".toList, "result.qseq".toList], x ∈ joinNames
    decide
  | some p =>
    show ∀ x ∈ ["result.seq".toList, "result.qseq".toList, "result.seq".toList, "result.qseq".toList,
      "result-qts.seq".toList, "result-qts.qseq".toList, "result-qts.seq".toList, "result-qts.qseq".toList], x ∈ joinNames
    decide

/-- The store after the pair stage and the sorting of the driver. -/
def joinState (env : Env F κ) (T N : Text) (flags : List Flag) (s : Store) : Store :=
  (sortPairsSh (runProgram env (mkdirFind (flags.foldl (driverFlag T N) (.default, s)).2 T N)
    (["pairs".toList, T, N, (flags.foldl (driverFlag T N) (.default, s)).1.matchOption] ++
      shellWords (flags.foldl (driverFlag T N) (.default, s)).1.pairing)).1 T N).1

/-- The driver up to the join stage, when the pair stage does not panic. -/
theorem at_join (env : Env F κ) (hf : Env.Fair env) {n : ℕ} [NeZero n] (hn : n < 2 ^ 62) (ty : SeqType) (flags : List Flag) (s : Store)
    (hr : Ready s ty.toText (natText n) flags) {mo : MatchOption} (hmo : mo = if .c ∈ flags then .correlation else .psd)
    {w : List (Text × Dir)} (hw : writePairs env.A n ty mo (strToRowsumPairing (flagPairing flags)) = some w) :
    ∃ fd s1 o, flags.foldl (driverFlag ty.toText (natText n)) (.default, s) = (o, s1) ∧
      hasRowsumDirs s1 ty.toText (natText n) = false ∧ Fresh (mkdirFind s1 ty.toText (natText n)) ty.toText (natText n) ∧
      o.matchOption = matchName mo ∧ shellWords o.pairing = [flagPairing flags] ∧ o.hadamard = decide (.h ∈ flags) ∧
      joinState env ty.toText (natText n) flags s ty.toText (natText n) = some fd ∧ Listing w (listedDirs env fd) ∧
      Effect ty.toText (natText n) s (joinState env ty.toText (natText n) flags s) [] ∧
      SameDirs (subDirs (runProgram env (mkdirFind s1 ty.toText (natText n)) ["pairs".toList, ty.toText, natText n, o.matchOption, flagPairing flags]).1 ty.toText (natText n)) w ∧
      ((runProgram env (mkdirFind s1 ty.toText (natText n)) ["pairs".toList, ty.toText, natText n, o.matchOption, flagPairing flags]).1 ty.toText (natText n)).isSome ∧
      joinState env ty.toText (natText n) flags s = (sortPairsSh (runProgram env (mkdirFind s1 ty.toText (natText n))
        ["pairs".toList, ty.toText, natText n, o.matchOption, flagPairing flags]).1 ty.toText (natText n)).1 := by
  set T := ty.toText with hT
  set N := natText n with hN
  have hty : strToSeqtype T = some ty := seqtype_text ty
  have hnn : parseUsize N = some n := Txt.parse_natText (by omega)
  have hTne : ¬ (T = [] ∨ N = []) := by
    rintro (h | h)
    · rw [hT] at h; cases ty <;> revert h <;> decide
    · exact Txt.natText_ne n h
  -- the flags
  obtain ⟨o1, o2, o3⟩ := flags_options T N flags (.default, s)
  have e1 := flags_effect T N flags (.default, s)
  have hd := flags_dirs T N flags (.default, s)
  rcases hst : flags.foldl (driverFlag T N) (.default, s) with ⟨o, s1⟩
  rw [hst] at o1 o2 o3 e1 hd
  have hfresh : subDirs s1 T N = [] := by
    rw [hd]
    split
    · rw [List.filter_eq_nil_iff]
      intro e he
      have := (hr.dirs e he).2
      simp only [Bool.not_eq_true', Bool.not_eq_false]
      exact List.isPrefixOf_iff_prefix.2 this
    · rename_i hnd
      refine List.eq_nil_iff_forall_not_mem.2 fun e he => hnd (hr.dirs e he).1
  have hno : hasRowsumDirs s1 T N = false := by
    unfold hasRowsumDirs
    cases h : s1 T N with
    | none => rfl
    | some d =>
      have : d.dirs = [] := by
        unfold subDirs at hfresh
        rw [h] at hfresh
        exact hfresh
      simp [this]
  -- the directory
  have e2 := mkdir_effect s1 T N
  have hs2 := mkdir_some s1 T N
  have hfr2 : Fresh (mkdirFind s1 T N) T N := by rw [fresh_iff, mkdir_dirs, hfresh]
  have hmoT : o.matchOption = matchName mo := by
    rw [o1, hmo]
    split <;> rfl
  have hprT : o.pairing = flagPairing flags := o3
  have hhad : o.hadamard = decide (.h ∈ flags) := by rw [o2]; rfl
  -- the pair stage
  obtain ⟨s3, h3, hsame, htop⟩ := Props.C77_pairs env (mkdirFind s1 T N) T N o.matchOption o.pairing ty n mo hty hnn hmoT w
    (by rw [hprT]; exact hw) hfr2
  have hs3 : (s3 T N).isSome := by
    obtain ⟨l, hl, hrun⟩ := pairsRun_some env.A (by rw [hprT]; exact hw : writePairs env.A n ty mo (strToRowsumPairing o.pairing) = some w)
    obtain ⟨hnd, hnf, _⟩ := pairs_names hw
    obtain ⟨_, _, _, _, r5⟩ := separate_result (ty := T) (n := N) hnd hnf (interleave_flatten _) (mkdirFind s1 T N) hfr2
    have : s3 = applyOps (mkdirFind s1 T N) (mainRun env (mkdirFind s1 T N) ["pairs".toList, T, N, o.matchOption, o.pairing]).ops := by
      have := congrArg Prod.fst h3
      exact this.symm
    rw [this, main_pairs env _ hty hnn (mo_iff.2 hmoT), hrun, mk_bind, pure_eq, List.append_nil]
    rw [hs2] at r5
    exact r5 rfl
  have e3 : Effect T N (mkdirFind s1 T N) s3 [] := by
    refine effect_of_top (fun _ => hs3) htop fun a b hab => ?_
    have := Props.C77_frame env (mkdirFind s1 T N) ["pairs".toList, T, N, o.matchOption, o.pairing] ty n
      (.pairs hty hnn (mo_some.2 ⟨mo, mo_iff.2 hmoT⟩)) a b hab
    rw [h3] at this
    exact this
  -- sorting
  obtain ⟨fd3, hfd3⟩ := Option.isSome_iff_exists.1 hs3
  obtain ⟨s4, fd4, h4, hfd4, hfiles, hlist⟩ := Props.C78_listing env hf n ty mo _ w hw s3 fd3 hfd3 hsame
  have e4 : Effect T N s3 s4 [] := by
    refine effect_of_top (fun _ => by rw [hfd4]; rfl) ?_ fun a b hab => ?_
    · unfold topFiles
      rw [hfd4, hfd3, Option.map_some, Option.map_some, hfiles]
    · have : s4 = (sortPairsSh s3 T N).1 := by rw [h4]
      rw [this]
      unfold sortPairsSh
      exact if_neg hab
  have hs4 : (s4 T N).isSome := by rw [hfd4]; rfl
  have hjs : joinState env T N flags s = s4 := by
    unfold joinState
    rw [hst]
    dsimp only
    rw [hprT, words_self hr.pairing, ← hprT,
      show ["pairs".toList, T, N, o.matchOption] ++ [o.pairing] = ["pairs".toList, T, N, o.matchOption, o.pairing] from rfl, h3, h4]
  rw [hjs]
  refine ⟨fd4, s1, o, rfl, hno, hfr2, hmoT, by rw [hprT, words_self hr.pairing], hhad, hfd4, hlist, ?_, ?_, ?_, ?_⟩
  · exact ⟨fun h => e4.keep hs3, fun x => by rw [e4.read, e3.read, e2.read, e1.read]; rfl,
      fun a b hab => by rw [e4.frame a b hab, e3.frame a b hab, e2.frame a b hab]; exact e1.frame a b hab⟩
  · rw [← hprT, h3]; exact hsame
  · rw [← hprT, h3]; exact hs3
  · rw [← hprT, h3, h4]

/-- The store after the join stage of the driver. -/
def afterJoin (env : Env F κ) (T N : Text) (flags : List Flag) (s : Store) : Store :=
  (runProgram env (joinState env T N flags s) ["join".toList, T, N]).1

/-- The store before the last stage of the driver. -/
def afterHm (env : Env F κ) (T N : Text) (flags : List Flag) (s : Store) : Store :=
  if .h ∈ flags then (runProgram env (afterJoin env T N flags s) ["convert".toList, "hm".toList, T, N]).1
  else afterJoin env T N flags s

/-- The join stage and the stages after it, when the join stage does not panic. -/
theorem after_join (env : Env F κ) (hf : Env.Fair env) {n : ℕ} [NeZero n] (hn : n < 2 ^ 62) (ty : SeqType) (flags : List Flag) (s : Store)
    (hr : Ready s ty.toText (natText n) flags) {mo : MatchOption} (hmo : mo = if .c ∈ flags then .correlation else .psd)
    {w : List (Text × Dir)} (hw : writePairs env.A n ty mo (strToRowsumPairing (flagPairing flags)) = some w)
    {P : List QuadSeq → Option (List QuadSeq) → Prop}
    (hj : ∀ dirs, Listing w dirs → ∃ r r', findWriteQuadSeq n ty dirs = some (r, r') ∧ P r r')
    (hpm : ∀ r r', P r r' → (∀ q ∈ r, PMQuad n q ∧ (ty = .quaternionType → q.verifyQts = true)) ∧
      ∀ l, r' = some l → ∀ q ∈ l, PMQuad n q) :
    ∃ fd r r' t q second, joinState env ty.toText (natText n) flags s ty.toText (natText n) = some fd ∧
      Listing w (listedDirs env fd) ∧ findWriteQuadSeq n ty (listedDirs env fd) = some (r, r') ∧ P r r' ∧
      resultText r = some t ∧ qseqText r = some q ∧
      (∀ l, r' = some l → ∃ t' q', resultText l = some t' ∧ qseqText l = some q' ∧ second = some (t', q')) ∧
      runProgram env (joinState env ty.toText (natText n) flags s) ["join".toList, ty.toText, natText n] =
        (afterJoin env ty.toText (natText n) flags s, true) ∧
      Effect ty.toText (natText n) s (joinState env ty.toText (natText n) flags s) [] ∧
      Effect ty.toText (natText n) (joinState env ty.toText (natText n) flags s)
        (afterJoin env ty.toText (natText n) flags s) (joinFiles t q second).reverse ∧
      (afterJoin env ty.toText (natText n) flags s ty.toText (natText n)).isSome ∧
      driverSh env ty.toText (natText n) flags s =
        ((runProgram env (afterHm env ty.toText (natText n) flags s) ["convert".toList, "qhm".toList, ty.toText, natText n]).1, 0) := by
  set T := ty.toText with hT
  set N := natText n with hN
  have hty : strToSeqtype T = some ty := seqtype_text ty
  have hnn : parseUsize N = some n := Txt.parse_natText (by omega)
  have hTne : ¬ (T = [] ∨ N = []) := by
    rintro (h | h)
    · rw [hT] at h; cases ty <;> revert h <;> decide
    · exact Txt.natText_ne n h
  obtain ⟨fd4, s1, o, hst, hno, _, hmoT, hwords, hhad, hfd4, hlist, e4, _, hs3, hjs⟩ := at_join env hf hn ty flags s hr hmo hw
  set s4 := joinState env T N flags s with hs4def
  have hs4 : (s4 T N).isSome := by rw [hfd4]; rfl
  -- joining
  obtain ⟨r, r', hjr, hP⟩ := hj _ hlist
  obtain ⟨p1, p2⟩ := hpm r r' hP
  obtain ⟨t, ht, _⟩ := Conversion.resultText_spec (n := n) (l := r) fun q hq => (p1 q hq).1
  obtain ⟨q, hq⟩ := qseq_some (n := n) (l := r) fun q hq => (p1 q hq).1
  obtain ⟨second, hsec, hsec0⟩ : ∃ second : Option (Text × Text),
      (∀ l, r' = some l → ∃ t' q', resultText l = some t' ∧ qseqText l = some q' ∧ second = some (t', q')) ∧
      (r' = none → second = none) := by
    cases r' with
    | none => exact ⟨none, fun l h => (by cases h), fun _ => rfl⟩
    | some l =>
      obtain ⟨t', ht', _⟩ := Conversion.resultText_spec (n := n) (l := l) (p2 l rfl)
      obtain ⟨q', hq'⟩ := qseq_some (n := n) (l := l) (p2 l rfl)
      exact ⟨some (t', q'), fun l' h => by cases h; exact ⟨t', q', ht', hq', rfl⟩, fun h => by cases h⟩
  have hsup : Supported ty := by
    unfold findWriteQuadSeq joinPairs filterCanonical at hjr
    cases ty <;> first | exact .inl rfl | exact .inr (.inl rfl) | exact .inr (.inr rfl) | skip
    all_goals
      obtain ⟨_, h, _⟩ := Option.bind_eq_some_iff.1 hjr
      obtain ⟨_, _, h⟩ := Option.bind_eq_some_iff.1 h
      cases h
  have hjrun := joinRun_some env hfd4 hjr (fun m hm => Joined.joined_sorted hn hsup hw hlist hm) (fun hq x hx => (p1 x hx).2 hq) ht hq hsec hsec0
  have e5 := effect_puts (ty := T) (n := N) (joinFiles t q second) hs4
  set s5 := applyOps s4 ((joinFiles t q second).map fun f => .putTop T N f.1 f.2) with hs5
  have hs5s : (s5 T N).isSome := e5.keep hs4
  have h5 : runProgram env s4 ["join".toList, T, N] = (s5, true) := by
    unfold runProgram
    rw [main_join env s4 hty hnn, hjrun]
    rfl
  have haj : afterJoin env T N flags s = s5 := by unfold afterJoin; rw [← hs4def, h5]
  rw [haj]
  refine ⟨fd4, r, r', t, q, second, hfd4, hlist, hjr, hP, ht, hq, hsec, h5, e4, e5, hs5s, ?_⟩
  unfold driverSh
  rw [if_neg hTne, hst]
  dsimp only
  rw [hno, if_neg (by simp)]
  unfold driverStages piped teeStatus
  rw [hwords]
  rw [show ["pairs".toList, T, N, o.matchOption] ++ [flagPairing flags] =
    ["pairs".toList, T, N, o.matchOption, flagPairing flags] from rfl]
  dsimp only
  rw [hs3, if_neg (by simp), show (sortPairsSh (runProgram env (mkdirFind s1 T N)
    ["pairs".toList, T, N, o.matchOption, flagPairing flags]).1 T N).2 = true from hs3, if_neg (by simp), ← hjs, h5]
  dsimp only
  rw [hs5s, if_neg (by simp)]
  unfold afterHm
  rw [haj, hhad]
  by_cases hh : .h ∈ flags <;> simp [hh]

/-- All stages, when none of them panics. -/
theorem driver_core (env : Env F κ) (hf : Env.Fair env) {n : ℕ} [NeZero n] (hn : n < 2 ^ 62) (ty : SeqType) (flags : List Flag) (s : Store)
    (hr : Ready s ty.toText (natText n) flags) {mo : MatchOption} (hmo : mo = if .c ∈ flags then .correlation else .psd)
    {w : List (Text × Dir)} (hw : writePairs env.A n ty mo (strToRowsumPairing (flagPairing flags)) = some w)
    {P : List QuadSeq → Option (List QuadSeq) → Prop}
    (hj : ∀ dirs, Listing w dirs → ∃ r r', findWriteQuadSeq n ty dirs = some (r, r') ∧ P r r')
    (hpm : ∀ r r', P r r' → (∀ q ∈ r, PMQuad n q ∧ (ty = .quaternionType → q.verifyQts = true)) ∧
      ∀ l, r' = some l → ∀ q ∈ l, PMQuad n q) :
    ∃ s' r r' t q, driverSh env ty.toText (natText n) flags s = (s', 0) ∧ P r r' ∧
      resultText r = some t ∧ qseqText r = some q ∧
      readTop s' ty.toText (natText n) "result.seq".toList = some t ∧
      readTop s' ty.toText (natText n) "result.qseq".toList = some q ∧
      (∀ l, r' = some l → ∃ t' q', resultText l = some t' ∧ qseqText l = some q' ∧
        readTop s' ty.toText (natText n) "result-qts.seq".toList = some t' ∧
        readTop s' ty.toText (natText n) "result-qts.qseq".toList = some q') ∧
      (.h ∈ flags → ∀ src text, readTop s' ty.toText (natText n) (hmSource ty) = some src →
        hadamardEquivalenceFromFile env.canon env.hmOrder env.debug ty src = some text →
        readTop s' ty.toText (natText n) "result.mat".toList = some text) ∧
      (∀ src, readTop s' ty.toText (natText n) (hmSource ty) = some src →
        hadamardEquivalenceFromFile env.canon env.hmOrder env.debug ty src = none →
        readTop s' ty.toText (natText n) "result.mat".toList = readTop s ty.toText (natText n) "result.mat".toList) ∧
      (∀ m, convertQsToMatrices t = some m → readTop s' ty.toText (natText n) "result.qhm".toList = some m.1) ∧
      (∀ x, x ∉ joinNames → x ≠ "result.qhm".toList → (x = "result.mat".toList → .h ∉ flags) →
        readTop s' ty.toText (natText n) x = readTop s ty.toText (natText n) x) ∧
      ∀ a b, (a, b) ≠ (ty.toText, natText n) → s' a b = s a b := by
  set T := ty.toText with hT
  set N := natText n with hN
  have hty : strToSeqtype T = some ty := seqtype_text ty
  have hnn : parseUsize N = some n := Txt.parse_natText (by omega)
  obtain ⟨fd4, r, r', t, q, second, hfd4, hlist, hjr, hP, ht, hq, hsec, h5, e4, e5, hs5s, hdrv⟩ :=
    after_join env hf hn ty flags s hr hmo hw hj hpm
  set s4 := joinState env T N flags s with hs4def
  set s5 := afterJoin env T N flags s with hs5
  -- conversions
  obtain ⟨new6, e6, n6, c6, d6⟩ := hm_stage env (ty := ty) (n := n) hs5s
  let s6 : Store := if .h ∈ flags then applyOps s5 (convertHmRun env s5 ty n).ops else s5
  obtain ⟨new6', e6', n6', c6'⟩ : ∃ new, Effect T N s5 s6 new ∧ (∀ f ∈ new, f.1 = "result.mat".toList ∧ .h ∈ flags) ∧
      (.h ∈ flags → new = new6) := by
    by_cases hh : .h ∈ flags
    · refine ⟨new6, ?_, fun f hf => ⟨n6 f hf, hh⟩, fun _ => rfl⟩
      simp only [s6, hh, if_true]
      exact e6
    · refine ⟨[], ?_, by simp, fun h => absurd h hh⟩
      simp only [s6, hh, if_false]
      exact .refl ..
  have hs6 : (s6 T N).isSome := e6'.keep hs5s
  obtain ⟨new7, e7, n7, c7⟩ := qhm_stage (ty := ty) (n := n) hs6
  set s7 := applyOps s6 (convertQhmRun s6 ty n).ops with hs7
  have hs7s : (s7 T N).isSome := e7.keep hs6
  -- everything together
  have hrun : driverSh env T N flags s = (s7, 0) := by
    rw [hdrv]
    have hm6 : afterHm env T N flags s = s6 := by
      simp only [s6]
      unfold afterHm runProgram
      rw [main_hm env _ hty hnn]
    rw [hm6]
    unfold runProgram
    rw [main_qhm env s6 hty hnn]
  have hread6 : ∀ x, x ≠ "result.mat".toList → readTop s6 T N x = readTop s5 T N x := fun x hx => by
    rw [e6'.read, lookup_of_names (fun f hf => (n6' f hf).1) hx, Option.none_or]
  have hread7 : ∀ x, x ≠ "result.qhm".toList → readTop s7 T N x = readTop s6 T N x := fun x hx => by
    rw [e7.read, lookup_of_names n7 hx, Option.none_or]
  have hseq : readTop s5 T N "result.seq".toList = some t ∧ readTop s5 T N "result.qseq".toList = some q := by
    rw [e5.read, e5.read]
    cases second <;> exact ⟨rfl, rfl⟩
  have hother : ∀ x, x ∉ joinNames → x ≠ "result.qhm".toList → lookup new6' x = none →
      readTop s7 T N x = readTop s T N x := by
    intro x hx hx1 hx2
    have h6 : readTop s6 T N x = readTop s5 T N x := by rw [e6'.read, hx2, Option.none_or]
    have h5' : lookup (joinFiles t q second).reverse x = none := by
      rw [lookup_eq_none]
      intro hm
      refine hx ?_
      rw [List.map_reverse, List.mem_reverse] at hm
      exact joinFiles_names t q second x hm
    rw [hread7 _ hx1, h6, e5.read, h5', Option.none_or, e4.read]
    rfl
  have hne : hmSource ty ≠ "result.mat".toList ∧ hmSource ty ≠ "result.qhm".toList := by cases ty <;> decide
  refine ⟨s7, r, r', t, q, hrun, hP, ht, hq, ?_, ?_, ?_, ?_, ?_, ?_, ?_, ?_⟩
  · rw [hread7 _ (by decide), hread6 _ (by decide), hseq.1]
  · rw [hread7 _ (by decide), hread6 _ (by decide), hseq.2]
  · intro l hl
    obtain ⟨t', q', k1, k2, rfl⟩ := hsec l hl
    refine ⟨t', q', k1, k2, ?_, ?_⟩
    · rw [hread7 _ (by decide), hread6 _ (by decide), e5.read]; rfl
    · rw [hread7 _ (by decide), hread6 _ (by decide), e5.read]; rfl
  · intro hh src text h1 h2
    rw [hread7 _ hne.2, hread6 _ hne.1] at h1
    rw [hread7 _ (by decide), e6'.read, c6' hh, c6 src text h1 h2]
    rfl
  · intro src h1 h2
    rw [hread7 _ hne.2, hread6 _ hne.1] at h1
    refine hother _ (by decide) (by decide) ?_
    by_cases hh : .h ∈ flags
    · rw [c6' hh, d6 src h1 h2]; rfl
    · rw [lookup_eq_none]
      intro hm
      obtain ⟨f, hf, _⟩ := List.mem_map.1 hm
      exact hh (n6' f hf).2
  · intro m hm
    rw [e7.read, c7 t m (by rw [hread6 _ (by decide), hseq.1]) hm]
    rfl
  · intro x hx hx1 hx2
    refine hother x hx hx1 ?_
    rw [lookup_eq_none]
    intro hm
    obtain ⟨f, hf, rfl⟩ := List.mem_map.1 hm
    exact hx2 (n6' f hf).1 (n6' f hf).2
  · intro a b hab
    rw [e7.frame a b hab, e6'.frame a b hab, e5.frame a b hab, e4.frame a b hab]

end Proofs.Stages
