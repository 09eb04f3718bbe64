import Verif.Proofs.Log
import Verif.Props.Driver

/-!
# Helper lemmas: the log of a complete run
-/

set_option linter.unusedVariables false
set_option linter.unusedSimpArgs false

namespace Proofs.Log
open Model Spec Proofs Proofs.Store Proofs.Program Proofs.Driver Proofs.Command Proofs.Stages Proofs.Scripts Props

variable {F κ : Type} [DecidableEq κ]

/-! ## The directories after the join stage -/

/-- Only plain files are written. -/
def TopOnly {α : Type} (r : Run α) : Prop := ∀ o ∈ r.ops, ∃ a b x t, o = .putTop a b x t

theorem TopOnly.bind {α β : Type} {r : Run α} {f : α → Run β} (h : TopOnly r) (k : ∀ a, TopOnly (f a)) : TopOnly (r >>= f) := by
  show TopOnly (Run.bind r f)
  unfold Run.bind
  cases e : r.result with
  | none => exact h
  | some a =>
    intro o ho
    rcases List.mem_append.1 ho with ho | ho
    · exact h o ho
    · exact k a o ho

theorem TopOnly.ofOption {α : Type} (a : Option α) : TopOnly (Run.ofOption a) := fun o ho => by cases ho

theorem TopOnly.pure {α : Type} (a : α) : TopOnly (Pure.pure a : Run α) := fun o ho => by cases ho

theorem TopOnly.put (a b x t : Text) : TopOnly (Run.op (.putTop a b x t)) := fun o ho => ⟨a, b, x, t, List.mem_singleton.1 ho⟩

theorem top_join (env : Env F κ) (s : Store) (ty : SeqType) (p : ℕ) : TopOnly (joinRun env s ty p) := by
  have hw : ∀ a b c d l, TopOnly (writeResultRun a b c d l) := fun a b c d l => by
    unfold writeResultRun
    exact .bind (.put _ _ _ _) fun _ => .bind (.put _ _ _ _) fun _ => .bind (.ofOption _) fun _ => .bind (.ofOption _) fun _ => .bind (.put _ _ _ _) fun _ => .put _ _ _ _
  unfold joinRun
  refine .bind (.ofOption _) fun _ => .bind (.ofOption _) fun _ => .bind (.ofOption _) fun _ => .bind (.ofOption _) fun _ =>
    .bind (.ofOption _) fun _ => .bind (hw _ _ _ _ _) fun _ => ?_
  cases ty
  case williamsonType => exact .bind (.ofOption _) fun _ => hw _ _ _ _ _
  all_goals exact .pure _

theorem top_hm (env : Env F κ) (s : Store) (ty : SeqType) (p : ℕ) : TopOnly (convertHmRun env s ty p) := by
  unfold convertHmRun
  exact .bind (.ofOption _) fun _ => .bind (.ofOption _) fun _ => .put _ _ _ _

theorem top_qhm (s : Store) (ty : SeqType) (p : ℕ) : TopOnly (convertQhmRun s ty p) := by
  unfold convertQhmRun
  cases readTop s ty.toText (natText p) "result.seq".toList with
  | none => exact .pure _
  | some t => exact .bind (.put _ _ _ _) fun _ => .bind (.ofOption _) fun _ => .put _ _ _ _

theorem top_dirs {ops : List Write} (h : ∀ o ∈ ops, ∃ a b x t, o = Write.putTop a b x t) (s : Store) (T N : Text) :
    subDirs (applyOps s ops) T N = subDirs s T N := by
  induction ops generalizing s with
  | nil => rfl
  | cons o ops ih =>
    show subDirs (applyOps (o.apply s) ops) T N = _
    rw [ih fun o ho => h o (List.mem_cons_of_mem _ ho)]
    obtain ⟨a, b, x, t, rfl⟩ := h o (List.mem_cons_self ..)
    unfold subDirs Write.apply
    split
    · unfold Write.act
      dsimp only
      cases s T N <;> rfl
    · rfl

theorem count_dirs {s s' : Store} {T N : Text} (h : subDirs s T N = subDirs s' T N) : countPairsSh s T N = countPairsSh s' T N := by
  have e : ∀ s : Store, countPairsSh s T N = ((subDirs s T N).map fun e => ((e.2.filter fun f => sortedSuffix.isSuffixOf f.1).map fun f => wcLines f.2).sum).sum := by
    intro s
    unfold countPairsSh subDirs
    cases s T N <;> rfl
  rw [e, e, h]

theorem run_join_dirs (env : Env F κ) (s : Store) {T N : Text} {ty : SeqType} {n : ℕ} (hty : strToSeqtype T = some ty) (hn : parseUsize N = some n)
    (A B : Text) : subDirs (runProgram env s ["join".toList, T, N]).1 A B = subDirs s A B := by
  unfold runProgram
  rw [main_join env s hty hn]
  exact top_dirs (top_join env s ty n) s A B

theorem run_hm_dirs (env : Env F κ) (s : Store) {T N : Text} {ty : SeqType} {n : ℕ} (hty : strToSeqtype T = some ty) (hn : parseUsize N = some n)
    (A B : Text) : subDirs (runProgram env s ["convert".toList, "hm".toList, T, N]).1 A B = subDirs s A B := by
  unfold runProgram
  rw [main_hm env s hty hn]
  exact top_dirs (top_hm env s ty n) s A B

theorem run_qhm_dirs (env : Env F κ) (s : Store) {T N : Text} {ty : SeqType} {n : ℕ} (hty : strToSeqtype T = some ty) (hn : parseUsize N = some n)
    (A B : Text) : subDirs (runProgram env s ["convert".toList, "qhm".toList, T, N]).1 A B = subDirs s A B := by
  unfold runProgram
  rw [main_qhm env s hty hn]
  exact top_dirs (top_qhm s ty n) s A B

/-! ## The log of the driver -/

/-- What the log of the driver shows. -/
def driverFound (tm : Terminal) (ty : SeqType) (total : ℕ) (r : List QuadSeq) (r' : Option (List QuadSeq)) (hm : Bool) : Found :=
  { Found.nil with g := [total], t := [secs tm.totalTime] } ++ { Found.nil with t := [secs tm.sortTime] } ++ joinFound tm ty r r' ++
    if hm then { Found.nil with c := [secs tm.hmTime] } else .nil

theorem shows_pairsEnd (tm : Terminal) :
    Shows ("Generating the .pair files took ".toList ++ natText tm.pairsSeconds ++ " seconds. \n \n\n".toList) .nil := by
  have h1 := quiet_fill [some "Generating the .pair files took ".toList, none, some " seconds. ".toList] [natText tm.pairsSeconds] rfl
    (by simpa using hole_nat _) (by decide) rfl
  have h2 := quiet_fill [some " ".toList] [] rfl (by simp) (by decide) rfl
  refine (congrArg₂ Shows ?_ rfl).mp ((h1.quiet_append h2).quiet_append shows_empty)
  rw [show " seconds. \n \n\n".toList = " seconds. ".toList ++ ['\n'] ++ (" ".toList ++ ['\n']) ++ ['\n'] from by decide]
  fill_eq

theorem shows_joinEnd (tm : Terminal) :
    Shows ("Joining the files together took ".toList ++ natText tm.joinSeconds ++ " seconds. \n\n\n".toList) .nil := by
  have h1 := quiet_fill [some "Joining the files together took ".toList, none, some " seconds. ".toList] [natText tm.joinSeconds] rfl
    (by simpa using hole_nat _) (by decide) rfl
  refine (congrArg₂ Shows ?_ rfl).mp ((h1.quiet_append shows_empty).quiet_append shows_empty)
  rw [show " seconds. \n\n\n".toList = " seconds. ".toList ++ ['\n'] ++ ['\n'] ++ ['\n'] from by decide]
  fill_eq

/-- What the log of a complete run shows, with the driver, with the scripts of the stages, and when the join stage is repeated. -/
theorem log_core (env : Env F κ) (hf : Env.Fair env) {n : ℕ} [NeZero n] (hn : n < 2 ^ 62) {ty : SeqType} (hsup : Supported ty)
    (flags : List Flag) (s : Store)
    (hr : Ready s ty.toText (natText n) flags) {mo : MatchOption} (hmo : mo = if .c ∈ flags then .correlation else .psd)
    {w : List (Text × Dir)} (hw : writePairs env.A n ty mo (strToRowsumPairing (flagPairing flags)) = some w)
    {P : List QuadSeq → Option (List QuadSeq) → Prop}
    (hj : ∀ dirs, Listing w dirs → ∃ r r', findWriteQuadSeq n ty dirs = some (r, r') ∧ P r r')
    (hpm : ∀ r r', P r r' → (∀ q ∈ r, PMQuad n q ∧ (ty = .quaternionType → q.verifyQts = true)) ∧
      ∀ l, r' = some l → ∀ q ∈ l, PMQuad n q) (tm : Terminal) (old : Option Text) :
    ∃ s' r r' text, driverSh env ty.toText (natText n) flags s = (s', 0) ∧ P r r' ∧
      driverLog env tm ty.toText (natText n) flags s old = some text ∧
      Shows text (driverFound tm ty (countPairsSh s' ty.toText (natText n)) r r' (.h ∈ flags)) ∧
      (∃ text', scriptsLog env tm ty.toText (natText n) flags s old = some text' ∧
        Shows text' (driverFound tm ty (countPairsSh s' ty.toText (natText n)) r r' (.h ∈ flags))) ∧
      ∀ (tm' : Terminal) (log : Text) (L : Found), Shows log L →
        ∃ log', joinPairsShLog env tm' ty.toText (natText n) s' (some log) = some log' ∧ Shows log' (L ++ joinFound tm' ty r r') := by
  have hty : strToSeqtype ty.toText = some ty := seqtype_text ty
  have hnn : parseUsize (natText n) = some n := Txt.parse_natText (by omega)
  have hTne : ¬ (ty.toText = [] ∨ natText n = []) := by
    rintro (h | h)
    · cases ty <;> revert h <;> decide
    · exact Txt.natText_ne n h
  obtain ⟨fd, s1, o, hst, hno, _, hmoT, hwords, hhad, hfd, hlist, _, hsame, hs3, hjs⟩ := at_join env hf hn ty flags s hr hmo hw
  obtain ⟨fd', r, r', t, q, second, hfd', _, hjr, hP, hrt, hqt, hsec, hrun, _, _, hsj, hdrv⟩ := after_join env hf hn ty flags s hr hmo hw hj hpm
  rw [hfd] at hfd'
  cases hfd'
  have hwn := named_written hw
  have htot := C81_countpairs env.A n ty mo (strToRowsumPairing (flagPairing flags)) w hw _ hsame
  rw [← hjs] at htot
  obtain ⟨m, hm⟩ : ∃ m, joinAll ty (listedDirs env fd) = some m := by
    unfold findWriteQuadSeq joinPairs at hjr
    obtain ⟨_, h, _⟩ := Option.bind_eq_some_iff.1 hjr
    obtain ⟨m, h, _⟩ := Option.bind_eq_some_iff.1 h
    exact ⟨m, h⟩
  have hd : (env.debug && !m.all hasSortedRowsums) = false := by
    have : m.all hasSortedRowsums = true := List.all_eq_true.2 (Joined.joined_sorted hn hsup hw hlist hm)
    rw [this]
    simp
  have hM : strToMatchOption o.matchOption = some mo := by
    rw [hmoT]
    cases mo <;> decide
  have ha : ty = .quaternionType → ∀ q ∈ r, q.isAmicable = true ∧ q.verifyQts = true := fun h q hq => by
    obtain ⟨p1, p2⟩ := (hpm r r' hP).1 q hq
    refine ⟨?_, p2 h⟩
    have := ((C04_isQTS_iff_isWTS n q).1 ((C08_verify_qts n q p1).1 (p2 h))).2
    exact (isAmicable_iff p1).2 this.2
  -- the stages
  have kj : ∀ (tm : Terminal) (s2 : Store), subDirs s2 ty.toText (natText n) = subDirs (joinState env ty.toText (natText n) flags s) ty.toText (natText n) →
      (s2 ty.toText (natText n)).isSome → (mainOut env tm s2 ["join".toList, ty.toText, natText n]).result = some () ∧
        Shows (mainOut env tm s2 ["join".toList, ty.toText, natText n]).text (joinFound tm ty r r') := by
    intro tm s2 h1 h2
    obtain ⟨fd2, hfd2⟩ := Option.isSome_iff_exists.1 h2
    have e : fd2.dirs = fd.dirs := by
      have := h1
      unfold subDirs at this
      rw [hfd2, hfd] at this
      exact this
    have e2 : listedDirs env fd2 = listedDirs env fd := by
      unfold listedDirs
      rw [e]
    rw [out_join env tm _ hty hnn]
    exact shows_join env tm hfd2 (e2 ▸ named_listing hwn hlist) (e2 ▸ hm) hd (e2 ▸ hjr) ha ⟨t, hrt⟩ ⟨q, hqt⟩ fun l hl => by
      obtain ⟨t', q', p1, p2, _⟩ := hsec l hl
      exact ⟨⟨t', p1⟩, q', p2⟩
  have dj := run_join_dirs env (joinState env ty.toText (natText n) flags s) hty hnn ty.toText (natText n)
  have dh : subDirs (afterHm env ty.toText (natText n) flags s) ty.toText (natText n) =
      subDirs (joinState env ty.toText (natText n) flags s) ty.toText (natText n) := by
    unfold afterHm
    split
    · exact (run_hm_dirs env _ hty hnn _ _).trans dj
    · exact dj
  have dq := (run_qhm_dirs env (afterHm env ty.toText (natText n) flags s) hty hnn ty.toText (natText n)).trans dh
  have kh : (afterHm env ty.toText (natText n) flags s ty.toText (natText n)).isSome := by
    unfold afterHm
    split
    · unfold runProgram
      rw [main_hm env _ hty hnn]
      obtain ⟨_, e, _⟩ := hm_stage env hsj
      exact e.keep hsj
    · exact hsj
  have kq : ((runProgram env (afterHm env ty.toText (natText n) flags s) ["convert".toList, "qhm".toList, ty.toText, natText n]).1
      ty.toText (natText n)).isSome := by
    unfold runProgram
    rw [main_qhm env _ hty hnn]
    obtain ⟨_, e, _⟩ := qhm_stage kh
    exact e.keep kh
  rw [count_dirs dq.symm] at htot
  set total := countPairsSh (runProgram env (afterHm env ty.toText (natText n) flags s) ["convert".toList, "qhm".toList, ty.toText, natText n]).1 ty.toText (natText n) with htotal
  have k1 : Shows (stdout env tm (mkdirFind s1 ty.toText (natText n)) ["pairs".toList, ty.toText, natText n, o.matchOption, flagPairing flags])
      { Found.nil with g := [total], t := [secs tm.totalTime] } := by
    unfold stdout
    rw [out_pairs env tm _ hty hnn hM]
    exact shows_pairs env.A tm n ty mo _ htot
  have k2 := shows_sort tm (runProgram env (mkdirFind s1 ty.toText (natText n))
    ["pairs".toList, ty.toText, natText n, o.matchOption, flagPairing flags]).1 ty n (named_same hwn hsame)
  have hjsome : (joinState env ty.toText (natText n) flags s ty.toText (natText n)).isSome := by rw [hfd]; rfl
  have k3 := kj tm _ rfl hjsome
  have k5 := fun s4 => ((shows_pqs.quiet_append (shows_qhmLog env tm s4 hty hnn)).quiet_append (shows_last tm))
  obtain ⟨text, htext, hshows⟩ : ∃ text, driverLog env tm ty.toText (natText n) flags s old = some text ∧
      Shows text (driverFound tm ty total r r' (.h ∈ flags)) := by
    unfold driverLog
    rw [if_neg hTne, hst]
    dsimp only
    rw [hno, if_neg (by simp), hwords]
    refine ⟨_, rfl, ?_⟩
    rw [show ["pairs".toList, ty.toText, natText n, o.matchOption] ++ [flagPairing flags] =
      ["pairs".toList, ty.toText, natText n, o.matchOption, flagPairing flags] from rfl, ← hjs, hhad]
    have h123 := (k1.append k2).append k3.2
    by_cases hh : .h ∈ flags
    · have k4 := shows_hmLog env tm (runProgram env (joinState env ty.toText (natText n) flags s) ["join".toList, ty.toText, natText n]).1 hty hnn
      have := (h123.append k4).append_quiet (k5 (runProgram env (runProgram env (joinState env ty.toText (natText n) flags s) ["join".toList, ty.toText, natText n]).1
        ["convert".toList, "hm".toList, ty.toText, natText n]).1)
      unfold driverFound
      simp only [hh, decide_true, if_true]
      refine (congrArg₂ Shows ?_ rfl).mp this
      unfold stdout
      simp only [List.append_assoc]
    · have := h123.append_quiet (k5 (runProgram env (joinState env ty.toText (natText n) flags s) ["join".toList, ty.toText, natText n]).1)
      unfold driverFound
      simp only [hh, decide_false, Bool.false_eq_true, if_false, Found.append_nil]
      refine (congrArg₂ Shows ?_ rfl).mp this
      unfold stdout
      simp only [List.append_assoc, List.append_nil, List.nil_append]
  refine ⟨_, r, r', text, hdrv, hP, htext, hshows, ?_, ?_⟩
  · obtain ⟨e1, e2, e3⟩ := pairsFlags_eq ty.toText (natText n) flags .default .default s rfl rfl
    rcases hst' : flags.foldl (pairsFlag ty.toText (natText n)) (.default, s) with ⟨o', s1'⟩
    rw [hst, hst'] at e1 e2 e3
    dsimp only at e1 e2 e3
    subst e1
    have hp1 : pairsShLog env tm ty.toText (natText n) flags s old =
        some (stdout env tm (mkdirFind s1' ty.toText (natText n)) ["pairs".toList, ty.toText, natText n, o.matchOption, flagPairing flags] ++
          "Generating the .pair files took ".toList ++ natText tm.pairsSeconds ++ " seconds. \n \n\n".toList) := by
      unfold pairsShLog
      rw [if_neg hTne, hst']
      dsimp only
      rw [hno, if_neg (by simp), e2, e3, hwords]
      rfl
    have hp2 : (pairsSh env ty.toText (natText n) flags s).1 =
        (runProgram env (mkdirFind s1' ty.toText (natText n)) ["pairs".toList, ty.toText, natText n, o.matchOption, flagPairing flags]).1 := by
      unfold pairsSh
      rw [if_neg hTne, hst']
      dsimp only
      rw [hno, if_neg (by simp), e2, e3, hwords]
      rfl
    unfold scriptsLog
    dsimp only
    rw [hp1, hp2, ← hjs]
    have c1 : sortPairsShLog tm ty.toText (natText n) (runProgram env (mkdirFind s1' ty.toText (natText n))
        ["pairs".toList, ty.toText, natText n, o.matchOption, flagPairing flags]).1 = fun old => some (old.getD [] ++ sortLog tm (runProgram env (mkdirFind s1' ty.toText (natText n))
        ["pairs".toList, ty.toText, natText n, o.matchOption, flagPairing flags]).1 ty.toText (natText n)) := by
      funext old
      unfold sortPairsShLog appendLog
      rw [if_pos hs3]
    have c2 : joinPairsShLog env tm ty.toText (natText n) (joinState env ty.toText (natText n) flags s) = fun old => some (old.getD [] ++
        ((mainOut env tm (joinState env ty.toText (natText n) flags s) ["join".toList, ty.toText, natText n]).text ++
        "Joining the files together took ".toList ++ natText tm.joinSeconds ++ " seconds. \n\n\n".toList)) := by
      funext old
      unfold joinPairsShLog appendLog
      dsimp only
      rw [if_pos hjsome, k3.1]
      simp
    have c3 : joinPairsSh env ty.toText (natText n) (joinState env ty.toText (natText n) flags s) = afterJoin env ty.toText (natText n) flags s := by
      unfold joinPairsSh
      rw [if_pos hjsome]
      rfl
    have c4 : (if .h ∈ flags then convertHmSh env ty.toText (natText n) (afterJoin env ty.toText (natText n) flags s)
        else afterJoin env ty.toText (natText n) flags s) = afterHm env ty.toText (natText n) flags s := rfl
    rw [c1, c2, c3, c4]
    dsimp only
    have k6 := ((k1.append_quiet (shows_pairsEnd tm)).append k2).append (k3.2.append_quiet (shows_joinEnd tm))
    have k7 := shows_qhmLog env tm (afterHm env ty.toText (natText n) flags s) hty hnn
    unfold convertQhmShLog appendLog
    rw [if_pos kh]
    refine ⟨_, rfl, ?_⟩
    unfold driverFound
    refine Shows.append_quiet ?_ k7
    by_cases hh : .h ∈ flags
    · rw [if_pos hh]
      simp only [hh, decide_true, if_true]
      unfold convertHmShLog appendLog
      rw [if_pos hsj]
      have k8 : Shows (stdout env tm (afterJoin env ty.toText (natText n) flags s) ["convert".toList, "hm".toList, ty.toText, natText n] ++
          "Converting to matrices up to Hadamard equivalence took ".toList ++ secsText tm.hmTime ++ " seconds\n".toList) { Found.nil with c := [secs tm.hmTime] } := by
        unfold stdout
        rw [out_hm env tm _ hty hnn, List.append_assoc, List.append_assoc]
        refine Shows.quiet_append (quiet_hm env _ ty n) ?_
        refine (congrArg₂ Shows ?_ rfl).mp (shows_convert tm.hmTime)
        rw [show " seconds\n".toList = " seconds".toList ++ ['\n'] from by decide]
        simp only [List.append_assoc]
      refine Shows.append ?_ k8
      refine (congrArg₂ Shows ?_ rfl).mp k6
      simp only [Option.getD_some, List.append_assoc]
    · rw [if_neg hh]
      simp only [hh, decide_false, Bool.false_eq_true, if_false, Found.append_nil]
      refine (congrArg₂ Shows ?_ rfl).mp k6
      simp only [Option.getD_some, List.append_assoc]
  · intro tm' log L hL
    have k := kj tm' _ dq kq
    unfold joinPairsShLog appendLog
    dsimp only
    rw [if_pos kq, k.1]
    refine ⟨_, rfl, ?_⟩
    refine (congrArg₂ Shows ?_ rfl).mp (hL.append (k.2.append_quiet (shows_joinEnd tm')))
    simp

/-- The row of a log. -/
theorem row_shows {text : Text} {L : Found} (h : Shows text L) (s : Store) (T N : Text) :
    collectRow (some text) s T N =
      { q := (L.q.head?.map fun k => (k : ℤ)).getD (-1), w := (L.w.head?.map fun k => (k : ℤ)).getD (-1), m := matrixCount s T N,
        time := L.t.sum, qtTime := L.r.head?.getD (-1), hmTime := L.c.head?.getD (-1),
        pairs := (L.g.head?.map fun k => (k : ℤ)).getD (countPairsSh s T N) } := by
  obtain ⟨h1, h2, h3, h4, h5, h6⟩ := h.scan
  unfold collectRow reducedCount readRuntimes qtEquivalenceTime hmEquivalenceTime countPairs
  have e1 : numAt "Found ".toList (" ".toList ++ "qts".toList ++ " after reducing to equivalence".toList) = patQ := rfl
  have e2 : numAt "Found ".toList (" ".toList ++ "wts".toList ++ " after reducing to equivalence".toList) = patW := rfl
  have e3 : numAt "Generated ".toList " total pairs".toList = patG := rfl
  have e4 : secsAt ": ".toList " seconds".toList = patT := rfl
  have e5 : floatAt "Reducing to equivalence took ".toList " seconds".toList = patR := rfl
  have e6 : floatAt "Converting to matrices up to Hadamard equivalence took ".toList " seconds".toList = patC := rfl
  dsimp only
  rw [e1, e2, e3, e4, e5, e6, h1, h2, h3, h4, h5, h6]

/-- The lines of `result.mat`. -/
theorem matrixCount_stored {s : Store} {T N : Text} {Q : QuadSeq → Prop} (h : MatsStored s T N Q) :
    matrixCount s T N = ({c : Set HM | ∃ q m, Q q ∧ HM.fromWilliamson q .quaternionType = some m ∧ c = {y | HMEquiv m y}}.ncard : ℤ) := by
  have hc := C81_matrices s T N Q h
  obtain ⟨out, ts, h1, h2, _⟩ := h
  have hcl : ∀ t ∈ ts, '\n' ∉ t := fun t ht => by
    obtain ⟨m, _, hm⟩ := forall₂_mem_right h2 ht
    exact (Print.magma_clean hm).1
  unfold matrixCount
  rw [h1] at hc ⊢
  rw [Option.map_some] at hc ⊢
  rw [wc_unlines ts hcl] at hc
  have := pyLines_unlines ts hcl []
  rw [List.append_nil, pyLines_nil, List.append_nil] at this
  rw [this, Option.getD_some]
  exact congrArg Nat.cast (Option.some.inj hc)

end Proofs.Log
