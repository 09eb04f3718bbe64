import Verif.Proofs.Redrive
import Verif.Spec.Interrupt

/-!
# Running the driver again after it was killed
-/

set_option linter.unusedSectionVars false
set_option linter.unusedVariables false
set_option linter.unusedSimpArgs false

namespace Proofs.Interrupt
open Model Spec Proofs.Store Proofs.Program Proofs.Command Proofs.Stages Proofs.Rerun Proofs.Redrive

variable {F κ : Type} [DecidableEq κ]

theorem same_tops {N : List Text} : ∀ {pre pre' : List Write}, List.Forall₂ SameTarget pre pre' → AllTops N pre → AllTops N pre'
  | _, _, .nil, _ => fun _ h => by cases h
  | _, _, .cons (a := a) (b := b) h1 h2, h => by
    intro o ho
    rcases List.mem_cons.1 ho with rfl | ho
    · obtain ⟨ty, n, name, c, rfl, hn⟩ := h a List.mem_cons_self
      cases o with
      | mkdir => exact h1.elim
      | put => exact h1.elim
      | putTop ty' n' name' c' => exact ⟨_, _, _, _, rfl, h1.2.2 ▸ hn⟩
    · exact same_tops h2 (fun x hx => h x (List.mem_cons_of_mem _ hx)) o ho

theorem same_inDirs : ∀ {pre pre' : List Write}, List.Forall₂ SameTarget pre pre' → InDirs pre → InDirs pre'
  | _, _, .nil, _ => fun _ h => by cases h
  | _, _, .cons (a := a) (b := b) h1 h2, h => by
    intro o ho
    rcases List.mem_cons.1 ho with rfl | ho
    · rcases h a List.mem_cons_self with ⟨ty, n, dir, name, c, rfl⟩ | ⟨ty, n, rs, rfl⟩
      · cases o with
        | mkdir => exact h1.elim
        | put => exact .inl ⟨_, _, _, _, _, rfl⟩
        | putTop => exact h1.elim
      · cases o with
        | mkdir ty' n' dir' => exact .inr ⟨_, _, rs, by rw [h1.2.2]⟩
        | put => exact h1.elim
        | putTop => exact h1.elim
    · exact same_inDirs h2 (fun x hx => h x (List.mem_cons_of_mem _ hx)) o ho

/-- What the killed late stages leave. -/
structure Late (env : Env F κ) (T : SeqType) (p : ℕ) (o : Options) (u t : Store) : Prop where
  same : late env T.toText (natText p) o t = late env T.toText (natText p) o u
  dirs : (t T.toText (natText p)).map FindDir.dirs = (u T.toText (natText p)).map FindDir.dirs
  other : ∀ a b, (a, b) ≠ (T.toText, natText p) → t a b = u a b

theorem late_killed (env : Env F κ) (T : SeqType) {p : ℕ} (hp : p < 2 ^ 64) (o : Options) (u t : Store)
    (hu : (u T.toText (natText p)).isSome)
    (h : Killed u (joinRun env u T p).ops t ∨
      (∃ v, v = applyOps u (joinRun env u T p).ops ∧ o.hadamard = true ∧ Killed v (convertHmRun env v T p).ops t) ∨
      ∃ v w, v = applyOps u (joinRun env u T p).ops ∧ w = applyOps v (hmOps env T p o v) ∧ Killed w (convertQhmRun w T p).ops t) :
    Late env T p o u t := by
  have h1 := seqtype_text T
  have h2 := Txt.parse_natText hp
  have tJ := tops_join env u T p
  have gJ := g_join env u T p
  have pJ := (into_join env u T p).all
  have eU := late_eq env T hp o u hu
  rcases h with ⟨pre, pre', post, hj, hs, rfl⟩ | ⟨v, rfl, ho, pre, pre', post, hj, hs, rfl⟩ | ⟨v, w, rfl, rfl, pre, pre', post, hj, hs, rfl⟩
  · have tp' : AllTops _ pre' := same_tops hs fun x hx => tJ x (by rw [hj]; exact List.mem_append_left _ hx)
    have pp' : ∀ x ∈ pre', x.path = (T.toText, natText p) :=
      same_paths hs fun x hx => pJ x (by rw [hj]; exact List.mem_append_left _ hx)
    have dd := tops_dirs pre' u T.toText (natText p) tp'
    have e1 : applyOps (applyOps u pre') (joinRun env u T p).ops = applyOps u (joinRun env u T p).ops := by
      rw [hj] at pJ gJ ⊢
      exact store_redo hs pJ gJ
    refine ⟨?_, dd, fun a b hab => ?_⟩
    · have eT := late_eq env T hp o _ (tops_some tp' hu)
      rw [eT, eU, join_dirs env dd, e1]
    · rw [applyOps_path _ _ pp']
      simp only [hab, if_false]
  · have eH : hmOps env T p o (applyOps u (joinRun env u T p).ops) = (convertHmRun env (applyOps u (joinRun env u T p).ops) T p).ops := by
      unfold hmOps
      rw [if_pos ho]
    dsimp only at eU
    generalize hJ : (joinRun env u T p).ops = J at *
    have vs := tops_some tJ hu
    have tH := tops_hm env (applyOps u J) T p
    have pH := (into_hm env (applyOps u J) T p).all
    have gH := g_main env (applyOps u J) (args := ["convert".toList, "hm".toList, T.toText, natText p]) (.convert (.inl rfl) h1 h2)
    rw [main_hm env _ h1 h2] at gH
    have tp' : AllTops _ pre' := same_tops hs fun x hx => tH x (by rw [hj]; exact List.mem_append_left _ hx)
    have pp' : ∀ x ∈ pre', x.path = (T.toText, natText p) :=
      same_paths hs fun x hx => pH x (by rw [hj]; exact List.mem_append_left _ hx)
    have dd : (applyOps (applyOps u J) pre' T.toText (natText p)).map FindDir.dirs = (u T.toText (natText p)).map FindDir.dirs := by
      rw [tops_dirs _ _ _ _ tp', tops_dirs _ _ _ _ tJ]
    refine ⟨?_, dd, fun a b hab => ?_⟩
    · have eT := late_eq env T hp o _ (tops_some tp' vs)
      dsimp only at eT
      rw [eT, eU]
      have n1 : applyOps (applyOps (applyOps u J) pre') J = applyOps (applyOps u J) pre' := store_noop tJ tp' (by decide) pJ pp' gJ
      have e2 : hmOps env T p o (applyOps (applyOps u J) pre') = hmOps env T p o (applyOps u J) := by
        unfold hmOps
        rw [hm_reads env (tops_read (by decide) _ _ _ _ tp') (tops_read (by decide) _ _ _ _ tp')]
      have n2 : applyOps (applyOps (applyOps u J) pre') (hmOps env T p o (applyOps u J)) =
          applyOps (applyOps u J) (hmOps env T p o (applyOps u J)) := by
        rw [eH]
        rw [hj] at pH gH ⊢
        exact store_redo hs pH gH
      rw [join_dirs env dd, hJ, n1, e2, n2]
    · rw [applyOps_path _ _ pp', applyOps_path _ _ pJ]
      simp only [hab, if_false]
  · dsimp only at eU
    generalize hJ : (joinRun env u T p).ops = J at *
    have vs := tops_some tJ hu
    have tH := tops_hmOps env T p o (applyOps u J)
    have gH : AllRdy (applyOps u J T.toText (natText p)) (hmOps env T p o (applyOps u J)) := by
      have := g_main env (applyOps u J) (args := ["convert".toList, "hm".toList, T.toText, natText p]) (.convert (.inl rfl) h1 h2)
      rw [main_hm env _ h1 h2] at this
      unfold hmOps
      split
      · exact this
      · trivial
    have pH : ∀ x ∈ hmOps env T p o (applyOps u J), x.path = (T.toText, natText p) := by
      unfold hmOps
      split
      · exact (into_hm env _ T p).all
      · exact fun _ h => by cases h
    generalize hH : hmOps env T p o (applyOps u J) = H at *
    have tQ := tops_qhm (applyOps (applyOps u J) H) T p
    have gQ := g_main env (applyOps (applyOps u J) H) (args := ["convert".toList, "qhm".toList, T.toText, natText p])
      (.convert (.inr rfl) h1 h2)
    rw [main_qhm env _ h1 h2] at gQ
    have pQ := (into_qhm (applyOps (applyOps u J) H) T p).all
    have tp' : AllTops _ pre' := same_tops hs fun x hx => tQ x (by rw [hj]; exact List.mem_append_left _ hx)
    have pp' : ∀ x ∈ pre', x.path = (T.toText, natText p) :=
      same_paths hs fun x hx => pQ x (by rw [hj]; exact List.mem_append_left _ hx)
    have tHQ := tH.append tp'
    have pHQ : ∀ x ∈ H ++ pre', x.path = (T.toText, natText p) := fun x hx => (List.mem_append.1 hx).elim (pH x) (pp' x)
    have tt : applyOps (applyOps (applyOps u J) H) pre' = applyOps (applyOps u J) (H ++ pre') := (applyOps_append ..).symm
    have dd : (applyOps (applyOps (applyOps u J) H) pre' T.toText (natText p)).map FindDir.dirs =
        (u T.toText (natText p)).map FindDir.dirs := by
      rw [tt, tops_dirs _ _ _ _ tHQ, tops_dirs _ _ _ _ tJ]
    refine ⟨?_, dd, fun a b hab => ?_⟩
    · have eT := late_eq env T hp o _ (tt ▸ tops_some tHQ vs)
      dsimp only at eT
      rw [eT, eU]
      have n1 : applyOps (applyOps (applyOps (applyOps u J) H) pre') J = applyOps (applyOps (applyOps u J) H) pre' := by
        rw [tt]
        exact store_noop tJ tHQ (by decide) pJ pHQ gJ
      have e2 : hmOps env T p o (applyOps (applyOps (applyOps u J) H) pre') = H := by
        refine Eq.trans ?_ hH
        unfold hmOps
        rw [tt, hm_reads env (tops_read (by decide) _ _ _ _ tHQ) (tops_read (by decide) _ _ _ _ tHQ)]
      have n2 : applyOps (applyOps (applyOps (applyOps u J) H) pre') H = applyOps (applyOps (applyOps u J) H) pre' :=
        store_noop tH tp' (by decide) pH pp' gH
      have e3 : convertQhmRun (applyOps (applyOps (applyOps u J) H) pre') T p = convertQhmRun (applyOps (applyOps u J) H) T p :=
        qhm_reads (tops_read (by decide) _ _ _ _ tp')
      have n3 : applyOps (applyOps (applyOps (applyOps u J) H) pre') (convertQhmRun (applyOps (applyOps u J) H) T p).ops =
          applyOps (applyOps (applyOps u J) H) (convertQhmRun (applyOps (applyOps u J) H) T p).ops := by
        rw [hj] at pQ gQ ⊢
        exact store_redo hs pQ gQ
      rw [join_dirs env dd, hJ, n1, e2, n2, e3, n3]
    · rw [applyOps_path _ _ pp', applyOps_path _ _ pH, applyOps_path _ _ pJ]
      simp only [hab, if_false]

/-- The stages of the driver before `join`. -/
theorem stages (env : Env F κ) (T : SeqType) {p : ℕ} (hp : p < 2 ^ 64) (flags : List Flag) (hd : Flag.d ∈ flags) :
    ∃ o P d1 d2, InDirs P ∧ (∀ x ∈ P, x.path = (T.toText, natText p)) ∧ Rows d1 ∧ Rows d2 ∧
      (∀ s, (mainRun env s (["pairs".toList, T.toText, natText p, o.matchOption] ++ shellWords o.pairing)).ops = P) ∧
      ∀ s, (∀ d, s T.toText (natText p) = some d → Rows d.dirs) →
      (flags.foldl (driverFlag T.toText (natText p)) (.default, s)).1 = o ∧
      mkdirFind (flags.foldl (driverFlag T.toText (natText p)) (.default, s)).2 T.toText (natText p) =
        upd s T.toText (natText p) (some ⟨topFiles s T.toText (natText p), []⟩) ∧
      applyOps (upd s T.toText (natText p) (some ⟨topFiles s T.toText (natText p), []⟩)) P =
        upd s T.toText (natText p) (some ⟨topFiles s T.toText (natText p), d1⟩) ∧
      (sortPairsSh (upd s T.toText (natText p) (some ⟨topFiles s T.toText (natText p), d1⟩)) T.toText (natText p)).1 =
        upd s T.toText (natText p) (some ⟨topFiles s T.toText (natText p), d2⟩) ∧
      driverSh env T.toText (natText p) flags s =
        late env T.toText (natText p) o (upd s T.toText (natText p) (some ⟨topFiles s T.toText (natText p), d2⟩)) := by
  obtain ⟨o, ho⟩ := flags_eq T.toText (natText p) flags .default (fun _ _ => none)
  obtain ⟨P, hP, pP, eP⟩ := pairs_ops env T hp (o.matchOption :: shellWords o.pairing)
  obtain ⟨d1, hd1, h1⟩ := inDirs_act P [] hP (fun _ h => by cases h)
  refine ⟨o, P, d1, d1.map fun e => (e.1, sortDirSh e.2), hP, pP, hd1, fun e he => ?_, eP, fun s hs => ?_⟩
  · obtain ⟨x, hx, rfl⟩ := List.mem_map.1 he
    exact hd1 x hx
  · obtain ⟨c1, c2⟩ := clean s T.toText (natText p) hs
    have hp1 : applyOps (upd s T.toText (natText p) (some ⟨topFiles s T.toText (natText p), []⟩)) P =
        upd s T.toText (natText p) (some ⟨topFiles s T.toText (natText p), d1⟩) := by
      rw [applyOps_path _ _ pP]
      funext a b
      unfold upd
      by_cases hab : (a, b) = (T.toText, natText p)
      · simp only [hab, if_true]
        exact h1 _
      · simp only [hab, if_false]
    have hsort : sortPairsSh (upd s T.toText (natText p) (some ⟨topFiles s T.toText (natText p), d1⟩)) T.toText (natText p) =
        (upd s T.toText (natText p) (some ⟨topFiles s T.toText (natText p), d1.map fun e => (e.1, sortDirSh e.2)⟩), true) := by
      unfold sortPairsSh teeStatus
      rw [upd_at]
      refine Prod.ext ?_ rfl
      funext a b
      unfold upd
      dsimp only
      by_cases hab : (a, b) = (T.toText, natText p)
      · simp only [hab, if_true]; rfl
      · simp only [hab, if_false]
    have hpp : piped env (upd s T.toText (natText p) (some ⟨topFiles s T.toText (natText p), []⟩)) T.toText (natText p)
        (["pairs".toList, T.toText, natText p, o.matchOption] ++ shellWords o.pairing) =
        (upd s T.toText (natText p) (some ⟨topFiles s T.toText (natText p), d1⟩), true) := by
      unfold piped teeStatus runProgram
      have := eP (upd s T.toText (natText p) (some ⟨topFiles s T.toText (natText p), []⟩))
      simp only [List.cons_append, List.nil_append]
      rw [this, hp1, upd_at]
      rfl
    refine ⟨by rw [ho], by rw [ho]; dsimp only; rw [if_pos hd, c2], hp1, by rw [hsort], ?_⟩
    unfold driverSh
    have hne : ¬ (T.toText = [] ∨ natText p = []) := by
      rintro (h | h)
      · cases T <;> exact absurd h (by decide)
      · have := Txt.parse_natText hp
        rw [h, show parseUsize [] = none from by decide] at this
        cases this
    rw [if_neg hne, ho]
    dsimp only
    rw [if_pos hd, c1, c2]
    simp only [Bool.false_eq_true, if_false]
    unfold driverStages
    rw [hpp]
    dsimp only
    rw [hsort]
    rfl

/-- A store that differs from another in the directories of row sums. -/
theorem early {s t : Store} {ty n : Text} {d d2 : List (Text × Dir)} (ht : t ty n = some ⟨topFiles s ty n, d⟩)
    (ho : ∀ a b, (a, b) ≠ (ty, n) → t a b = s a b) :
    upd t ty n (some ⟨topFiles t ty n, d2⟩) = upd s ty n (some ⟨topFiles s ty n, d2⟩) := by
  have : topFiles t ty n = topFiles s ty n := by
    unfold topFiles at ht ⊢
    rw [ht]
    rfl
  rw [this]
  funext a b
  unfold upd
  by_cases hab : (a, b) = (ty, n)
  · rw [if_pos hab, if_pos hab]
  · rw [if_neg hab, if_neg hab, ho a b hab]

theorem attempt (env : Env F κ) (T : SeqType) {p : ℕ} (hp : p < 2 ^ 64) (flags : List Flag) (hd : Flag.d ∈ flags) {s t : Store}
    (hs : ∀ d, s T.toText (natText p) = some d → Rows d.dirs) (h : Attempt env T.toText (natText p) flags s t) :
    driverSh env T.toText (natText p) flags t = driverSh env T.toText (natText p) flags s ∧
      ∀ d, t T.toText (natText p) = some d → Rows d.dirs := by
  obtain ⟨o, P, d1, d2, hP, pP, r1, r2, eP, hst⟩ := stages env T hp flags hd
  obtain ⟨a1, a2, a3, a4, a5⟩ := hst s hs
  unfold Attempt at h
  rw [a1, a2] at h
  have h1 := seqtype_text T
  have h2 := Txt.parse_natText hp
  -- the early stages
  have fin1 : ∀ d, Rows d → t T.toText (natText p) = some ⟨topFiles s T.toText (natText p), d⟩ →
      (∀ a b, (a, b) ≠ (T.toText, natText p) → t a b = s a b) →
      driverSh env T.toText (natText p) flags t = driverSh env T.toText (natText p) flags s ∧
      ∀ d, t T.toText (natText p) = some d → Rows d.dirs := by
    intro d hr ht ho
    have hrt : ∀ d, t T.toText (natText p) = some d → Rows d.dirs := fun d' h' => by
      rw [ht] at h'; cases h'; exact hr
    obtain ⟨_, _, _, _, b5⟩ := hst t hrt
    exact ⟨by rw [b5, a5, early ht ho], hrt⟩
  -- the late stages
  have fin2 : Late env T p o (upd s T.toText (natText p) (some ⟨topFiles s T.toText (natText p), d2⟩)) t →
      driverSh env T.toText (natText p) flags t = driverSh env T.toText (natText p) flags s ∧
      ∀ d, t T.toText (natText p) = some d → Rows d.dirs := by
    intro hl
    obtain ⟨l1, l2, l3⟩ := hl
    rw [upd_at] at l2
    obtain ⟨d, hd1, hd2⟩ : ∃ d, t T.toText (natText p) = some d ∧ d.dirs = d2 := by
      cases h' : t T.toText (natText p) with
      | none => rw [h'] at l2; cases l2
      | some d => rw [h'] at l2; exact ⟨d, rfl, Option.some.inj l2⟩
    have hrt : ∀ d, t T.toText (natText p) = some d → Rows d.dirs := fun d' h' => by
      rw [hd1] at h'; cases h'; rw [hd2]; exact r2
    obtain ⟨_, _, _, _, b5⟩ := hst t hrt
    have : (some ⟨topFiles t T.toText (natText p), d2⟩ : Option FindDir) = t T.toText (natText p) := by
      unfold topFiles
      rw [hd1, ← hd2]
      rfl
    exact ⟨by rw [b5, a5, this, upd_self, l1], hrt⟩
  have us : ∀ d, (upd s T.toText (natText p) (some ⟨topFiles s T.toText (natText p), d⟩) T.toText (natText p)).isSome := fun d => by
    rw [upd_at]; rfl
  have other : ∀ D a b, (a, b) ≠ (T.toText, natText p) → upd s T.toText (natText p) D a b = s a b := fun D a b hab => if_neg hab
  have e1 : (runProgram env (upd s T.toText (natText p) (some ⟨topFiles s T.toText (natText p), []⟩))
      (["pairs".toList, T.toText, natText p, o.matchOption] ++ shellWords o.pairing)).1 =
      upd s T.toText (natText p) (some ⟨topFiles s T.toText (natText p), d1⟩) := by
    unfold runProgram
    rw [eP, a3]
  cases h with
  | pairs hk =>
    obtain ⟨pre, pre', post, hj, hsm, rfl⟩ := hk
    rw [eP] at hj
    have ip : InDirs pre' := same_inDirs hsm fun x hx => hP x (by rw [hj]; exact List.mem_append_left _ hx)
    have pp : ∀ x ∈ pre', x.path = (T.toText, natText p) :=
      same_paths hsm fun x hx => pP x (by rw [hj]; exact List.mem_append_left _ hx)
    obtain ⟨d, hr, hact⟩ := inDirs_act pre' [] ip (fun _ h => by cases h)
    refine fin1 d hr ?_ fun a b hab => ?_
    · rw [applyOps_path _ _ pp]
      simp only [if_true, upd_at]
      exact hact _
    · rw [applyOps_path _ _ pp]
      simp only [hab, if_false]
      exact other _ a b hab
  | sort hs1 ho hf hn =>
    rw [e1] at hs1
    subst hs1
    rw [upd_at] at hf hn
    cases ht : t T.toText (natText p) with
    | none => rw [ht] at hf; cases hf
    | some d =>
      rw [ht] at hf hn
      have hf : d.files = topFiles s T.toText (natText p) := Option.some.inj hf
      have hn : d.dirs.map Prod.fst = d1.map Prod.fst := Option.some.inj hn
      rw [← ht]
      refine fin1 d.dirs (fun e he => ?_) (by rw [ht, ← hf]) fun a b hab => by rw [ho a b hab, other _ a b hab]
      have : e.1 ∈ d1.map Prod.fst := hn ▸ List.mem_map.2 ⟨e, he, rfl⟩
      obtain ⟨x, hx, hxe⟩ := List.mem_map.1 this
      rw [← hxe]
      exact r1 x hx
  | join hs1 hs2 hk =>
    rw [e1] at hs1
    subst hs1
    rw [a4] at hs2
    subst hs2
    rw [main_join env _ h1 h2] at hk
    exact fin2 (late_killed env T hp o _ t (us d2) (.inl hk))
  | hm hs1 hs2 hs3 hh hk =>
    rw [e1] at hs1
    subst hs1
    rw [a4] at hs2
    subst hs2
    rw [main_hm env _ h1 h2] at hk
    unfold runProgram at hs3
    rw [main_join env _ h1 h2] at hs3
    exact fin2 (late_killed env T hp o _ t (us d2) (.inr (.inl ⟨_, hs3, hh, hk⟩)))
  | qhm hs1 hs2 hs3 hs4 hk =>
    rw [e1] at hs1
    subst hs1
    rw [a4] at hs2
    subst hs2
    rw [main_qhm env _ h1 h2] at hk
    unfold runProgram at hs3 hs4
    rw [main_join env _ h1 h2] at hs3
    rw [main_hm env _ h1 h2] at hs4
    refine fin2 (late_killed env T hp o _ t (us d2) (.inr (.inr ⟨_, _, hs3, ?_, hk⟩)))
    rw [hs4]
    unfold hmOps
    cases o.hadamard <;> rfl

end Proofs.Interrupt
