import Verif.Model.Driver
import Verif.Proofs.Command
import Verif.Proofs.Rerun
import Verif.Spec.Reproduce

/-!
# The same command in two processes
-/

set_option linter.unusedSectionVars false
set_option linter.unusedVariables false
set_option linter.unusedSimpArgs false

namespace Proofs.Reproduce
open Model Spec Proofs.Command

/-- Mapping a function that can fail over two orders of a list. -/
theorem mapM_perm {α β : Type} (f : α → Option β) {l l' : List α} (h : l.Perm l') {r : List β} (hr : l.mapM f = some r) :
    ∃ r', l'.mapM f = some r' ∧ r.Perm r' := by
  induction h generalizing r with
  | nil => exact ⟨r, hr, .refl _⟩
  | cons x h ih =>
    rw [List.mapM_cons] at hr
    obtain ⟨b, hb, hr⟩ := Option.bind_eq_some_iff.1 hr
    obtain ⟨bs, hbs, hr⟩ := Option.bind_eq_some_iff.1 hr
    cases hr
    obtain ⟨r', h1, h2⟩ := ih hbs
    refine ⟨b :: r', ?_, h2.cons b⟩
    rw [List.mapM_cons, hb, h1]
    rfl
  | swap x y l =>
    rw [List.mapM_cons, List.mapM_cons] at hr
    obtain ⟨b, hb, hr⟩ := Option.bind_eq_some_iff.1 hr
    obtain ⟨bs, hbs, hr⟩ := Option.bind_eq_some_iff.1 hr
    cases hr
    obtain ⟨c, hc, hbs⟩ := Option.bind_eq_some_iff.1 hbs
    obtain ⟨cs, hcs, hbs⟩ := Option.bind_eq_some_iff.1 hbs
    cases hbs
    refine ⟨c :: b :: cs, ?_, .swap c b cs⟩
    rw [List.mapM_cons, List.mapM_cons, hb, hc, hcs]
    rfl
  | trans _ _ ih1 ih2 =>
    obtain ⟨r1, h1, p1⟩ := ih1 hr
    obtain ⟨r2, h2, p2⟩ := ih2 h1
    exact ⟨r2, h2, p1.trans p2⟩

/-- Two results: both panics, or related values. -/
def Both {α : Type} (R : α → α → Prop) (a b : Option α) : Prop := (a = none ∧ b = none) ∨ ∃ x y, a = some x ∧ b = some y ∧ R x y

theorem mapM_both {α β : Type} (f : α → Option β) {l l' : List α} (h : l.Perm l') : Both List.Perm (l.mapM f) (l'.mapM f) := by
  cases h1 : l.mapM f with
  | some r =>
    obtain ⟨r', h2, h3⟩ := mapM_perm f h h1
    exact .inr ⟨r, r', rfl, h2, h3⟩
  | none =>
    cases h2 : l'.mapM f with
    | none => exact .inl ⟨rfl, rfl⟩
    | some r' =>
      obtain ⟨r, h3, _⟩ := mapM_perm f h.symm h2
      rw [h1] at h3
      cases h3

variable {F κ : Type} [DecidableEq κ]

theorem unlines_flatten (ls : List Text) : unlines ls = (ls.map (· ++ ['\n'])).flatten := by
  unfold unlines
  rw [List.flatMap_def]

theorem hm_text (canon : Graph → κ) {o o' : List HM → List HM} (h : ∀ l, (o l).Perm l) (h' : ∀ l, (o' l).Perm l) (debug : Bool)
    (ty : SeqType) (t : Text) :
    Both Shuffled (hadamardEquivalenceFromFile canon o debug ty t) (hadamardEquivalenceFromFile canon o' debug ty t) := by
  unfold hadamardEquivalenceFromFile hadamardRepresentatives
  cases h1 : (readLines t).mapM (readCanonicalLine debug) with
  | none => exact .inl ⟨rfl, rfl⟩
  | some l =>
    simp only [Option.bind_some]
    by_cases h2 : (l.all fun q => q.size ≠ 0 && q.verify ty) = true
    · rw [if_pos h2, if_pos h2]
      cases h3 : l.mapM fun seq => HM.fromWilliamson seq .quaternionType with
      | none => exact .inl ⟨rfl, rfl⟩
      | some mats =>
        simp only [Option.map_some, Option.bind_some]
        generalize ((mats.map fun m => (canonHm canon m, m)).foldl mapInsert []).map Prod.snd = reps
        rcases mapM_both HM.toStringMagma ((h reps).trans (h' reps).symm) with ⟨e1, e2⟩ | ⟨x, y, e1, e2, e3⟩
        · rw [e1, e2]
          exact .inl ⟨rfl, rfl⟩
        · rw [e1, e2]
          refine .inr ⟨_, _, rfl, rfl, _, _, e3.map (· ++ ['\n']), fun b hb => ?_, unlines_flatten x, unlines_flatten y⟩
          obtain ⟨z, _, rfl⟩ := List.mem_map.1 hb
          exact ⟨z, rfl⟩
    · rw [if_neg h2, if_neg h2]
      exact .inl ⟨rfl, rfl⟩

theorem qhm_text {o o' : List QuadSeq → List QuadSeq} (h : ∀ l, (o l).Perm l) (h' : ∀ l, (o' l).Perm l) (ty : SeqType) (t : Text) :
    Both Shuffled (qhmWriteAll o ty t) (qhmWriteAll o' ty t) := by
  unfold qhmWriteAll
  cases (readLines t).mapM fun line => (QS.fromStr line).bind QuadSeq.fromPqs with
  | none => exact .inl ⟨rfl, rfl⟩
  | some l =>
    simp only [Option.bind_some]
    cases generateEquivalentQuadSeqs l ty with
    | none => exact .inl ⟨rfl, rfl⟩
    | some equ =>
      simp only [Option.bind_some]
      have key : ∀ (l : List QuadSeq) r, (l.mapM fun (seq : QuadSeq) => seq.toQs.bind fun qs =>
          (QHM.fromPqs qs).dephased.toString.map fun s => s ++ ['\n', '\n']) = some r → ∀ b ∈ r, ∃ x, b = x ++ ['\n'] := by
        intro l
        induction l with
        | nil => intro r hr; cases hr; exact fun _ h => by cases h
        | cons q l ih =>
          intro r hr
          rw [List.mapM_cons] at hr
          obtain ⟨b, hb, hr⟩ := Option.bind_eq_some_iff.1 hr
          obtain ⟨bs, hbs, hr⟩ := Option.bind_eq_some_iff.1 hr
          cases hr
          intro x hx
          rcases List.mem_cons.1 hx with rfl | hx
          · obtain ⟨qs, _, hb⟩ := Option.bind_eq_some_iff.1 hb
            obtain ⟨s, _, rfl⟩ := Option.map_eq_some_iff.1 hb
            exact ⟨s ++ ['\n'], by simp⟩
          · exact ih bs hbs x hx
      have := mapM_both (fun (seq : QuadSeq) => seq.toQs.bind fun qs =>
          (QHM.fromPqs qs).dephased.toString.map fun s => s ++ ['\n', '\n']) ((h equ).trans (h' equ).symm)
      rcases this with ⟨e1, e2⟩ | ⟨x, y, e1, e2, e3⟩
      · rw [e1, e2]
        exact .inl ⟨rfl, rfl⟩
      · rw [e1, e2]
        exact .inr ⟨_, _, rfl, rfl, x, y, e3, key _ _ e1, rfl, rfl⟩

/-- Two runs. -/
def Alike (r r' : Run Unit) : Prop := List.Forall₂ SameWrite r.ops r'.ops ∧ r.result = r'.result

theorem alike_refl (r : Run Unit) : Alike r r := ⟨List.forall₂_same.2 fun _ _ => .inl rfl, rfl⟩

theorem alike_opt {α : Type} (a : Option α) {f g : α → Run Unit} (h : ∀ x, Alike (f x) (g x)) :
    Alike (Run.ofOption a >>= f) (Run.ofOption a >>= g) := by
  cases a with
  | none => exact alike_refl _
  | some x => exact h x

theorem alike_hm (env env' : Env F κ) (hc : env'.canon = env.canon) (hd : env'.debug = env.debug) (h : ∀ l, (env.hmOrder l).Perm l)
    (h' : ∀ l, (env'.hmOrder l).Perm l) (s : Store) (ty : SeqType) (p : ℕ) :
    Alike (convertHmRun env s ty p) (convertHmRun env' s ty p) := by
  unfold convertHmRun
  refine alike_opt _ fun t => ?_
  rw [hc, hd]
  rcases hm_text env.canon h h' env.debug ty t with ⟨e1, e2⟩ | ⟨x, y, e1, e2, e3⟩
  · rw [e1, e2]; exact alike_refl _
  · rw [e1, e2]
    exact ⟨.cons (.inr ⟨_, _, _, x, y, by simp, rfl, rfl, e3⟩) .nil, rfl⟩

theorem alike_qhmAll (env env' : Env F κ) (h : ∀ l, (env.qsOrder l).Perm l) (h' : ∀ l, (env'.qsOrder l).Perm l) (s : Store)
    (ty : SeqType) (p : ℕ) : Alike (qhmAllRun env s ty p) (qhmAllRun env' s ty p) := by
  unfold qhmAllRun
  refine alike_opt _ fun t => ?_
  rcases qhm_text h h' ty t with ⟨e1, e2⟩ | ⟨x, y, e1, e2, e3⟩
  · rw [e1, e2]; exact alike_refl _
  · rw [e1, e2]
    exact ⟨.cons (.inr ⟨_, _, _, x, y, by simp, rfl, rfl, e3⟩) .nil, rfl⟩

theorem alike_ite {c : Prop} [Decidable c] {a b a' b' : Run Unit} (h1 : c → Alike a a') (h2 : ¬ c → Alike b b') :
    Alike (if c then a else b) (if c then a' else b') := by
  by_cases h : c
  · rw [if_pos h, if_pos h]; exact h1 h
  · rw [if_neg h, if_neg h]; exact h2 h

theorem alike_eq {r r' : Run Unit} (h : r = r') : Alike r r' := h ▸ alike_refl r

/-- Every command, in two environments that differ in the orders of hash collections. -/
theorem main_alike (env : Env F κ) (hm : List HM → List HM) (qs : List QuadSeq → List QuadSeq) (h1 : ∀ l, (env.hmOrder l).Perm l)
    (h2 : ∀ l, (env.qsOrder l).Perm l) (h1' : ∀ l, (hm l).Perm l) (h2' : ∀ l, (qs l).Perm l) (s : Store) (args : List Text) :
    Alike (mainRun env s args) (mainRun { env with hmOrder := hm, qsOrder := qs } s args) := by
  cases args with
  | nil => exact alike_refl _
  | cons cmd args =>
    unfold mainRun
    refine alike_ite (fun _ => ?_) fun _ => ?_
    · split
      · exact alike_opt _ fun _ => alike_opt _ fun _ => alike_qhmAll _ _ h2 h2' _ _ _
      · exact alike_refl _
    refine alike_ite (fun _ => alike_refl _) fun _ => ?_
    refine alike_ite (fun _ => alike_refl _) fun _ => ?_
    refine alike_ite (fun _ => alike_eq rfl) fun _ => ?_
    refine alike_ite (fun _ => ?_) fun _ => ?_
    · split
      · exact alike_opt _ fun _ => alike_opt _ fun _ => alike_ite (fun _ => alike_hm env { env with hmOrder := hm, qsOrder := qs } rfl rfl h1 h1' _ _ _) fun _ => alike_refl _
      · exact alike_refl _
    refine alike_ite (fun _ => alike_eq rfl) fun _ => ?_
    refine alike_ite (fun _ => alike_eq rfl) fun _ => ?_
    refine alike_ite (fun _ => alike_eq rfl) fun _ => ?_
    refine alike_ite (fun _ => alike_eq rfl) fun _ => ?_
    exact alike_refl _

theorem main_eq (env : Env F κ) (hm : List HM → List HM) (qs : List QuadSeq → List QuadSeq) (s : Store) (args : List Text)
    (ha : ∀ l, args ≠ "qhm-all".toList :: l) (hb : ∀ l, args ≠ "convert".toList :: "hm".toList :: l) :
    mainRun { env with hmOrder := hm, qsOrder := qs } s args = mainRun env s args := by
  cases args with
  | nil => rfl
  | cons cmd args =>
    have h0 : cmd ≠ "qhm-all".toList := fun e => ha args (by rw [e])
    unfold mainRun
    dsimp only
    rw [if_neg h0, if_neg h0]
    by_cases hc : cmd = "convert".toList
    · subst hc
      have k1 : ¬ "convert".toList = "amicable".toList := by decide
      have k2 : ¬ "convert".toList = "rowsums".toList := by decide
      have k3 : ¬ "convert".toList = "join".toList := by decide
      simp only [if_neg k1, if_neg k2, if_neg k3, if_true]
      split
      · rename_i kind ty p
        have hk : kind ≠ "hm".toList := fun e => hb [ty, p] (by rw [e])
        simp only [if_neg hk]
      · rfl
    · simp only [if_neg hc]
      rfl

/-- What is read after writes that differ in the files of matrices. -/
theorem same_read {ty n name : Text} (hn : name ∉ ["result.mat".toList, "qhm_all.mat".toList]) :
    ∀ {ops ops' : List Write}, List.Forall₂ SameWrite ops ops' → ∀ s s' : Store,
      readTop s' ty n name = readTop s ty n name → (s' ty n).map FindDir.dirs = (s ty n).map FindDir.dirs →
      readTop (applyOps s' ops') ty n name = readTop (applyOps s ops) ty n name ∧
        (applyOps s' ops' ty n).map FindDir.dirs = (applyOps s ops ty n).map FindDir.dirs
  | _, _, .nil, s, s', h1, h2 => ⟨h1, h2⟩
  | _, _, .cons (a := a) (b := b) h hs, s, s', h1, h2 => by
    suffices k : readTop (b.apply s') ty n name = readTop (a.apply s) ty n name ∧
        (b.apply s' ty n).map FindDir.dirs = (a.apply s ty n).map FindDir.dirs from same_read hn hs _ _ k.1 k.2
    by_cases e : (ty, n) = a.path
    · rcases h with rfl | ⟨ty', n', nm, t, t', hm, rfl, rfl, _⟩
      · unfold readTop at h1 ⊢
        rw [Proofs.Store.apply_path e.symm, Proofs.Store.apply_path e.symm]
        cases hs : s ty n with
        | none =>
          cases hs' : s' ty n with
          | none => exact ⟨rfl, rfl⟩
          | some d' => rw [hs, hs'] at h2; cases h2
        | some d =>
          cases hs' : s' ty n with
          | none => rw [hs, hs'] at h2; cases h2
          | some d' =>
            rw [hs, hs'] at h1 h2
            have h2' : d'.dirs = d.dirs := Option.some.inj h2
            have h1' : lookup d'.files name = lookup d.files name := h1
            cases a with
            | mkdir _ _ x =>
              simp only [Write.act, Option.getD_some, h2']
              by_cases hx : x ∈ d.dirs.map Prod.fst
              · rw [if_pos hx, if_pos hx]
                exact ⟨h1, h2⟩
              · rw [if_neg hx, if_neg hx]
                exact ⟨h1, rfl⟩
            | put _ _ x y c => exact ⟨h1, by simp [Write.act, h2']⟩
            | putTop _ _ y c =>
              refine ⟨?_, h2⟩
              change lookup (putFile d'.files y c) name = lookup (putFile d.files y c) name
              rw [Proofs.Store.lookup_putFile, Proofs.Store.lookup_putFile, h1']
      · have hne : name ≠ nm := fun e => hn (e ▸ hm)
        unfold readTop at h1 ⊢
        rw [Proofs.Store.apply_path (o := .putTop ty' n' nm t) e.symm, Proofs.Store.apply_path (o := .putTop ty' n' nm t') e.symm]
        cases hs : s ty n with
        | none =>
          cases hs' : s' ty n with
          | none => exact ⟨rfl, rfl⟩
          | some d' => rw [hs, hs'] at h2; cases h2
        | some d =>
          cases hs' : s' ty n with
          | none => rw [hs, hs'] at h2; cases h2
          | some d' =>
            rw [hs, hs'] at h1 h2
            have h1' : lookup d'.files name = lookup d.files name := h1
            refine ⟨?_, h2⟩
            change lookup (putFile d'.files nm t') name = lookup (putFile d.files nm t) name
            rw [Proofs.Store.lookup_putFile, Proofs.Store.lookup_putFile, if_neg hne, if_neg hne, h1']
    · have e' : (ty, n) ≠ b.path := by
        rcases h with rfl | ⟨ty', n', nm, t, t', hm, rfl, rfl, _⟩ <;> exact e
      unfold readTop at h1 ⊢
      rw [Proofs.Store.apply_other e, Proofs.Store.apply_other e']
      exact ⟨h1, h2⟩

/-- Stores that differ in the files of matrices only. -/
def Close (s s' : Store) : Prop := ∀ ty n name, name ∉ ["result.mat".toList, "qhm_all.mat".toList] →
  readTop s' ty n name = readTop s ty n name ∧ (s' ty n).map FindDir.dirs = (s ty n).map FindDir.dirs

theorem close_refl (s : Store) : Close s s := fun _ _ _ _ => ⟨rfl, rfl⟩

theorem close_apply {s s' : Store} {ops ops' : List Write} (h : Close s s') (ho : List.Forall₂ SameWrite ops ops') :
    Close (applyOps s ops) (applyOps s' ops') := fun ty n name hn => same_read hn ho s s' (h ty n name hn).1 (h ty n name hn).2

theorem qhm_close (env env' : Env F κ) {s s' : Store} (h : Close s s') (ty n : Text) :
    mainRun env' s' ["convert".toList, "qhm".toList, ty, n] = mainRun env s ["convert".toList, "qhm".toList, ty, n] := by
  cases hT : strToSeqtype ty with
  | none =>
    have k : ∀ (env : Env F κ) s, mainRun env s ["convert".toList, "qhm".toList, ty, n] = ⟨[], none⟩ := fun env s => by
      unfold mainRun
      simp only [show ¬ "convert".toList = "qhm-all".toList by decide, show ¬ "convert".toList = "amicable".toList by decide,
        show ¬ "convert".toList = "rowsums".toList by decide, show ¬ "convert".toList = "join".toList by decide, if_false, if_true, hT]
      rfl
    rw [k, k]
  | some T =>
    cases hp : parseUsize n with
    | none =>
      have k : ∀ (env : Env F κ) s, mainRun env s ["convert".toList, "qhm".toList, ty, n] = ⟨[], none⟩ := fun env s => by
        unfold mainRun
        simp only [show ¬ "convert".toList = "qhm-all".toList by decide, show ¬ "convert".toList = "amicable".toList by decide,
          show ¬ "convert".toList = "rowsums".toList by decide, show ¬ "convert".toList = "join".toList by decide, if_false, if_true,
          hT, hp]
        rfl
      rw [k, k]
    | some p =>
      rw [main_qhm env s hT hp, main_qhm env' s' hT hp]
      unfold convertQhmRun
      rw [(h _ _ "result.seq".toList (by decide)).1]

theorem piped_eq (env : Env F κ) (hm : List HM → List HM) (qs : List QuadSeq → List QuadSeq) (s : Store) (ty n : Text) (args : List Text)
    (ha : ∀ l, args ≠ "qhm-all".toList :: l) (hb : ∀ l, args ≠ "convert".toList :: "hm".toList :: l) :
    piped { env with hmOrder := hm, qsOrder := qs } s ty n args = piped env s ty n args := by
  unfold piped runProgram
  rw [main_eq env hm qs s args ha hb]

/-- The stages of the driver. -/
theorem stages_close (env : Env F κ) (hm : List HM → List HM) (qs : List QuadSeq → List QuadSeq) (h1 : ∀ l, (env.hmOrder l).Perm l)
    (h2 : ∀ l, (env.qsOrder l).Perm l) (h1' : ∀ l, (hm l).Perm l) (h2' : ∀ l, (qs l).Perm l) (ty n : Text) (o : Options) (s : Store) :
    (driverStages { env with hmOrder := hm, qsOrder := qs } ty n o s).2 = (driverStages env ty n o s).2 ∧
      Close (driverStages env ty n o s).1 (driverStages { env with hmOrder := hm, qsOrder := qs } ty n o s).1 := by
  unfold driverStages
  rw [piped_eq env hm qs s ty n (["pairs".toList, ty, n, o.matchOption] ++ shellWords o.pairing)
    (fun l h => absurd (List.cons.inj h).1 (by decide))
    (fun l h => absurd (List.cons.inj h).1 (by decide))]
  generalize piped env s ty n (["pairs".toList, ty, n, o.matchOption] ++ shellWords o.pairing) = a
  obtain ⟨s1, ok1⟩ := a
  dsimp only
  by_cases c1 : ¬ ok1
  · rw [if_pos c1, if_pos c1]; exact ⟨rfl, close_refl _⟩
  rw [if_neg c1, if_neg c1]
  generalize sortPairsSh s1 ty n = a
  obtain ⟨s2, ok2⟩ := a
  dsimp only
  by_cases c2 : ¬ ok2
  · rw [if_pos c2, if_pos c2]; exact ⟨rfl, close_refl _⟩
  rw [if_neg c2, if_neg c2]
  rw [piped_eq env hm qs s2 ty n ["join".toList, ty, n] (fun l h => absurd (List.cons.inj h).1 (by decide))
    (fun l h => absurd (List.cons.inj h).1 (by decide))]
  generalize piped env s2 ty n ["join".toList, ty, n] = a
  obtain ⟨s3, ok3⟩ := a
  dsimp only
  by_cases c3 : ¬ ok3
  · rw [if_pos c3, if_pos c3]; exact ⟨rfl, close_refl _⟩
  rw [if_neg c3, if_neg c3]
  refine ⟨rfl, ?_⟩
  have hc : Close (if o.hadamard then (piped env s3 ty n ["convert".toList, "hm".toList, ty, n]).1 else s3)
      (if o.hadamard then (piped { env with hmOrder := hm, qsOrder := qs } s3 ty n ["convert".toList, "hm".toList, ty, n]).1
        else s3) := by
    by_cases c : o.hadamard
    · rw [if_pos c, if_pos c]
      exact close_apply (close_refl s3) (main_alike env hm qs h1 h2 h1' h2' s3 _).1
    · rw [if_neg c, if_neg c]; exact close_refl _
  unfold piped at hc ⊢
  unfold runProgram at hc ⊢
  dsimp only at hc ⊢
  rw [qhm_close env _ hc]
  refine close_apply hc ?_
  generalize (mainRun env _ _).ops = l
  induction l with
  | nil => exact .nil
  | cons x l ih => exact .cons (.inl rfl) ih

end Proofs.Reproduce
