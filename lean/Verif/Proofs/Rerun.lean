import Verif.Proofs.Stages
import Verif.Spec.Rerun

/-!
# Running a command again
-/

set_option linter.unusedSectionVars false
set_option linter.unusedVariables false
set_option linter.unusedSimpArgs false

namespace Proofs.Rerun
open Model Spec Proofs.Store Proofs.Program Proofs.Command Proofs.Stages

/-! ## Directories -/

theorem put_exists {d : Dir} {name : Text} (h : name ∈ d.map Prod.fst) (c : Text) :
    putFile d name c = d.map fun f => if f.1 = name then (name, c) else f := if_pos h

theorem put_names {d : Dir} {name x : Text} (c : Text) (h : x ∈ d.map Prod.fst) : x ∈ (putFile d name c).map Prod.fst := by
  by_cases hn : name ∈ d.map Prod.fst
  · rw [put_exists hn]
    obtain ⟨f, hf, rfl⟩ := List.mem_map.1 h
    refine List.mem_map.2 ⟨_, List.mem_map.2 ⟨f, hf, rfl⟩, ?_⟩
    split
    · rename_i e; exact e.symm
    · rfl
  · unfold putFile
    rw [if_neg hn, List.map_append]
    exact List.mem_append_left _ h

theorem put_self (d : Dir) (name c : Text) : name ∈ (putFile d name c).map Prod.fst := by
  by_cases hn : name ∈ d.map Prod.fst
  · exact put_names c hn
  · unfold putFile
    rw [if_neg hn]
    simp

theorem put_twice (d : Dir) (name a c : Text) :
    putFile (putFile d name a) name c = putFile d name c := by
  rw [put_exists (put_self d name a)]
  by_cases h : name ∈ d.map Prod.fst
  · rw [put_exists h, put_exists h, List.map_map]
    refine List.map_congr_left fun f _ => ?_
    by_cases e : f.1 = name
    · simp [e]
    · simp [e]
  · unfold putFile
    rw [if_neg h, if_neg h, List.map_append, List.map_cons, List.map_nil, if_pos rfl]
    congr 1
    conv_rhs => rw [← List.map_id d]
    refine List.map_congr_left fun f hf => ?_
    have : ¬ f.1 = name := fun e => h (List.mem_map.2 ⟨f, hf, e⟩)
    rw [if_neg this]; rfl

theorem put_comm {d : Dir} {f g : Text} (hfg : f ≠ g) (h : f ∈ d.map Prod.fst) (a c : Text) :
    putFile (putFile d f a) g c = putFile (putFile d g c) f a := by
  rw [put_exists (put_names c h), put_exists h]
  by_cases hg : g ∈ d.map Prod.fst
  · have hg' := put_names (name := f) a hg
    rw [put_exists h] at hg'
    rw [put_exists hg', put_exists hg, List.map_map, List.map_map]
    refine List.map_congr_left fun x _ => ?_
    by_cases e : x.1 = f
    · have : x.1 ≠ g := fun e' => hfg (e.symm.trans e')
      simp [e, hfg, this]
    · by_cases e' : x.1 = g
      · simp [e', Ne.symm hfg]
      · simp [e, e']
  · have hg' : g ∉ (d.map fun x => if x.1 = f then (f, a) else x).map Prod.fst := by
      intro h'
      obtain ⟨y, hy, e⟩ := List.mem_map.1 h'
      obtain ⟨x, hx, rfl⟩ := List.mem_map.1 hy
      by_cases e' : x.1 = f
      · rw [if_pos e'] at e; exact hfg e
      · rw [if_neg e'] at e; exact hg (List.mem_map.2 ⟨x, hx, e⟩)
    unfold putFile
    rw [if_neg hg', if_neg hg, List.map_append, List.map_cons, List.map_nil, if_neg (Ne.symm hfg)]

/-- The file exists and has the given text. -/
def Has (d : Dir) (name c : Text) : Prop := name ∈ d.map Prod.fst ∧ ∀ f ∈ d, f.1 = name → f.2 = c

theorem has_put (d : Dir) (name c : Text) : Has (putFile d name c) name c := by
  refine ⟨put_self d name c, fun f hf e => ?_⟩
  by_cases h : name ∈ d.map Prod.fst
  · rw [put_exists h] at hf
    obtain ⟨g, hg, rfl⟩ := List.mem_map.1 hf
    by_cases e' : g.1 = name
    · rw [if_pos e']
    · rw [if_neg e'] at e; exact absurd e e'
  · unfold putFile at hf
    rw [if_neg h] at hf
    rcases List.mem_append.1 hf with hf | hf
    · exact absurd (List.mem_map.2 ⟨f, hf, e⟩) h
    · rw [List.mem_singleton.1 hf]

theorem has_other {d : Dir} {a c : Text} (h : Has d a c) {b : Text} (hab : a ≠ b) (x : Text) : Has (putFile d b x) a c := by
  refine ⟨put_names x h.1, fun f hf e => ?_⟩
  by_cases hb : b ∈ d.map Prod.fst
  · rw [put_exists hb] at hf
    obtain ⟨g, hg, rfl⟩ := List.mem_map.1 hf
    by_cases e' : g.1 = b
    · rw [if_pos e'] at e; exact absurd e.symm hab
    · rw [if_neg e'] at e ⊢; exact h.2 g hg e
  · unfold putFile at hf
    rw [if_neg hb] at hf
    rcases List.mem_append.1 hf with hf | hf
    · exact h.2 f hf e
    · rw [List.mem_singleton.1 hf] at e; exact absurd e.symm hab

theorem put_has {d : Dir} {name c : Text} (h : Has d name c) : putFile d name c = d := by
  rw [put_exists h.1]
  conv_rhs => rw [← List.map_id d]
  refine List.map_congr_left fun f hf => ?_
  by_cases e : f.1 = name
  · rw [if_pos e]
    exact Prod.ext e.symm (h.2 f hf e).symm
  · rw [if_neg e]; rfl

/-! ## One directory `find_<n>` -/

/-- A list of writes. -/
def actAll (D : Option FindDir) (ops : List Write) : Option FindDir := ops.foldl (fun d o => o.act d) D

theorem actAll_append (D : Option FindDir) (a b : List Write) : actAll D (a ++ b) = actAll (actAll D a) b := List.foldl_append ..

/-- The directory of a row sum exists. -/
def DirEx (dir : Text) (D : Option FindDir) : Prop := ∃ d, D = some d ∧ dir ∈ d.dirs.map Prod.fst

/-- The directory written to exists. -/
def Rdy (D : Option FindDir) : Write → Prop
  | .mkdir _ _ _ => True
  | .put _ _ dir _ _ => DirEx dir D
  | .putTop _ _ _ _ => D.isSome

def AllRdy : Option FindDir → List Write → Prop
  | _, [] => True
  | D, o :: ops => Rdy D o ∧ AllRdy (o.act D) ops

theorem allRdy_append : ∀ (a b : List Write) (D : Option FindDir), AllRdy D (a ++ b) ↔ AllRdy D a ∧ AllRdy (actAll D a) b
  | [], b, D => by simp [AllRdy, actAll]
  | o :: a, b, D => by
    rw [List.cons_append, AllRdy, AllRdy, allRdy_append a b, and_assoc]
    rfl

/-- The file written. -/
def file : Write → Option (Option Text × Text)
  | .mkdir _ _ _ => none
  | .put _ _ dir name _ => some (some dir, name)
  | .putTop _ _ name _ => some (none, name)

theorem some_act {D : Option FindDir} (o : Write) (h : D.isSome) : (o.act D).isSome := by
  obtain ⟨d, rfl⟩ := Option.isSome_iff_exists.1 h
  cases o <;> rfl

theorem dirEx_act {D : Option FindDir} {dir : Text} (o : Write) (h : DirEx dir D) : DirEx dir (o.act D) := by
  obtain ⟨d, rfl, hd⟩ := h
  cases o with
  | mkdir ty n dir' =>
    unfold Write.act
    dsimp only [Option.getD_some]
    by_cases e : dir' ∈ d.dirs.map Prod.fst
    · rw [if_pos e]; exact ⟨d, rfl, hd⟩
    · rw [if_neg e]
      exact ⟨_, rfl, by rw [List.map_append]; exact List.mem_append_left _ hd⟩
  | put ty n dir' name c =>
    refine ⟨_, rfl, ?_⟩
    obtain ⟨e, he, rfl⟩ := List.mem_map.1 hd
    refine List.mem_map.2 ⟨_, List.mem_map.2 ⟨e, he, rfl⟩, ?_⟩
    split <;> rfl
  | putTop ty n name c => exact ⟨_, rfl, hd⟩

theorem some_actAll : ∀ (ops : List Write) {D : Option FindDir}, D.isSome → (actAll D ops).isSome
  | [], _, h => h
  | o :: ops, _, h => some_actAll ops (some_act o h)

theorem dirEx_actAll {dir : Text} : ∀ (ops : List Write) {D : Option FindDir}, DirEx dir D → DirEx dir (actAll D ops)
  | [], _, h => h
  | o :: ops, _, h => dirEx_actAll ops (dirEx_act o h)

/-- The write has been done. -/
def Done (D : Option FindDir) : Write → Prop
  | .mkdir _ _ dir => DirEx dir D
  | .put _ _ dir name c => DirEx dir D ∧ ∀ d, D = some d → ∀ e ∈ d.dirs, e.1 = dir → Has e.2 name c
  | .putTop _ _ name c => ∃ d, D = some d ∧ Has d.files name c

/-- The file written exists. -/
def Ex (D : Option FindDir) : Write → Prop
  | .mkdir _ _ _ => False
  | .put _ _ dir name _ => DirEx dir D ∧ ∀ d, D = some d → ∀ e ∈ d.dirs, e.1 = dir → name ∈ e.2.map Prod.fst
  | .putTop _ _ name _ => ∃ d, D = some d ∧ name ∈ d.files.map Prod.fst

theorem Done.ex {D : Option FindDir} {o : Write} (h : Done D o) (ho : file o ≠ none) : Ex D o := by
  cases o with
  | mkdir => exact absurd rfl ho
  | put => exact ⟨h.1, fun d hd e he e1 => (h.2 d hd e he e1).1⟩
  | putTop => obtain ⟨d, h1, h2⟩ := h; exact ⟨d, h1, h2.1⟩

theorem done_act {D : Option FindDir} {o : Write} (h : Rdy D o) : Done (o.act D) o := by
  cases o with
  | mkdir ty n dir =>
    unfold Write.act
    dsimp only
    generalize D.getD { files := [], dirs := [] } = d
    by_cases e : dir ∈ d.dirs.map Prod.fst
    · rw [if_pos e]; exact ⟨d, rfl, e⟩
    · rw [if_neg e]; exact ⟨_, rfl, by simp⟩
  | put ty n dir name c =>
    refine ⟨dirEx_act _ h, fun d hd e he e1 => ?_⟩
    obtain ⟨d0, rfl, _⟩ := h
    simp only [Write.act, Option.map_some, Option.some.injEq] at hd
    subst hd
    obtain ⟨g, hg, rfl⟩ := List.mem_map.1 he
    by_cases e2 : g.1 = dir
    · rw [if_pos e2]; exact has_put _ _ _
    · rw [if_neg e2] at e1; exact absurd e1 e2
  | putTop ty n name c =>
    obtain ⟨d, rfl⟩ := Option.isSome_iff_exists.1 h
    exact ⟨_, rfl, has_put _ _ _⟩

theorem done_other {D : Option FindDir} {o : Write} (h : Done D o) (o' : Write) (hf : file o = none ∨ file o' ≠ file o) :
    Done (o'.act D) o := by
  cases o with
  | mkdir ty n dir => exact dirEx_act o' h
  | put ty n dir name c =>
    have hf : file o' ≠ some (some dir, name) := hf.resolve_left (by simp [file])
    refine ⟨dirEx_act o' h.1, fun d hd e he e1 => ?_⟩
    obtain ⟨⟨d0, rfl, hd0⟩, h2⟩ := h
    cases o' with
    | mkdir ty' n' dir' =>
      unfold Write.act at hd
      dsimp only [Option.getD_some] at hd
      by_cases e2 : dir' ∈ d0.dirs.map Prod.fst
      · rw [if_pos e2] at hd
        cases hd
        exact h2 _ rfl e he e1
      · rw [if_neg e2] at hd
        cases hd
        rcases List.mem_append.1 he with he | he
        · exact h2 _ rfl e he e1
        · rw [List.mem_singleton] at he
          subst he
          exact absurd (show dir' ∈ _ from (show dir' = dir from e1) ▸ hd0) e2
    | put ty' n' dir' name' c' =>
      simp only [Write.act, Option.map_some, Option.some.injEq] at hd
      subst hd
      obtain ⟨g, hg, rfl⟩ := List.mem_map.1 he
      by_cases e2 : g.1 = dir'
      · rw [if_pos e2] at e1 ⊢
        dsimp only at e1 ⊢
        refine has_other (h2 _ rfl g hg e1) (fun e3 => hf ?_) c'
        simp [file, ← e2, e1, e3]
      · rw [if_neg e2] at e1 ⊢
        exact h2 _ rfl g hg e1
    | putTop ty' n' name' c' =>
      simp only [Write.act, Option.map_some, Option.some.injEq] at hd
      subst hd
      exact h2 _ rfl e he e1
  | putTop ty n name c =>
    have hf : file o' ≠ some (none, name) := hf.resolve_left (by simp [file])
    obtain ⟨d0, rfl, h2⟩ := h
    cases o' with
    | mkdir ty' n' dir' =>
      unfold Write.act
      dsimp only [Option.getD_some]
      split
      · exact ⟨_, rfl, h2⟩
      · exact ⟨_, rfl, h2⟩
    | put ty' n' dir' name' c' => exact ⟨_, rfl, h2⟩
    | putTop ty' n' name' c' => exact ⟨_, rfl, has_other h2 (fun e => hf (by simp [file, e])) c'⟩

theorem act_done {D : Option FindDir} {o : Write} (h : Done D o) : o.act D = D := by
  cases o with
  | mkdir ty n dir =>
    obtain ⟨d, rfl, hd⟩ := h
    unfold Write.act
    dsimp only [Option.getD_some]
    rw [if_pos hd]
  | put ty n dir name c =>
    obtain ⟨⟨d, rfl, hd⟩, h2⟩ := h
    simp only [Write.act, Option.map_some]
    have : (d.dirs.map fun e => if e.1 = dir then (e.1, putFile e.2 name c) else e) = d.dirs := by
      conv_rhs => rw [← List.map_id d.dirs]
      refine List.map_congr_left fun e he => ?_
      by_cases e1 : e.1 = dir
      · rw [if_pos e1, put_has (h2 d rfl e he e1)]; rfl
      · rw [if_neg e1]; rfl
    rw [this]
  | putTop ty n name c =>
    obtain ⟨d, rfl, h2⟩ := h
    simp only [Write.act, Option.map_some, put_has h2]

theorem ex_act {D : Option FindDir} {o : Write} (h : Ex D o) (o' : Write) : Ex (o'.act D) o := by
  cases o with
  | mkdir => exact h.elim
  | put ty n dir name c =>
    refine ⟨dirEx_act o' h.1, fun d hd e he e1 => ?_⟩
    obtain ⟨⟨d0, rfl, hd0⟩, h2⟩ := h
    cases o' with
    | mkdir ty' n' dir' =>
      unfold Write.act at hd
      dsimp only [Option.getD_some] at hd
      by_cases e2 : dir' ∈ d0.dirs.map Prod.fst
      · rw [if_pos e2] at hd
        cases hd
        exact h2 _ rfl e he e1
      · rw [if_neg e2] at hd
        cases hd
        rcases List.mem_append.1 he with he | he
        · exact h2 _ rfl e he e1
        · rw [List.mem_singleton] at he
          subst he
          exact absurd (show dir' ∈ _ from (show dir' = dir from e1) ▸ hd0) e2
    | put ty' n' dir' name' c' =>
      simp only [Write.act, Option.map_some, Option.some.injEq] at hd
      subst hd
      obtain ⟨g, hg, rfl⟩ := List.mem_map.1 he
      by_cases e2 : g.1 = dir'
      · rw [if_pos e2] at e1 ⊢
        exact put_names c' (h2 _ rfl g hg e1)
      · rw [if_neg e2] at e1 ⊢
        exact h2 _ rfl g hg e1
    | putTop ty' n' name' c' =>
      simp only [Write.act, Option.map_some, Option.some.injEq] at hd
      subst hd
      exact h2 _ rfl e he e1
  | putTop ty n name c =>
    obtain ⟨d0, rfl, h2⟩ := h
    cases o' with
    | mkdir ty' n' dir' =>
      unfold Write.act
      dsimp only [Option.getD_some]
      split
      · exact ⟨_, rfl, h2⟩
      · exact ⟨_, rfl, h2⟩
    | put ty' n' dir' name' c' => exact ⟨_, rfl, h2⟩
    | putTop ty' n' name' c' => exact ⟨_, rfl, put_names c' h2⟩

theorem same_file {o o' : Write} (h : SameTarget o o') : Rerun.file o = Rerun.file o' := by
  cases o <;> cases o' <;> simp_all [SameTarget, Rerun.file]

theorem same_path {o o' : Write} (h : SameTarget o o') : o.path = o'.path := by
  cases o <;> cases o' <;> simp_all [SameTarget, Write.path]

theorem act_twice {o o' : Write} (D : Option FindDir) (h : file o' ≠ none) (hf : file o' = file o) :
    o'.act (o.act D) = o'.act D := by
  cases D with
  | none => cases o <;> cases o' <;> simp_all [file, Write.act]
  | some d0 =>
  cases o with
  | mkdir => exact absurd hf h
  | put ty n dir name c =>
    cases o' with
    | mkdir => simp [file] at hf
    | putTop => simp [file] at hf
    | put ty' n' dir' name' c' =>
      obtain ⟨rfl, rfl⟩ : dir' = dir ∧ name' = name := by simpa [file] using hf
      simp only [Write.act, Option.map_some, List.map_map]
      congr 2
      refine List.map_congr_left fun e he => ?_
      by_cases e1 : e.1 = dir'
      · simp only [Function.comp, e1, if_true, put_twice]
      · simp only [Function.comp, e1, if_false]
  | putTop ty n name c =>
    cases o' with
    | mkdir => simp [file] at hf
    | put => simp [file] at hf
    | putTop ty' n' name' c' =>
      obtain rfl : name' = name := by simpa [file] using hf
      simp only [Write.act, Option.map_some, put_twice]

theorem act_comm {D : Option FindDir} {o o' : Write} (h : Ex D o) (hf : file o' ≠ file o) :
    o'.act (o.act D) = o.act (o'.act D) := by
  cases o with
  | mkdir => exact h.elim
  | put ty n dir name c =>
    obtain ⟨⟨d0, rfl, hd0⟩, h2⟩ := h
    cases o' with
    | mkdir ty' n' dir' =>
      have hnames : (d0.dirs.map fun e => if e.1 = dir then (e.1, putFile e.2 name c) else e).map Prod.fst = d0.dirs.map Prod.fst := by
        rw [List.map_map]
        refine List.map_congr_left fun e _ => ?_
        simp only [Function.comp]
        split <;> rfl
      simp only [Write.act, Option.map_some, Option.getD_some, hnames]
      by_cases e2 : dir' ∈ d0.dirs.map Prod.fst
      · rw [if_pos e2, if_pos e2]
      · rw [if_neg e2, if_neg e2]
        have hne : dir' ≠ dir := fun e => e2 (e ▸ hd0)
        simp only [List.map_append, List.map_cons, List.map_nil, hne, if_false]
    | putTop => simp only [Write.act, Option.map_some]
    | put ty' n' dir' name' c' =>
      simp only [Write.act, Option.map_some, List.map_map]
      congr 2
      refine List.map_congr_left fun e he => ?_
      by_cases e1 : e.1 = dir
      · by_cases e2 : e.1 = dir'
        · have hne : name ≠ name' := fun e3 => hf (by simp [file, ← e1, ← e2, e3])
          simp only [Function.comp, e1, if_true]
          rw [← e1, e2]
          simp only [if_true]
          rw [put_comm hne (h2 _ rfl e he e1)]
        · have : ¬ dir = dir' := fun e3 => e2 (e1.trans e3)
          simp only [Function.comp, e1, this, if_true, if_false]
      · simp only [Function.comp, e1, if_false]
        split
        · rename_i e2
          simp only [e1, if_false]
        · simp only [e1, if_false]
  | putTop ty n name c =>
    obtain ⟨d0, rfl, h2⟩ := h
    cases o' with
    | mkdir ty' n' dir' =>
      simp only [Write.act, Option.map_some, Option.getD_some]
      by_cases e2 : dir' ∈ d0.dirs.map Prod.fst
      · rw [if_pos e2]; simp only [e2, if_true]
      · rw [if_neg e2]; simp only [e2, if_false]
    | put => simp only [Write.act, Option.map_some]
    | putTop ty' n' name' c' =>
      have hne : name ≠ name' := fun e3 => hf (by simp [file, e3])
      simp only [Write.act, Option.map_some, put_comm hne h2]

theorem act_same {o o' : Write} (h : SameTarget o o') (D : Option FindDir) : o.act (o'.act D) = o.act D := by
  by_cases hf : file o = none
  · cases o with
    | mkdir ty n dir =>
      cases o' with
      | mkdir ty' n' dir' =>
        obtain ⟨rfl, rfl, rfl⟩ := h
        exact act_done (done_act (o := .mkdir ty n dir) trivial)
      | put => exact h.elim
      | putTop => exact h.elim
    | put => simp [file] at hf
    | putTop => simp [file] at hf
  · exact act_twice D hf (same_file h)

/-- The directory, or the file, exists. -/
def Pres (D : Option FindDir) (o : Write) : Prop := if file o = none then Done D o else Ex D o

theorem pres_act {D : Option FindDir} {o : Write} (h : Pres D o) (o' : Write) : Pres (o'.act D) o := by
  unfold Pres at h ⊢
  by_cases e : file o = none
  · rw [if_pos e] at h ⊢; exact done_other h o' (.inl e)
  · rw [if_neg e] at h ⊢; exact ex_act h o'

theorem pres_self {D : Option FindDir} {o : Write} (h : Rdy D o) : Pres (o.act D) o := by
  unfold Pres
  split
  · exact done_act h
  · rename_i e; exact (done_act h).ex e

theorem pres_same {D : Option FindDir} {o o' : Write} (hs : SameTarget o o') (h : Pres D o') : Pres D o := by
  unfold Pres at h ⊢
  rw [same_file hs]
  by_cases e : file o' = none
  · rw [if_pos e] at h ⊢
    cases o <;> cases o' <;> simp_all [SameTarget, Done, file]
  · rw [if_neg e] at h ⊢
    cases o <;> cases o'
    all_goals first
      | exact hs.elim
      | exact absurd rfl e
      | (obtain ⟨_, _, rfl, rfl⟩ := hs; exact h)
      | (obtain ⟨_, _, rfl⟩ := hs; exact h)

theorem pres_all {o : Write} : ∀ (ops : List Write) {D : Option FindDir}, Pres D o → Pres (actAll D ops) o
  | [], _, h => h
  | o' :: ops, _, h => pres_all ops (pres_act h o')

/-- A write to a target written again later, after writes to what exists already. -/
theorem absorb {o o' : Write} (h : SameTarget o o') : ∀ (q : List Write) {D : Option FindDir}, (∀ x ∈ q, Pres D x) →
    o.act (actAll (o'.act D) q) = o.act (actAll D q)
  | [], D, _ => act_same h D
  | x :: q, D, hq => by
    change o.act (actAll (x.act (o'.act D)) q) = o.act (actAll (x.act D) q)
    have hx := hq x List.mem_cons_self
    have ih := absorb h q (D := x.act D) fun y hy => pres_act (hq y (List.mem_cons_of_mem _ hy)) x
    by_cases e : file x = none
    · have hx' := pres_act hx o'
      unfold Pres at hx hx'
      rw [if_pos e] at hx hx'
      rw [act_done hx'] 
      rw [act_done hx] at ih ⊢
      exact ih
    · by_cases e2 : file x = file o'
      · rw [act_twice D e e2]
      · unfold Pres at hx
        rw [if_neg e] at hx
        rw [← act_comm hx (Ne.symm e2)]
        exact ih

theorem dirEx_mkdir {ty n dir' dir : Text} {D : Option FindDir} :
    DirEx dir ((Write.mkdir ty n dir').act D) ↔ dir = dir' ∨ DirEx dir D := by
  constructor
  · rintro ⟨d, hd, h⟩
    unfold Write.act at hd
    dsimp only at hd
    cases D with
    | none =>
      simp only [Option.getD_none, List.map_nil, List.not_mem_nil, if_false, Option.some.injEq] at hd
      subst hd
      left
      simpa using h
    | some d0 =>
      rw [Option.getD_some] at hd
      by_cases e2 : dir' ∈ d0.dirs.map Prod.fst
      · rw [if_pos e2] at hd
        cases hd
        exact .inr ⟨_, rfl, h⟩
      · rw [if_neg e2] at hd
        cases hd
        rw [List.map_append] at h
        rcases List.mem_append.1 h with h | h
        · exact .inr ⟨_, rfl, h⟩
        · left; simpa using h
  · rintro (rfl | h)
    · exact done_act (o := .mkdir ty n dir) (D := D) trivial
    · exact dirEx_act _ h

theorem dirEx_file {o : Write} (ho : file o ≠ none) {dir : Text} {D : Option FindDir} (h : DirEx dir (o.act D)) : DirEx dir D := by
  obtain ⟨d, hd, h⟩ := h
  cases D with
  | none => cases o <;> simp_all [file, Write.act]
  | some d0 =>
    cases o with
    | mkdir => exact absurd rfl ho
    | put ty n dir' name c =>
      simp only [Write.act, Option.map_some, Option.some.injEq] at hd
      subst hd
      refine ⟨d0, rfl, ?_⟩
      obtain ⟨y, hy, rfl⟩ := List.mem_map.1 h
      obtain ⟨x, hx, rfl⟩ := List.mem_map.1 hy
      refine List.mem_map.2 ⟨x, hx, ?_⟩
      split <;> rfl
    | putTop ty n name c =>
      simp only [Write.act, Option.map_some, Option.some.injEq] at hd
      subst hd
      exact ⟨d0, rfl, h⟩

theorem some_file {o : Write} (ho : file o ≠ none) {D : Option FindDir} (h : (o.act D).isSome) : D.isSome := by
  cases D with
  | some d => rfl
  | none => cases o <;> simp_all [file, Write.act]

theorem same_dirs {o o' : Write} (hs : SameTarget o o') {D D' : Option FindDir}
    (h : (∀ dir, DirEx dir D → DirEx dir D') ∧ (D.isSome → D'.isSome)) :
    (∀ dir, DirEx dir (o.act D) → DirEx dir (o'.act D')) ∧ ((o.act D).isSome → (o'.act D').isSome) := by
  by_cases e : file o = none
  · cases o with
    | put => simp [file] at e
    | putTop => simp [file] at e
    | mkdir ty n dir =>
      cases o' with
      | put => exact hs.elim
      | putTop => exact hs.elim
      | mkdir ty' n' dir' =>
        obtain ⟨rfl, rfl, rfl⟩ := hs
        exact ⟨fun x hx => dirEx_mkdir.2 ((dirEx_mkdir.1 hx).imp id (h.1 x)), fun _ => rfl⟩
  · exact ⟨fun x hx => dirEx_act _ (h.1 x (dirEx_file e hx)), fun hx => some_act _ (h.2 (some_file e hx))⟩

theorem same_rdy : ∀ {ops ops' : List Write} (_ : List.Forall₂ SameTarget ops ops') {D D' : Option FindDir},
    ((∀ dir, DirEx dir D → DirEx dir D') ∧ (D.isSome → D'.isSome)) → AllRdy D ops → AllRdy D' ops'
  | _, _, .nil, _, _, _, _ => trivial
  | o :: ops, o' :: ops', .cons hs hl, D, D', h, ⟨hr, ha⟩ => by
    refine ⟨?_, same_rdy hl (same_dirs hs h) ha⟩
    cases o with
    | mkdir => cases o' with
      | mkdir => trivial
      | put => exact hs.elim
      | putTop => exact hs.elim
    | put => cases o' with
      | mkdir => exact hs.elim
      | put => obtain ⟨_, _, rfl, _⟩ := hs; exact h.1 _ hr
      | putTop => exact hs.elim
    | putTop => cases o' with
      | mkdir => exact hs.elim
      | put => exact hs.elim
      | putTop => exact h.2 hr

theorem pres_written : ∀ {ops ops' : List Write} (_ : List.Forall₂ SameTarget ops ops') {D : Option FindDir}, AllRdy D ops' →
    ∀ x ∈ ops, Pres (actAll D ops') x
  | o :: ops, o' :: ops', .cons hs hl, D, ⟨hr, ha⟩, x, hx => by
    rcases List.mem_cons.1 hx with rfl | hx
    · exact pres_all ops' (pres_same hs (pres_self hr))
    · exact pres_written hl ha x hx

theorem same_split : ∀ {a b l : List Write}, List.Forall₂ SameTarget (a ++ b) l →
    ∃ x y, List.Forall₂ SameTarget a x ∧ List.Forall₂ SameTarget b y ∧ l = x ++ y
  | [], _, l, h => ⟨[], l, .nil, h, rfl⟩
  | o :: a, b, l, h => by
    cases h with
    | cons hs hl =>
      obtain ⟨x, y, hx, hy, rfl⟩ := same_split hl
      exact ⟨_, y, .cons hs hx, hy, rfl⟩

/-- Writing again what was written with any texts. -/
theorem redo : ∀ (ops ops' : List Write), List.Forall₂ SameTarget ops ops' → ∀ {D : Option FindDir}, AllRdy D ops →
    actAll (actAll D ops') ops = actAll D ops := by
  intro ops
  induction ops using List.reverseRecOn with
  | nil => intro ops' h D _; cases h; rfl
  | append_singleton q o ih =>
    intro ops' h D hr
    obtain ⟨q', z, hq, hz, rfl⟩ := same_split h
    obtain ⟨o', rfl, hs⟩ : ∃ o', z = [o'] ∧ SameTarget o o' := by
      cases hz with
      | cons a b => cases b; exact ⟨_, rfl, a⟩
    obtain ⟨hr1, hr2⟩ := (allRdy_append _ _ _).1 hr
    rw [actAll_append, actAll_append, actAll_append]
    change o.act (actAll (o'.act (actAll D q')) q) = o.act (actAll D q)
    have hr' := same_rdy hq (D := D) (D' := D) ⟨fun _ h => h, fun h => h⟩ hr1
    rw [absorb hs q (pres_written hq hr'), ih q' hq hr1]

/-! ## The store -/

theorem applyOps_path {ty n : Text} : ∀ (ops : List Write) (s : Store), (∀ o ∈ ops, o.path = (ty, n)) →
    applyOps s ops = fun a b => if (a, b) = (ty, n) then actAll (s a b) ops else s a b
  | [], s, _ => by funext a b; simp [applyOps, actAll]
  | o :: ops, s, h => by
    have e := applyOps_path ops (o.apply s) fun x hx => h x (List.mem_cons_of_mem _ hx)
    have ho := h o List.mem_cons_self
    change applyOps (o.apply s) ops = _
    rw [e]
    funext a b
    by_cases hab : (a, b) = (ty, n)
    · rw [if_pos hab, if_pos hab, apply_path (ho.trans hab.symm)]
      rfl
    · rw [if_neg hab, if_neg hab, apply_other (fun h => hab (h.trans ho))]

theorem same_paths : ∀ {ops ops' : List Write} (_ : List.Forall₂ SameTarget ops ops') {p : Text × Text}, (∀ o ∈ ops, o.path = p) →
    ∀ o ∈ ops', o.path = p
  | _, _, .nil, _, _, _, hx => by cases hx
  | o :: ops, o' :: ops', .cons hs hl, p, h, x, hx => by
    rcases List.mem_cons.1 hx with rfl | hx
    · exact same_path hs ▸ h o List.mem_cons_self
    · exact same_paths hl (fun y hy => h y (List.mem_cons_of_mem _ hy)) x hx

theorem store_redo {ty n : Text} {pre pre' post : List Write} {s : Store} (hs : List.Forall₂ SameTarget pre pre')
    (hp : ∀ o ∈ pre ++ post, o.path = (ty, n)) (hr : AllRdy (s ty n) (pre ++ post)) :
    applyOps (applyOps s pre') (pre ++ post) = applyOps s (pre ++ post) := by
  rw [applyOps_path _ _ hp, applyOps_path _ s hp,
    applyOps_path _ s (same_paths hs fun o ho => hp o (List.mem_append_left _ ho))]
  funext a b
  dsimp only
  by_cases hab : (a, b) = (ty, n)
  · obtain ⟨rfl, rfl⟩ := Prod.mk.inj hab
    rw [if_pos rfl, if_pos rfl, actAll_append, actAll_append, redo _ _ hs ((allRdy_append _ _ _).1 hr).1]
    exact (if_pos rfl).symm
  · rw [if_neg hab, if_neg hab]
    exact (if_neg hab).symm

/-! ## Runs whose writes meet directories that exist -/

/-- The writes of the run find their directories if `S` holds. -/
def G (S : Option FindDir → Prop) {α : Type} (r : Run α) : Prop := ∀ D, S D → AllRdy D r.ops

/-- Conditions that no write destroys. -/
def Stable (S : Option FindDir → Prop) : Prop := ∀ D ops, S D → S (actAll D ops)

theorem stable_true : Stable fun _ => True := fun _ _ _ => trivial
theorem stable_some : Stable fun D => D.isSome := fun _ ops h => some_actAll ops h
theorem stable_dir (dir : Text) : Stable (DirEx dir) := fun _ ops h => dirEx_actAll ops h

theorem G.opt {S : Option FindDir → Prop} {α : Type} (a : Option α) : G S (Run.ofOption a) := fun _ _ => trivial
theorem G.pure {S : Option FindDir → Prop} {α : Type} (a : α) : G S (Run.pure a) := fun _ _ => trivial

theorem G.bind {S : Option FindDir → Prop} (hS : Stable S) {α β : Type} {r : Run α} {f : α → Run β} (h : G S r)
    (hf : ∀ a, G S (f a)) : G S (r >>= f) := by
  intro D hD
  change AllRdy D (Run.bind r f).ops
  unfold Run.bind
  cases r.result with
  | none => exact h D hD
  | some a => exact (allRdy_append _ _ _).2 ⟨h D hD, hf a _ (hS D _ hD)⟩

theorem G.put {ty n dir name c : Text} : G (DirEx dir) (Run.op (.put ty n dir name c)) := fun D h => ⟨h, trivial⟩
theorem G.top {ty n name c : Text} : G (fun D => D.isSome) (Run.op (.putTop ty n name c)) := fun D h => ⟨h, trivial⟩

theorem G.mkdir {S : Option FindDir → Prop} {ty n dir : Text} {α : Type} {f : Unit → Run α} (h : G (DirEx dir) (f ())) :
    G S (Run.op (.mkdir ty n dir) >>= f) := fun D _ => ⟨trivial, h _ (done_act (o := .mkdir ty n dir) (D := D) trivial)⟩

theorem G.sum {α : Type} {f : α → Run ℕ} (h : ∀ a, G (fun _ => True) (f a)) : ∀ l, G (fun _ => True) (Run.sum f l)
  | [] => G.pure 0
  | x :: l => G.bind stable_true (h x) fun _ => G.bind stable_true (G.sum h l) fun _ => G.pure _

theorem g_file (ty n dir name : Text) (c : Option Text) : G (DirEx dir) (writeFile ty n dir name c) :=
  G.bind (stable_dir dir) G.put fun _ => G.bind (stable_dir dir) (G.opt _) fun _ => G.put

theorem g_seqPairs {F : Type} (A : Fl F) (folder n dir : Text) (seqs1 seqs2 : List (List ℤ)) (tags : Tag × Tag) (ty : SeqType)
    (rs : Quad) (p : ℕ) (side : Side) (mo : MatchOption) :
    G (DirEx dir) (writeSeqPairsRun A folder n dir seqs1 seqs2 tags ty rs p side mo) :=
  G.bind (stable_dir dir) (G.opt _) fun _ => G.bind (stable_dir dir) G.put fun _ => G.bind (stable_dir dir) (G.opt _) fun _ =>
    G.bind (stable_dir dir) G.put fun _ => G.pure _

theorem g_rowsum {F : Type} (A : Fl F) (folder : Text) (rs : Quad) (p : ℕ) (mo : MatchOption) (pr : Option Pairing) :
    G (fun _ => True) (writePairsRowsumRun A folder rs p mo pr) := by
  have st := stable_dir (rowsumDirName rs)
  exact G.mkdir <| G.bind st (G.opt _) fun _ => G.bind st (g_file _ _ _ _ _) fun _ => G.bind st (g_file _ _ _ _ _) fun _ =>
    G.bind st (g_file _ _ _ _ _) fun _ => G.bind st (g_file _ _ _ _ _) fun _ => G.bind st (g_seqPairs _ _ _ _ _ _ _ _ _ _ _ _) fun _ =>
    G.bind st (g_seqPairs _ _ _ _ _ _ _ _ _ _ _ _) fun _ => G.pure _

theorem g_pairs {F : Type} (A : Fl F) (p : ℕ) (ty : SeqType) (mo : MatchOption) (pr : Option Pairing) :
    G (fun _ => True) (writePairsRun A p ty mo pr) :=
  G.bind stable_true (G.opt _) fun _ => G.sum (fun _ => g_rowsum _ _ _ _ _ _) _

theorem g_single {F : Type} (A : Fl F) (folder : Text) (rs : Quad) (p : ℕ) (mo : MatchOption) (pr : Option Pairing) (k : ℕ) :
    G (fun _ => True) (writePairSingleRowsumRun A folder rs p mo pr k) := by
  have st := stable_dir (rowsumDirName rs)
  refine G.mkdir <| G.bind st (G.opt _) fun _ => ?_
  cases getIndices pr k with
  | none => exact G.pure _
  | some t => exact G.bind st (g_file _ _ _ _ _) fun _ => G.bind st (g_file _ _ _ _ _) fun _ => g_seqPairs _ _ _ _ _ _ _ _ _ _ _ _

theorem g_create (folder : Text) (p : ℕ) (rs : Quad) (pr : Option Pairing) :
    G (fun _ => True) (createRowsumDirsRun folder p rs pr) := by
  have st := stable_dir (rowsumDirName rs)
  refine G.mkdir <| G.bind st (G.opt _) fun names => ?_
  intro D hD
  dsimp only
  induction names generalizing D with
  | nil => trivial
  | cons x names ih => exact ⟨hD, ih _ (dirEx_act _ hD)⟩

theorem g_result (ty n a b : Text) (l : List QuadSeq) : G (fun D => D.isSome) (writeResultRun ty n a b l) :=
  G.bind stable_some G.top fun _ => G.bind stable_some G.top fun _ => G.bind stable_some (G.opt _) fun _ =>
    G.bind stable_some (G.opt _) fun _ => G.bind stable_some G.top fun _ => G.top

variable {F κ : Type} [DecidableEq κ]

/-- A run that stops at once unless the value is there. -/
theorem g_opt {α β : Type} {o : Option α} {f : α → Run β} {D : Option FindDir} (h : ∀ a, o = some a → AllRdy D (f a).ops) :
    AllRdy D (Run.ofOption o >>= f).ops := by
  cases o with
  | none => trivial
  | some a => rw [some_bind]; exact h a rfl

theorem g_join (env : Env F κ) (s : Store) (ty : SeqType) (p : ℕ) : AllRdy (s ty.toText (natText p)) (joinRun env s ty p).ops := by
  refine g_opt fun d hd => ?_
  have : G (fun D => D.isSome) (do
    let matched ← Run.ofOption (joinAll ty (listedDirs env d))
    Run.ofOption (if env.debug && !matched.all hasSortedRowsums then none else some ())
    let result ← Run.ofOption (joinPairs ty (listedDirs env d))
    Run.ofOption (if env.debug && ty = .quaternionType && !result.all QuadSeq.verifyQts then none else some ())
    writeResultRun ty.toText (natText p) "result.seq".toList "result.qseq".toList result
    match ty with
    | .williamsonType =>
      let reduced ← Run.ofOption (reduceToCanonicalReps (expandWts p result) .quaternionType)
      writeResultRun ty.toText (natText p) "result-qts.seq".toList "result-qts.qseq".toList reduced
    | _ => return) := by
    refine G.bind stable_some (G.opt _) fun _ => G.bind stable_some (G.opt _) fun _ => G.bind stable_some (G.opt _) fun _ =>
      G.bind stable_some (G.opt _) fun _ => G.bind stable_some (g_result _ _ _ _ _) fun _ => ?_
    cases ty <;> first
      | exact G.pure _
      | exact G.bind stable_some (G.opt _) fun _ => g_result _ _ _ _ _
  exact this _ (by rw [hd]; rfl)

theorem readTop_isSome {s : Store} {ty n name t : Text} (h : readTop s ty n name = some t) : (s ty n).isSome := by
  unfold readTop at h
  cases hs : s ty n with
  | none => rw [hs] at h; cases h
  | some d => rfl

theorem g_main (env : Env F κ) (s : Store) {args : List Text} {ty : SeqType} {n : ℕ} (h : Concerns args ty n) :
    AllRdy (s ty.toText (natText n)) (mainRun env s args).ops := by
  cases h with
  | qhmAll h1 h2 =>
    unfold mainRun; dsimp only
    rw [if_pos rfl, h1, some_bind, h2, some_bind]
    exact g_opt fun t ht => g_opt fun _ _ => ⟨readTop_isSome ht, trivial⟩
  | amicable h2 =>
    unfold mainRun; dsimp only
    rw [if_neg (by decide), if_pos rfl, h2, some_bind]
    exact g_opt fun t ht => trivial
  | rowsums h1 h2 =>
    rw [main_rowsums env s h1 h2]
    refine g_opt fun u hu => ?_
    refine (G.bind stable_some G.top fun _ => G.bind stable_some (G.opt _) fun _ => G.top : G _ _) _ ?_
    cases hs : s ty.toText (natText n) with
    | none => rw [hs] at hu; cases hu
    | some d => rfl
  | join h1 h2 => rw [main_join env s h1 h2]; exact g_join env s ty n
  | convert h0 h1 h2 =>
    rcases h0 with rfl | rfl
    · rw [main_hm env s h1 h2]
      exact g_opt fun t ht => g_opt fun _ _ => ⟨readTop_isSome ht, trivial⟩
    · rw [main_qhm env s h1 h2]
      unfold convertQhmRun
      split
      · trivial
      · rename_i t ht
        exact (G.bind stable_some G.top fun _ => G.bind stable_some (G.opt _) fun _ => G.top : G _ _) _ (readTop_isSome ht)
  | pairs h1 h2 h3 =>
    obtain ⟨mo, h3⟩ := mo_some.1 h3
    rw [main_pairs env s h1 h2 h3]
    exact G.bind stable_true (g_pairs _ _ _ _ _) (fun _ => G.pure _) _ trivial
  | pairsRowsum h1 h2 h3 h4 =>
    obtain ⟨mo, h3⟩ := mo_some.1 h3
    obtain ⟨q, h4⟩ := parseQuad_some.1 h4
    rw [main_rowsum env s h1 h2 h4 h3]
    exact G.bind stable_true (g_rowsum _ _ _ _ _ _) (fun _ => G.pure _) _ trivial
  | create h1 h2 h4 =>
    obtain ⟨q, h4⟩ := parseQuad_some.1 h4
    unfold mainRun; dsimp only
    rw [if_neg (by decide), if_neg (by decide), if_neg (by decide), if_neg (by decide), if_neg (by decide),
      if_neg (by decide), if_neg (by decide), if_pos rfl, h1, some_bind, h2, some_bind, h4, some_bind]
    exact g_create _ _ _ _ _ trivial
  | pairSingle h1 h2 h3 h4 h5 =>
    obtain ⟨mo, h3⟩ := mo_some.1 h3
    obtain ⟨q, h4⟩ := parseQuad_some.1 h4
    obtain ⟨k, h5⟩ := Option.ne_none_iff_exists'.1 h5
    rw [main_single env s h1 h2 h4 h3 h5]
    exact G.bind stable_true (g_single _ _ _ _ _ _ _) (fun _ => G.pure _) _ trivial

/-! ## What a command reads -/

/-- Every write is to one of the named files of `find_<n>`. -/
def Tops (names : List Text) {α : Type} (r : Run α) : Prop :=
  ∀ o ∈ r.ops, ∃ ty n name c, o = .putTop ty n name c ∧ name ∈ names

theorem Tops.opt {names : List Text} {α : Type} (a : Option α) : Tops names (Run.ofOption a) := fun _ h => by cases h

theorem Tops.pure {names : List Text} {α : Type} (a : α) : Tops names (Run.pure a) := fun _ h => by cases h

theorem Tops.op {names : List Text} {ty n name c : Text} (h : name ∈ names) : Tops names (Run.op (.putTop ty n name c)) :=
  fun o ho => ⟨ty, n, name, c, List.mem_singleton.1 ho, h⟩

theorem Tops.bind {names : List Text} {α β : Type} {r : Run α} {f : α → Run β} (h : Tops names r) (hf : ∀ a, Tops names (f a)) :
    Tops names (r >>= f) := by
  intro o ho
  change o ∈ (Run.bind r f).ops at ho
  unfold Run.bind at ho
  cases hr : r.result with
  | none => rw [hr] at ho; exact h o ho
  | some a =>
    rw [hr] at ho
    rcases List.mem_append.1 ho with ho | ho
    · exact h o ho
    · exact hf a o ho

theorem tops_result {names : List Text} (ty n : Text) {a b : Text} (l : List QuadSeq) (ha : a ∈ names) (hb : b ∈ names) :
    Tops names (writeResultRun ty n a b l) :=
  Tops.bind (Tops.op ha) fun _ => Tops.bind (Tops.op hb) fun _ => Tops.bind (Tops.opt _) fun _ => Tops.bind (Tops.opt _) fun _ =>
    Tops.bind (Tops.op ha) fun _ => Tops.op hb

theorem tops_dirs {names : List Text} : ∀ (ops : List Write) (s : Store) (ty n : Text),
    (∀ o ∈ ops, ∃ ty n name c, o = .putTop ty n name c ∧ name ∈ names) →
      (applyOps s ops ty n).map FindDir.dirs = (s ty n).map FindDir.dirs
  | [], _, _, _, _ => rfl
  | o :: ops, s, ty, n, h => by
    change (applyOps (o.apply s) ops ty n).map _ = _
    rw [tops_dirs ops _ ty n fun x hx => h x (List.mem_cons_of_mem _ hx)]
    by_cases e : (ty, n) = o.path
    · rw [apply_path e.symm]
      obtain ⟨ty', n', name, c, rfl, _⟩ := h o List.mem_cons_self
      cases s ty n <;> rfl
    · rw [apply_other e]

theorem tops_read {names : List Text} {f : Text} (hf : f ∉ names) : ∀ (ops : List Write) (s : Store) (ty n : Text),
    (∀ o ∈ ops, ∃ ty n name c, o = .putTop ty n name c ∧ name ∈ names) →
      readTop (applyOps s ops) ty n f = readTop s ty n f
  | [], _, _, _, _ => rfl
  | o :: ops, s, ty, n, h => by
    change readTop (applyOps (o.apply s) ops) ty n f = _
    rw [tops_read hf ops _ ty n fun x hx => h x (List.mem_cons_of_mem _ hx)]
    unfold readTop
    by_cases e : (ty, n) = o.path
    · rw [apply_path e.symm]
      obtain ⟨ty', n', name, c, rfl, hn⟩ := h o List.mem_cons_self
      have hne : f ≠ name := fun e => hf (e ▸ hn)
      cases s ty n with
      | none => rfl
      | some d =>
        change lookup (putFile d.files name c) f = lookup d.files f
        rw [lookup_putFile, if_neg hne]
    · rw [apply_other e]

theorem join_dirs (env : Env F κ) {s t : Store} {ty : SeqType} {p : ℕ}
    (h : (t ty.toText (natText p)).map FindDir.dirs = (s ty.toText (natText p)).map FindDir.dirs) :
    joinRun env t ty p = joinRun env s ty p := by
  unfold joinRun
  dsimp only
  cases hs : s ty.toText (natText p) with
  | none =>
    cases ht : t ty.toText (natText p) with
    | none => rfl
    | some d => rw [hs, ht] at h; cases h
  | some d =>
    cases ht : t ty.toText (natText p) with
    | none => rw [hs, ht] at h; cases h
    | some d' =>
      rw [hs, ht] at h
      have e : listedDirs env d' = listedDirs env d := by
        unfold listedDirs
        rw [Option.some.inj h]
      rw [some_bind, some_bind, e]

theorem Tops.same {names : List Text} : ∀ {pre pre' : List Write} (_ : List.Forall₂ SameTarget pre pre')
    (_ : ∀ o ∈ pre, ∃ ty n name c, o = .putTop ty n name c ∧ name ∈ names),
    ∀ o ∈ pre', ∃ ty n name c, o = .putTop ty n name c ∧ name ∈ names
  | _, _, .nil, _, _, hx => by cases hx
  | o :: pre, o' :: pre', .cons hs hl, h, x, hx => by
    rcases List.mem_cons.1 hx with rfl | hx
    · obtain ⟨ty, n, name, c, rfl, hn⟩ := h o List.mem_cons_self
      cases x with
      | mkdir => exact hs.elim
      | put => exact hs.elim
      | putTop ty' n' name' c' => obtain ⟨_, _, rfl⟩ := hs; exact ⟨_, _, _, _, rfl, hn⟩
    · exact Tops.same hl (fun y hy => h y (List.mem_cons_of_mem _ hy)) x hx

theorem Tops.part {names : List Text} {α : Type} {r : Run α} (h : Tops names r) {pre pre' post : List Write}
    (hs : List.Forall₂ SameTarget pre pre') (hr : r.ops = pre ++ post) :
    ∀ o ∈ pre', ∃ ty n name c, o = .putTop ty n name c ∧ name ∈ names :=
  Tops.same hs fun o ho => h o (hr ▸ List.mem_append_left _ ho)

/-- The second run of a command does the same as the first. -/
theorem main_again (env : Env F κ) (s : Store) {args : List Text} {ty : SeqType} {n : ℕ} (h : Concerns args ty n)
    {pre pre' post : List Write} (hs : List.Forall₂ SameTarget pre pre') (hr : (mainRun env s args).ops = pre ++ post) :
    mainRun env (applyOps s pre') args = mainRun env s args := by
  cases h with
  | qhmAll h1 h2 =>
    rename_i tyT nT
    have key : ∀ s, mainRun env s ["qhm-all".toList, tyT, nT] = qhmAllRun env s ty n := by
      intro s
      unfold mainRun; dsimp only
      rw [if_pos rfl, h1, some_bind, h2, some_bind]
    rw [key] at hr
    rw [key, key]
    have ht : Tops ["qhm_all.mat".toList] (qhmAllRun env s ty n) :=
      Tops.bind (Tops.opt _) fun _ => Tops.bind (Tops.opt _) fun _ => Tops.op (by decide)
    unfold qhmAllRun at ht hr ⊢
    rw [tops_read (by decide) _ s _ _ (ht.part hs hr)]
  | amicable h2 =>
    rename_i nT
    have key : ∀ s, mainRun env s ["amicable".toList, nT] = amicableRun s n := by
      intro s
      unfold mainRun; dsimp only
      rw [if_neg (by decide), if_pos rfl, h2, some_bind]
    rw [key] at hr
    rw [key, key]
    have ht : Tops [] (amicableRun s n) := Tops.bind (Tops.opt _) fun _ => Tops.opt _
    unfold amicableRun at ht hr ⊢
    rw [tops_read (by decide) _ s _ _ (ht.part hs hr)]
  | rowsums h1 h2 =>
    rw [main_rowsums env s h1 h2] at hr
    rw [main_rowsums env s h1 h2, main_rowsums env _ h1 h2]
    have ht : Tops ["rowsums.quad".toList] (writeRowsumsRun s n ty) :=
      Tops.bind (Tops.opt _) fun _ => Tops.bind (Tops.op (by decide)) fun _ => Tops.bind (Tops.opt _) fun _ => Tops.op (by decide)
    have hd := tops_dirs _ s ty.toText (natText n) (ht.part hs hr)
    generalize applyOps s pre' = t at hd ⊢
    unfold writeRowsumsRun writeTop
    have : (t ty.toText (natText n)).map (fun _ => ()) = (s ty.toText (natText n)).map fun _ => () := by
      have := congrArg (Option.map fun _ => ()) hd
      simpa [Option.map_map, Function.comp_def] using this
    rw [this]
  | join h1 h2 =>
    rw [main_join env s h1 h2] at hr
    rw [main_join env s h1 h2, main_join env _ h1 h2]
    have : Tops ["result.seq".toList, "result.qseq".toList, "result-qts.seq".toList,
      "result-qts.qseq".toList] (joinRun env s ty n) := by
      refine Tops.bind (Tops.opt _) fun _ => Tops.bind (Tops.opt _) fun _ => Tops.bind (Tops.opt _) fun _ =>
        Tops.bind (Tops.opt _) fun _ => Tops.bind (Tops.opt _) fun _ =>
        Tops.bind (tops_result _ _ _ (by decide) (by decide)) fun _ => ?_
      cases ty
      case williamsonType => exact Tops.bind (Tops.opt _) fun _ => tops_result _ _ _ (by decide) (by decide)
      all_goals exact Tops.pure _
    exact join_dirs env (tops_dirs _ s _ _ (this.part hs hr))
  | convert h0 h1 h2 =>
    rcases h0 with rfl | rfl
    · rw [main_hm env s h1 h2] at hr
      rw [main_hm env s h1 h2, main_hm env _ h1 h2]
      have ht : Tops ["result.mat".toList] (convertHmRun env s ty n) :=
        Tops.bind (Tops.opt _) fun _ => Tops.bind (Tops.opt _) fun _ => Tops.op (by decide)
      have h1 := tops_read (f := "result-qts.seq".toList) (by decide) _ s ty.toText (natText n) (ht.part hs hr)
      have h2 := tops_read (f := "result.seq".toList) (by decide) _ s ty.toText (natText n) (ht.part hs hr)
      generalize applyOps s pre' = t at h1 h2 ⊢
      unfold convertHmRun
      cases ty
      case williamsonType => dsimp only; rw [h1]
      all_goals (dsimp only; rw [h2])
    · rw [main_qhm env s h1 h2] at hr
      rw [main_qhm env s h1 h2, main_qhm env _ h1 h2]
      have ht : Tops ["result.qhm".toList] (convertQhmRun s ty n) := by
        unfold convertQhmRun
        split
        · exact Tops.pure ()
        · exact Tops.bind (Tops.op (by decide)) fun _ => Tops.bind (Tops.opt _) fun _ => Tops.op (by decide)
      have h2 := tops_read (f := "result.seq".toList) (by decide) _ s ty.toText (natText n) (ht.part hs hr)
      generalize applyOps s pre' = t at h2 ⊢
      unfold convertQhmRun
      rw [h2]
  | pairs h1 h2 h3 =>
    obtain ⟨mo, h3⟩ := mo_some.1 h3
    rw [main_pairs env _ h1 h2 h3, main_pairs env s h1 h2 h3]
  | pairsRowsum h1 h2 h3 h4 =>
    obtain ⟨mo, h3⟩ := mo_some.1 h3
    obtain ⟨q, h4⟩ := parseQuad_some.1 h4
    rw [main_rowsum env _ h1 h2 h4 h3, main_rowsum env s h1 h2 h4 h3]
  | create h1 h2 h4 => rfl
  | pairSingle h1 h2 h3 h4 h5 =>
    obtain ⟨mo, h3⟩ := mo_some.1 h3
    obtain ⟨q, h4⟩ := parseQuad_some.1 h4
    obtain ⟨k, h5⟩ := Option.ne_none_iff_exists'.1 h5
    rw [main_single env _ h1 h2 h4 h3 h5, main_single env s h1 h2 h4 h3 h5]

theorem run_again (env : Env F κ) (s : Store) (args : List Text) {pre pre' post : List Write}
    (hs : List.Forall₂ SameTarget pre pre') (hr : (mainRun env s args).ops = pre ++ post) :
    runProgram env (applyOps s pre') args = runProgram env s args := by
  by_cases h : ∃ ty n, Concerns args ty n
  · obtain ⟨ty, n, h⟩ := h
    have hp := (main_into env s h).all
    have hg := g_main env s h
    unfold runProgram
    rw [main_again env s h hs hr]
    rw [hr] at hp hg ⊢
    rw [store_redo hs hp hg]
  · rw [main_ill env s args h] at hr
    obtain ⟨rfl, rfl⟩ := List.append_eq_nil_iff.1 hr.symm
    cases hs
    rfl

/-- A command depends on the directory of its type and length only. -/
theorem main_local (env : Env F κ) {s t : Store} {args : List Text} {ty : SeqType} {n : ℕ} (h : Concerns args ty n)
    (hst : t ty.toText (natText n) = s ty.toText (natText n)) : mainRun env t args = mainRun env s args := by
  have hr : ∀ name, readTop t ty.toText (natText n) name = readTop s ty.toText (natText n) name := fun name => by
    unfold readTop; rw [hst]
  cases h with
  | qhmAll h1 h2 =>
    unfold mainRun; dsimp only
    rw [if_pos rfl, if_pos rfl, h1, some_bind, some_bind, h2, some_bind, some_bind]
    unfold qhmAllRun
    rw [hr]
  | amicable h2 =>
    unfold mainRun; dsimp only
    rw [if_neg (by decide), if_pos rfl, if_neg (by decide), if_pos rfl, h2, some_bind, some_bind]
    unfold amicableRun
    rw [show readTop t "qts".toList _ _ = readTop s "qts".toList _ _ from hr _]
  | rowsums h1 h2 =>
    rw [main_rowsums env s h1 h2, main_rowsums env _ h1 h2]
    unfold writeRowsumsRun writeTop
    rw [hst]
  | join h1 h2 =>
    rw [main_join env s h1 h2, main_join env _ h1 h2]
    exact join_dirs env (by rw [hst])
  | convert h0 h1 h2 =>
    rcases h0 with rfl | rfl
    · rw [main_hm env s h1 h2, main_hm env _ h1 h2]
      unfold convertHmRun
      dsimp only
      rw [hr]
    · rw [main_qhm env s h1 h2, main_qhm env _ h1 h2]
      unfold convertQhmRun
      rw [hr]
  | pairs h1 h2 h3 =>
    obtain ⟨mo, h3⟩ := mo_some.1 h3
    rw [main_pairs env _ h1 h2 h3, main_pairs env s h1 h2 h3]
  | pairsRowsum h1 h2 h3 h4 =>
    obtain ⟨mo, h3⟩ := mo_some.1 h3
    obtain ⟨q, h4⟩ := parseQuad_some.1 h4
    rw [main_rowsum env _ h1 h2 h4 h3, main_rowsum env s h1 h2 h4 h3]
  | create h1 h2 h4 => rfl
  | pairSingle h1 h2 h3 h4 h5 =>
    obtain ⟨mo, h3⟩ := mo_some.1 h3
    obtain ⟨q, h4⟩ := parseQuad_some.1 h4
    obtain ⟨k, h5⟩ := Option.ne_none_iff_exists'.1 h5
    rw [main_single env _ h1 h2 h4 h3 h5, main_single env s h1 h2 h4 h3 h5]

theorem same_refl : ∀ ops : List Write, List.Forall₂ SameTarget ops ops
  | [] => .nil
  | o :: ops => .cons (by cases o <;> simp [SameTarget]) (same_refl ops)

end Proofs.Rerun
