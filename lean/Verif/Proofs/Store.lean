import Mathlib.Data.List.Basic
import Mathlib.Data.List.Perm.Basic
import Mathlib.Data.List.Nodup
import Verif.Spec.Program
import Verif.Proofs.Text

/-!
# Helper lemmas: stores and interleavings
-/

set_option linter.unusedSectionVars false
set_option linter.unusedVariables false
set_option linter.unusedSimpArgs false

namespace Proofs.Store
open Model Spec

/-! ## Single directories -/

theorem lookup_nil (name : Text) : lookup [] name = none := rfl

theorem lookup_cons (f : Text × Text) (d : Dir) (name : Text) :
    lookup (f :: d) name = if f.1 = name then some f.2 else lookup d name := by
  unfold lookup
  rw [List.find?_cons]
  by_cases h : f.1 = name <;> simp [h]

theorem lookup_append (d e : Dir) (name : Text) : lookup (d ++ e) name = (lookup d name).or (lookup e name) := by
  induction d with
  | nil => simp [lookup_nil]
  | cons f d ih => rw [List.cons_append, lookup_cons, lookup_cons, ih]; split <;> simp

theorem lookup_eq_none {d : Dir} {name : Text} : lookup d name = none ↔ name ∉ d.map Prod.fst := by
  induction d with
  | nil => simp [lookup_nil]
  | cons f d ih =>
    rw [lookup_cons, List.map_cons, List.mem_cons]
    by_cases h : f.1 = name
    · simp [h]
    · rw [if_neg h, ih]
      have : ¬ name = f.1 := fun e => h e.symm
      simp [this]

theorem lookup_of_mem {d : Dir} (h : (d.map Prod.fst).Nodup) {f : Text × Text} (hf : f ∈ d) : lookup d f.1 = some f.2 := by
  induction d with
  | nil => simp at hf
  | cons g d ih =>
    rw [lookup_cons]
    rw [List.map_cons, List.nodup_cons] at h
    rcases List.mem_cons.1 hf with rfl | hf
    · simp
    · rw [if_neg, ih h.2 hf]
      intro e
      exact h.1 (e ▸ List.mem_map_of_mem hf)

theorem mem_of_lookup {d : Dir} {name c : Text} (h : lookup d name = some c) : (name, c) ∈ d := by
  unfold lookup at h
  obtain ⟨f, h1, h2⟩ := Option.map_eq_some_iff.1 h
  have := List.find?_some h1
  have hm := List.mem_of_find?_eq_some h1
  simp only [decide_eq_true_eq] at this
  rw [← this, ← h2]
  exact hm

theorem mem_iff_lookup {d : Dir} (h : (d.map Prod.fst).Nodup) {name c : Text} :
    (name, c) ∈ d ↔ lookup d name = some c :=
  ⟨fun hm => lookup_of_mem h hm, mem_of_lookup⟩

theorem nodup_of_fst {α β : Type} {d : List (α × β)} (h : (d.map Prod.fst).Nodup) : d.Nodup := List.Nodup.of_map _ h

theorem perm_of_lookup {d e : Dir} (hd : (d.map Prod.fst).Nodup) (he : (e.map Prod.fst).Nodup)
    (h : ∀ name, lookup d name = lookup e name) : d.Perm e := by
  refine (List.perm_ext_iff_of_nodup (nodup_of_fst hd) (nodup_of_fst he)).2 fun f => ?_
  obtain ⟨name, c⟩ := f
  rw [mem_iff_lookup hd, mem_iff_lookup he, h]

theorem putFile_names (d : Dir) (name c : Text) :
    (putFile d name c).map Prod.fst = if name ∈ d.map Prod.fst then d.map Prod.fst else d.map Prod.fst ++ [name] := by
  unfold putFile
  split
  · rw [List.map_map]
    refine List.map_congr_left fun f hf => ?_
    simp only [Function.comp]
    split
    · rename_i h; exact h.symm
    · rfl
  · simp

theorem putFile_nodup {d : Dir} (h : (d.map Prod.fst).Nodup) (name c : Text) :
    ((putFile d name c).map Prod.fst).Nodup := by
  rw [putFile_names]
  split
  · exact h
  · rename_i hn
    rw [List.nodup_append]
    refine ⟨h, by simp, ?_⟩
    intro a ha b hb e
    simp only [List.mem_singleton] at hb
    exact hn (hb ▸ e ▸ ha)

theorem lookup_putFile (d : Dir) (name c x : Text) :
    lookup (putFile d name c) x = if x = name then some c else lookup d x := by
  unfold putFile
  split
  · rename_i hm
    induction d with
    | nil => simp at hm
    | cons f d ih =>
      rw [List.map_cons, lookup_cons, lookup_cons]
      by_cases h1 : f.1 = name
      · rw [if_pos h1]
        by_cases h2 : x = name
        · rw [if_pos h2, if_pos h2.symm]
        · rw [if_neg h2, if_neg (fun e => h2 e.symm), if_neg (fun e => h2 (e.symm.trans h1))]
          by_cases hm' : name ∈ d.map Prod.fst
          · rw [ih hm', if_neg h2]
          · congr 1
            rw [List.map_congr_left (g := id) ?_, List.map_id]
            intro g hg
            rw [if_neg]
            · rfl
            · intro e; exact hm' (e ▸ List.mem_map_of_mem hg)
      · rw [if_neg h1]
        have hm' : name ∈ d.map Prod.fst := by
          rcases List.mem_cons.1 (List.map_cons .. ▸ hm) with h | h
          · exact absurd h.symm h1
          · exact h
        rw [ih hm']
        by_cases h2 : x = name
        · simp only [h2, if_true, h1, if_false]
        · simp only [h2, if_false]
  · rename_i hm
    rw [lookup_append]
    have : lookup [(name, c)] x = if x = name then some c else none := by
      rw [lookup_cons, lookup_nil]
      by_cases h : x = name
      · rw [if_pos h, if_pos h.symm]
      · rw [if_neg h, if_neg fun e => h e.symm]
    rw [this]
    by_cases h : x = name
    · rw [if_pos h, if_pos h, lookup_eq_none.2 (h ▸ hm)]; rfl
    · rw [if_neg h, if_neg h]; simp

/-! ## Interleavings -/

theorem interleave_flatten {α : Type} (ls : List (List α)) : Interleave ls ls.flatten := by
  suffices h : ∀ (pre : List (List α)), (∀ l ∈ pre, l = []) → ∀ ls, Interleave (pre ++ ls) ls.flatten from h [] (by simp) ls
  intro pre hpre ls
  induction ls generalizing pre with
  | nil => exact .nil _ (by simpa using hpre)
  | cons l ls ih =>
    induction l with
    | nil =>
      have := ih (pre ++ [[]]) (by
        intro l hl
        rcases List.mem_append.1 hl with h | h
        · exact hpre l h
        · exact List.mem_singleton.1 h)
      rw [List.append_assoc] at this
      simpa using this
    | cons x l ihl =>
      have := Interleave.cons pre ls x l _ ihl
      simpa using this

theorem interleave_filter {α : Type} (p : α → Bool) {ls : List (List α)} {t : List α} (h : Interleave ls t) :
    Interleave (ls.map fun l => l.filter p) (t.filter p) := by
  induction h with
  | nil ls h =>
    refine .nil _ fun l hl => ?_
    obtain ⟨m, hm, rfl⟩ := List.mem_map.1 hl
    rw [h m hm]; rfl
  | cons pre post x l t h ih =>
    rw [List.map_append, List.map_cons] at ih ⊢
    by_cases hx : p x = true
    · rw [List.filter_cons_of_pos hx, List.filter_cons_of_pos hx]
      exact .cons _ _ _ _ _ ih
    · rw [List.filter_cons_of_neg hx, List.filter_cons_of_neg hx]
      exact ih

theorem interleave_mem {α : Type} {ls : List (List α)} {t : List α} (h : Interleave ls t) (x : α) :
    x ∈ t ↔ ∃ l ∈ ls, x ∈ l := by
  induction h with
  | nil ls h =>
    simp only [List.not_mem_nil, false_iff]
    rintro ⟨l, hl, hx⟩
    rw [h l hl] at hx
    simp at hx
  | cons pre post y l t h ih =>
    rw [List.mem_cons, ih]
    simp only [List.mem_append, List.mem_cons]
    constructor
    · rintro (rfl | ⟨m, (hm | rfl | hm), hx⟩)
      · exact ⟨_, .inr (.inl rfl), by simp⟩
      · exact ⟨m, .inl hm, hx⟩
      · exact ⟨_, .inr (.inl rfl), by simp [hx]⟩
      · exact ⟨m, .inr (.inr hm), hx⟩
    · rintro ⟨m, (hm | rfl | hm), hx⟩
      · exact .inr ⟨m, .inl hm, hx⟩
      · rcases List.mem_cons.1 hx with rfl | hx
        · exact .inl rfl
        · exact .inr ⟨l, .inr (.inl rfl), hx⟩
      · exact .inr ⟨m, .inr (.inr hm), hx⟩

/-- If only one of the sequences has events, the interleaving is that sequence. -/
theorem interleave_single {α : Type} {ls : List (List α)} {t : List α} (h : Interleave ls t) :
    ∀ (pre post : List (List α)) (l : List α), ls = pre ++ l :: post → (∀ m ∈ pre, m = []) → (∀ m ∈ post, m = []) → t = l := by
  induction h with
  | nil ls h =>
    rintro pre post l rfl _ _
    exact (h l (by simp)).symm
  | cons pre0 post0 x l0 t h ih =>
    intro pre post l e h1 h2
    have hlen : pre0.length = pre.length := by
      by_contra hne
      have hget : (pre0 ++ (x :: l0) :: post0)[pre0.length]? = some (x :: l0) := by simp
      rw [e] at hget
      rcases Nat.lt_or_ge pre0.length pre.length with hlt | hge
      · rw [List.getElem?_append_left hlt] at hget
        have := h1 _ (List.mem_of_getElem? hget)
        cases this
      · have hgt : pre.length < pre0.length := by omega
        rw [List.getElem?_append_right hge] at hget
        obtain ⟨k, hk⟩ : ∃ k, pre0.length - pre.length = k + 1 := ⟨pre0.length - pre.length - 1, by omega⟩
        rw [hk, List.getElem?_cons_succ] at hget
        have := h2 _ (List.mem_of_getElem? hget)
        cases this
    obtain ⟨e1, e2⟩ := List.append_inj e hlen
    cases e1
    cases e2
    rw [ih pre0 post0 l0 rfl h1 h2]

/-! ## Many directories -/

/-- The meaning of a list of directories: a partial map of partial maps. -/
def Rep (D : List (Text × Dir)) (M : Text → Option (Text → Option Text)) : Prop :=
  (D.map Prod.fst).Nodup ∧ (∀ dir d, (dir, d) ∈ D → (d.map Prod.fst).Nodup ∧ M dir = some (lookup d)) ∧
    ∀ dir, M dir ≠ none → dir ∈ D.map Prod.fst

theorem rep_same {D w : List (Text × Dir)} {M : Text → Option (Text → Option Text)} (h : Rep D M) (h' : Rep w M) :
    SameDirs D w := by
  obtain ⟨a1, a2, a3⟩ := h
  obtain ⟨b1, b2, b3⟩ := h'
  -- the directories of `w` in the order of `D`
  have key : ∀ e ∈ D, ∃ d, (e.1, d) ∈ w ∧ e.2.Perm d := by
    rintro ⟨dir, d⟩ he
    obtain ⟨n1, m1⟩ := a2 dir d he
    have := b3 dir (by rw [m1]; simp)
    obtain ⟨⟨dir', d'⟩, he', rfl⟩ := List.mem_map.1 this
    obtain ⟨n2, m2⟩ := b2 _ d' he'
    refine ⟨d', he', perm_of_lookup n1 n2 fun name => ?_⟩
    rw [m1] at m2
    exact congrFun (Option.some.inj m2) name
  choose! g hg using key
  refine ⟨D.map fun e => (e.1, g e), ?_, ?_⟩
  · have hn : (D.map fun e => (e.1, g e)).Nodup := by
      apply nodup_of_fst
      rw [List.map_map]
      exact a1
    refine (List.perm_ext_iff_of_nodup hn (nodup_of_fst b1)).2 fun e => ?_
    constructor
    · intro he
      obtain ⟨e', he', rfl⟩ := List.mem_map.1 he
      exact (hg e' he').1
    · intro he
      obtain ⟨dir, d⟩ := e
      obtain ⟨n2, m2⟩ := b2 dir d he
      have := a3 dir (by rw [m2]; simp)
      obtain ⟨e', he', hfst⟩ := List.mem_map.1 this
      refine List.mem_map.2 ⟨e', he', ?_⟩
      have h1 := (hg e' he').1
      rw [hfst] at h1 ⊢
      rw [Prod.mk.injEq]
      exact ⟨rfl, by
        have := List.inj_on_of_nodup_map b1 h1 he rfl
        exact (Prod.mk.inj this).2⟩
  · rw [List.forall₂_map_right_iff]
    refine List.forall₂_same.2 fun e he => ⟨rfl, (hg e he).2⟩

/-- The effect of a write on the meaning. -/
def actM (M : Text → Option (Text → Option Text)) : Write → Text → Option (Text → Option Text)
  | .mkdir _ _ dir => fun x => if x = dir then some ((M dir).getD fun _ => none) else M x
  | .put _ _ dir name c => fun x =>
    if x = dir then (M dir).map fun m => fun y => if y = name then some c else m y else M x
  | .putTop _ _ _ _ => M

/-- Writes below one `find_<n>`, other than plain files. -/
def Below (ty n : Text) (o : Write) : Prop := o.path = (ty, n) ∧ ∀ name c, o ≠ .putTop ty n name c

theorem act_rep {ty n : Text} {o : Write} (ho : Below ty n o) {fd : FindDir} {M : Text → Option (Text → Option Text)}
    (h : Rep fd.dirs M) : ∃ D, o.act (some fd) = some { fd with dirs := D } ∧ Rep D (actM M o) := by
  obtain ⟨h1, h2, h3⟩ := h
  cases o with
  | mkdir a b dir =>
    simp only [Write.act, Option.getD_some]
    by_cases hd : dir ∈ fd.dirs.map Prod.fst
    · rw [if_pos hd]
      refine ⟨fd.dirs, rfl, h1, fun x d hx => ⟨(h2 x d hx).1, ?_⟩, fun x hx => ?_⟩
      · simp only [actM]
        split
        · rename_i e; subst e; rw [(h2 _ d hx).2]; rfl
        · exact (h2 x d hx).2
      · simp only [actM] at hx
        split at hx
        · rename_i e; exact e ▸ hd
        · exact h3 x hx
    · rw [if_neg hd]
      refine ⟨fd.dirs ++ [(dir, [])], rfl, ?_, ?_, ?_⟩
      · rw [List.map_append, List.nodup_append]
        refine ⟨h1, by simp, ?_⟩
        intro x hx y hy e
        simp only [List.map_cons, List.map_nil, List.mem_singleton] at hy
        exact hd (hy ▸ e ▸ hx)
      · intro x d hx
        simp only [actM]
        rcases List.mem_append.1 hx with hx | hx
        · have hne : x ≠ dir := fun e => hd (e ▸ List.mem_map_of_mem (f := Prod.fst) hx)
          rw [if_neg hne]
          exact h2 x d hx
        · simp only [List.mem_singleton, Prod.mk.injEq] at hx
          obtain ⟨rfl, rfl⟩ := hx
          rw [if_pos rfl]
          have : M x = none := by
            by_contra hc
            exact hd (h3 x hc)
          rw [this]
          exact ⟨by simp, rfl⟩
      · intro x hx
        simp only [actM] at hx
        rw [List.map_append, List.mem_append]
        split at hx
        · rename_i e; right; simp [e]
        · left; exact h3 x hx
  | put a b dir name c =>
    simp only [Write.act, Option.map_some]
    refine ⟨_, rfl, ?_, ?_, ?_⟩
    · rw [List.map_map]
      convert h1 using 1
      refine List.map_congr_left fun e _ => ?_
      simp only [Function.comp]
      split <;> rfl
    · intro x d hx
      obtain ⟨e, he, hee⟩ := List.mem_map.1 hx
      obtain ⟨k1, k2⟩ := h2 e.1 e.2 he
      simp only [actM]
      split at hee
      · rename_i hdir
        cases hee
        refine ⟨putFile_nodup k1 _ _, ?_⟩
        rw [if_pos hdir, ← hdir, k2, Option.map_some]
        congr 1
        funext y
        exact (lookup_putFile _ _ _ _).symm
      · rename_i hdir
        cases hee
        rw [if_neg hdir]
        exact ⟨k1, k2⟩
    · intro x hx
      rw [List.map_map]
      have : (fd.dirs.map (Prod.fst ∘ fun e : Text × Dir => if e.1 = dir then (e.1, putFile e.2 name c) else e)) =
          fd.dirs.map Prod.fst := by
        refine List.map_congr_left fun e _ => ?_
        simp only [Function.comp]
        split <;> rfl
      rw [this]
      apply h3
      simp only [actM] at hx
      split at hx
      · rename_i e; subst e
        intro hn; rw [hn] at hx; simp at hx
      · exact hx
  | putTop a b name c =>
    exact absurd rfl (by
      have := ho.1
      simp only [Write.path, Prod.mk.injEq] at this
      rw [this.1, this.2] at ho
      exact ho.2 name c)

theorem apply_other {o : Write} {a b : Text} (h : (a, b) ≠ o.path) (s : Store) : o.apply s a b = s a b := by
  unfold Write.apply
  exact if_neg h

theorem apply_path {o : Write} {a b : Text} (h : o.path = (a, b)) (s : Store) : o.apply s a b = o.act (s a b) := by
  unfold Write.apply
  exact if_pos h.symm

theorem applyOps_other {ops : List Write} {a b : Text} (h : ∀ o ∈ ops, o.path ≠ (a, b)) (s : Store) :
    applyOps s ops a b = s a b := by
  unfold applyOps
  induction ops generalizing s with
  | nil => rfl
  | cons o ops ih =>
    rw [List.foldl_cons, ih (fun o ho => h o (by simp [ho])), apply_other (fun e => h o (by simp) e.symm)]

theorem applyOps_append (s : Store) (a b : List Write) : applyOps s (a ++ b) = applyOps (applyOps s a) b := by
  unfold applyOps
  exact List.foldl_append

theorem applyOps_rep {ty n : Text} {ops : List Write} (ho : ∀ o ∈ ops, Below ty n o) :
    ∀ {s : Store} {fd : FindDir} {M : Text → Option (Text → Option Text)}, s ty n = some fd → Rep fd.dirs M →
      ∃ D, applyOps s ops ty n = some { fd with dirs := D } ∧ Rep D (ops.foldl actM M) := by
  induction ops with
  | nil => intro s fd M hs hr; exact ⟨fd.dirs, hs, hr⟩
  | cons o ops ih =>
    intro s fd M hs hr
    obtain ⟨D, h1, h2⟩ := act_rep (ho o (by simp)) hr
    have hs' : o.apply s ty n = some { fd with dirs := D } := by
      rw [apply_path (ho o (by simp)).1, hs, h1]
    exact ih (fun o h => ho o (by simp [h])) (fd := { fd with dirs := D }) hs' h2

/-! ## The meaning after a list of writes -/

/-- The last text written to a file. -/
def lastPut (ops : List Write) (dir name : Text) : Option Text :=
  (ops.filterMap fun o => match o with
    | .put _ _ a b c => if a = dir ∧ b = name then some c else none
    | _ => none).getLast?

theorem lastPut_append (a b : List Write) (dir name : Text) :
    lastPut (a ++ b) dir name = (lastPut b dir name).or (lastPut a dir name) := by
  unfold lastPut
  rw [List.filterMap_append, List.getLast?_append]

/-- Every file written lies in a directory created before. -/
def Created (ops : List Write) : Prop :=
  ∀ pre o post, ops = pre ++ o :: post → ∀ a b dir name c, o = .put a b dir name c →
    ∃ a' b', .mkdir a' b' dir ∈ pre

theorem created_prefix {a b : List Write} (h : Created (a ++ b)) : Created a := by
  intro pre o post e
  exact h pre o (post ++ b) (by rw [e]; simp)

theorem foldl_actM (ops : List Write) (hc : Created ops) (hb : ∀ o ∈ ops, ∀ a b x y, o ≠ .putTop a b x y) (dir : Text) :
    ((∃ a b, .mkdir a b dir ∈ ops) → (ops.foldl actM (fun _ => none)) dir = some (lastPut ops dir)) ∧
    ((¬ ∃ a b, .mkdir a b dir ∈ ops) → (ops.foldl actM (fun _ => none)) dir = none) := by
  induction ops using List.reverseRecOn with
  | nil => simp
  | append_singleton ops o ih =>
    obtain ⟨ih1, ih2⟩ := ih (created_prefix hc) fun o ho => hb o (by simp [ho])
    rw [List.foldl_append, List.foldl_cons, List.foldl_nil]
    generalize hM : ops.foldl actM (fun _ => none) = M at *
    have hl : ∀ name, lastPut (ops ++ [o]) dir name = (lastPut [o] dir name).or (lastPut ops dir name) :=
      fun name => lastPut_append _ _ _ _
    cases o with
    | mkdir a b x =>
      have e0 : ∀ name, lastPut [Write.mkdir a b x] dir name = none := fun _ => rfl
      have hl' : lastPut (ops ++ [Write.mkdir a b x]) dir = lastPut ops dir := by
        funext name; rw [hl, e0]; rfl
      rw [hl']
      constructor
      · rintro ⟨a', b', hm⟩
        show (if dir = x then some ((M x).getD fun _ => none) else M dir) = _
        by_cases hx : dir = x
        · subst hx
          rw [if_pos rfl]
          by_cases hm' : ∃ a b, .mkdir a b dir ∈ ops
          · rw [ih1 hm']; rfl
          · rw [ih2 hm']
            refine congrArg some ?_
            funext name
            -- nothing was written there before
            have : (ops.filterMap fun o => match o with
                | .put _ _ a b c => if a = dir ∧ b = name then some c else none
                | _ => none) = [] := by
              rw [List.filterMap_eq_nil_iff]
              intro o ho
              cases o with
              | put a1 b1 d1 n1 c1 =>
                dsimp only
                rw [if_neg]
                rintro ⟨rfl, rfl⟩
                obtain ⟨pre, post, e⟩ := List.append_of_mem ho
                obtain ⟨a2, b2, hmk⟩ := hc pre (Write.put a1 b1 d1 n1 c1) (post ++ [Write.mkdir a b d1])
                  (by rw [e]; simp) a1 b1 d1 n1 c1 rfl
                exact hm' ⟨a2, b2, by rw [e]; simp [hmk]⟩
              | _ => rfl
            show none = lastPut ops dir name
            unfold lastPut
            rw [this]; rfl
        · rw [if_neg hx]
          apply ih1
          rcases List.mem_append.1 hm with h | h
          · exact ⟨a', b', h⟩
          · simp only [List.mem_singleton, Write.mkdir.injEq] at h
            exact absurd h.2.2 hx
      · intro hno
        show (if dir = x then some ((M x).getD fun _ => none) else M dir) = _
        rw [if_neg, ih2]
        · rintro ⟨a', b', h⟩; exact hno ⟨a', b', by simp [h]⟩
        · rintro rfl; exact hno ⟨a, b, by simp⟩
    | put a b x y c =>
      have hmk : (∃ a' b', Write.mkdir a' b' dir ∈ ops ++ [Write.put a b x y c]) ↔ ∃ a b, .mkdir a b dir ∈ ops := by
        constructor
        · rintro ⟨a', b', h⟩
          rcases List.mem_append.1 h with h | h
          · exact ⟨a', b', h⟩
          · simp at h
        · rintro ⟨a', b', h⟩; exact ⟨a', b', by simp [h]⟩
      rw [hmk]
      show (_ → (if dir = x then (M x).map fun m => fun z => if z = y then some c else m z else M dir) = _) ∧
        (_ → (if dir = x then (M x).map fun m => fun z => if z = y then some c else m z else M dir) = _)
      by_cases hx : dir = x
      · subst hx
        constructor
        · intro h
          rw [if_pos rfl, ih1 h, Option.map_some]
          refine congrArg some ?_
          funext z
          rw [hl]
          have : lastPut [Write.put a b dir y c] dir z = if z = y then some c else none := by
            unfold lastPut
            by_cases hz : z = y
            · subst hz; simp
            · have : ¬ y = z := fun e => hz e.symm
              simp [hz, this]
          rw [this]
          split
          · rfl
          · rfl
        · intro h
          rw [if_pos rfl, ih2 h]; rfl
      · have e0 : ∀ z, lastPut [Write.put a b x y c] dir z = none := fun z => by
          unfold lastPut
          have : ¬ x = dir := fun e => hx e.symm
          simp [this]
        have hl' : lastPut (ops ++ [Write.put a b x y c]) dir = lastPut ops dir := by
          funext name; rw [hl, e0]; rfl
        rw [hl', if_neg hx]
        exact ⟨ih1, ih2⟩
    | putTop a b x y => exact absurd rfl (hb _ (by simp) a b x y)

/-! ## Processes writing at the same time -/

/-- `Created`, with a set of directories that exist already. -/
def CreatedFrom (S : Text → Prop) : List Write → Prop
  | [] => True
  | .mkdir _ _ dir :: l => CreatedFrom (fun x => S x ∨ x = dir) l
  | .put _ _ dir _ _ :: l => S dir ∧ CreatedFrom S l
  | .putTop _ _ _ _ :: l => CreatedFrom S l

theorem CreatedFrom.mono {S T : Text → Prop} (h : ∀ x, S x → T x) : ∀ {l : List Write}, CreatedFrom S l → CreatedFrom T l
  | [], _ => trivial
  | .mkdir _ _ dir :: l, hl => CreatedFrom.mono (l := l) (fun x hx => hx.imp (h x) id) hl
  | .put _ _ dir _ _ :: l, hl => ⟨h _ hl.1, CreatedFrom.mono h hl.2⟩
  | .putTop _ _ _ _ :: l, hl => CreatedFrom.mono (l := l) h hl

theorem CreatedFrom.created {ops : List Write} : ∀ {S : Text → Prop}, CreatedFrom S ops → ∀ pre o post,
    ops = pre ++ o :: post → ∀ a b dir name c, o = .put a b dir name c → S dir ∨ ∃ a' b', .mkdir a' b' dir ∈ pre := by
  induction ops with
  | nil => intro S _ pre o post e; simp at e
  | cons x ops ih =>
    intro S h pre o post e a b dir name c ho
    cases pre with
    | nil =>
      simp only [List.nil_append, List.cons.injEq] at e
      rw [e.1, ho] at h
      exact .inl h.1
    | cons y pre =>
      simp only [List.cons_append, List.cons.injEq] at e
      obtain ⟨rfl, e⟩ := e
      cases x with
      | mkdir a1 b1 d1 =>
        rcases ih (S := fun x => S x ∨ x = d1) h pre o post e a b dir name c ho with (h1 | h1) | ⟨a', b', h1⟩
        · exact .inl h1
        · exact .inr ⟨a1, b1, by simp [h1]⟩
        · exact .inr ⟨a', b', by simp [h1]⟩
      | put a1 b1 d1 n1 c1 =>
        rcases ih (S := S) h.2 pre o post e a b dir name c ho with h1 | ⟨a', b', h1⟩
        · exact .inl h1
        · exact .inr ⟨a', b', by simp [h1]⟩
      | putTop a1 b1 n1 c1 =>
        rcases ih (S := S) h pre o post e a b dir name c ho with h1 | ⟨a', b', h1⟩
        · exact .inl h1
        · exact .inr ⟨a', b', by simp [h1]⟩

theorem interleave_created {ls : List (List Write)} {t : List Write} (h : Interleave ls t) :
    ∀ {S : Text → Prop}, (∀ l ∈ ls, CreatedFrom S l) → CreatedFrom S t := by
  induction h with
  | nil ls h => intro S _; trivial
  | cons pre post x l t h ih =>
    intro S hl
    have hx := hl (x :: l) (by simp)
    have hother : ∀ m, m ∈ pre ∨ m ∈ post → CreatedFrom S m := fun m hm => hl m (by
      rcases hm with h | h <;> simp [h])
    have step : ∀ T : Text → Prop, (∀ x, S x → T x) → CreatedFrom T l → CreatedFrom T t := by
      intro T hT hlT
      refine ih fun m hm => ?_
      rcases List.mem_append.1 hm with h | h
      · exact (hother m (.inl h)).mono hT
      · rcases List.mem_cons.1 h with rfl | h
        · exact hlT
        · exact (hother m (.inr h)).mono hT
    cases x with
    | mkdir a b d => exact step _ (fun x hx => .inl hx) hx
    | put a b d n c => exact ⟨hx.1, step S (fun _ h => h) hx.2⟩
    | putTop a b n c => exact step S (fun _ h => h) hx

/-- A process that creates one directory and then writes the files `d` there. -/
def Writes (ty n dir : Text) (d : Dir) (ops : List Write) : Prop :=
  ∃ rest, ops = .mkdir ty n dir :: rest ∧ (∀ o ∈ rest, ∃ name c, o = .put ty n dir name c) ∧
    ∀ name, lastPut rest dir name = lookup d name

theorem Writes.below {ty n dir : Text} {d : Dir} {ops : List Write} (h : Writes ty n dir d ops) :
    ∀ o ∈ ops, Below ty n o := by
  obtain ⟨rest, rfl, h1, _⟩ := h
  intro o ho
  rcases List.mem_cons.1 ho with rfl | ho
  · exact ⟨rfl, fun _ _ => by simp⟩
  · obtain ⟨name, c, rfl⟩ := h1 o ho
    exact ⟨rfl, fun _ _ => by simp⟩

theorem Writes.created {ty n dir : Text} {d : Dir} {ops : List Write} (h : Writes ty n dir d ops) (S : Text → Prop) :
    CreatedFrom S ops := by
  obtain ⟨rest, rfl, h1, _⟩ := h
  show CreatedFrom (fun x => S x ∨ x = dir) rest
  induction rest with
  | nil => trivial
  | cons o rest ih =>
    obtain ⟨name, c, rfl⟩ := h1 o (by simp)
    have : ∀ r : List Write, (∀ o ∈ r, ∃ name c, o = .put ty n dir name c) → CreatedFrom (fun x => S x ∨ x = dir) r := by
      intro r hr
      induction r with
      | nil => trivial
      | cons o r ih' =>
        obtain ⟨name, c, rfl⟩ := hr o (by simp)
        exact ⟨.inr rfl, ih' fun o ho => hr o (by simp [ho])⟩
    exact ⟨.inr rfl, this rest fun o ho => h1 o (by simp [ho])⟩

/-- Is this a write to the file? -/
def isPut (dir name : Text) : Write → Bool
  | .put _ _ a b _ => a = dir && b = name
  | _ => false

theorem lastPut_filter (ops : List Write) (dir name : Text) : lastPut (ops.filter (isPut dir name)) dir name = lastPut ops dir name := by
  unfold lastPut
  congr 1
  rw [List.filterMap_filter]
  refine List.filterMap_congr fun o _ => ?_
  cases o with
  | put a b d x c => by_cases h : d = dir ∧ x = name <;> simp [isPut, h]
  | _ => simp [isPut]

theorem lastPut_none {ops : List Write} {dir name : Text} : lastPut ops dir name = none ↔ ops.filter (isPut dir name) = [] := by
  unfold lastPut
  rw [List.getLast?_eq_none_iff, List.filterMap_eq_nil_iff, List.filter_eq_nil_iff]
  refine forall_congr' fun o => forall_congr' fun _ => ?_
  cases o with
  | put a b d x c => by_cases h : d = dir ∧ x = name <;> simp [isPut, h]
  | _ => simp [isPut]

theorem Writes.lastPut {ty n dir : Text} {d : Dir} {ops : List Write} (h : Writes ty n dir d ops) (x name : Text) :
    lastPut ops x name = if x = dir then lookup d name else none := by
  obtain ⟨rest, rfl, h1, h2⟩ := h
  have e : Store.lastPut (.mkdir ty n dir :: rest) x name = Store.lastPut rest x name := rfl
  rw [e]
  by_cases hx : x = dir
  · rw [if_pos hx, hx, h2]
  · rw [if_neg hx, lastPut_none, List.filter_eq_nil_iff]
    intro o ho
    obtain ⟨name', c, rfl⟩ := h1 o ho
    have : ¬ dir = x := fun e => hx e.symm
    simp [isPut, this]

/-- A process: directory, files and writes. -/
abbrev Proc := Text × Dir × List Write

/-- No file is written by two processes. -/
def Apart (procs : List Proc) : Prop :=
  procs.Pairwise fun a b => a.1 = b.1 → ∀ name, lookup a.2.1 name ≠ none → lookup b.2.1 name = none

theorem apart_others {procs : List Proc} (h : Apart procs) {pre post : List Proc} {q : Proc} (e : procs = pre ++ q :: post)
    {p : Proc} (hp : p ∈ pre ∨ p ∈ post) (hd : p.1 = q.1) {name : Text} (hn : lookup q.2.1 name ≠ none) :
    lookup p.2.1 name = none := by
  subst e
  unfold Apart at h
  rw [List.pairwise_append] at h
  obtain ⟨_, h2, h3⟩ := h
  rcases hp with hp | hp
  · by_contra hc
    exact hn (h3 p hp q (by simp) hd name hc)
  · exact (List.pairwise_cons.1 h2).1 p hp hd.symm name hn

theorem interleave_lastPut {ty n : Text} {procs : List Proc} (hw : ∀ p ∈ procs, Writes ty n p.1 p.2.1 p.2.2)
    (ha : Apart procs) {t : List Write} (ht : Interleave (procs.map fun p => p.2.2) t) (dir name : Text) :
    (∀ p ∈ procs, p.1 = dir → ∀ c, lookup p.2.1 name = some c → lastPut t dir name = some c) ∧
    ((∀ p ∈ procs, p.1 = dir → lookup p.2.1 name = none) → lastPut t dir name = none) := by
  have hf := interleave_filter (isPut dir name) ht
  rw [List.map_map] at hf
  have hnil : ∀ p ∈ procs, (p.1 = dir → lookup p.2.1 name = none) → p.2.2.filter (isPut dir name) = [] := by
    intro p hp h
    rw [← lastPut_none, (hw p hp).lastPut]
    split
    · rename_i e; exact h e.symm
    · rfl
  constructor
  · intro p hp hd c hc
    obtain ⟨pre, post, e⟩ := List.append_of_mem hp
    have := interleave_single hf (pre.map ((fun l : List Write => l.filter (isPut dir name)) ∘ fun p : Proc => p.2.2))
      (post.map ((fun l : List Write => l.filter (isPut dir name)) ∘ fun p : Proc => p.2.2)) (p.2.2.filter (isPut dir name))
      (by rw [e, List.map_append, List.map_cons]; rfl)
      (by
        intro m hm
        obtain ⟨q, hq, rfl⟩ := List.mem_map.1 hm
        exact hnil q (by rw [e]; simp [hq]) fun hqd => apart_others ha e (.inl hq) (hqd.trans hd.symm) (by rw [hc]; simp))
      (by
        intro m hm
        obtain ⟨q, hq, rfl⟩ := List.mem_map.1 hm
        exact hnil q (by rw [e]; simp [hq]) fun hqd => apart_others ha e (.inr hq) (hqd.trans hd.symm) (by rw [hc]; simp))
    rw [← lastPut_filter, this, lastPut_filter, (hw p hp).lastPut, if_pos hd.symm, hc]
  · intro h
    rw [lastPut_none, List.filter_eq_nil_iff]
    intro o ho
    obtain ⟨l, hl, hol⟩ := (interleave_mem ht o).1 ho
    obtain ⟨p, hp, rfl⟩ := List.mem_map.1 hl
    have := hnil p hp (h p hp)
    exact (List.filter_eq_nil_iff.1 this) o hol

/-- The result of processes writing at the same time into a fresh directory. -/
theorem interleave_result {ty n : Text} {procs : List Proc} (hw : ∀ p ∈ procs, Writes ty n p.1 p.2.1 p.2.2)
    (ha : Apart procs) {t : List Write} (ht : Interleave (procs.map fun p => p.2.2) t) {w : List (Text × Dir)}
    (hn : (w.map Prod.fst).Nodup) (hnf : ∀ e ∈ w, (e.2.map Prod.fst).Nodup)
    (h1 : ∀ p ∈ procs, ∃ d, (p.1, d) ∈ w ∧ ∀ name c, lookup p.2.1 name = some c → lookup d name = some c)
    (h2 : ∀ e ∈ w, ∃ p ∈ procs, p.1 = e.1)
    (h3 : ∀ e ∈ w, ∀ name c, lookup e.2 name = some c → ∃ p ∈ procs, p.1 = e.1 ∧ lookup p.2.1 name = some c)
    (s : Store) (hs : Fresh s ty n) :
    SameDirs (subDirs (applyOps s t) ty n) w ∧ topFiles (applyOps s t) ty n = topFiles s ty n ∧
      (w ≠ [] → (applyOps s t ty n).isSome) ∧ (∀ a b, (a, b) ≠ (ty, n) → applyOps s t a b = s a b) ∧
      (s ty n).isSome ≤ (applyOps s t ty n).isSome := by
  have hbelow : ∀ o ∈ t, Below ty n o := by
    intro o ho
    obtain ⟨l, hl, hol⟩ := (interleave_mem ht o).1 ho
    obtain ⟨p, hp, rfl⟩ := List.mem_map.1 hl
    exact (hw p hp).below o hol
  have hcf : CreatedFrom (fun _ => False) t := interleave_created ht fun l hl => by
    obtain ⟨p, hp, rfl⟩ := List.mem_map.1 hl
    exact (hw p hp).created _
  have hcr : Created t := fun pre o post e a b dir name c ho =>
    (hcf.created pre o post e a b dir name c ho).resolve_left id
  have hmk : ∀ dir, (∃ a b, .mkdir a b dir ∈ t) ↔ dir ∈ w.map Prod.fst := by
    intro dir
    constructor
    · rintro ⟨a, b, hm⟩
      obtain ⟨l, hl, hol⟩ := (interleave_mem ht _).1 hm
      obtain ⟨p, hp, rfl⟩ := List.mem_map.1 hl
      obtain ⟨rest, e, r1, _⟩ := hw p hp
      rw [e] at hol
      rcases List.mem_cons.1 hol with h | h
      · cases h
        obtain ⟨d, hd, _⟩ := h1 p hp
        exact List.mem_map_of_mem (f := Prod.fst) hd
      · obtain ⟨name, c, h⟩ := r1 _ h
        cases h
    · intro hd
      obtain ⟨e, he, rfl⟩ := List.mem_map.1 hd
      obtain ⟨p, hp, hpe⟩ := h2 e he
      obtain ⟨rest, er, _⟩ := hw p hp
      exact ⟨ty, n, (interleave_mem ht _).2 ⟨_, List.mem_map.2 ⟨p, hp, rfl⟩, by rw [er, hpe]; simp⟩⟩
  have hM := fun dir => foldl_actM t hcr (fun o ho a b x y e => by
    have := hbelow o ho
    have hp := this.1
    rw [e] at hp
    simp only [Write.path, Prod.mk.injEq] at hp
    rw [hp.1, hp.2] at e
    exact this.2 x y e) dir
  have hrep : Rep w (t.foldl actM fun _ => none) := by
    refine ⟨hn, ?_, ?_⟩
    · intro dir d hd
      refine ⟨hnf _ hd, ?_⟩
      rw [(hM dir).1 ((hmk dir).2 (List.mem_map_of_mem (f := Prod.fst) hd))]
      refine congrArg some ?_
      funext name
      obtain ⟨k1, k2⟩ := interleave_lastPut hw ha ht dir name
      cases hl : lookup d name with
      | some c =>
        obtain ⟨p, hp, hpd, hpl⟩ := h3 _ hd name c hl
        exact k1 p hp hpd c hpl
      | none =>
        apply k2
        intro p hp hpd
        by_contra hc
        obtain ⟨c, hc⟩ := Option.ne_none_iff_exists'.1 hc
        obtain ⟨d', hd', hl'⟩ := h1 p hp
        rw [hpd] at hd'
        have : d' = d := (Prod.mk.inj (List.inj_on_of_nodup_map hn hd' hd rfl)).2
        rw [this] at hl'
        rw [hl' name c hc] at hl
        cases hl
    · intro dir hdir
      by_contra hc
      exact hdir ((hM dir).2 fun h => hc ((hmk dir).1 h))
  have hempty : Rep [] (fun _ => none) := ⟨List.nodup_nil, by simp, fun _ h => absurd rfl h⟩
  have hframe : ∀ a b, (a, b) ≠ (ty, n) → applyOps s t a b = s a b := fun a b hab =>
    applyOps_other (fun o ho e => hab ((hbelow o ho).1 ▸ e.symm)) s
  cases hsn : s ty n with
  | some fd =>
    have hfd : fd.dirs = [] := hs fd hsn
    obtain ⟨D, e1, e2⟩ := applyOps_rep hbelow hsn (M := fun _ => none) (by rw [hfd]; exact hempty)
    refine ⟨?_, ?_, ?_, hframe, ?_⟩
    · unfold subDirs
      rw [e1]
      exact rep_same e2 hrep
    · unfold topFiles
      rw [e1, hsn]; rfl
    · intro _; rw [e1]; rfl
    · rw [e1]; simp
  | none =>
    cases t with
    | nil =>
      have hw0 : w = [] := by
        by_contra hne
        obtain ⟨e, he⟩ := List.exists_mem_of_ne_nil w hne
        obtain ⟨a, b, h⟩ := (hmk e.1).2 (List.mem_map_of_mem he)
        simp at h
      subst hw0
      refine ⟨?_, rfl, fun h => absurd rfl h, hframe, by simp⟩
      unfold subDirs applyOps
      rw [List.foldl_nil, hsn]
      exact ⟨[], .refl _, .nil⟩
    | cons o t =>
      have : ∃ dir, o = .mkdir ty n dir := by
        have hb := hbelow o (by simp)
        cases o with
        | mkdir a b dir =>
          have := hb.1
          simp only [Write.path, Prod.mk.injEq] at this
          exact ⟨dir, by rw [this.1, this.2]⟩
        | put a b dir name c => exact absurd hcf.1 id
        | putTop a b name c =>
          have := hb.1
          simp only [Write.path, Prod.mk.injEq] at this
          exact absurd (by rw [this.1, this.2]) (hb.2 name c)
      obtain ⟨dir, rfl⟩ := this
      let s' : Store := fun a b => if (a, b) = (ty, n) then some { files := [], dirs := [] } else s a b
      have hs' : s' ty n = some { files := [], dirs := [] } := if_pos rfl
      obtain ⟨D, e1, e2⟩ := applyOps_rep hbelow hs' (M := fun _ => none) hempty
      have e3 : applyOps s (.mkdir ty n dir :: t) ty n = applyOps s' (.mkdir ty n dir :: t) ty n := by
        have hag : ∀ (l : List Write) (u v : Store), u ty n = v ty n → applyOps u l ty n = applyOps v l ty n := by
          intro l
          induction l with
          | nil => intro u v h; exact h
          | cons o l ih =>
            intro u v h
            refine ih _ _ ?_
            unfold Write.apply
            split
            · rw [h]
            · exact h
        refine hag t _ _ ?_
        rw [apply_path rfl, apply_path rfl, hsn, hs']
        rfl
      rw [e1] at e3
      refine ⟨?_, ?_, ?_, hframe, ?_⟩
      · unfold subDirs
        rw [e3]
        exact rep_same e2 hrep
      · unfold topFiles
        rw [e3, hsn]; rfl
      · intro _; rw [e3]; rfl
      · rw [e3]; simp

end Proofs.Store
