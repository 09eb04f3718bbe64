import Verif.Proofs.Canonical
import Verif.Proofs.Reps
import Verif.Proofs.Reproduce

/-!
# The order in which directories are listed
-/

set_option linter.unusedSectionVars false
set_option linter.unusedVariables false

namespace Proofs.Listed
open Model Spec Proofs Proofs.Reproduce

theorem unique_perm {l l' : List QuadSeq} (h : l.Perm l') : (unique l).Perm (unique l') :=
  (List.perm_ext_iff_of_nodup (unique_spec l).1 (unique_spec l').1).2 fun x =>
    ((unique_spec l).2 x).trans ((h.mem_iff).trans ((unique_spec l').2 x).symm)

theorem flatten_perm {α : Type} {l l' : List (List α)} (h : l.Perm l') : l.flatten.Perm l'.flatten := by
  have := List.Perm.flatMap_right (f := id) h
  rwa [List.flatMap_id, List.flatMap_id] at this

theorem joinAll_perm (ty : SeqType) {dirs dirs' : List (Text × Dir)} (h : dirs.Perm dirs') :
    Both List.Perm (joinAll ty dirs) (joinAll ty dirs') := by
  unfold joinAll
  rcases mapM_both (fun d : Text × Dir => joinDir ty d.2) h with ⟨e1, e2⟩ | ⟨x, y, e1, e2, e3⟩
  · rw [e1, e2]; exact .inl ⟨rfl, rfl⟩
  · rw [e1, e2]; exact .inr ⟨_, _, rfl, rfl, flatten_perm e3⟩

theorem mapM_sub {α β : Type} (f : α → Option (List β)) {l l' : List α} (h : l.Sublist l') {r' : List (List β)}
    (hr : l'.mapM f = some r') : ∃ r, l.mapM f = some r ∧ r.Sublist r' := by
  induction h generalizing r' with
  | slnil => exact ⟨[], rfl, by cases hr; exact .slnil⟩
  | cons a h ih =>
    rw [List.mapM_cons] at hr
    obtain ⟨c, hc, hr⟩ := Option.bind_eq_some_iff.1 hr
    obtain ⟨cs, hcs, hr⟩ := Option.bind_eq_some_iff.1 hr
    cases hr
    obtain ⟨r, e, k⟩ := ih hcs
    exact ⟨r, e, k.cons c⟩
  | cons_cons a h ih =>
    rw [List.mapM_cons] at hr
    obtain ⟨c, hc, hr⟩ := Option.bind_eq_some_iff.1 hr
    obtain ⟨cs, hcs, hr⟩ := Option.bind_eq_some_iff.1 hr
    cases hr
    obtain ⟨r, e, k⟩ := ih hcs
    refine ⟨c :: r, ?_, k.cons_cons c⟩
    rw [List.mapM_cons, hc, e]
    rfl

theorem joinAll_sub (ty : SeqType) {dirs all : List (Text × Dir)} (h : dirs.Sublist all) {r : List QuadSeq}
    (hr : joinAll ty all = some r) : ∃ l, joinAll ty dirs = some l ∧ ∀ q ∈ l, q ∈ r := by
  unfold joinAll at hr ⊢
  obtain ⟨x, hx, rfl⟩ := Option.map_eq_some_iff.1 hr
  obtain ⟨y, hy, k⟩ := mapM_sub _ h hx
  rw [hy]
  exact ⟨_, rfl, fun q hq => k.flatten.subset hq⟩

theorem filter_perm (ty : SeqType) {l l' : List QuadSeq} (h : l.Perm l') :
    Both List.Perm (filterCanonical ty l) (filterCanonical ty l') := by
  unfold filterCanonical
  split
  · rcases mapM_both nsCanonical h with ⟨e1, e2⟩ | ⟨x, y, e1, e2, e3⟩
    · rw [e1, e2]; exact .inl ⟨rfl, rfl⟩
    · rw [e1, e2]; exact .inr ⟨_, _, rfl, rfl, unique_perm e3⟩
  · exact .inr ⟨_, _, rfl, rfl, unique_perm (h.map _)⟩
  · exact .inr ⟨_, _, rfl, rfl, unique_perm (h.map _)⟩
  · exact .inl ⟨rfl, rfl⟩

theorem mapM_mem {α β : Type} (f : α → Option β) : ∀ (l : List α) (r : List β), l.mapM f = some r → ∀ b ∈ r, ∃ a ∈ l, f a = some b
  | [], r, hr, b, hb => by cases hr; cases hb
  | a :: l, r, hr, b, hb => by
    rw [List.mapM_cons] at hr
    obtain ⟨c, hc, hr⟩ := Option.bind_eq_some_iff.1 hr
    obtain ⟨cs, hcs, hr⟩ := Option.bind_eq_some_iff.1 hr
    cases hr
    rcases List.mem_cons.1 hb with rfl | hb
    · exact ⟨a, List.mem_cons_self, hc⟩
    · obtain ⟨x, hx, e⟩ := mapM_mem f l cs hcs b hb
      exact ⟨x, List.mem_cons_of_mem _ hx, e⟩

variable {n : ℕ} [NeZero n]

theorem filter_pm (ty : SeqType) {l f : List QuadSeq} (h : ∀ q ∈ l, PMQuad n q) (hf : filterCanonical ty l = some f) :
    ∀ q ∈ f, PMQuad n q := by
  have sn : ∀ q ∈ unique (l.map snSsCanonical), PMQuad n q := fun q hq => by
    rw [(unique_spec _).2] at hq
    obtain ⟨x, hx, rfl⟩ := List.mem_map.1 hq
    exact (snSs_spec (h x hx)).1.1
  unfold filterCanonical at hf
  split at hf
  · obtain ⟨r, hr, rfl⟩ := Option.map_eq_some_iff.1 hf
    intro q hq
    rw [(unique_spec _).2] at hq
    obtain ⟨x, hx, e⟩ := mapM_mem nsCanonical l r hr q hq
    obtain ⟨r', e', h', _⟩ := nsCanonical_spec (h x hx)
    rw [e] at e'
    cases e'
    exact h'.1
  · cases hf; exact sn
  · cases hf; exact sn
  · cases hf

theorem reduce_perm (ty : SeqType) {l l' : List QuadSeq} (h : l.Perm l') (hn : ∀ q ∈ l, q.size = n) :
    Both List.Perm (reduceToCanonicalReps l ty) (reduceToCanonicalReps l' ty) := by
  cases l with
  | nil =>
    have := h.nil_eq
    subst this
    exact .inl ⟨rfl, rfl⟩
  | cons x l =>
    cases l' with
    | nil => exact absurd h.eq_nil (by simp)
    | cons y l' =>
      have e : y.size = x.size := (hn y (h.mem_iff.2 List.mem_cons_self)).trans (hn x List.mem_cons_self).symm
      unfold reduceToCanonicalReps
      dsimp only
      rw [e]
      cases generateSymmetryGroup x.size (canonicalOps ty) with
      | none => exact .inl ⟨rfl, rfl⟩
      | some g =>
        simp only [Option.bind_some]
        rcases mapM_both (fun s => qtCanonical s g ty) h with ⟨e1, e2⟩ | ⟨x, y, e1, e2, e3⟩
        · rw [e1, e2]; exact .inl ⟨rfl, rfl⟩
        · rw [e1, e2]; exact .inr ⟨_, _, rfl, rfl, unique_perm e3⟩

theorem join_perm (ty : SeqType) {dirs dirs' : List (Text × Dir)} (h : dirs.Perm dirs')
    (hn : ∀ l, joinAll ty dirs = some l → ∀ q ∈ l, PMQuad n q) : Both List.Perm (joinPairs ty dirs) (joinPairs ty dirs') := by
  unfold joinPairs
  rcases joinAll_perm ty h with ⟨e1, e2⟩ | ⟨l, l', e1, e2, e3⟩
  · rw [e1, e2]; exact .inl ⟨rfl, rfl⟩
  rw [e1, e2]
  simp only [Option.bind_some]
  rcases filter_perm ty e3 with ⟨f1, f2⟩ | ⟨f, f', f1, f2, f3⟩
  · rw [f1, f2]; exact .inl ⟨rfl, rfl⟩
  rw [f1, f2]
  simp only [Option.bind_some]
  exact reduce_perm ty f3 fun q hq => (filter_pm ty (hn l e1) f1 q hq).size

theorem lines_perm (f : QuadSeq → Option Text) {l l' : List QuadSeq} (h : l.Perm l') :
    Both Shuffled ((l.mapM f).map unlines) ((l'.mapM f).map unlines) := by
  rcases mapM_both f h with ⟨e1, e2⟩ | ⟨x, y, e1, e2, e3⟩
  · rw [e1, e2]; exact .inl ⟨rfl, rfl⟩
  · rw [e1, e2]
    refine .inr ⟨_, _, rfl, rfl, _, _, e3.map (· ++ ['\n']), fun b hb => ?_, unlines_flatten x, unlines_flatten y⟩
    obtain ⟨z, _, rfl⟩ := List.mem_map.1 hb
    exact ⟨z, rfl⟩

variable {F κ : Type} [DecidableEq κ]

/-- The writes of a command, with the lines in another order. -/
def Near (r r' : Run Unit) : Prop := List.Forall₂ ShuffledWrite r.ops r'.ops ∧ r.result = r'.result

theorem near_refl (r : Run Unit) : Near r r := by
  refine ⟨?_, rfl⟩
  induction r.ops with
  | nil => exact .nil
  | cons o l ih => exact .cons (.inl rfl) ih

theorem near_result (T N a b : Text) {l l' : List QuadSeq} (h : l.Perm l') :
    Near (writeResultRun T N a b l) (writeResultRun T N a b l') := by
  unfold writeResultRun
  rcases lines_perm (fun (q : QuadSeq) => q.toQs.bind QS.toStringRaw) h with ⟨e1, e2⟩ | ⟨x, y, e1, e2, e3⟩
  · change resultText l = none at e1
    change resultText l' = none at e2
    rw [e1, e2]
    exact ⟨.cons (.inl rfl) (.cons (.inl rfl) .nil), rfl⟩
  · change resultText l = some x at e1
    change resultText l' = some y at e2
    rw [e1, e2]
    rcases lines_perm QuadSeq.toText h with ⟨f1, f2⟩ | ⟨u, v, f1, f2, f3⟩
    · change qseqText l = none at f1
      change qseqText l' = none at f2
      rw [f1, f2]
      exact ⟨.cons (.inl rfl) (.cons (.inl rfl) .nil), rfl⟩
    · change qseqText l = some u at f1
      change qseqText l' = some v at f2
      rw [f1, f2]
      exact ⟨.cons (.inl rfl) (.cons (.inl rfl) (.cons (.inr ⟨_, _, _, _, _, rfl, rfl, e3⟩)
        (.cons (.inr ⟨_, _, _, _, _, rfl, rfl, f3⟩) .nil))), rfl⟩

theorem all_perm {l l' : List QuadSeq} (h : l.Perm l') (f : QuadSeq → Bool) : l.all f = l'.all f := by
  rw [Bool.eq_iff_iff, List.all_eq_true, List.all_eq_true]
  exact ⟨fun k x hx => k x (h.mem_iff.2 hx), fun k x hx => k x (h.mem_iff.1 hx)⟩

theorem run_some {α β : Type} (a : α) (f : α → Run β) : (Run.ofOption (some a) >>= f) = f a := rfl

theorem near_join (env : Env F κ) (ls : List (Text × Dir) → List (Text × Dir)) (h : ∀ l, (env.lsDirs l).Perm l)
    (h' : ∀ l, (ls l).Perm l) (s : Store) (ty : SeqType) (hty : ty ≠ .williamsonType) (p : ℕ)
    (hn : ∀ d l, s ty.toText (natText p) = some d → joinAll ty (listedDirs env d) = some l → ∀ q ∈ l, PMQuad n q) :
    Near (joinRun env s ty p) (joinRun { env with lsDirs := ls } s ty p) := by
  unfold joinRun
  dsimp only
  cases hs : s ty.toText (natText p) with
  | none => exact ⟨.nil, rfl⟩
  | some d =>
    have hp : (listedDirs env d).Perm (listedDirs { env with lsDirs := ls } d) :=
      ((h d.dirs).trans (h' d.dirs).symm).map _
    rw [run_some, run_some]
    rcases joinAll_perm ty hp with ⟨e1, e2⟩ | ⟨l, l', e1, e2, e3⟩
    · rw [e1, e2]; exact ⟨.nil, rfl⟩
    rw [e1, e2]
    rw [run_some, run_some]
    rw [all_perm e3]
    split
    · exact ⟨.nil, rfl⟩
    rw [run_some, run_some]
    rcases join_perm ty hp (hn d · hs) with ⟨f1, f2⟩ | ⟨r, r', f1, f2, f3⟩
    · rw [f1, f2]; exact ⟨.nil, rfl⟩
    rw [f1, f2]
    rw [run_some, run_some]
    rw [all_perm f3]
    split
    · exact ⟨.nil, rfl⟩
    rw [run_some, run_some]
    have key := near_result ty.toText (natText p) "result.seq".toList "result.qseq".toList f3
    generalize writeResultRun ty.toText (natText p) "result.seq".toList "result.qseq".toList r = x at key
    generalize writeResultRun ty.toText (natText p) "result.seq".toList "result.qseq".toList r' = y at key
    obtain ⟨xo, xr⟩ := x
    obtain ⟨yo, yr⟩ := y
    obtain ⟨k1, k2⟩ := key
    dsimp only at k1 k2
    subst k2
    cases ty with
    | williamsonType => exact absurd rfl hty
    | _ =>
      dsimp only
      cases xr with
      | none => exact ⟨k1, rfl⟩
      | some u => exact ⟨by change List.Forall₂ _ (xo ++ []) (yo ++ []); rwa [List.append_nil, List.append_nil], rfl⟩

/-! ## Williamson-type sequences -/

theorem join_pm (hn31 : n ≤ 31) {dirs : List (Text × Dir)} {r : List QuadSeq}
    (hn : ∀ l, joinAll .williamsonType dirs = some l → ∀ q ∈ l, PMQuad n q) (hr : joinPairs .williamsonType dirs = some r) :
    ∀ q ∈ r, PMQuad n q := by
  unfold joinPairs at hr
  obtain ⟨l, hl, hr⟩ := Option.bind_eq_some_iff.1 hr
  obtain ⟨f, hf, hr⟩ := Option.bind_eq_some_iff.1 hr
  have hp := filter_pm .williamsonType (hn l hl) hf
  have hne : f ≠ [] := fun e => by rw [e] at hr; cases hr
  obtain ⟨r', e, _, hm⟩ := reduce_spec hn31 (.inr (.inl rfl)) hne hp
  rw [hr] at e
  cases e
  intro q hq
  obtain ⟨_, _, h⟩ := (hm q).1 hq
  exact h.1.1

theorem expand_perm (p : ℕ) {l l' : List QuadSeq} (h : l.Perm l') : (expandWts p l).Perm (expandWts p l') := by
  unfold expandWts
  exact h.append (h.flatMap_right _)

theorem expand_size (p : ℕ) {l : List QuadSeq} (h : ∀ q ∈ l, q.size = n) : ∀ q ∈ expandWts p l, q.size = n := by
  intro q hq
  unfold expandWts at hq
  rcases List.mem_append.1 hq with hq | hq
  · exact h q hq
  · obtain ⟨x, hx, hq⟩ := List.mem_flatMap.1 hq
    have hs := h x hx
    rcases List.mem_cons.1 hq with rfl | hq
    · exact hs
    · split at hq
      · rcases List.mem_cons.1 hq with rfl | hq
        · exact hs
        · rw [List.mem_singleton.1 hq]
          exact hs
      · cases hq

theorem near_bind {x y : Run Unit} {f g : Unit → Run Unit} (h : Near x y) (hf : Near (f ()) (g ())) : Near (x >>= f) (y >>= g) := by
  obtain ⟨xo, xr⟩ := x
  obtain ⟨yo, yr⟩ := y
  obtain ⟨k1, k2⟩ := h
  dsimp only at k1 k2
  subst k2
  cases xr with
  | none => exact ⟨k1, rfl⟩
  | some u => exact ⟨List.rel_append k1 hf.1, hf.2⟩

theorem near_join_wts (hn31 : n ≤ 31) (env : Env F κ) (ls : List (Text × Dir) → List (Text × Dir)) (h : ∀ l, (env.lsDirs l).Perm l)
    (h' : ∀ l, (ls l).Perm l) (s : Store) (p : ℕ)
    (hn : ∀ d l, s (SeqType.toText .williamsonType) (natText p) = some d → joinAll .williamsonType (listedDirs env d) = some l →
      ∀ q ∈ l, PMQuad n q) :
    Near (joinRun env s .williamsonType p) (joinRun { env with lsDirs := ls } s .williamsonType p) := by
  unfold joinRun
  dsimp only
  cases hs : s (SeqType.toText .williamsonType) (natText p) with
  | none => exact ⟨.nil, rfl⟩
  | some d =>
    have hp : (listedDirs env d).Perm (listedDirs { env with lsDirs := ls } d) :=
      ((h d.dirs).trans (h' d.dirs).symm).map _
    rw [run_some, run_some]
    rcases joinAll_perm .williamsonType hp with ⟨e1, e2⟩ | ⟨l, l', e1, e2, e3⟩
    · rw [e1, e2]; exact ⟨.nil, rfl⟩
    rw [e1, e2]
    rw [run_some, run_some]
    rw [all_perm e3]
    split
    · exact ⟨.nil, rfl⟩
    rw [run_some, run_some]
    rcases join_perm .williamsonType hp (hn d · hs) with ⟨f1, f2⟩ | ⟨r, r', f1, f2, f3⟩
    · rw [f1, f2]; exact ⟨.nil, rfl⟩
    have hr := join_pm hn31 (hn d · hs) f1
    rw [f1, f2]
    rw [run_some, run_some]
    rw [all_perm f3]
    split
    · exact ⟨.nil, rfl⟩
    rw [run_some, run_some]
    refine near_bind (near_result _ _ _ _ f3) ?_
    rcases reduce_perm (n := n) .quaternionType (expand_perm p f3) (expand_size p fun q hq => (hr q hq).size) with
      ⟨g1, g2⟩ | ⟨u, u', g1, g2, g3⟩
    · rw [g1, g2]; exact ⟨.nil, rfl⟩
    rw [g1, g2]
    rw [run_some, run_some]
    exact near_result _ _ _ _ g3

end Proofs.Listed
