import Verif.Proofs.Program

/-!
# Helper lemmas: sorting and listing in the shell scripts
-/

set_option linter.unusedSectionVars false
set_option linter.unusedVariables false
set_option linter.unusedSimpArgs false

namespace Proofs.Driver
open Model Spec Proofs.Store Proofs.Program

/-! ## Sorting -/

theorem suffix_iff {s t : Text} : s.isSuffixOf t = true ↔ s <:+ t := List.isSuffixOf_iff_suffix

theorem pair_ne_sorted (x : Text) : pairSuffix.isSuffixOf (x ++ sortedSuffix) = false := by
  rw [Bool.eq_false_iff, Ne, suffix_iff]
  rintro ⟨y, h⟩
  have := congrArg List.getLast? h
  simp [pairSuffix, sortedSuffix] at this

theorem append_sorted_ne (x : Text) : x ++ sortedSuffix ≠ x := by
  intro h
  have := congrArg List.length h
  simp [sortedSuffix] at this

/-- The loop body of `sortpairs.sh`. -/
def sortStep (d : Dir) (f : Text × Text) : Dir :=
  (putFile d (f.1 ++ sortedSuffix) (sortText f.2)).filter fun g => g.1 ≠ f.1

theorem sort_fold (ps : List (Text × Text)) : ∀ d : Dir, (ps.map Prod.fst).Nodup →
    (∀ f ∈ ps, pairSuffix.isSuffixOf f.1 = true) → (∀ f ∈ ps, f.1 ++ sortedSuffix ∉ d.map Prod.fst) →
    (ps.foldl sortStep d).Perm ((d.filter fun g => g.1 ∉ ps.map Prod.fst) ++
      ps.map fun f => (f.1 ++ sortedSuffix, sortText f.2)) := by
  induction ps with
  | nil =>
    intro d _ _ _
    simp
  | cons f ps ih =>
    intro d hn hp hs
    rw [List.map_cons, List.nodup_cons] at hn
    have hstep : sortStep d f = (d.filter fun g => g.1 ≠ f.1) ++ [(f.1 ++ sortedSuffix, sortText f.2)] := by
      unfold sortStep putFile
      rw [if_neg (hs f (by simp)), List.filter_append]
      congr 1
      simp [sortedSuffix]
    rw [List.foldl_cons, hstep]
    refine (ih _ hn.2 (fun g hg => hp g (by simp [hg])) ?_).trans ?_
    · intro g hg hmem
      rw [List.map_append, List.mem_append] at hmem
      rcases hmem with h | h
      · obtain ⟨e, he, heq⟩ := List.mem_map.1 h
        exact hs g (by simp [hg]) (heq ▸ List.mem_map_of_mem (f := Prod.fst) (List.mem_of_mem_filter he))
      · simp only [List.map_cons, List.map_nil, List.mem_singleton, List.append_cancel_right_eq] at h
        exact hn.1 (h ▸ List.mem_map_of_mem (f := Prod.fst) hg)
    · rw [List.filter_append, List.filter_filter]
      have e1 : ([(f.1 ++ sortedSuffix, sortText f.2)].filter fun g : Text × Text => decide (g.1 ∉ ps.map Prod.fst)) =
          [(f.1 ++ sortedSuffix, sortText f.2)] := by
        rw [List.filter_eq_self]
        intro g hg
        rw [List.mem_singleton] at hg
        subst hg
        rw [decide_eq_true_eq]
        intro hmem
        obtain ⟨h, hh, e⟩ := List.mem_map.1 hmem
        have := hp h (by simp [hh])
        rw [e, pair_ne_sorted] at this
        cases this
      rw [e1, List.append_assoc, List.map_cons]
      refine List.Perm.append ?_ (List.Perm.refl _)
      refine List.Perm.of_eq (List.filter_congr fun g _ => ?_)
      simp only [List.mem_cons, not_or, Bool.decide_and, ne_eq]
      rw [Bool.and_comm]

theorem sortDirSh_perm {d : Dir} (h : Sortable d) : (sortDirSh d).Perm (sortDir d) := by
  obtain ⟨hn, ⟨f0, hf0, hp0⟩, hs⟩ := h
  unfold sortDirSh
  dsimp only
  rw [if_neg (List.ne_nil_of_mem (List.mem_filter.2 ⟨hf0, hp0⟩))]
  refine (sort_fold _ d (hn.sublist (List.filter_sublist.map _)) (fun f hf => (List.mem_filter.1 hf).2) ?_).trans ?_
  · intro f hf hmem
    obtain ⟨g, hg, e⟩ := List.mem_map.1 hmem
    have := hs g hg
    rw [e, Bool.eq_false_iff, Ne, suffix_iff] at this
    exact this (List.suffix_append _ _)
  · have e1 : (d.filter fun g => decide (g.1 ∉ (d.filter fun f => pairSuffix.isSuffixOf f.1).map Prod.fst)) =
        d.filter fun f => !pairSuffix.isSuffixOf f.1 := by
      refine List.filter_congr fun g hg => ?_
      rw [Bool.eq_iff_iff, decide_eq_true_eq, Bool.not_eq_true', Bool.eq_false_iff]
      refine not_congr ⟨fun hm => ?_, fun hp => List.mem_map_of_mem (f := Prod.fst) (List.mem_filter.2 ⟨hg, hp⟩)⟩
      obtain ⟨f, hf, e⟩ := List.mem_map.1 hm
      exact e ▸ (List.mem_filter.1 hf).2
    rw [e1]
    unfold sortDir
    refine List.Perm.trans ?_ ((List.filter_append_perm (fun f : Text × Text => pairSuffix.isSuffixOf f.1) d).map _)
    rw [List.map_append]
    refine List.perm_append_comm.trans (List.Perm.append (.of_eq ?_) (.of_eq ?_))
    · refine List.map_congr_left fun f hf => ?_
      rw [if_pos (List.mem_filter.1 hf).2]
    · refine ((List.map_congr_left fun f hf => ?_).trans (List.map_id _)).symm
      rw [if_neg]
      · rfl
      · have := (List.mem_filter.1 hf).2
        rw [Bool.not_eq_true'] at this
        rw [this]; simp

theorem sortable_perm {d e : Dir} (hp : d.Perm e) (h : Sortable e) : Sortable d :=
  ⟨(hp.map _).nodup_iff.2 h.1, by
    obtain ⟨f, hf, hs⟩ := h.2.1
    exact ⟨f, hp.mem_iff.2 hf, hs⟩, fun f hf => h.2.2 f (hp.mem_iff.1 hf)⟩

theorem sortDir_perm {d e : Dir} (hp : d.Perm e) : (sortDir d).Perm (sortDir e) := hp.map _

/-- After sorting, any listing of the directories is a listing of what the pair stage wrote. -/
theorem listing_sorted {F κ : Type} (env : Env F κ) (hf : Env.Fair env) {D w : List (Text × Dir)} (h : SameDirs D w)
    (hs : ∀ e ∈ w, Sortable e.2) (fd : FindDir) (hfd : fd.dirs = D.map fun e => (e.1, sortDirSh e.2)) :
    Listing w (listedDirs env fd) := by
  obtain ⟨ds, hp, hD⟩ := h
  have h1 : List.Forall₂ (fun a b : Text × Dir => a.1 = b.1 ∧ a.2.Perm (sortDir b.2)) fd.dirs ds := by
    have hs' : ∀ e ∈ ds, Sortable e.2 := fun e he => hs e (hp.mem_iff.1 he)
    rw [hfd]
    clear hp hfd hs
    induction hD with
    | nil => exact .nil
    | @cons a b D ds hab _ ih =>
      refine .cons ⟨hab.1, ?_⟩ (ih fun e he => hs' e (by simp [he]))
      exact (sortDirSh_perm (sortable_perm hab.2 (hs' b (by simp)))).trans (sortDir_perm hab.2)
  obtain ⟨ds', k1, k2⟩ := List.perm_comp_forall₂ (hf.dirs fd.dirs) h1
  refine ⟨ds', k2.trans hp, ?_⟩
  unfold listedDirs
  rw [List.forall₂_map_left_iff]
  exact k1.imp fun a b hab => ⟨hab.1, (hf.files a.2).trans hab.2⟩

end Proofs.Driver
