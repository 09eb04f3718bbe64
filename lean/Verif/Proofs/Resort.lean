import Verif.Proofs.Scripts
import Verif.Proofs.Rerun
import Verif.Spec.Resort

/-!
# Running the sorting script again
-/

set_option linter.unusedSectionVars false
set_option linter.unusedVariables false

namespace Proofs.Resort
open Model Spec Proofs.Scripts

theorem not_pair (x : Text) : ".pair".toList.isSuffixOf (x ++ ".sorted".toList) = false := by
  rw [Bool.eq_false_iff, Ne, List.isSuffixOf_iff_suffix]
  intro h
  have h2 : ".sorted".toList <:+ x ++ ".sorted".toList := List.suffix_append _ _
  have := List.suffix_of_suffix_length_le h h2 (by decide)
  exact absurd this (by decide)

/-- A write of another file leaves the pair files. -/
theorem pairs_put (d : Dir) (x t : Text) : pairFiles (putFile d (x ++ ".sorted".toList) t) = pairFiles d := by
  have hx := not_pair x
  generalize x ++ ".sorted".toList = y at hx
  unfold pairFiles putFile
  split
  · induction d with
    | nil => rfl
    | cons f d ih =>
      have ih : (List.map (fun f => if f.1 = y then (y, t) else f) d).filter (fun f => ".pair".toList.isSuffixOf f.1) =
          d.filter fun f => ".pair".toList.isSuffixOf f.1 := by
        clear * - hx
        induction d with
        | nil => rfl
        | cons f d ih =>
          by_cases e : f.1 = y
          · rw [List.map_cons, if_pos e, List.filter_cons_of_neg (by rw [hx]; simp), List.filter_cons_of_neg (by rw [e, hx]; simp), ih]
          · rw [List.map_cons, if_neg e, List.filter_cons, List.filter_cons, ih]
      by_cases e : f.1 = y
      · rw [List.map_cons, if_pos e, List.filter_cons_of_neg (by rw [hx]; simp), List.filter_cons_of_neg (by rw [e, hx]; simp), ih]
      · rw [List.map_cons, if_neg e, List.filter_cons, List.filter_cons, ih]
  · rw [List.filter_append, List.filter_cons_of_neg (by rw [hx]; simp), List.filter_nil, List.append_nil]

theorem pairs_one (d : Dir) (f : Text × Text) : pairFiles (sortedOne d f) = (pairFiles d).filter fun g => g.1 ≠ f.1 := by
  conv_rhs => rw [← pairs_put d f.1 (sortText f.2)]
  unfold sortedOne pairFiles
  rw [List.filter_filter, List.filter_filter]
  refine List.filter_congr fun g _ => Bool.and_comm _ _

theorem pairs_fold : ∀ (pre post : Dir) (d : Dir), (pairFiles d).map Prod.fst |>.Nodup → pairFiles d = pre ++ post →
    pairFiles (pre.foldl sortedOne d) = post
  | [], _, _, _, h => h
  | f :: pre, post, d, hn, h => by
    rw [List.foldl_cons]
    rw [h] at hn
    simp only [List.cons_append, List.map_cons, List.nodup_cons] at hn
    have e : pairFiles (sortedOne d f) = pre ++ post := by
      rw [pairs_one, h, List.cons_append, List.filter_cons_of_neg (by simp), List.filter_eq_self]
      intro g hg
      simpa using fun e : g.1 = f.1 => hn.1 (List.mem_map.2 ⟨g, hg, e⟩)
    exact pairs_fold pre post _ (by rw [e]; exact hn.2) e

theorem sort_eq (d : Dir) : sortDirSh d = if pairFiles d = [] then putFile d unmatchedName [] else (pairFiles d).foldl sortedOne d := rfl

theorem one_absorbs (d : Dir) (f : Text × Text) (g : Text) : sortedOne (putFile d (f.1 ++ ".sorted".toList) g) f = sortedOne d f := by
  unfold sortedOne
  rw [Rerun.put_twice]

/-- A directory that was not finished. -/
theorem part_again {d x : Dir} (hn : ((pairFiles d).map Prod.fst).Nodup) (h : PartSorted d x) : sortDirSh x = sortDirSh d := by
  obtain ⟨pre, f, post, hp, hx⟩ := h
  have hne : pairFiles d ≠ [] := by rw [hp]; simp
  have hf := pairs_fold pre (f :: post) d hn hp
  rw [sort_eq d, if_neg hne, hp, List.foldl_append]
  rcases hx with rfl | ⟨g, rfl⟩
  · rw [sort_eq, hf, if_neg (by simp)]
  · rw [sort_eq, pairs_put, hf, if_neg (by simp), List.foldl_cons, List.foldl_cons, one_absorbs]

end Proofs.Resort
