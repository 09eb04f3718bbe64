import Verif.Proofs.Helpers
import Verif.Proofs.Basic
import Verif.Props.Equations

/-!
# C61: transposition, sorting of row sums, two best row sums
-/

namespace Props
open Model Spec Proofs

/-- C61. Transposition fails exactly on the empty vector, keeps the length, and moves the entry at index `x` to index `-x`
modulo the length. -/
theorem C61_transpose {α : Type} (s : List α) :
    (transpose s = none ↔ s = []) ∧ (s ≠ [] → ∃ t, transpose s = some t ∧ t.length = s.length ∧
      ∀ i < s.length, t[i]? = s[(s.length - i) % s.length]?) := by
  refine ⟨?_, Helpers.transpose_spec s⟩
  unfold transpose
  by_cases h : s.length = 0
  · rw [if_pos h]; simpa using h
  · rw [if_neg h]; simpa using h

/-- C61. The same for cyclic sequences of integers. -/
theorem C61_transpose_cyclic (n : ℕ) [NeZero n] (s : List ℤ) (hs : s.length = n) :
    ∃ t, transpose s = some t ∧ t.length = n ∧ ∀ x : ZMod n, cyc n t x = cyc n s (-x) := by
  have hn : 0 < n := npos
  obtain ⟨t, h1, h2, h3⟩ := Helpers.transpose_spec s (by rintro rfl; simp at hs; omega)
  refine ⟨t, h1, h2.trans hs, fun x => ?_⟩
  have := h3 x.val (by rw [hs]; exact ZMod.val_lt x)
  unfold cyc
  rw [List.getD_eq_getElem?_getD, this, ← List.getD_eq_getElem?_getD, ZMod.neg_val', hs]

example : transpose [10, 11, 12, 13, 14] = some [10, 14, 13, 12, 11] := by decide

/-- C61. The sort of a row-sum quadruple returns the values in decreasing order, and the permutation of the positions that
produces them. -/
theorem C61_sort (q : Quad) : (sortQuad q).1.Pairwise (· ≥ ·) ∧ (sortQuad q).2.Perm [0, 1, 2, 3] ∧
    (sortQuad q).1 = (sortQuad q).2.map (entry q) := Helpers.sortQuad_spec q

example : sortQuad (1, 3, 3, 5) = ([5, 3, 3, 1], [3, 1, 2, 0]) := by decide

/-- C61. The two best row sums are two entries with increasing positions, and every other entry is at most both. The
entries are `isize` values, so they are at least `-2^63`. -/
theorem C61_two_best (q : Quad) (h : ∀ i < 4, -2 ^ 63 ≤ entry q i) :
    (getTwoBest q).1.2 < (getTwoBest q).2.2 ∧ (getTwoBest q).2.2 < 4 ∧
      (getTwoBest q).1.1 = entry q (getTwoBest q).1.2 ∧ (getTwoBest q).2.1 = entry q (getTwoBest q).2.2 ∧
      ∀ k < 4, k ≠ (getTwoBest q).1.2 → k ≠ (getTwoBest q).2.2 →
        entry q k ≤ (getTwoBest q).1.1 ∧ entry q k ≤ (getTwoBest q).2.1 :=
  Helpers.twoBest_spec q (fun i hi => by have := h i hi; norm_num at this; exact this)

example : getTwoBest (1, 3, 3, 5) = ((3, 2), (5, 3)) := by decide

/-- C54. The equations are generated, without panicking, for the two positions that the solver search selects. -/
theorem C54_search_tags (q : Quad) (h : ∀ i < 4, -2 ^ 63 ≤ entry q i) (seq1 seq2 : List ℤ) :
    ∃ t1 t2, indexToTag (getTwoBest q).1.2 = some t1 ∧ indexToTag (getTwoBest q).2.2 = some t2 ∧
      (generateEquations seq1 t1 seq2 t2 .quaternionType q).isSome ∧
      (getTwoBest q).1.1 = component q t1 ∧ (getTwoBest q).2.1 = component q t2 := by
  obtain ⟨h1, h2, h3, h4, -⟩ := C61_two_best q h
  generalize getTwoBest q = r at *
  obtain ⟨⟨a, i⟩, b, j⟩ := r
  dsimp only at *
  subst h3 h4
  have key : ∀ t1 t2, pos t1 < pos t2 → (generateEquations seq1 t1 seq2 t2 .quaternionType q).isSome := by
    intro t1 t2 h
    have := (C54_defined seq1 seq2 q t1 t2).1.2 h
    unfold generateEquations
    simpa using this
  interval_cases j <;> interval_cases i <;> first
    | exact ⟨_, _, rfl, rfl, key _ _ (by decide), rfl, rfl⟩

example : ∀ i < 4, -2 ^ 63 ≤ entry (1, 3, 3, 5) i := by decide

end Props
