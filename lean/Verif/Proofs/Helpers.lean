import Verif.Spec.Equations
import Mathlib.Tactic.SplitIfs
import Mathlib.Tactic.IntervalCases
import Mathlib.Data.List.GetD
import Mathlib.Data.List.Perm.Basic

/-!
# Transposition, sorting of row sums, two best row sums
-/

set_option linter.unusedSimpArgs false

namespace Proofs.Helpers
open Model Spec

variable {α : Type}

theorem length_swapAt (s : List α) (i j : ℕ) : (swapAt s i j).length = s.length := by
  unfold swapAt; split <;> simp

theorem get_swapAt (s : List α) {i j : ℕ} (hi : i < s.length) (hj : j < s.length) (k : ℕ) :
    (swapAt s i j)[k]? = if k = j then s[i]? else if k = i then s[j]? else s[k]? := by
  unfold swapAt
  rw [List.getElem?_eq_getElem hi, List.getElem?_eq_getElem hj]
  dsimp only
  rw [List.getElem?_set, List.getElem?_set]
  by_cases h1 : k = j
  · subst h1; simp [hj]
  · rw [if_neg (Ne.symm h1), if_neg h1]
    by_cases h2 : k = i
    · subst h2; simp [hi]
    · rw [if_neg (Ne.symm h2), if_neg h2]

theorem loop_spec (fuel : ℕ) : ∀ (s : List α) (l r : ℕ), l + r = s.length → 1 ≤ l → r ≤ fuel →
    (transposeLoop fuel s l r).length = s.length ∧
      ∀ i < s.length, (transposeLoop fuel s l r)[i]? = if l ≤ i ∧ i ≤ r then s[s.length - i]? else s[i]? := by
  induction fuel with
  | zero =>
    intro s l r h h1 h2
    refine ⟨rfl, fun i hi => ?_⟩
    rw [if_neg (by omega)]; rfl
  | succ fuel ih =>
    intro s l r h h1 h2
    unfold transposeLoop
    by_cases hlr : l < r
    · rw [if_pos hlr]
      have hlen := length_swapAt s l r
      obtain ⟨e1, e2⟩ := ih (swapAt s l r) (l + 1) (r - 1) (by omega) (by omega) (by omega)
      refine ⟨by omega, fun i hi => ?_⟩
      rw [e2 i (by omega), hlen, get_swapAt s (by omega) (by omega), get_swapAt s (by omega) (by omega)]
      by_cases ha : i = l
      · subst ha
        rw [if_neg (by omega), if_neg (by omega), if_pos rfl, if_pos (by omega), show s.length - i = r by omega]
      · by_cases hb : i = r
        · subst hb
          rw [if_neg (by omega), if_pos rfl, if_pos (by omega), show s.length - i = l by omega]
        · by_cases hc : l ≤ i ∧ i ≤ r
          · rw [if_pos (by omega), if_pos hc, if_neg (by omega), if_neg (by omega)]
          · rw [if_neg (by omega), if_neg hc, if_neg hb, if_neg ha]
    · rw [if_neg hlr]
      refine ⟨rfl, fun i hi => ?_⟩
      by_cases hc : l ≤ i ∧ i ≤ r
      · rw [if_pos hc, show s.length - i = i by omega]
      · rw [if_neg hc]

theorem transpose_spec (s : List α) (hs : s ≠ []) : ∃ t, transpose s = some t ∧ t.length = s.length ∧
    ∀ i < s.length, t[i]? = s[(s.length - i) % s.length]? := by
  have hn : 0 < s.length := List.length_pos_iff.2 hs
  refine ⟨_, if_neg (by omega), ?_⟩
  by_cases h1 : s.length = 1
  · rw [h1]
    obtain ⟨x, rfl⟩ := List.length_eq_one_iff.1 h1
    refine ⟨rfl, fun i hi => ?_⟩
    have : i = 0 := by omega
    subst this; rfl
  · obtain ⟨e1, e2⟩ := loop_spec s.length s 1 (s.length - 1) (by omega) le_rfl (by omega)
    refine ⟨e1, fun i hi => ?_⟩
    rw [e2 i hi]
    by_cases hi0 : i = 0
    · subst hi0; rw [if_neg (by omega), Nat.sub_zero, Nat.mod_self]
    · rw [if_pos (by omega), Nat.mod_eq_of_lt (by omega)]

theorem maxIndex_spec (tab : List ℤ) {i : ℕ} (hi : i ≤ 3) :
    i ≤ maxIndex tab i ∧ maxIndex tab i ≤ 3 ∧ ∀ k, i ≤ k → k ≤ 3 → at0 tab k ≤ at0 tab (maxIndex tab i) := by
  have key : ∀ m j0, i ≤ j0 → j0 ≤ i + m → (∀ k, i ≤ k → k ≤ i + m → at0 tab k ≤ at0 tab j0) → ∀ c,
      let j := (List.range' (i + m + 1) c).foldl (fun index j => if at0 tab j > at0 tab index then j else index) j0
      i ≤ j ∧ j ≤ i + m + c ∧ ∀ k, i ≤ k → k ≤ i + m + c → at0 tab k ≤ at0 tab j := by
    intro m j0 h1 h2 h3 c
    induction c generalizing m j0 with
    | zero => exact ⟨h1, h2, h3⟩
    | succ c ih =>
      rw [List.range'_succ, List.foldl_cons]
      by_cases h : at0 tab (i + m + 1) > at0 tab j0
      · rw [if_pos h]
        have := ih (m + 1) (i + m + 1) (by omega) (by omega) (fun k a b => by
          by_cases hk : k = i + m + 1
          · exact Int.le_of_eq (congrArg _ hk)
          · have := h3 k a (by omega); omega)
        rw [show i + m + 1 + 1 = i + (m + 1) + 1 by omega, show i + m + (c + 1) = i + (m + 1) + c by omega]
        exact this
      · rw [if_neg h]
        have := ih (m + 1) j0 (by omega) (by omega) (fun k a b => by
          by_cases hk : k = i + m + 1
          · rw [hk]; omega
          · exact h3 k a (by omega))
        rw [show i + m + 1 + 1 = i + (m + 1) + 1 by omega, show i + m + (c + 1) = i + (m + 1) + c by omega]
        exact this
  have := key 0 i le_rfl le_rfl (fun k a b => Int.le_of_eq (congrArg _ (by omega))) (4 - (i + 1))
  dsimp only at this
  rw [show i + 0 + (4 - (i + 1)) = 3 by omega] at this
  exact this

theorem perm_swapAt (s : List α) {i j : ℕ} (hi : i < s.length) (hj : j < s.length) : (swapAt s i j).Perm s := by
  unfold swapAt
  rw [List.getElem?_eq_getElem hi, List.getElem?_eq_getElem hj]
  exact List.set_set_perm hi hj

theorem map_swapAt {β : Type} (f : α → β) (s : List α) (i j : ℕ) : (swapAt s i j).map f = swapAt (s.map f) i j := by
  unfold swapAt
  rw [List.getElem?_map, List.getElem?_map]
  cases s[i]? <;> cases s[j]? <;> simp

/-- The state of the selection sort before step `i`. -/
structure Inv (q : Quad) (i : ℕ) (s : List ℤ × List ℕ) : Prop where
  perm : s.2.Perm [0, 1, 2, 3]
  val : s.1 = s.2.map (entry q)
  ord : ∀ k < i, ∀ m, k ≤ m → m ≤ 3 → at0 s.1 m ≤ at0 s.1 k

theorem inv_step {q : Quad} {i : ℕ} (hi : i ≤ 3) {s : List ℤ × List ℕ} (h : Inv q i s) :
    Inv q (i + 1) (swapAt s.1 i (maxIndex s.1 i), swapAt s.2 i (maxIndex s.1 i)) := by
  have l2 : s.2.length = 4 := h.perm.length_eq
  have l1 : s.1.length = 4 := by rw [h.val, List.length_map, l2]
  obtain ⟨m1, m2, m3⟩ := maxIndex_spec s.1 hi
  generalize maxIndex s.1 i = j at *
  refine ⟨(perm_swapAt _ (by omega) (by omega)).trans h.perm, ?_, ?_⟩
  · dsimp only
    rw [map_swapAt, ← h.val]
  · dsimp only
    have e : ∀ k, at0 (swapAt s.1 i j) k = if k = j then at0 s.1 i else if k = i then at0 s.1 j else at0 s.1 k := by
      intro k
      unfold at0
      rw [List.getD_eq_getElem?_getD, get_swapAt _ (by omega) (by omega)]
      split_ifs <;> rw [← List.getD_eq_getElem?_getD]
    intro k hk m hm1 hm2
    rw [e, e]
    have hord := h.ord
    by_cases hki : k = i
    · subst hki
      have a1 := m3 k le_rfl (by omega)
      have a2 := m3 m hm1 hm2
      by_cases hkj : k = j
      · rw [← hkj] at a2 ⊢
        split_ifs <;> omega
      · split_ifs <;> omega
    · have a1 := hord k (by omega) m hm1 hm2
      have a2 := hord k (by omega) i (by omega) (by omega)
      have a3 := hord k (by omega) j (by omega) (by omega)
      rw [if_neg (show k ≠ j by omega), if_neg hki]
      split_ifs <;> omega

theorem sortQuad_spec (q : Quad) : (sortQuad q).1.Pairwise (· ≥ ·) ∧ (sortQuad q).2.Perm [0, 1, 2, 3] ∧
    (sortQuad q).1 = (sortQuad q).2.map (entry q) := by
  have h0 : Inv q 0 ([q.1, q.2.1, q.2.2.1, q.2.2.2], [0, 1, 2, 3]) := ⟨List.Perm.refl _, rfl, by omega⟩
  have h : Inv q 4 (sortQuad q) :=
    inv_step (i := 3) (by omega) (inv_step (i := 2) (by omega) (inv_step (i := 1) (by omega) (inv_step (i := 0) (by omega) h0)))
  have l2 : (sortQuad q).2.length = 4 := h.perm.length_eq
  have l1 : (sortQuad q).1.length = 4 := by rw [h.val, List.length_map, l2]
  refine ⟨?_, h.perm, h.val⟩
  rw [List.pairwise_iff_getElem]
  intro i j hi hj hij
  have := h.ord i (by omega) j (by omega) (by omega)
  unfold at0 at this
  rw [List.getD_eq_getElem _ _ hi, List.getD_eq_getElem _ _ hj] at this
  exact this

theorem twoBest_spec (q : Quad) (h : ∀ i < 4, -9223372036854775808 ≤ entry q i) :
    (getTwoBest q).1.2 < (getTwoBest q).2.2 ∧ (getTwoBest q).2.2 < 4 ∧
      (getTwoBest q).1.1 = entry q (getTwoBest q).1.2 ∧ (getTwoBest q).2.1 = entry q (getTwoBest q).2.2 ∧
      ∀ k < 4, k ≠ (getTwoBest q).1.2 → k ≠ (getTwoBest q).2.2 →
        entry q k ≤ (getTwoBest q).1.1 ∧ entry q k ≤ (getTwoBest q).2.1 := by
  obtain ⟨a, b, c, d⟩ := q
  have h0 := h 0 (by omega)
  have h1 := h 1 (by omega)
  have h2 := h 2 (by omega)
  have h3 := h 3 (by omega)
  have e0 : entry (a, b, c, d) 0 = a := rfl
  have e1 : entry (a, b, c, d) 1 = b := rfl
  have e2 : entry (a, b, c, d) 2 = c := rfl
  have e3 : entry (a, b, c, d) 3 = d := rfl
  rw [e0] at h0
  rw [e1] at h1
  rw [e2] at h2
  rw [e3] at h3
  have hm : ∃ m : ℤ × ℕ, m = (let upd (c : Bool) (new old : Int × Nat) : Int × Nat := if c then new else old
    let m : Int × Nat := (a, 0)
    let m := upd (b > m.1) (b, 1) m
    let m := upd (c > m.1) (c, 2) m
    upd (d > m.1) (d, 3) m) ∧ m.2 < 4 ∧ m.1 = entry (a, b, c, d) m.2 ∧ a ≤ m.1 ∧ b ≤ m.1 ∧ c ≤ m.1 ∧ d ≤ m.1 := by
    refine ⟨_, rfl, ?_⟩
    dsimp only
    by_cases x1 : b > a <;> simp only [x1, decide_true, decide_false, if_true, if_false, Bool.false_eq_true]
    · by_cases x2 : c > b <;> simp only [x2, decide_true, decide_false, if_true, if_false, Bool.false_eq_true]
      · by_cases x3 : d > c <;> simp only [x3, decide_true, decide_false, if_true, if_false, Bool.false_eq_true] <;>
          refine ⟨by omega, rfl, ?_⟩ <;> omega
      · by_cases x3 : d > b <;> simp only [x3, decide_true, decide_false, if_true, if_false, Bool.false_eq_true] <;>
          refine ⟨by omega, rfl, ?_⟩ <;> omega
    · by_cases x2 : c > a <;> simp only [x2, decide_true, decide_false, if_true, if_false, Bool.false_eq_true]
      · by_cases x3 : d > c <;> simp only [x3, decide_true, decide_false, if_true, if_false, Bool.false_eq_true] <;>
          refine ⟨by omega, rfl, ?_⟩ <;> omega
      · by_cases x3 : d > a <;> simp only [x3, decide_true, decide_false, if_true, if_false, Bool.false_eq_true] <;>
          refine ⟨by omega, rfl, ?_⟩ <;> omega
  obtain ⟨m, hm, hm1, hm2, ha, hb, hc, hd⟩ := hm
  have key : getTwoBest (a, b, c, d) = (let upd (c : Bool) (new old : Int × Nat) : Int × Nat := if c then new else old
    let m2 : Int × Nat := (-9223372036854775808, 4)
    let m2 := upd (a ≥ m2.1 && m.2 != 0) (a, 0) m2
    let m2 := upd (b ≥ m2.1 && m.2 != 1) (b, 1) m2
    let m2 := upd (c ≥ m2.1 && m.2 != 2) (c, 2) m2
    let m2 := upd (d ≥ m2.1 && m.2 != 3) (d, 3) m2
    if m.2 < m2.2 then (m, m2) else (m2, m)) := by rw [hm]; rfl
  rw [key]
  clear key hm e0 e1 e2 e3 h
  obtain ⟨mv, mi⟩ := m
  dsimp only at hm1 hm2 ha hb hc hd
  dsimp only
  interval_cases mi
  all_goals
    simp only [entry, List.getD_cons_zero, List.getD_cons_succ] at hm2
    subst hm2
    simp only [Nat.reduceBNe, Bool.and_true, Bool.and_false, ge_iff_le, h0, h1, h2, h3, decide_true, if_true, Bool.false_eq_true,
      if_false]
  all_goals
    split_ifs
    all_goals
      simp only [decide_eq_true_eq, not_le] at *
      refine ⟨by omega, by omega, rfl, rfl, ?_⟩
      intro k hk n1 n2
      interval_cases k <;> simp only [entry, List.getD_cons_zero, List.getD_cons_succ] <;> omega

end Proofs.Helpers
