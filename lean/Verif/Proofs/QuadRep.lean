import Verif.Model.QuadRep
import Verif.Spec.QuadRep
import Verif.Proofs.Helpers
import Verif.Proofs.Rowsum
import Mathlib.Data.Fin.Tuple.Sort

/-!
# Representatives of row-sum quadruples
-/

set_option linter.unusedSimpArgs false

namespace Proofs.QuadRep
open Model Spec

/-! ## The even permutations -/

def apply2 (q : Quad) (sw : ℕ × ℕ × ℕ × ℕ) : Option Quad :=
  (quadSwap q sw.1 sw.2.1).bind fun t => quadSwap t sw.2.2.1 sw.2.2.2

/-- The twelve rearrangements tried. -/
def tried (q : Quad) : List Quad :=
  let (a, b, c, d) := q
  [(a, b, c, d), (c, a, b, d), (d, a, c, b), (b, c, a, d), (b, d, c, a), (b, a, d, c), (d, b, a, c), (c, d, a, b),
    (c, b, d, a), (d, c, b, a), (a, c, d, b), (a, d, b, c)]

theorem lexLe_iff (q r : Quad) : lexLe q r ↔ q.1 < r.1 ∨ q.1 = r.1 ∧ (q.2.1 < r.2.1 ∨ q.2.1 = r.2.1 ∧
    (q.2.2.1 < r.2.2.1 ∨ q.2.2.1 = r.2.2.1 ∧ q.2.2.2 ≤ r.2.2.2)) := by
  unfold lexLe
  rw [Prod.Lex.toLex_le_toLex, Prod.Lex.toLex_le_toLex, Prod.Lex.toLex_le_toLex]

theorem lexLe_antisymm {q r : Quad} (h1 : lexLe q r) (h2 : lexLe r q) : q = r := by
  rw [lexLe_iff] at h1 h2
  obtain ⟨a, b, c, d⟩ := q
  obtain ⟨a', b', c', d'⟩ := r
  simp only [Prod.mk.injEq] at *
  omega

theorem lexLe_trans {q r s : Quad} (h1 : lexLe q r) (h2 : lexLe r s) : lexLe q s := le_trans (a := _) h1 h2

theorem better_iff (q r : Quad) : betterThan q r = true ↔ ¬ lexLe r q := by
  rw [lexLe_iff]
  unfold betterThan
  split_ifs <;> simp <;> omega

theorem leastEven_eq (q : Quad) : leastEven q = some ((tried q).foldl (fun f t => if betterThan t f then t else f) q) := by
  obtain ⟨a, b, c, d⟩ := q
  rfl

theorem fold_least (l : List Quad) (q : Quad) :
    let m := l.foldl (fun f t => if betterThan t f then t else f) q
    m ∈ q :: l ∧ ∀ x ∈ q :: l, lexLe m x := by
  induction l generalizing q with
  | nil =>
    refine ⟨List.mem_singleton_self _, fun x hx => ?_⟩
    rw [List.mem_singleton.1 hx]
    exact le_refl _
  | cons t l ih =>
    rw [List.foldl_cons]
    by_cases h : betterThan t q = true
    · rw [if_pos h]
      obtain ⟨h1, h2⟩ := ih t
      refine ⟨List.mem_cons_of_mem _ h1, fun x hx => ?_⟩
      rcases List.mem_cons.1 hx with rfl | hx
      · exact lexLe_trans (h2 t List.mem_cons_self) (by
          rw [better_iff] at h
          exact (le_total _ _).resolve_right h)
      · exact h2 x hx
    · rw [if_neg h]
      obtain ⟨h1, h2⟩ := ih q
      refine ⟨?_, fun x hx => ?_⟩
      · rcases List.mem_cons.1 h1 with e | h1
        · rw [e]; exact List.mem_cons_self
        · exact List.mem_cons_of_mem _ (List.mem_cons_of_mem _ h1)
      · rcases List.mem_cons.1 hx with rfl | hx
        · exact h2 x List.mem_cons_self
        · rcases List.mem_cons.1 hx with rfl | hx
          · rw [better_iff, not_not] at h
            exact lexLe_trans (h2 q List.mem_cons_self) h
          · exact h2 x (List.mem_cons_of_mem _ hx)

/-- The positions used by the twelve rearrangements. -/
def table : List (Fin 4 × Fin 4 × Fin 4 × Fin 4) :=
  [(0, 1, 2, 3), (2, 0, 1, 3), (3, 0, 2, 1), (1, 2, 0, 3), (1, 3, 2, 0), (1, 0, 3, 2), (3, 1, 0, 2), (2, 3, 0, 1),
    (2, 1, 3, 0), (3, 2, 1, 0), (0, 2, 3, 1), (0, 3, 1, 2)]

theorem even_table : ∀ σ : Equiv.Perm (Fin 4), Equiv.Perm.sign σ = 1 → (σ 0, σ 1, σ 2, σ 3) ∈ table := by
  decide +kernel

theorem table_even : ∀ t ∈ table, ∃ σ : Equiv.Perm (Fin 4), Equiv.Perm.sign σ = 1 ∧ (σ 0, σ 1, σ 2, σ 3) = t := by
  decide +kernel

theorem tried_eq (q : Quad) : tried q = table.map fun t => (entryAt q t.1, entryAt q t.2.1, entryAt q t.2.2.1, entryAt q t.2.2.2) := by
  obtain ⟨a, b, c, d⟩ := q
  rfl

theorem quad_ext (q r : Quad) (σ : Fin 4 → Fin 4) : (∀ i, entryAt r i = entryAt q (σ i)) ↔
    r = (entryAt q (σ 0), entryAt q (σ 1), entryAt q (σ 2), entryAt q (σ 3)) := by
  obtain ⟨a, b, c, d⟩ := r
  simp only [Fin.forall_fin_succ, Prod.mk.injEq]
  simp [entryAt]

theorem mem_tried (q r : Quad) : r ∈ tried q ↔
    ∃ σ : Equiv.Perm (Fin 4), Equiv.Perm.sign σ = 1 ∧ ∀ i, entryAt r i = entryAt q (σ i) := by
  rw [tried_eq, List.mem_map]
  constructor
  · rintro ⟨t, ht, rfl⟩
    obtain ⟨σ, h1, rfl⟩ := table_even t ht
    exact ⟨σ, h1, (quad_ext q _ σ).2 rfl⟩
  · rintro ⟨σ, h1, h2⟩
    exact ⟨_, even_table σ h1, ((quad_ext q r σ).1 h2).symm⟩

/-! ## Degenerate quadruples -/

theorem degenerate_iff (q : Quad) : Degenerate q ↔ quadContainsZero q = true ∨ quadContainsDup q = true := by
  obtain ⟨a, b, c, d⟩ := q
  unfold Degenerate quadContainsZero quadContainsDup
  simp only [Fin.exists_fin_succ, entryAt, Bool.or_eq_true, decide_eq_true_eq]
  simp [Fin.ext_iff]
  constructor
  · omega
  · omega

theorem degenerate_perm {q r : Quad} (σ : Equiv.Perm (Fin 4)) (h : ∀ i, entryAt r i = entryAt q (σ i)) :
    Degenerate r ↔ Degenerate q := by
  unfold Degenerate
  refine or_congr ⟨?_, ?_⟩ ⟨?_, ?_⟩
  · rintro ⟨i, hi⟩; exact ⟨σ i, by rw [← h, hi]⟩
  · rintro ⟨i, hi⟩; exact ⟨σ.symm i, by rw [h, Equiv.apply_symm_apply, hi]⟩
  · rintro ⟨i, j, hij, e⟩; exact ⟨σ i, σ j, fun h' => hij (σ.injective h'), by rw [← h, ← h, e]⟩
  · rintro ⟨i, j, hij, e⟩
    exact ⟨σ.symm i, σ.symm j, fun h' => hij (σ.symm.injective h'), by
      rw [h, h, Equiv.apply_symm_apply, Equiv.apply_symm_apply, e]⟩

/-! ## The classes -/

theorem rearranged_refl (e : Prop) (q : Quad) : Rearranged e q q := ⟨1, fun _ _ => map_one _, fun _ => rfl⟩

theorem rearranged_symm {e : Prop} {q r : Quad} (h : Rearranged e q r) : Rearranged e r q := by
  obtain ⟨σ, h1, h2⟩ := h
  refine ⟨σ.symm, fun he hr => ?_, fun i => by rw [h2, Equiv.apply_symm_apply]⟩
  rw [Equiv.Perm.sign_symm]
  exact h1 he (fun hq => hr ((degenerate_perm σ h2).2 hq))

theorem rearranged_trans {e : Prop} {q r s : Quad} (h : Rearranged e q r) (h' : Rearranged e r s) : Rearranged e q s := by
  obtain ⟨σ, h1, h2⟩ := h
  obtain ⟨τ, k1, k2⟩ := h'
  refine ⟨σ * τ, fun he hq => ?_, fun i => by rw [k2, h2]; rfl⟩
  rw [map_mul, h1 he hq, k1 he (fun hr => hq ((degenerate_perm σ h2).1 hr)), one_mul]

/-! ## The sorting branch -/

theorem minIndex_spec (tab : List ℤ) {i : ℕ} (hi : i ≤ 3) :
    i ≤ minIndex tab i ∧ minIndex tab i ≤ 3 ∧ ∀ k, i ≤ k → k ≤ 3 → at0 tab (minIndex tab i) ≤ at0 tab k := by
  have key : ∀ m j0, i ≤ j0 → j0 ≤ i + m → (∀ k, i ≤ k → k ≤ i + m → at0 tab j0 ≤ at0 tab k) → ∀ c,
      let j := (List.range' (i + m + 1) c).foldl (fun index j => if at0 tab j < at0 tab index then j else index) j0
      i ≤ j ∧ j ≤ i + m + c ∧ ∀ k, i ≤ k → k ≤ i + m + c → at0 tab j ≤ at0 tab k := by
    intro m j0 h1 h2 h3 c
    induction c generalizing m j0 with
    | zero => exact ⟨h1, h2, h3⟩
    | succ c ih =>
      rw [List.range'_succ, List.foldl_cons]
      by_cases h : at0 tab (i + m + 1) < at0 tab j0
      · rw [if_pos h]
        have := ih (m + 1) (i + m + 1) (by omega) (by omega) (fun k a b => by
          by_cases hk : k = i + m + 1
          · exact Int.le_of_eq (congrArg _ hk.symm)
          · have := h3 k a (by omega); omega)
        rw [show i + m + 1 + 1 = i + (m + 1) + 1 by omega, show i + m + (c + 1) = i + (m + 1) + c by omega]
        exact this
      · rw [if_neg h]
        have := ih (m + 1) j0 (by omega) (by omega) (fun k a b => by
          by_cases hk : k = i + m + 1
          · rw [hk]; omega
          · exact h3 k a (by omega))
        rw [show i + m + 1 + 1 = i + (m + 1) + 1 by omega, show i + m + (c + 1) = i + (m + 1) + c by omega]
        exact this
  have := key 0 i le_rfl le_rfl (fun k a b => Int.le_of_eq (congrArg _ (by omega))) (4 - (i + 1))
  dsimp only at this
  rw [show i + 0 + (4 - (i + 1)) = 3 by omega] at this
  exact this

/-- The state of the sort before step `i`. -/
structure Inv (l0 : List ℤ) (i : ℕ) (s : List ℤ) : Prop where
  perm : s.Perm l0
  ord : ∀ k < i, ∀ m, k ≤ m → m ≤ 3 → at0 s k ≤ at0 s m

theorem inv_step {l0 : List ℤ} (h0 : l0.length = 4) {i : ℕ} (hi : i ≤ 3) {s : List ℤ} (h : Inv l0 i s) :
    Inv l0 (i + 1) (if minIndex s i ≠ i then swapAt s i (minIndex s i) else s) := by
  have l1 : s.length = 4 := by rw [h.perm.length_eq, h0]
  obtain ⟨m1, m2, m3⟩ := minIndex_spec s hi
  generalize minIndex s i = j at *
  by_cases hj : j ≠ i
  · rw [if_pos hj]
    refine ⟨(Helpers.perm_swapAt _ (by omega) (by omega)).trans h.perm, ?_⟩
    have e : ∀ k, at0 (swapAt s i j) k = if k = j then at0 s i else if k = i then at0 s j else at0 s k := by
      intro k
      unfold at0
      rw [List.getD_eq_getElem?_getD, Helpers.get_swapAt _ (by omega) (by omega)]
      split_ifs <;> rw [← List.getD_eq_getElem?_getD]
    intro k hk m hm1 hm2
    rw [e, e]
    have hord := h.ord
    by_cases hki : k = i
    · subst hki
      have a1 := m3 k le_rfl (by omega)
      have a2 := m3 m hm1 hm2
      split_ifs <;> omega
    · have a1 := hord k (by omega) m hm1 hm2
      have a2 := hord k (by omega) i (by omega) (by omega)
      have a3 := hord k (by omega) j (by omega) (by omega)
      rw [if_neg (show k ≠ j by omega), if_neg hki]
      split_ifs <;> omega
  · rw [if_neg hj]
    rw [not_not] at hj
    subst hj
    refine ⟨h.perm, fun k hk m hm1 hm2 => ?_⟩
    by_cases hkj : k = j
    · subst hkj; exact m3 m hm1 hm2
    · exact h.ord k (by omega) m hm1 hm2

theorem sort_spec (q : Quad) : ∃ a b c d, sortIncreasing q = [a, b, c, d] ∧ (a ≤ b ∧ b ≤ c ∧ c ≤ d) ∧
    [a, b, c, d].Perm [q.1, q.2.1, q.2.2.1, q.2.2.2] := by
  have h0 : Inv [q.1, q.2.1, q.2.2.1, q.2.2.2] 0 [q.1, q.2.1, q.2.2.1, q.2.2.2] := ⟨List.Perm.refl _, by omega⟩
  have h : Inv [q.1, q.2.1, q.2.2.1, q.2.2.2] 3 (sortIncreasing q) := by
    have h1 := inv_step rfl (i := 0) (by omega) h0
    have h2 := inv_step rfl (i := 1) (by omega) h1
    have h3 := inv_step rfl (i := 2) (by omega) h2
    unfold sortIncreasing
    rw [show List.range 3 = [0, 1, 2] from rfl, List.foldl_cons, List.foldl_cons, List.foldl_cons, List.foldl_nil]
    exact h3
  have l1 : (sortIncreasing q).length = 4 := h.perm.length_eq
  generalize sortIncreasing q = s at *
  match s, l1 with
  | [a, b, c, d], _ =>
    refine ⟨a, b, c, d, rfl, ?_, h.perm⟩
    exact ⟨h.ord 0 (by omega) 1 (by omega) (by omega), h.ord 1 (by omega) 2 (by omega) (by omega),
      h.ord 2 (by omega) 3 (by omega) (by omega)⟩

theorem ofFn_entry (q : Quad) : List.ofFn (entryAt q) = [q.1, q.2.1, q.2.2.1, q.2.2.2] := by
  simp [List.ofFn_succ, entryAt]

theorem perm_iff_entries (q r : Quad) :
    [r.1, r.2.1, r.2.2.1, r.2.2.2].Perm [q.1, q.2.1, q.2.2.1, q.2.2.2] ↔
      ∃ σ : Equiv.Perm (Fin 4), ∀ i, entryAt r i = entryAt q (σ i) := by
  rw [← ofFn_entry, ← ofFn_entry]
  constructor
  · intro h
    have e : List.ofFn (entryAt r ∘ Tuple.sort (entryAt r)) = List.ofFn (entryAt q ∘ Tuple.sort (entryAt q)) :=
      ((((Tuple.sort (entryAt r)).ofFn_comp_perm _).trans h).trans
        ((Tuple.sort (entryAt q)).ofFn_comp_perm _).symm).eq_of_pairwise'
          (Tuple.monotone_sort _).sortedLE_ofFn.pairwise (Tuple.monotone_sort _).sortedLE_ofFn.pairwise
    have e' := List.ofFn_injective e
    refine ⟨(Tuple.sort (entryAt r)).symm.trans (Tuple.sort (entryAt q)), fun i => ?_⟩
    have := congrFun e' ((Tuple.sort (entryAt r)).symm i)
    simpa using this
  · rintro ⟨σ, h⟩
    have : entryAt r = entryAt q ∘ σ := funext h
    rw [this]
    exact Equiv.Perm.ofFn_comp_perm σ _

theorem sorted_least {a b c d w x y z : ℤ} (h : a ≤ b ∧ b ≤ c ∧ c ≤ d) (hp : [w, x, y, z].Perm [a, b, c, d]) :
    lexLe (a, b, c, d) (w, x, y, z) := by
  rw [lexLe_iff]
  dsimp only
  have hw := hp.mem_iff.1 (List.mem_cons_self (a := w))
  simp only [List.mem_cons, List.not_mem_nil, or_false] at hw
  by_cases e1 : w = a
  · subst e1
    have hp1 := hp.cons_inv
    have hx := hp1.mem_iff.1 (List.mem_cons_self (a := x))
    simp only [List.mem_cons, List.not_mem_nil, or_false] at hx
    by_cases e2 : x = b
    · subst e2
      have hp2 := hp1.cons_inv
      have hy := hp2.mem_iff.1 (List.mem_cons_self (a := y))
      simp only [List.mem_cons, List.not_mem_nil, or_false] at hy
      by_cases e3 : y = c
      · subst e3
        have hz := hp2.cons_inv.mem_iff.1 (List.mem_cons_self (a := z))
        simp only [List.mem_cons, List.not_mem_nil, or_false] at hz
        omega
      · omega
    · omega
  · omega

theorem equivalent_spec (q : Quad) (ty : SeqType) : ∃ r, quadEquivalent q ty = some r ∧
    Rearranged (ty = .quaternionType) q r ∧ ∀ s, Rearranged (ty = .quaternionType) q s → lexLe r s := by
  unfold quadEquivalent
  by_cases h : ty ≠ .quaternionType ∨ quadContainsZero q = true ∨ quadContainsDup q = true
  · rw [if_pos h]
    obtain ⟨a, b, c, d, e, h1, h2⟩ := sort_spec q
    refine ⟨(a, b, c, d), ?_, ?_, ?_⟩
    · rw [e]; rfl
    · obtain ⟨σ, hσ⟩ := (perm_iff_entries q (a, b, c, d)).1 h2
      exact ⟨σ, fun he hd => absurd (h.resolve_left (not_not.2 he)) (fun hh => hd ((degenerate_iff q).2 hh)), hσ⟩
    · rintro ⟨w, x, y, z⟩ ⟨σ, -, hσ⟩
      exact sorted_least h1 (((perm_iff_entries q (w, x, y, z)).2 ⟨σ, hσ⟩).trans h2.symm)
  · rw [if_neg h]
    have h1 : ty = .quaternionType := by by_contra h'; exact h (.inl h')
    have h2 : ¬ Degenerate q := fun h' => h (.inr ((degenerate_iff q).1 h'))
    rw [leastEven_eq]
    obtain ⟨k1, k2⟩ := fold_least (tried q) q
    have hq : q ∈ tried q := by obtain ⟨a, b, c, d⟩ := q; exact List.mem_cons_self
    refine ⟨_, rfl, ?_, fun s ⟨σ, hs1, hs2⟩ => ?_⟩
    · have : (tried q).foldl (fun f t => if betterThan t f then t else f) q ∈ tried q := by
        rcases List.mem_cons.1 k1 with e | e
        · rw [e]; exact hq
        · exact e
      obtain ⟨σ, hσ1, hσ2⟩ := (mem_tried q _).1 this
      exact ⟨σ, fun _ _ => hσ1, hσ2⟩
    · exact k2 s (List.mem_cons_of_mem _ ((mem_tried q s).2 ⟨σ, hs1 h1 h2, hs2⟩))

theorem equivalent_eq_iff (q r : Quad) (ty : SeqType) :
    quadEquivalent q ty = quadEquivalent r ty ↔ Rearranged (ty = .quaternionType) q r := by
  obtain ⟨q', e1, h1, h2⟩ := equivalent_spec q ty
  obtain ⟨r', e2, k1, k2⟩ := equivalent_spec r ty
  rw [e1, e2, Option.some_inj]
  constructor
  · rintro rfl
    exact rearranged_trans h1 (rearranged_symm k1)
  · intro h
    exact lexLe_antisymm (h2 _ (rearranged_trans h k1)) (k2 _ (rearranged_trans (rearranged_symm h) h1))

end Proofs.QuadRep
