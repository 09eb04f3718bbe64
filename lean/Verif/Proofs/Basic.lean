import Verif.Spec.Quad
import Verif.Proofs.Amicable
import Mathlib.Tactic.Ring
import Mathlib.Data.List.GetD
import Mathlib.Tactic.IntervalCases

/-!
# Bridge between list computations and sums over `ZMod n`
-/

set_option linter.unusedSectionVars false

namespace Proofs
open Model Spec

theorem foldl_add_eq (l : List ℕ) (f : ℕ → ℤ) (z : ℤ) :
    l.foldl (fun acc i => acc + f i) z = z + (l.map f).sum := by
  induction l generalizing z with
  | nil => simp
  | cons x xs ih => simp [ih]; ring

theorem sumTo_eq (n : ℕ) (f : ℕ → ℤ) : sumTo n f = ∑ i ∈ Finset.range n, f i := by
  unfold sumTo
  rw [foldl_add_eq, zero_add]
  induction n with
  | zero => simp
  | succ n ih => rw [List.range_succ, List.map_append, List.sum_append, ih, Finset.sum_range_succ]; simp

theorem sum_range_zmod {M : Type*} [AddCommMonoid M] (n : ℕ) [NeZero n] (f : ℕ → M) :
    ∑ i ∈ Finset.range n, f i = ∑ x : ZMod n, f x.val := by
  refine Finset.sum_bij' (fun i _ => (i : ZMod n)) (fun x _ => x.val) ?_ ?_ ?_ ?_ ?_
  · intro i _; exact Finset.mem_univ _
  · intro x _; exact Finset.mem_range.2 (ZMod.val_lt x)
  · intro i hi; exact ZMod.val_cast_of_lt (Finset.mem_range.1 hi)
  · intro x _; exact ZMod.natCast_zmod_val x
  · intro i hi; rw [ZMod.val_cast_of_lt (Finset.mem_range.1 hi)]

theorem mul8_pm {x y : ℤ} (hx : x = 1 ∨ x = -1) (hy : y = 1 ∨ y = -1) : mul8 x y = x * y := by
  rcases hx with rfl | rfl <;> rcases hy with rfl | rfl <;> decide

theorem neg8_pm {x : ℤ} (hx : x = 1 ∨ x = -1) : neg8 x = -x := by
  rcases hx with rfl | rfl <;> decide

theorem at0_pm {l : List ℤ} (h : IsPM l) {i : ℕ} (hi : i < l.length) : at0 l i = 1 ∨ at0 l i = -1 := by
  unfold at0
  rw [List.getD_eq_getElem _ _ hi]
  exact h _ (List.getElem_mem hi)

variable {n : ℕ} [NeZero n]

theorem npos : 0 < n := Nat.pos_of_ne_zero (NeZero.ne n)

theorem cyc_pm {l : List ℤ} (h : PMSeq n l) : PM (cyc n l) := by
  intro i
  exact at0_pm h.2 (by rw [h.1]; exact ZMod.val_lt i)

theorem cyc_natCast (l : List ℤ) (i : ℕ) : cyc n l (i : ZMod n) = at0 l (i % n) := by
  unfold cyc at0; rw [ZMod.val_natCast]

theorem val_natCast_lt {i : ℕ} (h : i < n) : ((i : ℕ) : ZMod n).val = i := ZMod.val_cast_of_lt h

theorem paf_eq {l : List ℤ} (h : PMSeq n l) (t : ℕ) :
    periodicAutocorrelation l t = paf (cyc n l) (t : ZMod n) := by
  obtain ⟨hl, hp⟩ := h
  unfold periodicAutocorrelation paf
  rw [sumTo_eq, hl, sum_range_zmod]
  refine Finset.sum_congr rfl fun x _ => ?_
  have hx : x.val < l.length := by rw [hl]; exact ZMod.val_lt x
  have hy : (x.val + t) % n < l.length := by rw [hl]; exact Nat.mod_lt _ npos
  rw [mul8_pm (at0_pm hp hx) (at0_pm hp hy)]
  congr 1
  rw [← cyc_natCast]; simp

theorem ccf_eq {l m : List ℤ} (hl : PMSeq n l) (hm : PMSeq n m) {t : ℕ} (ht : t ≤ n) :
    crossCorrelation l m t = ccf (cyc n l) (cyc n m) (t : ZMod n) := by
  obtain ⟨hl, hp⟩ := hl
  obtain ⟨hm, hq⟩ := hm
  unfold crossCorrelation ccf
  rw [sumTo_eq, hl, sum_range_zmod]
  refine Finset.sum_congr rfl fun x _ => ?_
  have hx : x.val < l.length := by rw [hl]; exact ZMod.val_lt x
  have hy : (x.val + n - t) % n < m.length := by rw [hm]; exact Nat.mod_lt _ npos
  rw [mul8_pm (at0_pm hp hx) (at0_pm hq hy)]
  congr 1
  rw [← cyc_natCast]
  rw [Nat.cast_sub (by omega)]; simp

/-- A property of all natural numbers below `n` is a property of all residues. -/
theorem forall_lt_iff {P : ZMod n → Prop} : (∀ t < n, P (t : ZMod n)) ↔ ∀ t : ZMod n, P t := by
  constructor
  · intro h t
    have := h t.val (ZMod.val_lt t)
    rwa [ZMod.natCast_zmod_val] at this
  · intro h t _; exact h _

theorem forall_pos_lt_iff {P : ZMod n → Prop} :
    (∀ t, 1 ≤ t → t < n → P (t : ZMod n)) ↔ ∀ t : ZMod n, t ≠ 0 → P t := by
  constructor
  · intro h t ht
    have hv : t.val ≠ 0 := by rwa [Ne, ZMod.val_eq_zero]
    have := h t.val (by omega) (ZMod.val_lt t)
    rwa [ZMod.natCast_zmod_val] at this
  · intro h t h1 h2
    refine h _ ?_
    intro h0
    have := val_natCast_lt h2
    rw [h0, ZMod.val_zero] at this
    omega

theorem isPeriodicComplementary_iff {s : QuadSeq} (h : PMQuad n s) :
    s.isPeriodicComplementary = true ↔
      Complementary (cyc n s.a) (cyc n s.b) (cyc n s.c) (cyc n s.d) := by
  unfold QuadSeq.isPeriodicComplementary Complementary
  rw [List.all_eq_true, ← forall_pos_lt_iff]
  simp only [List.mem_range'_1, decide_eq_true_eq, h.size, paf_eq h.a, paf_eq h.b, paf_eq h.c, paf_eq h.d]
  have := npos (n := n)
  constructor
  · intro H t h1 h2; exact H t ⟨h1, by omega⟩
  · intro H t h1; exact H t h1.1 (by omega)

theorem amicable_zero (x y : ZMod n → ℤ) : ccf x y 0 = ccf y x 0 := by
  rw [Amicable.ccf_neg x y 0, neg_zero]

theorem isAmicable_iff {s : QuadSeq} (h : PMQuad n s) :
    s.isAmicable = true ↔ PairwiseAmicable (cyc n s.a) (cyc n s.b) (cyc n s.c) (cyc n s.d) := by
  have h0 := npos (n := n)
  have key : s.isAmicable = true ↔ ∀ t : ZMod n, t ≠ 0 →
    (ccf (cyc n s.a) (cyc n s.b) t = ccf (cyc n s.b) (cyc n s.a) t ∧
     ccf (cyc n s.a) (cyc n s.c) t = ccf (cyc n s.c) (cyc n s.a) t ∧
     ccf (cyc n s.a) (cyc n s.d) t = ccf (cyc n s.d) (cyc n s.a) t ∧
     ccf (cyc n s.b) (cyc n s.c) t = ccf (cyc n s.c) (cyc n s.b) t ∧
     ccf (cyc n s.b) (cyc n s.d) t = ccf (cyc n s.d) (cyc n s.b) t ∧
     ccf (cyc n s.c) (cyc n s.d) t = ccf (cyc n s.d) (cyc n s.c) t) := by
    unfold QuadSeq.isAmicable
    rw [List.all_eq_true, ← forall_pos_lt_iff]
    simp only [List.mem_range'_1, decide_eq_true_eq, h.size]
    refine forall_congr' fun t => ?_
    constructor
    · intro H h1 h2
      have := H ⟨h1, by omega⟩
      simpa only [ccf_eq h.a h.b h2.le, ccf_eq h.a h.c h2.le, ccf_eq h.a h.d h2.le,
        ccf_eq h.b h.a h2.le, ccf_eq h.b h.c h2.le, ccf_eq h.b h.d h2.le, ccf_eq h.c h.a h2.le,
        ccf_eq h.c h.b h2.le, ccf_eq h.c h.d h2.le, ccf_eq h.d h.a h2.le, ccf_eq h.d h.b h2.le,
        ccf_eq h.d h.c h2.le] using this
    · rintro H ⟨h1, h2⟩
      have h2 : t < n := by omega
      have := H h1 h2
      simpa only [ccf_eq h.a h.b h2.le, ccf_eq h.a h.c h2.le, ccf_eq h.a h.d h2.le,
        ccf_eq h.b h.a h2.le, ccf_eq h.b h.c h2.le, ccf_eq h.b h.d h2.le, ccf_eq h.c h.a h2.le,
        ccf_eq h.c h.b h2.le, ccf_eq h.c h.d h2.le, ccf_eq h.d h.a h2.le, ccf_eq h.d h.b h2.le,
        ccf_eq h.d h.c h2.le] using this
  rw [key]
  constructor
  · intro H
    refine ⟨?_, ?_, ?_, ?_, ?_, ?_⟩ <;> intro t <;> by_cases ht : t = 0
    all_goals first
      | (subst ht; exact amicable_zero _ _)
      | (have := H t ht; tauto)
  · rintro ⟨h1, h2, h3, h4, h5, h6⟩ t _
    exact ⟨h1 t, h2 t, h3 t, h4 t, h5 t, h6 t⟩

theorem verifyCrossCorrelation_iff {s : QuadSeq} (h : PMQuad n s) :
    s.verifyCrossCorrelation = true ↔
      QTCross (cyc n s.a) (cyc n s.b) (cyc n s.c) (cyc n s.d) := by
  unfold QuadSeq.verifyCrossCorrelation QTCross
  rw [List.all_eq_true, ← forall_lt_iff]
  simp only [List.mem_range, decide_eq_true_eq, h.size]
  refine forall_congr' fun t => forall_congr' fun h2 => ?_
  rw [ccf_eq h.a h.b h2.le, ccf_eq h.a h.c h2.le, ccf_eq h.a h.d h2.le,
        ccf_eq h.b h.a h2.le, ccf_eq h.b h.c h2.le, ccf_eq h.b h.d h2.le, ccf_eq h.c h.a h2.le,
        ccf_eq h.c h.b h2.le, ccf_eq h.c h.d h2.le, ccf_eq h.d h.a h2.le, ccf_eq h.d h.b h2.le,
        ccf_eq h.d h.c h2.le]

theorem cyc_neg_natCast (l : List ℤ) {t : ℕ} (h1 : 1 ≤ t) (h2 : t < n) :
    cyc n l (-(t : ZMod n)) = at0 l (n - t) := by
  have : (-(t : ZMod n)) = ((n - t : ℕ) : ZMod n) := by
    rw [Nat.cast_sub h2.le]; simp
  rw [this, cyc_natCast, Nat.mod_eq_of_lt (by omega)]

theorem cyc_natCast_lt (l : List ℤ) {t : ℕ} (h2 : t < n) : cyc n l (t : ZMod n) = at0 l t := by
  rw [cyc_natCast, Nat.mod_eq_of_lt h2]

theorem isSymmetric_iff {s : QuadSeq} (h : PMQuad n s) :
    s.isSymmetric = true ↔
      Symm (cyc n s.a) ∧ Symm (cyc n s.b) ∧ Symm (cyc n s.c) ∧ Symm (cyc n s.d) := by
  unfold QuadSeq.isSymmetric
  rw [List.all_eq_true]
  simp only [List.mem_range'_1, decide_eq_true_eq, h.size, QuadSeq.values, Prod.mk.injEq]
  constructor
  · intro H
    have K : ∀ t : ZMod n, t ≠ 0 → (cyc n s.a t = cyc n s.a (-t) ∧ cyc n s.b t = cyc n s.b (-t) ∧
        cyc n s.c t = cyc n s.c (-t) ∧ cyc n s.d t = cyc n s.d (-t)) := by
      rw [← forall_pos_lt_iff]
      intro t h1 h2
      simp only [cyc_neg_natCast _ h1 h2, cyc_natCast_lt _ h2]
      by_cases hh : t ≤ n / 2
      · exact H t ⟨h1, by omega⟩
      · have := H (n - t) ⟨by omega, by omega⟩
        rw [show n - (n - t) = t by omega] at this
        exact ⟨this.1.symm, this.2.1.symm, this.2.2.1.symm, this.2.2.2.symm⟩
    refine ⟨?_, ?_, ?_, ?_⟩ <;> intro t <;> by_cases ht : t = 0
    all_goals first
      | (subst ht; simp)
      | (have := K t ht; tauto)
  · rintro ⟨ha, hb, hc, hd⟩ t ⟨h1, h2⟩
    have h2 : t < n := by have := npos (n := n); omega
    simp only [← cyc_neg_natCast _ h1 h2, ← cyc_natCast_lt _ h2]
    exact ⟨ha _, hb _, hc _, hd _⟩

theorem amicable_of_symm {x y : ZMod n → ℤ} (hx : Symm x) (hy : Symm y) : Amicable x y := by
  intro t
  rw [Amicable.ccf_neg x y t]
  unfold ccf
  refine Fintype.sum_equiv (Equiv.neg _) _ _ fun i => ?_
  simp only [Equiv.neg_apply]
  rw [← hx i, show -i - -t = -(i - t) by ring, ← hy]

end Proofs
