import Verif.Proofs.Equations
import Verif.Props.Equivalence

/-!
# C54: solver equations
-/

set_option linter.unusedVariables false
set_option linter.unusedSectionVars false

namespace Props
open Model Spec Proofs Proofs.Eqs

section
variable {n : ℕ} [NeZero n] {s : QuadSeq} {t1 t2 p q : Tag} {es : List Equation} {ρ : ℕ → ℤ}

theorem part_pm (h : PMQuad n s) (t : Tag) : PMSeq n (part s t) := by
  cases t
  · exact h.a
  · exact h.b
  · exact h.c
  · exact h.d

theorem natCast_ne_zero {o : ℕ} (h1 : 1 ≤ o) (h2 : o < n) : (o : ZMod n) ≠ 0 := by
  intro h
  rw [ZMod.natCast_eq_zero_iff] at h
  exact absurd (Nat.le_of_dvd (by omega) h) (by omega)

/-- C54. Equations are generated exactly for two given positions in increasing order; the unknown sequences are at the
two other positions. -/
theorem C54_defined (seq1 seq2 : List ℤ) (rs : Quad) (t1 t2 : Tag) :
    ((equationsWilliamsonType seq1 t1 seq2 t2 rs).isSome ↔ pos t1 < pos t2) ∧
      ∀ p q es, equationsWilliamsonType seq1 t1 seq2 t2 rs = some ((p, q), es) → [t1, t2, p, q].Nodup := by
  constructor
  · cases t1 <;> cases t2 <;> simp [equationsWilliamsonType, pos]
  · intro p q es h
    cases t1 <;> cases t2 <;> simp [equationsWilliamsonType] at h <;> obtain ⟨⟨rfl, rfl⟩, _⟩ := h <;> decide

/-- The two unknown positions, the two linear systems and the orientation of the quadratic one. -/
theorem system {seq1 seq2 : List ℤ} {rs : Quad} (h : equationsWilliamsonType seq1 t1 seq2 t2 rs = some ((p, q), es)) :
    ∃ op1 op2 op3 op4 op5 op6 : OpType, ∃ x1 x2 y1 y2 : List ℤ, ∃ r1 r2 : ℤ,
      (op1 = .leftMinus ∨ op1 = .rightMinus) ∧ (op2 = .leftMinus ∨ op2 = .rightMinus) ∧
      (op3 = .leftMinus ∨ op3 = .rightMinus) ∧ (op4 = .leftMinus ∨ op4 = .rightMinus) ∧
      (op5 = .leftMinus ∨ op5 = .rightMinus) ∧ (op6 = .leftMinus ∨ op6 = .rightMinus) ∧
      ((x1 = seq1 ∧ x2 = seq2 ∨ x1 = seq2 ∧ x2 = seq1) ∧ (y1 = seq1 ∧ y2 = seq2 ∨ y1 = seq2 ∧ y2 = seq1)) ∧
      (∀ s : QuadSeq, rs = sums s → r1 = (part s p).sum ∧ r2 = (part s q).sum) ∧
      es = equationsCrosscorrelation x1 op1 x2 op2 .plus ++ equationsCrosscorrelation y1 op3 y2 op4 .plus ++
        equationsNonlinear seq1 seq2 op5 op6 .plus ++ equationsRowsum seq1.length r1 r2 ++
        equationsAutocorrelation seq1 seq2 := by
  cases t1 <;> cases t2 <;> simp only [equationsWilliamsonType, Option.map_none, Option.map_some, Option.some.injEq,
    Prod.mk.injEq, reduceCtorEq] at h
  all_goals
    obtain ⟨⟨rfl, rfl⟩, rfl⟩ := h
    refine ⟨_, _, _, _, _, _, _, _, _, _, _, _, ?_, ?_, ?_, ?_, ?_, ?_, ⟨?_, ?_⟩, ?_, rfl⟩
    all_goals first
      | exact Or.inl rfl
      | exact Or.inr rfl
      | exact Or.inl ⟨rfl, rfl⟩
      | exact Or.inr ⟨rfl, rfl⟩
      | (rintro s rfl; exact ⟨rfl, rfl⟩)

theorem dif_zero {x y : ZMod n → ℤ} (h : Amicable x y) (t : ZMod n) : dif x y t = 0 := by
  unfold dif; rw [h t]; ring

theorem amic_symm {x y : ZMod n → ℤ} (h : Amicable x y) : Amicable y x := fun t => (h t).symm

theorem amic_parts (h : IsQTS n s) {t t' : Tag} : Amicable (cyc n (part s t)) (cyc n (part s t')) := by
  obtain ⟨_, _, h1, h2, h3, h4, h5, h6⟩ := (C04_isQTS_iff_isWTS n s).1 h
  cases t <;> cases t' <;> first
    | exact h1 | exact h2 | exact h3 | exact h4 | exact h5 | exact h6
    | exact amic_symm h1 | exact amic_symm h2 | exact amic_symm h3 | exact amic_symm h4 | exact amic_symm h5
    | exact amic_symm h6 | exact fun _ => rfl

theorem parts_comp (hd : [t1, t2, p, q].Nodup) (t : ZMod n) :
    paf (cyc n (part s t1)) t + paf (cyc n (part s t2)) t + paf (cyc n (part s p)) t + paf (cyc n (part s q)) t =
    paf (cyc n s.a) t + paf (cyc n s.b) t + paf (cyc n s.c) t + paf (cyc n s.d) t := by
  cases t1 <;> cases t2 <;> first
    | (exfalso; revert hd; simp; done)
    | (cases p <;> cases q <;> first
        | (exfalso; revert hd; decide)
        | (simp only [part] <;> ring))

/-- C54. Let `s` be a QT sequence, generate the equations for two of its sequences and the sums of all four, and encode
the two other sequences. Every generated linear equation holds: all linear cross-correlation equations and the two
row-sum equations. (Full statement: every generated equation holds. The quadratic equations do not hold in general, see
`C54_all_iff` and `C54_violation`.) -/
theorem C54_linear_partial (h : IsQTS n s)
    (he : equationsWilliamsonType (part s t1) t1 (part s t2) t2 (sums s) = some ((p, q), es))
    (hρ : Encodes ρ n (part s p) (part s q)) : ∀ e ∈ es, Linear e → Holds ρ e := by
  obtain ⟨op1, op2, op3, op4, op5, op6, x1, x2, y1, y2, r1, r2, o1, o2, o3, o4, o5, o6, ⟨hx, hy⟩, hr, rfl⟩ := system he
  obtain ⟨rfl, rfl⟩ := hr s rfl
  have P := part_pm h.1
  have A : ∀ t t', Amicable (cyc n (part s t)) (cyc n (part s t')) := fun t t' => amic_parts h
  intro e hm hl
  simp only [List.mem_append] at hm
  rcases hm with (((hm | hm) | hm) | hm) | hm
  · rcases hx with ⟨rfl, rfl⟩ | ⟨rfl, rfl⟩ <;>
      exact (cross_iff (P _) (P _) hρ o1 o2).2 (fun t => by rw [dif_zero (A _ _), dif_zero (A _ _)]; ring) e hm
  · rcases hy with ⟨rfl, rfl⟩ | ⟨rfl, rfl⟩ <;>
      exact (cross_iff (P _) (P _) hρ o3 o4).2 (fun t => by rw [dif_zero (A _ _), dif_zero (A _ _)]; ring) e hm
  · exact absurd hl (nonlin_not_linear (P _) hm)
  · rw [(P t1).1] at hm
    exact (rowsum_iff (P _).1 (P _).1 hρ _ _).2 ⟨rfl, rfl⟩ e hm
  · exact absurd hl (autos_not_linear (P _) hm)

/-- C54. Exact condition for the completion of a QT sequence of length at least 2 to satisfy all generated equations: the
last entries of the two unknown sequences agree, and the variable `x0` (which encodes no entry, but occurs in the
equations) has the value of that entry. -/
theorem C54_all_iff (h : IsQTS n s) (hn : 2 ≤ n)
    (he : equationsWilliamsonType (part s t1) t1 (part s t2) t2 (sums s) = some ((p, q), es))
    (hρ : Encodes ρ n (part s p) (part s q)) (h0 : ρ 0 = 0 ∨ ρ 0 = 1) :
    (∀ e ∈ es, Holds ρ e) ↔ (part s p).getD (n - 1) 0 = (part s q).getD (n - 1) 0 ∧ 2 * ρ 0 - 1 = (part s p).getD (n - 1) 0 := by
  have L := C54_linear_partial h he hρ
  have hd := (C54_defined _ _ _ _ _).2 _ _ _ he
  obtain ⟨op1, op2, op3, op4, op5, op6, x1, x2, y1, y2, r1, r2, o1, o2, o3, o4, o5, o6, ⟨hx, hy⟩, hr, rfl⟩ := system he
  have P := part_pm h.1
  have Q := quad_iff (P t1) (P t2) (P p) (P q) hn hρ o5 o6 (by unfold pm; rcases h0 with h | h <;> rw [h] <;> simp)
    (fun o h1 h2 => by rw [parts_comp hd]; exact h.2.1 _ (natCast_ne_zero h1 h2)) (dif_zero (amic_parts h))
  refine Iff.trans ?_ Q
  simp only [List.mem_append]
  constructor
  · intro H
    exact ⟨fun e hm => H e (Or.inl (Or.inl (Or.inr hm))), fun e hm => H e (Or.inr hm)⟩
  · rintro ⟨H1, H2⟩ e hm
    by_cases hl : Linear e
    · exact L e (by simp only [List.mem_append]; exact hm) hl
    · rcases hm with (((hm | hm) | hm) | hm) | hm
      · unfold equationsCrosscorrelation at hm
        obtain ⟨_, _, hm⟩ := List.mem_flatMap.1 hm
        exact absurd (linear_linear hm) hl
      · unfold equationsCrosscorrelation at hm
        obtain ⟨_, _, hm⟩ := List.mem_flatMap.1 hm
        exact absurd (linear_linear hm) hl
      · exact H1 e hm
      · unfold equationsRowsum at hm
        rcases List.mem_append.1 hm with hm | hm <;> exact absurd (linear_linear hm) hl
      · exact H2 e hm

/-- C54. In the other direction: if the two given sequences are amicable, every solution in which `x0` and the last
entries of the unknown sequences agree is a QT sequence, with the required row sums. (Full statement: every solution of
the equations is a completion to a QT sequence; false without the extra conditions, see `C54_unsound`.) -/
theorem C54_sound_partial (h : PMQuad n s) {rs : Quad}
    (he : equationsWilliamsonType (part s t1) t1 (part s t2) t2 rs = some ((p, q), es))
    (hρ : Encodes ρ n (part s p) (part s q)) (ham : Amicable (cyc n (part s t1)) (cyc n (part s t2)))
    (hl : (part s p).getD (n - 1) 0 = (part s q).getD (n - 1) 0) (h0 : 2 * ρ 0 - 1 = (part s p).getD (n - 1) 0)
    (H : ∀ e ∈ es, Holds ρ e) :
    IsQTS n s ∧ (part s p).sum = component rs p ∧ (part s q).sum = component rs q := by
  have hd := (C54_defined _ _ _ _ _).2 _ _ _ he
  have P := part_pm h
  have hl' : at0 (part s p) (n - 1) = at0 (part s q) (n - 1) := hl
  have h0' : pm ρ 0 = at0 (part s p) (n - 1) := h0
  have comp : (∀ e ∈ equationsAutocorrelation (part s t1) (part s t2), Holds ρ e) →
      Complementary (cyc n s.a) (cyc n s.b) (cyc n s.c) (cyc n s.d) := by
    intro H t ht
    have := (autos_iff (P t1) (P t2) hρ).1 H t.val
      (by have := (ZMod.val_ne_zero t).2 ht; omega) (ZMod.val_lt t)
    rw [h0', hl', ZMod.natCast_zmod_val, parts_comp hd] at this
    linarith
  have nonl : ∀ op op' : OpType, (op = .leftMinus ∨ op = .rightMinus) → (op' = .leftMinus ∨ op' = .rightMinus) →
      (∀ e ∈ equationsNonlinear (part s t1) (part s t2) op op' .plus, Holds ρ e) →
      Amicable (cyc n (part s q)) (cyc n (part s p)) := by
    intro op op' o o' H t
    by_cases ht : t = 0
    · subst ht
      rw [Proofs.Amicable.ccf_neg, neg_zero]
    · have := (nonlin_iff (P t1) hρ o o').1 H t.val
        (by have := (ZMod.val_ne_zero t).2 ht; omega) (ZMod.val_lt t)
      rw [h0', hl', ZMod.natCast_zmod_val] at this
      unfold dif at this
      linarith
  rw [C04_isQTS_iff_isWTS]
  cases t1 <;> cases t2 <;> simp only [equationsWilliamsonType, Option.map_none, Option.map_some, Option.some.injEq,
    Prod.mk.injEq, reduceCtorEq] at he
  all_goals
    obtain ⟨⟨rfl, rfl⟩, rfl⟩ := he
    simp only [List.mem_append, or_imp, forall_and] at H
    obtain ⟨⟨⟨⟨H1, H2⟩, H3⟩, H4⟩, H5⟩ := H
    rw [(P _).1] at H4
    refine ⟨⟨h, comp H5, ?_⟩, (rowsum_iff (P _).1 (P _).1 hρ _ _).1 H4⟩
    have N := nonl _ _ (by simp) (by simp) H3
    have C1 := (cross_iff (P _) (P _) hρ (by simp) (by simp)).1 H1
    have C2 := (cross_iff (P _) (P _) hρ (by simp) (by simp)).1 H2
    simp only [opSign, dif, part] at C1 C2 N ham
    refine Proofs.Amicable.amicable_of_signed 1 (Or.inl rfl) ?_ ?_ ?_ <;> intro t <;>
      have c1 := C1 t <;> have c2 := C2 t <;> have c3 := N t <;> have c4 := ham t <;>
      simp only [Proofs.Amicable.asym] <;> linarith

end

/-- C54. The equations generated from the first two sequences of a QT sequence of length 5 have no solution that encodes
the two other sequences, whatever the value of `x0`. -/
theorem C54_violation : ∃ s : QuadSeq, IsQTS 5 s ∧ ∃ p q es,
    equationsWilliamsonType s.a .W s.b .X (sums s) = some ((p, q), es) ∧
    ¬ ∃ ρ : ℕ → ℤ, (ρ 0 = 0 ∨ ρ 0 = 1) ∧ Encodes ρ 5 (part s p) (part s q) ∧ ∀ e ∈ es, Holds ρ e := by
  refine ⟨exQTS5, exQTS5_isQTS, .Z, .Y, _, rfl, ?_⟩
  rintro ⟨ρ, h0, hρ, H⟩
  have := (C54_all_iff (t1 := .W) (t2 := .X) exQTS5_isQTS (by decide) rfl hρ h0).1 H
  exact absurd this.1 (by decide)

/-- The variables of two sequences of length `n`, with `x0` equal to the last entry of the first. -/
def encode (n : ℕ) (u v : List ℤ) (i : ℕ) : ℤ :=
  (if i = 0 then u.getD (n - 1) 0 + 1 else if i ≤ n then u.getD (i - 1) 0 + 1 else v.getD (i - n - 1) 0 + 1) / 2

-- The hypotheses of `C54_all_iff` and both sides of its equivalence are met by the sequences W and Z of the same QT
-- sequence.
example : Encodes (encode 5 exQTS5.b exQTS5.c) 5 exQTS5.b exQTS5.c ∧
    ∃ es, equationsWilliamsonType exQTS5.a .W exQTS5.d .Z (sums exQTS5) = some ((.X, .Y), es) ∧ es.length = 18 ∧
      ∀ e ∈ es, Holds (encode 5 exQTS5.b exQTS5.c) e := by
  refine ⟨by unfold Encodes; decide, _, rfl, by decide, by decide⟩

/-- Sequences of length 4 that are not a QT sequence although the encoding of the last two solves the equations generated
from the first two. -/
def exUnsound : QuadSeq :=
  { size := 4, a := [-1, -1, 1, 1], b := [-1, 1, 1, -1], c := [-1, -1, -1, -1], d := [1, -1, 1, -1] }

/-- C54. Solutions need not be QT sequences: the generated equations do not say that the two given sequences are amicable,
and the quadratic equations have right side 0 (`op_minus` subtracts a value from itself). -/
theorem C54_unsound : PMQuad 4 exUnsound ∧ ¬ IsQTS 4 exUnsound ∧ ∃ es,
    equationsWilliamsonType exUnsound.a .W exUnsound.b .X (sums exUnsound) = some ((.Z, .Y), es) ∧
    ∃ ρ : ℕ → ℤ, (∀ i, ρ i = 0 ∨ ρ i = 1) ∧ Encodes ρ 4 exUnsound.d exUnsound.c ∧ ∀ e ∈ es, Holds ρ e := by
  refine ⟨by decide, ?_, _, rfl, fun i => if i < 9 then encode 4 exUnsound.d exUnsound.c i else 0, ?_, ?_, ?_⟩
  · rw [← C08_verify_qts 4 exUnsound (by decide)]; decide
  · intro i
    by_cases h : i < 9
    · simp only [if_pos h]; interval_cases i <;> decide
    · left; exact if_neg h
  · unfold Encodes; decide
  · decide

-- The hypotheses of `C54_sound_partial` are met.
example : Amicable (cyc 5 exQTS5.a) (cyc 5 exQTS5.d) ∧ exQTS5.b.getD 4 0 = exQTS5.c.getD 4 0 ∧
    2 * encode 5 exQTS5.b exQTS5.c 0 - 1 = exQTS5.b.getD 4 0 :=
  ⟨amic_parts exQTS5_isQTS (t := .W) (t' := .Z), by decide, by decide⟩

end Props
