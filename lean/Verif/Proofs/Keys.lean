import Verif.Proofs.Matching
import Verif.Spec.Pipeline

/-!
# Helper lemmas: the keys written for the pairs
-/

set_option linter.unusedSectionVars false
set_option linter.unusedVariables false
set_option linter.unusedSimpArgs false

namespace Proofs.Keys
open Model Spec Proofs Proofs.Amicable Proofs.Matching

variable {n : ℕ} [NeZero n]

/-- The key of a pair in terms of its correlations. -/
def corrKey (ty : SeqType) (side : Side) (pos : Bool) (x y : ZMod n → ℤ) : Option (Option (List ℤ)) :=
  match ty with
  | .quaternionType => some (some ((autoVals x y).map side.op ++ (crossVals pos x y).map side.op))
  | .williamsonType =>
    if (crossVals pos x y).any fun v => v ≠ 0 then some none else some (some ((autoVals x y).map side.op))
  | .williamson => some (some ((autoVals x y).map side.op))
  | _ => none

section
variable {K : Type} {A : Fl K} {val : K → ℝ}

theorem pairKey_corr (hA : Accurate A val n) {l m : List ℤ} (hl : PMSeq n l) (hm : PMSeq n m) {tags : Tag × Tag}
    {pos : Bool} (hp : crossSign tags = some pos) {b : K} {i j : ℕ} {d : PairData K}
    (hd : pairData A b (l, i) (m, j) = some d) (ty : SeqType) (side : Side) (p : ℕ) :
    pairKey A ty side .correlation tags p d = corrKey ty side pos (cyc n l) (cyc n m) := by
  rw [pairData_some hd]
  unfold pairKey corrKey
  dsimp only
  rw [hl.1, hm.1, autoPair_computed hA hl hm, crossPair_computed hA hl hm, hp]
  simp only [Option.map_some, Option.bind_some]
  cases ty <;> rfl

end

theorem seq_pm {s : QuadSeq} (h : PMQuad n s) (t : Tag) : PMSeq n (s.sequence t) := by
  cases t
  · exact h.a
  · exact h.b
  · exact h.c
  · exact h.d

theorem cyc_seq (s : QuadSeq) (t : Tag) : cyc n (s.sequence t) = fam n s t := by cases t <;> rfl

theorem op_left : Side.op .left = fun v => v := rfl
theorem op_right : Side.op .right = fun v => -v := rfl

theorem auto_len (x y : ZMod n → ℤ) : (autoVals x y).length = n / 2 := by simp [autoVals]
theorem cross_len (p : Bool) (x y : ZMod n → ℤ) : (crossVals p x y).length = n / 2 := by simp [crossVals]

/-- Signs of the pairs of a pairing. -/
theorem pairing_sign (pr : Option Pairing) :
    ∃ p q, crossSign (pairingTags pr).1 = some p ∧ crossSign (pairingTags pr).2 = some q := by
  rcases pr with _ | _ | _ | _ <;> exact ⟨_, _, rfl, rfl⟩

theorem ofType_wts {ty : SeqType} {s : QuadSeq} (h : OfType n ty s) : IsWTS n s := by
  cases ty <;> simp only [OfType] at h
  · exact ⟨h.1, h.2.1, amicable_of_symm h.2.2.1 h.2.2.2.1, amicable_of_symm h.2.2.1 h.2.2.2.2.1,
      amicable_of_symm h.2.2.1 h.2.2.2.2.2, amicable_of_symm h.2.2.2.1 h.2.2.2.2.1,
      amicable_of_symm h.2.2.2.1 h.2.2.2.2.2, amicable_of_symm h.2.2.2.2.1 h.2.2.2.2.2⟩
  · exact h
  · exact isQTS_iff_wts.1 h

theorem ofType_supported {ty : SeqType} {s : QuadSeq} (h : OfType n ty s) : Supported ty := by
  cases ty <;> simp only [OfType] at h <;> simp [Supported]

/-- Complementarity regrouped along a pairing. -/
theorem comp_pairing (f : Fam n) (pr : Option Pairing) :
    Complementary (f (pairingTags pr).1.1) (f (pairingTags pr).1.2) (f (pairingTags pr).2.1) (f (pairingTags pr).2.2) ↔
      Complementary (f .W) (f .X) (f .Y) (f .Z) := by
  rcases pr with _ | _ | _ | _ <;> simp only [pairingTags, Complementary] <;>
    refine forall_congr' fun t => imp_congr_right fun _ => ?_ <;> constructor <;> intro h <;> omega

/-- All pairs of a Williamson-type sequence are amicable. -/
theorem wts_amicable {s : QuadSeq} (h : IsWTS n s) (p q : Tag) : Spec.Amicable (fam n s p) (fam n s q) :=
  (isWTS_iff.1 h).2.ami p q

theorem corrKey_amicable {x y : ZMod n → ℤ} (h : Spec.Amicable x y) (ty : SeqType) (side : Side) (pos : Bool) :
    corrKey ty side pos x y = match ty with
      | .quaternionType => some (some ((autoVals x y).map side.op ++ List.replicate (n / 2) 0))
      | .williamsonType => some (some ((autoVals x y).map side.op))
      | .williamson => some (some ((autoVals x y).map side.op))
      | _ => none := by
  unfold corrKey
  rw [crossVals_zero h]
  have : ∀ k, (List.replicate k (0 : ℤ)).map side.op = List.replicate k 0 := by
    intro k; rw [List.map_replicate]; cases side <;> rfl
  cases ty <;> simp [this]

theorem corrKey_agree {s : QuadSeq} {ty : SeqType} (h : OfType n ty s) (pr : Option Pairing) (p q : Bool) :
    ∃ v, corrKey ty .left p (fam n s (pairingTags pr).1.1) (fam n s (pairingTags pr).1.2) = some (some v) ∧
      corrKey ty .right q (fam n s (pairingTags pr).2.1) (fam n s (pairingTags pr).2.2) = some (some v) := by
  have hw := ofType_wts h
  have hc := (auto_iff _ _ _ _).2 ((comp_pairing (fam n s) pr).2 hw.2.1)
  rw [corrKey_amicable (wts_amicable hw _ _), corrKey_amicable (wts_amicable hw _ _), op_left, op_right, hc]
  rcases ofType_supported h with rfl | rfl | rfl <;> simp

theorem corrKey_sound {s : QuadSeq} {ty : SeqType} (pr : Option Pairing) {p q : Bool}
    (hp : crossSign (pairingTags pr).1 = some p) (hq : crossSign (pairingTags pr).2 = some q) {v : List ℤ}
    (h1 : corrKey ty .left p (fam n s (pairingTags pr).1.1) (fam n s (pairingTags pr).1.2) = some (some v))
    (h2 : corrKey ty .right q (fam n s (pairingTags pr).2.1) (fam n s (pairingTags pr).2.2) = some (some v)) :
    Complementary (fam n s .W) (fam n s .X) (fam n s .Y) (fam n s .Z) ∧
      (ty = .quaternionType → PairCross pr (fam n s)) := by
  rw [← comp_pairing (fam n s) pr, ← auto_iff]
  cases ty <;> simp only [corrKey, reduceCtorEq, false_implies, and_true, true_implies] at h1 h2 ⊢
  · rw [op_left, List.map_id'] at h1
    rw [op_right] at h2
    rw [Option.some.inj (Option.some.inj h1), Option.some.inj (Option.some.inj h2)]
  · split at h1
    · cases h1
    · split at h2
      · cases h2
      · rw [op_left, List.map_id'] at h1
        rw [op_right] at h2
        rw [Option.some.inj (Option.some.inj h1), Option.some.inj (Option.some.inj h2)]
  · rw [op_left, List.map_id', List.map_id'] at h1
    rw [op_right] at h2
    have h := (Option.some.inj (Option.some.inj h1)).trans (Option.some.inj (Option.some.inj h2)).symm
    obtain ⟨k1, k2⟩ := List.append_inj h (by simp [auto_len])
    refine ⟨k1, ?_⟩
    rw [cross_iff] at k2
    rcases pr with _ | _ | _ | _ <;> simp only [pairingTags, crossSign, Option.some.injEq] at hp hq k2 <;> subst hp hq <;>
      intro t <;> have := k2 t <;> simp only [asym, pairingTags, if_true, if_false, Bool.false_eq_true] at this ⊢ <;> omega

end Proofs.Keys
