import Verif.Model.SearchMain
import Verif.Proofs.Rowsum
import Verif.Proofs.Words
import Verif.Props.Search
import Mathlib.SetTheory.Cardinal.Finite

/-! # Proofs: numbers of sequences -/

namespace Proofs.Counts
open Model Spec Proofs
open scoped Quaternion

/-- Four signs. -/
abbrev Signs := Bool × Bool × Bool × Bool

/-- The sign of a sequence. -/
def sg (e : Signs) : Tag → ℤ
  | .W => if e.1 then 1 else -1
  | .X => if e.2.1 then 1 else -1
  | .Y => if e.2.2.1 then 1 else -1
  | .Z => if e.2.2.2 then 1 else -1

theorem sg_sq (e : Signs) (t : Tag) : sg e t * sg e t = 1 := by
  cases t <;> simp only [sg] <;> split <;> norm_num

variable {n : ℕ} [NeZero n]

/-- Multiply every sequence by a sign. -/
def scale (e : Tag → ℤ) (f : Fam n) : Fam n := fun t i => e t * f t i

theorem scale_eq (e : Signs) (f : Fam n) : scale (sg e) f =
    (fun g => if e.1 then g else negAt .W g) ((fun g => if e.2.1 then g else negAt .X g)
      ((fun g => if e.2.2.1 then g else negAt .Y g) ((fun g => if e.2.2.2 then g else negAt .Z g) f))) := by
  obtain ⟨a, b, c, d⟩ := e
  funext t i
  cases t <;> cases a <;> cases b <;> cases c <;> cases d <;> simp [scale, sg, negAt]

theorem scale_closed {V : Fam n → Prop} (hV : ∀ f t, V f → V (negAt t f)) (e : Signs) {f : Fam n} (hf : V f) :
    V (scale (sg e) f) := by
  rw [scale_eq]
  have h : ∀ (b : Bool) t g, V g → V (if b then g else negAt t g) := by
    intro b t g hg
    cases b
    · exact hV _ _ hg
    · exact hg
  exact h _ _ _ (h _ _ _ (h _ _ _ (h _ _ _ hf)))

theorem scale_scale (e : Signs) (f : Fam n) : scale (sg e) (scale (sg e) f) = f := by
  funext t i
  unfold scale
  rw [← mul_assoc, sg_sq, one_mul]

/-- The signs that make the first entries -1. -/
def first (f : Fam n) : Signs :=
  (decide (f .W 0 = -1), decide (f .X 0 = -1), decide (f .Y 0 = -1), decide (f .Z 0 = -1))

theorem sg_first {f : Fam n} (hf : PMFam f) (t : Tag) : sg (first f) t = -f t 0 := by
  have := hf t 0
  cases t <;> simp only [sg, first, decide_eq_true_eq] <;> split <;> omega

theorem first_scale {f : Fam n} (h0 : ∀ t, f t 0 = -1) (e : Signs) : first (scale (sg e) f) = e := by
  obtain ⟨a, b, c, d⟩ := e
  simp only [first, scale, h0, sg]
  cases a <;> cases b <;> cases c <;> cases d <;> rfl

/-- A set of ±1 families closed under negating one sequence is 16 times as large as its part with first entries -1. -/
theorem card_signs {V : Fam n → Prop} (hpm : ∀ f, V f → PMFam f) (hV : ∀ f t, V f → V (negAt t f)) :
    Nat.card {f // V f} = 16 * Nat.card {f // V f ∧ ∀ t, f t 0 = -1} := by
  have e : {f // V f} ≃ Signs × {f // V f ∧ ∀ t, f t 0 = -1} :=
    { toFun := fun f => (first f.1, ⟨scale (sg (first f.1)) f.1, scale_closed hV _ f.2, fun t => by
        unfold scale
        rw [sg_first (hpm _ f.2)]
        rcases hpm _ f.2 t 0 with h | h <;> rw [h] <;> norm_num⟩)
      invFun := fun p => ⟨scale (sg p.1) p.2.1, scale_closed hV _ p.2.2.1⟩
      left_inv := fun f => Subtype.ext (scale_scale _ _)
      right_inv := fun p => by
        obtain ⟨e, f, hf, h0⟩ := p
        have h1 := first_scale h0 e
        refine Prod.ext h1 (Subtype.ext ?_)
        simp only [h1, scale_scale] }
  rw [Nat.card_congr e, Nat.card_prod, Nat.card_eq_fintype_card]
  rfl

/-! ## Quadruples and families -/

theorem card_fam {P : QuadSeq → Prop} {V : Fam n → Prop} (hV : ∀ f, V f → PMFam f) (h : ∀ s, P s ↔ Wf n s ∧ V (fam n s)) :
    Nat.card {s // P s} = Nat.card {f : Fam n // V f} :=
  Nat.card_congr
    { toFun := fun s => ⟨fam n s.1, ((h _).1 s.2).2⟩
      invFun := fun f => ⟨ofFam n f.1, (h _).2 ⟨(pmquad_iff.1 (pmquad_ofFam (hV _ f.2))).1, by rw [fam_ofFam]; exact f.2⟩⟩
      left_inv := fun s => Subtype.ext (ofFam_fam ((h _).1 s.2).1)
      right_inv := fun f => Subtype.ext (fam_ofFam _) }

theorem first_iff {s : QuadSeq} (hs : PMQuad n s) : (∀ t, fam n s t 0 = -1) ↔ s.values 0 = (-1, -1, -1, -1) := by
  have h : ∀ l : List ℤ, cyc n l 0 = at0 l 0 := fun l => by
    have := cyc_natCast_lt (n := n) l (t := 0) (Nat.pos_of_neZero n)
    rwa [Nat.cast_zero] at this
  unfold QuadSeq.values
  constructor
  · intro k
    have a := k .W; have b := k .X; have c := k .Y; have d := k .Z
    simp only [fam, h] at a b c d
    rw [a, b, c, d]
  · intro k
    simp only [Prod.mk.injEq] at k
    intro t
    cases t <;> simp only [fam, h]
    · exact k.1
    · exact k.2.1
    · exact k.2.2.1
    · exact k.2.2.2

/-- 16 times the sequences with first column -1. -/
theorem card_quad {P : QuadSeq → Prop} {V : Fam n → Prop} (hV : ∀ f, V f → PMFam f) (hneg : ∀ f t, V f → V (negAt t f))
    (h : ∀ s, P s ↔ Wf n s ∧ V (fam n s)) {L : List QuadSeq} (hL : L.Nodup)
    (hm : ∀ s, s ∈ L ↔ P s ∧ s.values 0 = (-1, -1, -1, -1)) : Nat.card {s // P s} = 16 * L.length := by
  rw [card_fam hV h, card_signs hV hneg, ← card_fam (P := fun s => s ∈ L) (V := fun f => V f ∧ ∀ t, f t 0 = -1) (fun f k => hV f k.1)]
  · congr 1
    have e : {s // s ∈ L} = {s // s ∈ L.toFinset} := by simp
    rw [e, Nat.card_eq_fintype_card, Fintype.card_coe, List.toFinset_card_of_nodup hL]
  · intro s
    rw [hm, h]
    constructor
    · rintro ⟨⟨k1, k2⟩, k3⟩
      exact ⟨k1, k2, (first_iff (pmquad_iff.2 ⟨k1, hV _ k2⟩)).2 k3⟩
    · rintro ⟨k1, k2, k3⟩
      exact ⟨⟨k1, k2⟩, (first_iff (pmquad_iff.2 ⟨k1, hV _ k2⟩)).1 k3⟩

theorem card_wts {L : List QuadSeq} (hL : L.Nodup) (hm : ∀ s, s ∈ L ↔ IsWTS n s ∧ s.values 0 = (-1, -1, -1, -1)) :
    Nat.card {s // IsWTS n s} = 16 * L.length :=
  card_quad (fun _ h => h.pm) (fun _ t h => valid_negAt h t) (fun _ => isWTS_iff) hL hm

theorem card_ws {L : List QuadSeq} (hL : L.Nodup) (hm : ∀ s, s ∈ L ↔ IsWS n s ∧ s.values 0 = (-1, -1, -1, -1)) :
    Nat.card {s // IsWS n s} = 16 * L.length :=
  card_quad (fun _ h => h.pm) (fun _ t h => sym_negAt h t) (fun _ => isWS_iff) hL hm

/-! ## Words -/

theorem word_inj {f g : Fam n} (h : Letters.word f = Letters.word g) : f = g := by
  funext t i
  have h1 := Letters.co_word f i t
  rw [h, Letters.co_word] at h1
  exact_mod_cast h1.symm

theorem card_words : Nat.card {x : ZMod n → ℍ[ℚ] // PerfectWord x} = Nat.card {s // IsQTS n s} := by
  symm
  refine Nat.card_congr (Equiv.ofBijective
    (fun s => ⟨Letters.word (fam n s.1), (Letters.perfect_word s.2.1).2 s.2⟩) ⟨?_, ?_⟩)
  · rintro ⟨s, hs⟩ ⟨t, ht⟩ h
    have h1 := word_inj (congrArg Subtype.val h)
    have h2 : ofFam n (fam n s) = ofFam n (fam n t) := congrArg _ h1
    rw [ofFam_fam (pmquad_iff.1 hs.1).1, ofFam_fam (pmquad_iff.1 ht.1).1] at h2
    exact Subtype.ext h2
  · rintro ⟨x, hx⟩
    obtain ⟨q, hq, e⟩ := Letters.exists_quad hx.1
    subst e
    exact ⟨⟨q, (Letters.perfect_word hq).1 hx⟩, rfl⟩

/-- The quaternion sequences that begin with 1 are the quadruples that begin with -1. -/
theorem perm_over {L : List (List Quat)} (hL : L.Nodup) (hm : ∀ v, v ∈ L ↔ PerfectOver QPLUS n v) :
    Nat.card {s // IsQTS n s ∧ s.values 0 = (-1, -1, -1, -1)} = L.length := by
  have e : Nat.card {v // v ∈ L} = L.length := by
    have e : {s // s ∈ L} = {s // s ∈ L.toFinset} := by simp
    rw [e, Nat.card_eq_fintype_card, Fintype.card_coe, List.toFinset_card_of_nodup hL]
  rw [← e]
  have h0 : 0 < n := Nat.pos_of_neZero n
  have head : ∀ s : QuadSeq, ((List.range n).map fun i => linQuat (s.values i)).getD 0 Q0 = linQuat (s.values 0) := by
    intro s
    rw [List.getD_eq_getElem _ _ (by simpa using h0)]
    simp
  refine Nat.card_congr (Equiv.ofBijective
    (fun s => ⟨(List.range n).map fun i => linQuat (s.1.values i), (hm _).2 ?_⟩) ⟨?_, ?_⟩)
  · obtain ⟨q, h1, _, h3, h4, _⟩ := Props.C06_quad_roundtrip n s.1 s.2.1.1
    obtain ⟨q', h5, h6⟩ := Props.C03_isQTS_iff_perfect n s.1 s.2.1.1
    rw [toQs_eq s.2.1.1] at h1 h5
    cases h1
    cases h5
    refine ⟨h3, ?_, h4, h6.1 s.2.1⟩
    rw [head, s.2.2]
    decide +kernel
  · rintro ⟨s, hs⟩ ⟨t, ht⟩ h
    have h1 := congrArg Subtype.val h
    simp only at h1
    have h2 := fromPqs_toQs hs.1.1
    rw [h1, fromPqs_toQs ht.1.1] at h2
    exact Subtype.ext (Option.some.inj h2).symm
  · rintro ⟨v, hv⟩
    obtain ⟨h1, h2, h3, h4⟩ := (hm v).1 hv
    obtain ⟨s, k1, k2, k3⟩ := Props.C06_qs_roundtrip { size := n, values := v, symmetry := none } h1 h3 rfl
    have k2 : PMQuad n s := k2
    have k4 := k3
    rw [toQs_eq k2] at k4
    have hval : (List.range n).map (fun i => linQuat (s.values i)) = v := congrArg QS.values (Option.some.inj k4)
    refine ⟨⟨s, ?_, ?_⟩, Subtype.ext hval⟩
    · obtain ⟨q, h5, h6⟩ := Props.C03_isQTS_iff_perfect n s k2
      rw [k3] at h5
      cases h5
      exact h6.2 h4
    · have h7 := head s
      rw [hval, h2] at h7
      have hp := (pm4_iff_mem _).1 (values_pm4 k2 h0)
      revert h7
      have : ∀ v ∈ QUADRUPLETS, Q1 = linQuat v → v = (-1, -1, -1, -1) := by decide +kernel
      exact this _ hp

theorem mapM_len {α β : Type} {f : α → Option β} {l : List α} {r : List β} (h : l.mapM f = some r) : r.length = l.length := by
  induction l generalizing r with
  | nil => cases h; rfl
  | cons a l ih =>
    rw [List.mapM_cons] at h
    cases ha : f a with
    | none => rw [ha] at h; cases h
    | some b =>
      cases hl : l.mapM f with
      | none => rw [ha, hl] at h; cases h
      | some bs => rw [ha, hl] at h; cases h; rw [List.length_cons, List.length_cons, ih hl]

theorem equalsLoop_eq (pre y x : List ℤ) (h : x.length = y.length) :
    equalsLoop (pre ++ y) pre.length x = some (decide (x = y)) := by
  induction x generalizing pre y with
  | nil =>
    cases y with
    | nil => rfl
    | cons b y => cases h
  | cons a x ih =>
    cases y with
    | nil => cases h
    | cons b y =>
      unfold equalsLoop
      rw [List.getElem?_append_right le_rfl, Nat.sub_self, List.getElem?_cons_zero, Option.bind_some]
      by_cases hab : a = b
      · subst hab
        have := ih (pre ++ [a]) y (by simpa using h)
        rw [List.append_assoc, List.length_append] at this
        rw [if_neg (by simp)]
        simp only [List.length_cons, List.length_nil, List.singleton_append, Nat.zero_add] at this
        rw [this]
        simp
      · rw [if_pos hab]
        simp [hab]

end Proofs.Counts
