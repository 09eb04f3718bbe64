import Verif.Proofs.Fast
import Mathlib.Data.List.Lex
import Mathlib.Tactic.Ring
import Mathlib.Tactic.Linarith

/-!
# The order on quadruples, minima, and ternary values of ±1 lists
-/

set_option linter.unusedSectionVars false
set_option linter.unusedVariables false
set_option linter.unusedSimpArgs false

namespace Proofs
open Model Spec

/-! ## Lexicographic order -/

theorem cons_lt {x y : ℤ} {l m : List ℤ} : x :: l < y :: m ↔ x < y ∨ x = y ∧ l < m := by
  rw [List.cons_lt_cons_iff]

theorem seqLessThan_iff {l m : List ℤ} (h : l.length = m.length) : seqLessThan l m = true ↔ l < m := by
  induction l generalizing m with
  | nil =>
    cases m with
    | nil => simp [seqLessThan]
    | cons y m => simp at h
  | cons x l ih =>
    cases m with
    | nil => simp at h
    | cons y m =>
      rw [cons_lt, ← ih (by simpa using h), show seqLessThan (x :: l) (y :: m) =
        if x < y then true else if x > y then false else seqLessThan l m from rfl]
      split
      · simp [*]
      · split
        · next h1 h2 =>
          simp only [Bool.false_eq_true, false_iff, not_or, not_and]; omega
        · next h1 h2 =>
          have e : x = y := by omega
          subst e
          simp only [lt_self_iff_false, false_or, true_and]

theorem aux_spec {l m : List ℤ} (h : l.length = m.length) :
    (willLessThanAux l m = .lt ↔ l < m) ∧ (willLessThanAux l m = .eq ↔ l = m) := by
  induction l generalizing m with
  | nil =>
    cases m with
    | nil => simp [willLessThanAux]
    | cons y m => simp at h
  | cons x l ih =>
    cases m with
    | nil => simp at h
    | cons y m =>
      have := ih (m := m) (by simpa using h)
      unfold willLessThanAux
      rw [cons_lt]
      split
      · next h1 =>
        refine ⟨by simp [h1], ?_⟩
        simp only [reduceCtorEq, List.cons.injEq, false_iff, not_and]; omega
      · split
        · next h1 h2 =>
          refine ⟨?_, ?_⟩
          · simp only [reduceCtorEq, false_iff, not_or, not_and]; omega
          · simp only [reduceCtorEq, List.cons.injEq, false_iff, not_and]; omega
        · next h1 h2 =>
          have e : x = y := by omega
          subst e
          simp [this.1, this.2]

theorem append_lt {l m l' m' : List ℤ} (h : l.length = l'.length) :
    l ++ m < l' ++ m' ↔ l < l' ∨ l = l' ∧ m < m' := by
  induction l generalizing l' with
  | nil =>
    cases l' with
    | nil => simp
    | cons y l' => simp at h
  | cons x l ih =>
    cases l' with
    | nil => simp at h
    | cons y l' =>
      rw [List.cons_append, List.cons_append, cons_lt, cons_lt, ih (by simpa using h)]
      constructor
      · rintro (k | ⟨rfl, k | ⟨rfl, k⟩⟩)
        · exact .inl (.inl k)
        · exact .inl (.inr ⟨rfl, k⟩)
        · exact .inr ⟨rfl, k⟩
      · rintro ((k | ⟨rfl, k⟩) | ⟨h, h'⟩)
        · exact .inl k
        · exact .inr ⟨rfl, .inl k⟩
        · obtain ⟨rfl, rfl⟩ := List.cons.inj h
          exact .inr ⟨rfl, .inr ⟨rfl, h'⟩⟩

/-- All four sequences have length `n`. -/
def Len (n : ℕ) (s : QuadSeq) : Prop := ∀ t, (s.sequence t).length = n

theorem flat_lt {n : ℕ} {s t : QuadSeq} (hs : Len n s) (ht : Len n t) :
    flat s < flat t ↔ s.a < t.a ∨ s.a = t.a ∧ (s.b < t.b ∨ s.b = t.b ∧ (s.c < t.c ∨ s.c = t.c ∧ s.d < t.d)) := by
  have h : ∀ tg, (s.sequence tg).length = (t.sequence tg).length := fun tg => by rw [hs, ht]
  have h1 := h .W
  have h2 := h .X
  have h3 := h .Y
  simp only [QuadSeq.sequence] at h1 h2 h3
  unfold flat
  rw [List.append_assoc, List.append_assoc, List.append_assoc, List.append_assoc,
    append_lt h1, append_lt h2, append_lt h3]

theorem willLessThan_iff {n : ℕ} {s t : QuadSeq} (hs : Len n s) (ht : Len n t) :
    willLessThan s t = true ↔ flat s < flat t := by
  have h : ∀ tg, (s.sequence tg).length = (t.sequence tg).length := fun tg => by rw [hs, ht]
  rw [flat_lt hs ht]
  obtain ⟨a1, a2⟩ := aux_spec (h .W)
  obtain ⟨b1, b2⟩ := aux_spec (h .X)
  obtain ⟨c1, c2⟩ := aux_spec (h .Y)
  have d1 := seqLessThan_iff (h .Z)
  simp only [QuadSeq.sequence] at a1 a2 b1 b2 c1 c2 d1
  unfold willLessThan
  cases ha : willLessThanAux s.a t.a <;> rw [ha] at a1 a2 <;> simp only [true_iff, reduceCtorEq, false_iff] at a1 a2
  · simp [a1]
  · cases hb : willLessThanAux s.b t.b <;> rw [hb] at b1 b2 <;> simp only [true_iff, reduceCtorEq, false_iff] at b1 b2
    · simp [b1, a2]
    · cases hc : willLessThanAux s.c t.c <;> rw [hc] at c1 c2 <;> simp only [true_iff, reduceCtorEq, false_iff] at c1 c2
      · simp [c1, b2, a2]
      · simp [c1, c2, b2, a2, d1]
      · simp [c1, c2, b2, a2]
    · simp [b1, b2, a2]
  · simp [a1, a2]

theorem flat_inj {n : ℕ} {s t : QuadSeq} (hs : Len n s) (ht : Len n t) (hsz : s.size = t.size) (h : flat s = flat t) :
    s = t := by
  have hl : ∀ tg, (s.sequence tg).length = (t.sequence tg).length := fun tg => by rw [hs, ht]
  unfold flat at h
  rw [List.append_assoc, List.append_assoc, List.append_assoc, List.append_assoc] at h
  obtain ⟨h1, h⟩ := List.append_inj h (hl .W)
  obtain ⟨h2, h⟩ := List.append_inj h (hl .X)
  obtain ⟨h3, h4⟩ := List.append_inj h (hl .Y)
  cases s; cases t; simp_all

/-! ## Minima -/

/-- `m` is the least element of the set `S` in the order of `flat`. -/
def IsLeastQ (S : QuadSeq → Prop) (m : QuadSeq) : Prop := S m ∧ ∀ t, S t → flat m ≤ flat t

/-- All members have size `n` and sequences of length `n`. -/
def Uniform (n : ℕ) (S : QuadSeq → Prop) : Prop := ∀ t, S t → t.size = n ∧ Len n t

theorem IsLeastQ.unique {n : ℕ} {S : QuadSeq → Prop} (hS : Uniform n S) {m m' : QuadSeq} (h : IsLeastQ S m)
    (h' : IsLeastQ S m') : m = m' :=
  flat_inj (hS _ h.1).2 (hS _ h'.1).2 ((hS _ h.1).1.trans (hS _ h'.1).1.symm)
    (le_antisymm (h.2 _ h'.1) (h'.2 _ h.1))

theorem minFrom_spec {n : ℕ} (init : QuadSeq) (l : List QuadSeq) (h0 : Len n init) (hl : ∀ t ∈ l, Len n t) :
    (minFrom init l = init ∨ minFrom init l ∈ l) ∧ flat (minFrom init l) ≤ flat init ∧
      ∀ t ∈ l, flat (minFrom init l) ≤ flat t := by
  induction l generalizing init with
  | nil => simp [minFrom]
  | cons x l ih =>
    have hx := hl x List.mem_cons_self
    have hl' : ∀ t ∈ l, Len n t := fun t h => hl t (List.mem_cons_of_mem _ h)
    have e : minFrom init (x :: l) = minFrom (if willLessThan x init then x else init) l := rfl
    rw [e]
    by_cases h : willLessThan x init = true
    · rw [if_pos h]
      have hlt := (willLessThan_iff hx h0).1 h
      obtain ⟨h1, h2, h3⟩ := ih x hx hl'
      refine ⟨?_, h2.trans hlt.le, ?_⟩
      · rcases h1 with h1 | h1
        · exact .inr (by rw [h1]; exact List.mem_cons_self)
        · exact .inr (List.mem_cons_of_mem _ h1)
      · intro t ht
        rcases List.mem_cons.1 ht with rfl | ht
        · exact h2
        · exact h3 t ht
    · rw [if_neg h]
      have hge : flat init ≤ flat x := by
        rw [willLessThan_iff hx h0] at h; exact not_lt.1 h
      obtain ⟨h1, h2, h3⟩ := ih init h0 hl'
      refine ⟨?_, h2, ?_⟩
      · rcases h1 with h1 | h1
        · exact .inl h1
        · exact .inr (List.mem_cons_of_mem _ h1)
      · intro t ht
        rcases List.mem_cons.1 ht with rfl | ht
        · exact h2.trans hge
        · exact h3 t ht

theorem minBy_spec {n : ℕ} {l : List QuadSeq} (hne : l ≠ []) (hl : ∀ t ∈ l, Len n t) :
    ∃ m, minBy l = some m ∧ IsLeastQ (· ∈ l) m := by
  cases l with
  | nil => exact absurd rfl hne
  | cons x l =>
    obtain ⟨h1, h2, h3⟩ := minFrom_spec x l (hl x List.mem_cons_self) fun t h => hl t (List.mem_cons_of_mem _ h)
    refine ⟨_, rfl, ?_, ?_⟩
    · rcases h1 with h1 | h1
      · rw [h1]; exact List.mem_cons_self
      · exact List.mem_cons_of_mem _ h1
    · intro t ht
      rcases List.mem_cons.1 ht with rfl | ht
      · exact h2
      · exact h3 t ht

theorem findMinimum_eq (l : List QuadSeq) : findMinimum l = minBy l := by
  cases l with
  | nil => rfl
  | cons x l =>
    have key : ∀ (l : List QuadSeq) (b : QuadSeq),
        l.foldl (fun mini e => match mini with
          | some best => if willLessThan e best then some e else some best
          | none => some e) (some b) = some (minFrom b l) := by
      intro l
      induction l with
      | nil => intro b; rfl
      | cons y l ih =>
        intro b
        rw [List.foldl_cons]
        simp only
        have e : minFrom b (y :: l) = minFrom (if willLessThan y b then y else b) l := rfl
        rw [e]
        split
        · exact ih y
        · exact ih b
    exact key l x

theorem findMinimum_spec {n : ℕ} {l : List QuadSeq} (hne : l ≠ []) (hl : ∀ t ∈ l, Len n t) :
    ∃ m, findMinimum l = some m ∧ IsLeastQ (· ∈ l) m := by
  rw [findMinimum_eq]; exact minBy_spec hne hl

/-! ## Ternary values of ±1 lists -/

/-- The value of a list read as digits in base 3. -/
def val : List ℤ → ℤ
  | [] => 0
  | x :: l => x * 3 ^ l.length + val l

theorem val_bound {l : List ℤ} (h : IsPM l) : -(3 ^ l.length) < 2 * val l ∧ 2 * val l < 3 ^ l.length := by
  induction l with
  | nil => simp [val]
  | cons x l ih =>
    have := ih fun y hy => h y (List.mem_cons_of_mem _ hy)
    rw [List.length_cons, pow_succ, val]
    rcases h x List.mem_cons_self with rfl | rfl <;> constructor <;> linarith

theorem val_lt {l m : List ℤ} (hl : IsPM l) (hm : IsPM m) (h : l.length = m.length) : l < m ↔ val l < val m := by
  induction l generalizing m with
  | nil =>
    cases m with
    | nil => simp [val]
    | cons y m => simp at h
  | cons x l ih =>
    cases m with
    | nil => simp at h
    | cons y m =>
      have h' : l.length = m.length := by simpa using h
      have hl' : IsPM l := fun z hz => hl z (List.mem_cons_of_mem _ hz)
      have hm' : IsPM m := fun z hz => hm z (List.mem_cons_of_mem _ hz)
      have b1 := val_bound hl'
      have b2 := val_bound hm'
      rw [cons_lt, ih hl' hm' h', val, val]
      rw [h'] at b1 ⊢
      have hp : (0 : ℤ) < 3 ^ m.length := by positivity
      rcases hl x List.mem_cons_self with rfl | rfl <;> rcases hm y List.mem_cons_self with rfl | rfl
      · simp
      · constructor
        · rintro (h | ⟨h, _⟩) <;> omega
        · intro h; exfalso; linarith
      · constructor
        · intro _; linarith
        · intro _; left; norm_num
      · simp

theorem val_inj {l m : List ℤ} (hl : IsPM l) (hm : IsPM m) (h : l.length = m.length) (hv : val l = val m) : l = m := by
  rcases lt_trichotomy l m with h1 | h1 | h1
  · rw [val_lt hl hm h] at h1; omega
  · exact h1
  · rw [val_lt hm hl h.symm] at h1; omega

theorem negated_eq_map {l : List ℤ} (hl : IsPM l) : negated l = l.map fun x => -x := by
  refine list_ext_at0 (by rw [negated_length, List.length_map]) fun i hi => ?_
  rw [negated_length] at hi
  unfold negated
  rw [at0_tab _ hi]
  have hx := hl _ (at0_mem hi)
  rw [neg8_bd (by rcases hx with h | h <;> rw [h] <;> norm_num) (by rcases hx with h | h <;> rw [h] <;> norm_num)]
  unfold at0
  rw [List.getD_eq_getElem _ _ hi, List.getD_eq_getElem _ _ (by rwa [List.length_map]), List.getElem_map]

theorem val_negated {l : List ℤ} (hl : IsPM l) : val (negated l) = -val l := by
  rw [negated_eq_map hl]
  clear hl
  induction l with
  | nil => simp [val]
  | cons x l ih => rw [List.map_cons, val, ih, val, List.length_map]; ring

theorem pm_negated {l : List ℤ} (hl : IsPM l) : IsPM (negated l) := by
  rw [negated_eq_map hl]
  intro x hx
  obtain ⟨y, hy, rfl⟩ := List.mem_map.1 hx
  rcases hl y hy with rfl | rfl <;> simp

theorem val_head {l : List ℤ} (hl : IsPM l) (h0 : 0 < l.length) :
    (at0 l 0 = -1 ∧ val l < 0) ∨ (at0 l 0 = 1 ∧ 0 < val l) := by
  cases l with
  | nil => simp at h0
  | cons x l =>
    have hb := val_bound (l := l) fun y hy => hl y (List.mem_cons_of_mem _ hy)
    have e : at0 (x :: l) 0 = x := rfl
    have hp : (0 : ℤ) < 3 ^ l.length := by positivity
    rw [e, val]
    rcases hl x List.mem_cons_self with rfl | rfl
    · right; exact ⟨rfl, by linarith⟩
    · left; exact ⟨rfl, by linarith⟩

/-! ## Values of quadruples -/

/-- The value of one sequence of a quadruple. -/
def qv (s : QuadSeq) (t : Tag) : ℤ := val (s.sequence t)

section pm
variable {n : ℕ} {s t : QuadSeq}

theorem pm_seq (hs : PMQuad n s) (tg : Tag) : PMSeq n (s.sequence tg) := by
  cases tg
  · exact hs.a
  · exact hs.b
  · exact hs.c
  · exact hs.d

theorem pm_of_seq (h : s.size = n) (H : ∀ tg, PMSeq n (s.sequence tg)) : PMQuad n s :=
  ⟨h, H .W, H .X, H .Y, H .Z⟩

theorem pm_len (hs : PMQuad n s) : Len n s := fun tg => (pm_seq hs tg).1

theorem qv_eq (hs : PMQuad n s) (ht : PMQuad n t) (p q : Tag) : s.sequence p = t.sequence q ↔ qv s p = qv t q := by
  constructor
  · intro h; unfold qv; rw [h]
  · exact val_inj (pm_seq hs p).2 (pm_seq ht q).2 (by rw [(pm_seq hs p).1, (pm_seq ht q).1])

theorem qv_lt (hs : PMQuad n s) (ht : PMQuad n t) (p q : Tag) : s.sequence p < t.sequence q ↔ qv s p < qv t q :=
  val_lt (pm_seq hs p).2 (pm_seq ht q).2 (by rw [(pm_seq hs p).1, (pm_seq ht q).1])

theorem qv_slt (hs : PMQuad n s) (p q : Tag) :
    seqLessThan (s.sequence p) (s.sequence q) = true ↔ qv s p < qv s q := by
  rw [seqLessThan_iff (by rw [(pm_seq hs p).1, (pm_seq hs q).1]), qv_lt hs hs]

theorem qv_head (h0 : 0 < n) (hs : PMQuad n s) (p : Tag) :
    (at0 (s.sequence p) 0 = -1 ∧ qv s p < 0) ∨ (at0 (s.sequence p) 0 = 1 ∧ 0 < qv s p) :=
  val_head (pm_seq hs p).2 (by rw [(pm_seq hs p).1]; exact h0)

/-- Lexicographic order on four values. -/
def Lex4 (u v : Tag → ℤ) : Prop :=
  u .W < v .W ∨ u .W = v .W ∧ (u .X < v .X ∨ u .X = v .X ∧ (u .Y < v .Y ∨ u .Y = v .Y ∧ u .Z < v .Z))

theorem flat_lt_iff (hs : PMQuad n s) (ht : PMQuad n t) : flat s < flat t ↔ Lex4 (qv s) (qv t) := by
  rw [flat_lt (pm_len hs) (pm_len ht)]
  have l := fun p => qv_lt hs ht p p
  have e := fun p => qv_eq hs ht p p
  have l1 := l .W
  have l2 := l .X
  have l3 := l .Y
  have l4 := l .Z
  have e1 := e .W
  have e2 := e .X
  have e3 := e .Y
  simp only [QuadSeq.sequence] at l1 l2 l3 l4 e1 e2 e3
  unfold Lex4
  rw [l1, l2, l3, l4, e1, e2, e3]

theorem qv_ext (hs : PMQuad n s) (ht : PMQuad n t) (h : ∀ p, qv s p = qv t p) : s = t :=
  quad_ext (hs.size.trans ht.size.symm) fun p => (qv_eq hs ht p p).2 (h p)

theorem pm_neg (hs : PMQuad n s) (t₀ : Tag) : PMQuad n (s.setSequence (negated (s.sequence t₀)) t₀) :=
  pm_of_seq (by rw [size_setSequence, hs.size]) fun tg => by
    rw [seq_setSequence]; split
    · exact ⟨by rw [negated_length, (pm_seq hs t₀).1], pm_negated (pm_seq hs t₀).2⟩
    · exact pm_seq hs tg

theorem qv_neg (hs : PMQuad n s) (t₀ p : Tag) :
    qv (s.setSequence (negated (s.sequence t₀)) t₀) p = if p = t₀ then -qv s p else qv s p := by
  unfold qv
  rw [seq_setSequence]
  split
  · next h => subst h; exact val_negated (pm_seq hs _).2
  · rfl

theorem pm_swap (hs : PMQuad n s) {c : Tag × Tag} (hc : c.1 ≠ c.2) : PMQuad n (swapTags s c) :=
  pm_of_seq (by rw [swapTags_size, hs.size]) fun tg => by rw [swapTags_seq s hc]; exact pm_seq hs _

theorem qv_swap {c : Tag × Tag} (hc : c.1 ≠ c.2) (p : Tag) : qv (swapTags s c) p = qv s (Equiv.swap c.1 c.2 p) := by
  unfold qv; rw [swapTags_seq s hc]

end pm

end Proofs
