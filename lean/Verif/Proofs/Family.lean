import Verif.Spec.Equivalence
import Verif.Model.FindUnique
import Verif.Proofs.Basic
import Mathlib.Data.ZMod.Units
import Mathlib.Tactic.FinCases
import Mathlib.Data.Fintype.Basic

/-!
# Quadruples as families of functions: what each equivalence operation does
-/

set_option linter.unusedSectionVars false
set_option linter.unusedVariables false
set_option linter.unusedSimpArgs false

namespace Proofs
open Model Spec

variable {n : ℕ} [NeZero n]

theorem tab_length (m : ℕ) (f : ℕ → ℤ) : (tab m f).length = m := by simp [tab]

theorem at0_tab {m : ℕ} (f : ℕ → ℤ) {i : ℕ} (h : i < m) : at0 (tab m f) i = f i := by
  simp [at0, tab, List.getD_eq_getElem, h]

theorem list_ext_at0 {l m : List ℤ} (h : l.length = m.length) (H : ∀ i < l.length, at0 l i = at0 m i) :
    l = m := by
  refine List.ext_getElem h fun i h1 h2 => ?_
  have := H i h1
  unfold at0 at this
  rwa [List.getD_eq_getElem _ _ h1, List.getD_eq_getElem _ _ h2] at this

theorem mem_tab {m : ℕ} {f : ℕ → ℤ} {x : ℤ} : x ∈ tab m f ↔ ∃ i < m, f i = x := by
  simp [tab]

theorem cyc_tab (F : ℕ → ℤ) (i : ZMod n) : cyc n (tab n F) i = F i.val := at0_tab F (ZMod.val_lt i)

theorem at0_mem {l : List ℤ} {i : ℕ} (h : i < l.length) : at0 l i ∈ l := by
  unfold at0; rw [List.getD_eq_getElem _ _ h]; exact List.getElem_mem h

theorem tag_cases {P : Tag → Prop} (hw : P .W) (hx : P .X) (hy : P .Y) (hz : P .Z) (t : Tag) : P t := by
  cases t <;> assumption

theorem fam_apply (s : QuadSeq) (t : Tag) : fam n s t = cyc n (s.sequence t) := by cases t <;> rfl

/-- Well-formed quadruple with entries on which 8-bit negation is exact. -/
structure Wf (n : ℕ) (s : QuadSeq) : Prop where
  size : s.size = n
  len : ∀ t, (s.sequence t).length = n
  bd : ∀ t, ∀ x ∈ s.sequence t, -127 ≤ x ∧ x ≤ 127

/-- Bounded family. -/
def Bd (f : Fam n) : Prop := ∀ t i, -127 ≤ f t i ∧ f t i ≤ 127

/-- The quadruple storing a family. -/
def ofFam (n : ℕ) (f : Fam n) : QuadSeq :=
  { size := n, a := tab n fun i => f .W i, b := tab n fun i => f .X i, c := tab n fun i => f .Y i,
    d := tab n fun i => f .Z i }

theorem ofFam_seq (f : Fam n) (t : Tag) : (ofFam n f).sequence t = tab n fun i => f t i := by
  cases t <;> rfl

theorem fam_ofFam (f : Fam n) : fam n (ofFam n f) = f := by
  funext t i
  rw [fam_apply, ofFam_seq, cyc_tab]
  simp

theorem quad_ext {s t : QuadSeq} (h : s.size = t.size) (H : ∀ tg, s.sequence tg = t.sequence tg) : s = t := by
  have hw := H .W; have hx := H .X; have hy := H .Y; have hz := H .Z
  cases s; cases t
  simp only [QuadSeq.sequence] at hw hx hy hz h
  subst h hw hx hy hz; rfl

theorem ofFam_fam {s : QuadSeq} (h : Wf n s) : ofFam n (fam n s) = s := by
  refine quad_ext h.size.symm fun t => ?_
  rw [ofFam_seq]
  refine list_ext_at0 (by rw [tab_length, h.len]) fun i hi => ?_
  rw [tab_length] at hi
  rw [at0_tab _ hi, fam_apply, cyc_natCast_lt _ hi]

theorem wf_ofFam {f : Fam n} (h : Bd f) : Wf n (ofFam n f) where
  size := rfl
  len := fun t => by rw [ofFam_seq, tab_length]
  bd := fun t x hx => by
    rw [ofFam_seq, mem_tab] at hx
    obtain ⟨i, _, rfl⟩ := hx
    exact h t i

theorem bd_fam {s : QuadSeq} (h : Wf n s) : Bd (fam n s) := by
  intro t i
  rw [fam_apply]
  exact h.bd t _ (at0_mem (by rw [h.len]; exact ZMod.val_lt i))

theorem fam_inj {s t : QuadSeq} (hs : Wf n s) (ht : Wf n t) (h : fam n s = fam n t) : s = t := by
  rw [← ofFam_fam hs, h, ofFam_fam ht]

theorem ofFam_inj {f g : Fam n} (h : ofFam n f = ofFam n g) : f = g := by
  rw [← fam_ofFam f, h, fam_ofFam]

theorem neg8_bd {x : ℤ} (h1 : -127 ≤ x) (h2 : x ≤ 127) : neg8 x = -x := by
  unfold neg8 wrap8
  rw [Int.bmod_eq_of_le] <;> omega

theorem PMQuad.wf {s : QuadSeq} (h : PMQuad n s) : Wf n s where
  size := h.size
  len := fun t => by cases t <;> simp [QuadSeq.sequence, h.a.1, h.b.1, h.c.1, h.d.1]
  bd := fun t x hx => by
    have : x = 1 ∨ x = -1 := by
      cases t
      · exact h.a.2 x hx
      · exact h.b.2 x hx
      · exact h.c.2 x hx
      · exact h.d.2 x hx
    omega

/-- ±1 family. -/
def PMFam (f : Fam n) : Prop := ∀ t i, f t i = 1 ∨ f t i = -1

theorem pmfam_fam {s : QuadSeq} (h : PMQuad n s) : PMFam (fam n s) := by
  intro t
  cases t
  · exact cyc_pm h.a
  · exact cyc_pm h.b
  · exact cyc_pm h.c
  · exact cyc_pm h.d

theorem PMFam.bd {f : Fam n} (h : PMFam f) : Bd f := by
  intro t i
  have := h t i
  omega

theorem pmquad_ofFam {f : Fam n} (h : PMFam f) : PMQuad n (ofFam n f) := by
  refine ⟨rfl, ?_, ?_, ?_, ?_⟩ <;> refine ⟨tab_length _ _, fun x hx => ?_⟩ <;> rw [ofFam] at hx <;>
    rw [mem_tab] at hx <;> obtain ⟨i, _, rfl⟩ := hx <;> exact h _ _

theorem pmquad_iff {s : QuadSeq} : PMQuad n s ↔ Wf n s ∧ PMFam (fam n s) := by
  constructor
  · intro h; exact ⟨PMQuad.wf h, pmfam_fam h⟩
  · rintro ⟨h1, h2⟩
    rw [← ofFam_fam h1]
    exact pmquad_ofFam h2

/-! ## Elementary transformations of lists -/

theorem cyc_negated {l : List ℤ} (hl : l.length = n) (hb : ∀ x ∈ l, -127 ≤ x ∧ x ≤ 127) (i : ZMod n) :
    cyc n (negated l) i = -cyc n l i := by
  unfold negated
  rw [hl, cyc_tab]
  have := hb _ (at0_mem (l := l) (i := i.val) (by rw [hl]; exact ZMod.val_lt i))
  rw [neg8_bd this.1 this.2]; rfl

theorem cyc_shiftBy (l : List ℤ) (o : ℕ) (i : ZMod n) : cyc n (shiftBy n l o) i = cyc n l (i + o) := by
  unfold shiftBy
  rw [cyc_tab, ← cyc_natCast]
  simp

theorem cyc_halfShift {l : List ℤ} (hl : l.length = n) (i : ZMod n) :
    cyc n (halfShift l) i = cyc n l (i + (n / 2 : ℕ)) := by
  unfold halfShift
  rw [hl, cyc_tab, ← cyc_natCast]
  simp

theorem cyc_permute {l : List ℤ} (hl : l.length = n) (k : ℕ) (i : ZMod n) :
    cyc n (permute l k) i = cyc n l (k * i) := by
  unfold permute
  rw [hl, cyc_tab, ← cyc_natCast]
  simp [mul_comm]

theorem cyc_altNegated {l : List ℤ} (hl : l.length = n) (hb : ∀ x ∈ l, -127 ≤ x ∧ x ≤ 127) (i : ZMod n) :
    cyc n (altNegated l 2) i = (-1) ^ i.val * cyc n l i := by
  unfold altNegated
  rw [hl, cyc_tab]
  have := hb _ (at0_mem (l := l) (i := i.val) (by rw [hl]; exact ZMod.val_lt i))
  rw [neg8_bd this.1 this.2]
  rcases Nat.mod_two_eq_zero_or_one i.val with h | h
  · rw [(Nat.even_iff.2 h).neg_one_pow, if_neg (by omega), one_mul]; rfl
  · rw [(Nat.odd_iff.2 h).neg_one_pow, if_pos (by omega)]; unfold cyc at0; ring

theorem cyc_reverse (l : List ℤ) (i : ZMod n) :
    cyc n (tab n fun j => at0 l (n - 1 - j)) i = cyc n l (-i - 1) := by
  have h0 := npos (n := n)
  have hi := ZMod.val_lt i
  rw [cyc_tab, ← cyc_natCast_lt l (by omega : n - 1 - i.val < n)]
  congr 1
  rw [Nat.cast_sub (by omega), Nat.cast_sub (by omega)]
  simp; ring

/-! ## Bridging single steps -/

theorem seq_setSequence (s : QuadSeq) (l : List ℤ) (t₀ t : Tag) :
    (s.setSequence l t₀).sequence t = if t = t₀ then l else s.sequence t := by
  cases t₀ <;> cases t <;> simp [QuadSeq.setSequence, QuadSeq.sequence]

theorem size_setSequence (s : QuadSeq) (l : List ℤ) (t₀ : Tag) : (s.setSequence l t₀).size = s.size := by
  cases t₀ <;> rfl

theorem eq_ofFam {s : QuadSeq} {f : Fam n} (hs : s.size = n) (hl : ∀ t, (s.sequence t).length = n)
    (h : ∀ t i, cyc n (s.sequence t) i = f t i) : s = ofFam n f := by
  refine quad_ext hs fun t => ?_
  rw [ofFam_seq]
  refine list_ext_at0 (by rw [tab_length, hl]) fun i hi => ?_
  rw [hl] at hi
  rw [at0_tab _ hi, ← h, cyc_natCast_lt _ hi]

theorem negated_length (l : List ℤ) : (negated l).length = l.length := tab_length _ _

theorem setNeg_eq {s : QuadSeq} (h : Wf n s) (t₀ : Tag) :
    s.setSequence (negated (s.sequence t₀)) t₀ = ofFam n (negAt t₀ (fam n s)) := by
  refine eq_ofFam (by rw [size_setSequence, h.size]) (fun t => ?_) fun t i => ?_
  · rw [seq_setSequence]; split
    · rw [negated_length, h.len]
    · exact h.len t
  · rw [seq_setSequence]
    unfold negAt
    split
    · next e => rw [cyc_negated (h.len t₀) (h.bd t₀), e, fam_apply]
    · rw [fam_apply]

theorem swapTags_seq (s : QuadSeq) {c : Tag × Tag} (hc : c.1 ≠ c.2) (t : Tag) :
    (swapTags s c).sequence t = s.sequence (Equiv.swap c.1 c.2 t) := by
  unfold swapTags
  rw [seq_setSequence, seq_setSequence]
  by_cases h2 : t = c.2
  · rw [if_pos h2, h2, Equiv.swap_apply_right]
  · rw [if_neg h2]
    by_cases h1 : t = c.1
    · rw [if_pos h1, h1, Equiv.swap_apply_left]
    · rw [if_neg h1, Equiv.swap_apply_of_ne_of_ne h1 h2]

theorem swapTags_size (s : QuadSeq) (c : Tag × Tag) : (swapTags s c).size = s.size := by
  unfold swapTags; rw [size_setSequence, size_setSequence]

theorem swapTags_eq {s : QuadSeq} (h : Wf n s) {c : Tag × Tag} (hc : c.1 ≠ c.2) :
    swapTags s c = ofFam n (swapFam c.1 c.2 (fam n s)) := by
  refine eq_ofFam (by rw [swapTags_size, h.size]) (fun t => ?_) fun t i => ?_
  · rw [swapTags_seq s hc, h.len]
  · rw [swapTags_seq s hc]; unfold swapFam; rw [fam_apply]

theorem halfShiftTag_eq {s : QuadSeq} (h : Wf n s) (t₀ : Tag) :
    halfShiftTag s t₀ = ofFam n (halfAt (fun t => decide (t = t₀)) (fam n s)) := by
  unfold halfShiftTag
  refine eq_ofFam (by rw [size_setSequence, h.size]) (fun t => ?_) fun t i => ?_
  · rw [seq_setSequence]; split
    · rw [shiftBy, tab_length, h.size]
    · exact h.len t
  · rw [seq_setSequence]
    unfold halfAt
    by_cases e : t = t₀
    · rw [if_pos e, h.size, cyc_shiftBy, e, fam_apply]; simp
    · rw [if_neg e, fam_apply]; simp [e]

theorem mapAll_seq (s : QuadSeq) (F : List ℤ → List ℤ) (t : Tag) :
    (mapAll s F).sequence t = F (s.sequence t) := by cases t <;> rfl

theorem mapAll_eq {s : QuadSeq} (h : Wf n s) {F : List ℤ → List ℤ} {f : Fam n}
    (hl : ∀ t, (F (s.sequence t)).length = n) (H : ∀ t i, cyc n (F (s.sequence t)) i = f t i) :
    mapAll s F = ofFam n f := by
  refine eq_ofFam (by simp [mapAll, QuadSeq.setAllValues, QuadSeq.new, h.size]) (fun t => ?_) fun t i => ?_
  · rw [mapAll_seq]; exact hl t
  · rw [mapAll_seq]; exact H t i

theorem bd_negAt {f : Fam n} (h : Bd f) (t₀ : Tag) : Bd (negAt t₀ f) := by
  intro t i
  unfold negAt
  have := h t i
  split <;> omega

theorem bd_swapFam {f : Fam n} (h : Bd f) (t₁ t₂ : Tag) : Bd (swapFam t₁ t₂ f) := fun t i => h _ i

theorem bd_shiftAll {f : Fam n} (h : Bd f) (o : ZMod n) : Bd (shiftAll o f) := fun t i => h t _

theorem bd_autAll {f : Fam n} (h : Bd f) (u : (ZMod n)ˣ) : Bd (autAll u f) := fun t i => h t _

theorem bd_altAll {f : Fam n} (h : Bd f) : Bd (altAll f) := by
  intro t i
  unfold altAll
  have := h t i
  rcases neg_one_pow_eq_or ℤ i.val with e | e <;> rw [e] <;> omega

theorem bd_halfAt {f : Fam n} (h : Bd f) (p : Tag → Bool) : Bd (halfAt p f) := by
  intro t i
  unfold halfAt
  split <;> exact h t _

/-! ## The operations as relations -/

/-- `op` returns the input together with the images under `R`. -/
def OpIs (n : ℕ) (op : Op) (R : Fam n → Fam n → Prop) : Prop :=
  ∀ s, Wf n s → ∀ t, t ∈ op s ↔ (t = s ∨ ∃ g, R (fam n s) g ∧ t = ofFam n g)

theorem mem_tags (t : Tag) : t ∈ tags := by cases t <;> decide

theorem couples_ne {c : Tag × Tag} (h : c ∈ couples) : c.1 ≠ c.2 := by
  simp only [couples, List.mem_cons, List.not_mem_nil, or_false] at h
  rcases h with rfl | rfl | rfl | rfl | rfl | rfl <;> decide

theorem couples_mem {t₁ t₂ : Tag} (h : t₁ ≠ t₂) : (t₁, t₂) ∈ couples ∨ (t₂, t₁) ∈ couples := by
  cases t₁ <;> cases t₂ <;> first | exact absurd rfl h | decide

theorem swapFam_comm (t₁ t₂ : Tag) (f : Fam n) : swapFam t₁ t₂ f = swapFam t₂ t₁ f := by
  unfold swapFam; rw [Equiv.swap_comm]

theorem negateSwap_is : OpIs n equivalentNegateSwap NSMove := by
  intro s hs t
  have key : ∀ t₀, ∀ c ∈ couples, swapTags (s.setSequence (negated (s.sequence t₀)) t₀) c =
      ofFam n (swapFam c.1 c.2 (negAt t₀ (fam n s))) := by
    intro t₀ c hc
    rw [setNeg_eq hs, swapTags_eq (wf_ofFam (bd_negAt (bd_fam hs) _)) (couples_ne hc), fam_ofFam]
  unfold equivalentNegateSwap
  rw [List.mem_cons, List.mem_flatMap]
  refine or_congr Iff.rfl ⟨?_, ?_⟩
  · rintro ⟨c, hc, hm⟩
    rw [List.mem_map] at hm
    obtain ⟨t₀, _, rfl⟩ := hm
    exact ⟨_, ⟨t₀, c.1, c.2, couples_ne hc⟩, key t₀ c hc⟩
  · rintro ⟨g, ⟨t₀, t₁, t₂, h⟩, rfl⟩
    rcases couples_mem h with hc | hc
    · exact ⟨_, hc, List.mem_map.2 ⟨t₀, mem_tags _, key t₀ _ hc⟩⟩
    · exact ⟨_, hc, List.mem_map.2 ⟨t₀, mem_tags _, by rw [key t₀ _ hc, swapFam_comm]⟩⟩

theorem reorder_is : OpIs n equivalentReorder fun f g => ∃ t₁ t₂, t₁ ≠ t₂ ∧ g = swapFam t₁ t₂ f := by
  intro s hs t
  unfold equivalentReorder
  rw [List.mem_cons, List.mem_map]
  refine or_congr Iff.rfl ⟨?_, ?_⟩
  · rintro ⟨c, hc, rfl⟩
    exact ⟨_, ⟨c.1, c.2, couples_ne hc, rfl⟩, swapTags_eq hs (couples_ne hc)⟩
  · rintro ⟨g, ⟨t₁, t₂, h, rfl⟩, rfl⟩
    rcases couples_mem h with hc | hc
    · exact ⟨_, hc, swapTags_eq hs h⟩
    · exact ⟨_, hc, by rw [swapTags_eq hs (couples_ne hc), swapFam_comm]⟩

theorem doubleReorder_is : OpIs n equivalentDoubleReorder
    fun f g => ∃ t₁ t₂ t₃ t₄, t₁ ≠ t₂ ∧ t₃ ≠ t₄ ∧ g = swapFam t₃ t₄ (swapFam t₁ t₂ f) := by
  intro s hs t
  have key : ∀ c1 ∈ couples, ∀ c2 ∈ couples, swapTags (swapTags s c1) c2 =
      ofFam n (swapFam c2.1 c2.2 (swapFam c1.1 c1.2 (fam n s))) := by
    intro c1 h1 c2 h2
    rw [swapTags_eq hs (couples_ne h1), swapTags_eq (wf_ofFam (bd_swapFam (bd_fam hs) _ _)) (couples_ne h2),
      fam_ofFam]
  have dup : ∀ c1 : Tag × Tag, swapFam c1.1 c1.2 (swapFam c1.1 c1.2 (fam n s)) = fam n s := by
    intro c1; funext t; simp [swapFam]
  have key2 : ∀ c1 ∈ couples, ∀ c2 ∈ couples,
      (if ¬ (c1.1 = c2.1 ∧ c1.2 = c2.2) then swapTags (swapTags s c1) c2 else s) =
      ofFam n (swapFam c2.1 c2.2 (swapFam c1.1 c1.2 (fam n s))) := by
    intro c1 h1 c2 h2
    split
    · exact key c1 h1 c2 h2
    · next h =>
      rw [not_not] at h
      rw [← h.1, ← h.2, dup, ofFam_fam hs]
  unfold equivalentDoubleReorder
  rw [List.mem_cons, List.mem_flatMap]
  refine or_congr Iff.rfl ⟨?_, ?_⟩
  · rintro ⟨c1, h1, hm⟩
    rw [List.mem_map] at hm
    obtain ⟨c2, h2, rfl⟩ := hm
    exact ⟨_, ⟨_, _, _, _, couples_ne h1, couples_ne h2, rfl⟩, key2 c1 h1 c2 h2⟩
  · rintro ⟨g, ⟨t₁, t₂, t₃, t₄, h, h', rfl⟩, rfl⟩
    have : ∃ c1 ∈ couples, ∀ f : Fam n, swapFam c1.1 c1.2 f = swapFam t₁ t₂ f := by
      rcases couples_mem h with hc | hc
      · exact ⟨_, hc, fun f => rfl⟩
      · exact ⟨_, hc, fun f => swapFam_comm _ _ f⟩
    have h2 : ∃ c1 ∈ couples, ∀ f : Fam n, swapFam c1.1 c1.2 f = swapFam t₃ t₄ f := by
      rcases couples_mem h' with hc | hc
      · exact ⟨_, hc, fun f => rfl⟩
      · exact ⟨_, hc, fun f => swapFam_comm _ _ f⟩
    obtain ⟨c1, h1, e1⟩ := this
    obtain ⟨c2, h2, e2⟩ := h2
    exact ⟨c1, h1, List.mem_map.2 ⟨c2, h2, by rw [key2 c1 h1 c2 h2, e1, e2]⟩⟩

theorem uniformShift_is : OpIs n equivalentUniformShift ShiftMove := by
  intro s hs t
  have key : ∀ o : ℕ, mapAll s (fun l => shiftBy s.size l o) = ofFam n (shiftAll (o : ZMod n) (fam n s)) := by
    intro o
    refine mapAll_eq hs (fun t => by rw [shiftBy, tab_length, hs.size]) fun t i => ?_
    rw [hs.size, cyc_shiftBy, shiftAll, fam_apply]
  unfold equivalentUniformShift
  rw [List.mem_cons, List.mem_map]
  constructor
  · rintro (h | ⟨o, _, rfl⟩)
    · exact .inl h
    · exact .inr ⟨_, ⟨(o : ZMod n)⟩, key o⟩
  · rintro (h | ⟨g, ⟨o⟩, rfl⟩)
    · exact .inl h
    · by_cases h0 : o = 0
      · left
        have : shiftAll o (fam n s) = fam n s := by funext t i; simp [shiftAll, h0]
        rw [this, ofFam_fam hs]
      · right
        refine ⟨o.val, ?_, ?_⟩
        · rw [List.mem_range'_1, hs.size]
          have := ZMod.val_lt o
          have : o.val ≠ 0 := by rwa [Ne, ZMod.val_eq_zero]
          omega
        · rw [key]; simp

theorem even_iff_mod : Even n ↔ ¬ n % 2 = 1 := by rw [Nat.even_iff]; omega

theorem mem_halfShift (s : QuadSeq) (hs : Wf n s) (t : QuadSeq) :
    t ∈ (if s.size % 2 = 1 then [s] else s :: tags.map fun t => halfShiftTag s t) ↔
      (t = s ∨ ∃ g, SingleMove (fam n s) g ∧ t = ofFam n g) := by
  rw [hs.size]
  by_cases h : n % 2 = 1
  · rw [if_pos h, List.mem_singleton]
    refine ⟨.inl, ?_⟩
    rintro (h' | ⟨g, ⟨he, _⟩, _⟩)
    · exact h'
    · exact absurd h (even_iff_mod.1 he)
  · rw [if_neg h, List.mem_cons, List.mem_map]
    refine or_congr Iff.rfl ⟨?_, ?_⟩
    · rintro ⟨t₀, _, rfl⟩
      exact ⟨_, ⟨even_iff_mod.2 h, t₀⟩, halfShiftTag_eq hs t₀⟩
    · rintro ⟨g, ⟨he, t₀⟩, rfl⟩
      exact ⟨t₀, mem_tags _, halfShiftTag_eq hs t₀⟩

theorem uniformHalfShift_is : OpIs n equivalentUniformHalfShift SingleMove := mem_halfShift

theorem singleHalfShift_is : OpIs n equivalentSingleHalfShift SingleMove := mem_halfShift

theorem dualHalfShift_is : OpIs n equivalentDualHalfShift DualMove := by
  intro s hs t
  have key : ∀ c ∈ couples, halfShiftTag (halfShiftTag s c.1) c.2 =
      ofFam n (halfAt (fun t => decide (t = c.1 ∨ t = c.2)) (fam n s)) := by
    intro c hc
    rw [halfShiftTag_eq hs, halfShiftTag_eq (wf_ofFam (bd_halfAt (bd_fam hs) _)), fam_ofFam]
    congr 1
    funext t i
    have := couples_ne hc
    unfold halfAt
    by_cases h1 : t = c.1 <;> by_cases h2 : t = c.2 <;> simp [h1, h2]
    · exact absurd (h1.symm.trans h2) this
    · intro h; exact absurd h this
    · intro h; exact absurd h.symm this
  have key4 : tags.foldl (fun r t => r.setSequence (shiftBy s.size (s.sequence t) (s.size / 2)) t) s =
      ofFam n (halfAt (fun _ => true) (fam n s)) := by
    have hq : ∀ tg, (tags.foldl (fun r t => r.setSequence (shiftBy s.size (s.sequence t) (s.size / 2)) t)
        s).sequence tg = shiftBy n (s.sequence tg) (n / 2) := by
      intro tg
      simp only [tags, List.foldl, seq_setSequence, hs.size]
      cases tg <;> simp
    refine eq_ofFam ?_ (fun tg => ?_) fun tg i => ?_
    · simp only [tags, List.foldl, size_setSequence, hs.size]
    · rw [hq, shiftBy, tab_length]
    · rw [hq, cyc_shiftBy]; simp [halfAt, fam_apply]
  unfold equivalentDualHalfShift
  rw [hs.size] at *
  by_cases h : n % 2 = 1
  · rw [if_pos h, List.mem_singleton]
    refine ⟨.inl, ?_⟩
    rintro (h' | ⟨g, hg, _⟩)
    · exact h'
    · cases hg with
      | two he => exact absurd h (even_iff_mod.1 he)
      | four he => exact absurd h (even_iff_mod.1 he)
  · rw [if_neg h, List.mem_cons, List.mem_append, List.mem_map, List.mem_singleton]
    refine or_congr Iff.rfl ⟨?_, ?_⟩
    · rintro (⟨c, hc, rfl⟩ | rfl)
      · exact ⟨_, .two (even_iff_mod.2 h) c.1 c.2 (couples_ne hc), key c hc⟩
      · exact ⟨_, .four (even_iff_mod.2 h), key4⟩
    · rintro ⟨g, hg, rfl⟩
      cases hg with
      | two he t₁ t₂ h12 =>
        left
        rcases couples_mem h12 with hc | hc
        · exact ⟨_, hc, key _ hc⟩
        · refine ⟨_, hc, ?_⟩
          rw [key _ hc]
          congr 2
          funext t
          exact decide_eq_decide.2 or_comm
      | four he => exact .inr key4.symm

theorem reverse_is : OpIs n equivalentReverse fun f g => g = fun t i => f t (-i - 1) := by
  intro s hs t
  unfold equivalentReverse
  have key : mapAll s (fun l => tab s.size fun i => at0 l (s.size - 1 - i)) =
      ofFam n (fun t i => fam n s t (-i - 1)) := by
    refine mapAll_eq hs (fun t => by rw [tab_length, hs.size]) fun t i => ?_
    rw [hs.size, cyc_reverse, fam_apply]
  simp only [List.mem_cons, List.not_mem_nil, or_false]
  refine or_congr Iff.rfl ⟨?_, ?_⟩
  · rintro rfl; exact ⟨_, rfl, key⟩
  · rintro ⟨g, rfl, rfl⟩; exact key.symm

theorem negate_is : OpIs n equivalentNegate fun f g => ∃ t₀, g = negAt t₀ f := by
  intro s hs t
  have key : ∀ t₀, (QuadSeq.new s.size).setAllValues
    (if t₀ = .W then negated s.a else s.a) (if t₀ = .X then negated s.b else s.b)
    (if t₀ = .Y then negated s.c else s.c) (if t₀ = .Z then negated s.d else s.d) =
      ofFam n (negAt t₀ (fam n s)) := by
    intro t₀
    rw [← setNeg_eq hs]
    refine quad_ext (by simp [QuadSeq.setAllValues, QuadSeq.new, size_setSequence]) fun tg => ?_
    rw [seq_setSequence]
    cases tg <;> cases t₀ <;> simp [QuadSeq.setAllValues, QuadSeq.sequence]
  unfold equivalentNegate
  rw [List.mem_cons, List.mem_map]
  refine or_congr Iff.rfl ⟨?_, ?_⟩
  · rintro ⟨t₀, _, rfl⟩; exact ⟨_, ⟨t₀, rfl⟩, key t₀⟩
  · rintro ⟨g, ⟨t₀, rfl⟩, rfl⟩; exact ⟨t₀, mem_tags _, key t₀⟩

theorem negAt_comm (t₁ t₂ : Tag) (f : Fam n) : negAt t₁ (negAt t₂ f) = negAt t₂ (negAt t₁ f) := by
  funext t i; unfold negAt; split <;> split <;> rfl

theorem doubleNegate_is : OpIs n equivalentDoubleNegate
    fun f g => ∃ t₁ t₂, t₁ ≠ t₂ ∧ g = negAt t₂ (negAt t₁ f) := by
  intro s hs t
  have key : ∀ c ∈ couples, (QuadSeq.new s.size).setAllValues
    (if c.1 = .W ∨ c.2 = .W then negated s.a else s.a) (if c.1 = .X ∨ c.2 = .X then negated s.b else s.b)
    (if c.1 = .Y ∨ c.2 = .Y then negated s.c else s.c) (if c.1 = .Z ∨ c.2 = .Z then negated s.d else s.d) =
      ofFam n (negAt c.2 (negAt c.1 (fam n s))) := by
    intro c hc
    have e := setNeg_eq (wf_ofFam (bd_negAt (bd_fam hs) c.1)) c.2
    rw [fam_ofFam, ← setNeg_eq hs] at e
    rw [← e]
    refine quad_ext (by simp [QuadSeq.setAllValues, QuadSeq.new, size_setSequence]) fun tg => ?_
    rw [seq_setSequence, seq_setSequence, seq_setSequence]
    simp only [couples, List.mem_cons, List.not_mem_nil, or_false] at hc
    rcases hc with rfl | rfl | rfl | rfl | rfl | rfl <;>
      cases tg <;> simp [QuadSeq.setAllValues, QuadSeq.sequence]
  unfold equivalentDoubleNegate
  rw [List.mem_cons, List.mem_map]
  refine or_congr Iff.rfl ⟨?_, ?_⟩
  · rintro ⟨c, hc, rfl⟩; exact ⟨_, ⟨_, _, couples_ne hc, rfl⟩, key c hc⟩
  · rintro ⟨g, ⟨t₁, t₂, h, rfl⟩, rfl⟩
    rcases couples_mem h with hc | hc
    · exact ⟨_, hc, key _ hc⟩
    · exact ⟨_, hc, by rw [key _ hc, negAt_comm]⟩

theorem alt_key {s : QuadSeq} (hs : Wf n s) : mapAll s (fun l => altNegated l 2) = ofFam n (altAll (fam n s)) := by
  refine mapAll_eq hs (fun t => by rw [altNegated, tab_length, hs.len]) fun t i => ?_
  rw [cyc_altNegated (hs.len t) (hs.bd t), altAll, fam_apply]

theorem alternatedNegation_is : OpIs n equivalentAlternatedNegation fun f g => g = altAll f := by
  intro s hs t
  unfold equivalentAlternatedNegation
  simp only [List.mem_cons, List.not_mem_nil, or_false]
  refine or_congr Iff.rfl ⟨?_, ?_⟩
  · rintro rfl; exact ⟨_, rfl, alt_key hs⟩
  · rintro ⟨g, rfl, rfl⟩; exact (alt_key hs).symm

theorem evenAlternatedNegation_is : OpIs n equivalentEvenAlternatedNegation
    fun f g => Even n ∧ g = altAll f := by
  intro s hs t
  unfold equivalentEvenAlternatedNegation
  rw [hs.size]
  by_cases h : n % 2 = 1
  · rw [if_pos h, List.mem_singleton]
    refine ⟨.inl, ?_⟩
    rintro (h' | ⟨g, ⟨he, _⟩, _⟩)
    · exact h'
    · exact absurd h (even_iff_mod.1 he)
  · rw [if_neg h]
    simp only [List.mem_cons, List.not_mem_nil, or_false]
    refine or_congr Iff.rfl ⟨?_, ?_⟩
    · rintro rfl; exact ⟨_, ⟨even_iff_mod.2 h, rfl⟩, alt_key hs⟩
    · rintro ⟨g, ⟨_, rfl⟩, rfl⟩; exact (alt_key hs).symm

theorem disjointSwaps_is : OpIs n equivalentDisjointSwaps
    fun f g => g = swapFam .Y .Z (swapFam .W .X f) ∨ g = swapFam .X .Z (swapFam .W .Y f) ∨
      g = swapFam .X .Y (swapFam .W .Z f) := by
  intro s hs t
  have key : ∀ c1 c2 : Tag × Tag, c1.1 ≠ c1.2 → c2.1 ≠ c2.2 → swapTags (swapTags s c1) c2 =
      ofFam n (swapFam c2.1 c2.2 (swapFam c1.1 c1.2 (fam n s))) := by
    intro c1 c2 h1 h2
    rw [swapTags_eq hs h1, swapTags_eq (wf_ofFam (bd_swapFam (bd_fam hs) _ _)) h2, fam_ofFam]
  unfold equivalentDisjointSwaps
  simp only [List.mem_cons, List.not_mem_nil, or_false]
  rw [key _ _ (by decide) (by decide), key _ _ (by decide) (by decide), key _ _ (by decide) (by decide)]
  refine or_congr Iff.rfl ⟨?_, ?_⟩
  · rintro (rfl | rfl | rfl)
    · exact ⟨_, .inl rfl, rfl⟩
    · exact ⟨_, .inr (.inl rfl), rfl⟩
    · exact ⟨_, .inr (.inr rfl), rfl⟩
  · rintro ⟨g, rfl | rfl | rfl, rfl⟩
    · exact .inl rfl
    · exact .inr (.inl rfl)
    · exact .inr (.inr rfl)

end Proofs
