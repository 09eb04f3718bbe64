import Verif.Proofs.CheckedMat

/-!
# The labels of the symmetry group above length 31

The group is generated on the labels `1, …, 4n` stored in 8 bits. Up to length 63 no label is 0, and every label names one
of the first 128 entries; from length 64 on one label is 0 and names no entry.
-/

set_option linter.unusedSectionVars false
set_option linter.unusedVariables false
set_option linter.unusedSimpArgs false

namespace Proofs.Labels
open Model Spec Proofs Proofs.Check

/-! ## The label table -/

theorem label_all : ∀ n : Fin 64, 32 ≤ (n : ℕ) → ∀ k : Fin 256, (k : ℕ) ≠ 128 →
    labelTag n ((k : ℤ) - 128) < 4 ∧ labelTag n ((k : ℤ) - 128) * n + labelIdx n ((k : ℤ) - 128) < 128 := by decide +kernel

theorem label_lt {n : ℕ} (h1 : 32 ≤ n) (h2 : n ≤ 63) {e : ℤ} (h : e ≠ 0 ∧ -128 ≤ e ∧ e ≤ 127) :
    labelTag n e < 4 ∧ labelTag n e * n + labelIdx n e < 128 := by
  have := label_all ⟨n, by omega⟩ h1 ⟨(e + 128).toNat, by omega⟩ (by simp only; omega)
  simp only at this
  rwa [show (((e + 128).toNat : ℕ) : ℤ) - 128 = e by omega] at this

theorem labelTag_zero : ∀ n : Fin 101, 32 ≤ (n : ℕ) → 4 ≤ labelTag n 0 := by decide +kernel

theorem wrap8_range (x : ℤ) : -128 ≤ wrap8 x ∧ wrap8 x ≤ 127 := by
  unfold wrap8; rw [Int.bmod_def]; omega

theorem wrap8_ne {x : ℕ} (h0 : 0 < x) (h : x < 256) : wrap8 (x : ℤ) ≠ 0 := by
  unfold wrap8; rw [Int.bmod_def]; omega

theorem labelSeq_len (n : ℕ) (t : Tag) : ((labelSeq n).sequence t).length = n := by
  cases t <;> simp [labelSeq, QuadSeq.setAllValues, QuadSeq.sequence, tab_length]

theorem mem_tab {n : ℕ} {f : ℕ → ℤ} {x : ℤ} : x ∈ tab n f ↔ ∃ i < n, f i = x := by
  simp [tab, List.mem_map]

theorem labelSeq_shaped {n : ℕ} (h : n ≤ 63) : Shaped n {x | x ≠ 0 ∧ -128 ≤ x ∧ x ≤ 127} (labelSeq n) := by
  refine ⟨rfl, fun t => ⟨labelSeq_len n t, fun x hx => ?_⟩⟩
  cases t <;>
  · simp only [labelSeq, QuadSeq.setAllValues, QuadSeq.sequence, mem_tab] at hx
    obtain ⟨i, hi, rfl⟩ := hx
    exact ⟨wrap8_ne (by omega) (by omega), wrap8_range _⟩

theorem labelSeq_shaped8 (n : ℕ) : Shaped n {x | -128 ≤ x ∧ x ≤ 127} (labelSeq n) := by
  refine ⟨rfl, fun t => ⟨labelSeq_len n t, fun x hx => ?_⟩⟩
  cases t <;>
  · simp only [labelSeq, QuadSeq.setAllValues, QuadSeq.sequence, mem_tab] at hx
    obtain ⟨i, hi, rfl⟩ := hx
    exact wrap8_range _

theorem zero_label {n : ℕ} (h1 : 64 ≤ n) (h2 : n ≤ 100) : (0 : ℤ) ∈ flat (labelSeq n) := by
  have key : ∀ t, (0 : ℤ) ∈ (labelSeq n).sequence t → (0 : ℤ) ∈ flat (labelSeq n) := by
    intro t h
    cases t <;> simp only [QuadSeq.sequence] at h <;> simp [flat, h]
  by_cases h : 3 * n ≤ 255
  · refine key .Z (mem_tab.2 ⟨255 - 3 * n, by omega, ?_⟩)
    rw [show 255 - 3 * n + 3 * n + 1 = 256 by omega]; decide
  · refine key .Y (mem_tab.2 ⟨255 - 2 * n, by omega, ?_⟩)
    rw [show 255 - 2 * n + 2 * n + 1 = 256 by omega]; decide

/-! ## From length 64 on -/

theorem applyLabel_zero {n : ℕ} (h1 : 64 ≤ n) (h2 : n ≤ 100) {s : QuadSeq} (hs : s.size = n) : applyLabel s 0 = none := by
  have := labelTag_zero ⟨n, by omega⟩ (by simp only; omega)
  simp only at this
  unfold applyLabel
  rw [hs]
  obtain ⟨m, hm⟩ := Nat.exists_eq_add_of_le this
  rw [hm, show 4 + m = m + 4 by omega]
  rfl

theorem mapM_none_of {α β : Type} {f : α → Option β} : ∀ {l : List α} {x : α}, x ∈ l → f x = none → l.mapM f = none
  | [], _, h, _ => absurd h List.not_mem_nil
  | y :: l, x, h, hf => by
    rw [List.mapM_cons]
    rcases List.mem_cons.1 h with rfl | h
    · rw [hf]; rfl
    · rw [mapM_none_of h hf]
      cases f y <;> rfl

theorem fast_none {n : ℕ} (h1 : 64 ≤ n) (h2 : n ≤ 100) {ops : List Op} (hops : ∀ op ∈ ops, op ∈ allOps) {G : List QuadSeq}
    (hG : generateSymmetryGroup n ops = some G) {s : QuadSeq} (hs : s.size = n) : generateEquivalenceClassFast s G = none := by
  obtain ⟨G', hG', _, hGm⟩ := generateEquivalenceClass_i8 (n := n) (by omega) hops (labelSeq_shaped8 n)
  have hG' : generateSymmetryGroup n ops = some G' := hG'
  rw [hG] at hG'
  cases hG'
  unfold generateEquivalenceClassFast
  rw [mapM_none_of ((hGm _).2 .refl)]
  · rfl
  · unfold applySymmetry
    have := mapM_none_of (zero_label h1 h2) (applyLabel_zero h1 h2 hs)
    unfold flat at this
    rw [this]; rfl

theorem reduce_none {n : ℕ} (h1 : 64 ≤ n) (h2 : n ≤ 100) {ty : SeqType} {l : List QuadSeq}
    (hl : ∀ s ∈ l, s.size = n) : reduceToCanonicalReps l ty = none := by
  cases l with
  | nil => rfl
  | cons s l =>
    have hs := hl s List.mem_cons_self
    simp only [reduceToCanonicalReps]
    rw [hs]
    cases hG : generateSymmetryGroup n (canonicalOps ty) with
    | none => rfl
    | some G =>
      rw [Option.bind_some, mapM_none_of (x := s) List.mem_cons_self]
      · rfl
      · have := fast_none h1 h2 (canonicalOps_sub ty) hG hs
        cases ty <;> simp only [qtCanonical, this, Option.bind_none]

/-! ## Lengths 32 to 63 -/

/-- The value `generate_equivalence_class_fast` computes for a label. -/
def valN (n : ℕ) (s : QuadSeq) (e : ℤ) : ℤ :=
  if e < 0 then neg8 (at0 (s.sequence (tagNo (labelTag n e))) (labelIdx n e))
  else at0 (s.sequence (tagNo (labelTag n e))) (labelIdx n e)

section mid
variable {n : ℕ}

theorem applyLabelN (h1 : 32 ≤ n) (h2 : n ≤ 63) {s : QuadSeq} (hs : Wf n s) {e : ℤ} (h : e ≠ 0 ∧ -128 ≤ e ∧ e ≤ 127) :
    applyLabel s e = some (valN n s e) := by
  unfold applyLabel
  rw [hs.size, tagMatch s (label_lt h1 h2 h).1]
  rfl

theorem applySymmetryN (h1 : 32 ≤ n) (h2 : n ≤ 63) {s g : QuadSeq} (hs : Wf n s)
    (hg : Shaped n {x | x ≠ 0 ∧ -128 ≤ x ∧ x ≤ 127} g) :
    applySymmetry s g = some ⟨n, g.a.map (valN n s), g.b.map (valN n s), g.c.map (valN n s), g.d.map (valN n s)⟩ := by
  unfold applySymmetry
  have k1 := (hg.seq .W).1
  have k2 := (hg.seq .X).1
  have k3 := (hg.seq .Y).1
  have k4 := (hg.seq .Z).1
  simp only [QuadSeq.sequence] at k1 k2 k3 k4
  rw [mapM_some (g := valN n s), Option.map_some]
  · refine congrArg some ?_
    simp only [List.map_append, hs.size]
    congr 1
    · rw [List.append_assoc, List.append_assoc, List.take_left' (by simp [k1])]
    · rw [List.append_assoc, List.append_assoc, List.drop_left' (by simp [k1]), List.take_left' (by simp [k2])]
    · rw [List.append_assoc, List.drop_left' (by simp [k1, k2]; omega), List.take_left' (by simp [k3])]
    · rw [List.drop_left' (by simp [k1, k2, k3]; omega), List.take_of_length_le (by simp [k4])]
  · intro x hx
    refine applyLabelN h1 h2 hs ?_
    simp only [List.mem_append] at hx
    rcases hx with ((h | h) | h) | h
    · exact (hg.seq .W).2 x h
    · exact (hg.seq .X).2 x h
    · exact (hg.seq .Y).2 x h
    · exact (hg.seq .Z).2 x h

theorem groupN (h1 : 32 ≤ n) (h2 : n ≤ 63) {ops : List Op} (hops : ∀ op ∈ ops, op ∈ allOps) :
    ∃ G, generateSymmetryGroup n ops = some G ∧ G ≠ [] ∧ ∀ g ∈ G, Shaped n {x | x ≠ 0 ∧ -128 ≤ x ∧ x ≤ 127} g := by
  obtain ⟨G, hG, _, hGm⟩ := generateEquivalenceClass_i8 (n := n) (by omega) hops (labelSeq_shaped8 n)
  refine ⟨G, hG, List.ne_nil_of_mem ((hGm _).2 .refl), fun g hg => ?_⟩
  refine shaped_reach (by omega) ?_ hops (labelSeq_shaped h2) ((hGm g).1 hg)
  rintro x ⟨h0, h1, h2⟩
  have := neg8_range h1 h2
  refine ⟨fun h => h0 ?_, this⟩
  have h' := neg8_neg8 h1 h2
  rw [h] at h'; rw [← h']; decide

theorem valN_pm (h0 : 0 < n) {s : QuadSeq} (hs : PMQuad n s) (e : ℤ) : valN n s e = 1 ∨ valN n s e = -1 := by
  have key : ∀ t i, i < n → at0 (s.sequence t) i = 1 ∨ at0 (s.sequence t) i = -1 := by
    intro t i hi
    cases t
    · exact pmseq_at hs.a hi
    · exact pmseq_at hs.b hi
    · exact pmseq_at hs.c hi
    · exact pmseq_at hs.d hi
  have hi : labelIdx n e < n := Nat.mod_lt _ h0
  unfold valN
  split
  · rw [Proofs.neg8_pm (key _ _ hi)]
    rcases key (tagNo (labelTag n e)) _ hi with h | h <;> rw [h] <;> simp
  · exact key _ _ hi

/-- The class as computed by labels. -/
theorem fastN (h1 : 32 ≤ n) (h2 : n ≤ 63) {G : List QuadSeq} (hne : G ≠ [])
    (hG : ∀ g ∈ G, Shaped n {x | x ≠ 0 ∧ -128 ≤ x ∧ x ≤ 127} g) {s : QuadSeq} (hs : PMQuad n s) :
    ∃ c, generateEquivalenceClassFast s G = some c ∧ c ≠ [] ∧ (∀ t ∈ c, PMQuad n t) ∧
      c = (G.map fun g => (⟨n, g.a.map (valN n s), g.b.map (valN n s), g.c.map (valN n s), g.d.map (valN n s)⟩ : QuadSeq)).dedup := by
  haveI : NeZero n := ⟨by omega⟩
  refine ⟨_, ?_, ?_, ?_, rfl⟩
  · unfold generateEquivalenceClassFast
    rw [mapM_some_mem G fun g hg => applySymmetryN h1 h2 (PMQuad.wf hs) (hG g hg)]
    rfl
  · cases G with
    | nil => exact absurd rfl hne
    | cons g G => exact List.ne_nil_of_mem (List.mem_dedup.2 List.mem_cons_self)
  · intro t ht
    rw [List.mem_dedup, List.mem_map] at ht
    obtain ⟨g, hg, rfl⟩ := ht
    have key : ∀ t, PMSeq n ((g.sequence t).map (valN n s)) := by
      intro t
      refine ⟨by rw [List.length_map]; exact ((hG g hg).seq t).1, fun x hx => ?_⟩
      obtain ⟨e, _, rfl⟩ := List.mem_map.1 hx
      exact valN_pm (by omega) hs e
    exact ⟨rfl, key .W, key .X, key .Y, key .Z⟩

theorem repN [NeZero n] {ty : SeqType} (hty : CanType ty) {G : List QuadSeq} {s : QuadSeq} {c : List QuadSeq}
    (hc : generateEquivalenceClassFast s G = some c) (hne : c ≠ []) (hpm : ∀ t ∈ c, PMQuad n t) :
    ∃ r, qtCanonical s G ty = some r := by
  have hsome : ∀ u ∈ c, ∃ q, can ty u = some q ∧ PMQuad n q := by
    intro u hu
    have hu := hpm u hu
    have hns : ∃ q, nsCanonical u = some q ∧ PMQuad n q := by
      obtain ⟨r, h1, h2, _⟩ := nsCanonical_spec hu; exact ⟨r, h1, h2.1⟩
    have hsn : ∃ q, some (snSsCanonical u) = some q ∧ PMQuad n q := ⟨_, rfl, (snSs_spec hu).1.1⟩
    cases ty <;> first | exact hns | exact hsn
  choose! φ hφ using hsome
  have hmap : c.mapM (can ty) = some (c.map φ) := Print.mapM_some fun u hu => (hφ u hu).1
  obtain ⟨r, e, hr⟩ := minBy_spec (n := n) (l := c.map φ) (by
      intro h; rw [List.map_eq_nil_iff] at h; exact hne h)
    (by intro t ht
        obtain ⟨u, hu, rfl⟩ := List.mem_map.1 ht
        exact pm_len (hφ u hu).2)
  refine ⟨r, ?_⟩
  have key : ∀ hsn : c.mapM (fun s => some (snSsCanonical s)) = some (c.map φ), minBy (c.map snSsCanonical) = some r := by
    intro h
    rw [Print.mapM_some (g := snSsCanonical) fun _ _ => rfl] at h
    rw [Option.some.inj h]; exact e
  rcases hty with rfl | rfl | rfl
  · simp only [qtCanonical, hc, Option.bind_some]
    change (c.mapM (can .quaternionType)).bind minBy = _
    rw [hmap]
    exact e
  · simp only [qtCanonical, hc, Option.bind_some]
    exact key hmap
  · simp only [qtCanonical, hc, Option.bind_some]
    exact key hmap

theorem valN_congr [NeZero n] (h1 : 32 ≤ n) (h2 : n ≤ 63) {s t : QuadSeq} (hs : PMQuad n s) (ht : PMQuad n t)
    (h : (flat s).take 128 = (flat t).take 128) {e : ℤ} (he : e ≠ 0 ∧ -128 ≤ e ∧ e ≤ 127) : valN n s e = valN n t e := by
  obtain ⟨k1, k2⟩ := label_lt h1 h2 he
  have hi : labelIdx n e < n := Nat.mod_lt _ (by omega)
  have key : ∀ p < 128, at0 (flat s) p = at0 (flat t) p := by
    intro p hp
    have := congrArg (fun l => l.getD p 0) h
    simpa only [at0, List.getD_eq_getElem?_getD, List.getElem?_take_of_lt hp] using this
  unfold valN
  rw [← at0_flat (PMQuad.wf hs) k1 hi, ← at0_flat (PMQuad.wf ht) k1 hi, key _ k2]

theorem reduce_blind [NeZero n] (h1 : 32 ≤ n) (h2 : n ≤ 63) {ty : SeqType} (hty : CanType ty) {s t : QuadSeq} (hs : PMQuad n s)
    (ht : PMQuad n t) (h : (flat s).take 128 = (flat t).take 128) : ∃ r, reduceToCanonicalReps [s, t] ty = some [r] := by
  obtain ⟨G, hG, hne, hsh⟩ := groupN h1 h2 (canonicalOps_sub ty)
  obtain ⟨c, e1, e2, e3, e4⟩ := fastN h1 h2 hne hsh hs
  obtain ⟨c', e1', e2', e3', e4'⟩ := fastN h1 h2 hne hsh ht
  have hcc : c' = c := by
    rw [e4, e4']
    congr 1
    refine List.map_congr_left fun g hg => ?_
    have key : ∀ q, (g.sequence q).map (valN n t) = (g.sequence q).map (valN n s) := fun q =>
      List.map_congr_left fun e he => (valN_congr h1 h2 hs ht h (((hsh g hg).seq q).2 e he)).symm
    exact congr (congr (congr (congrArg (QuadSeq.mk n) (key .W)) (key .X)) (key .Y)) (key .Z)
  obtain ⟨r, hr⟩ := repN (n := n) hty e1 e2 e3
  have hr' : qtCanonical t G ty = some r := by
    rw [← hr]
    unfold qtCanonical
    rw [e1, e1', hcc]
  refine ⟨r, ?_⟩
  simp only [reduceToCanonicalReps]
  rw [hs.size, hG, Option.bind_some]
  simp only [List.mapM_cons, List.mapM_nil, hr, hr']
  simp [unique]

end mid

/-! ## Inequivalent quadruples that agree in the first 128 entries -/

section apart
variable {n : ℕ} [NeZero n]

/-- Sum of the squares of the row sums. -/
def sqF (f : Fam n) : ℤ := (∑ i, f .W i) ^ 2 + (∑ i, f .X i) ^ 2 + (∑ i, f .Y i) ^ 2 + (∑ i, f .Z i) ^ 2

theorem sqF_neg (t₀ : Tag) (f : Fam n) : sqF (negAt t₀ f) = sqF f := by
  have key : ∀ t, (∑ i, negAt t₀ f t i) ^ 2 = (∑ i, f t i) ^ 2 := by
    intro t
    unfold negAt
    by_cases h : t = t₀
    · simp only [h, if_true, Finset.sum_neg_distrib]; ring
    · simp only [h, if_false]
  unfold sqF; rw [key, key, key, key]

theorem sqF_swap (t₁ t₂ : Tag) (f : Fam n) : sqF (swapFam t₁ t₂ f) = sqF f := by
  unfold sqF swapFam
  cases t₁ <;> cases t₂ <;> simp only [Equiv.swap_apply_def, reduceCtorEq, if_true, if_false] <;> ring

theorem sqF_congr {f g : Fam n} (h : ∀ t, ∑ i, f t i = ∑ i, g t i) : sqF f = sqF g := by
  unfold sqF; rw [h, h, h, h]

theorem sqF_shift (o : ZMod n) (f : Fam n) : sqF (shiftAll o f) = sqF f :=
  sqF_congr fun t => Fintype.sum_equiv (Equiv.addRight o) _ _ fun i => rfl

theorem sqF_aut (u : (ZMod n)ˣ) (f : Fam n) : sqF (autAll u f) = sqF f :=
  sqF_congr fun t => Fintype.sum_equiv (Units.mulLeft u) _ _ fun i => rfl

theorem eqv_inv {α : Type} {R : Fam n → Fam n → Prop} {φ : Fam n → α} (h : ∀ f g, R f g → φ g = φ f) {f g : Fam n}
    (hfg : Relation.EqvGen R f g) : φ g = φ f := by
  induction hfg with
  | rel _ _ h' => exact h _ _ h'
  | refl => rfl
  | symm _ _ _ ih => exact ih.symm
  | trans _ _ _ _ _ i1 i2 => exact i2.trans i1

theorem type_inv {α : Type} {φ : Fam n → α} (hsh : ∀ o f, φ (shiftAll o f) = φ f) (hb : ∀ f g, BaseMove f g → φ g = φ f)
    (hd : ∀ f g, DualMove f g → φ g = φ f) (h1 : ∀ f g, SingleMove f g → φ g = φ f) (hn : ∀ t f, φ (negAt t f) = φ f)
    (hs : ∀ t u f, φ (swapFam t u f) = φ f) (ty : SeqType) {f g : Fam n} (h : TypeEquiv ty f g) : φ g = φ f := by
  have hns : ∀ f g : Fam n, NSMove f g → φ g = φ f := by
    rintro f _ ⟨t, u, v, _⟩; rw [hs, hn]
  have hsn : ∀ f g : Fam n, SNMove f g → φ g = φ f := by
    rintro f _ (⟨t⟩ | ⟨t, u, _⟩)
    · exact hn _ _
    · exact hs _ _ _
  have hS : ∀ f g : Fam n, ShiftMove f g → φ g = φ f := by
    rintro f _ ⟨o⟩; exact hsh _ _
  have qt : ∀ f g : Fam n, QTMove f g → φ g = φ f := by
    rintro f g (h | h | h | h)
    · exact hS _ _ h
    · exact hb _ _ h
    · exact hd _ _ h
    · exact hns _ _ h
  have wt : ∀ f g : Fam n, WTMove f g → φ g = φ f := by
    rintro f g (h | h | h | h)
    · exact hS _ _ h
    · exact hb _ _ h
    · exact h1 _ _ h
    · exact hsn _ _ h
  have ws : ∀ f g : Fam n, WSMove f g → φ g = φ f := by
    rintro f g (h | h | h)
    · exact hb _ _ h
    · exact h1 _ _ h
    · exact hsn _ _ h
  cases ty <;> first | exact eqv_inv qt h | exact eqv_inv wt h | exact eqv_inv ws h | (cases h; rfl)

theorem prod_type (hn : Even n) (ty : SeqType) {f g : Fam n} (h : TypeEquiv ty f g) : prodF g = prodF f := by
  refine type_inv (φ := prodF) prodF_shift ?_ ?_ ?_ (prodF_neg hn) prodF_swap ty h
  · rintro f _ (_ | ⟨u⟩)
    · exact prodF_alt _
    · exact prodF_aut _ _
  · rintro f _ (_ | _) <;> exact prodF_half _ _
  · rintro f _ ⟨_, _⟩; exact prodF_half _ _

theorem sq_type (hn : ¬ Even n) (ty : SeqType) {f g : Fam n} (h : TypeEquiv ty f g) : sqF g = sqF f := by
  refine type_inv (φ := sqF) sqF_shift ?_ ?_ ?_ sqF_neg sqF_swap ty h
  · rintro f _ (h | ⟨u⟩)
    · exact absurd h hn
    · exact sqF_aut _ _
  · rintro f _ (h | h) <;> exact absurd h hn
  · rintro f _ ⟨h, _⟩; exact absurd h hn

/-- The quadruple with one entry of the last sequence negated. -/
def flipAt (j : ℕ) (s : QuadSeq) : QuadSeq := { s with d := s.d.set j (-at0 s.d j) }

theorem at0_set_self {l : List ℤ} {j : ℕ} {v : ℤ} (h : j < l.length) : at0 (l.set j v) j = v := by
  unfold at0
  rw [List.getD_eq_getElem (l := List.set _ _ _) _ (by rwa [List.length_set]), List.getElem_set_self]

theorem at0_set_ne {l : List ℤ} {i j : ℕ} {v : ℤ} (h : i ≠ j) : at0 (l.set j v) i = at0 l i := by
  unfold at0
  rw [List.getD_eq_getElem?_getD, List.getD_eq_getElem?_getD, List.getElem?_set_ne (by omega)]

theorem flipAt_pm {s : QuadSeq} (hs : PMQuad n s) {j : ℕ} (hj : j < n) : PMQuad n (flipAt j s) := by
  refine ⟨hs.size, hs.a, hs.b, hs.c, by unfold flipAt; rw [List.length_set]; exact hs.d.1, fun x hx => ?_⟩
  rcases List.mem_or_eq_of_mem_set hx with h | h
  · exact hs.d.2 x h
  · rcases pmseq_at hs.d (i := j) hj with h' | h' <;> rw [h, h'] <;> simp

theorem flipAt_flat {s : QuadSeq} (hs : PMQuad n s) {j : ℕ} (hj : 128 ≤ 3 * n + j) :
    (flat (flipAt j s)).take 128 = (flat s).take 128 := by
  have ha := hs.a.1
  have hb := hs.b.1
  have hc := hs.c.1
  unfold flat flipAt
  refine List.ext_getElem? fun p => ?_
  by_cases hp : p < 128
  · rw [List.getElem?_take_of_lt hp, List.getElem?_take_of_lt hp]
    by_cases h3 : p < (s.a ++ s.b ++ s.c).length
    · rw [List.getElem?_append_left h3, List.getElem?_append_left h3]
    · rw [List.getElem?_append_right (not_lt.1 h3), List.getElem?_append_right (not_lt.1 h3)]
      simp only [List.length_append, ha, hb, hc] at h3 ⊢
      rw [List.getElem?_set_ne (by omega)]
  · rw [List.getElem?_eq_none (by rw [List.length_take]; omega), List.getElem?_eq_none (by rw [List.length_take]; omega)]

theorem flipAt_fam {s : QuadSeq} (hs : PMQuad n s) {j : ℕ} (hj : j < n) :
    fam n (flipAt j s) .Z = Function.update (fam n s .Z) (j : ZMod n) (-at0 s.d j) := by
  have hl : s.d.length = n := hs.d.1
  have hv : ((j : ZMod n)).val = j := ZMod.val_cast_of_lt hj
  funext i
  change at0 (s.d.set j (-at0 s.d j)) i.val = _
  by_cases h : i = (j : ZMod n)
  · subst h
    rw [hv, Function.update_self, at0_set_self (by omega)]
  · rw [Function.update_of_ne h, at0_set_ne]
    · rfl
    · intro h'; exact h (ZMod.val_injective n (by rw [h', hv]))

theorem flipAt_at {s : QuadSeq} {j : ℕ} (hj : j < n) : fam n s .Z (j : ZMod n) = at0 s.d j := by
  change at0 s.d (j : ZMod n).val = _
  rw [ZMod.val_cast_of_lt hj]

theorem flipAt_sum {s : QuadSeq} (hs : PMQuad n s) {j : ℕ} (hj : j < n) :
    ∑ i, fam n (flipAt j s) .Z i = ∑ i, fam n s .Z i - 2 * at0 s.d j := by
  rw [flipAt_fam hs hj, Finset.sum_update_of_mem (Finset.mem_univ _),
    ← Finset.add_sum_erase Finset.univ (fam n s .Z) (Finset.mem_univ (j : ZMod n)), flipAt_at hj, Finset.sdiff_singleton_eq_erase]
  ring

theorem flipAt_prod {s : QuadSeq} (hs : PMQuad n s) {j : ℕ} (hj : j < n) : prodF (fam n (flipAt j s)) = -prodF (fam n s) := by
  unfold prodF
  rw [flipAt_fam hs hj, Finset.prod_update_of_mem (Finset.mem_univ _),
    ← Finset.mul_prod_erase Finset.univ (fam n s .Z) (Finset.mem_univ (j : ZMod n)), flipAt_at hj, Finset.sdiff_singleton_eq_erase]
  change (∏ i, fam n s .W i) * (∏ i, fam n s .X i) * (∏ i, fam n s .Y i) * _ = _
  ring

theorem sq_apart {s t : QuadSeq} (ha : t.a = s.a) (hb : t.b = s.b) (hc : t.c = s.c) (h : sqF (fam n t) = sqF (fam n s)) :
    (∑ i, fam n t .Z i) ^ 2 = (∑ i, fam n s .Z i) ^ 2 := by
  have e1 : fam n t .W = fam n s .W := by change cyc n t.a = cyc n s.a; rw [ha]
  have e2 : fam n t .X = fam n s .X := by change cyc n t.b = cyc n s.b; rw [hb]
  have e3 : fam n t .Y = fam n s .Y := by change cyc n t.c = cyc n s.c; rw [hc]
  unfold sqF at h
  rw [e1, e2, e3] at h
  linarith

/-- Every quadruple of length 33 or more has an inequivalent one that agrees with it in the first 128 entries. -/
theorem exists_apart (hn : 33 ≤ n) (ty : SeqType) {s : QuadSeq} (hs : PMQuad n s) :
    ∃ t, PMQuad n t ∧ (flat t).take 128 = (flat s).take 128 ∧ ¬ TypeEquiv ty (fam n s) (fam n t) := by
  by_cases he : Even n
  · refine ⟨flipAt (n - 1) s, flipAt_pm hs (by omega), flipAt_flat hs (by omega), fun h => ?_⟩
    have h1 := prod_type he ty h
    rw [flipAt_prod hs (by omega)] at h1
    have := prodF_ne (pmfam_fam hs)
    omega
  · set z := ∑ i, fam n s .Z i with hz
    by_cases h1 : at0 s.d (n - 1) = z
    · by_cases h2 : at0 s.d (n - 2) = z
      · refine ⟨flipAt (n - 1) (flipAt (n - 2) s), flipAt_pm (flipAt_pm hs (by omega)) (by omega), ?_, fun h => ?_⟩
        · rw [flipAt_flat (flipAt_pm hs (by omega)) (by omega), flipAt_flat hs (by omega)]
        · have h3 := sq_apart (n := n) (s := s) (t := flipAt (n - 1) (flipAt (n - 2) s)) rfl rfl rfl (sq_type he ty h)
          have e : at0 (flipAt (n - 2) s).d (n - 1) = at0 s.d (n - 1) := at0_set_ne (by omega)
          rw [flipAt_sum (flipAt_pm hs (by omega)) (by omega), flipAt_sum hs (by omega), e, ← hz, h1, h2] at h3
          rcases pmseq_at hs.d (i := n - 1) (by omega) with h4 | h4 <;> rw [h1] at h4 <;> rw [h4] at h3 <;> norm_num at h3
      · refine ⟨flipAt (n - 2) s, flipAt_pm hs (by omega), flipAt_flat hs (by omega), fun h => ?_⟩
        have h3 := sq_apart (n := n) (s := s) (t := flipAt (n - 2) s) rfl rfl rfl (sq_type he ty h)
        rw [flipAt_sum hs (by omega), ← hz] at h3
        rcases pmseq_at hs.d (i := n - 2) (by omega) with h4 | h4 <;> rw [h4] at h3 h2 <;> exact h2 (by linarith)
    · refine ⟨flipAt (n - 1) s, flipAt_pm hs (by omega), flipAt_flat hs (by omega), fun h => ?_⟩
      have h3 := sq_apart (n := n) (s := s) (t := flipAt (n - 1) s) rfl rfl rfl (sq_type he ty h)
      rw [flipAt_sum hs (by omega), ← hz] at h3
      rcases pmseq_at hs.d (i := n - 1) (by omega) with h4 | h4 <;> rw [h4] at h3 h1 <;> exact h1 (by linarith)

end apart

/-! ## The join stage -/

theorem filter_pm {n : ℕ} [NeZero n] {ty : SeqType} {l r : List QuadSeq} (hl : ∀ s ∈ l, PMQuad n s)
    (h : filterCanonical ty l = some r) : ∀ s ∈ r, PMQuad n s := by
  have hsn : ∀ s ∈ unique (l.map snSsCanonical), PMQuad n s := by
    intro s hs
    obtain ⟨u, hu, rfl⟩ := List.mem_map.1 (((unique_spec _).2 s).1 hs)
    exact (snSs_spec (hl u hu)).1.1
  cases ty
  case quaternionType =>
    have hs : ∀ u ∈ l, ∃ q, nsCanonical u = some q ∧ PMQuad n q := by
      intro u hu
      obtain ⟨r, h1, h2, _⟩ := nsCanonical_spec (hl u hu); exact ⟨r, h1, h2.1⟩
    choose! φ hφ using hs
    simp only [filterCanonical] at h
    rw [Print.mapM_some (g := φ) fun u hu => (hφ u hu).1, Option.map_some] at h
    cases h
    intro s hs
    obtain ⟨u, hu, rfl⟩ := List.mem_map.1 (((unique_spec _).2 s).1 hs)
    exact (hφ u hu).2
  all_goals
    simp only [filterCanonical] at h
    cases h
  all_goals exact hsn

theorem join_none {n : ℕ} [NeZero n] (h1 : 64 ≤ n) (h2 : n ≤ 100) (ty : SeqType) (dirs : List (Text × Dir))
    (h : ∀ l, joinAll ty dirs = some l → ∀ s ∈ l, PMQuad n s) : joinPairs ty dirs = none := by
  unfold joinPairs
  cases hj : joinAll ty dirs with
  | none => rfl
  | some l =>
    rw [Option.bind_some]
    cases hf : filterCanonical ty l with
    | none => rfl
    | some r =>
      rw [Option.bind_some]
      exact reduce_none h1 h2 fun s hs => (filter_pm (h l hj) hf s hs).size

end Proofs.Labels
