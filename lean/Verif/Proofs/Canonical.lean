import Verif.Proofs.Order

/-!
# Canonical forms under negate-swap and under negations and swaps
-/

set_option linter.unusedSectionVars false
set_option linter.unusedVariables false
set_option linter.unusedSimpArgs false

namespace Proofs
open Model Spec

/-! ## Signed permutations of four values -/

/-- Position of a tag. -/
def tix : Tag → ℤ
  | .W => 0
  | .X => 1
  | .Y => 2
  | .Z => 3

/-- Sign of the order of two tags. -/
def ord2 (p q : Tag) : ℤ := if tix p < tix q then 1 else if tix p = tix q then 0 else -1

/-- Sign of a map of tags given by its four values (0 if it is not injective). -/
def sg (p q r w : Tag) : ℤ := ord2 p q * ord2 p r * ord2 p w * ord2 q r * ord2 q w * ord2 r w

theorem sg_swap :
    (∀ p q r w, sg q p r w = -sg p q r w) ∧ (∀ p q r w, sg r q p w = -sg p q r w) ∧
    (∀ p q r w, sg w q r p = -sg p q r w) ∧ (∀ p q r w, sg p r q w = -sg p q r w) ∧
    (∀ p q r w, sg p w r q = -sg p q r w) ∧ (∀ p q r w, sg p q w r = -sg p q r w) := by
  refine ⟨?_, ?_, ?_, ?_, ?_, ?_⟩ <;> intro p q r w <;> cases p <;> cases q <;> cases r <;> cases w <;> rfl

/-- The four values are a signed permutation of `u`; `D` is the determinant condition. -/
def SPerm (D : ℤ → Prop) (u v : Tag → ℤ) : Prop :=
  ∃ (p : Tag → Tag) (e : Tag → ℤ), (∀ t, e t = 1 ∨ e t = -1) ∧
    D (sg (p .W) (p .X) (p .Y) (p .Z) * (e .W * e .X * e .Y * e .Z)) ∧ ∀ t, v t = e t * u (p t)

theorem sperm_refl {D : ℤ → Prop} (h : D 1) (u : Tag → ℤ) : SPerm D u u :=
  ⟨id, fun _ => 1, fun _ => .inl rfl, by simpa [sg, ord2, tix] using h, fun t => by simp⟩

theorem sperm_neg {D : ℤ → Prop} {u v : Tag → ℤ} (h : SPerm D u v) (t₀ : Tag) :
    SPerm (fun x => D (-x)) u fun t => if t = t₀ then -v t else v t := by
  obtain ⟨p, e, he, hD, hv⟩ := h
  refine ⟨p, fun t => if t = t₀ then -e t else e t, fun t => ?_, ?_, fun t => ?_⟩
  · have := he t
    simp only; split <;> omega
  · have : ∀ x y : ℤ, D x → x = y → D y := fun x y h e => e ▸ h
    refine this _ _ hD ?_
    cases t₀ <;> simp
  · simp only; split
    · rw [hv]; ring
    · exact hv t

theorem sperm_swap {D : ℤ → Prop} {u v : Tag → ℤ} (h : SPerm D u v) {t₁ t₂ : Tag} (h12 : t₁ ≠ t₂) :
    SPerm (fun x => D (-x)) u fun t => v (Equiv.swap t₁ t₂ t) := by
  obtain ⟨p, e, he, hD, hv⟩ := h
  refine ⟨fun t => p (Equiv.swap t₁ t₂ t), fun t => e (Equiv.swap t₁ t₂ t), fun t => he _, ?_, fun t => hv _⟩
  obtain ⟨s1, s2, s3, s4, s5, s6⟩ := sg_swap
  have : ∀ x y : ℤ, D x → x = y → D y := fun x y h e => e ▸ h
  refine this _ _ hD ?_
  cases t₁ <;> cases t₂ <;> first | exact absurd rfl h12 | skip
  all_goals simp only [Equiv.swap_apply_def, reduceCtorEq, if_true, if_false]
  all_goals first
    | rw [s1 (p .W) (p .X) (p .Y) (p .Z)]; ring
    | rw [s2 (p .W) (p .X) (p .Y) (p .Z)]; ring
    | rw [s3 (p .W) (p .X) (p .Y) (p .Z)]; ring
    | rw [s4 (p .W) (p .X) (p .Y) (p .Z)]; ring
    | rw [s5 (p .W) (p .X) (p .Y) (p .Z)]; ring
    | rw [s6 (p .W) (p .X) (p .Y) (p .Z)]; ring

/-! ## Least elements -/

/-- The shape of negate-swap canonical values. -/
def NSForm (v : Tag → ℤ) : Prop :=
  v .W ≤ v .X ∧ v .X ≤ v .Y ∧ v .Y < 0 ∧
    ((v .Y ≤ v .Z ∧ v .Z < 0) ∨ (0 < v .Z ∧ v .W < v .X ∧ v .X < v .Y ∧ v .Y < -v .Z))

/-- The shape of values canonical under negations and swaps. -/
def SNForm (v : Tag → ℤ) : Prop := v .W ≤ v .X ∧ v .X ≤ v .Y ∧ v .Y ≤ v .Z ∧ v .Z < 0

theorem sg_cases : ∀ p q r w : Tag, sg p q r w ≠ 0 →
    (p, q, r, w) ∈ [(Tag.W, Tag.X, Tag.Y, Tag.Z), (.W, .X, .Z, .Y), (.W, .Y, .X, .Z), (.W, .Y, .Z, .X), (.W, .Z, .X, .Y),
      (.W, .Z, .Y, .X), (.X, .W, .Y, .Z), (.X, .W, .Z, .Y), (.X, .Y, .W, .Z), (.X, .Y, .Z, .W), (.X, .Z, .W, .Y),
      (.X, .Z, .Y, .W), (.Y, .W, .X, .Z), (.Y, .W, .Z, .X), (.Y, .X, .W, .Z), (.Y, .X, .Z, .W), (.Y, .Z, .W, .X),
      (.Y, .Z, .X, .W), (.Z, .W, .X, .Y), (.Z, .W, .Y, .X), (.Z, .X, .W, .Y), (.Z, .X, .Y, .W), (.Z, .Y, .W, .X),
      (.Z, .Y, .X, .W)] := by
  intro p q r w
  cases p <;> cases q <;> cases r <;> cases w <;> decide

theorem snform_least {u v : Tag → ℤ} (h : SNForm v) (ho : SPerm (· ≠ 0) v u) : ¬ Lex4 u v := by
  obtain ⟨p, e, he, hD, hu⟩ := ho
  have hw := hu .W
  have hx := hu .X
  have hy := hu .Y
  have hz := hu .Z
  have hc := sg_cases (p .W) (p .X) (p .Y) (p .Z) (left_ne_zero_of_mul hD)
  unfold SNForm at h
  unfold Lex4
  obtain ⟨h1, h2, h3, h4⟩ := h
  clear hD hu
  generalize p .W = p1 at *
  generalize p .X = p2 at *
  generalize p .Y = p3 at *
  generalize p .Z = p4 at *
  have e1 := he .W
  have e2 := he .X
  have e3 := he .Y
  have e4 := he .Z
  clear he
  generalize e .W = e1' at *
  generalize e .X = e2' at *
  generalize e .Y = e3' at *
  generalize e .Z = e4' at *
  simp only [List.mem_cons, List.not_mem_nil, or_false, Prod.mk.injEq] at hc
  rcases hc with ⟨rfl, rfl, rfl, rfl⟩ | ⟨rfl, rfl, rfl, rfl⟩ | ⟨rfl, rfl, rfl, rfl⟩ | ⟨rfl, rfl, rfl, rfl⟩ |
    ⟨rfl, rfl, rfl, rfl⟩ | ⟨rfl, rfl, rfl, rfl⟩ | ⟨rfl, rfl, rfl, rfl⟩ | ⟨rfl, rfl, rfl, rfl⟩ | ⟨rfl, rfl, rfl, rfl⟩ |
    ⟨rfl, rfl, rfl, rfl⟩ | ⟨rfl, rfl, rfl, rfl⟩ | ⟨rfl, rfl, rfl, rfl⟩ | ⟨rfl, rfl, rfl, rfl⟩ | ⟨rfl, rfl, rfl, rfl⟩ |
    ⟨rfl, rfl, rfl, rfl⟩ | ⟨rfl, rfl, rfl, rfl⟩ | ⟨rfl, rfl, rfl, rfl⟩ | ⟨rfl, rfl, rfl, rfl⟩ | ⟨rfl, rfl, rfl, rfl⟩ |
    ⟨rfl, rfl, rfl, rfl⟩ | ⟨rfl, rfl, rfl, rfl⟩ | ⟨rfl, rfl, rfl, rfl⟩ | ⟨rfl, rfl, rfl, rfl⟩ | ⟨rfl, rfl, rfl, rfl⟩ <;>
  rcases e1 with rfl | rfl <;> rcases e2 with rfl | rfl <;> rcases e3 with rfl | rfl <;> rcases e4 with rfl | rfl <;>
  omega

theorem nsform_least {u v : Tag → ℤ} (h : NSForm v) (ho : SPerm (· = 1) v u) : ¬ Lex4 u v := by
  obtain ⟨p, e, he, hD, hu⟩ := ho
  have hw := hu .W
  have hx := hu .X
  have hy := hu .Y
  have hz := hu .Z
  have hc := sg_cases (p .W) (p .X) (p .Y) (p .Z) (by intro h0; rw [h0, zero_mul] at hD; exact absurd hD (by decide))
  unfold NSForm at h
  unfold Lex4
  obtain ⟨h1, h2, h3, h4⟩ := h
  clear hu
  generalize p .W = p1 at *
  generalize p .X = p2 at *
  generalize p .Y = p3 at *
  generalize p .Z = p4 at *
  have e1 := he .W
  have e2 := he .X
  have e3 := he .Y
  have e4 := he .Z
  clear he
  generalize e .W = e1' at *
  generalize e .X = e2' at *
  generalize e .Y = e3' at *
  generalize e .Z = e4' at *
  simp only [List.mem_cons, List.not_mem_nil, or_false, Prod.mk.injEq] at hc
  rcases hc with ⟨rfl, rfl, rfl, rfl⟩ | ⟨rfl, rfl, rfl, rfl⟩ | ⟨rfl, rfl, rfl, rfl⟩ | ⟨rfl, rfl, rfl, rfl⟩ |
    ⟨rfl, rfl, rfl, rfl⟩ | ⟨rfl, rfl, rfl, rfl⟩ | ⟨rfl, rfl, rfl, rfl⟩ | ⟨rfl, rfl, rfl, rfl⟩ | ⟨rfl, rfl, rfl, rfl⟩ |
    ⟨rfl, rfl, rfl, rfl⟩ | ⟨rfl, rfl, rfl, rfl⟩ | ⟨rfl, rfl, rfl, rfl⟩ | ⟨rfl, rfl, rfl, rfl⟩ | ⟨rfl, rfl, rfl, rfl⟩ |
    ⟨rfl, rfl, rfl, rfl⟩ | ⟨rfl, rfl, rfl, rfl⟩ | ⟨rfl, rfl, rfl, rfl⟩ | ⟨rfl, rfl, rfl, rfl⟩ | ⟨rfl, rfl, rfl, rfl⟩ |
    ⟨rfl, rfl, rfl, rfl⟩ | ⟨rfl, rfl, rfl, rfl⟩ | ⟨rfl, rfl, rfl, rfl⟩ | ⟨rfl, rfl, rfl, rfl⟩ | ⟨rfl, rfl, rfl, rfl⟩ <;>
  rcases e1 with rfl | rfl <;> rcases e2 with rfl | rfl <;> rcases e3 with rfl | rfl <;> rcases e4 with rfl | rfl <;>
  first
    | (exfalso; revert hD; decide)
    | (clear hD; omega)

/-! ## Orbits -/

section orbits
variable {n : ℕ} [NeZero n]

/-- Values of a family. -/
def vf (f : Fam n) (t : Tag) : ℤ := qv (ofFam n f) t

theorem vf_fam {s : QuadSeq} (hs : PMQuad n s) : vf (fam n s) = qv s := by
  funext t; unfold vf; rw [ofFam_fam (PMQuad.wf hs)]

theorem vf_neg {f : Fam n} (hf : PMFam f) (t₀ : Tag) : vf (negAt t₀ f) = fun t => if t = t₀ then -vf f t else vf f t := by
  have hs := pmquad_ofFam hf
  have e := setNeg_eq (PMQuad.wf hs) t₀
  rw [fam_ofFam] at e
  funext t
  unfold vf
  rw [← e, qv_neg hs]

theorem vf_swap {f : Fam n} (hf : PMFam f) {t₁ t₂ : Tag} (h : t₁ ≠ t₂) :
    vf (swapFam t₁ t₂ f) = fun t => vf f (Equiv.swap t₁ t₂ t) := by
  have hs := pmquad_ofFam hf
  have e := swapTags_eq (c := (t₁, t₂)) (PMQuad.wf hs) h
  rw [fam_ofFam] at e
  funext t
  unfold vf
  simp only at e
  rw [← e, qv_swap (c := (t₁, t₂)) h]

theorem pm_swapFam {f : Fam n} (hf : PMFam f) (t₁ t₂ : Tag) : PMFam (swapFam t₁ t₂ f) := fun t i => hf _ i

theorem ns_sperm {f g : Fam n} (hf : PMFam f) (h : NSEquiv f g) : PMFam g ∧ SPerm (· = 1) (vf f) (vf g) := by
  unfold NSEquiv at h
  rw [eqvGen_pres pres_NS] at h
  induction h with
  | refl => exact ⟨hf, sperm_refl (D := (· = 1)) rfl _⟩
  | tail _ h ih =>
    obtain ⟨hg, hp⟩ := ih
    obtain ⟨t₀, t₁, t₂, h12⟩ := h
    refine ⟨pm_swapFam (pm_negAt hg _) _ _, ?_⟩
    rw [vf_swap (pm_negAt hg _) h12, vf_neg hg]
    have := sperm_swap (sperm_neg hp t₀) h12
    simpa only [neg_neg] using this

theorem sn_sperm {f g : Fam n} (hf : PMFam f) (h : SNEquiv f g) : PMFam g ∧ SPerm (· ≠ 0) (vf f) (vf g) := by
  unfold SNEquiv at h
  rw [eqvGen_pres pres_SN] at h
  induction h with
  | refl => exact ⟨hf, sperm_refl (by decide) _⟩
  | tail _ h ih =>
    obtain ⟨hg, hp⟩ := ih
    cases h with
    | neg t₀ =>
      refine ⟨pm_negAt hg _, ?_⟩
      rw [vf_neg hg]
      simpa only [ne_eq, neg_eq_zero] using sperm_neg hp t₀
    | swap t₁ t₂ h12 =>
      refine ⟨pm_swapFam hg _ _, ?_⟩
      rw [vf_swap hg h12]
      simpa only [ne_eq, neg_eq_zero] using sperm_swap hp h12

/-! ## Steps of the two algorithms -/

theorem ns_equiv_dswap (f : Fam n) {t₁ t₂ t₃ t₄ : Tag} (h : t₁ ≠ t₂) (h' : t₃ ≠ t₄) :
    NSEquiv f (swapFam t₃ t₄ (swapFam t₁ t₂ f)) := by
  have e : swapFam t₃ t₄ (swapFam t₁ t₂ f) =
      swapFam t₃ t₄ (negAt (Equiv.swap t₁ t₂ .W) (swapFam t₁ t₂ (negAt .W f))) := by
    rw [negAt_swapFam, Equiv.swap_apply_self, negAt_negAt]
  rw [e]
  exact .trans _ _ _ (.rel _ _ (.mk .W t₁ t₂ h)) (.rel _ _ (.mk _ t₃ t₄ h'))

theorem fam_swapTags {s : QuadSeq} (hs : PMQuad n s) {c : Tag × Tag} (hc : c.1 ≠ c.2) :
    fam n (swapTags s c) = swapFam c.1 c.2 (fam n s) := by rw [swapTags_eq (PMQuad.wf hs) hc, fam_ofFam]

theorem fam_neg {s : QuadSeq} (hs : PMQuad n s) (t₀ : Tag) :
    fam n (s.setSequence (negated (s.sequence t₀)) t₀) = negAt t₀ (fam n s) := by
  rw [setNeg_eq (PMQuad.wf hs), fam_ofFam]

/-- `t` is a ±1 quadruple in the negate-swap orbit of `s`. -/
def NSRel (n : ℕ) [NeZero n] (s t : QuadSeq) : Prop := PMQuad n t ∧ NSEquiv (fam n s) (fam n t)

/-- The same for negations and swaps. -/
def SNRel (n : ℕ) [NeZero n] (s t : QuadSeq) : Prop := PMQuad n t ∧ SNEquiv (fam n s) (fam n t)

theorem NSRel.refl {s : QuadSeq} (hs : PMQuad n s) : NSRel n s s := ⟨hs, .refl _⟩
theorem SNRel.refl {s : QuadSeq} (hs : PMQuad n s) : SNRel n s s := ⟨hs, .refl _⟩

theorem NSRel.dswap {s t : QuadSeq} (h : NSRel n s t) {c c' : Tag × Tag} (hc : c.1 ≠ c.2) (hc' : c'.1 ≠ c'.2) :
    NSRel n s (swapTags (swapTags t c) c') := by
  have h1 := pm_swap h.1 hc
  refine ⟨pm_swap h1 hc', .trans _ _ _ h.2 ?_⟩
  rw [fam_swapTags h1 hc', fam_swapTags h.1 hc]
  exact ns_equiv_dswap _ hc hc'

theorem NSRel.negswap {s t : QuadSeq} (h : NSRel n s t) (t₀ : Tag) {c : Tag × Tag} (hc : c.1 ≠ c.2) :
    NSRel n s (swapTags (t.setSequence (negated (t.sequence t₀)) t₀) c) := by
  have h1 := pm_neg h.1 t₀
  refine ⟨pm_swap h1 hc, .trans _ _ _ h.2 ?_⟩
  rw [fam_swapTags h1 hc, fam_neg h.1]
  exact .rel _ _ (.mk _ _ _ hc)

theorem NSRel.dupneg {s t : QuadSeq} (h : NSRel n s t) {t₀ p q : Tag} (hpq : p ≠ q) (h0p : p ≠ t₀) (h0q : q ≠ t₀)
    (hd : t.sequence p = t.sequence q) : NSRel n s (t.setSequence (negated (t.sequence t₀)) t₀) := by
  have h1 := pm_neg h.1 t₀
  refine ⟨h1, .trans _ _ _ h.2 ?_⟩
  rw [fam_neg h.1]
  have e : negAt t₀ (fam n t) = swapFam p q (negAt t₀ (fam n t)) := by
    funext tg
    unfold swapFam
    by_cases hp : tg = p
    · subst hp
      rw [Equiv.swap_apply_left]
      unfold negAt
      funext i
      rw [if_neg h0p, if_neg h0q, fam_apply, fam_apply, hd]
    · by_cases hq : tg = q
      · subst hq
        rw [Equiv.swap_apply_right]
        unfold negAt
        funext i
        rw [if_neg h0p, if_neg h0q, fam_apply, fam_apply, hd]
      · rw [Equiv.swap_apply_of_ne_of_ne hp hq]
  rw [e]
  exact .rel _ _ (.mk _ _ _ hpq)

theorem SNRel.swap {s t : QuadSeq} (h : SNRel n s t) {c : Tag × Tag} (hc : c.1 ≠ c.2) : SNRel n s (swapTags t c) := by
  refine ⟨pm_swap h.1 hc, .trans _ _ _ h.2 ?_⟩
  rw [fam_swapTags h.1 hc]
  exact .rel _ _ (.swap _ _ hc)

theorem SNRel.neg {s t : QuadSeq} (h : SNRel n s t) (t₀ : Tag) :
    SNRel n s (t.setSequence (negated (t.sequence t₀)) t₀) := by
  refine ⟨pm_neg h.1 t₀, .trans _ _ _ h.2 ?_⟩
  rw [fam_neg h.1]
  exact .rel _ _ (.neg _)

theorem minTag_spec {s : QuadSeq} (hs : PMQuad n s) (start : Tag) (rest : List Tag) :
    (minTag s start rest = start ∨ minTag s start rest ∈ rest) ∧ qv s (minTag s start rest) ≤ qv s start ∧
      ∀ t ∈ rest, qv s (minTag s start rest) ≤ qv s t := by
  induction rest generalizing start with
  | nil => simp [minTag]
  | cons x l ih =>
    have e : minTag s start (x :: l) =
      minTag s (if seqLessThan (s.sequence x) (s.sequence start) then x else start) l := rfl
    rw [e]
    by_cases h : seqLessThan (s.sequence x) (s.sequence start) = true
    · rw [if_pos h]
      rw [qv_slt hs] at h
      obtain ⟨h1, h2, h3⟩ := ih x
      refine ⟨.inr ?_, by omega, ?_⟩
      · rcases h1 with h1 | h1
        · rw [h1]; exact List.mem_cons_self
        · exact List.mem_cons_of_mem _ h1
      · intro t ht
        rcases List.mem_cons.1 ht with rfl | ht
        · exact h2
        · exact h3 t ht
    · rw [if_neg h]
      rw [qv_slt hs] at h
      obtain ⟨h1, h2, h3⟩ := ih start
      refine ⟨?_, h2, ?_⟩
      · rcases h1 with h1 | h1
        · exact .inl h1
        · exact .inr (List.mem_cons_of_mem _ h1)
      · intro t ht
        rcases List.mem_cons.1 ht with rfl | ht
        · omega
        · exact h3 t ht

/-- Number of sequences with positive first entry. -/
def posCount (s : QuadSeq) : ℕ :=
  (if 0 < qv s .W then 1 else 0) + (if 0 < qv s .X then 1 else 0) + (if 0 < qv s .Y then 1 else 0) +
    if 0 < qv s .Z then 1 else 0

theorem nsNormalize_spec (s₀ : QuadSeq) (fuel : ℕ) (s : QuadSeq) (hs : NSRel n s₀ s) (hf : posCount s < fuel) :
    ∃ r, nsNormalize fuel s = some r ∧ NSRel n s₀ r ∧ ∀ t, qv r t < 0 := by
  have h0 : 0 < n := npos
  induction fuel generalizing s with
  | zero => omega
  | succ fuel ih =>
    unfold nsNormalize
    split
    · next t ht =>
      have hd := List.find?_some ht
      simp only [decide_eq_true_eq] at hd
      have hpos : 0 < qv s t := by
        rcases qv_head h0 hs.1 t with h | h
        · exact absurd h.1 hd
        · exact h.2
      refine ih _ (hs.negswap t (c := (.W, .X)) (by decide)) ?_
      have hw : ∀ p, qv (swapTags (s.setSequence (negated (s.sequence t)) t) (.W, .X)) p =
          if (Equiv.swap Tag.W .X p) = t then -qv s (Equiv.swap Tag.W .X p) else qv s (Equiv.swap Tag.W .X p) := by
        intro p
        rw [qv_swap (c := (.W, .X)) (by decide), qv_neg hs.1]
      unfold posCount at hf ⊢
      rw [hw, hw, hw, hw]
      cases t <;> simp only [Equiv.swap_apply_def, reduceCtorEq, if_true, if_false] <;>
        (split_ifs at hf ⊢ <;> omega)
    · next hnone =>
      refine ⟨s, rfl, hs, fun t => ?_⟩
      have := List.find?_eq_none.1 hnone t (mem_tags t)
      simp only [decide_eq_true_eq, not_not] at this
      rcases qv_head h0 hs.1 t with h | h
      · exact h.2
      · omega

theorem posCount_le (s : QuadSeq) : posCount s < 5 := by
  unfold posCount; split_ifs <;> omega

theorem ns_stage1 {s₀ s : QuadSeq} (hs : NSRel n s₀ s) (hneg : ∀ t, qv s t < 0) {c : QuadSeq}
    (hc : c = if minTag s .W [.X, .Y, .Z] ≠ .W then
      swapTags (swapTags s (.W, minTag s .W [.X, .Y, .Z])) (.Y, .Z) else s) :
    NSRel n s₀ c ∧ (∀ t, qv c t < 0) ∧ qv c .W ≤ qv c .X ∧ qv c .W ≤ qv c .Y ∧ qv c .W ≤ qv c .Z := by
  obtain ⟨_, h2, h3⟩ := minTag_spec hs.1 .W [.X, .Y, .Z]
  have hx := h3 .X (by decide)
  have hy := h3 .Y (by decide)
  have hz := h3 .Z (by decide)
  clear h3
  generalize minTag s .W [.X, .Y, .Z] = m at *
  by_cases hm : m = .W
  · subst hm
    rw [if_neg (by simp)] at hc
    subst hc
    exact ⟨hs, hneg, hx, hy, hz⟩
  · rw [if_pos hm] at hc
    subst hc
    have hm' : ((Tag.W, m) : Tag × Tag).1 ≠ ((Tag.W, m) : Tag × Tag).2 := fun h => hm h.symm
    have hyz : ((Tag.Y, Tag.Z) : Tag × Tag).1 ≠ ((Tag.Y, Tag.Z) : Tag × Tag).2 := by decide
    have hq : ∀ p, qv (swapTags (swapTags s (.W, m)) (.Y, .Z)) p =
        qv s (Equiv.swap Tag.W m (Equiv.swap Tag.Y .Z p)) := fun p => by rw [qv_swap hyz, qv_swap hm']
    refine ⟨hs.dswap hm' hyz, fun t => by rw [hq]; exact hneg _, ?_⟩
    rw [hq, hq, hq, hq]
    cases m
    · exact absurd rfl hm
    all_goals simp only [Equiv.swap_apply_def, reduceCtorEq, if_true, if_false]
    all_goals omega

theorem ns_stage2 {s₀ s : QuadSeq} (hs : NSRel n s₀ s)
    (H : (∀ t, qv s t < 0) ∧ qv s .W ≤ qv s .X ∧ qv s .W ≤ qv s .Y ∧ qv s .W ≤ qv s .Z) {c : QuadSeq}
    (hc : c = if minTag s .X [.Y, .Z] ≠ .X then swapTags (swapTags s (.X, minTag s .X [.Y, .Z])) (.Y, .Z) else s) :
    NSRel n s₀ c ∧ (∀ t, qv c t < 0) ∧ qv c .W ≤ qv c .X ∧ qv c .X ≤ qv c .Y ∧ qv c .X ≤ qv c .Z := by
  obtain ⟨hneg, k1, k2, k3⟩ := H
  obtain ⟨h1, h2, h3⟩ := minTag_spec hs.1 .X [.Y, .Z]
  have hy := h3 .Y (by decide)
  have hz := h3 .Z (by decide)
  clear h3
  generalize minTag s .X [.Y, .Z] = m at *
  by_cases hm : m = .X
  · subst hm
    rw [if_neg (by simp)] at hc
    subst hc
    exact ⟨hs, hneg, k1, hy, hz⟩
  · rw [if_pos hm] at hc
    subst hc
    have hm' : ((Tag.X, m) : Tag × Tag).1 ≠ ((Tag.X, m) : Tag × Tag).2 := fun h => hm h.symm
    have hyz : ((Tag.Y, Tag.Z) : Tag × Tag).1 ≠ ((Tag.Y, Tag.Z) : Tag × Tag).2 := by decide
    have hq : ∀ p, qv (swapTags (swapTags s (.X, m)) (.Y, .Z)) p =
        qv s (Equiv.swap Tag.X m (Equiv.swap Tag.Y .Z p)) := fun p => by rw [qv_swap hyz, qv_swap hm']
    refine ⟨hs.dswap hm' hyz, fun t => by rw [hq]; exact hneg _, ?_⟩
    rw [hq, hq, hq, hq]
    cases m
    · simp at h1
    · exact absurd rfl hm
    all_goals simp only [Equiv.swap_apply_def, reduceCtorEq, if_true, if_false]
    all_goals omega

theorem ns_stage3 {s₀ s : QuadSeq} (hs : NSRel n s₀ s)
    (H : (∀ t, qv s t < 0) ∧ qv s .W ≤ qv s .X ∧ qv s .X ≤ qv s .Y ∧ qv s .X ≤ qv s .Z) {c : QuadSeq}
    (hc : c = if seqLessThan s.d s.c then swapTags (s.setSequence (negated s.c) .Y) (.Y, .Z) else s) :
    NSRel n s₀ c ∧ qv c .W ≤ qv c .X ∧ qv c .X ≤ qv c .Y ∧ qv c .Y < 0 ∧
      ((qv c .Y ≤ qv c .Z ∧ qv c .Z < 0) ∨ (0 < qv c .Z ∧ qv c .Y < -qv c .Z)) := by
  obtain ⟨hneg, k1, k2, k3⟩ := H
  have hyz : ((Tag.Y, Tag.Z) : Tag × Tag).1 ≠ ((Tag.Y, Tag.Z) : Tag × Tag).2 := by decide
  have hlt := qv_slt hs.1 .Z .Y
  simp only [QuadSeq.sequence] at hlt
  have hW := hneg .W
  have hY := hneg .Y
  have hZ := hneg .Z
  by_cases h : seqLessThan s.d s.c = true
  · rw [if_pos h] at hc
    rw [hlt] at h
    have hq : ∀ p, qv (swapTags (s.setSequence (negated (s.sequence .Y)) .Y) (.Y, .Z)) p =
        if Equiv.swap Tag.Y .Z p = .Y then -qv s (Equiv.swap Tag.Y .Z p) else qv s (Equiv.swap Tag.Y .Z p) :=
      fun p => by rw [qv_swap hyz, qv_neg hs.1]
    have := hs.negswap .Y hyz
    change c = swapTags (s.setSequence (negated (s.sequence .Y)) .Y) (.Y, .Z) at hc
    rw [← hc] at this hq
    refine ⟨this, ?_⟩
    rw [hq, hq, hq, hq]
    simp only [Equiv.swap_apply_def, reduceCtorEq, if_true, if_false]
    omega
  · rw [if_neg h] at hc
    rw [hlt] at h
    subst hc
    exact ⟨hs, k1, k2, hY, .inl ⟨by omega, hZ⟩⟩

theorem ns_stage4 {s₀ s : QuadSeq} (hs : NSRel n s₀ s)
    (H : qv s .W ≤ qv s .X ∧ qv s .X ≤ qv s .Y ∧ qv s .Y < 0 ∧
      ((qv s .Y ≤ qv s .Z ∧ qv s .Z < 0) ∨ (0 < qv s .Z ∧ qv s .Y < -qv s .Z))) {c : QuadSeq}
    (hc : c = if at0 s.d 0 = 1 ∧ s.hasDuplicateSeq then s.setSequence (negated s.d) .Z else s) :
    NSRel n s₀ c ∧ NSForm (qv c) := by
  have h0 : 0 < n := npos
  obtain ⟨k1, k2, k3, k4⟩ := H
  have hh := qv_head h0 hs.1 .Z
  simp only [QuadSeq.sequence] at hh
  have hq : ∀ p, qv (s.setSequence (negated (s.sequence .Z)) .Z) p = if p = .Z then -qv s p else qv s p :=
    fun p => qv_neg hs.1 .Z p
  have e := fun p q => qv_eq hs.1 hs.1 p q
  have e1 := e .W .X
  have e2 := e .W .Y
  have e3 := e .W .Z
  have e4 := e .X .Y
  have e5 := e .X .Z
  have e6 := e .Y .Z
  simp only [QuadSeq.sequence] at e1 e2 e3 e4 e5 e6
  by_cases hcond : at0 s.d 0 = 1 ∧ s.hasDuplicateSeq
  · rw [if_pos hcond] at hc
    obtain ⟨hz, hdup⟩ := hcond
    have hpos : 0 < qv s .Z := by omega
    change c = s.setSequence (negated (s.sequence .Z)) .Z at hc
    unfold QuadSeq.hasDuplicateSeq at hdup
    simp only [Bool.or_eq_true, decide_eq_true_eq, e1, e2, e3, e4, e5, e6] at hdup
    have hrel : NSRel n s₀ (s.setSequence (negated (s.sequence .Z)) .Z) := by
      have hor : qv s .W = qv s .X ∨ qv s .W = qv s .Y ∨ qv s .X = qv s .Y := by omega
      rcases hor with h | h | h
      · exact hs.dupneg (p := .W) (q := .X) (by decide) (by decide) (by decide) ((e _ _).2 h)
      · exact hs.dupneg (p := .W) (q := .Y) (by decide) (by decide) (by decide) ((e _ _).2 h)
      · exact hs.dupneg (p := .X) (q := .Y) (by decide) (by decide) (by decide) ((e _ _).2 h)
    rw [hc]
    refine ⟨hrel, ?_⟩
    unfold NSForm
    rw [hq, hq, hq, hq]
    simp only [reduceCtorEq, if_true, if_false]
    omega
  · rw [if_neg hcond] at hc
    subst hc
    refine ⟨hs, k1, k2, k3, ?_⟩
    rcases k4 with k4 | k4
    · exact .inl k4
    · right
      have hz : at0 c.d 0 = 1 := by omega
      have hdup : ¬ c.hasDuplicateSeq = true := fun h => hcond ⟨hz, h⟩
      unfold QuadSeq.hasDuplicateSeq at hdup
      simp only [Bool.or_eq_true, decide_eq_true_eq, e1, e2, e3, e4, e5, e6] at hdup
      omega

theorem nsSort_spec {s₀ s : QuadSeq} (hs : NSRel n s₀ s) (hneg : ∀ t, qv s t < 0) :
    NSRel n s₀ (nsSort s) ∧ NSForm (qv (nsSort s)) := by
  obtain ⟨h1, H1⟩ := ns_stage1 hs hneg rfl
  obtain ⟨h2, H2⟩ := ns_stage2 h1 H1 rfl
  obtain ⟨h3, H3⟩ := ns_stage3 h2 H2 rfl
  exact ns_stage4 h3 H3 rfl

theorem nsCanonical_spec {s : QuadSeq} (hs : PMQuad n s) :
    ∃ r, nsCanonical s = some r ∧ NSRel n s r ∧ NSForm (qv r) := by
  obtain ⟨c, h1, h2, h3⟩ := nsNormalize_spec s 5 s (.refl hs) (posCount_le s)
  obtain ⟨h4, h5⟩ := nsSort_spec h2 h3
  exact ⟨nsSort c, by unfold nsCanonical; rw [h1]; rfl, h4, h5⟩

/-- A negate-swap canonical shape is least in its orbit. -/
theorem nsform_min {r t : QuadSeq} (hr : PMQuad n r) (hf : NSForm (qv r)) (ht : NSRel n r t) : flat r ≤ flat t := by
  rw [← not_lt, flat_lt_iff ht.1 hr]
  have := (ns_sperm (pmfam_fam hr) ht.2).2
  rw [vf_fam hr, vf_fam ht.1] at this
  exact nsform_least hf this

/-! ## Negations and swaps -/

theorem snNormalize_spec {s₀ s : QuadSeq} (hs : SNRel n s₀ s) :
    SNRel n s₀ (snNormalize s) ∧ ∀ t, qv (snNormalize s) t < 0 := by
  have h0 : 0 < n := npos
  have step : ∀ (l : List Tag) (r : QuadSeq), SNRel n s₀ r → (∀ t, t ∉ l → qv r t < 0) →
      SNRel n s₀ (l.foldl (fun r t => if at0 (r.sequence t) 0 ≠ -1 then r.setSequence (negated (r.sequence t)) t else r) r) ∧
      ∀ t, qv (l.foldl (fun r t => if at0 (r.sequence t) 0 ≠ -1 then r.setSequence (negated (r.sequence t)) t else r) r) t < 0 := by
    intro l
    induction l with
    | nil => intro r hr h; exact ⟨hr, fun t => h t (List.not_mem_nil)⟩
    | cons x l ih =>
      intro r hr h
      rw [List.foldl_cons]
      have hh := qv_head h0 hr.1 x
      split
      · next hx =>
        refine ih _ (hr.neg x) fun t ht => ?_
        rw [qv_neg hr.1]
        split
        · next e => subst e; omega
        · next e => exact h t (by simp [e, ht])
      · next hx =>
        refine ih _ hr fun t ht => ?_
        by_cases e : t = x
        · subst e; omega
        · exact h t (by simp [e, ht])
  exact step tags s hs fun t ht => absurd (mem_tags t) ht

theorem snSs_spec {s : QuadSeq} (hs : PMQuad n s) : SNRel n s (snSsCanonical s) ∧ SNForm (qv (snSsCanonical s)) := by
  obtain ⟨h1, hneg⟩ := snNormalize_spec (SNRel.refl hs)
  generalize hc0 : snNormalize s = c0 at *
  -- first
  obtain ⟨c1, e1, r1, n1, a1, a2, a3⟩ : ∃ c, c = (if minTag c0 .W [.X, .Y, .Z] ≠ .W then
      swapTags c0 (.W, minTag c0 .W [.X, .Y, .Z]) else c0) ∧ SNRel n s c ∧ (∀ t, qv c t < 0) ∧ qv c .W ≤ qv c .X ∧
      qv c .W ≤ qv c .Y ∧ qv c .W ≤ qv c .Z := by
    refine ⟨_, rfl, ?_⟩
    obtain ⟨_, h2, h3⟩ := minTag_spec h1.1 .W [.X, .Y, .Z]
    have hx := h3 .X (by decide)
    have hy := h3 .Y (by decide)
    have hz := h3 .Z (by decide)
    clear h3
    generalize minTag c0 .W [.X, .Y, .Z] = m at *
    by_cases hm : m = .W
    · subst hm; rw [if_neg (by simp)]; exact ⟨h1, hneg, hx, hy, hz⟩
    · rw [if_pos hm]
      have hm' : ((Tag.W, m) : Tag × Tag).1 ≠ ((Tag.W, m) : Tag × Tag).2 := fun h => hm h.symm
      refine ⟨h1.swap hm', fun t => by rw [qv_swap hm']; exact hneg _, ?_⟩
      rw [qv_swap hm', qv_swap hm', qv_swap hm', qv_swap hm']
      cases m
      · exact absurd rfl hm
      all_goals simp only [Equiv.swap_apply_def, reduceCtorEq, if_true, if_false]
      all_goals omega
  obtain ⟨c2, e2, r2, n2, b1, b2, b3⟩ : ∃ c, c = (if minTag c1 .X [.Y, .Z] ≠ .X then
      swapTags c1 (.X, minTag c1 .X [.Y, .Z]) else c1) ∧ SNRel n s c ∧ (∀ t, qv c t < 0) ∧ qv c .W ≤ qv c .X ∧
      qv c .X ≤ qv c .Y ∧ qv c .X ≤ qv c .Z := by
    refine ⟨_, rfl, ?_⟩
    obtain ⟨k1, h2, h3⟩ := minTag_spec r1.1 .X [.Y, .Z]
    have hy := h3 .Y (by decide)
    have hz := h3 .Z (by decide)
    clear h3
    generalize minTag c1 .X [.Y, .Z] = m at *
    by_cases hm : m = .X
    · subst hm; rw [if_neg (by simp)]; exact ⟨r1, n1, a1, hy, hz⟩
    · rw [if_pos hm]
      have hm' : ((Tag.X, m) : Tag × Tag).1 ≠ ((Tag.X, m) : Tag × Tag).2 := fun h => hm h.symm
      refine ⟨r1.swap hm', fun t => by rw [qv_swap hm']; exact n1 _, ?_⟩
      rw [qv_swap hm', qv_swap hm', qv_swap hm', qv_swap hm']
      cases m
      · simp at k1
      · exact absurd rfl hm
      all_goals simp only [Equiv.swap_apply_def, reduceCtorEq, if_true, if_false]
      all_goals omega
  have ec : snSsCanonical s = if seqLessThan c2.d c2.c then swapTags c2 (.Y, .Z) else c2 := by
    rw [e2, e1, ← hc0]; rfl
  have hyz : ((Tag.Y, Tag.Z) : Tag × Tag).1 ≠ ((Tag.Y, Tag.Z) : Tag × Tag).2 := by decide
  have hlt := qv_slt r2.1 .Z .Y
  simp only [QuadSeq.sequence] at hlt
  have hY := n2 .Y
  have hZ := n2 .Z
  rw [ec]
  by_cases h : seqLessThan c2.d c2.c = true
  · rw [if_pos h]
    rw [hlt] at h
    refine ⟨r2.swap hyz, ?_⟩
    unfold SNForm
    rw [qv_swap hyz, qv_swap hyz, qv_swap hyz, qv_swap hyz]
    simp only [Equiv.swap_apply_def, reduceCtorEq, if_true, if_false]
    omega
  · rw [if_neg h]
    rw [hlt] at h
    exact ⟨r2, b1, b2, by omega, hZ⟩

theorem snform_min {r t : QuadSeq} (hr : PMQuad n r) (hf : SNForm (qv r)) (ht : SNRel n r t) : flat r ≤ flat t := by
  rw [← not_lt, flat_lt_iff ht.1 hr]
  have := (sn_sperm (pmfam_fam hr) ht.2).2
  rw [vf_fam hr, vf_fam ht.1] at this
  exact snform_least hf this

end orbits

end Proofs
