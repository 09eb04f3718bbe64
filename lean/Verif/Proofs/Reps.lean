import Verif.Proofs.Canonical
import Verif.Proofs.Overflow

/-!
# Canonical representatives of full classes, reductions, expansion of Williamson-type classes
-/

set_option linter.unusedSectionVars false
set_option linter.unusedVariables false
set_option linter.unusedSimpArgs false

namespace Proofs
open Model Spec

/-! ## Splitting a closure -/

theorem rtg_push {α : Type*} {H N : α → α → Prop} (comm : ∀ f g h, N f g → H g h → ∃ g', H f g' ∧ N g' h) {u b c : α}
    (h : Relation.ReflTransGen N u b) (hb : H b c) : ∃ u', H u u' ∧ Relation.ReflTransGen N u' c := by
  induction h generalizing c with
  | refl => exact ⟨c, hb, .refl⟩
  | tail _ h2 ih =>
    obtain ⟨g', h3, h4⟩ := comm _ _ _ h2 hb
    obtain ⟨u', h5, h6⟩ := ih h3
    exact ⟨u', h5, h6.tail h4⟩

theorem rtg_split {α : Type*} {R H N : α → α → Prop} (hR : ∀ f g, R f g → H f g ∨ N f g)
    (comm : ∀ f g h, N f g → H g h → ∃ g', H f g' ∧ N g' h) {a b : α} (h : Relation.ReflTransGen R a b) :
    ∃ u, Relation.ReflTransGen H a u ∧ Relation.ReflTransGen N u b := by
  induction h with
  | refl => exact ⟨a, .refl, .refl⟩
  | tail _ h2 ih =>
    obtain ⟨u, h3, h4⟩ := ih
    rcases hR _ _ h2 with h5 | h5
    · obtain ⟨u', h6, h7⟩ := rtg_push comm h4 h5
      exact ⟨u', h3.tail h6, h7⟩
    · exact ⟨u, h3, h4.tail h5⟩

section
variable {n : ℕ} [NeZero n]

/-! ## Commutation of the moves -/

theorem neg_shift (t₀ : Tag) (o : ZMod n) (f : Fam n) : shiftAll o (negAt t₀ f) = negAt t₀ (shiftAll o f) := rfl
theorem swap_shift (t₁ t₂ : Tag) (o : ZMod n) (f : Fam n) :
    shiftAll o (swapFam t₁ t₂ f) = swapFam t₁ t₂ (shiftAll o f) := rfl
theorem neg_aut (t₀ : Tag) (u : (ZMod n)ˣ) (f : Fam n) : autAll u (negAt t₀ f) = negAt t₀ (autAll u f) := rfl
theorem swap_aut (t₁ t₂ : Tag) (u : (ZMod n)ˣ) (f : Fam n) :
    autAll u (swapFam t₁ t₂ f) = swapFam t₁ t₂ (autAll u f) := rfl
theorem swap_alt (t₁ t₂ : Tag) (f : Fam n) : altAll (swapFam t₁ t₂ f) = swapFam t₁ t₂ (altAll f) := rfl
theorem neg_alt (t₀ : Tag) (f : Fam n) : altAll (negAt t₀ f) = negAt t₀ (altAll f) := by
  funext t i; unfold altAll negAt; simp only; split <;> ring
theorem neg_half (t₀ : Tag) (p : Tag → Bool) (f : Fam n) : halfAt p (negAt t₀ f) = negAt t₀ (halfAt p f) := by
  funext t i; unfold halfAt negAt; simp only; split_ifs <;> rfl
theorem swap_half (t₁ t₂ : Tag) (p : Tag → Bool) (f : Fam n) :
    halfAt p (swapFam t₁ t₂ f) = swapFam t₁ t₂ (halfAt (fun t => p (Equiv.swap t₁ t₂ t)) f) := by
  funext t i; unfold halfAt swapFam; simp only [Equiv.swap_apply_self]

/-- The moves of the QT relation without negate-swap. -/
def HQMove (f g : Fam n) : Prop := ShiftMove f g ∨ BaseMove f g ∨ DualMove f g

/-- The moves of the Williamson-type relation without negations and swaps. -/
def HWMove (f g : Fam n) : Prop := ShiftMove f g ∨ BaseMove f g ∨ SingleMove f g

theorem pres_HQ : Pres (n := n) HQMove := pres_or pres_shift (pres_or pres_base pres_dual)
theorem pres_HW : Pres (n := n) HWMove := pres_or pres_shift (pres_or pres_base pres_single)

theorem dual_swap {f : Fam n} {t₁ t₂ : Tag} {h : Fam n} (hm : DualMove (swapFam t₁ t₂ f) h) :
    ∃ g', DualMove f g' ∧ h = swapFam t₁ t₂ g' := by
  cases hm with
  | two he a b hab =>
    refine ⟨_, .two he (Equiv.swap t₁ t₂ a) (Equiv.swap t₁ t₂ b) (fun h => hab ((Equiv.swap t₁ t₂).injective h)), ?_⟩
    rw [swap_half]
    congr 1
    congr 1
    funext t
    refine decide_eq_decide.2 ?_
    constructor
    · rintro (h | h)
      · left; rw [← h, Equiv.swap_apply_self]
      · right; rw [← h, Equiv.swap_apply_self]
    · rintro (h | h)
      · left; rw [h, Equiv.swap_apply_self]
      · right; rw [h, Equiv.swap_apply_self]
  | four he => exact ⟨_, .four he, swap_half _ _ _ _⟩

theorem dual_neg {f : Fam n} {t₀ : Tag} {h : Fam n} (hm : DualMove (negAt t₀ f) h) :
    ∃ g', DualMove f g' ∧ h = negAt t₀ g' := by
  cases hm with
  | two he a b hab => exact ⟨_, .two he a b hab, neg_half _ _ _⟩
  | four he => exact ⟨_, .four he, neg_half _ _ _⟩

theorem single_swap {f : Fam n} {t₁ t₂ : Tag} {h : Fam n} (hm : SingleMove (swapFam t₁ t₂ f) h) :
    ∃ g', SingleMove f g' ∧ h = swapFam t₁ t₂ g' := by
  cases hm with
  | mk he a =>
    refine ⟨_, .mk he (Equiv.swap t₁ t₂ a), ?_⟩
    rw [swap_half]
    congr 1
    congr 1
    funext t
    refine decide_eq_decide.2 ?_
    constructor
    · intro h; rw [← h, Equiv.swap_apply_self]
    · intro h; rw [h, Equiv.swap_apply_self]

theorem single_neg {f : Fam n} {t₀ : Tag} {h : Fam n} (hm : SingleMove (negAt t₀ f) h) :
    ∃ g', SingleMove f g' ∧ h = negAt t₀ g' := by
  cases hm with
  | mk he a => exact ⟨_, .mk he a, neg_half _ _ _⟩

theorem base_neg {f : Fam n} {t₀ : Tag} {h : Fam n} (hm : BaseMove (negAt t₀ f) h) :
    ∃ g', BaseMove f g' ∧ h = negAt t₀ g' := by
  cases hm with
  | alt he => exact ⟨_, .alt he, neg_alt _ _⟩
  | aut u => exact ⟨_, .aut u, rfl⟩

theorem base_swap {f : Fam n} {t₁ t₂ : Tag} {h : Fam n} (hm : BaseMove (swapFam t₁ t₂ f) h) :
    ∃ g', BaseMove f g' ∧ h = swapFam t₁ t₂ g' := by
  cases hm with
  | alt he => exact ⟨_, .alt he, rfl⟩
  | aut u => exact ⟨_, .aut u, rfl⟩

theorem shift_neg {f : Fam n} {t₀ : Tag} {h : Fam n} (hm : ShiftMove (negAt t₀ f) h) :
    ∃ g', ShiftMove f g' ∧ h = negAt t₀ g' := by
  cases hm with
  | mk o => exact ⟨_, .mk o, rfl⟩

theorem shift_swap {f : Fam n} {t₁ t₂ : Tag} {h : Fam n} (hm : ShiftMove (swapFam t₁ t₂ f) h) :
    ∃ g', ShiftMove f g' ∧ h = swapFam t₁ t₂ g' := by
  cases hm with
  | mk o => exact ⟨_, .mk o, rfl⟩

theorem HQ_neg {f : Fam n} {t₀ : Tag} {h : Fam n} (hm : HQMove (negAt t₀ f) h) : ∃ g', HQMove f g' ∧ h = negAt t₀ g' := by
  rcases hm with hm | hm | hm
  · obtain ⟨g', h1, h2⟩ := shift_neg hm; exact ⟨g', .inl h1, h2⟩
  · obtain ⟨g', h1, h2⟩ := base_neg hm; exact ⟨g', .inr (.inl h1), h2⟩
  · obtain ⟨g', h1, h2⟩ := dual_neg hm; exact ⟨g', .inr (.inr h1), h2⟩

theorem HQ_swap {f : Fam n} {t₁ t₂ : Tag} {h : Fam n} (hm : HQMove (swapFam t₁ t₂ f) h) :
    ∃ g', HQMove f g' ∧ h = swapFam t₁ t₂ g' := by
  rcases hm with hm | hm | hm
  · obtain ⟨g', h1, h2⟩ := shift_swap hm; exact ⟨g', .inl h1, h2⟩
  · obtain ⟨g', h1, h2⟩ := base_swap hm; exact ⟨g', .inr (.inl h1), h2⟩
  · obtain ⟨g', h1, h2⟩ := dual_swap hm; exact ⟨g', .inr (.inr h1), h2⟩

theorem HW_neg {f : Fam n} {t₀ : Tag} {h : Fam n} (hm : HWMove (negAt t₀ f) h) : ∃ g', HWMove f g' ∧ h = negAt t₀ g' := by
  rcases hm with hm | hm | hm
  · obtain ⟨g', h1, h2⟩ := shift_neg hm; exact ⟨g', .inl h1, h2⟩
  · obtain ⟨g', h1, h2⟩ := base_neg hm; exact ⟨g', .inr (.inl h1), h2⟩
  · obtain ⟨g', h1, h2⟩ := single_neg hm; exact ⟨g', .inr (.inr h1), h2⟩

theorem HW_swap {f : Fam n} {t₁ t₂ : Tag} {h : Fam n} (hm : HWMove (swapFam t₁ t₂ f) h) :
    ∃ g', HWMove f g' ∧ h = swapFam t₁ t₂ g' := by
  rcases hm with hm | hm | hm
  · obtain ⟨g', h1, h2⟩ := shift_swap hm; exact ⟨g', .inl h1, h2⟩
  · obtain ⟨g', h1, h2⟩ := base_swap hm; exact ⟨g', .inr (.inl h1), h2⟩
  · obtain ⟨g', h1, h2⟩ := single_swap hm; exact ⟨g', .inr (.inr h1), h2⟩

theorem qt_split {f g : Fam n} (h : QTEquiv f g) :
    ∃ u, Relation.EqvGen HQMove f u ∧ NSEquiv u g := by
  unfold QTEquiv at h
  rw [eqvGen_pres pres_QT] at h
  obtain ⟨u, h1, h2⟩ := rtg_split (H := HQMove) (N := NSMove)
    (by rintro f g (h | h | h | h)
        · exact .inl (.inl h)
        · exact .inl (.inr (.inl h))
        · exact .inl (.inr (.inr h))
        · exact .inr h)
    (by rintro f g h ⟨t₀, t₁, t₂, h12⟩ hm
        obtain ⟨g1, k1, rfl⟩ := HQ_swap hm
        obtain ⟨g2, k2, rfl⟩ := HQ_neg k1
        exact ⟨g2, k2, .mk _ _ _ h12⟩) h
  exact ⟨u, (eqvGen_pres pres_HQ _ _).2 h1, (eqvGen_pres pres_NS _ _).2 h2⟩

theorem wt_split {f g : Fam n} (h : WTEquiv f g) :
    ∃ u, Relation.EqvGen HWMove f u ∧ SNEquiv u g := by
  unfold WTEquiv at h
  rw [eqvGen_pres pres_WT] at h
  obtain ⟨u, h1, h2⟩ := rtg_split (H := HWMove) (N := SNMove)
    (by rintro f g (h | h | h | h)
        · exact .inl (.inl h)
        · exact .inl (.inr (.inl h))
        · exact .inl (.inr (.inr h))
        · exact .inr h)
    (by intro f g h hN hm
        cases hN with
        | neg t₀ =>
          obtain ⟨g2, k2, rfl⟩ := HW_neg hm
          exact ⟨g2, k2, .neg _⟩
        | swap t₁ t₂ h12 =>
          obtain ⟨g1, k1, rfl⟩ := HW_swap hm
          exact ⟨g1, k1, .swap _ _ h12⟩) h
  exact ⟨u, (eqvGen_pres pres_HW _ _).2 h1, (eqvGen_pres pres_SN _ _).2 h2⟩

theorem eqvGen_sub {α : Type*} {R S : α → α → Prop} (h : ∀ a b, R a b → S a b) {a b : α} (H : Relation.EqvGen R a b) :
    Relation.EqvGen S a b := by
  induction H with
  | rel x y h' => exact .rel _ _ (h _ _ h')
  | refl x => exact .refl _
  | symm x y _ ih => exact .symm _ _ ih
  | trans x y z _ _ h1 h2 => exact .trans _ _ _ h1 h2

theorem ns_qt {f g : Fam n} (h : NSEquiv f g) : QTEquiv f g :=
  eqvGen_sub (fun _ _ h => .inr (.inr (.inr h))) h

theorem sn_wt {f g : Fam n} (h : SNEquiv f g) : WTEquiv f g :=
  eqvGen_sub (fun _ _ h => .inr (.inr (.inr h))) h

theorem hq_qt {f g : Fam n} (h : Relation.EqvGen HQMove f g) : QTEquiv f g :=
  eqvGen_sub (by rintro f g (h | h | h)
                 · exact .inl h
                 · exact .inr (.inl h)
                 · exact .inr (.inr (.inl h))) h

theorem hw_wt {f g : Fam n} (h : Relation.EqvGen HWMove f g) : WTEquiv f g :=
  eqvGen_sub (by rintro f g (h | h | h)
                 · exact .inl h
                 · exact .inr (.inl h)
                 · exact .inr (.inr (.inl h))) h

/-! ## Steps of the operation lists used for canonical representatives -/

theorem step_hq (hn : n ≤ 100) {s : QuadSeq} (hs : Wf n s) (t : QuadSeq) :
    Step (canonicalOps .quaternionType) s t ↔ t = s ∨ ∃ g, HQMove (fam n s) g ∧ t = ofFam n g := by
  simp only [Step, canonicalOps, List.mem_cons, List.not_mem_nil, or_false, exists_eq_or_imp, exists_eq_left,
    uniformShift_is s hs t, evenAlternatedNegation_is s hs t, automorphism_is hn s hs t, dualHalfShift_is s hs t]
  constructor
  · rintro ((h | ⟨g, ⟨u, h⟩, e⟩) | (h | ⟨g, h, e⟩) | (h | ⟨g, h, e⟩) | (h | ⟨g, h, e⟩))
    any_goals first | exact .inl h | skip
    · exact .inr ⟨g, .inr (.inl (h ▸ .aut u)), e⟩
    · exact .inr ⟨g, .inr (.inl (h.2 ▸ .alt h.1)), e⟩
    · exact .inr ⟨g, .inl h, e⟩
    · exact .inr ⟨g, .inr (.inr h), e⟩
  · rintro (h | ⟨g, h | h | h, e⟩)
    · exact .inl (.inl h)
    · exact .inr (.inr (.inl (.inr ⟨g, h, e⟩)))
    · cases h with
      | alt h => exact .inr (.inl (.inr ⟨_, ⟨h, rfl⟩, e⟩))
      | aut u => exact .inl (.inr ⟨_, ⟨u, rfl⟩, e⟩)
    · exact .inr (.inr (.inr (.inr ⟨g, h, e⟩)))

theorem step_hw (hn : n ≤ 100) {ty : SeqType} (hty : ty ≠ .quaternionType) {s : QuadSeq} (hs : Wf n s) (t : QuadSeq) :
    Step (canonicalOps ty) s t ↔ t = s ∨ ∃ g, HWMove (fam n s) g ∧ t = ofFam n g := by
  have hc : canonicalOps ty = [equivalentAutomorphism, equivalentEvenAlternatedNegation, equivalentUniformShift,
      equivalentUniformHalfShift] := by
    cases ty <;> first | exact absurd rfl hty | rfl
  simp only [hc, Step, List.mem_cons, List.not_mem_nil, or_false, exists_eq_or_imp, exists_eq_left,
    uniformShift_is s hs t, evenAlternatedNegation_is s hs t, automorphism_is hn s hs t, uniformHalfShift_is s hs t]
  constructor
  · rintro ((h | ⟨g, ⟨u, h⟩, e⟩) | (h | ⟨g, h, e⟩) | (h | ⟨g, h, e⟩) | (h | ⟨g, h, e⟩))
    any_goals first | exact .inl h | skip
    · exact .inr ⟨g, .inr (.inl (h ▸ .aut u)), e⟩
    · exact .inr ⟨g, .inr (.inl (h.2 ▸ .alt h.1)), e⟩
    · exact .inr ⟨g, .inl h, e⟩
    · exact .inr ⟨g, .inr (.inr h), e⟩
  · rintro (h | ⟨g, h | h | h, e⟩)
    · exact .inl (.inl h)
    · exact .inr (.inr (.inl (.inr ⟨g, h, e⟩)))
    · cases h with
      | alt h => exact .inr (.inl (.inr ⟨_, ⟨h, rfl⟩, e⟩))
      | aut u => exact .inl (.inr ⟨_, ⟨u, rfl⟩, e⟩)
    · exact .inr (.inr (.inr (.inr ⟨g, h, e⟩)))

theorem reach_pm (hn : n ≤ 100) {ops : List Op} (hops : ∀ op ∈ ops, op ∈ allOps) {s t : QuadSeq} (hs : PMQuad n s)
    (h : Reach ops s t) : PMQuad n t := by
  have hg : ∀ op ∈ ops, GoodOp n op := fun op h => good_all hn op (hops op h)
  refine pmquad_iff.2 ⟨reach_wf hg (PMQuad.wf hs) h, ?_⟩
  exact reach_ent (V := {x | x = 1 ∨ x = -1}) hg (by rintro x (rfl | rfl) <;> simp) (PMQuad.wf hs) (pmfam_fam hs) h

/-! ## The canonical representative is the least element of the full class -/

/-- The ±1 quadruples related to `s` by `R`. -/
def Cls (n : ℕ) (R : Fam n → Fam n → Prop) (s t : QuadSeq) : Prop := PMQuad n t ∧ R (fam n s) (fam n t)

theorem qtCanonical_qt (hn : n ≤ 31) {s : QuadSeq} (hs : PMQuad n s) {G : List QuadSeq}
    (hG : generateSymmetryGroup n (canonicalOps .quaternionType) = some G) :
    ∃ r, qtCanonical s G .quaternionType = some r ∧ IsLeastQ (Cls n QTEquiv s) r := by
  have hg : ∀ op ∈ canonicalOps .quaternionType, GoodOp n op :=
    fun op h => good_all (by omega) op (canonicalOps_sub _ op h)
  obtain ⟨G', c, h1, h2, _, h4⟩ := fast_spec hn hg (PMQuad.wf hs)
  rw [hG] at h1; cases h1
  have hpm : ∀ t ∈ c, PMQuad n t := fun t ht => reach_pm (by omega) (canonicalOps_sub _) hs ((h4 t).1 ht)
  have hreach := fun t => reach_iff pres_HQ (fun s hs t => step_hq (n := n) (by omega) hs t) (PMQuad.wf hs) t
  set φ : QuadSeq → QuadSeq := fun t => (nsCanonical t).getD t with hφ
  have hsome : ∀ t ∈ c, nsCanonical t = some (φ t) ∧ NSRel n t (φ t) ∧ NSForm (qv (φ t)) := by
    intro t ht
    obtain ⟨r, e, h5, h6⟩ := nsCanonical_spec (hpm t ht)
    have : φ t = r := by rw [hφ]; simp only [e, Option.getD_some]
    rw [this]; exact ⟨e, h5, h6⟩
  have hm : c.mapM nsCanonical = some (c.map φ) := mapM_some fun t ht => (hsome t ht).1
  have hsc : s ∈ c := (h4 s).2 .refl
  obtain ⟨r, e, hr⟩ := minBy_spec (n := n) (l := c.map φ) (by
      intro h; rw [List.map_eq_nil_iff] at h; rw [h] at hsc; exact absurd hsc (List.not_mem_nil))
    (by intro t ht
        obtain ⟨u, hu, rfl⟩ := List.mem_map.1 ht
        exact pm_len (hsome u hu).2.1.1)
  refine ⟨r, by simp only [qtCanonical, h2, Option.bind_some, hm, e], ?_, ?_⟩
  · obtain ⟨u, hu, rfl⟩ := List.mem_map.1 hr.1
    refine ⟨(hsome u hu).2.1.1, .trans _ _ _ (hq_qt ?_) (ns_qt (hsome u hu).2.1.2)⟩
    exact ((hreach u).1 ((h4 u).1 hu)).2
  · intro t ht
    obtain ⟨f, k1, k2⟩ := qt_split ht.2
    have hpf : PMFam f := (ns_sperm (pmfam_fam ht.1) (.symm _ _ k2)).1
    have hu : ofFam n f ∈ c := by
      rw [h4, hreach]
      exact ⟨wf_ofFam hpf.bd, by rw [fam_ofFam]; exact k1⟩
    refine (hr.2 _ (List.mem_map.2 ⟨_, hu, rfl⟩)).trans ?_
    obtain ⟨_, k3, k4⟩ := hsome _ hu
    refine nsform_min k3.1 k4 ⟨ht.1, .trans _ _ _ (.symm _ _ k3.2) ?_⟩
    rw [fam_ofFam]; exact k2

theorem qtCanonical_wt (hn : n ≤ 31) {ty : SeqType} (hty : ty = .williamsonType ∨ ty = .williamson) {s : QuadSeq}
    (hs : PMQuad n s) {G : List QuadSeq} (hG : generateSymmetryGroup n (canonicalOps ty) = some G) :
    ∃ r, qtCanonical s G ty = some r ∧ IsLeastQ (Cls n WTEquiv s) r := by
  have hne : ty ≠ .quaternionType := by rcases hty with rfl | rfl <;> decide
  have hg : ∀ op ∈ canonicalOps ty, GoodOp n op :=
    fun op h => good_all (by omega) op (canonicalOps_sub _ op h)
  obtain ⟨G', c, h1, h2, _, h4⟩ := fast_spec hn hg (PMQuad.wf hs)
  rw [hG] at h1; cases h1
  have hpm : ∀ t ∈ c, PMQuad n t := fun t ht => reach_pm (by omega) (canonicalOps_sub _) hs ((h4 t).1 ht)
  have hreach := fun t => reach_iff pres_HW (fun s hs t => step_hw (n := n) (by omega) hne hs t) (PMQuad.wf hs) t
  have hsc : s ∈ c := (h4 s).2 .refl
  obtain ⟨r, e, hr⟩ := minBy_spec (n := n) (l := c.map snSsCanonical) (by
      intro h; rw [List.map_eq_nil_iff] at h; rw [h] at hsc; exact absurd hsc (List.not_mem_nil))
    (by intro t ht
        obtain ⟨u, hu, rfl⟩ := List.mem_map.1 ht
        exact pm_len (snSs_spec (hpm u hu)).1.1)
  refine ⟨r, ?_, ?_, ?_⟩
  · rcases hty with rfl | rfl <;> simp only [qtCanonical, h2, Option.bind_some, e]
  · obtain ⟨u, hu, rfl⟩ := List.mem_map.1 hr.1
    have k := (snSs_spec (hpm u hu)).1
    exact ⟨k.1, .trans _ _ _ (hw_wt ((hreach u).1 ((h4 u).1 hu)).2) (sn_wt k.2)⟩
  · intro t ht
    obtain ⟨f, k1, k2⟩ := wt_split ht.2
    have hpf : PMFam f := (sn_sperm (pmfam_fam ht.1) (.symm _ _ k2)).1
    have hu : ofFam n f ∈ c := by
      rw [h4, hreach]
      exact ⟨wf_ofFam hpf.bd, by rw [fam_ofFam]; exact k1⟩
    refine (hr.2 _ (List.mem_map.2 ⟨_, hu, rfl⟩)).trans ?_
    obtain ⟨k3, k4⟩ := snSs_spec (hpm _ hu)
    refine snform_min k3.1 k4 ⟨ht.1, .trans _ _ _ (.symm _ _ k3.2) ?_⟩
    rw [fam_ofFam]; exact k2

/-- The relation whose least elements `qt_canonical` computes. -/
def CanEquiv : SeqType → Fam n → Fam n → Prop
  | .quaternionType => QTEquiv
  | _ => WTEquiv

/-- The types `qt_canonical` is implemented for. -/
def CanType (ty : SeqType) : Prop := ty = .quaternionType ∨ ty = .williamsonType ∨ ty = .williamson

theorem canEquiv_equiv (ty : SeqType) : Equivalence (CanEquiv ty (n := n)) := by
  have hE : ∀ R : Fam n → Fam n → Prop, Equivalence (Relation.EqvGen R) := fun R =>
    ⟨.refl, fun h => .symm _ _ h, fun h1 h2 => .trans _ _ _ h1 h2⟩
  cases ty <;> exact hE _

theorem qtCanonical_spec (hn : n ≤ 31) {ty : SeqType} (hty : CanType ty) {s : QuadSeq}
    (hs : PMQuad n s) {G : List QuadSeq} (hG : generateSymmetryGroup n (canonicalOps ty) = some G) :
    ∃ r, qtCanonical s G ty = some r ∧ IsLeastQ (Cls n (CanEquiv ty) s) r := by
  rcases hty with rfl | h
  · exact qtCanonical_qt hn hs hG
  · have := qtCanonical_wt hn h hs hG
    rcases h with rfl | rfl <;> exact this

theorem group_exists (hn : n ≤ 31) {ops : List Op} (hops : ∀ op ∈ ops, op ∈ allOps) :
    ∃ G, generateSymmetryGroup n ops = some G := by
  have hg : ∀ op ∈ ops, GoodOp n op := fun op h => good_all (by omega) op (hops op h)
  obtain ⟨G, hG, _⟩ := generateEquivalenceClass_spec hg (labelSeq_wf hn (n := n))
  exact ⟨G, hG⟩

theorem cls_uniform (R : Fam n → Fam n → Prop) (s : QuadSeq) : Uniform n (Cls n R s) :=
  fun t h => ⟨h.1.size, pm_len h.1⟩

/-- Representatives of related quadruples are equal, and conversely. -/
theorem rep_eq_iff {R : Fam n → Fam n → Prop} (hR : Equivalence R) {s t r r' : QuadSeq} (hs : PMQuad n s) (ht : PMQuad n t)
    (h : IsLeastQ (Cls n R s) r) (h' : IsLeastQ (Cls n R t) r') : r = r' ↔ R (fam n s) (fam n t) := by
  constructor
  · rintro rfl
    exact hR.trans h.1.2 (hR.symm h'.1.2)
  · intro hst
    refine IsLeastQ.unique (cls_uniform R s) h ⟨⟨h'.1.1, hR.trans hst h'.1.2⟩, fun u hu => ?_⟩
    exact h'.2 u ⟨hu.1, hR.trans (hR.symm hst) hu.2⟩

/-! ## Reductions -/

theorem unique_mem {α : Type} [DecidableEq α] (l acc : List α) (h : acc.Nodup) :
    (l.foldl (fun acc x => if x ∈ acc then acc else acc ++ [x]) acc).Nodup ∧
      ∀ x, x ∈ l.foldl (fun acc x => if x ∈ acc then acc else acc ++ [x]) acc ↔ x ∈ acc ∨ x ∈ l := by
  induction l generalizing acc with
  | nil => simp [h]
  | cons y l ih =>
    rw [List.foldl_cons]
    split
    · next hy =>
      obtain ⟨h1, h2⟩ := ih acc h
      refine ⟨h1, fun x => ?_⟩
      rw [h2, List.mem_cons]
      constructor
      · tauto
      · rintro (h | rfl | h) <;> tauto
    · next hy =>
      obtain ⟨h1, h2⟩ := ih (acc ++ [y]) (by
        rw [List.nodup_append]
        refine ⟨h, List.nodup_singleton y, ?_⟩
        intro a ha b hb
        rw [List.mem_singleton] at hb
        rintro rfl; exact hy (hb ▸ ha))
      refine ⟨h1, fun x => ?_⟩
      rw [h2, List.mem_append, List.mem_singleton, List.mem_cons]
      tauto

theorem unique_spec {α : Type} [DecidableEq α] (l : List α) : (unique l).Nodup ∧ ∀ x, x ∈ unique l ↔ x ∈ l := by
  have := unique_mem l [] List.nodup_nil
  refine ⟨this.1, fun x => ?_⟩
  unfold unique
  rw [this.2]
  simp

theorem reduce_spec (hn : n ≤ 31) {ty : SeqType} (hty : CanType ty) {l : List QuadSeq} (hne : l ≠ [])
    (hl : ∀ s ∈ l, PMQuad n s) :
    ∃ r, reduceToCanonicalReps l ty = some r ∧ r.Nodup ∧
      ∀ x, x ∈ r ↔ ∃ s ∈ l, IsLeastQ (Cls n (CanEquiv ty) s) x := by
  obtain ⟨G, hG⟩ := group_exists (n := n) hn (canonicalOps_sub ty)
  cases l with
  | nil => exact absurd rfl hne
  | cons s0 l =>
    have h0 : s0.size = n := (hl s0 List.mem_cons_self).size
    set φ : QuadSeq → QuadSeq := fun t => (qtCanonical t G ty).getD t with hφ
    have hsome : ∀ t ∈ s0 :: l, qtCanonical t G ty = some (φ t) ∧ IsLeastQ (Cls n (CanEquiv ty) t) (φ t) := by
      intro t ht
      obtain ⟨r, e, h5⟩ := qtCanonical_spec hn hty (hl t ht) hG
      have : φ t = r := by rw [hφ]; simp only [e, Option.getD_some]
      rw [this]; exact ⟨e, h5⟩
    have hm : (s0 :: l).mapM (fun s => qtCanonical s G ty) = some ((s0 :: l).map φ) :=
      mapM_some fun t ht => (hsome t ht).1
    refine ⟨unique ((s0 :: l).map φ), ?_, (unique_spec _).1, fun x => ?_⟩
    · unfold reduceToCanonicalReps
      simp only [h0, hG, Option.bind_some, hm, Option.map_some]
    · rw [(unique_spec _).2, List.mem_map]
      constructor
      · rintro ⟨s, hs, rfl⟩
        exact ⟨s, hs, (hsome s hs).2⟩
      · rintro ⟨s, hs, h⟩
        exact ⟨s, hs, IsLeastQ.unique (cls_uniform _ s) (hsome s hs).2 h⟩

end

end Proofs
