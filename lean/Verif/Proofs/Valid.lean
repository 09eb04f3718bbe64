import Verif.Proofs.Coprime
import Mathlib.Tactic.LinearCombination

/-!
# The equivalence moves preserve validity
-/

set_option linter.unusedSectionVars false
set_option linter.unusedVariables false

namespace Proofs
open Model Spec

variable {n : ℕ} [NeZero n]

/-- Sum of the four autocorrelations. -/
def comp (f : Fam n) (t : ZMod n) : ℤ := paf (f .W) t + paf (f .X) t + paf (f .Y) t + paf (f .Z) t

/-- Valid family: ±1 entries, complementary, pairwise amicable. -/
structure ValidF (f : Fam n) : Prop where
  pm : PMFam f
  comp : ∀ t, t ≠ 0 → Proofs.comp f t = 0
  ami : ∀ p q, Amicable (f p) (f q)

/-- Symmetric valid family. -/
structure SymF (f : Fam n) : Prop where
  pm : PMFam f
  comp : ∀ t, t ≠ 0 → Proofs.comp f t = 0
  sym : ∀ p, Symm (f p)

theorem amicable_self (x : ZMod n → ℤ) : Amicable x x := fun _ => rfl

theorem Amicable.symm' {x y : ZMod n → ℤ} (h : Spec.Amicable x y) : Spec.Amicable y x := fun t => (h t).symm

theorem isWTS_iff {s : QuadSeq} : IsWTS n s ↔ Wf n s ∧ ValidF (fam n s) := by
  unfold IsWTS
  rw [pmquad_iff]
  constructor
  · rintro ⟨⟨h1, h2⟩, h3, h4, h5, h6, h7, h8, h9⟩
    refine ⟨h1, h2, h3, fun p q => ?_⟩
    cases p <;> cases q <;> first
      | exact amicable_self _
      | exact h4 | exact h5 | exact h6 | exact h7 | exact h8 | exact h9
      | exact Amicable.symm' h4 | exact Amicable.symm' h5 | exact Amicable.symm' h6
      | exact Amicable.symm' h7 | exact Amicable.symm' h8 | exact Amicable.symm' h9
  · rintro ⟨h1, h2, h3, h4⟩
    exact ⟨⟨h1, h2⟩, h3, h4 .W .X, h4 .W .Y, h4 .W .Z, h4 .X .Y, h4 .X .Z, h4 .Y .Z⟩

theorem isWS_iff {s : QuadSeq} : IsWS n s ↔ Wf n s ∧ SymF (fam n s) := by
  unfold IsWS
  rw [pmquad_iff]
  constructor
  · rintro ⟨⟨h1, h2⟩, h3, h4, h5, h6, h7⟩
    exact ⟨h1, h2, h3, tag_cases h4 h5 h6 h7⟩
  · rintro ⟨h1, h2, h3, h4⟩
    exact ⟨⟨h1, h2⟩, h3, h4 .W, h4 .X, h4 .Y, h4 .Z⟩

theorem SymF.valid {f : Fam n} (h : SymF f) : ValidF f :=
  ⟨h.pm, h.comp, fun p q => amicable_of_symm (h.sym p) (h.sym q)⟩

/-! ## Correlations of transformed sequences -/

theorem paf_neg (x : ZMod n → ℤ) (t : ZMod n) : paf (fun i => -x i) t = paf x t := by simp [paf]

theorem ccf_negl (x y : ZMod n → ℤ) (t : ZMod n) : ccf (fun i => -x i) y t = -ccf x y t := by simp [ccf]

theorem ccf_negr (x y : ZMod n → ℤ) (t : ZMod n) : ccf x (fun i => -y i) t = -ccf x y t := by simp [ccf]

theorem paf_shift (x : ZMod n → ℤ) (o t : ZMod n) : paf (fun i => x (i + o)) t = paf x t := by
  unfold paf
  refine Fintype.sum_equiv (Equiv.addRight o) _ _ fun i => ?_
  simp only [Equiv.coe_addRight]
  rw [show i + t + o = i + o + t by ring]

theorem ccf_shift (x y : ZMod n → ℤ) (o p t : ZMod n) :
    ccf (fun i => x (i + o)) (fun i => y (i + p)) t = ccf x y (t + o - p) := by
  unfold ccf
  refine Fintype.sum_equiv (Equiv.addRight o) _ _ fun i => ?_
  simp only [Equiv.coe_addRight]
  rw [show i - t + p = i + o - (t + o - p) by ring]

theorem ccf_shift_same (x y : ZMod n → ℤ) (o t : ZMod n) :
    ccf (fun i => x (i + o)) (fun i => y (i + o)) t = ccf x y t := by
  rw [ccf_shift]; congr 1; ring

theorem paf_aut (x : ZMod n → ℤ) (u : (ZMod n)ˣ) (t : ZMod n) : paf (fun i => x ((u : ZMod n) * i)) t = paf x (u * t) := by
  unfold paf
  refine Fintype.sum_equiv (Units.mulLeft u) _ _ fun i => ?_
  simp only [Units.mulLeft_apply]
  rw [mul_add]

theorem ccf_aut (x y : ZMod n → ℤ) (u : (ZMod n)ˣ) (t : ZMod n) :
    ccf (fun i => x ((u : ZMod n) * i)) (fun i => y ((u : ZMod n) * i)) t = ccf x y (u * t) := by
  unfold ccf
  refine Fintype.sum_equiv (Units.mulLeft u) _ _ fun i => ?_
  simp only [Units.mulLeft_apply]
  rw [mul_sub]

theorem chi_add (hn : Even n) (i j : ZMod n) : ((-1 : ℤ)) ^ (i + j).val = (-1) ^ i.val * (-1) ^ j.val := by
  rw [ZMod.val_add, ← pow_add]
  conv_rhs => rw [← Nat.mod_add_div (i.val + j.val) n]
  rw [pow_add _ ((i.val + j.val) % n), (hn.mul_right _).neg_one_pow, mul_one]

theorem chi_sq (i : ZMod n) : ((-1 : ℤ)) ^ i.val * (-1) ^ i.val = 1 := by
  rcases neg_one_pow_eq_or ℤ i.val with e | e <;> rw [e] <;> rfl

theorem chi_neg (hn : Even n) (i : ZMod n) : ((-1 : ℤ)) ^ (-i).val = (-1) ^ i.val := by
  have h := chi_add hn (-i) i
  rw [neg_add_cancel, ZMod.val_zero, pow_zero] at h
  have := chi_sq i
  have := chi_sq (-i)
  rcases neg_one_pow_eq_or ℤ i.val with e | e <;> rcases neg_one_pow_eq_or ℤ (-i).val with e' | e' <;>
    rw [e, e'] at h <;> rw [e, e'] <;> omega

theorem paf_alt (hn : Even n) (x : ZMod n → ℤ) (t : ZMod n) :
    paf (fun i => (-1) ^ i.val * x i) t = (-1) ^ t.val * paf x t := by
  unfold paf
  rw [Finset.mul_sum]
  refine Finset.sum_congr rfl fun i _ => ?_
  simp only
  rw [chi_add hn]
  linear_combination ((-1) ^ t.val * x i * x (i + t)) * chi_sq i

theorem ccf_alt (hn : Even n) (x y : ZMod n → ℤ) (t : ZMod n) :
    ccf (fun i => (-1) ^ i.val * x i) (fun i => (-1) ^ i.val * y i) t = (-1) ^ t.val * ccf x y t := by
  unfold ccf
  rw [Finset.mul_sum]
  refine Finset.sum_congr rfl fun i _ => ?_
  simp only
  rw [sub_eq_add_neg, chi_add hn, chi_neg hn]
  linear_combination ((-1) ^ t.val * x i * y (i + -t)) * chi_sq i

theorem paf_rev (x : ZMod n → ℤ) (t : ZMod n) : paf (fun i => x (-i - 1)) t = paf x t := by
  unfold paf
  refine Fintype.sum_equiv ((Equiv.neg _).trans (Equiv.addRight (-1 - t))) _ _ fun i => ?_
  simp only [Equiv.trans_apply, Equiv.neg_apply, Equiv.coe_addRight]
  rw [mul_comm, show -(i + t) - 1 = -i + (-1 - t) by ring, show -i + (-1 - t) + t = -i - 1 by ring]

theorem ccf_rev (x y : ZMod n → ℤ) (t : ZMod n) :
    ccf (fun i => x (-i - 1)) (fun i => y (-i - 1)) t = ccf x y (-t) := by
  unfold ccf
  refine Fintype.sum_equiv ((Equiv.neg _).trans (Equiv.addRight (-1))) _ _ fun i => ?_
  simp only [Equiv.trans_apply, Equiv.neg_apply, Equiv.coe_addRight]
  rw [show -(i - t) - 1 = -i + -1 - -t by ring, show -i - 1 = -i + -1 by ring]

/-! ## Preservation of validity -/

theorem half_two (hn : Even n) : ((n / 2 : ℕ) : ZMod n) + ((n / 2 : ℕ) : ZMod n) = 0 := by
  obtain ⟨k, hk⟩ := hn
  rw [← Nat.cast_add, show n / 2 + n / 2 = n by omega, ZMod.natCast_self]

theorem comp_swap (t₁ t₂ : Tag) (f : Fam n) (t : ZMod n) : comp (swapFam t₁ t₂ f) t = comp f t := by
  unfold comp swapFam
  cases t₁ <;> cases t₂ <;> simp [Equiv.swap_apply_def] <;> ring

theorem paf_negAt (t₀ : Tag) (f : Fam n) (tg : Tag) (t : ZMod n) : paf (negAt t₀ f tg) t = paf (f tg) t := by
  unfold negAt
  by_cases h : tg = t₀
  · simp only [h, if_true]; exact paf_neg _ _
  · simp only [h, if_false]

theorem comp_neg (t₀ : Tag) (f : Fam n) (t : ZMod n) : comp (negAt t₀ f) t = comp f t := by
  unfold comp; simp only [paf_negAt]

theorem amicable_negAt {f : Fam n} (h : ∀ p q, Amicable (f p) (f q)) (t₀ p q : Tag) :
    Amicable (negAt t₀ f p) (negAt t₀ f q) := by
  intro t
  have e : ∀ p, negAt t₀ f p = if p = t₀ then (fun i => -f p i) else f p := by
    intro p; funext i; unfold negAt; split <;> rfl
  have := h p q t
  rw [e p, e q]
  by_cases hp : p = t₀ <;> by_cases hq : q = t₀ <;>
    simp only [hp, hq, if_true, if_false, ccf_negl, ccf_negr] <;> subst_vars <;> omega

theorem pm_negAt {f : Fam n} (h : PMFam f) (t₀ : Tag) : PMFam (negAt t₀ f) := by
  intro t i
  have := h t i
  unfold negAt
  split <;> omega

theorem pm_altAll {f : Fam n} (h : PMFam f) : PMFam (altAll f) := by
  intro t i
  have := h t i
  unfold altAll
  rcases neg_one_pow_eq_or ℤ i.val with e | e <;> rw [e] <;> omega

theorem pm_halfAt {f : Fam n} (h : PMFam f) (p : Tag → Bool) : PMFam (halfAt p f) := by
  intro t i
  unfold halfAt
  split <;> exact h t _

theorem valid_negAt {f : Fam n} (h : ValidF f) (t₀ : Tag) : ValidF (negAt t₀ f) :=
  ⟨pm_negAt h.pm t₀, fun t ht => by rw [comp_neg]; exact h.comp t ht, amicable_negAt h.ami t₀⟩

theorem valid_swapFam {f : Fam n} (h : ValidF f) (t₁ t₂ : Tag) : ValidF (swapFam t₁ t₂ f) :=
  ⟨fun t i => h.pm _ i, fun t ht => by rw [comp_swap]; exact h.comp t ht, fun p q => h.ami _ _⟩

theorem valid_shiftAll {f : Fam n} (h : ValidF f) (o : ZMod n) : ValidF (shiftAll o f) := by
  refine ⟨fun t i => h.pm _ _, fun t ht => ?_, fun p q t => ?_⟩
  · have := h.comp t ht
    unfold comp shiftAll at *
    simpa only [paf_shift] using this
  · unfold shiftAll; rw [ccf_shift_same, ccf_shift_same]; exact h.ami p q t

theorem valid_altAll (hn : Even n) {f : Fam n} (h : ValidF f) : ValidF (altAll f) := by
  refine ⟨pm_altAll h.pm, fun t ht => ?_, fun p q t => ?_⟩
  · have := h.comp t ht
    unfold comp altAll at *
    simp only [paf_alt hn]
    rw [← mul_add, ← mul_add, ← mul_add, this, mul_zero]
  · unfold altAll; rw [ccf_alt hn, ccf_alt hn, h.ami p q t]

theorem valid_autAll {f : Fam n} (h : ValidF f) (u : (ZMod n)ˣ) : ValidF (autAll u f) := by
  refine ⟨fun t i => h.pm _ _, fun t ht => ?_, fun p q t => ?_⟩
  · have := h.comp (u * t) (by rwa [Ne, Units.mul_right_eq_zero])
    unfold comp autAll at *
    simpa only [paf_aut] using this
  · unfold autAll; rw [ccf_aut, ccf_aut]; exact h.ami p q _

theorem halfAt_eq (p : Tag → Bool) (f : Fam n) (tg : Tag) :
    halfAt p f tg = fun i => f tg (i + if p tg then ((n / 2 : ℕ) : ZMod n) else 0) := by
  funext i
  unfold halfAt
  by_cases h : p tg = true <;> simp [h]

theorem valid_halfAt (hn : Even n) {f : Fam n} (h : ValidF f) (p : Tag → Bool) : ValidF (halfAt p f) := by
  refine ⟨pm_halfAt h.pm p, fun t ht => ?_, fun a b t => ?_⟩
  · have := h.comp t ht
    unfold comp at *
    simp only [halfAt_eq, paf_shift]; exact this
  · rw [halfAt_eq, halfAt_eq, ccf_shift, ccf_shift, h.ami a b]
    congr 1
    have := half_two hn
    by_cases ha : p a = true <;> by_cases hb : p b = true <;> simp [ha, hb]
    · linear_combination this
    · linear_combination -this

theorem valid_reverse {f : Fam n} (h : ValidF f) : ValidF (fun t i => f t (-i - 1)) := by
  refine ⟨fun t i => h.pm _ _, fun t ht => ?_, fun p q t => ?_⟩
  · have := h.comp t ht
    unfold comp at *
    simpa only [paf_rev] using this
  · rw [ccf_rev, ccf_rev]; exact h.ami p q _

/-! ### Symmetric sequences -/

theorem sym_negAt {f : Fam n} (h : SymF f) (t₀ : Tag) : SymF (negAt t₀ f) :=
  ⟨pm_negAt h.pm t₀, fun t ht => by rw [comp_neg]; exact h.comp t ht, fun p i => by
    unfold negAt; rw [h.sym p i]⟩

theorem sym_swapFam {f : Fam n} (h : SymF f) (t₁ t₂ : Tag) : SymF (swapFam t₁ t₂ f) :=
  ⟨fun t i => h.pm _ i, fun t ht => by rw [comp_swap]; exact h.comp t ht, fun p i => h.sym _ i⟩

theorem sym_altAll (hn : Even n) {f : Fam n} (h : SymF f) : SymF (altAll f) :=
  ⟨pm_altAll h.pm, (valid_altAll hn h.valid).comp, fun p i => by
    unfold altAll; rw [chi_neg hn, h.sym p i]⟩

theorem sym_autAll {f : Fam n} (h : SymF f) (u : (ZMod n)ˣ) : SymF (autAll u f) :=
  ⟨fun t i => h.pm _ _, (valid_autAll h.valid u).comp, fun p i => by
    unfold autAll; rw [h.sym p, mul_neg]⟩

theorem sym_halfAt (hn : Even n) {f : Fam n} (h : SymF f) (p : Tag → Bool) : SymF (halfAt p f) :=
  ⟨pm_halfAt h.pm p, (valid_halfAt hn h.valid p).comp, fun a i => by
    rw [halfAt_eq]
    simp only
    rw [h.sym a]
    congr 1
    have := half_two hn
    by_cases ha : p a = true <;> simp [ha]
    linear_combination -this⟩

/-! ### Moves -/

theorem valid_NSMove {f g : Fam n} (h : NSMove f g) (hf : ValidF f) : ValidF g := by
  cases h; exact valid_swapFam (valid_negAt hf _) _ _

theorem valid_SNMove {f g : Fam n} (h : SNMove f g) (hf : ValidF f) : ValidF g := by
  cases h
  · exact valid_negAt hf _
  · exact valid_swapFam hf _ _

theorem valid_BaseMove {f g : Fam n} (h : BaseMove f g) (hf : ValidF f) : ValidF g := by
  cases h with
  | alt h => exact valid_altAll h hf
  | aut u => exact valid_autAll hf u

theorem valid_DualMove {f g : Fam n} (h : DualMove f g) (hf : ValidF f) : ValidF g := by
  cases h with
  | two h => exact valid_halfAt h hf _
  | four h => exact valid_halfAt h hf _

theorem valid_SingleMove {f g : Fam n} (h : SingleMove f g) (hf : ValidF f) : ValidF g := by
  obtain ⟨h, t⟩ := h; exact valid_halfAt h hf _

theorem valid_ShiftMove {f g : Fam n} (h : ShiftMove f g) (hf : ValidF f) : ValidF g := by
  obtain ⟨o⟩ := h; exact valid_shiftAll hf o

theorem valid_QTMove {f g : Fam n} (h : QTMove f g) (hf : ValidF f) : ValidF g := by
  rcases h with h | h | h | h
  · exact valid_ShiftMove h hf
  · exact valid_BaseMove h hf
  · exact valid_DualMove h hf
  · exact valid_NSMove h hf

theorem valid_WTMove {f g : Fam n} (h : WTMove f g) (hf : ValidF f) : ValidF g := by
  rcases h with h | h | h | h
  · exact valid_ShiftMove h hf
  · exact valid_BaseMove h hf
  · exact valid_SingleMove h hf
  · exact valid_SNMove h hf

theorem sym_WSMove {f g : Fam n} (h : WSMove f g) (hf : SymF f) : SymF g := by
  rcases h with h | h | h
  · cases h with
    | alt h => exact sym_altAll h hf
    | aut u => exact sym_autAll hf u
  · obtain ⟨h, t⟩ := h; exact sym_halfAt h hf _
  · cases h
    · exact sym_negAt hf _
    · exact sym_swapFam hf _ _

/-! ### Operations of the types -/

/-- The step relation of a list of operations. -/
def Step (ops : List Op) (s t : QuadSeq) : Prop := ∃ op ∈ ops, t ∈ op s

theorem step_qt (hn : n ≤ 100) {s : QuadSeq} (hs : Wf n s) (t : QuadSeq) :
    Step (equivalences .quaternionType) s t ↔ t = s ∨ ∃ g, QTMove (fam n s) g ∧ t = ofFam n g := by
  simp only [Step, equivalences, List.mem_cons, List.not_mem_nil, or_false, exists_eq_or_imp, exists_eq_left,
    uniformShift_is s hs t, evenAlternatedNegation_is s hs t, automorphism_is hn s hs t, negateSwap_is s hs t,
    dualHalfShift_is s hs t]
  constructor
  · rintro ((h | ⟨g, h, e⟩) | (h | ⟨g, h, e⟩) | (h | ⟨g, ⟨u, h⟩, e⟩) | (h | ⟨g, h, e⟩) | (h | ⟨g, h, e⟩))
    any_goals first | exact .inl h | skip
    · exact .inr ⟨g, .inl h, e⟩
    · exact .inr ⟨g, .inr (.inl (h.2 ▸ .alt h.1)), e⟩
    · exact .inr ⟨g, .inr (.inl (h ▸ .aut u)), e⟩
    · exact .inr ⟨g, .inr (.inr (.inr h)), e⟩
    · exact .inr ⟨g, .inr (.inr (.inl h)), e⟩
  · rintro (h | ⟨g, h | h | h | h, e⟩)
    · exact .inl (.inl h)
    · exact .inl (.inr ⟨g, h, e⟩)
    · cases h with
      | alt h => exact .inr (.inl (.inr ⟨_, ⟨h, rfl⟩, e⟩))
      | aut u => exact .inr (.inr (.inl (.inr ⟨_, ⟨u, rfl⟩, e⟩)))
    · exact .inr (.inr (.inr (.inr (.inr ⟨g, h, e⟩))))
    · exact .inr (.inr (.inr (.inl (.inr ⟨g, h, e⟩))))

theorem step_ws (hn : n ≤ 100) {s : QuadSeq} (hs : Wf n s) (t : QuadSeq) :
    Step (equivalences .williamson) s t ↔ t = s ∨ ∃ g, WSMove (fam n s) g ∧ t = ofFam n g := by
  simp only [Step, equivalences, List.mem_cons, List.not_mem_nil, or_false, exists_eq_or_imp, exists_eq_left,
    negate_is s hs t, reorder_is s hs t, evenAlternatedNegation_is s hs t, automorphism_is hn s hs t,
    singleHalfShift_is s hs t]
  constructor
  · rintro ((h | ⟨g, ⟨t₀, h⟩, e⟩) | (h | ⟨g, ⟨t₁, t₂, h12, h⟩, e⟩) | (h | ⟨g, h, e⟩) | (h | ⟨g, ⟨u, h⟩, e⟩) |
      (h | ⟨g, h, e⟩))
    any_goals first | exact .inl h | skip
    · exact .inr ⟨g, .inr (.inr (h ▸ .neg t₀)), e⟩
    · exact .inr ⟨g, .inr (.inr (h ▸ .swap t₁ t₂ h12)), e⟩
    · exact .inr ⟨g, .inl (h.2 ▸ .alt h.1), e⟩
    · exact .inr ⟨g, .inl (h ▸ .aut u), e⟩
    · exact .inr ⟨g, .inr (.inl h), e⟩
  · rintro (h | ⟨g, h | h | h, e⟩)
    · exact .inl (.inl h)
    · cases h with
      | alt h => exact .inr (.inr (.inl (.inr ⟨_, ⟨h, rfl⟩, e⟩)))
      | aut u => exact .inr (.inr (.inr (.inl (.inr ⟨_, ⟨u, rfl⟩, e⟩))))
    · exact .inr (.inr (.inr (.inr (.inr ⟨g, h, e⟩))))
    · cases h with
      | neg t₀ => exact .inl (.inr ⟨_, ⟨t₀, rfl⟩, e⟩)
      | swap t₁ t₂ h => exact .inr (.inl (.inr ⟨_, ⟨t₁, t₂, h, rfl⟩, e⟩))

theorem step_wt (hn : n ≤ 100) {s : QuadSeq} (hs : Wf n s) (t : QuadSeq) :
    Step (equivalences .williamsonType) s t ↔ t = s ∨ ∃ g, WTMove (fam n s) g ∧ t = ofFam n g := by
  have h1 : Step (equivalences .williamsonType) s t ↔
      t ∈ equivalentUniformShift s ∨ Step (equivalences .williamson) s t := by
    simp only [Step, equivalences, List.mem_cons, List.not_mem_nil, or_false, exists_eq_or_imp, exists_eq_left]
    tauto
  rw [h1, step_ws hn hs, uniformShift_is s hs t]
  unfold WTMove WSMove
  constructor
  · rintro ((h | ⟨g, h, e⟩) | (h | ⟨g, h, e⟩))
    · exact .inl h
    · exact .inr ⟨g, .inl h, e⟩
    · exact .inl h
    · exact .inr ⟨g, .inr h, e⟩
  · rintro (h | ⟨g, h | h, e⟩)
    · exact .inl (.inl h)
    · exact .inl (.inr ⟨g, h, e⟩)
    · exact .inr (.inr ⟨g, h, e⟩)

theorem wf_of_bdmove {s t : QuadSeq} {g : Fam n} (h : ValidF g) (e : t = ofFam n g) : Wf n t ∧ ValidF (fam n t) := by
  subst e; rw [fam_ofFam]; exact ⟨wf_ofFam h.pm.bd, h⟩

end Proofs
