import Verif.Proofs.Valid

/-!
# Generation of equivalence classes
-/

set_option linter.unusedSectionVars false
set_option linter.unusedVariables false

namespace Proofs
open Model Spec

variable {n : ℕ} [NeZero n]

/-! ## Signed reindexings -/

/-- Odd function on entries. -/
def OddFn (φ : ℤ → ℤ) : Prop := ∀ x, φ (-x) = -φ x

/-- Apply a function to every entry. -/
def fmap (φ : ℤ → ℤ) (f : Fam n) : Fam n := fun t i => φ (f t i)

/-- A transformation that only moves and negates entries. -/
def Act (Φ : Fam n → Fam n) : Prop :=
  (∀ φ, OddFn φ → ∀ f, Φ (fmap φ f) = fmap φ (Φ f)) ∧
  ∀ f t i, ∃ t' i', Φ f t i = f t' i' ∨ Φ f t i = -f t' i'

theorem act_comp {Φ Ψ : Fam n → Fam n} (h1 : Act Φ) (h2 : Act Ψ) : Act fun f => Ψ (Φ f) := by
  refine ⟨fun φ hφ f => ?_, fun f t i => ?_⟩
  · simp only [h1.1 φ hφ, h2.1 φ hφ]
  · obtain ⟨t', i', h⟩ := h2.2 (Φ f) t i
    obtain ⟨t'', i'', h'⟩ := h1.2 f t' i'
    refine ⟨t'', i'', ?_⟩
    rcases h with h | h <;> rcases h' with h' | h' <;> simp only [h, h', neg_neg, true_or, or_true]

theorem act_negAt (t₀ : Tag) : Act (n := n) (negAt t₀) := by
  refine ⟨fun φ hφ f => ?_, fun f t i => ⟨t, i, ?_⟩⟩
  · funext t i; unfold negAt fmap; simp only; split
    · rw [hφ]
    · rfl
  · unfold negAt; split
    · exact .inr rfl
    · exact .inl rfl

theorem act_swapFam (t₁ t₂ : Tag) : Act (n := n) (swapFam t₁ t₂) :=
  ⟨fun _ _ _ => rfl, fun f t i => ⟨_, i, .inl rfl⟩⟩

theorem act_shiftAll (o : ZMod n) : Act (n := n) (shiftAll o) :=
  ⟨fun _ _ _ => rfl, fun f t i => ⟨t, _, .inl rfl⟩⟩

theorem act_autAll (u : (ZMod n)ˣ) : Act (n := n) (autAll u) :=
  ⟨fun _ _ _ => rfl, fun f t i => ⟨t, _, .inl rfl⟩⟩

theorem act_reverse : Act (n := n) (fun f t i => f t (-i - 1)) :=
  ⟨fun _ _ _ => rfl, fun f t i => ⟨t, _, .inl rfl⟩⟩

theorem act_altAll : Act (n := n) altAll := by
  refine ⟨fun φ hφ f => ?_, fun f t i => ⟨t, i, ?_⟩⟩
  · funext t i; unfold altAll fmap; simp only
    rcases neg_one_pow_eq_or ℤ i.val with e | e <;> rw [e]
    · simp
    · rw [neg_one_mul, neg_one_mul, hφ]
  · unfold altAll
    rcases neg_one_pow_eq_or ℤ i.val with e | e <;> rw [e]
    · left; simp
    · right; simp

theorem act_halfAt (p : Tag → Bool) : Act (n := n) (halfAt p) := by
  refine ⟨fun φ hφ f => ?_, fun f t i => ?_⟩
  · funext t i; unfold halfAt fmap; simp only; split <;> rfl
  · unfold halfAt; split
    · exact ⟨_, _, .inl rfl⟩
    · exact ⟨_, _, .inl rfl⟩

/-! ### Inverses -/

theorem negAt_negAt (t₀ : Tag) (f : Fam n) : negAt t₀ (negAt t₀ f) = f := by
  funext t i; unfold negAt; split <;> simp

theorem swapFam_swapFam (t₁ t₂ : Tag) (f : Fam n) : swapFam t₁ t₂ (swapFam t₁ t₂ f) = f := by
  funext t; simp [swapFam]

theorem shiftAll_neg (o : ZMod n) (f : Fam n) : shiftAll (-o) (shiftAll o f) = f := by
  funext t i; simp [shiftAll]

theorem autAll_inv (u : (ZMod n)ˣ) (f : Fam n) : autAll u⁻¹ (autAll u f) = f := by
  funext t i; simp [autAll]

theorem altAll_altAll (f : Fam n) : altAll (altAll f) = f := by
  funext t i; unfold altAll; rw [← mul_assoc, chi_sq, one_mul]

theorem halfAt_halfAt (hn : Even n) (p : Tag → Bool) (f : Fam n) : halfAt p (halfAt p f) = f := by
  funext t i
  rw [halfAt_eq, halfAt_eq]
  simp only
  congr 1
  have := half_two hn
  by_cases h : p t = true <;> simp [h]
  linear_combination this

theorem negAt_swapFam (t₀ t₁ t₂ : Tag) (f : Fam n) :
    negAt t₀ (swapFam t₁ t₂ f) = swapFam t₁ t₂ (negAt (Equiv.swap t₁ t₂ t₀) f) := by
  funext t i
  unfold negAt swapFam
  by_cases h : t = t₀
  · simp [h]
  · have : Equiv.swap t₁ t₂ t ≠ Equiv.swap t₁ t₂ t₀ := fun e => h ((Equiv.swap t₁ t₂).injective e)
    simp [h]

theorem rev_rev (f : Fam n) : (fun t i => (fun t i => f t (-i - 1) : Fam n) t (-i - 1)) = f := by
  funext t i
  simp

/-! ## Presented relations and good operations -/

/-- `R` is the union of an inverse-closed set of signed reindexings. -/
def Pres (R : Fam n → Fam n → Prop) : Prop :=
  ∃ S : Set (Fam n → Fam n), (∀ Φ ∈ S, Act Φ) ∧ (∀ f g, R f g ↔ ∃ Φ ∈ S, g = Φ f) ∧
    ∀ Φ ∈ S, ∃ Ψ ∈ S, ∀ f, Ψ (Φ f) = f

theorem pres_or {R R' : Fam n → Fam n → Prop} (h : Pres R) (h' : Pres R') : Pres fun f g => R f g ∨ R' f g := by
  obtain ⟨S, a, b, c⟩ := h
  obtain ⟨S', a', b', c'⟩ := h'
  refine ⟨S ∪ S', ?_, ?_, ?_⟩
  · rintro Φ (h | h)
    · exact a Φ h
    · exact a' Φ h
  · intro f g
    simp only [b, b']
    constructor
    · rintro (⟨Φ, h, e⟩ | ⟨Φ, h, e⟩)
      · exact ⟨Φ, .inl h, e⟩
      · exact ⟨Φ, .inr h, e⟩
    · rintro ⟨Φ, h | h, e⟩
      · exact .inl ⟨Φ, h, e⟩
      · exact .inr ⟨Φ, h, e⟩
  · rintro Φ (h | h)
    · obtain ⟨Ψ, h, e⟩ := c Φ h
      exact ⟨Ψ, .inl h, e⟩
    · obtain ⟨Ψ, h, e⟩ := c' Φ h
      exact ⟨Ψ, .inr h, e⟩

theorem pres_NS : Pres (n := n) NSMove := by
  refine ⟨{Φ | ∃ t₀ t₁ t₂, t₁ ≠ t₂ ∧ Φ = fun f => swapFam t₁ t₂ (negAt t₀ f)}, ?_, ?_, ?_⟩
  · rintro Φ ⟨t₀, t₁, t₂, h, rfl⟩
    exact act_comp (act_negAt _) (act_swapFam _ _)
  · intro f g
    constructor
    · rintro ⟨t₀, t₁, t₂, h⟩; exact ⟨_, ⟨t₀, t₁, t₂, h, rfl⟩, rfl⟩
    · rintro ⟨Φ, ⟨t₀, t₁, t₂, h, rfl⟩, rfl⟩; exact ⟨t₀, t₁, t₂, h⟩
  · rintro Φ ⟨t₀, t₁, t₂, h, rfl⟩
    refine ⟨_, ⟨Equiv.swap t₁ t₂ t₀, t₁, t₂, h, rfl⟩, fun f => ?_⟩
    rw [negAt_swapFam, Equiv.swap_apply_self, negAt_negAt, swapFam_swapFam]

theorem pres_neg : Pres (n := n) fun f g => ∃ t₀, g = negAt t₀ f :=
  ⟨{Φ | ∃ t₀, Φ = negAt t₀}, by rintro Φ ⟨t₀, rfl⟩; exact act_negAt _,
    fun f g => ⟨by rintro ⟨t₀, rfl⟩; exact ⟨_, ⟨t₀, rfl⟩, rfl⟩, by rintro ⟨Φ, ⟨t₀, rfl⟩, rfl⟩; exact ⟨t₀, rfl⟩⟩,
    by rintro Φ ⟨t₀, rfl⟩; exact ⟨_, ⟨t₀, rfl⟩, negAt_negAt t₀⟩⟩

theorem pres_swap : Pres (n := n) fun f g => ∃ t₁ t₂, t₁ ≠ t₂ ∧ g = swapFam t₁ t₂ f :=
  ⟨{Φ | ∃ t₁ t₂, t₁ ≠ t₂ ∧ Φ = swapFam t₁ t₂}, by rintro Φ ⟨t₁, t₂, h, rfl⟩; exact act_swapFam _ _,
    fun f g => ⟨by rintro ⟨t₁, t₂, h, rfl⟩; exact ⟨_, ⟨t₁, t₂, h, rfl⟩, rfl⟩,
      by rintro ⟨Φ, ⟨t₁, t₂, h, rfl⟩, rfl⟩; exact ⟨t₁, t₂, h, rfl⟩⟩,
    by rintro Φ ⟨t₁, t₂, h, rfl⟩; exact ⟨_, ⟨t₁, t₂, h, rfl⟩, swapFam_swapFam t₁ t₂⟩⟩

theorem SNMove_iff (f g : Fam n) : SNMove f g ↔ (∃ t₀, g = negAt t₀ f) ∨ ∃ t₁ t₂, t₁ ≠ t₂ ∧ g = swapFam t₁ t₂ f := by
  constructor
  · intro h
    cases h with
    | neg t₀ => exact .inl ⟨t₀, rfl⟩
    | swap t₁ t₂ h => exact .inr ⟨t₁, t₂, h, rfl⟩
  · rintro (⟨t₀, rfl⟩ | ⟨t₁, t₂, h, rfl⟩)
    · exact .neg t₀
    · exact .swap t₁ t₂ h

theorem pres_congr {R R' : Fam n → Fam n → Prop} (e : ∀ f g, R f g ↔ R' f g) (h : Pres R') : Pres R := by
  have : R = R' := by funext f g; exact propext (e f g)
  rwa [this]

theorem pres_SN : Pres (n := n) SNMove := pres_congr SNMove_iff (pres_or pres_neg pres_swap)

theorem pres_dswap : Pres (n := n)
    fun f g => ∃ t₁ t₂ t₃ t₄, t₁ ≠ t₂ ∧ t₃ ≠ t₄ ∧ g = swapFam t₃ t₄ (swapFam t₁ t₂ f) := by
  refine ⟨{Φ | ∃ t₁ t₂ t₃ t₄, t₁ ≠ t₂ ∧ t₃ ≠ t₄ ∧ Φ = fun f => swapFam t₃ t₄ (swapFam t₁ t₂ f)}, ?_, ?_, ?_⟩
  · rintro Φ ⟨t₁, t₂, t₃, t₄, h, h', rfl⟩
    exact act_comp (act_swapFam _ _) (act_swapFam _ _)
  · intro f g
    constructor
    · rintro ⟨t₁, t₂, t₃, t₄, h, h', rfl⟩; exact ⟨_, ⟨t₁, t₂, t₃, t₄, h, h', rfl⟩, rfl⟩
    · rintro ⟨Φ, ⟨t₁, t₂, t₃, t₄, h, h', rfl⟩, rfl⟩; exact ⟨t₁, t₂, t₃, t₄, h, h', rfl⟩
  · rintro Φ ⟨t₁, t₂, t₃, t₄, h, h', rfl⟩
    exact ⟨_, ⟨t₃, t₄, t₁, t₂, h', h, rfl⟩, fun f => by rw [swapFam_swapFam, swapFam_swapFam]⟩

theorem pres_dneg : Pres (n := n) fun f g => ∃ t₁ t₂, t₁ ≠ t₂ ∧ g = negAt t₂ (negAt t₁ f) := by
  refine ⟨{Φ | ∃ t₁ t₂, t₁ ≠ t₂ ∧ Φ = fun f => negAt t₂ (negAt t₁ f)}, ?_, ?_, ?_⟩
  · rintro Φ ⟨t₁, t₂, h, rfl⟩
    exact act_comp (act_negAt _) (act_negAt _)
  · intro f g
    constructor
    · rintro ⟨t₁, t₂, h, rfl⟩; exact ⟨_, ⟨t₁, t₂, h, rfl⟩, rfl⟩
    · rintro ⟨Φ, ⟨t₁, t₂, h, rfl⟩, rfl⟩; exact ⟨t₁, t₂, h, rfl⟩
  · rintro Φ ⟨t₁, t₂, h, rfl⟩
    exact ⟨_, ⟨t₂, t₁, h.symm, rfl⟩, fun f => by rw [negAt_negAt, negAt_negAt]⟩

theorem pres_shift : Pres (n := n) ShiftMove :=
  ⟨{Φ | ∃ o, Φ = shiftAll o}, by rintro Φ ⟨o, rfl⟩; exact act_shiftAll _,
    fun f g => ⟨by rintro ⟨o⟩; exact ⟨_, ⟨o, rfl⟩, rfl⟩, by rintro ⟨Φ, ⟨o, rfl⟩, rfl⟩; exact ⟨o⟩⟩,
    by rintro Φ ⟨o, rfl⟩; exact ⟨_, ⟨-o, rfl⟩, shiftAll_neg o⟩⟩

theorem pres_aut : Pres (n := n) fun f g => ∃ u, g = autAll u f :=
  ⟨{Φ | ∃ u, Φ = autAll u}, by rintro Φ ⟨u, rfl⟩; exact act_autAll _,
    fun f g => ⟨by rintro ⟨u, rfl⟩; exact ⟨_, ⟨u, rfl⟩, rfl⟩, by rintro ⟨Φ, ⟨u, rfl⟩, rfl⟩; exact ⟨u, rfl⟩⟩,
    by rintro Φ ⟨u, rfl⟩; exact ⟨_, ⟨u⁻¹, rfl⟩, autAll_inv u⟩⟩

theorem pres_alt : Pres (n := n) fun f g => g = altAll f :=
  ⟨{altAll}, by rintro Φ rfl; exact act_altAll,
    fun f g => ⟨by rintro rfl; exact ⟨_, rfl, rfl⟩, by rintro ⟨Φ, rfl, rfl⟩; rfl⟩,
    by rintro Φ rfl; exact ⟨_, rfl, altAll_altAll⟩⟩

theorem pres_ealt : Pres (n := n) fun f g => Even n ∧ g = altAll f :=
  ⟨{Φ | Even n ∧ Φ = altAll}, by rintro Φ ⟨h, rfl⟩; exact act_altAll,
    fun f g => ⟨by rintro ⟨h, rfl⟩; exact ⟨_, ⟨h, rfl⟩, rfl⟩, by rintro ⟨Φ, ⟨h, rfl⟩, rfl⟩; exact ⟨h, rfl⟩⟩,
    by rintro Φ ⟨h, rfl⟩; exact ⟨_, ⟨h, rfl⟩, altAll_altAll⟩⟩

theorem pres_rev : Pres (n := n) fun f g => g = fun t i => f t (-i - 1) :=
  ⟨{fun f t i => f t (-i - 1)}, by rintro Φ rfl; exact act_reverse,
    fun f g => ⟨by rintro rfl; exact ⟨_, rfl, rfl⟩, by rintro ⟨Φ, rfl, rfl⟩; rfl⟩,
    by rintro Φ rfl; exact ⟨_, rfl, rev_rev⟩⟩

theorem pres_single : Pres (n := n) SingleMove :=
  ⟨{Φ | Even n ∧ ∃ t₁, Φ = halfAt (fun t => decide (t = t₁))}, by rintro Φ ⟨h, t₁, rfl⟩; exact act_halfAt _,
    fun f g => ⟨by rintro ⟨h, t₁⟩; exact ⟨_, ⟨h, t₁, rfl⟩, rfl⟩,
      by rintro ⟨Φ, ⟨h, t₁, rfl⟩, rfl⟩; exact ⟨h, t₁⟩⟩,
    by rintro Φ ⟨h, t₁, rfl⟩; exact ⟨_, ⟨h, t₁, rfl⟩, halfAt_halfAt h _⟩⟩

theorem pres_dual : Pres (n := n) DualMove := by
  refine ⟨{Φ | Even n ∧ ((∃ t₁ t₂, t₁ ≠ t₂ ∧ Φ = halfAt (fun t => decide (t = t₁ ∨ t = t₂))) ∨
    Φ = halfAt (fun _ => true))}, ?_, ?_, ?_⟩
  · rintro Φ ⟨h, ⟨t₁, t₂, _, rfl⟩ | rfl⟩ <;> exact act_halfAt _
  · intro f g
    constructor
    · intro h
      cases h with
      | two h t₁ t₂ h12 => exact ⟨_, ⟨h, .inl ⟨t₁, t₂, h12, rfl⟩⟩, rfl⟩
      | four h => exact ⟨_, ⟨h, .inr rfl⟩, rfl⟩
    · rintro ⟨Φ, ⟨h, ⟨t₁, t₂, h12, rfl⟩ | rfl⟩, rfl⟩
      · exact .two h t₁ t₂ h12
      · exact .four h
  · rintro Φ ⟨h, ⟨t₁, t₂, h12, rfl⟩ | rfl⟩
    · exact ⟨_, ⟨h, .inl ⟨t₁, t₂, h12, rfl⟩⟩, halfAt_halfAt h _⟩
    · exact ⟨_, ⟨h, .inr rfl⟩, halfAt_halfAt h _⟩

theorem BaseMove_iff (f g : Fam n) : BaseMove f g ↔ (Even n ∧ g = altAll f) ∨ ∃ u, g = autAll u f := by
  constructor
  · intro h
    cases h with
    | alt h => exact .inl ⟨h, rfl⟩
    | aut u => exact .inr ⟨u, rfl⟩
  · rintro (⟨h, rfl⟩ | ⟨u, rfl⟩)
    · exact .alt h
    · exact .aut u

theorem pres_base : Pres (n := n) BaseMove := pres_congr BaseMove_iff (pres_or pres_ealt pres_aut)

theorem pres_QT : Pres (n := n) QTMove := pres_or pres_shift (pres_or pres_base (pres_or pres_dual pres_NS))

theorem pres_WT : Pres (n := n) WTMove := pres_or pres_shift (pres_or pres_base (pres_or pres_single pres_SN))

theorem pres_WS : Pres (n := n) WSMove := pres_or pres_base (pres_or pres_single pres_SN)

theorem disjoint_comm (t₁ t₂ t₃ t₄ : Tag) (h : t₁ ≠ t₃ ∧ t₁ ≠ t₄ ∧ t₂ ≠ t₃ ∧ t₂ ≠ t₄) (f : Fam n) :
    swapFam t₃ t₄ (swapFam t₁ t₂ f) = swapFam t₁ t₂ (swapFam t₃ t₄ f) := by
  funext t
  unfold swapFam
  obtain ⟨h1, h2, h3, h4⟩ := h
  congr 1
  simp only [Equiv.swap_apply_def]
  split_ifs <;> simp_all

theorem pres_disjoint : Pres (n := n)
    fun f g => g = swapFam .Y .Z (swapFam .W .X f) ∨ g = swapFam .X .Z (swapFam .W .Y f) ∨
      g = swapFam .X .Y (swapFam .W .Z f) := by
  refine ⟨{Φ | Φ = (fun f => swapFam .Y .Z (swapFam .W .X f)) ∨ Φ = (fun f => swapFam .X .Z (swapFam .W .Y f)) ∨
    Φ = fun f => swapFam .X .Y (swapFam .W .Z f)}, ?_, ?_, ?_⟩
  · rintro Φ (rfl | rfl | rfl) <;> exact act_comp (act_swapFam _ _) (act_swapFam _ _)
  · intro f g
    constructor
    · rintro (rfl | rfl | rfl)
      · exact ⟨_, .inl rfl, rfl⟩
      · exact ⟨_, .inr (.inl rfl), rfl⟩
      · exact ⟨_, .inr (.inr rfl), rfl⟩
    · rintro ⟨Φ, rfl | rfl | rfl, rfl⟩
      · exact .inl rfl
      · exact .inr (.inl rfl)
      · exact .inr (.inr rfl)
  · rintro Φ (rfl | rfl | rfl)
    · refine ⟨_, .inl rfl, fun f => ?_⟩
      rw [disjoint_comm .W .X .Y .Z (by decide), swapFam_swapFam, swapFam_swapFam]
    · refine ⟨_, .inr (.inl rfl), fun f => ?_⟩
      rw [disjoint_comm .W .Y .X .Z (by decide), swapFam_swapFam, swapFam_swapFam]
    · refine ⟨_, .inr (.inr rfl), fun f => ?_⟩
      rw [disjoint_comm .W .Z .X .Y (by decide), swapFam_swapFam, swapFam_swapFam]

/-- An operation that returns the images under an inverse-closed set of signed reindexings. -/
def GoodOp (n : ℕ) [NeZero n] (op : Op) : Prop := ∃ R, Pres R ∧ OpIs n op R

/-- All operations of `equivalence.rs`. -/
def allOps : List Op := [equivalentNegateSwap, equivalentReorder, equivalentDoubleReorder,
  equivalentUniformHalfShift, equivalentUniformShift, equivalentDualHalfShift, equivalentSingleHalfShift,
  equivalentReverse, equivalentNegate, equivalentDoubleNegate, equivalentAlternatedNegation,
  equivalentEvenAlternatedNegation, equivalentAutomorphism, equivalentDisjointSwaps]

theorem good_all (hn : n ≤ 100) : ∀ op ∈ allOps, GoodOp n op := by
  intro op h
  simp only [allOps, List.mem_cons, List.not_mem_nil, or_false] at h
  rcases h with rfl | rfl | rfl | rfl | rfl | rfl | rfl | rfl | rfl | rfl | rfl | rfl | rfl | rfl
  · exact ⟨_, pres_NS, negateSwap_is⟩
  · exact ⟨_, pres_swap, reorder_is⟩
  · exact ⟨_, pres_dswap, doubleReorder_is⟩
  · exact ⟨_, pres_single, uniformHalfShift_is⟩
  · exact ⟨_, pres_shift, uniformShift_is⟩
  · exact ⟨_, pres_dual, dualHalfShift_is⟩
  · exact ⟨_, pres_single, singleHalfShift_is⟩
  · exact ⟨_, pres_rev, reverse_is⟩
  · exact ⟨_, pres_neg, negate_is⟩
  · exact ⟨_, pres_dneg, doubleNegate_is⟩
  · exact ⟨_, pres_alt, alternatedNegation_is⟩
  · exact ⟨_, pres_ealt, evenAlternatedNegation_is⟩
  · exact ⟨_, pres_aut, automorphism_is hn⟩
  · exact ⟨_, pres_disjoint, disjointSwaps_is⟩

theorem equivalences_sub (ty : SeqType) : ∀ op ∈ equivalences ty, op ∈ allOps := by
  intro op h
  cases ty <;> simp only [equivalences, List.mem_cons, List.not_mem_nil, or_false] at h <;>
    simp only [allOps, List.mem_cons, List.not_mem_nil, or_false] <;> tauto

theorem canonicalOps_sub (ty : SeqType) : ∀ op ∈ canonicalOps ty, op ∈ allOps := by
  intro op h
  cases ty <;> simp only [canonicalOps, List.mem_cons, List.not_mem_nil, or_false] at h <;>
    simp only [allOps, List.mem_cons, List.not_mem_nil, or_false] <;> tauto

/-! ## Steps of a list of good operations -/

/-- All entries in `V`. -/
def Ent (V : Set ℤ) (f : Fam n) : Prop := ∀ t i, f t i ∈ V

theorem step_good {ops : List Op} (hg : ∀ op ∈ ops, GoodOp n op) :
    ∃ R : Fam n → Fam n → Prop, Pres R ∧ ∀ s, Wf n s → ∀ t, Step ops s t ↔
      (ops ≠ [] ∧ t = s) ∨ ∃ g, R (fam n s) g ∧ t = ofFam n g := by
  induction ops with
  | nil =>
    refine ⟨fun _ _ => False, ⟨∅, by simp, by simp, by simp⟩, fun s hs t => ?_⟩
    simp [Step]
  | cons op ops ih =>
    obtain ⟨R, hR, h⟩ := ih fun o ho => hg o (List.mem_cons_of_mem _ ho)
    obtain ⟨R', hR', h'⟩ := hg op List.mem_cons_self
    refine ⟨_, pres_or hR' hR, fun s hs t => ?_⟩
    have e : Step (op :: ops) s t ↔ t ∈ op s ∨ Step ops s t := by simp [Step]
    rw [e, h' s hs t, h s hs t]
    constructor
    · rintro ((rfl | ⟨g, h, rfl⟩) | (⟨_, rfl⟩ | ⟨g, h, rfl⟩))
      · exact .inl ⟨by simp, rfl⟩
      · exact .inr ⟨g, .inl h, rfl⟩
      · exact .inl ⟨by simp, rfl⟩
      · exact .inr ⟨g, .inr h, rfl⟩
    · rintro (⟨_, rfl⟩ | ⟨g, h | h, rfl⟩)
      · exact .inl (.inl rfl)
      · exact .inl (.inr ⟨g, h, rfl⟩)
      · exact .inr (.inr ⟨g, h, rfl⟩)

theorem pres_ent {R : Fam n → Fam n → Prop} (h : Pres R) {V : Set ℤ} (hV : ∀ x ∈ V, -x ∈ V) {f g : Fam n}
    (hf : Ent V f) (hR : R f g) : Ent V g := by
  obtain ⟨S, a, b, c⟩ := h
  obtain ⟨Φ, hΦ, rfl⟩ := (b f g).1 hR
  intro t i
  obtain ⟨t', i', h | h⟩ := (a Φ hΦ).2 f t i
  · rw [h]; exact hf _ _
  · rw [h]; exact hV _ (hf _ _)

theorem pres_bd {R : Fam n → Fam n → Prop} (h : Pres R) {f g : Fam n} (hf : Bd f) (hR : R f g) : Bd g :=
  pres_ent (V := {x | -127 ≤ x ∧ x ≤ 127}) h (by intro x hx; simp only [Set.mem_ofPred_eq] at *; omega) hf hR

theorem pres_symm {R : Fam n → Fam n → Prop} (h : Pres R) {f g : Fam n} (hR : R f g) : R g f := by
  obtain ⟨S, a, b, c⟩ := h
  obtain ⟨Φ, hΦ, rfl⟩ := (b f g).1 hR
  obtain ⟨Ψ, hΨ, e⟩ := c Φ hΦ
  exact (b _ _).2 ⟨Ψ, hΨ, (e f).symm⟩

theorem pres_fmap {R : Fam n → Fam n → Prop} (h : Pres R) {φ : ℤ → ℤ} (hφ : OddFn φ) {f g : Fam n}
    (hR : R f g) : R (fmap φ f) (fmap φ g) := by
  obtain ⟨S, a, b, c⟩ := h
  obtain ⟨Φ, hΦ, rfl⟩ := (b f g).1 hR
  exact (b _ _).2 ⟨Φ, hΦ, ((a Φ hΦ).1 φ hφ f).symm⟩

theorem pres_lift {R : Fam n → Fam n → Prop} (h : Pres R) {φ : ℤ → ℤ} (hφ : OddFn φ) {f g' : Fam n}
    (hR : R (fmap φ f) g') : ∃ g, R f g ∧ g' = fmap φ g := by
  obtain ⟨S, a, b, c⟩ := h
  obtain ⟨Φ, hΦ, rfl⟩ := (b _ _).1 hR
  exact ⟨Φ f, (b _ _).2 ⟨Φ, hΦ, rfl⟩, (a Φ hΦ).1 φ hφ f⟩

/-- Reachability by finitely many operations. -/
def Reach (ops : List Op) : QuadSeq → QuadSeq → Prop := Relation.ReflTransGen (Step ops)

section good
variable {ops : List Op} (hg : ∀ op ∈ ops, GoodOp n op)
include hg

theorem step_wf {s t : QuadSeq} (hs : Wf n s) (h : Step ops s t) : Wf n t := by
  obtain ⟨R, hR, H⟩ := step_good hg
  rcases (H s hs t).1 h with ⟨_, rfl⟩ | ⟨g, h', rfl⟩
  · exact hs
  · exact wf_ofFam (pres_bd hR (bd_fam hs) h')

theorem step_ent {V : Set ℤ} (hV : ∀ x ∈ V, -x ∈ V) {s t : QuadSeq} (hs : Wf n s) (he : Ent V (fam n s))
    (h : Step ops s t) : Ent V (fam n t) := by
  obtain ⟨R, hR, H⟩ := step_good hg
  rcases (H s hs t).1 h with ⟨_, rfl⟩ | ⟨g, h', rfl⟩
  · exact he
  · rw [fam_ofFam]; exact pres_ent hR hV he h'

theorem step_symm {s t : QuadSeq} (hs : Wf n s) (h : Step ops s t) : Step ops t s := by
  have ht := step_wf hg hs h
  obtain ⟨R, hR, H⟩ := step_good hg
  rcases (H s hs t).1 h with ⟨hne, rfl⟩ | ⟨g, h', rfl⟩
  · exact (H _ hs _).2 (.inl ⟨hne, rfl⟩)
  · refine (H _ ht _).2 (.inr ⟨fam n s, ?_, (ofFam_fam hs).symm⟩)
    rw [fam_ofFam]; exact pres_symm hR h'

theorem reach_wf {s t : QuadSeq} (hs : Wf n s) (h : Reach ops s t) : Wf n t := by
  induction h with
  | refl => exact hs
  | tail _ h ih => exact step_wf hg ih h

theorem reach_ent {V : Set ℤ} (hV : ∀ x ∈ V, -x ∈ V) {s t : QuadSeq} (hs : Wf n s) (he : Ent V (fam n s))
    (h : Reach ops s t) : Ent V (fam n t) := by
  induction h with
  | refl => exact he
  | tail h1 h ih => exact step_ent hg hV (reach_wf hg hs h1) ih h

theorem reach_symm {s t : QuadSeq} (hs : Wf n s) (h : Reach ops s t) : Reach ops t s := by
  induction h with
  | refl => exact .refl
  | tail h1 h ih => exact Relation.ReflTransGen.head (step_symm hg (reach_wf hg hs h1) h) ih

end good

theorem reach_trans {ops : List Op} {s t u : QuadSeq} (h1 : Reach ops s t) (h2 : Reach ops t u) : Reach ops s u :=
  Relation.ReflTransGen.trans h1 h2

/-! ## The finite universe -/

/-- All lists of length `m` over `V`. -/
def allLists (V : List ℤ) : ℕ → List (List ℤ)
  | 0 => [[]]
  | m + 1 => V.flatMap fun x => (allLists V m).map fun l => x :: l

theorem allLists_length (V : List ℤ) (m : ℕ) : (allLists V m).length = V.length ^ m := by
  induction m with
  | zero => rfl
  | succ m ih => simp [allLists, ih, List.length_flatMap, pow_succ, mul_comm]

theorem mem_allLists {V : List ℤ} {l : List ℤ} (h : ∀ x ∈ l, x ∈ V) : l ∈ allLists V l.length := by
  induction l with
  | nil => simp [allLists]
  | cons x l ih =>
    simp only [List.length_cons, allLists, List.mem_flatMap, List.mem_map]
    exact ⟨x, h x List.mem_cons_self, l, ih fun y hy => h y (List.mem_cons_of_mem _ hy), rfl⟩

/-- All quadruples of size `n` over `V`. -/
def quadUniv (V : List ℤ) (n : ℕ) : List QuadSeq :=
  (allLists V n).flatMap fun a => (allLists V n).flatMap fun b => (allLists V n).flatMap fun c =>
    (allLists V n).map fun d => { size := n, a := a, b := b, c := c, d := d }

theorem univ_length (V : List ℤ) (n : ℕ) : (quadUniv V n).length = V.length ^ (4 * n) := by
  simp only [quadUniv, List.length_flatMap, List.length_map, allLists_length, List.map_const', List.sum_replicate,
    smul_eq_mul]
  ring

theorem mem_quadUniv {V : List ℤ} {s : QuadSeq} (hs : Wf n s) (he : Ent {x | x ∈ V} (fam n s)) : s ∈ quadUniv V n := by
  have h : ∀ t, s.sequence t ∈ allLists V n := by
    intro t
    have := mem_allLists (V := V) (l := s.sequence t) (by
      intro x hx
      obtain ⟨i, hi, rfl⟩ := List.getElem_of_mem hx
      rw [hs.len] at hi
      have := he t (i : ZMod n)
      rw [fam_apply, cyc_natCast_lt _ hi] at this
      unfold at0 at this
      rwa [List.getD_eq_getElem _ _ (by rw [hs.len]; exact hi)] at this)
    rwa [hs.len] at this
  simp only [quadUniv, List.mem_flatMap, List.mem_map]
  refine ⟨s.a, h .W, s.b, h .X, s.c, h .Y, s.d, h .Z, ?_⟩
  have := hs.size
  cases s; simp only at this; subst this; rfl

theorem mem_classNew {ops : List Op} {cls : List QuadSeq} {t : QuadSeq} :
    t ∈ classNew ops cls ↔ t ∉ cls ∧ ∃ s ∈ cls, Step ops s t := by
  unfold classNew Step
  rw [List.mem_dedup, List.mem_filter, List.mem_flatMap, decide_eq_true_iff]
  simp only [List.mem_flatMap]
  tauto

theorem classLoop_spec {ops : List Op} {U : List QuadSeq} {s : QuadSeq}
    (hU : ∀ t, Reach ops s t → t ∈ U) (fuel : ℕ) (cls : List QuadSeq)
    (hnd : cls.Nodup) (hr : ∀ t ∈ cls, Reach ops s t) (hs : s ∈ cls) (hf : U.length < fuel + cls.length) :
    ∃ c, classLoop ops fuel cls = some c ∧ c.Nodup ∧ ∀ t, t ∈ c ↔ Reach ops s t := by
  have hlen : ∀ l : List QuadSeq, l.Nodup → (∀ t ∈ l, Reach ops s t) → l.length ≤ U.length := by
    intro l h1 h2
    exact (List.subperm_of_subset h1 fun t ht => hU t (h2 t ht)).length_le
  induction fuel generalizing cls with
  | zero =>
    have := hlen cls hnd hr
    omega
  | succ fuel ih =>
    unfold classLoop
    split
    · next h0 =>
      refine ⟨cls, rfl, hnd, fun t => ⟨hr t, fun h => ?_⟩⟩
      induction h with
      | refl => exact hs
      | tail _ h ih =>
        by_contra hc
        have : _ ∈ classNew ops cls := mem_classNew.2 ⟨hc, _, ih, h⟩
        rw [List.length_eq_zero_iff.1 h0] at this
        exact absurd this (List.not_mem_nil)
    · next h0 =>
      refine ih _ ?_ ?_ (List.mem_append_left _ hs) ?_
      · refine List.Nodup.append hnd (List.nodup_dedup _) ?_
        intro t h1 h2
        exact (mem_classNew.1 h2).1 h1
      · intro t ht
        rcases List.mem_append.1 ht with h | h
        · exact hr t h
        · obtain ⟨_, u, hu, h⟩ := mem_classNew.1 h
          exact (hr u hu).tail h
      · rw [List.length_append]; omega

theorem generateEquivalenceClass_spec {ops : List Op} (hg : ∀ op ∈ ops, GoodOp n op) {s : QuadSeq} (hs : Wf n s) :
    ∃ c, generateEquivalenceClass ops s = some c ∧ c.Nodup ∧ ∀ t, t ∈ c ↔ Reach ops s t := by
  set V : List ℤ := (flat s) ++ (flat s).map fun x => -x with hV
  have hVlen : V.length = 8 * n := by
    have h1 := hs.len .W
    have h2 := hs.len .X
    have h3 := hs.len .Y
    have h4 := hs.len .Z
    simp only [QuadSeq.sequence] at h1 h2 h3 h4
    rw [hV]; simp only [flat, List.length_append, List.length_map, h1, h2, h3, h4]; ring
  have hneg : ∀ x ∈ V, -x ∈ V := by
    intro x hx
    rw [hV, List.mem_append, List.mem_map] at hx ⊢
    rcases hx with h | ⟨y, h, rfl⟩
    · exact .inr ⟨x, h, rfl⟩
    · left; rwa [neg_neg]
  have hsV : Ent {x | x ∈ V} (fam n s) := by
    intro t i
    rw [fam_apply]
    have h := at0_mem (l := s.sequence t) (i := i.val) (by rw [hs.len]; exact ZMod.val_lt i)
    have h' : at0 (s.sequence t) i.val ∈ flat s := by
      unfold flat
      simp only [List.mem_append]
      cases t
      · exact .inl (.inl (.inl h))
      · exact .inl (.inl (.inr h))
      · exact .inl (.inr h)
      · exact .inr h
    exact List.mem_append_left _ h'
  unfold generateEquivalenceClass
  refine classLoop_spec (U := quadUniv V n) ?_ _ _ (List.nodup_singleton s) ?_ (List.mem_singleton_self s) ?_
  · intro t ht
    exact mem_quadUniv (reach_wf hg hs ht) (reach_ent hg hneg hs hsV ht)
  · intro t ht; rw [List.mem_singleton] at ht; subst ht; exact .refl
  · rw [univ_length, hVlen, classFuel, hs.size, List.length_singleton]
    have : (8 * n) ^ (4 * n) ≤ (8 * n + 1) ^ (4 * n) := Nat.pow_le_pow_left (by omega) _
    omega

end Proofs
