import Verif.Proofs.Letters
import Mathlib.GroupTheory.Perm.Sign

/-!
# The rotations of the alphabet are the negate-and-swap operations
-/

set_option linter.unusedSectionVars false
set_option linter.unusedVariables false
set_option linter.unusedSimpArgs false
set_option linter.unusedTactic false

namespace Proofs.Letters
open Model Spec Proofs
open scoped Quaternion

/-! ## Reflections -/

theorem lw_neg (t₀ : Tag) (v : Tag → ℚ) :
    lw (fun t => if t = t₀ then -v t else v t) = -(axis t₀ * star (lw v) * axis t₀) := by
  cases t₀ <;> ext <;> simp [lw_c, axis_c] <;> ring

theorem lw_swap {t₁ t₂ : Tag} (h : t₁ ≠ t₂) (v : Tag → ℚ) :
    lw (fun t => v (Equiv.swap t₁ t₂ t)) =
      -((axis t₁ - axis t₂) * star (lw v) * ((1 / 2 : ℚ) • (axis t₁ - axis t₂))) := by
  cases t₁ <;> cases t₂ <;> first | exact absurd rfl h | skip
  all_goals simp only [Equiv.swap_apply_def]
  all_goals ext <;> simp [lw_c, axis_c] <;> ring

/-- Negation of one coordinate and exchange of two. -/
theorem lw_ns (t₀ : Tag) {t₁ t₂ : Tag} (h : t₁ ≠ t₂) (v : Tag → ℚ) :
    lw (fun t => if Equiv.swap t₁ t₂ t = t₀ then -v (Equiv.swap t₁ t₂ t) else v (Equiv.swap t₁ t₂ t)) =
      ((axis t₁ - axis t₂) * star (axis t₀)) * lw v * (star (axis t₀) * ((1 / 2 : ℚ) • (axis t₁ - axis t₂))) := by
  rw [lw_swap h fun t => if t = t₀ then -v t else v t, lw_neg]
  simp only [star_neg, star_mul, star_star, mul_neg, neg_mul, neg_neg, mul_assoc]

theorem axis_ne (t : Tag) : axis t ≠ 0 := by
  intro h
  have := congrArg (fun x => co x t) h
  rw [show co (axis t) t = 2 by rw [co_axis, if_pos rfl]] at this
  cases t <;> simp [co] at this

theorem axis_sub_ne {t₁ t₂ : Tag} (h : t₁ ≠ t₂) : axis t₁ - axis t₂ ≠ 0 := by
  intro e
  have := congrArg (fun x => co x t₁) (sub_eq_zero.1 e)
  simp only [co_axis, if_pos, if_neg h] at this
  norm_num at this

instance : Finite Tag := Finite.of_surjective (fun i : Fin 4 => match i with | 0 => Tag.W | 1 => .X | 2 => .Y | 3 => .Z)
  fun t => by
    cases t
    · exact ⟨0, rfl⟩
    · exact ⟨1, rfl⟩
    · exact ⟨2, rfl⟩
    · exact ⟨3, rfl⟩

/-! ## Linearity -/

theorem co_add (x y : ℍ[ℚ]) (t : Tag) : co (x + y) t = co x t + co y t := by cases t <;> simp [co] <;> ring

theorem co_smul (r : ℚ) (x : ℍ[ℚ]) (t : Tag) : co (r • x) t = r * co x t := by cases t <;> simp [co] <;> ring

theorem basis (x : ℍ[ℚ]) : x = (co x .W / 2) • axis .W + (co x .X / 2) • axis .X + (co x .Y / 2) • axis .Y +
    (co x .Z / 2) • axis .Z := by
  apply co_inj
  funext t
  simp only [co_add, co_smul, co_axis]
  cases t <;> simp

theorem co_lin (u v x : ℍ[ℚ]) (t : Tag) : co (u * x * v) t = co (u * axis .W * v) t / 2 * co x .W +
    co (u * axis .X * v) t / 2 * co x .X + co (u * axis .Y * v) t / 2 * co x .Y + co (u * axis .Z * v) t / 2 * co x .Z := by
  conv_lhs => rw [basis x]
  simp only [mul_add, add_mul, mul_smul_comm, smul_mul_assoc, co_add, co_smul]
  ring

/-! ## Maps that preserve the sign vectors -/

theorem row4 {a b c d : ℚ} (h : ∀ w x y z : ℚ, (w = 1 ∨ w = -1) → (x = 1 ∨ x = -1) → (y = 1 ∨ y = -1) →
    (z = 1 ∨ z = -1) → a * w + b * x + c * y + d * z = 1 ∨ a * w + b * x + c * y + d * z = -1) :
    ∃ e : ℤ, (e = 1 ∨ e = -1) ∧ ((a = e ∧ b = 0 ∧ c = 0 ∧ d = 0) ∨ (a = 0 ∧ b = e ∧ c = 0 ∧ d = 0) ∨
      (a = 0 ∧ b = 0 ∧ c = e ∧ d = 0) ∨ (a = 0 ∧ b = 0 ∧ c = 0 ∧ d = e)) := by
  have p : (1 : ℚ) = 1 ∨ (1 : ℚ) = -1 := .inl rfl
  have m : (-1 : ℚ) = 1 ∨ (-1 : ℚ) = -1 := .inr rfl
  have h0 := h 1 1 1 1 p p p p
  have h1 := h (-1) 1 1 1 m p p p
  have h2 := h 1 (-1) 1 1 p m p p
  have h3 := h 1 1 (-1) 1 p p m p
  have h4 := h 1 1 1 (-1) p p p m
  have h5 := h 1 1 (-1) (-1) p p m m
  have h6 := h 1 (-1) 1 (-1) p m p m
  have h7 := h 1 (-1) (-1) 1 p m m p
  have hsq : ∀ x : ℚ, x = 1 ∨ x = -1 → x ^ 2 = 1 := by rintro x (rfl | rfl) <;> norm_num
  have hs : a ^ 2 + b ^ 2 + c ^ 2 + d ^ 2 = 1 := by
    have := hsq _ h0; have := hsq _ h1; have := hsq _ h2; have := hsq _ h3
    have := hsq _ h4; have := hsq _ h5; have := hsq _ h6; have := hsq _ h7
    linarith
  have ha : a = 0 ∨ a = 1 ∨ a = -1 := by
    rcases h0 with h0 | h0 <;> rcases h1 with h1 | h1
    · left; linarith
    · right; left; linarith
    · right; right; linarith
    · left; linarith
  have hb : b = 0 ∨ b = 1 ∨ b = -1 := by
    rcases h0 with h0 | h0 <;> rcases h2 with h2 | h2
    · left; linarith
    · right; left; linarith
    · right; right; linarith
    · left; linarith
  have hc : c = 0 ∨ c = 1 ∨ c = -1 := by
    rcases h0 with h0 | h0 <;> rcases h3 with h3 | h3
    · left; linarith
    · right; left; linarith
    · right; right; linarith
    · left; linarith
  have hd : d = 0 ∨ d = 1 ∨ d = -1 := by
    rcases h0 with h0 | h0 <;> rcases h4 with h4 | h4
    · left; linarith
    · right; left; linarith
    · right; right; linarith
    · left; linarith
  clear h h0 h1 h2 h3 h4 h5 h6 h7 hsq p m
  rcases ha with rfl | rfl | rfl <;> rcases hb with rfl | rfl | rfl <;> rcases hc with rfl | rfl | rfl <;>
    rcases hd with rfl | rfl | rfl
  all_goals first
    | (exfalso; norm_num at hs; done)
    | (refine ⟨1, .inl rfl, ?_⟩; norm_num; done)
    | (refine ⟨-1, .inr rfl, ?_⟩; norm_num; done)

theorem rot_ne {u v : ℍ[ℚ]} (h : ∀ a ∈ Alphabet, u * a * v ∈ Alphabet) : u ≠ 0 ∧ v ≠ 0 := by
  have h1 : u * 1 * v ∈ Alphabet := h 1 ⟨'+', rfl⟩
  have h0 : u * 1 * v ≠ 0 := by
    intro h0
    rw [h0, mem_iff] at h1
    have := h1 .W
    simp [co] at this
  constructor
  ·  rintro rfl; simp at h0
  · rintro rfl; simp at h0

/-- A map `x ↦ u x v` that preserves the alphabet permutes the coordinates and changes signs. -/
theorem rot_signed {u v : ℍ[ℚ]} (h : ∀ a ∈ Alphabet, u * a * v ∈ Alphabet) :
    ∃ (σ : Equiv.Perm Tag) (e : Tag → ℤ), (∀ t, e t = 1 ∨ e t = -1) ∧ ∀ x t, co (u * x * v) t = e t * co x (σ t) := by
  have hrow : ∀ t, ∃ (e : ℤ) (s : Tag), (e = 1 ∨ e = -1) ∧ ∀ x, co (u * x * v) t = e * co x s := by
    intro t
    obtain ⟨e, he, hh⟩ := row4 (a := co (u * axis .W * v) t / 2) (b := co (u * axis .X * v) t / 2)
      (c := co (u * axis .Y * v) t / 2) (d := co (u * axis .Z * v) t / 2) (by
        intro w x y z hw hx hy hz
        let p : Tag → ℚ := fun t => match t with | .W => w | .X => x | .Y => y | .Z => z
        have := co_lin u v (lw p) t
        rw [co_lw] at this
        rw [show co (u * axis .W * v) t / 2 * w + co (u * axis .X * v) t / 2 * x + co (u * axis .Y * v) t / 2 * y +
          co (u * axis .Z * v) t / 2 * z = co (u * lw p * v) t from this.symm]
        refine (mem_iff _).1 (h _ ((mem_iff _).2 ?_)) t
        rw [co_lw]
        intro t
        cases t <;> assumption)
    rcases hh with ⟨a, b, c, d⟩ | ⟨a, b, c, d⟩ | ⟨a, b, c, d⟩ | ⟨a, b, c, d⟩
    · exact ⟨e, .W, he, fun x => by rw [co_lin, a, b, c, d]; ring⟩
    · exact ⟨e, .X, he, fun x => by rw [co_lin, a, b, c, d]; ring⟩
    · exact ⟨e, .Y, he, fun x => by rw [co_lin, a, b, c, d]; ring⟩
    · exact ⟨e, .Z, he, fun x => by rw [co_lin, a, b, c, d]; ring⟩
  choose e p he hp using hrow
  obtain ⟨hu, hv⟩ := rot_ne h
  have hsur : Function.Surjective p := by
    intro s
    by_contra hc
    push Not at hc
    have hz : u * axis s * v = 0 := by
      apply co_inj
      funext t
      rw [hp, co_axis, if_neg (hc t), mul_zero]
      cases t <;> simp [co]
    rcases mul_eq_zero.1 hz with h | h
    · rcases mul_eq_zero.1 h with h | h
      · exact hu h
      · exact axis_ne s h
    · exact hv h
  exact ⟨Equiv.ofBijective p (Finite.surjective_iff_bijective.1 hsur), e, he, fun x t => hp t x⟩

/-! ## Words -/

section words
variable {n : ℕ} [NeZero n]

/-- The sequence of quaternions of a family. -/
def word (f : Fam n) (i : ZMod n) : ℍ[ℚ] := lw fun t => f t i

/-- Signed permutation of a family. -/
def act (σ : Equiv.Perm Tag) (e : Tag → ℤ) (f : Fam n) : Fam n := fun t i => e t * f (σ t) i

theorem co_word (f : Fam n) (i : ZMod n) (t : Tag) : co (word f i) t = f t i := by unfold word; rw [co_lw]

theorem word_inj {f g : Fam n} (h : word f = word g) : f = g := by
  funext t i
  have := congrArg (fun x => co x t) (congrFun h i)
  simp only [co_word] at this
  exact_mod_cast this

theorem ns_rot {f g : Fam n} (h : NSEquiv f g) : ∃ u v : ℍ[ℚ], u ≠ 0 ∧ v ≠ 0 ∧ ∀ i, word g i = u * word f i * v := by
  induction h with
  | rel x y h =>
    obtain ⟨t₀, t₁, t₂, h12⟩ := h
    refine ⟨_, _, mul_ne_zero (axis_sub_ne h12) (star_ne_zero.2 (axis_ne t₀)),
      mul_ne_zero (star_ne_zero.2 (axis_ne t₀)) (smul_ne_zero (show (1 / 2 : ℚ) ≠ 0 by norm_num) (axis_sub_ne h12)), fun i => ?_⟩
    rw [word, word, ← lw_ns t₀ h12]
    congr 1
    funext t
    unfold swapFam negAt
    split <;> simp
  | refl x => exact ⟨1, 1, one_ne_zero, one_ne_zero, fun i => by simp⟩
  | symm x y _ ih =>
    obtain ⟨u, v, hu, hv, h⟩ := ih
    refine ⟨u⁻¹, v⁻¹, inv_ne_zero hu, inv_ne_zero hv, fun i => ?_⟩
    rw [h, mul_assoc, mul_assoc, mul_assoc, mul_inv_cancel₀ hv, mul_one, inv_mul_cancel_left₀ hu]
  | trans x y z _ _ h1 h2 =>
    obtain ⟨u, v, hu, hv, h⟩ := h1
    obtain ⟨u', v', hu', hv', h'⟩ := h2
    exact ⟨u' * u, v * v', mul_ne_zero hu' hu, mul_ne_zero hv hv', fun i => by rw [h', h]; simp only [mul_assoc]⟩

theorem sn_perm (σ : Equiv.Perm Tag) : ∀ f : Fam n, SNEquiv f fun t => f (σ t) := by
  induction σ using Equiv.Perm.swap_induction_on with
  | one => exact fun f => .refl _
  | swap_mul σ x y hxy ih =>
    intro f
    exact .trans _ _ _ (.rel _ _ (.swap x y hxy)) (ih (swapFam x y f))

theorem sn_act (σ : Equiv.Perm Tag) {e : Tag → ℤ} (he : ∀ t, e t = 1 ∨ e t = -1) (f : Fam n) : SNEquiv f (act σ e f) := by
  have step : ∀ (t₀ : Tag) (g : Fam n), SNEquiv g fun t i => if t = t₀ then e t * g t i else g t i := by
    intro t₀ g
    rcases he t₀ with h | h
    · have : (fun t i => if t = t₀ then e t * g t i else g t i) = g := by
        funext t i
        by_cases ht : t = t₀
        · simp [ht, h]
        · simp [ht]
      rw [this]
      exact .refl _
    · have : (fun t i => if t = t₀ then e t * g t i else g t i) = negAt t₀ g := by
        funext t i
        unfold negAt
        by_cases ht : t = t₀
        · simp [ht, h]
        · simp [ht]
      rw [this]
      exact .rel _ _ (.neg t₀)
  have h := sn_perm σ f
  have h := Relation.EqvGen.trans _ _ _ h (step .W _)
  have h := Relation.EqvGen.trans _ _ _ h (step .X _)
  have h := Relation.EqvGen.trans _ _ _ h (step .Y _)
  have h := Relation.EqvGen.trans _ _ _ h (step .Z _)
  refine (congrArg (SNEquiv f) ?_).mp h
  funext t i
  unfold act
  cases t <;> simp

/-- Negate-and-swap operations commute with every map applied to the four sequences that commutes with negation. -/
theorem ns_map {m : ℕ} [NeZero m] {Φ : (ZMod m → ℤ) → ZMod n → ℤ} (hΦ : ∀ x, Φ (-x) = -Φ x) {f g : Fam m}
    (h : NSEquiv f g) : NSEquiv (fun t => Φ (f t)) fun t => Φ (g t) := by
  induction h with
  | rel x y h =>
    obtain ⟨t₀, t₁, t₂, h12⟩ := h
    have e : (fun t => Φ (swapFam t₁ t₂ (negAt t₀ x) t)) = swapFam t₁ t₂ (negAt t₀ fun t => Φ (x t)) := by
      funext t
      have : ∀ s, Φ (negAt t₀ x s) = negAt t₀ (fun t => Φ (x t)) s := by
        intro s
        by_cases hs : s = t₀
        · rw [show negAt t₀ x s = -x s by funext i; simp [negAt, hs], hΦ]
          funext i
          simp [negAt, hs]
        · rw [show negAt t₀ x s = x s by funext i; simp [negAt, hs]]
          funext i
          simp [negAt, hs]
      exact this _
    rw [e]
    exact .rel _ _ (.mk _ _ _ h12)
  | refl x => exact .refl _
  | symm x y _ ih => exact .symm _ _ ih
  | trans x y z _ _ h1 h2 => exact .trans _ _ _ h1 h2

/-- Position of a tag among four. -/
def di : Tag → ZMod 4
  | .W => 0
  | .X => 1
  | .Y => 2
  | .Z => 3

/-- The family of the four unit vectors. -/
def unitFam : Fam 4 := fun t i => if i = di t then 1 else 0

/-- Conjugation is not of the form `x ↦ a x b`. -/
theorem star_not_rot (a b : ℍ[ℚ]) : ¬ ∀ x : ℍ[ℚ], star x = a * x * b := by
  intro h
  have h1 : a * b = 1 := by have := h 1; rwa [star_one, mul_one, eq_comm] at this
  have hb : b * a = 1 := by
    have ha : a ≠ 0 := by rintro rfl; simp at h1
    rw [eq_inv_of_mul_eq_one_right h1, inv_mul_cancel₀ ha]
  have h2 : star (qi * qj) = star qi * star qj := by
    rw [h qi, h qj, h]
    calc a * (qi * qj) * b = a * qi * 1 * qj * b := by simp only [mul_one, mul_assoc]
      _ = _ := by rw [← hb]; simp only [mul_assoc]
  have := congrArg QuaternionAlgebra.imK h2
  simp [qi_c, qj_c] at this
  norm_num at this

/-- A rotation of the alphabet acts on families as negate-and-swap operations. -/
theorem rot_ns {u v : ℍ[ℚ]} (h : ∀ a ∈ Alphabet, u * a * v ∈ Alphabet) (f : Fam n) :
    ∃ g, NSEquiv f g ∧ word g = fun i => u * word f i * v := by
  obtain ⟨σ, e, he, hco⟩ := rot_signed h
  have hw : ∀ {m : ℕ} [NeZero m] (f : Fam m) i, word (act σ e f) i = u * word f i * v := by
    intro m _ f i
    apply co_inj
    funext t
    rw [co_word, hco, co_word]
    unfold act
    push_cast
    rfl
  refine ⟨act σ e f, ?_, funext (hw f)⟩
  rcases sn_ns (sn_act σ he unitFam) with hns | hns
  · have := ns_map (Φ := fun x i => x 0 * f .W i + x 1 * f .X i + x 2 * f .Y i + x 3 * f .Z i)
      (fun x => by funext i; simp only [Pi.neg_apply]; ring) hns
    have e1 : (fun t i => unitFam t 0 * f .W i + unitFam t 1 * f .X i + unitFam t 2 * f .Y i + unitFam t 3 * f .Z i) = f := by
      funext t i
      have hu : ∀ t, unitFam t 0 = (if t = .W then 1 else 0) ∧ unitFam t 1 = (if t = .X then 1 else 0) ∧
          unitFam t 2 = (if t = .Y then 1 else 0) ∧ unitFam t 3 = (if t = .Z then 1 else 0) := by
        intro t; cases t <;> decide
      obtain ⟨h0, h1, h2, h3⟩ := hu t
      rw [h0, h1, h2, h3]
      cases t <;> simp
    have e2 : (fun t i => act σ e unitFam t 0 * f .W i + act σ e unitFam t 1 * f .X i + act σ e unitFam t 2 * f .Y i +
        act σ e unitFam t 3 * f .Z i) = act σ e f := by
      funext t i
      unfold act
      rw [← congrFun (congrFun e1 (σ t)) i]
      ring
    rw [e1, e2] at this
    exact this
  · exfalso
    obtain ⟨a, b, ha, hb, hab⟩ := ns_rot hns
    have hneg : ∀ g : Fam 4, ∀ i, word (negAt .W g) i = -(axis .W * star (word g i) * axis .W) := by
      intro g i
      unfold word
      rw [← lw_neg]
      congr 1
      funext t
      unfold negAt
      split <;> simp
    have hx : ∀ x : ℍ[ℚ], -(axis .W * star (u * x * v) * axis .W) = a * x * b := by
      have hb : ∀ t, -(axis .W * star (u * axis t * v) * axis .W) = a * axis t * b := by
        intro t
        have hd : (2 : ℚ) • word unitFam (di t) = axis t := by
          apply co_inj
          funext s
          rw [co_smul, co_word, co_axis]
          cases t <;> cases s <;> simp [unitFam, di] <;> decide
        have := hab (di t)
        rw [hneg, hw] at this
        have := congrArg (fun x => (2 : ℚ) • x) this
        rw [← hd]
        simpa only [smul_neg, star_mul, Quaternion.star_smul, mul_smul_comm, smul_mul_assoc] using this
      intro x
      rw [basis x]
      simp only [mul_add, add_mul, star_add, neg_add, mul_smul_comm, smul_mul_assoc, Quaternion.star_smul, hb, ← smul_neg]
    obtain ⟨hu, hv⟩ := rot_ne h
    refine star_not_rot ((star v)⁻¹ * (-(axis .W)⁻¹ * a)) (b * (axis .W)⁻¹ * (star u)⁻¹) fun x => ?_
    have hA := axis_ne .W
    have k := hx x
    rw [neg_eq_iff_eq_neg] at k
    have k2 : star (u * x * v) = -((axis .W)⁻¹ * (a * x * b) * (axis .W)⁻¹) := by
      rw [← neg_mul, ← mul_neg, ← k]
      simp only [mul_assoc, mul_inv_cancel₀ hA, mul_one, inv_mul_cancel_left₀ hA]
    rw [star_mul, star_mul] at k2
    have k3 : star x = (star v)⁻¹ * (star v * (star x * star u)) * (star u)⁻¹ := by
      rw [inv_mul_cancel_left₀ (star_ne_zero.2 hv), mul_assoc, mul_inv_cancel₀ (star_ne_zero.2 hu), mul_one]
    rw [k3, k2]
    simp only [mul_assoc, neg_mul, mul_neg]

end words

end Proofs.Letters
