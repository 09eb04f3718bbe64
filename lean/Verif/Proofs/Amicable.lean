import Verif.Spec.Correlation
import Mathlib.Algebra.MonoidAlgebra.Basic
import Mathlib.Algebra.MonoidAlgebra.MapDomain
import Mathlib.Data.ZMod.Basic
import Mathlib.Tactic.LinearCombination
import Mathlib.Algebra.Order.BigOperators.Group.Finset
import Mathlib.Algebra.Order.Ring.Int

/-!
# The weak QT cross-correlation condition is amicability

Proved in the integral group ring of `ZMod n`.
-/

namespace Proofs.Amicable
open Spec

variable {n : ℕ} [NeZero n]

abbrev R (n : ℕ) := AddMonoidAlgebra ℤ (ZMod n)

/-- A sequence as an element of the group ring. -/
noncomputable def E (x : ZMod n → ℤ) : R n := ∑ g, AddMonoidAlgebra.single g (x g)

/-- Its mirror image. -/
noncomputable def E' (x : ZMod n → ℤ) : R n := ∑ g, AddMonoidAlgebra.single (-g) (x g)

theorem coeff_E (x : ZMod n → ℤ) (t : ZMod n) : (E x).coeff t = x t := by
  classical
  simp [E, AddMonoidAlgebra.coeff_sum, Finsupp.finsetSum_apply, Finsupp.single_apply]

theorem E_inj {x y : ZMod n → ℤ} (h : E x = E y) : x = y := by
  funext t; rw [← coeff_E x, ← coeff_E y, h]

theorem EE' (x y : ZMod n → ℤ) : E x * E' y = E (ccf x y) := by
  classical
  ext t
  rw [coeff_E]
  simp only [E, E', Finset.sum_mul_sum, AddMonoidAlgebra.single_mul_single, AddMonoidAlgebra.coeff_sum,
    Finsupp.finsetSum_apply, AddMonoidAlgebra.coeff_single, Finsupp.single_apply, ccf]
  refine Finset.sum_congr rfl fun i _ => ?_
  rw [Finset.sum_eq_single (i - t)]
  · simp
  · intro b _ hb
    rw [if_neg]
    rintro rfl; apply hb; ring
  · simp


theorem ccf_neg (x y : ZMod n → ℤ) (t : ZMod n) : ccf y x t = ccf x y (-t) := by
  unfold ccf
  refine Fintype.sum_equiv (Equiv.subRight t) _ _ fun i => ?_
  simp [mul_comm]

/-- The antisymmetric part of the cross-correlation. -/
def asym (x y : ZMod n → ℤ) (t : ZMod n) : ℤ := ccf x y t - ccf y x t

theorem asym_swap (x y : ZMod n → ℤ) (t : ZMod n) : asym y x t = -asym x y t := by
  simp [asym]

theorem asym_neg (x y : ZMod n → ℤ) (t : ZMod n) : asym x y (-t) = -asym x y t := by
  simp only [asym]; rw [← ccf_neg x y, ← ccf_neg y x]; ring

theorem E_sub (x y : ZMod n → ℤ) : E (fun t => x t - y t) = E x - E y := by
  ext t; simp [coeff_E, AddMonoidAlgebra.coeff_sub]

theorem E_neg (x : ZMod n → ℤ) : E (fun t => - x t) = - E x := by
  ext t; simp [coeff_E, AddMonoidAlgebra.coeff_neg]

theorem E_asym (x y : ZMod n → ℤ) : E (asym x y) = E x * E' y - E y * E' x := by
  rw [EE', EE', ← E_sub]; rfl

theorem E'_eq (x : ZMod n → ℤ) : E' x = E (fun t => x (-t)) := by
  unfold E E'
  refine Fintype.sum_equiv (Equiv.neg _) _ _ fun i => ?_
  simp

theorem sq_asym (x y : ZMod n → ℤ) :
    (E (asym x y) * E (asym x y)).coeff 0 = - ∑ i, asym x y i ^ 2 := by
  have h : E (asym x y) = - E' (asym x y) := by
    rw [E'_eq, ← E_neg]; congr 1; funext t; rw [asym_neg]; ring
  rw [show E (asym x y) * E (asym x y) = - (E (asym x y) * E' (asym x y)) by
    conv_lhs => rw [h]
    rw [h]; ring]
  rw [EE', ← E_neg, coeff_E]
  simp [ccf, sq]

theorem pluecker (a b c d : ZMod n → ℤ) :
    E (asym a b) * E (asym c d) - E (asym a c) * E (asym b d) + E (asym a d) * E (asym b c) = 0 := by
  simp only [E_asym]; ring

theorem sumsq_zero {p q r : ZMod n → ℤ} (h : ∑ i, p i ^ 2 + ∑ i, q i ^ 2 + ∑ i, r i ^ 2 = 0) :
    (∀ i, p i = 0) ∧ (∀ i, q i = 0) ∧ (∀ i, r i = 0) := by
  have hp : 0 ≤ ∑ i, p i ^ 2 := Finset.sum_nonneg fun i _ => sq_nonneg _
  have hq : 0 ≤ ∑ i, q i ^ 2 := Finset.sum_nonneg fun i _ => sq_nonneg _
  have hr : 0 ≤ ∑ i, r i ^ 2 := Finset.sum_nonneg fun i _ => sq_nonneg _
  have key : ∀ f : ZMod n → ℤ, ∑ i, f i ^ 2 = 0 → ∀ i, f i = 0 := by
    intro f hf i
    have := (Finset.sum_eq_zero_iff_of_nonneg (fun i _ => sq_nonneg (f i))).1 hf i (Finset.mem_univ _)
    exact pow_eq_zero_iff (two_ne_zero) |>.1 this
  exact ⟨key p (by omega), key q (by omega), key r (by omega)⟩

/-- Both sign orientations (`e = 1`, `e = -1`) of the weak condition force amicability. -/
theorem amicable_of_signed {a b c d : ZMod n → ℤ} (e : ℤ) (he : e = 1 ∨ e = -1)
    (h1 : ∀ t, asym a b t = e * asym c d t) (h2 : ∀ t, asym a c t = e * asym d b t)
    (h3 : ∀ t, asym a d t = e * asym b c t) : PairwiseAmicable a b c d := by
  have hee : e * e = 1 := by rcases he with h | h <;> simp [h]
  have h1' : asym c d = fun t => e * asym a b t := by
    funext t; rw [h1, ← mul_assoc, hee, one_mul]
  have h2' : asym b d = fun t => -(e * asym a c t) := by
    funext t; rw [h2, ← mul_assoc, hee, one_mul, asym_swap]
  have h3' : asym b c = fun t => e * asym a d t := by
    funext t; rw [h3, ← mul_assoc, hee, one_mul]
  have P := pluecker a b c d
  have hE : ∀ x : ZMod n → ℤ, E (fun t => e * x t) = e • E x := by
    intro x; rcases he with rfl | rfl
    · simp
    · simpa using E_neg x
  rw [h1', h2', h3', E_neg] at P
  simp only [hE] at P
  have P2 : E (asym a b) * E (asym a b) + E (asym a c) * E (asym a c)
      + E (asym a d) * E (asym a d) = 0 := by
    rcases he with rfl | rfl
    · simpa using P
    · simp only [neg_smul, one_smul, mul_neg, neg_neg] at P
      linear_combination -P
  have P3 := congrArg (fun z => z.coeff 0) P2
  simp only [AddMonoidAlgebra.coeff_add, Finsupp.add_apply, sq_asym, AddMonoidAlgebra.coeff_zero,
    Finsupp.zero_apply] at P3
  obtain ⟨z1, z2, z3⟩ := sumsq_zero (p := asym a b) (q := asym a c) (r := asym a d) (by omega)
  have am : ∀ x y : ZMod n → ℤ, (∀ t, asym x y t = 0) → Amicable x y := by
    intro x y h t; have := h t; unfold asym at this; omega
  refine ⟨am _ _ z1, am _ _ z2, am _ _ z3, am _ _ ?_, am _ _ ?_, am _ _ ?_⟩
  · intro t; rw [h3']; simp [z3]
  · intro t; rw [h2']; simp [z2]
  · intro t; rw [h1']; simp [z1]

theorem qtcross_iff (a b c d : ZMod n → ℤ) : QTCross a b c d ↔ PairwiseAmicable a b c d := by
  constructor
  · intro h
    refine amicable_of_signed (-1) (Or.inr rfl) ?_ ?_ ?_ <;> intro t <;> have := h t <;>
      simp only [asym] <;> omega
  · rintro ⟨h1, h2, h3, h4, h5, h6⟩ t
    have := h1 t; have := h2 t; have := h3 t; have := h4 t; have := h5 t; have := h6 t
    omega

end Proofs.Amicable
