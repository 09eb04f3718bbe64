import Mathlib.NumberTheory.Cyclotomic.PrimitiveRoots
import Mathlib.RingTheory.Norm.Transitivity
import Mathlib.RingTheory.Polynomial.Cyclotomic.Roots
import Mathlib.Analysis.Complex.Polynomial.Basic
import Verif.Proofs.Rigid

/-!
# Helper lemmas: a nonzero value of a transform is not too small

The product of a value of the transform of an integer function over all frequencies prime to the length is the norm of an
algebraic integer, so it is zero or at least 1 in modulus.
-/

set_option linter.unusedSectionVars false
set_option linter.unusedVariables false
set_option linter.unusedSimpArgs false

namespace Proofs.Norm
open Model Spec Proofs Proofs.Fourier Proofs.Rigid Polynomial

variable {n : ℕ} [NeZero n]

/-- The first root of unity. -/
noncomputable def η (n : ℕ) [NeZero n] : ℂ := ψ (n := n) 1

theorem η_prim : IsPrimitiveRoot (η n) n := by
  have h := Complex.isPrimitiveRoot_exp n (NeZero.ne n)
  have e : η n = Complex.exp (2 * Real.pi * Complex.I / n) := by
    have := unit_eq (n := n) 1
    unfold η
    rw [show ((1 : ZMod n)) = ((1 : ℤ) : ZMod n) by simp, ← this]
    unfold unit
    simp
  rw [e]; exact h

theorem ψ_pow (a : ZMod n) (i : ℕ) : (ψ a : ℂ) ^ i = ψ ((i : ZMod n) * a) := by
  rw [← AddChar.map_nsmul_eq_pow, nsmul_eq_mul]

theorem η_pow (a : ZMod n) : η n ^ a.val = ψ a := by
  unfold η
  rw [ψ_pow]
  simp

section
variable {K : Type} [Field K] [CharZero K] [Algebra ℚ K] [IsCyclotomicExtension {n} ℚ K]

/-- The value in the cyclotomic field. -/
noncomputable def alpha (K : Type) [Field K] [CharZero K] [Algebra ℚ K] [IsCyclotomicExtension {n} ℚ K] (g : ZMod n → ℤ) (k : ZMod n) : K :=
  ∑ s, (g s : K) * IsCyclotomicExtension.zeta n ℚ K ^ (-(s * k)).val

theorem zeta_prim : IsPrimitiveRoot (IsCyclotomicExtension.zeta n ℚ K) n :=
  IsCyclotomicExtension.zeta_spec n ℚ _

theorem embed_alpha (σ : K →ₐ[ℚ] ℂ) {i : ℕ}
    (h : σ (IsCyclotomicExtension.zeta n ℚ K) = η n ^ i) (g : ZMod n → ℤ) (k : ZMod n) :
    σ (alpha K g k) = D g ((i : ZMod n) * k) := by
  unfold alpha D
  rw [map_sum]
  refine Finset.sum_congr rfl fun s _ => ?_
  rw [map_mul, map_intCast, map_pow, h, ← pow_mul, mul_comm i, pow_mul, η_pow, ψ_pow]
  congr 2
  ring

theorem embed_zeta (σ : K →ₐ[ℚ] ℂ) :
    ∃ i, i < n ∧ i.Coprime n ∧ σ (IsCyclotomicExtension.zeta n ℚ K) = η n ^ i := by
  have h : IsPrimitiveRoot (σ (IsCyclotomicExtension.zeta n ℚ K)) n :=
    zeta_prim.map_of_injective σ.toRingHom.injective
  obtain ⟨i, h1, h2, h3⟩ := η_prim.isPrimitiveRoot_iff.1 h
  exact ⟨i, h1, h2, h3.symm⟩

theorem exists_embed : ∃ σ : K →ₐ[ℚ] ℂ,
    σ (IsCyclotomicExtension.zeta n ℚ K) = η n := by
  have hirr := cyclotomic.irreducible_rat (NeZero.pos n)
  let e := (zeta_prim (n := n) (K := K)).embeddingsEquivPrimitiveRoots ℂ hirr
  refine ⟨e.symm ⟨η n, (mem_primitiveRoots (NeZero.pos n)).2 η_prim⟩, ?_⟩
  have := IsPrimitiveRoot.embeddingsEquivPrimitiveRoots_apply_coe (zeta_prim (n := n) (K := K)) ℂ hirr
    (e.symm ⟨η n, (mem_primitiveRoots (NeZero.pos n)).2 η_prim⟩)
  rw [← this]
  show ((e (e.symm _) : primitiveRoots n ℂ) : ℂ) = _
  rw [Equiv.apply_symm_apply]

theorem alpha_integral (g : ZMod n → ℤ) (k : ZMod n) : IsIntegral ℤ (alpha K g k) := by
  unfold alpha
  refine IsIntegral.sum _ fun s _ => IsIntegral.mul ?_ (IsIntegral.pow ?_ _)
  · exact isIntegral_algebraMap (R := ℤ) (A := K) (x := g s)
  · exact zeta_prim.isIntegral (NeZero.pos n)

theorem card_embed [FiniteDimensional ℚ K] : Fintype.card (K →ₐ[ℚ] ℂ) = n.totient := by
  rw [AlgHom.card, IsCyclotomicExtension.finrank (n := n) _ (cyclotomic.irreducible_rat (NeZero.pos n))]

theorem D_conj (g : ZMod n → ℤ) (k : ZMod n) : D g (-k) = (starRingEnd ℂ) (D g k) := by
  unfold D
  rw [map_sum]
  refine Finset.sum_congr rfl fun s _ => ?_
  rw [map_mul, conj_ψ, map_intCast]
  congr 2
  ring

/-- The product over all embeddings is at least 1. -/
theorem one_le_prod (K : Type) [Field K] [CharZero K] [Algebra ℚ K] [IsCyclotomicExtension {n} ℚ K] [FiniteDimensional ℚ K]
    (g : ZMod n → ℤ) (k : ZMod n) (hne : D g k ≠ 0) : (1 : ℝ) ≤ ∏ σ : K →ₐ[ℚ] ℂ, ‖σ (alpha K g k)‖ := by
  obtain ⟨σ0, h0⟩ := exists_embed (n := n) (K := K)
  have e0 : σ0 (alpha K g k) = D g k := by
    have := embed_alpha σ0 (i := 1) (by rw [h0, pow_one]) g k
    simpa using this
  have hα : alpha K g k ≠ 0 := fun h => hne (by rw [← e0, h, map_zero])
  obtain ⟨z, hz⟩ := IsIntegrallyClosed.isIntegral_iff.1 (Algebra.isIntegral_norm ℚ (alpha_integral (K := K) g k))
  have hz0 : z ≠ 0 := by
    intro h
    rw [h, map_zero] at hz
    exact hα (Algebra.norm_eq_zero_iff.1 hz.symm)
  have hprod := Algebra.norm_eq_prod_embeddings ℚ ℂ (alpha K g k)
  rw [← norm_prod, ← hprod, ← hz]
  have : (algebraMap ℚ ℂ) ((algebraMap ℤ ℚ) z) = ((z : ℤ) : ℂ) := by simp
  rw [this, Complex.norm_intCast]
  exact_mod_cast Int.one_le_abs hz0

/-- The embeddings are told apart by the exponent of the root of unity. -/
theorem embed_inj {σ τ : K →ₐ[ℚ] ℂ} {i j : ℕ} (hi : σ (IsCyclotomicExtension.zeta n ℚ K) = η n ^ i)
    (hj : τ (IsCyclotomicExtension.zeta n ℚ K) = η n ^ j) (h : i = j) : σ = τ := by
  have hirr := cyclotomic.irreducible_rat (NeZero.pos n)
  refine ((zeta_prim (n := n) (K := K)).embeddingsEquivPrimitiveRoots ℂ hirr).injective (Subtype.ext ?_)
  rw [IsPrimitiveRoot.embeddingsEquivPrimitiveRoots_apply_coe, IsPrimitiveRoot.embeddingsEquivPrimitiveRoots_apply_coe,
    hi, hj, h]

/-- A nonzero value is bounded below in terms of a bound on the values at the other frequencies. -/
theorem lower_gen (K : Type) [Field K] [CharZero K] [Algebra ℚ K] [IsCyclotomicExtension {n} ℚ K] [FiniteDimensional ℚ K] (h3 : 3 ≤ n) (g : ZMod n → ℤ) (k : ZMod n) (hne : D g k ≠ 0) (B : ℝ)
    (hB : ∀ i : ℕ, i.Coprime n → ‖D g ((i : ZMod n) * k)‖ ≤ B) : 1 ≤ ‖D g k‖ ^ 2 * B ^ (n.totient - 2) := by
  classical
  obtain ⟨σ0, h0⟩ := exists_embed (n := n) (K := K)
  have e0 : σ0 (alpha K g k) = D g k := by
    have := embed_alpha σ0 (i := 1) (by rw [h0, pow_one]) g k
    simpa using this
  have hα : alpha K g k ≠ 0 := fun h => hne (by rw [← e0, h, map_zero])
  let c : ℂ →ₐ[ℚ] ℂ := Complex.conjAe.toAlgHom.restrictScalars ℚ
  let σ1 := c.comp σ0
  have e1 : σ1 (alpha K g k) = (starRingEnd ℂ) (D g k) := by
    show (starRingEnd ℂ) (σ0 (alpha K g k)) = _
    rw [e0]
  have h01 : σ1 ≠ σ0 := by
    intro h
    have h2 : (starRingEnd ℂ) (η n) = η n := by
      have : σ1 (IsCyclotomicExtension.zeta n ℚ K) = (starRingEnd ℂ) (η n) := by
        show (starRingEnd ℂ) (σ0 _) = _
        rw [h0]
      rw [← this, h, h0]
    unfold η at h2
    rw [conj_ψ] at h2
    have h4 : η n ^ 2 = 1 := by
      unfold η
      rw [pow_two]
      nth_rw 2 [← h2]
      rw [← AddChar.map_add_eq_mul]
      simp
    have := Nat.le_of_dvd (by norm_num) ((η_prim (n := n)).dvd_of_pow_eq_one 2 h4)
    omega
  obtain ⟨z, hz⟩ := IsIntegrallyClosed.isIntegral_iff.1 (Algebra.isIntegral_norm ℚ (alpha_integral (K := K) g k))
  have hz0 : z ≠ 0 := by
    intro h
    rw [h, map_zero] at hz
    exact hα (Algebra.norm_eq_zero_iff.1 hz.symm)
  have hprod := Algebra.norm_eq_prod_embeddings ℚ ℂ (alpha K g k)
  have h1 : (1 : ℝ) ≤ ∏ σ : K →ₐ[ℚ] ℂ, ‖σ (alpha K g k)‖ := by
    rw [← norm_prod, ← hprod, ← hz]
    have : (algebraMap ℚ ℂ) ((algebraMap ℤ ℚ) z) = ((z : ℤ) : ℂ) := by simp
    rw [this, Complex.norm_intCast]
    exact_mod_cast Int.one_le_abs hz0
  have hmem : σ1 ∈ (Finset.univ : Finset (K →ₐ[ℚ] ℂ)).erase σ0 :=
    Finset.mem_erase.2 ⟨h01, Finset.mem_univ _⟩
  rw [← Finset.mul_prod_erase _ _ (Finset.mem_univ σ0), ← Finset.mul_prod_erase _ _ hmem, e0, e1, RCLike.norm_conj,
    ← mul_assoc, ← pow_two] at h1
  have h2 : ∏ σ ∈ ((Finset.univ : Finset (K →ₐ[ℚ] ℂ)).erase σ0).erase σ1, ‖σ (alpha K g k)‖ ≤
      B ^ (n.totient - 2) := by
    have hc : (((Finset.univ : Finset (K →ₐ[ℚ] ℂ)).erase σ0).erase σ1).card = n.totient - 2 := by
      rw [Finset.card_erase_of_mem hmem, Finset.card_erase_of_mem (Finset.mem_univ _), Finset.card_univ, card_embed (n := n)]
      omega
    rw [← hc]
    rw [← Finset.prod_const]
    refine Finset.prod_le_prod (fun σ _ => norm_nonneg _) fun σ _ => ?_
    obtain ⟨i, _, hi, h⟩ := embed_zeta (n := n) σ
    rw [embed_alpha σ h]
    exact hB i hi
  exact h1.trans (mul_le_mul_of_nonneg_left h2 (by positivity))

end

theorem lower (h3 : 3 ≤ n) (g : ZMod n → ℤ) (k : ZMod n) (hne : D g k ≠ 0) (B : ℝ)
    (hB : ∀ i : ℕ, i.Coprime n → ‖D g ((i : ZMod n) * k)‖ ≤ B) : 1 ≤ ‖D g k‖ ^ 2 * B ^ (n.totient - 2) :=
  @lower_gen n _ (CyclotomicField n ℚ) _ _ (CyclotomicField.algebra n ℚ) inferInstance
    (IsCyclotomicExtension.finiteDimensional {n} ℚ _) h3 g k hne B hB

end Proofs.Norm
