import Mathlib.Analysis.MeanInequalities
import Verif.Proofs.Explicit

/-!
# Helper lemmas: spectra at prime lengths are not small away from frequency 0
-/

set_option linter.unusedSectionVars false
set_option linter.unusedVariables false
set_option linter.unusedSimpArgs false

namespace Proofs.PrimeGap
open Model Spec Proofs Proofs.Fourier Proofs.Rigid Proofs.Norm Proofs.Explicit Complex

variable {n : ℕ} [NeZero n]

/-- The product of nonnegative numbers is at most the power of their mean. -/
theorem prod_le_mean {ι : Type} (s : Finset ι) (f : ι → ℝ) (hf : ∀ i ∈ s, 0 ≤ f i) :
    ∏ i ∈ s, f i ≤ ((∑ i ∈ s, f i) / s.card) ^ s.card := by
  rcases s.eq_empty_or_nonempty with rfl | hne
  · simp
  have hc : s.card ≠ 0 := hne.card_ne_zero
  have hc' : (0 : ℝ) < s.card := by exact_mod_cast hne.card_pos
  have h := Real.geom_mean_le_arith_mean s (fun _ => 1) f (fun _ _ => zero_le_one) (by simpa using hne) hf
  simp only [Real.rpow_one, Finset.sum_const, nsmul_eq_mul, mul_one, one_mul] at h
  have h0 : 0 ≤ ∏ i ∈ s, f i := Finset.prod_nonneg hf
  have h2 := pow_le_pow_left₀ (Real.rpow_nonneg h0 _) h s.card
  rwa [Real.rpow_inv_natCast_pow h0 hc] at h2

section
variable {K : Type} [Field K] [CharZero K] [Algebra ℚ K] [IsCyclotomicExtension {n} ℚ K]

/-- The sum over the embeddings is part of the sum over the frequencies other than 0. -/
theorem embed_sum [FiniteDimensional ℚ K] (hn : n.Prime) (g : ZMod n → ℤ) (k : ZMod n) (hk : k ≠ 0) :
    ∑ σ : K →ₐ[ℚ] ℂ, ‖σ (alpha K g k)‖ ^ 2 ≤ ∑ a ∈ Finset.univ.erase (0 : ZMod n), ‖D g a‖ ^ 2 := by
  have : Fact n.Prime := ⟨hn⟩
  classical
  choose i hlt hco hi using embed_zeta (n := n) (K := K)
  have hinj : Function.Injective fun σ : K →ₐ[ℚ] ℂ => (i σ : ZMod n) * k := by
    intro σ τ h
    have h1 := mul_right_cancel₀ hk h
    refine embed_inj (hi σ) (hi τ) ?_
    have := (ZMod.natCast_eq_natCast_iff' _ _ _).1 h1
    rwa [Nat.mod_eq_of_lt (hlt σ), Nat.mod_eq_of_lt (hlt τ)] at this
  have e : ∀ σ : K →ₐ[ℚ] ℂ, ‖σ (alpha K g k)‖ ^ 2 = ‖D g ((i σ : ZMod n) * k)‖ ^ 2 := fun σ => by
    rw [embed_alpha σ (hi σ)]
  rw [Finset.sum_congr rfl fun σ _ => e σ, ← Finset.sum_image (f := fun a => ‖D g a‖ ^ 2) fun σ _ τ _ h => hinj h]
  refine Finset.sum_le_sum_of_subset_of_nonneg ?_ fun _ _ _ => by positivity
  intro a ha
  obtain ⟨σ, _, rfl⟩ := Finset.mem_image.1 ha
  refine Finset.mem_erase.2 ⟨mul_ne_zero ?_ hk, Finset.mem_univ _⟩
  intro h0
  rw [ZMod.natCast_eq_zero_iff] at h0
  have h1 : n ∣ Nat.gcd (i σ) n := Nat.dvd_gcd h0 dvd_rfl
  rw [hco σ] at h1
  exact hn.one_lt.ne' (Nat.dvd_one.1 h1)

/-- A nonzero value is bounded below in terms of the sum of the squares over all other frequencies. -/
theorem lower_sum_gen (K : Type) [Field K] [CharZero K] [Algebra ℚ K] [IsCyclotomicExtension {n} ℚ K]
    [FiniteDimensional ℚ K] (hn : n.Prime) (h3 : 3 ≤ n) (g : ZMod n → ℤ) (k : ZMod n) (hk : k ≠ 0) (hne : D g k ≠ 0)
    (S : ℝ) (hS : ∑ a ∈ Finset.univ.erase (0 : ZMod n), ‖D g a‖ ^ 2 ≤ S) :
    1 ≤ (‖D g k‖ ^ 2) ^ 2 * (S / (n - 3 : ℕ)) ^ (n - 3) := by
  classical
  obtain ⟨σ0, h0⟩ := exists_embed (n := n) (K := K)
  have e0 : σ0 (alpha K g k) = D g k := by
    have := embed_alpha σ0 (i := 1) (by rw [h0, pow_one]) g k
    simpa using this
  let c : ℂ →ₐ[ℚ] ℂ := Complex.conjAe.toAlgHom.restrictScalars ℚ
  let σ1 := c.comp σ0
  have e1 : σ1 (alpha K g k) = (starRingEnd ℂ) (D g k) := by
    show (starRingEnd ℂ) (σ0 (alpha K g k)) = _
    rw [e0]
  have h01 : σ1 ≠ σ0 := by
    intro h
    have h2 : (starRingEnd ℂ) (η n) = η n := by
      have : σ1 (IsCyclotomicExtension.zeta n ℚ K) = (starRingEnd ℂ) (η n) := by
        show (starRingEnd ℂ) (σ0 _) = _
        rw [h0]
      rw [← this, h, h0]
    unfold η at h2
    rw [conj_ψ] at h2
    have h4 : η n ^ 2 = 1 := by
      unfold η
      rw [pow_two]
      nth_rw 2 [← h2]
      rw [← AddChar.map_add_eq_mul]
      simp
    have := Nat.le_of_dvd (by norm_num) ((η_prim (n := n)).dvd_of_pow_eq_one 2 h4)
    omega
  have h1 := one_le_prod K g k hne
  have h1 : (1 : ℝ) ≤ ∏ σ : K →ₐ[ℚ] ℂ, ‖σ (alpha K g k)‖ ^ 2 := by
    rw [Finset.prod_pow]
    exact one_le_pow₀ h1
  have hmem : σ1 ∈ (Finset.univ : Finset (K →ₐ[ℚ] ℂ)).erase σ0 :=
    Finset.mem_erase.2 ⟨h01, Finset.mem_univ _⟩
  rw [← Finset.mul_prod_erase _ _ (Finset.mem_univ σ0), ← Finset.mul_prod_erase _ _ hmem, e0, e1, RCLike.norm_conj,
    ← mul_assoc, ← pow_two] at h1
  have hc : (((Finset.univ : Finset (K →ₐ[ℚ] ℂ)).erase σ0).erase σ1).card = n - 3 := by
    rw [Finset.card_erase_of_mem hmem, Finset.card_erase_of_mem (Finset.mem_univ _), Finset.card_univ, card_embed (n := n),
      Nat.totient_prime hn]
    omega
  have h2 := prod_le_mean (((Finset.univ : Finset (K →ₐ[ℚ] ℂ)).erase σ0).erase σ1) (fun σ => ‖σ (alpha K g k)‖ ^ 2)
    fun _ _ => by positivity
  rw [hc] at h2
  have h3 : ∑ σ ∈ ((Finset.univ : Finset (K →ₐ[ℚ] ℂ)).erase σ0).erase σ1, ‖σ (alpha K g k)‖ ^ 2 ≤ S :=
    (Finset.sum_le_sum_of_subset_of_nonneg (Finset.subset_univ _) fun _ _ _ => by positivity).trans
      ((embed_sum hn g k hk).trans hS)
  have h4 : (∑ σ ∈ ((Finset.univ : Finset (K →ₐ[ℚ] ℂ)).erase σ0).erase σ1, ‖σ (alpha K g k)‖ ^ 2) / ((n - 3 : ℕ) : ℝ) ≤
      S / ((n - 3 : ℕ) : ℝ) := div_le_div_of_nonneg_right h3 (by positivity)
  have h5 := pow_le_pow_left₀ (div_nonneg (Finset.sum_nonneg fun _ _ => by positivity) (by positivity)) h4 (n - 3)
  exact h1.trans (mul_le_mul_of_nonneg_left (h2.trans h5) (by positivity))

end

theorem lower_sum (hn : n.Prime) (h3 : 3 ≤ n) (g : ZMod n → ℤ) (k : ZMod n) (hk : k ≠ 0) (hne : D g k ≠ 0)
    (S : ℝ) (hS : ∑ a ∈ Finset.univ.erase (0 : ZMod n), ‖D g a‖ ^ 2 ≤ S) :
    1 ≤ (‖D g k‖ ^ 2) ^ 2 * (S / (n - 3 : ℕ)) ^ (n - 3) :=
  @lower_sum_gen n _ (CyclotomicField n ℚ) _ _ (CyclotomicField.algebra n ℚ) inferInstance
    (IsCyclotomicExtension.finiteDimensional {n} ℚ _) hn h3 g k hk hne S hS

/-- Away from frequency 0 the spectrum of a ±1 sequence is twice that of a 0-1 sequence. -/
theorem D_half (x : ZMod n → ℤ) (hx : PM x) (k : ZMod n) (hk : k ≠ 0) :
    D x k = 2 * D (fun t => if x t = 1 then 1 else 0) k := by
  have e : x = fun t => 2 * (if x t = 1 then 1 else 0) - 1 := by
    funext t
    rcases hx t with h | h <;> rw [h] <;> simp
  have h1 : D (fun _ : ZMod n => (1 : ℤ)) k = 0 := by
    unfold D
    have := orthogonality (n := n) (-k)
    rw [if_neg (neg_ne_zero.2 hk)] at this
    rw [← this]
    refine Finset.sum_congr rfl fun s _ => ?_
    simp
  have h2 := D_sub (n := n) (fun t => 2 * (if x t = 1 then 1 else 0)) (fun _ => 1) k
  rw [h1, D_smul, sub_zero] at h2
  rw [← e] at h2
  push_cast at h2
  exact h2

theorem parseval (x : ZMod n → ℤ) (hx : PM x) : ∑ k, ‖D x k‖ ^ 2 = (n : ℝ) ^ 2 := by
  have h := sum_cross x x 0
  have hp : ccf x x 0 = n := by
    rw [ccf_self]
    unfold paf
    have : ∀ i : ZMod n, x i * x (i + 0) = 1 := fun i => by rw [add_zero]; rcases hx i with h | h <;> rw [h] <;> rfl
    rw [Finset.sum_congr rfl fun i _ => this i]
    simp
  rw [hp] at h
  simp only [mul_zero, AddChar.map_zero_eq_one, mul_one] at h
  have e : ∀ k, ((‖D x k‖ ^ 2 : ℝ) : ℂ) = F x k * (starRingEnd ℂ) (F x k) := by
    intro k
    rw [mul_conj, normSq_eq_norm_sq]
    rfl
  have h2 : ((∑ k, ‖D x k‖ ^ 2 : ℝ) : ℂ) = ((n : ℝ) ^ 2 : ℝ) := by
    rw [Complex.ofReal_sum, Finset.sum_congr rfl fun k _ => e k, h]
    push_cast
    ring
  exact_mod_cast h2

/-- The lower bound for the spectra. -/
noncomputable def low (n : ℕ) : ℝ := 4 * (4 * (n - 3 : ℕ) / (n : ℝ) ^ 2) ^ ((n - 3) / 2)

theorem low_pos (h3 : 3 ≤ n) : 0 < low n := by
  unfold low
  rcases Nat.lt_or_ge 3 n with h | h
  · have : (0 : ℝ) < ((n - 3 : ℕ) : ℝ) := by exact_mod_cast (by omega)
    have : (0 : ℝ) < n := by exact_mod_cast (by omega)
    positivity
  · have : n = 3 := by omega
    subst this
    norm_num

/-- At an odd prime length the spectrum of a ±1 sequence is zero or at least `low n` away from frequency 0. -/
theorem psd_low (hn : n.Prime) (h3 : 3 ≤ n) {x : List ℤ} (hx : PMSeq n x) {k : ℕ} (h1 : 1 ≤ k) (h2 : k < n)
    (h0 : psd n x k ≠ 0) : low n ≤ psd n x k := by
  have hpm : PM (cyc n x) := cyc_pm hx
  have hk : (k : ZMod n) ≠ 0 := by
    intro h
    rw [ZMod.natCast_eq_zero_iff] at h
    have := Nat.le_of_dvd (by omega) h
    omega
  set y : ZMod n → ℤ := fun t => if cyc n x t = 1 then 1 else 0 with hy
  have hD : dft n x k = 2 * D y (k : ZMod n) := by
    rw [dft_eq]
    exact D_half (cyc n x) hpm _ hk
  have hpsd : psd n x k = 4 * ‖D y (k : ZMod n)‖ ^ 2 := by
    unfold psd
    rw [hD, normSq_eq_norm_sq, norm_mul, mul_pow]
    norm_num
  have hne : D y (k : ZMod n) ≠ 0 := by
    intro h
    rw [hpsd, h] at h0
    simp at h0
  have hS : ∑ a ∈ Finset.univ.erase (0 : ZMod n), ‖D y a‖ ^ 2 ≤ (n : ℝ) ^ 2 / 4 := by
    have hp := parseval (cyc n x) hpm
    rw [← Finset.add_sum_erase _ _ (Finset.mem_univ (0 : ZMod n))] at hp
    have e : ∀ a ∈ Finset.univ.erase (0 : ZMod n), ‖D (cyc n x) a‖ ^ 2 = 4 * ‖D y a‖ ^ 2 := by
      intro a ha
      rw [D_half (cyc n x) hpm a (Finset.mem_erase.1 ha).1, ← hy, norm_mul, mul_pow]
      norm_num
    rw [Finset.sum_congr rfl e, ← Finset.mul_sum] at hp
    have : 0 ≤ ‖D (cyc n x) 0‖ ^ 2 := by positivity
    linarith
  have hl := lower_sum hn h3 y (k : ZMod n) hk hne _ hS
  rw [hpsd]
  unfold low
  refine mul_le_mul_of_nonneg_left ?_ (by norm_num)
  set w := ‖D y (k : ZMod n)‖ ^ 2 with hw
  have hw0 : 0 ≤ w := by positivity
  have npos : (0 : ℝ) < n := by exact_mod_cast (by omega)
  rcases Nat.lt_or_ge 3 n with h | h
  · obtain ⟨m, hm⟩ : ∃ m, n - 3 = m * 2 := by
      obtain ⟨j, hj⟩ := hn.odd_of_ne_two (by omega)
      exact ⟨j - 1, by omega⟩
    have hm0 : (0 : ℝ) < ((m * 2 : ℕ) : ℝ) := by exact_mod_cast (by omega)
    rw [hm] at hl ⊢
    rw [Nat.mul_div_cancel _ (by norm_num)]
    rw [pow_mul, ← mul_pow] at hl
    have h6 : 1 ≤ w * ((n : ℝ) ^ 2 / 4 / ((m * 2 : ℕ) : ℝ)) ^ m := by
      by_contra hc
      push Not at hc
      have := pow_lt_one₀ (mul_nonneg hw0 (by positivity)) hc (two_ne_zero)
      linarith
    have e : (4 * ((m * 2 : ℕ) : ℝ) / (n : ℝ) ^ 2) = ((n : ℝ) ^ 2 / 4 / ((m * 2 : ℕ) : ℝ))⁻¹ := by
      field_simp
    rw [e, inv_pow]
    have hpos : 0 < ((n : ℝ) ^ 2 / 4 / ((m * 2 : ℕ) : ℝ)) ^ m := by positivity
    rw [inv_le_iff_one_le_mul₀ hpos]
    exact h6
  · have h3' : n - 3 = 0 := by omega
    rw [h3'] at hl ⊢
    simp only [Nat.zero_div, pow_zero, mul_one] at hl ⊢
    by_contra hc
    push Not at hc
    have := pow_lt_one₀ hw0 hc (two_ne_zero)
    linarith

/-- So the spectra of two members of a complementary quadruple stay below `4 n` by as much. -/
theorem pair_low (hn : n.Prime) (h3 : 3 ≤ n) {s : QuadSeq} (hs : PMQuad n s)
    (hc : Complementary (cyc n s.a) (cyc n s.b) (cyc n s.c) (cyc n s.d)) {t1 t2 : Tag} (ht : t1 ≠ t2) {k : ℕ}
    (h1 : 1 ≤ k) (h2 : k < n) : psd n (s.sequence t1) k + psd n (s.sequence t2) k + low n ≤ 4 * n := by
  have hlt := Prime.pair_lt hn h3 hs hc ht h1 h2
  have hk := psd_sum hs.a hs.b hs.c hs.d hc k
  have key : ∀ {x y : List ℤ}, PMSeq n x → PMSeq n y → 0 < psd n x k + psd n y k → low n ≤ psd n x k + psd n y k := by
    intro x y hx hy hpos
    have px := psd_nonneg (n := n) x k
    have py := psd_nonneg (n := n) y k
    by_cases h : psd n x k = 0
    · have := psd_low hn h3 hy h1 h2 (by intro h'; linarith)
      linarith
    · have := psd_low hn h3 hx h1 h2 h
      linarith
  cases t1 <;> cases t2 <;> simp only [QuadSeq.sequence] at hlt ⊢ <;>
    first
    | exact absurd rfl ht
    | (have := key hs.a hs.b (by linarith); linarith)
    | (have := key hs.a hs.c (by linarith); linarith)
    | (have := key hs.a hs.d (by linarith); linarith)
    | (have := key hs.b hs.c (by linarith); linarith)
    | (have := key hs.b hs.d (by linarith); linarith)
    | (have := key hs.c hs.d (by linarith); linarith)

end Proofs.PrimeGap
