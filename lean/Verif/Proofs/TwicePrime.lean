import Mathlib.NumberTheory.LegendreSymbol.Basic
import Verif.Proofs.PrimeGap

/-!
# Helper lemmas: spectra at twice a prime
-/

set_option linter.unusedSectionVars false
set_option linter.unusedVariables false
set_option linter.unusedSimpArgs false

namespace Proofs.TwicePrime
open Model Spec Proofs Proofs.Fourier Proofs.Rigid Proofs.Norm Proofs.Explicit Proofs.PrimeGap Complex Polynomial

/-! ## Two squares -/

/-- `8 p` is not a sum of two squares. -/
theorem no_squares {p : ℕ} (hp : p.Prime) (h4 : p % 4 = 3) (a b : ℤ) : a ^ 2 + b ^ 2 ≠ 8 * p := by
  intro h
  have : Fact p.Prime := ⟨hp⟩
  have hpz : Prime (p : ℤ) := Nat.prime_iff_prime_int.1 hp
  have hz : (a : ZMod p) ^ 2 + (b : ZMod p) ^ 2 = 0 := by
    have : ((a ^ 2 + b ^ 2 : ℤ) : ZMod p) = ((8 * p : ℤ) : ZMod p) := by rw [h]
    push_cast at this
    rw [this]
    simp
  have hdiv : (p : ℤ) ∣ b := by
    by_contra hb
    have hb' : (b : ZMod p) ≠ 0 := fun h0 => hb ((ZMod.intCast_zmod_eq_zero_iff_dvd b p).1 h0)
    exact ZMod.mod_four_ne_three_of_sq_eq_neg_sq' (x := (a : ZMod p)) hb' (by
      rw [eq_neg_iff_add_eq_zero]; exact hz) h4
  obtain ⟨b', rfl⟩ := hdiv
  have hdiva : (p : ℤ) ∣ a ^ 2 := ⟨8 - p * b' ^ 2, by linarith [h, show (p : ℤ) * (8 - p * b' ^ 2) = 8 * p - (p * b') ^ 2 by ring]⟩
  obtain ⟨a', rfl⟩ := hpz.dvd_of_dvd_pow hdiva
  have h8 : (p : ℤ) * (a' ^ 2 + b' ^ 2) = 8 := by
    have hp0 : (p : ℤ) ≠ 0 := hpz.ne_zero
    have : (p : ℤ) * (p * (a' ^ 2 + b' ^ 2)) = p * 8 := by linarith [h, show (p : ℤ) * (p * (a' ^ 2 + b' ^ 2)) = (p * a') ^ 2 + (p * b') ^ 2 by ring]
    exact mul_left_cancel₀ hp0 this
  have hd : (p : ℤ) ∣ 2 ^ 3 := ⟨_, by rw [h8]; norm_num⟩
  have hd2 := hpz.dvd_of_dvd_pow hd
  have : p ∣ 2 := by exact_mod_cast hd2
  have := (Nat.prime_dvd_prime_iff_eq hp Nat.prime_two).1 this
  omega

/-! ## Folding -/

variable {p : ℕ}

/-- The mean of a sequence of length `2 p` and its shift by `p`. -/
def fold (p : ℕ) (x : List ℤ) : List ℤ := (List.range p).map fun j => (x.getD j 0 + x.getD (j + p) 0) / 2

/-- Every second entry negated. -/
def alt (p : ℕ) (x : List ℤ) : List ℤ := (List.range (2 * p)).map fun j => (-1) ^ j * x.getD j 0

theorem entry {n : ℕ} {x : List ℤ} (hx : PMSeq n x) {j : ℕ} (hj : j < n) : x.getD j 0 = 1 ∨ x.getD j 0 = -1 := by
  have hj' : j < x.length := by rw [hx.1]; exact hj
  rw [List.getD_eq_getElem _ _ hj']
  exact hx.2 _ (List.getElem_mem hj')

theorem fold_get (x : List ℤ) {j : ℕ} (hj : j < p) : (fold p x).getD j 0 = (x.getD j 0 + x.getD (j + p) 0) / 2 := by
  unfold fold
  exact getD_map_range _ _ _ hj _

theorem fold_two {x : List ℤ} (hx : PMSeq (2 * p) x) {j : ℕ} (hj : j < p) :
    2 * (fold p x).getD j 0 = x.getD j 0 + x.getD (j + p) 0 := by
  rw [fold_get x hj]
  rcases entry hx (show j < 2 * p by omega) with h | h <;> rcases entry hx (show j + p < 2 * p by omega) with h' | h' <;>
    rw [h, h'] <;> norm_num

theorem fold_small {x : List ℤ} (hx : PMSeq (2 * p) x) {j : ℕ} (hj : j < p) : ((fold p x).getD j 0) ^ 2 ≤ 1 := by
  rw [fold_get x hj]
  rcases entry hx (show j < 2 * p by omega) with h | h <;> rcases entry hx (show j + p < 2 * p by omega) with h' | h' <;>
    rw [h, h'] <;> norm_num

theorem alt_get (x : List ℤ) {j : ℕ} (hj : j < 2 * p) : (alt p x).getD j 0 = (-1) ^ j * x.getD j 0 := by
  unfold alt
  exact getD_map_range _ _ _ hj _

theorem alt_pm {x : List ℤ} (hx : PMSeq (2 * p) x) : PMSeq (2 * p) (alt p x) := by
  refine ⟨by simp [alt], fun v hv => ?_⟩
  obtain ⟨j, hj, rfl⟩ := List.mem_map.1 hv
  have h1 := entry hx (List.mem_range.1 hj)
  rcases neg_one_pow_eq_or ℤ j with h | h <;> rw [h] <;> rcases h1 with h' | h' <;> rw [h'] <;> simp

theorem dft_fold (hp : 0 < p) {x : List ℤ} (hx : PMSeq (2 * p) x) (m : ℕ) : dft (2 * p) x (2 * m) = 2 * dft p (fold p x) m := by
  have hpc : (p : ℂ) ≠ 0 := by exact_mod_cast hp.ne'
  have e1 : ∀ j : ℕ, unit (2 * p) (-(j * (2 * m) : ℕ)) = unit p (-(j * m : ℕ)) := by
    intro j
    unfold unit
    congr 1
    push_cast
    field_simp
  have e2 : ∀ j : ℕ, unit p (-((p + j) * m : ℕ)) = unit p (-(j * m : ℕ)) := by
    intro j
    have : NeZero p := ⟨hp.ne'⟩
    rw [unit_eq, unit_eq]
    congr 1
    push_cast
    simp
  unfold dft
  rw [Finset.sum_congr rfl fun j _ => by rw [e1 j], two_mul, Finset.sum_range_add, Finset.mul_sum, ← Finset.sum_add_distrib]
  refine Finset.sum_congr rfl fun j hj => ?_
  have h := fold_two hx (Finset.mem_range.1 hj)
  rw [e2 j]
  have h2 : (2 : ℂ) * (((fold p x).getD j 0 : ℤ) : ℂ) = ((x.getD j 0 : ℤ) : ℂ) + ((x.getD (p + j) 0 : ℤ) : ℂ) := by
    rw [add_comm p j]
    exact_mod_cast h
  rw [← mul_assoc, h2]
  ring

theorem dft_alt (hp : 0 < p) (x : List ℤ) (k : ℕ) : dft (2 * p) (alt p x) (k + p) = dft (2 * p) x k := by
  have hpc : (p : ℂ) ≠ 0 := by exact_mod_cast hp.ne'
  have e1 : ∀ j : ℕ, unit (2 * p) (-(j * (k + p) : ℕ)) = unit (2 * p) (-(j * k : ℕ)) * (-1) ^ j := by
    intro j
    unfold unit
    have : (2 * Real.pi * I * ((-(j * (k + p) : ℕ) : ℤ) : ℂ) / (2 * p : ℕ) : ℂ) =
        2 * Real.pi * I * ((-(j * k : ℕ) : ℤ) : ℂ) / (2 * p : ℕ) + (j : ℂ) * -(Real.pi * I) := by
      push_cast
      field_simp
      ring
    rw [this, Complex.exp_add, Complex.exp_nat_mul, Complex.exp_neg, Complex.exp_pi_mul_I]
    norm_num
  unfold dft
  refine Finset.sum_congr rfl fun j hj => ?_
  rw [alt_get x (Finset.mem_range.1 hj), e1 j]
  push_cast
  have h1 : ((-1 : ℂ) ^ j) * (-1) ^ j = 1 := by rw [← mul_pow]; norm_num
  calc (-1 : ℂ) ^ j * (x.getD j 0 : ℂ) * (unit (2 * p) (-(j * k : ℤ)) * (-1) ^ j)
      = ((-1 : ℂ) ^ j * (-1) ^ j) * ((x.getD j 0 : ℂ) * unit (2 * p) (-(j * k : ℤ))) := by ring
    _ = _ := by rw [h1, one_mul]

theorem psd_fold (hp : 0 < p) {x : List ℤ} (hx : PMSeq (2 * p) x) (m : ℕ) :
    psd (2 * p) x (2 * m) = 4 * psd p (fold p x) m := by
  unfold psd
  rw [dft_fold hp hx m, normSq_mul]
  norm_num

theorem psd_alt (hp : 0 < p) (x : List ℤ) (k : ℕ) : psd (2 * p) (alt p x) (k + p) = psd (2 * p) x k := by
  unfold psd
  rw [dft_alt hp x k]

/-! ## Zeros -/

/-- At a prime length the spectrum of integers has a zero away from frequency 0 only if they are all the same. -/
theorem constant_of_zero [NeZero p] (hn : p.Prime) (x : List ℤ) {k : ℕ} (h1 : ¬ p ∣ k) (h0 : dft p x k = 0) :
    ∃ c : ℤ, ∀ j < p, x.getD j 0 = c := by
  have : Fact p.Prime := ⟨hn⟩
  have npos : 0 < p := hn.pos
  set ζ := unit p (-(k : ℕ)) with hζ
  set Q : ℚ[X] := ∑ j ∈ Finset.range p, C ((x.getD j 0 : ℤ) : ℚ) * X ^ j with hQ
  have hcoeff : ∀ j, j < p → Q.coeff j = ((x.getD j 0 : ℤ) : ℚ) := by
    intro j hj
    rw [hQ, finsetSum_coeff]
    rw [Finset.sum_eq_single j]
    · simp
    · intro i _ hi
      rw [coeff_C_mul, coeff_X_pow, if_neg (fun h => hi h.symm), mul_zero]
    · intro h; exact absurd (Finset.mem_range.2 hj) h
  have hroot : aeval ζ Q = 0 := by
    rw [hQ, map_sum, ← h0]
    unfold dft
    refine Finset.sum_congr rfl fun j _ => ?_
    rw [map_mul, aeval_C, map_pow, aeval_X, Prime.unit_pow, eq_ratCast, Rat.cast_intCast]
  have hkr : ζ = unit p (-((k % p : ℕ) : ℕ)) := by
    rw [hζ, unit_eq, unit_eq]
    congr 1
    push_cast
    simp
  have hprim : IsPrimitiveRoot ζ p := by
    rw [hkr]
    exact Prime.primitive hn (Nat.pos_of_ne_zero fun h => h1 (Nat.dvd_of_mod_eq_zero h)) (Nat.mod_lt _ npos)
  have hdvd : cyclotomic p ℚ ∣ Q := by
    rw [cyclotomic_eq_minpoly_rat hprim npos]
    exact minpoly.dvd ℚ ζ hroot
  obtain ⟨R, hR⟩ := hdvd
  by_cases hR0 : R = 0
  · refine ⟨0, fun j hj => ?_⟩
    have := hcoeff j hj
    rw [hR, hR0, mul_zero, coeff_zero] at this
    exact_mod_cast this.symm
  have hdeg : Q.natDegree ≤ p - 1 := by
    rw [hQ]
    refine natDegree_sum_le_of_forall_le _ _ fun j hj => ?_
    refine (natDegree_C_mul_X_pow_le _ _).trans ?_
    have := Finset.mem_range.1 hj
    omega
  have hΦ : (cyclotomic p ℚ).natDegree = p - 1 := by
    rw [natDegree_cyclotomic, Nat.totient_prime hn]
  have hRd : R.natDegree = 0 := by
    have := natDegree_mul (cyclotomic_ne_zero p ℚ) hR0
    rw [← hR, hΦ] at this
    omega
  obtain ⟨r, rfl⟩ := natDegree_eq_zero.1 hRd
  have hall : ∀ j < p, ((x.getD j 0 : ℤ) : ℚ) = r := by
    intro j hj
    rw [← hcoeff j hj, hR, coeff_mul_C, cyclotomic_prime, finsetSum_coeff]
    rw [Finset.sum_eq_single j]
    · simp
    · intro i _ hi
      rw [coeff_X_pow, if_neg (fun h => hi h.symm)]
    · intro h; exact absurd (Finset.mem_range.2 hj) h
  refine ⟨x.getD 0 0, fun j hj => ?_⟩
  have := (hall j hj).trans (hall 0 npos).symm
  exact_mod_cast this

/-- The value at frequency 0 is the sum. -/
theorem dft_zero (n : ℕ) (x : List ℤ) : dft n x 0 = ((∑ j ∈ Finset.range n, x.getD j 0 : ℤ) : ℂ) := by
  unfold dft
  rw [Int.cast_sum]
  refine Finset.sum_congr rfl fun j _ => ?_
  unfold unit
  simp

/-- A zero at an even frequency that is not 0 makes the spectrum at frequency 0 zero or very large. -/
theorem zero_even (hn : p.Prime) {x : List ℤ} (hx : PMSeq (2 * p) x) {m : ℕ} (h1 : ¬ p ∣ m)
    (h0 : psd (2 * p) x (2 * m) = 0) : psd (2 * p) x 0 = 0 ∨ 4 * (p : ℝ) ^ 2 ≤ psd (2 * p) x 0 := by
  have : NeZero p := ⟨hn.ne_zero⟩
  have hz : dft p (fold p x) m = 0 := by
    rw [psd_fold hn.pos hx m] at h0
    exact normSq_eq_zero.1 (by unfold psd at h0; linarith)
  obtain ⟨c, hc⟩ := constant_of_zero hn _ h1 hz
  have e : psd (2 * p) x 0 = 4 * ((p : ℝ) * c) ^ 2 := by
    have := psd_fold hn.pos hx 0
    rw [mul_zero] at this
    rw [this]
    unfold psd
    rw [dft_zero, Finset.sum_congr rfl fun j hj => hc j (Finset.mem_range.1 hj), normSq_intCast]
    simp
    ring
  by_cases hc0 : c = 0
  · left; rw [e, hc0]; simp
  · right
    rw [e]
    have : (1 : ℝ) ≤ (c : ℝ) ^ 2 := by
      have : 1 ≤ c ^ 2 := by
        rcases lt_or_gt_of_ne hc0 with h | h <;> nlinarith
      exact_mod_cast this
    rw [mul_pow]
    have h2 : 0 ≤ (p : ℝ) ^ 2 := by positivity
    nlinarith

/-! ## The spectrum at frequencies 0 and `p` -/

theorem psd_sq (n : ℕ) (x : List ℤ) : ∃ z : ℤ, psd n x 0 = (z : ℝ) ^ 2 := by
  refine ⟨∑ j ∈ Finset.range n, x.getD j 0, ?_⟩
  unfold psd
  rw [dft_zero, normSq_intCast, pow_two]

theorem psd_mid (hp : 0 < p) (x : List ℤ) : psd (2 * p) x p = psd (2 * p) (alt p x) 0 := by
  have h := psd_alt hp (alt p x) 0
  rw [zero_add] at h
  rw [← h]
  unfold psd dft
  congr 1
  refine Finset.sum_congr rfl fun j hj => ?_
  rw [alt_get _ (Finset.mem_range.1 hj), alt_get _ (Finset.mem_range.1 hj), ← mul_assoc, ← mul_pow]
  norm_num

/-! ## Distance from zero -/

theorem parseval_gen {n : ℕ} [NeZero n] (g : ZMod n → ℤ) : ∑ k, ‖D g k‖ ^ 2 = (n : ℝ) * ∑ i, (g i : ℝ) ^ 2 := by
  have h := sum_cross g g 0
  rw [ccf_self] at h
  simp only [mul_zero, AddChar.map_zero_eq_one, mul_one] at h
  have e : ∀ k, ((‖D g k‖ ^ 2 : ℝ) : ℂ) = F g k * (starRingEnd ℂ) (F g k) := by
    intro k
    rw [mul_conj, normSq_eq_norm_sq]
    rfl
  have h2 : ((∑ k, ‖D g k‖ ^ 2 : ℝ) : ℂ) = ((n : ℝ) * ∑ i, (g i : ℝ) ^ 2 : ℝ) := by
    rw [Complex.ofReal_sum, Finset.sum_congr rfl fun k _ => e k, h]
    unfold paf
    push_cast
    congr 1
    refine Finset.sum_congr rfl fun i _ => ?_
    rw [add_zero, pow_two]
  exact_mod_cast h2

/-- The lower bound for the spectra at twice a prime. -/
noncomputable def low (p : ℕ) : ℝ := 4 * ((p - 3 : ℕ) / (p : ℝ) ^ 2) ^ ((p - 3) / 2)

theorem low_le (h3 : 3 ≤ p) : low p ≤ 4 := by
  unfold low
  have hp : (0 : ℝ) < p := by exact_mod_cast (by omega)
  have h1 : ((p - 3 : ℕ) : ℝ) / (p : ℝ) ^ 2 ≤ 1 := by
    rw [div_le_one (by positivity)]
    have : p - 3 ≤ p ^ 2 := by nlinarith [Nat.sub_le p 3]
    exact_mod_cast this
  have := pow_le_one₀ (n := (p - 3) / 2) (by positivity : (0 : ℝ) ≤ ((p - 3 : ℕ) : ℝ) / (p : ℝ) ^ 2) h1
  linarith

/-- A spectrum at an even frequency that is not 0 is zero or at least `low p`. -/
theorem psd_low (hn : p.Prime) (h3 : 3 ≤ p) {x : List ℤ} (hx : PMSeq (2 * p) x) {m : ℕ} (h1 : ¬ p ∣ m)
    (h0 : psd (2 * p) x (2 * m) ≠ 0) : low p ≤ psd (2 * p) x (2 * m) := by
  have : NeZero p := ⟨hn.ne_zero⟩
  have hk : (m : ZMod p) ≠ 0 := fun h => h1 ((ZMod.natCast_eq_zero_iff _ _).1 h)
  set y : ZMod p → ℤ := cyc p (fold p x) with hy
  have hpsd : psd (2 * p) x (2 * m) = 4 * ‖D y (m : ZMod p)‖ ^ 2 := by
    rw [psd_fold hn.pos hx m]
    unfold psd
    rw [dft_eq, normSq_eq_norm_sq]
    rfl
  have hne : D y (m : ZMod p) ≠ 0 := by
    intro h
    rw [hpsd, h] at h0
    simp at h0
  have hS : ∑ a ∈ Finset.univ.erase (0 : ZMod p), ‖D y a‖ ^ 2 ≤ (p : ℝ) ^ 2 := by
    have hp := parseval_gen y
    rw [← Finset.add_sum_erase _ _ (Finset.mem_univ (0 : ZMod p))] at hp
    have h2 : ∑ i, (y i : ℝ) ^ 2 ≤ ∑ i : ZMod p, (1 : ℝ) := by
      refine Finset.sum_le_sum fun i _ => ?_
      have := fold_small hx (ZMod.val_lt i)
      have : (y i) ^ 2 ≤ 1 := this
      exact_mod_cast this
    rw [Finset.sum_const, Finset.card_univ, ZMod.card, nsmul_eq_mul, mul_one] at h2
    have h4 := mul_le_mul_of_nonneg_left h2 (p.cast_nonneg (α := ℝ))
    have : 0 ≤ ‖D y 0‖ ^ 2 := by positivity
    nlinarith
  have hl := lower_sum hn h3 y (m : ZMod p) hk hne _ hS
  rw [hpsd]
  unfold low
  refine mul_le_mul_of_nonneg_left ?_ (by norm_num)
  set w := ‖D y (m : ZMod p)‖ ^ 2 with hw
  have hw0 : 0 ≤ w := by positivity
  have npos : (0 : ℝ) < p := by exact_mod_cast (by omega)
  rcases Nat.lt_or_ge 3 p with h | h
  · obtain ⟨m, hm⟩ : ∃ m, p - 3 = m * 2 := by
      obtain ⟨j, hj⟩ := hn.odd_of_ne_two (by omega)
      exact ⟨j - 1, by omega⟩
    have hm0 : (0 : ℝ) < ((m * 2 : ℕ) : ℝ) := by exact_mod_cast (by omega)
    rw [hm] at hl ⊢
    rw [Nat.mul_div_cancel _ (by norm_num)]
    rw [pow_mul, ← mul_pow] at hl
    have h6 : 1 ≤ w * ((p : ℝ) ^ 2 / ((m * 2 : ℕ) : ℝ)) ^ m := by
      by_contra hc
      push Not at hc
      have := pow_lt_one₀ (mul_nonneg hw0 (by positivity)) hc (two_ne_zero)
      linarith
    have e : (((m * 2 : ℕ) : ℝ) / (p : ℝ) ^ 2) = ((p : ℝ) ^ 2 / ((m * 2 : ℕ) : ℝ))⁻¹ := by
      field_simp
    rw [e, inv_pow]
    have hpos : 0 < ((p : ℝ) ^ 2 / ((m * 2 : ℕ) : ℝ)) ^ m := by positivity
    rw [inv_le_iff_one_le_mul₀ hpos]
    exact h6
  · have h3' : p - 3 = 0 := by omega
    rw [h3'] at hl ⊢
    simp only [Nat.zero_div, pow_zero, mul_one] at hl ⊢
    by_contra hc
    push Not at hc
    have := pow_lt_one₀ hw0 hc (two_ne_zero)
    linarith

/-! ## Pairs -/

theorem even_gap [NeZero (2 * p)] (hn : p.Prime) (h4 : p % 4 = 3) {x y z w : List ℤ} (hx : PMSeq (2 * p) x) (hy : PMSeq (2 * p) y)
    (hz : PMSeq (2 * p) z) (hw : PMSeq (2 * p) w) {m : ℕ} (h1 : ¬ p ∣ m)
    (s0 : psd (2 * p) x 0 + psd (2 * p) y 0 + psd (2 * p) z 0 + psd (2 * p) w 0 = 8 * p)
    (sm : psd (2 * p) x (2 * m) + psd (2 * p) y (2 * m) + psd (2 * p) z (2 * m) + psd (2 * p) w (2 * m) = 8 * p) :
    psd (2 * p) x (2 * m) + psd (2 * p) y (2 * m) + low p ≤ 8 * p := by
  have h3 : 3 ≤ p := by omega
  have pz := psd_nonneg (n := 2 * p) z (2 * m)
  have pw := psd_nonneg (n := 2 * p) w (2 * m)
  by_cases ez : psd (2 * p) z (2 * m) = 0
  · by_cases ew : psd (2 * p) w (2 * m) = 0
    · exfalso
      have hp3 : (3 : ℝ) ≤ p := by exact_mod_cast h3
      have nx := psd_nonneg (n := 2 * p) x 0
      have ny := psd_nonneg (n := 2 * p) y 0
      have nz := psd_nonneg (n := 2 * p) z 0
      have nw := psd_nonneg (n := 2 * p) w 0
      have z0 : psd (2 * p) z 0 = 0 := by
        rcases zero_even hn hz h1 ez with h | h
        · exact h
        · nlinarith
      have w0 : psd (2 * p) w 0 = 0 := by
        rcases zero_even hn hw h1 ew with h | h
        · exact h
        · nlinarith
      obtain ⟨a, ha⟩ := psd_sq (2 * p) x
      obtain ⟨b, hb⟩ := psd_sq (2 * p) y
      rw [z0, w0, ha, hb] at s0
      refine no_squares hn h4 a b ?_
      have : (a : ℝ) ^ 2 + (b : ℝ) ^ 2 = 8 * p := by linarith
      exact_mod_cast this
    · have := psd_low hn h3 hw h1 ew
      linarith
  · have := psd_low hn h3 hz h1 ez
    linarith

theorem mid_gap [NeZero (2 * p)] (hn : p.Prime) (h4 : p % 4 = 3) {x y z w : List ℤ} (hx : PMSeq (2 * p) x) (hy : PMSeq (2 * p) y)
    (hz : PMSeq (2 * p) z) (hw : PMSeq (2 * p) w)
    (s0 : psd (2 * p) x 0 + psd (2 * p) y 0 + psd (2 * p) z 0 + psd (2 * p) w 0 = 8 * p) :
    psd (2 * p) x 0 + psd (2 * p) y 0 + low p ≤ 8 * p := by
  have key : ∀ {v : List ℤ}, PMSeq (2 * p) v → psd (2 * p) v 0 = 0 ∨ 4 ≤ psd (2 * p) v 0 := by
    intro v hv
    have h := psd_fold hn.pos hv 0
    obtain ⟨a, ha⟩ := psd_sq p (fold p v)
    rw [mul_zero, ha] at h
    by_cases ha0 : a = 0
    · left; rw [h, ha0]; simp
    · right
      have : 1 ≤ a ^ 2 := by
        rcases lt_or_gt_of_ne ha0 with h | h <;> nlinarith
      have : (1 : ℝ) ≤ (a : ℝ) ^ 2 := by exact_mod_cast this
      linarith
  have hl := low_le (p := p) (by omega)
  have nz := psd_nonneg (n := 2 * p) z 0
  have nw := psd_nonneg (n := 2 * p) w 0
  rcases key hz with ez | ez
  · rcases key hw with ew | ew
    · exfalso
      obtain ⟨a, ha⟩ := psd_sq (2 * p) x
      obtain ⟨b, hb⟩ := psd_sq (2 * p) y
      rw [ez, ew, ha, hb] at s0
      refine no_squares hn h4 a b ?_
      have : (a : ℝ) ^ 2 + (b : ℝ) ^ 2 = 8 * p := by linarith
      exact_mod_cast this
    · linarith
  · linarith

theorem four_gap (hn : p.Prime) (h4 : p % 4 = 3) {x y z w : List ℤ} (hx : PMSeq (2 * p) x) (hy : PMSeq (2 * p) y)
    (hz : PMSeq (2 * p) z) (hw : PMSeq (2 * p) w)
    (hs : ∀ k, psd (2 * p) x k + psd (2 * p) y k + psd (2 * p) z k + psd (2 * p) w k = 8 * p) {k : ℕ} (k1 : 1 ≤ k)
    (k2 : k < 2 * p) : psd (2 * p) x k + psd (2 * p) y k + low p ≤ 8 * p := by
  have hp := hn.pos
  have : NeZero (2 * p) := ⟨by omega⟩
  rcases Nat.even_or_odd' k with ⟨m, rfl | rfl⟩
  · refine even_gap hn h4 hx hy hz hw (fun h => ?_) (hs 0) (hs _)
    have := Nat.le_of_dvd (by omega) h
    omega
  · have smid := hs p
    rw [psd_mid hp, psd_mid hp, psd_mid hp, psd_mid hp] at smid
    by_cases hk : 2 * m + 1 = p
    · rw [hk, psd_mid hp, psd_mid hp]
      exact mid_gap hn h4 (alt_pm hx) (alt_pm hy) (alt_pm hz) (alt_pm hw) smid
    · obtain ⟨j, hj⟩ : ∃ j, 2 * m + 1 + p = 2 * j := ⟨(2 * m + 1 + p) / 2, by omega⟩
      have e : ∀ v, psd (2 * p) v (2 * m + 1) = psd (2 * p) (alt p v) (2 * j) := fun v => by
        rw [← psd_alt hp v, hj]
      have hsk := hs (2 * m + 1)
      rw [e, e, e, e] at hsk
      rw [e, e]
      refine even_gap hn h4 (alt_pm hx) (alt_pm hy) (alt_pm hz) (alt_pm hw) (fun h => hk ?_) smid hsk
      obtain ⟨c, rfl⟩ := h
      have hc : c = 1 := by
        have h5 : p * c < p * 2 := by omega
        have := Nat.lt_of_mul_lt_mul_left h5
        rcases c with _ | _ | c
        · omega
        · rfl
        · omega
      subst hc
      omega

theorem others (t1 t2 : Tag) (ht : t1 ≠ t2) :
    ∃ t3 t4, ∀ f : Tag → ℝ, f t1 + f t2 + f t3 + f t4 = f .W + f .X + f .Y + f .Z := by
  cases t1 <;> cases t2 <;>
    first
    | exact absurd rfl ht
    | exact ⟨.Y, .Z, fun f => by linarith⟩
    | exact ⟨.X, .Z, fun f => by linarith⟩
    | exact ⟨.X, .Y, fun f => by linarith⟩
    | exact ⟨.W, .Z, fun f => by linarith⟩
    | exact ⟨.W, .Y, fun f => by linarith⟩
    | exact ⟨.W, .X, fun f => by linarith⟩

theorem pair_low [NeZero (2 * p)] (hn : p.Prime) (h4 : p % 4 = 3) {s : QuadSeq} (hs : PMQuad (2 * p) s)
    (hc : Complementary (cyc (2 * p) s.a) (cyc (2 * p) s.b) (cyc (2 * p) s.c) (cyc (2 * p) s.d)) {t1 t2 : Tag} (ht : t1 ≠ t2)
    {k : ℕ} (h1 : 1 ≤ k) (h2 : k < 2 * p) :
    psd (2 * p) (s.sequence t1) k + psd (2 * p) (s.sequence t2) k + low p ≤ 8 * p := by
  obtain ⟨t3, t4, h⟩ := others t1 t2 ht
  refine four_gap hn h4 (pm_seq hs t1) (pm_seq hs t2) (pm_seq hs t3) (pm_seq hs t4) (fun k => ?_) h1 h2
  rw [h fun t => psd (2 * p) (s.sequence t) k]
  have := psd_sum hs.a hs.b hs.c hs.d hc k
  push_cast at this
  show psd (2 * p) s.a k + psd (2 * p) s.b k + psd (2 * p) s.c k + psd (2 * p) s.d k = _
  linarith

end Proofs.TwicePrime
