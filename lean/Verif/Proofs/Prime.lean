import Mathlib.RingTheory.Polynomial.Cyclotomic.Roots
import Mathlib.GroupTheory.OrderOfElement
import Verif.Proofs.Rounding

/-!
# Helper lemmas: zeros of the spectrum at prime lengths
-/

set_option linter.unusedSectionVars false
set_option linter.unusedVariables false
set_option linter.unusedSimpArgs false

namespace Proofs.Prime
open Model Spec Proofs Proofs.Fourier Proofs.Rounding Complex Polynomial

variable {n : ℕ} [NeZero n]

theorem unit_pow (k j : ℕ) : unit n (-(j * k : ℕ)) = unit n (-(k : ℕ)) ^ j := by
  rw [unit_eq, unit_eq, ← AddChar.map_nsmul_eq_pow]
  congr 1
  push_cast
  rw [nsmul_eq_mul]
  ring

theorem primitive (hn : n.Prime) {k : ℕ} (h1 : 1 ≤ k) (h2 : k < n) : IsPrimitiveRoot (unit n (-(k : ℕ))) n := by
  have : Fact n.Prime := ⟨hn⟩
  have hp : unit n (-(k : ℕ)) ^ n = 1 := by
    rw [unit_eq, ← AddChar.map_nsmul_eq_pow]
    simp
  have hne : unit n (-(k : ℕ)) ≠ 1 := by
    intro h
    rw [unit_eq] at h
    have h0 : (ψ (((-(k : ℕ) : ℤ)) : ZMod n) : ℂ) = ψ (0 : ZMod n) := by rw [h, AddChar.map_zero_eq_one]
    have := ZMod.injective_stdAddChar h0
    have h3 : (k : ZMod n) = 0 := by
      have h4 : -((k : ZMod n)) = 0 := by simpa using this
      exact neg_eq_zero.1 h4
    rw [ZMod.natCast_eq_zero_iff] at h3
    have := Nat.le_of_dvd (by omega) h3
    omega
  have ho := orderOf_eq_prime hp hne
  have := IsPrimitiveRoot.orderOf (unit n (-(k : ℕ)))
  rwa [ho] at this

/-- At a prime length a spectrum has a zero away from frequency 0 only if the sequence is constant. -/
theorem constant_of_zero (hn : n.Prime) {x : List ℤ} (hx : PMSeq n x) {k : ℕ} (h1 : 1 ≤ k) (h2 : k < n)
    (h0 : dft n x k = 0) : ∃ c : ℤ, ∀ j < n, x.getD j 0 = c := by
  have : Fact n.Prime := ⟨hn⟩
  have npos : 0 < n := hn.pos
  set ζ := unit n (-(k : ℕ)) with hζ
  set Q : ℚ[X] := ∑ j ∈ Finset.range n, C ((x.getD j 0 : ℤ) : ℚ) * X ^ j with hQ
  have hcoeff : ∀ j, j < n → Q.coeff j = ((x.getD j 0 : ℤ) : ℚ) := by
    intro j hj
    rw [hQ, finsetSum_coeff]
    rw [Finset.sum_eq_single j]
    · simp
    · intro i _ hi
      rw [coeff_C_mul, coeff_X_pow, if_neg (fun h => hi h.symm), mul_zero]
    · intro h; exact absurd (Finset.mem_range.2 hj) h
  have hroot : aeval ζ Q = 0 := by
    rw [hQ, map_sum, ← h0]
    unfold dft
    refine Finset.sum_congr rfl fun j _ => ?_
    rw [map_mul, aeval_C, map_pow, aeval_X, unit_pow, eq_ratCast, Rat.cast_intCast]
  have hprim := primitive hn h1 h2
  have hdvd : cyclotomic n ℚ ∣ Q := by
    rw [cyclotomic_eq_minpoly_rat hprim npos]
    exact minpoly.dvd ℚ ζ hroot
  obtain ⟨R, hR⟩ := hdvd
  have hx0 : Q.coeff 0 ≠ 0 := by
    rw [hcoeff 0 npos, List.getD_eq_getElem _ _ (by rw [hx.1]; exact npos)]
    rcases hx.2 _ (List.getElem_mem (by rw [hx.1]; exact npos)) with h | h <;> rw [h] <;> norm_num
  have hQ0 : Q ≠ 0 := by rintro h; rw [h] at hx0; simp at hx0
  have hR0 : R ≠ 0 := by rintro rfl; rw [mul_zero] at hR; exact hQ0 hR
  have hdeg : Q.natDegree ≤ n - 1 := by
    rw [hQ]
    refine natDegree_sum_le_of_forall_le _ _ fun j hj => ?_
    refine (natDegree_C_mul_X_pow_le _ _).trans ?_
    have := Finset.mem_range.1 hj
    omega
  have hΦ : (cyclotomic n ℚ).natDegree = n - 1 := by
    rw [natDegree_cyclotomic, Nat.totient_prime hn]
  have hRd : R.natDegree = 0 := by
    have := natDegree_mul (cyclotomic_ne_zero n ℚ) hR0
    rw [← hR, hΦ] at this
    omega
  obtain ⟨r, rfl⟩ := natDegree_eq_zero.1 hRd
  have hall : ∀ j < n, ((x.getD j 0 : ℤ) : ℚ) = r := by
    intro j hj
    rw [← hcoeff j hj, hR, coeff_mul_C, cyclotomic_prime, finsetSum_coeff]
    rw [Finset.sum_eq_single j]
    · simp
    · intro i _ hi
      rw [coeff_X_pow, if_neg (fun h => hi h.symm)]
    · intro h; exact absurd (Finset.mem_range.2 hj) h
  refine ⟨x.getD 0 0, fun j hj => ?_⟩
  have := (hall j hj).trans (hall 0 npos).symm
  exact_mod_cast this

theorem psd_zero {x : List ℤ} (k : ℕ) : psd n x k = 0 ↔ dft n x k = 0 := by
  unfold psd; exact normSq_eq_zero

/-- The spectrum of a constant sequence at frequency 0. -/
theorem psd_constant {x : List ℤ} (hx : PMSeq n x) {c : ℤ} (hc : ∀ j < n, x.getD j 0 = c) : psd n x 0 = (n : ℝ) ^ 2 := by
  have npos : 0 < n := Nat.pos_of_ne_zero (NeZero.ne n)
  have h2 : c = 1 ∨ c = -1 := by
    rw [← hc 0 npos, List.getD_eq_getElem _ _ (by rw [hx.1]; exact npos)]
    exact hx.2 _ (List.getElem_mem (by rw [hx.1]; exact npos))
  have hd : dft n x 0 = ((n * c : ℤ) : ℂ) := by
    unfold dft
    have : ∀ j ∈ Finset.range n, ((x.getD j 0 : ℤ) : ℂ) * unit n (-(j * 0 : ℕ)) = (c : ℂ) := by
      intro j hj
      rw [hc j (Finset.mem_range.1 hj), unit_eq]
      simp
    rw [Finset.sum_congr rfl this]
    simp
  unfold psd
  rw [hd, normSq_intCast]
  rcases h2 with rfl | rfl <;> push_cast <;> ring

/-- At an odd prime length the spectra of two members of a complementary quadruple add up to less than `4 n` away from
frequency 0. -/
theorem pair_lt (hn : n.Prime) (h3 : 3 ≤ n) {s : QuadSeq} (hs : PMQuad n s)
    (hc : Complementary (cyc n s.a) (cyc n s.b) (cyc n s.c) (cyc n s.d)) {t1 t2 : Tag} (ht : t1 ≠ t2) {k : ℕ}
    (h1 : 1 ≤ k) (h2 : k < n) : psd n (s.sequence t1) k + psd n (s.sequence t2) k < 4 * n := by
  have key : ∀ {x y : List ℤ}, PMSeq n x → PMSeq n y → psd n x k = 0 → psd n y k = 0 →
      psd n x 0 + psd n y 0 ≤ 4 * n → False := by
    intro x y hx hy zx zy hle
    obtain ⟨c, hcx⟩ := constant_of_zero hn hx h1 h2 ((psd_zero k).1 zx)
    obtain ⟨d, hdy⟩ := constant_of_zero hn hy h1 h2 ((psd_zero k).1 zy)
    rw [psd_constant hx hcx, psd_constant hy hdy] at hle
    have : (3 : ℝ) ≤ n := by exact_mod_cast h3
    nlinarith
  have hsum := psd_sum hs.a hs.b hs.c hs.d hc
  have hk := hsum k
  have hz := hsum 0
  have p1 := fun j => psd_nonneg (n := n) s.a j
  have p2 := fun j => psd_nonneg (n := n) s.b j
  have p3 := fun j => psd_nonneg (n := n) s.c j
  have p4 := fun j => psd_nonneg (n := n) s.d j
  have a1 := p1 k
  have a2 := p2 k
  have a3 := p3 k
  have a4 := p4 k
  have b1 := p1 0
  have b2 := p2 0
  have b3 := p3 0
  have b4 := p4 0
  by_contra hge
  push Not at hge
  cases t1 <;> cases t2 <;> simp only [QuadSeq.sequence] at hge <;>
    first
    | exact absurd rfl ht
    | exact key hs.a hs.b (by linarith) (by linarith) (by linarith)
    | exact key hs.a hs.c (by linarith) (by linarith) (by linarith)
    | exact key hs.a hs.d (by linarith) (by linarith) (by linarith)
    | exact key hs.b hs.c (by linarith) (by linarith) (by linarith)
    | exact key hs.b hs.d (by linarith) (by linarith) (by linarith)
    | exact key hs.c hs.d (by linarith) (by linarith) (by linarith)

end Proofs.Prime
