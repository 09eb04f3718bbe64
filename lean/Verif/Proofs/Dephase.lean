import Verif.Proofs.Hadamard
import Mathlib.Algebra.Order.BigOperators.Group.Finset

/-!
# Helper lemmas: verification and normalisation of ±1 matrices
-/

set_option linter.unusedSectionVars false
set_option linter.unusedVariables false
set_option linter.unusedSimpArgs false

namespace Proofs.Dephase
open Model Spec Proofs Proofs.Loops Proofs.Hadamard
open scoped Matrix

/-! ## Verification -/

theorem wrap_wrap_add (a b : ℤ) : wrap8 (wrap8 a + wrap8 b) = wrap8 (a + b) := by
  unfold wrap8; rw [Int.bmod_add_bmod, Int.add_bmod_bmod]

theorem inner_eq (n : ℕ) (r1 r2 : List ℤ) :
    HM.innerProduct n r1 r2 = wrap8 (∑ k ∈ Finset.range n, r1.getD k 0 * r2.getD k 0) := by
  unfold HM.innerProduct
  induction n with
  | zero => rfl
  | succ n ih =>
    rw [List.range_succ, List.foldl_append, ih, Finset.sum_range_succ]
    simp only [List.foldl_cons, List.foldl_nil, add8, mul8]
    rw [wrap_wrap_add]

theorem wrap8_small {x : ℤ} (h1 : -128 ≤ x) (h2 : x ≤ 127) : wrap8 x = x := by
  unfold wrap8
  rw [Int.bmod_eq_of_le] <;> omega

theorem wrap8_zero_iff (x : ℤ) : wrap8 x = 0 ↔ (256 : ℤ) ∣ x := by
  unfold wrap8
  constructor
  · intro h
    have := Int.bmod_emod (x := x) (m := 256)
    rw [h] at this
    exact Int.dvd_of_emod_eq_zero (by simpa using this.symm)
  · rintro ⟨k, rfl⟩
    rw [mul_comm]
    exact_mod_cast Int.mul_bmod_left k 256

theorem abs_sum_le (k : ℕ) (x y : ℕ → ℤ) (hx : ∀ i < k, x i = 1 ∨ x i = -1) (hy : ∀ i < k, y i = 1 ∨ y i = -1) :
    |∑ i ∈ Finset.range k, x i * y i| ≤ k := by
  refine (Finset.abs_sum_le_sum_abs _ _).trans ?_
  have : ∀ i ∈ Finset.range k, |x i * y i| ≤ 1 := by
    intro i hi
    rw [Finset.mem_range] at hi
    rcases hx i hi with h | h <;> rcases hy i hi with h' | h' <;> rw [h, h'] <;> norm_num
  refine (Finset.sum_le_sum this).trans ?_
  simp

theorem pm_get {n : ℕ} {m : List (List ℤ)} (h : PMMat (zmat n m)) {i j : ℕ} (hi : i < n) (hj : j < n) :
    get2 0 m i j = 1 ∨ get2 0 m i j = -1 := h ⟨i, hi⟩ ⟨j, hj⟩

theorem verify_iff (m : HM) : m.verify = true ↔ ∀ i j, i < j → j < m.size →
    (256 : ℤ) ∣ ∑ k ∈ Finset.range m.size, get2 0 m.matrix i k * get2 0 m.matrix j k := by
  unfold HM.verify
  simp only [List.all_eq_true, List.mem_range, List.mem_range'_1, decide_eq_true_eq, inner_eq, wrap8_zero_iff]
  constructor
  · intro h i j hij hj
    exact h i (by omega) j ⟨by omega, by omega⟩
  · intro h i hi j hj
    exact h i j (by omega) (by omega)

theorem verify_hadamard {m : HM} (h : PMMat (zmat m.size m.matrix)) (hn : m.size ≤ 255) :
    m.verify = true ↔ IsHadamard (zmat m.size m.matrix) := by
  rw [verify_iff]
  unfold IsHadamard
  rw [zmat_hadamard]
  have hsum : ∀ i j, i < m.size → j < m.size →
      |∑ k ∈ Finset.range m.size, get2 0 m.matrix i k * get2 0 m.matrix j k| ≤ m.size := fun i j hi hj =>
    abs_sum_le _ _ _ (fun k hk => pm_get h hi hk) (fun k hk => pm_get h hj hk)
  constructor
  · intro H
    refine ⟨h, fun i j hi hj => ?_⟩
    have key : ∀ i j, i < j → j < m.size →
        ∑ k ∈ Finset.range m.size, get2 0 m.matrix i k * get2 0 m.matrix j k = 0 := by
      intro i j hij hj
      have h1 := abs_le.1 (hsum i j (by omega) hj)
      obtain ⟨c, hc⟩ := H i j hij hj
      have : (m.size : ℤ) ≤ 255 := by exact_mod_cast hn
      omega
    rcases lt_trichotomy i j with hij | rfl | hij
    · rw [key i j hij hj, if_neg (by omega)]
    · rw [if_pos rfl]
      have : ∀ k ∈ Finset.range m.size, get2 0 m.matrix i k * get2 0 m.matrix i k = 1 := by
        intro k hk
        rcases pm_get h hi (Finset.mem_range.1 hk) with e | e <;> rw [e] <;> norm_num
      rw [Finset.sum_congr rfl this]
      simp
    · rw [if_neg (by omega)]
      refine Eq.trans (Finset.sum_congr rfl fun k _ => mul_comm _ _) (key j i hij hi)
  · rintro ⟨_, H⟩ i j hij hj
    rw [H i j (by omega) hj, if_neg (by omega)]
    exact dvd_zero _

/-! ## Normalisation -/

theorem mul8_pm {x y : ℤ} (hx : x = 1 ∨ x = -1) (hy : y = 1 ∨ y = -1) : mul8 x y = x * y := by
  rcases hx with rfl | rfl <;> rcases hy with rfl | rfl <;> decide

theorem dephase_spec {m : HM} (hs : Shape m.size m.matrix) (hpm : PMMat (zmat m.size m.matrix)) :
    m.dephase.size = m.size ∧ Shape m.size m.dephase.matrix ∧ ∀ r c, r < m.size → c < m.size →
      get2 0 m.dephase.matrix r c =
        (get2 0 m.matrix 0 0 * get2 0 m.matrix r 0) * (get2 0 m.matrix 0 c * get2 0 m.matrix r c) := by
  set n := m.size with hn
  unfold HM.dephase
  simp only [← hn]
  obtain ⟨s1, g1⟩ := loop2_two (0 : ℤ) n (fun p => (n - 1 - p.1, p.2)) (fun p => (0, p.2)) (fun x y => mul8 y x)
    m.matrix hs (fun p h1 h2 => ⟨by simp only; omega, h2⟩)
    (fun p q hp1 hp2 hq1 hq2 h => by
      simp only [ne_eq, Prod.mk.injEq, not_and]
      constructor <;> omega)
  obtain ⟨s2, g2⟩ := loop2_two (0 : ℤ) n (fun p => (p.2, n - 1 - p.1)) (fun p => (p.2, 0)) (fun x y => mul8 y x)
    _ s1 (fun p h1 h2 => ⟨h2, by simp only; omega⟩)
    (fun p q hp1 hp2 hq1 hq2 h => by
      simp only [ne_eq, Prod.mk.injEq, not_and]
      constructor <;> omega)
  simp only at g1 g2 s1 s2
  refine ⟨trivial, s2, fun r c hr hc => ?_⟩
  have v1 : ∀ r c, r < n → c < n → get2 0 (loop2 n (fun m i j => set2 m (n - 1 - i) j
      (mul8 (get2 0 m 0 j) (get2 0 m (n - 1 - i) j))) m.matrix) r c = get2 0 m.matrix 0 c * get2 0 m.matrix r c := by
    intro r c hr hc
    have := g1 (n - 1 - r) c (by omega) hc
    rw [show n - 1 - (n - 1 - r) = r by omega] at this
    rw [this, mul8_pm (pm_get hpm (by omega) hc) (pm_get hpm hr hc)]
  have := g2 (n - 1 - c) r (by omega) hr
  rw [show n - 1 - (n - 1 - c) = c by omega] at this
  rw [this, v1 r c hr hc, v1 r 0 hr (by omega)]
  refine mul8_pm ?_ ?_
  · rcases pm_get hpm (show 0 < m.size by omega) (show 0 < m.size by omega) with e | e <;>
      rcases pm_get hpm hr (show 0 < m.size by omega) with e' | e' <;> rw [e, e'] <;> simp
  · rcases pm_get hpm (show 0 < m.size by omega) hc with e | e <;>
      rcases pm_get hpm hr hc with e' | e' <;> rw [e, e'] <;> simp

theorem dephased_spec {m : HM} (hpm : PMMat (zmat m.size m.matrix)) :
    m.dephased.size = m.size ∧ Shape m.size m.dephased.matrix ∧ ∀ r c, r < m.size → c < m.size →
      get2 0 m.dephased.matrix r c = get2 0 m.matrix r 0 * get2 0 m.matrix r c := by
  set n := m.size with hn
  unfold HM.dephased
  simp only [← hn]
  obtain ⟨s1, -, -⟩ := loop2_const (0 : ℤ) n n (fun p => (n - 1 - p.1, p.2))
    (fun p => mul8 (get2 0 m.matrix 0 p.2) (get2 0 m.matrix (n - 1 - p.1) p.2))
    _ (shape_replicate n 1) (fun p h1 h2 => ⟨by simp only; omega, h2⟩)
    (fun p q hp1 hp2 hq1 hq2 h => by simp only [ne_eq, Prod.mk.injEq, not_and]; omega)
  obtain ⟨s2, g2, -⟩ := loop2_const (0 : ℤ) n n (fun p => (p.2, n - 1 - p.1))
    (fun p => mul8 (get2 0 m.matrix p.2 0) (get2 0 m.matrix p.2 (n - 1 - p.1)))
    _ s1 (fun p h1 h2 => ⟨h2, by simp only; omega⟩)
    (fun p q hp1 hp2 hq1 hq2 h => by simp only [ne_eq, Prod.mk.injEq, not_and]; omega)
  simp only at g2 s1 s2
  refine ⟨trivial, s2, fun r c hr hc => ?_⟩
  have := g2 (n - 1 - c) r (by omega) hr
  rw [show n - 1 - (n - 1 - c) = c by omega] at this
  rw [this, mul8_pm (pm_get hpm hr (by omega)) (pm_get hpm hr hc)]

theorem pm_mul {x y : ℤ} (hx : x = 1 ∨ x = -1) (hy : y = 1 ∨ y = -1) : x * y = 1 ∨ x * y = -1 := by
  rcases hx with rfl | rfl <;> rcases hy with rfl | rfl <;> simp

theorem pm_sq {x : ℤ} (hx : x = 1 ∨ x = -1) : x * x = 1 := by rcases hx with rfl | rfl <;> rfl

/-- Multiplying rows and columns by signs keeps the Hadamard property. -/
theorem hadamard_signs {n : ℕ} {m m' : List (List ℤ)} (a b : ℕ → ℤ) (ha : ∀ i < n, a i = 1 ∨ a i = -1)
    (hb : ∀ i < n, b i = 1 ∨ b i = -1)
    (hg : ∀ r c, r < n → c < n → get2 0 m' r c = a r * (b c * get2 0 m r c))
    (h : IsHadamard (zmat n m)) : IsHadamard (zmat n m') := by
  refine ⟨fun i j => ?_, ?_⟩
  · have := hg i j i.2 j.2
    show get2 0 m' i j = 1 ∨ get2 0 m' i j = -1
    rw [this]
    exact pm_mul (ha i i.2) (pm_mul (hb j j.2) (pm_get h.1 i.2 j.2))
  · rw [zmat_hadamard]
    intro i j hi hj
    have hH := (zmat_hadamard n m).1 h.2 i j hi hj
    have : ∀ k ∈ Finset.range n, get2 0 m' i k * get2 0 m' j k = (a i * a j) * (get2 0 m i k * get2 0 m j k) := by
      intro k hk
      have hk := Finset.mem_range.1 hk
      rw [hg i k hi hk, hg j k hj hk]
      have := pm_sq (hb k hk)
      linear_combination (a i * a j * get2 0 m i k * get2 0 m j k) * this
    rw [Finset.sum_congr rfl this, ← Finset.mul_sum, hH]
    by_cases e : i = j
    · subst e; rw [if_pos rfl, pm_sq (ha i hi), one_mul]
    · rw [if_neg e, mul_zero]

end Proofs.Dephase
