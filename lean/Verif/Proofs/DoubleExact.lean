import Verif.Proofs.Binary64

/-!
# Helper lemmas: double-precision transforms of length 1, 2 and 4 are exact
-/

set_option linter.unusedSectionVars false
set_option linter.unusedVariables false
set_option linter.unusedSimpArgs false

namespace Proofs.DoubleExact
open Model Spec Proofs Proofs.Fourier Proofs.Binary64 Complex

variable {rd : ℝ → ℝ}

theorem int_round (h : NearestDouble rd) {z : ℤ} (hz : |z| < 2 ^ 53) : roundDouble rd (z : ℝ) = some (z : ℝ) :=
  round_exact h (double_int hz)

theorem int_add (h : NearestDouble rd) {a b : ℤ} (hz : |a + b| < 2 ^ 53) :
    binDouble rd (· + ·) (some (a : ℝ)) (some (b : ℝ)) = some ((a + b : ℤ) : ℝ) := by
  rw [← int_round h hz]
  unfold binDouble
  simp

theorem int_mul (h : NearestDouble rd) {a b : ℤ} (hz : |a * b| < 2 ^ 53) :
    binDouble rd (· * ·) (some (a : ℝ)) (some (b : ℝ)) = some ((a * b : ℤ) : ℝ) := by
  rw [← int_round h hz]
  unfold binDouble
  simp

theorem int_sum (h : NearestDouble rd) (f : ℕ → Option ℝ) (z : ℕ → ℤ) (N : ℕ) (hf : ∀ j < N, f j = some (z j : ℝ))
    (hz : ∀ j < N, |z j| ≤ 1) (hN : N ≤ 1000) :
    sumDouble rd ((List.range N).map f) = some ((∑ j ∈ Finset.range N, z j : ℤ) : ℝ) ∧
      |∑ j ∈ Finset.range N, z j| ≤ N := by
  induction N with
  | zero => simp [sumDouble]
  | succ N ih =>
    obtain ⟨h1, h2⟩ := ih (fun j hj => hf j (by omega)) (fun j hj => hz j (by omega)) (by omega)
    have h3 : |∑ j ∈ Finset.range (N + 1), z j| ≤ ((N + 1 : ℕ) : ℤ) := by
      rw [Finset.sum_range_succ]
      refine (abs_add_le _ _).trans ?_
      have := hz N (by omega)
      push_cast
      linarith
    refine ⟨?_, h3⟩
    rw [Finset.sum_range_succ] at h3 ⊢
    unfold sumDouble at h1 ⊢
    rw [List.range_succ, List.map_append, List.foldl_append, h1]
    simp only [List.map_cons, List.map_nil, List.foldl_cons, List.foldl_nil]
    rw [hf N (by omega), int_add h (lt_of_le_of_lt h3 ?_)]
    have : ((N + 1 : ℕ) : ℤ) ≤ 1000 := by exact_mod_cast hN
    linarith

/-- Quarter turns. -/
theorem quarter (j : ℕ) : (∃ c : ℤ, |c| ≤ 1 ∧ Real.cos (Real.pi / 2 * j) = c) ∧
    ∃ c : ℤ, |c| ≤ 1 ∧ Real.sin (Real.pi / 2 * j) = c := by
  induction j with
  | zero => exact ⟨⟨1, by norm_num, by simp⟩, ⟨0, by norm_num, by simp⟩⟩
  | succ j ih =>
    obtain ⟨⟨c, c1, c2⟩, ⟨s, s1, s2⟩⟩ := ih
    have e : Real.pi / 2 * ((j + 1 : ℕ) : ℝ) = Real.pi / 2 * j + Real.pi / 2 := by push_cast; ring
    refine ⟨⟨-s, by rwa [abs_neg], ?_⟩, ⟨c, c1, ?_⟩⟩
    · rw [e, Real.cos_add_pi_div_two, s2]; push_cast; rfl
    · rw [e, Real.sin_add_pi_div_two, c2]

theorem turn {n : ℕ} (hn : n ∣ 4) (m : ℕ) : (∃ c : ℤ, |c| ≤ 1 ∧ Real.cos (2 * Real.pi * m / n) = c) ∧
    ∃ c : ℤ, |c| ≤ 1 ∧ Real.sin (2 * Real.pi * m / n) = c := by
  obtain ⟨d, hd⟩ := hn
  have n0 : (n : ℝ) ≠ 0 := by
    intro h
    have : n = 0 := by exact_mod_cast h
    rw [this] at hd
    omega
  have e : 2 * Real.pi * m / n = Real.pi / 2 * ((d * m : ℕ) : ℝ) := by
    have : (4 : ℝ) = n * d := by exact_mod_cast hd
    push_cast
    field_simp
    linear_combination m * this
  rw [e]
  exact quarter _

theorem dft_double (h : NearestDouble rd) {n : ℕ} (hn : n ∣ 4) {x : List ℤ} (hx : PMSeq n x) :
    ∃ a b : ℕ → ℤ, (∀ k, |a k| ≤ n ∧ |b k| ≤ n ∧ (dft n x k).re = a k ∧ (dft n x k).im = b k) ∧
      dftSequence (doubleFl rd) x = (List.range (n / 2 + 1)).map fun k => (some (a k : ℝ), some (b k : ℝ)) := by
  have hn4 : n ≤ 4 := Nat.le_of_dvd (by norm_num) hn
  choose c c1 c2 using fun m => (turn hn m).1
  choose s s1 s2 using fun m => (turn hn m).2
  have hent : ∀ j < n, |x.getD j 0| = 1 ∧
      (x.map fun v => roundDouble rd (v : ℤ)).getD j none = some ((x.getD j 0 : ℤ) : ℝ) := by
    intro j hj
    have hj' : j < x.length := by rw [hx.1]; exact hj
    rw [List.getD_eq_getElem _ _ hj']
    refine ⟨?_, ?_⟩
    · rcases hx.2 _ (List.getElem_mem hj') with e | e <;> rw [e] <;> rfl
    · rw [List.getD_eq_getElem _ _ (by simpa using hj'), List.getElem_map]
      refine round_exact h (double_int ?_)
      rcases hx.2 _ (List.getElem_mem hj') with e | e <;> rw [e] <;> norm_num
  have small : ∀ j < n, ∀ z : ℤ, |z| ≤ 1 → |x.getD j 0 * z| ≤ 1 := fun j hj z hz => by
    rw [abs_mul, (hent j hj).1, one_mul]; exact hz
  have hc : ∀ m, cosDouble rd n m = some (c m : ℝ) := fun m => by
    unfold cosDouble
    rw [c2]
    exact int_round h (lt_of_le_of_lt (c1 m) (by norm_num))
  have hs : ∀ m, sinDouble rd n m = some (s m : ℝ) := fun m => by
    unfold sinDouble
    rw [s2]
    exact int_round h (lt_of_le_of_lt (s1 m) (by norm_num))
  have A := fun k => int_sum h (fun j => binDouble rd (· * ·) ((x.map fun v => roundDouble rd (v : ℤ)).getD j none)
    (cosDouble rd n (j * k))) (fun j => x.getD j 0 * c (j * k)) n (fun j hj => by
      rw [(hent j hj).2, hc, int_mul h (lt_of_le_of_lt (small j hj _ (c1 _)) (by norm_num))])
      (fun j hj => small j hj _ (c1 _)) (by omega)
  have B := fun k => int_sum h (fun j => (binDouble rd (· * ·) ((x.map fun v => roundDouble rd (v : ℤ)).getD j none)
    (sinDouble rd n (j * k))).map (- ·)) (fun j => -(x.getD j 0 * s (j * k))) n (fun j hj => by
      rw [(hent j hj).2, hs, int_mul h (lt_of_le_of_lt (small j hj _ (s1 _)) (by norm_num))]; simp)
      (fun j hj => by rw [abs_neg]; exact small j hj _ (s1 _)) (by omega)
  refine ⟨fun k => ∑ j ∈ Finset.range n, x.getD j 0 * c (j * k), fun k => ∑ j ∈ Finset.range n, -(x.getD j 0 * s (j * k)),
    fun k => ⟨(A k).2, (B k).2, ?_, ?_⟩, ?_⟩
  · unfold dft
    rw [Complex.re_sum]
    push_cast
    refine Finset.sum_congr rfl fun j _ => ?_
    have := (unit_parts n (j * k)).2.2.1
    push_cast at this
    rw [← c2]
    push_cast
    rw [← this, Complex.mul_re]
    simp
  · unfold dft
    rw [Complex.im_sum]
    push_cast
    refine Finset.sum_congr rfl fun j _ => ?_
    have := (unit_parts n (j * k)).2.2.2
    push_cast at this
    rw [← s2]
    push_cast
    rw [Complex.mul_im, this]
    simp
  · unfold dftSequence doubleFl
    simp only [List.length_map, hx.1]
    refine List.map_congr_left fun k _ => ?_
    rw [← (A k).1, ← (B k).1]

theorem psd_double (h : NearestDouble rd) {n : ℕ} (hn : n ∣ 4) {x : List ℤ} (hx : PMSeq n x) :
    ∃ a : ℕ → ℤ, (∀ k, |a k| ≤ 32 ∧ psd n x k = a k) ∧
      (dftSequence (doubleFl rd) x).map (doubleFl rd).normSqr = (List.range (n / 2 + 1)).map fun k => some (a k : ℝ) := by
  obtain ⟨a, b, h1, h2⟩ := dft_double h hn hx
  have hn4 : n ≤ 4 := Nat.le_of_dvd (by norm_num) hn
  have hn4' : (n : ℤ) ≤ 4 := by exact_mod_cast hn4
  have sq : ∀ z : ℤ, |z| ≤ n → |z * z| ≤ 16 := fun z hz => by
    rw [abs_mul]; nlinarith [abs_nonneg z]
  have sm : ∀ k, |a k * a k + b k * b k| ≤ 32 := fun k =>
    (abs_add_le _ _).trans (by linarith [sq _ (h1 k).1, sq _ (h1 k).2.1])
  refine ⟨fun k => a k * a k + b k * b k, fun k => ⟨sm k, ?_⟩, ?_⟩
  · unfold psd
    rw [normSq_apply, (h1 k).2.2.1, (h1 k).2.2.2]
    push_cast
    rfl
  · rw [h2, List.map_map]
    refine List.map_congr_left fun k _ => ?_
    unfold Fl.normSqr doubleFl
    simp only [Function.comp]
    rw [int_mul h (lt_of_le_of_lt (sq _ (h1 k).1) (by norm_num)), int_mul h (lt_of_le_of_lt (sq _ (h1 k).2.1) (by norm_num)),
      int_add h (lt_of_le_of_lt (sm k) (by norm_num))]

/-- The filter is exact. -/
theorem filterSafe (h : NearestDouble rd) {n : ℕ} [NeZero n] (hn : n ∣ 4) : FilterSafe (doubleFl rd) n := by
  intro s hs hc t1 t2 ht
  obtain ⟨a, a1, a2⟩ := psd_double h hn (pm_seq hs t1)
  obtain ⟨b, b1, b2⟩ := psd_double h hn (pm_seq hs t2)
  have hn4 : n ≤ 4 := Nat.le_of_dvd (by norm_num) hn
  unfold boundExceeded
  rw [a2, b2, List.any_eq_false]
  intro p hp
  have hp := List.mem_of_mem_drop hp
  rw [List.zip_map', List.mem_map] at hp
  obtain ⟨k, -, rfl⟩ := hp
  have hle := pair_le hs hc ht k
  have e1 : (doubleFl rd).add (some (a k : ℝ)) (some (b k : ℝ)) = some ((a k + b k : ℤ) : ℝ) :=
    int_add h (lt_of_le_of_lt ((abs_add_le _ _).trans (add_le_add (a1 k).1 (b1 k).1)) (by norm_num))
  have e2 : (doubleFl rd).mul ((doubleFl rd).lit 4 1) ((doubleFl rd).ofInt n) = some ((4 * n : ℤ) : ℝ) := by
    have h4 : roundDouble rd (((4 : ℤ) : ℝ) / ((1 : ℕ) : ℝ)) = some ((4 : ℤ) : ℝ) := by
      rw [Nat.cast_one, div_one]; exact int_round (z := 4) h (by norm_num)
    have hnn : |(n : ℤ)| ≤ 4 := by rw [abs_of_nonneg (by positivity)]; exact_mod_cast hn4
    have h5 : roundDouble rd ((n : ℤ) : ℝ) = some ((n : ℤ) : ℝ) := int_round h (lt_of_le_of_lt hnn (by norm_num))
    show binDouble rd (· * ·) (roundDouble rd _) (roundDouble rd _) = _
    rw [h4, h5]
    exact int_mul h (a := 4) (b := n) (by rw [abs_mul]; refine lt_of_le_of_lt (mul_le_mul_of_nonneg_left hnn (abs_nonneg _)) (by norm_num))
  simp only [e1, e2]
  rw [(a1 k).2, (b1 k).2] at hle
  unfold doubleFl
  simp only [Option.mem_def, Option.some.injEq, decide_eq_true_eq, not_exists, not_and]
  rintro u rfl v rfl
  push_cast
  linarith

end Proofs.DoubleExact
