import Verif.Proofs.FastTransform
import Verif.Proofs.DoubleExact

/-!
# Helper lemmas: computations with whole-number constants are exact
-/

set_option linter.unusedSectionVars false
set_option linter.unusedVariables false
set_option linter.unusedSimpArgs false

namespace Proofs.FastExact
open Model Spec Proofs Proofs.Fourier Proofs.Binary64 Proofs.DoubleExact Proofs.FastTransform Complex

variable {rd : ℝ → ℝ}

/-- All constants are whole numbers and stored as they are. -/
def Whole : Lin → Prop
  | .input _ => True
  | .add a b => Whole a ∧ Whole b
  | .sub a b => Whole a ∧ Whole b
  | .neg a => Whole a
  | .scale c s a => (∃ z : ℤ, c = z ∧ s = z) ∧ Whole a
  | .fma c s a b => (∃ z : ℤ, c = z ∧ s = z) ∧ Whole a ∧ Whole b

/-- Then there is no rounding as long as the numbers are small. -/
theorem whole_run (h : NearestDouble rd) {m : ℕ} {x : ℕ → ℤ} {y : ℕ → Option ℝ} {S : ℝ} (hx : ∀ i < m, y i = some (x i : ℝ))
    (hS : ∀ i < m, |(x i : ℝ)| ≤ S) (hS0 : 0 ≤ S) : ∀ a : Lin, Whole a → a.Proper m → a.gain * S < 2 ^ 53 →
      ∃ z : ℤ, a.run rd y = some (z : ℝ) ∧ a.exact (fun i => (x i : ℝ)) = z ∧ |(z : ℝ)| ≤ a.gain * S
  | .input i, _, hp, hg => ⟨x i, hx i hp, rfl, by simpa [Lin.gain] using hS i hp⟩
  | .add a b, hw, hp, hg => by
      have ga := Linear.gain_one a
      have gb := Linear.gain_one b
      simp only [Lin.gain] at hg ⊢
      obtain ⟨z, z1, z2, z3⟩ := whole_run h hx hS hS0 a hw.1 hp.1 (by nlinarith)
      obtain ⟨w, w1, w2, w3⟩ := whole_run h hx hS hS0 b hw.2 hp.2 (by nlinarith)
      have hb : |((z + w : ℤ) : ℝ)| ≤ (a.gain + b.gain) * S := by
        push_cast; refine (abs_add_le _ _).trans ?_; linarith
      refine ⟨z + w, ?_, by simp [Lin.exact, z2, w2], hb⟩
      simp only [Lin.run, z1, w1]
      exact int_add h (by have := lt_of_le_of_lt hb hg; exact_mod_cast this)
  | .sub a b, hw, hp, hg => by
      have ga := Linear.gain_one a
      have gb := Linear.gain_one b
      simp only [Lin.gain] at hg ⊢
      obtain ⟨z, z1, z2, z3⟩ := whole_run h hx hS hS0 a hw.1 hp.1 (by nlinarith)
      obtain ⟨w, w1, w2, w3⟩ := whole_run h hx hS hS0 b hw.2 hp.2 (by nlinarith)
      have hb : |((z - w : ℤ) : ℝ)| ≤ (a.gain + b.gain) * S := by
        push_cast; refine (abs_sub _ _).trans ?_; linarith
      refine ⟨z - w, ?_, by simp [Lin.exact, z2, w2], hb⟩
      simp only [Lin.run, z1, w1]
      have := int_round h (z := z - w) (by have := lt_of_le_of_lt hb hg; exact_mod_cast this)
      rw [← this]
      unfold binDouble
      simp
  | .neg a, hw, hp, hg => by
      obtain ⟨z, z1, z2, z3⟩ := whole_run h hx hS hS0 a hw hp hg
      exact ⟨-z, by simp [Lin.run, z1], by simp [Lin.exact, z2], by push_cast; rw [abs_neg]; exact z3⟩
  | .scale c s a, hw, hp, hg => by
      obtain ⟨⟨k, rfl, rfl⟩, hw⟩ := hw
      have ga := Linear.gain_one a
      simp only [Lin.gain] at hg ⊢
      have m1 : 1 ≤ max 1 |(k : ℝ)| := le_max_left _ _
      have m2 : |(k : ℝ)| ≤ max 1 |(k : ℝ)| := le_max_right _ _
      have g0 : 0 ≤ a.gain * S := by positivity
      obtain ⟨z, z1, z2, z3⟩ := whole_run h hx hS hS0 a hw hp.2 (by nlinarith)
      have hb : |((k * z : ℤ) : ℝ)| ≤ max 1 |(k : ℝ)| * a.gain * S := by
        push_cast; rw [abs_mul, mul_assoc]; exact mul_le_mul m2 z3 (abs_nonneg _) (by linarith)
      refine ⟨k * z, ?_, by simp [Lin.exact, z2], hb⟩
      simp only [Lin.run, z1, Option.bind_some]
      have := int_round h (z := k * z) (by have := lt_of_le_of_lt hb hg; exact_mod_cast this)
      rw [← this]
      push_cast
      rfl
  | .fma c s a b, hw, hp, hg => by
      obtain ⟨⟨k, rfl, rfl⟩, hw1, hw2⟩ := hw
      have ga := Linear.gain_one a
      have gb := Linear.gain_one b
      simp only [Lin.gain] at hg ⊢
      have m1 : 1 ≤ max 1 |(k : ℝ)| := le_max_left _ _
      have m2 : |(k : ℝ)| ≤ max 1 |(k : ℝ)| := le_max_right _ _
      have g0 : 0 ≤ a.gain * S := by positivity
      have g1 : 0 ≤ b.gain * S := by positivity
      obtain ⟨z, z1, z2, z3⟩ := whole_run h hx hS hS0 a hw1 hp.2.1 (by nlinarith)
      obtain ⟨w, w1, w2, w3⟩ := whole_run h hx hS hS0 b hw2 hp.2.2 (by nlinarith)
      have hb1 : |(k : ℝ) * z| ≤ max 1 |(k : ℝ)| * (a.gain * S) := by
        rw [abs_mul]; exact mul_le_mul m2 z3 (abs_nonneg _) (by linarith)
      have hb : |((k * z + w : ℤ) : ℝ)| ≤ (max 1 |(k : ℝ)| * a.gain + b.gain) * S := by
        push_cast
        refine (abs_add_le _ _).trans ?_
        linarith
      refine ⟨k * z + w, ?_, by simp [Lin.exact, z2, w2], hb⟩
      simp only [Lin.run, z1, w1]
      have := int_round h (z := k * z + w) (by have := lt_of_le_of_lt hb hg; exact_mod_cast this)
      rw [← this]
      unfold binDouble
      simp

/-- With whole-number constants the filter of any library is exact. -/
theorem filterSafe (h : NearestDouble rd) {L : Library} {n D : ℕ} [NeZero n] {G : ℝ} (hL : Transforms L n D G)
    (hG : G ≤ 2 ^ 20) (hn : n ≤ 1000) (hw : ∀ k ≤ n / 2, Whole (L.fwd n k).1 ∧ Whole (L.fwd n k).2) :
    FilterSafe (libraryFl rd L) n := by
  have psd_eq : ∀ x, PMSeq n x → ∃ a : ℕ → ℤ, (∀ k ≤ n / 2, |a k| ≤ 2 ^ 41 ∧ psd n x k = a k) ∧
      (dftSequence (libraryFl rd L) x).map (libraryFl rd L).normSqr =
        (List.range (n / 2 + 1)).map fun k => some (a k : ℝ) := by
    intro x hx
    set l := x.map fun a => (libraryFl rd L).ofInt a with hl
    have hlen : l.length = n := by rw [hl, List.length_map]; exact hx.1
    have hent : ∀ j < n, l.getD j none = some ((x.getD j 0 : ℤ) : ℝ) ∧ |((x.getD j 0 : ℤ) : ℝ)| ≤ 1 := by
      intro j hj
      have hj' : j < x.length := by rw [hx.1]; exact hj
      rw [List.getD_eq_getElem _ _ (by rw [hlen]; exact hj), List.getD_eq_getElem _ _ hj']
      simp only [hl, List.getElem_map]
      rcases hx.2 _ (List.getElem_mem hj') with e | e <;> rw [e]
      · exact ⟨int_round h (by norm_num), by norm_num⟩
      · exact ⟨int_round h (by norm_num), by norm_num⟩
    have key : ∀ k ≤ n / 2, ∀ a, a = (L.fwd n k).1 ∨ a = (L.fwd n k).2 → Whole a → ∃ z : ℤ,
        a.run rd (fun j => l.getD j none) = some (z : ℝ) ∧ a.exact (fun j => ((x.getD j 0 : ℤ) : ℝ)) = z ∧ |z| ≤ 2 ^ 20 := by
      intro k hk a ha hwa
      obtain ⟨c1, _, c3⟩ := hL.fwd_cost k hk a ha
      obtain ⟨z, z1, z2, z3⟩ := whole_run h (y := fun j => l.getD j none) (x := fun j => x.getD j 0) (S := 1)
        (fun i hi => (hent i hi).1) (fun i hi => (hent i hi).2) zero_le_one a hwa c1
        (by rw [mul_one]; exact lt_of_le_of_lt (c3.trans hG) (by norm_num))
      refine ⟨z, z1, z2, ?_⟩
      rw [mul_one] at z3
      exact_mod_cast z3.trans (c3.trans hG)
    have ex : ∀ k, ∃ p : ℤ × ℤ, k ≤ n / 2 → ((L.fwd n k).1.run rd (fun j => l.getD j none) = some (p.1 : ℝ) ∧
        (L.fwd n k).2.run rd (fun j => l.getD j none) = some (p.2 : ℝ)) ∧
        ((dft n x k).re = p.1 ∧ (dft n x k).im = p.2) ∧ |p.1| ≤ 2 ^ 20 ∧ |p.2| ≤ 2 ^ 20 := by
      intro k
      by_cases hk : k ≤ n / 2
      · obtain ⟨z, z1, z2, z3⟩ := key k hk _ (.inl rfl) (hw k hk).1
        obtain ⟨w, w1, w2, w3⟩ := key k hk _ (.inr rfl) (hw k hk).2
        obtain ⟨f1, f2⟩ := hL.fwd x hx k hk
        exact ⟨(z, w), fun _ => ⟨⟨z1, w1⟩, ⟨by rw [← f1, z2], by rw [← f2, w2]⟩, z3, w3⟩⟩
      · exact ⟨(0, 0), fun h => absurd h hk⟩
    choose p hp using ex
    have sq : ∀ z : ℤ, |z| ≤ 2 ^ 20 → |z * z| ≤ 2 ^ 40 := fun z hz => by
      rw [abs_mul]
      calc |z| * |z| ≤ 2 ^ 20 * 2 ^ 20 := mul_le_mul hz hz (abs_nonneg _) (by norm_num)
        _ = 2 ^ 40 := by norm_num
    have sm : ∀ k ≤ n / 2, |(p k).1 * (p k).1 + (p k).2 * (p k).2| ≤ 2 ^ 41 := fun k hk => by
      have a1 := sq _ (hp k hk).2.2.1
      have a2 := sq _ (hp k hk).2.2.2
      refine (abs_add_le _ _).trans ?_
      norm_num at a1 a2 ⊢
      linarith
    refine ⟨fun k => (p k).1 * (p k).1 + (p k).2 * (p k).2, fun k hk => ⟨sm k hk, ?_⟩, ?_⟩
    · unfold psd
      rw [normSq_apply, (hp k hk).2.1.1, (hp k hk).2.1.2]
      push_cast
      rfl
    · have : dftSequence (libraryFl rd L) x = (List.range (l.length / 2 + 1)).map fun k =>
          ((L.fwd l.length k).1.run rd (fun j => l.getD j none), (L.fwd l.length k).2.run rd fun j => l.getD j none) := rfl
      rw [this, hlen, List.map_map]
      refine List.map_congr_left fun k hk => ?_
      have hk : k ≤ n / 2 := by have := List.mem_range.1 hk; omega
      simp only [Function.comp]
      rw [(hp k hk).1.1, (hp k hk).1.2]
      unfold Fl.normSqr libraryFl doubleFl
      simp only
      rw [int_mul h (lt_of_le_of_lt (sq _ (hp k hk).2.2.1) (by norm_num)),
        int_mul h (lt_of_le_of_lt (sq _ (hp k hk).2.2.2) (by norm_num)),
        int_add h (lt_of_le_of_lt (sm k hk) (by norm_num))]
  intro s hs hc t1 t2 ht
  obtain ⟨a, a1, a2⟩ := psd_eq _ (pm_seq hs t1)
  obtain ⟨b, b1, b2⟩ := psd_eq _ (pm_seq hs t2)
  unfold boundExceeded
  rw [a2, b2, List.any_eq_false]
  intro p hp
  have hp := List.mem_of_mem_drop hp
  rw [List.zip_map', List.mem_map] at hp
  obtain ⟨k, hk, rfl⟩ := hp
  have hk : k ≤ n / 2 := by have := List.mem_range.1 hk; omega
  have hle := pair_le hs hc ht k
  have e1 : (libraryFl rd L).add (some (a k : ℝ)) (some (b k : ℝ)) = some ((a k + b k : ℤ) : ℝ) :=
    int_add h (lt_of_le_of_lt ((abs_add_le _ _).trans (add_le_add (a1 k hk).1 (b1 k hk).1)) (by norm_num))
  have e2 : (libraryFl rd L).mul ((libraryFl rd L).lit 4 1) ((libraryFl rd L).ofInt n) = some ((4 * n : ℤ) : ℝ) := by
    have h4 : roundDouble rd (((4 : ℤ) : ℝ) / ((1 : ℕ) : ℝ)) = some ((4 : ℤ) : ℝ) := by
      rw [Nat.cast_one, div_one]; exact int_round (z := 4) h (by norm_num)
    have hnn : |(n : ℤ)| ≤ 1000 := by rw [abs_of_nonneg (by positivity)]; exact_mod_cast hn
    have h5 : roundDouble rd ((n : ℤ) : ℝ) = some ((n : ℤ) : ℝ) := int_round h (lt_of_le_of_lt hnn (by norm_num))
    show binDouble rd (· * ·) (roundDouble rd _) (roundDouble rd _) = _
    rw [h4, h5]
    exact int_mul h (a := 4) (b := n) (by rw [abs_mul]; refine lt_of_le_of_lt (mul_le_mul_of_nonneg_left hnn (abs_nonneg _)) (by norm_num))
  simp only [e1, e2]
  rw [(a1 k hk).2, (b1 k hk).2] at hle
  unfold libraryFl doubleFl
  simp only [Option.mem_def, Option.some.injEq, decide_eq_true_eq, not_exists, not_and]
  rintro u rfl v rfl
  push_cast
  linarith

/-! ## The fast transform at lengths 1, 2 and 4 -/

theorem turn_int {n : ℕ} (hn : n ∣ 4) (m : ℕ) : (∃ c : ℤ, |c| ≤ 1 ∧ Real.cos (turnAngle n (-1 * m)) = c) ∧
    ∃ c : ℤ, |c| ≤ 1 ∧ Real.sin (turnAngle n (-1 * m)) = c := by
  have e : turnAngle n (-1 * m) = -(2 * Real.pi * m / n) := by unfold turnAngle; push_cast; ring
  rw [e, Real.cos_neg, Real.sin_neg]
  obtain ⟨h1, s, s1, s2⟩ := turn hn m
  exact ⟨h1, -s, by rwa [abs_neg], by rw [s2]; push_cast; rfl⟩

theorem csum_whole {t : ℕ → Lin × Lin} : ∀ m : ℕ, (∀ r, Whole (t r).1 ∧ Whole (t r).2) → Whole (csum t m).1 ∧ Whole (csum t m).2
  | 0, h => h 0
  | m + 1, h => ⟨⟨(csum_whole m h).1, (h _).1⟩, ⟨(csum_whole m h).2, (h _).2⟩⟩

theorem fast_whole (h : NearestDouble rd) : ∀ fs : List ℕ, fs.prod ∣ 4 → ∀ x : ℕ → Lin × Lin,
    (∀ j, Whole (x j).1 ∧ Whole (x j).2) → ∀ k, Whole (fast rd (-1) fs x k).1 ∧ Whole (fast rd (-1) fs x k).2
  | [], _, x, hx, k => hx 0
  | p :: fs, hd, x, hx, k => by
      rw [fast]
      refine csum_whole _ fun r => ?_
      rw [List.prod_cons] at hd
      have ih := fast_whole h fs ((Dvd.intro_left _ rfl).trans hd) (fun j => x (j * p + r)) (fun j => hx _) (k % fs.prod)
      obtain ⟨⟨c, c1, c2⟩, s, s1, s2⟩ := turn_int hd (r * k)
      have st : ∀ z : ℤ, |z| ≤ 1 → rd (z : ℝ) = z := fun z hz => by
        have := int_round h (z := z) (lt_of_le_of_lt hz (by norm_num))
        have hz' : |(z : ℝ)| ≤ 1 := by exact_mod_cast hz
        unfold roundDouble at this
        rw [if_pos ((hz'.trans (one_le_pow₀ one_le_two)).trans max_large)] at this
        exact Option.some.inj this
      have wc : ∃ z : ℤ, Real.cos (turnAngle (p * fs.prod) (-1 * (r * k : ℕ))) = z ∧
          rd (Real.cos (turnAngle (p * fs.prod) (-1 * (r * k : ℕ)))) = z := ⟨c, c2, by rw [c2, st c c1]⟩
      have ws : ∃ z : ℤ, Real.sin (turnAngle (p * fs.prod) (-1 * (r * k : ℕ))) = z ∧
          rd (Real.sin (turnAngle (p * fs.prod) (-1 * (r * k : ℕ)))) = z := ⟨s, s2, by rw [s2, st s s1]⟩
      exact ⟨⟨⟨wc, ih.1⟩, ⟨ws, ih.2⟩⟩, ⟨⟨wc, ih.2⟩, ⟨ws, ih.1⟩⟩⟩

theorem fast_filter (h : NearestDouble rd) {fs : ℕ → List ℕ} {n : ℕ} [NeZero n] (hn : n ∣ 4) (hf : (fs n).prod = n)
    (hl : (fs n).length ≤ 10) : FilterSafe (libraryFl rd (fastLib rd fs)) n := by
  have hn4 : n ≤ 4 := Nat.le_of_dvd (by norm_num) hn
  refine filterSafe h (transforms h hf) ?_ (by omega) fun k _ => ?_
  · have h1 : (n : ℝ) ≤ 4 := by exact_mod_cast hn4
    have h2 : (2 : ℝ) ^ (fs n).length ≤ 2 ^ 10 := pow_le_pow_right₀ one_le_two hl
    calc (2 : ℝ) ^ (fs n).length * n ≤ 2 ^ 10 * 4 := mul_le_mul h2 h1 (by positivity) (by positivity)
      _ ≤ 2 ^ 20 := by norm_num
  · exact fast_whole h (fs n) (by rw [hf]; exact hn) (fun j => (.input j, .scale 0 0 (.input j)))
      (fun j => ⟨trivial, ⟨0, by simp, by simp⟩, trivial⟩) k

end Proofs.FastExact
