import Mathlib.Data.Int.Log
import Verif.Spec.Binary64
import Verif.Proofs.Gap

/-!
# Helper lemmas: double-precision arithmetic follows the error model
-/

set_option linter.unusedSectionVars false
set_option linter.unusedVariables false
set_option linter.unusedSimpArgs false

namespace Proofs.Binary64
open Model Spec Proofs Proofs.Fourier Complex

/-! ## The format -/

/-- The relative error of one rounding. -/
noncomputable def u : ℝ := 1 / 2 ^ 53

theorem u_pos : 0 < u := by unfold u; positivity

theorem u_small : u ≤ 1 / 1000000000000000 := by unfold u; norm_num

theorem double_abs_le {x : ℝ} (h : Double x) : |x| ≤ maxDouble := by
  obtain ⟨m, e, hm, _, he, rfl⟩ := h
  have h2 : (0 : ℝ) < (2 : ℝ) ^ e := by positivity
  rw [abs_mul, abs_of_pos h2]
  unfold maxDouble
  have h3 : |(m : ℝ)| ≤ 2 ^ 53 - 1 := by
    rw [← Int.cast_abs]
    have : |m| ≤ 2 ^ 53 - 1 := by omega
    exact_mod_cast this
  have h4 : (2 : ℝ) ^ e ≤ 2 ^ 971 := by
    have := zpow_le_zpow_right₀ (one_le_two (α := ℝ)) he
    exact_mod_cast this
  exact mul_le_mul h3 h4 h2.le (by norm_num)

theorem double_neg {x : ℝ} (h : Double x) : Double (-x) := by
  obtain ⟨m, e, hm, h1, h2, rfl⟩ := h
  exact ⟨-m, e, by rwa [abs_neg], h1, h2, by push_cast; ring⟩

theorem double_abs {x : ℝ} (h : Double x) : Double |x| := by
  rcases abs_choice x with e | e <;> rw [e]
  · exact h
  · exact double_neg h

theorem double_int {z : ℤ} (h : |z| < 2 ^ 53) : Double z := ⟨z, 0, h, by norm_num, by norm_num, by simp⟩

theorem round_mono {x y : ℝ} (h : x ≤ y) : round x ≤ round y := by
  rw [round_eq, round_eq]
  exact Int.floor_mono (by linarith)

/-- Every real number in the range has a close number of the format. -/
theorem close (x : ℝ) (hx : |x| ≤ maxDouble) : ∃ y, Double y ∧ |y - x| ≤ u * (|x| + 1) := by
  by_cases h0 : x = 0
  · exact ⟨0, by simpa using double_int (z := 0) (by norm_num), by rw [h0]; simp [u_pos.le]⟩
  have hpos : 0 < |x| := abs_pos.2 h0
  set L := Int.log 2 |x| with hL
  have l1 : (2 : ℝ) ^ L ≤ |x| := by
    have := Int.zpow_log_le_self (b := 2) (by norm_num) hpos
    exact_mod_cast this
  have l2 : |x| < (2 : ℝ) ^ (L + 1) := by
    have := Int.lt_zpow_succ_log_self (b := 2) (by norm_num) |x|
    exact_mod_cast this
  have hL2 : L ≤ 1023 := by
    by_contra hc
    push Not at hc
    have : (2 : ℝ) ^ (1024 : ℤ) ≤ 2 ^ L := zpow_le_zpow_right₀ one_le_two (by omega)
    have h3 : maxDouble < (2 : ℝ) ^ (1024 : ℤ) := by
      unfold maxDouble
      rw [show (2 : ℝ) ^ (1024 : ℤ) = 2 ^ 53 * 2 ^ 971 by
        rw [show (1024 : ℤ) = ((53 + 971 : ℕ) : ℤ) by norm_num, zpow_natCast, pow_add]]
      exact mul_lt_mul_of_pos_right (by norm_num) (by positivity)
    linarith
  set e : ℤ := max (L - 52) (-1074) with he
  have e1 : -1074 ≤ e := le_max_right _ _
  have e2 : e ≤ 971 := max_le (by omega) (by norm_num)
  have e3 : L - 52 ≤ e := le_max_left _ _
  have p2 : (0 : ℝ) < (2 : ℝ) ^ e := by positivity
  set m := round (x / (2 : ℝ) ^ e) with hm
  have herr : |(m : ℝ) * 2 ^ e - x| ≤ 2 ^ e / 2 := by
    have := abs_sub_round (x / (2 : ℝ) ^ e)
    rw [abs_sub_comm] at this
    have h5 : (m : ℝ) * 2 ^ e - x = (m - x / 2 ^ e) * 2 ^ e := by field_simp
    rw [h5, abs_mul, abs_of_pos p2]
    have := mul_le_mul_of_nonneg_right this p2.le
    linarith
  have hsmall : (2 : ℝ) ^ e / 2 ≤ u * (|x| + 1) := by
    have hu := u_pos
    rcases max_cases (L - 52) (-1074) with ⟨h, _⟩ | ⟨h, _⟩
    · rw [he, h]
      have h6 : (2 : ℝ) ^ (L - 52) / 2 = u * 2 ^ L := by
        rw [zpow_sub₀ (by norm_num)]
        unfold u
        rw [show (2 : ℝ) ^ (52 : ℤ) = 2 ^ 52 by norm_cast]
        ring
      rw [h6]
      nlinarith
    · rw [he, h]
      have h6 : (2 : ℝ) ^ (-1074 : ℤ) / 2 ≤ u := by
        unfold u
        have : (2 : ℝ) ^ (-1074 : ℤ) ≤ 2 ^ (-53 : ℤ) := zpow_le_zpow_right₀ one_le_two (by norm_num)
        rw [show (2 : ℝ) ^ (-53 : ℤ) = 1 / 2 ^ 53 by rw [zpow_neg, one_div]; norm_cast] at this
        have : (0 : ℝ) < 1 / 2 ^ 53 := by positivity
        linarith
      nlinarith
  have hq : |x / (2 : ℝ) ^ e| < 2 ^ 53 := by
    rw [abs_div, abs_of_pos p2, div_lt_iff₀ p2]
    refine l2.trans_le ?_
    have : (2 : ℝ) ^ (53 : ℤ) * 2 ^ e = 2 ^ (53 + e) := (zpow_add₀ (by norm_num) _ _).symm
    rw [show (2 : ℝ) ^ 53 = 2 ^ (53 : ℤ) by norm_cast, this]
    exact zpow_le_zpow_right₀ one_le_two (by omega)
  have hround : ∀ c : ℤ, |x / (2 : ℝ) ^ e| ≤ c → |m| ≤ c := by
    intro c hc
    rw [abs_le] at hc ⊢
    constructor
    · have := round_mono hc.1
      rw [show (-(c : ℝ)) = ((-c : ℤ) : ℝ) by push_cast; rfl, round_intCast] at this
      exact this
    · have := round_mono hc.2
      rwa [round_intCast] at this
  have hm53 : |m| ≤ 2 ^ 53 := hround (2 ^ 53) (by rw [Int.cast_pow]; exact_mod_cast hq.le)
  rcases lt_or_eq_of_le hm53 with hlt | heq
  · exact ⟨m * 2 ^ e, ⟨m, e, hlt, e1, e2, rfl⟩, herr.trans hsmall⟩
  · have he971 : e ≠ 971 := by
      intro h
      have : |m| ≤ 2 ^ 53 - 1 := hround (2 ^ 53 - 1) (by
        rw [abs_div, abs_of_pos p2, div_le_iff₀ p2, h]
        push_cast
        refine hx.trans (le_of_eq ?_)
        unfold maxDouble
        rw [show (971 : ℤ) = ((971 : ℕ) : ℤ) by norm_num, zpow_natCast]
        norm_num)
      omega
    refine ⟨m * 2 ^ e, ⟨m / 2, e + 1, ?_, by omega, by omega, ?_⟩, herr.trans hsmall⟩
    · rcases abs_choice m with h | h <;> rw [h] at heq
      · rw [heq]; norm_num
      · rw [show m = -2 ^ 53 by omega]; norm_num
    · have h7 : ((m / 2 : ℤ) : ℝ) * 2 = m := by
        have : m / 2 * 2 = m := by
          rcases abs_choice m with h | h <;> rw [h] at heq
          · rw [heq]; norm_num
          · rw [show m = -2 ^ 53 by omega]; norm_num
        exact_mod_cast this
      rw [zpow_add_one₀ (by norm_num), ← h7]
      ring

theorem max_large : (2 : ℝ) ^ 250 ≤ maxDouble := by
  unfold maxDouble
  have h1 : (2 : ℝ) ^ 250 ≤ 2 ^ 971 := pow_le_pow_right₀ one_le_two (by norm_num)
  have h2 : (1 : ℝ) * 2 ^ 971 ≤ (2 ^ 53 - 1) * 2 ^ 971 := mul_le_mul_of_nonneg_right (by norm_num) (by positivity)
  rw [one_mul] at h2
  exact h1.trans h2

/-! ## Single operations -/

section
variable {rd : ℝ → ℝ}

/-- `o` is a finite number within `d` of `v`. -/
def Ap (o : Option ℝ) (v d : ℝ) : Prop := ∃ a, o = some a ∧ Double a ∧ |a - v| ≤ d

theorem Ap.mono {o : Option ℝ} {v d d' : ℝ} (h : Ap o v d) (hd : d ≤ d') : Ap o v d' := by
  obtain ⟨a, h1, h2, h3⟩ := h
  exact ⟨a, h1, h2, h3.trans hd⟩

theorem Ap.val {o : Option ℝ} {v d : ℝ} (h : Ap o v d) : DoubleOk o ∧ |doubleVal o - v| ≤ d := by
  obtain ⟨a, rfl, h2, h3⟩ := h
  exact ⟨⟨a, rfl, h2⟩, h3⟩

theorem ap_exact {o : Option ℝ} (h : DoubleOk o) : Ap o (doubleVal o) 0 := by
  obtain ⟨a, rfl, h⟩ := h
  exact ⟨a, rfl, h, by simp [doubleVal]⟩

theorem Ap.neg {o : Option ℝ} {v d : ℝ} (h : Ap o v d) : Ap (o.map (- ·)) (-v) d := by
  obtain ⟨a, rfl, h2, h3⟩ := h
  exact ⟨-a, rfl, double_neg h2, by rw [← abs_neg]; simpa [neg_sub, sub_eq_add_neg, add_comm] using h3⟩

theorem round_ap (h : NearestDouble rd) {x : ℝ} (hx : |x| ≤ maxDouble) : Ap (roundDouble rd x) x (u * (|x| + 1)) := by
  obtain ⟨h1, h2⟩ := h x hx
  obtain ⟨y, hy, hd⟩ := close x hx
  exact ⟨rd x, by unfold roundDouble; rw [if_pos hx], h1, (h2 y hy).trans hd⟩

theorem round_exact (h : NearestDouble rd) {x : ℝ} (hx : Double x) : roundDouble rd x = some x := by
  have hm := double_abs_le hx
  obtain ⟨h1, h2⟩ := h x hm
  have h3 := h2 x hx
  rw [sub_self, abs_zero] at h3
  unfold roundDouble
  rw [if_pos hm, sub_eq_zero.1 (abs_nonpos_iff.1 h3)]

theorem bin_ap (h : NearestDouble rd) (f : ℝ → ℝ → ℝ) {o p : Option ℝ} {a b r d c : ℝ} {da db : ℝ} (ho : Ap o a da)
    (hp : Ap p b db) (hf : ∀ s t, |s - a| ≤ da → |t - b| ≤ db → |f s t - r| ≤ d ∧ |f s t| ≤ c) (hc : c ≤ maxDouble) :
    Ap (binDouble rd f o p) r (d + u * (c + 1)) := by
  obtain ⟨s, rfl, h1, h2⟩ := ho
  obtain ⟨t, rfl, h3, h4⟩ := hp
  obtain ⟨h5, h6⟩ := hf s t h2 h4
  obtain ⟨w, hw, h7, h8⟩ := round_ap h (h6.trans hc)
  refine ⟨w, by unfold binDouble; exact hw, h7, ?_⟩
  have := abs_sub_le w (f s t) r
  have := mul_le_mul_of_nonneg_left (show |f s t| + 1 ≤ c + 1 by linarith) u_pos.le
  linarith

theorem abs_le_of_near {s a d : ℝ} (h : |s - a| ≤ d) : |s| ≤ |a| + d := by
  have := abs_sub_abs_le_abs_sub s a
  linarith

theorem add_ap (h : NearestDouble rd) {o p : Option ℝ} {a b da db c : ℝ} (ho : Ap o a da) (hp : Ap p b db)
    (hc : |a| + |b| + da + db ≤ c) (hm : c ≤ maxDouble) :
    Ap (binDouble rd (· + ·) o p) (a + b) (da + db + u * (c + 1)) := by
  refine bin_ap h _ ho hp (fun s t hs ht => ⟨?_, ?_⟩) hm
  · rw [show s + t - (a + b) = (s - a) + (t - b) by ring]
    exact (abs_add_le _ _).trans (add_le_add hs ht)
  · have := abs_le_of_near hs
    have := abs_le_of_near ht
    have := abs_add_le s t
    linarith

theorem sub_ap (h : NearestDouble rd) {o p : Option ℝ} {a b da db c : ℝ} (ho : Ap o a da) (hp : Ap p b db)
    (hc : |a| + |b| + da + db ≤ c) (hm : c ≤ maxDouble) :
    Ap (binDouble rd (· - ·) o p) (a - b) (da + db + u * (c + 1)) := by
  refine bin_ap h _ ho hp (fun s t hs ht => ⟨?_, ?_⟩) hm
  · rw [show s - t - (a - b) = (s - a) - (t - b) by ring]
    exact (abs_sub _ _).trans (add_le_add hs ht)
  · have := abs_le_of_near hs
    have := abs_le_of_near ht
    have := abs_sub s t
    linarith

/-- The product of an exact number and a rounded number of magnitude at most 1. -/
theorem mul_ap (h : NearestDouble rd) {o p : Option ℝ} {a b : ℝ} (ho : Ap o a 0) (hp : Ap p b (2 * u)) (hb : |b| ≤ 1)
    (hm : 2 * |a| ≤ maxDouble) : Ap (binDouble rd (· * ·) o p) (a * b) (u * (3 * |a| + 2 * u * |a| + 1)) := by
  have hu := u_pos
  have hu2 := u_small
  have ha := abs_nonneg a
  refine (bin_ap h _ (d := 2 * u * |a|) (c := |a| * (1 + 2 * u)) ho hp (fun s t hs ht => ⟨?_, ?_⟩) (by nlinarith)).mono
    (le_of_eq (by ring))
  · have : s = a := sub_eq_zero.1 (abs_nonpos_iff.1 hs)
    rw [this, ← mul_sub, abs_mul]
    nlinarith
  · have : s = a := sub_eq_zero.1 (abs_nonpos_iff.1 hs)
    rw [this, abs_mul]
    exact mul_le_mul_of_nonneg_left ((abs_le_of_near ht).trans (by linarith)) ha

theorem cos_ap (h : NearestDouble rd) (n m : ℕ) : Ap (cosDouble rd n m) (Real.cos (2 * Real.pi * m / n)) (2 * u) := by
  have h1 := Real.abs_cos_le_one (2 * Real.pi * m / n)
  have := max_large
  refine (round_ap h (h1.trans (le_trans (one_le_pow₀ one_le_two) max_large))).mono ?_
  have := u_pos
  nlinarith

theorem sin_ap (h : NearestDouble rd) (n m : ℕ) : Ap (sinDouble rd n m) (Real.sin (2 * Real.pi * m / n)) (2 * u) := by
  have h1 := Real.abs_sin_le_one (2 * Real.pi * m / n)
  have := max_large
  refine (round_ap h (h1.trans (le_trans (one_le_pow₀ one_le_two) max_large))).mono ?_
  have := u_pos
  nlinarith

/-! ## Sums -/

theorem sum_ap (h : NearestDouble rd) {N : ℕ} (hN : N ≤ 1000) (f : ℕ → Option ℝ) (v d M : ℕ → ℝ)
    (hf : ∀ j < N, Ap (f j) (v j) (d j)) (hv : ∀ j < N, |v j| ≤ M j) (hd : ∀ j < N, 0 ≤ d j) {T : ℝ}
    (hT : ∑ j ∈ Finset.range N, (M j + d j) ≤ T) (hm : 2 * T + 2 ≤ maxDouble) :
    Ap (sumDouble rd ((List.range N).map f)) (∑ j ∈ Finset.range N, v j)
      (∑ j ∈ Finset.range N, d j + N * (u * (2 * T + 2))) := by
  have hu := u_pos
  have hu2 := u_small
  have hM : ∀ j < N, 0 ≤ M j := fun j hj => (abs_nonneg _).trans (hv j hj)
  have hT0 : 0 ≤ T := le_trans (Finset.sum_nonneg fun j hj =>
    add_nonneg (hM j (Finset.mem_range.1 hj)) (hd j (Finset.mem_range.1 hj))) hT
  have key : ∀ m, m ≤ N → Ap (sumDouble rd ((List.range m).map f)) (∑ j ∈ Finset.range m, v j)
      (∑ j ∈ Finset.range m, d j + m * (u * (2 * T + 2))) := by
    intro m
    induction m with
    | zero =>
      intro _
      exact ⟨0, rfl, by simpa using double_int (z := 0) (by norm_num), by simp⟩
    | succ m ih =>
      intro hmN
      have ih := ih (by omega)
      have e : sumDouble rd ((List.range (m + 1)).map f) =
          binDouble rd (· + ·) (sumDouble rd ((List.range m).map f)) (f m) := by
        unfold sumDouble
        rw [List.range_succ, List.map_append, List.foldl_append]
        rfl
      rw [e, Finset.sum_range_succ, Finset.sum_range_succ]
      have hpart : ∑ j ∈ Finset.range (m + 1), (M j + d j) ≤ T :=
        le_trans (Finset.sum_le_sum_of_subset_of_nonneg (Finset.range_mono hmN) fun j hj _ =>
          add_nonneg (hM j (Finset.mem_range.1 hj)) (hd j (Finset.mem_range.1 hj))) hT
      rw [Finset.sum_range_succ, Finset.sum_add_distrib] at hpart
      have habs : |∑ j ∈ Finset.range m, v j| ≤ ∑ j ∈ Finset.range m, M j :=
        (Finset.abs_sum_le_sum_abs _ _).trans (Finset.sum_le_sum fun j hj => hv j (by
          have := Finset.mem_range.1 hj
          omega))
      have hvm := hv m (by omega)
      have hmr : (m : ℝ) ≤ 1000 := by exact_mod_cast (by omega)
      have hm0 : (0 : ℝ) ≤ m := by positivity
      have hmu : (m : ℝ) * (u * (2 * T + 2)) ≤ 1000 * (1 / 1000000000000000 * (2 * T + 2)) :=
        mul_le_mul hmr (mul_le_mul_of_nonneg_right hu2 (by linarith)) (by positivity) (by norm_num)
      refine (add_ap h ih (hf m (by omega)) (c := 2 * T + 1) (by linarith) (by linarith)).mono (le_of_eq ?_)
      push_cast
      ring
  exact key N le_rfl

/-! ## The transforms -/

theorem unit_parts (n m : ℕ) : (unit n (m : ℤ)).re = Real.cos (2 * Real.pi * m / n) ∧
    (unit n (m : ℤ)).im = Real.sin (2 * Real.pi * m / n) ∧ (unit n (-(m : ℤ))).re = Real.cos (2 * Real.pi * m / n) ∧
    (unit n (-(m : ℤ))).im = -Real.sin (2 * Real.pi * m / n) := by
  have e1 : (2 * Real.pi * I * ((m : ℤ) : ℂ) / n : ℂ) = ((2 * Real.pi * m / n : ℝ) : ℂ) * I := by
    push_cast; ring
  have e2 : (2 * Real.pi * I * ((-(m : ℤ) : ℤ) : ℂ) / n : ℂ) = ((-(2 * Real.pi * m / n) : ℝ) : ℂ) * I := by
    push_cast; ring
  unfold unit
  rw [e1, e2, exp_ofReal_mul_I_re, exp_ofReal_mul_I_im, exp_ofReal_mul_I_re, exp_ofReal_mul_I_im, Real.cos_neg, Real.sin_neg]
  exact ⟨rfl, rfl, rfl, rfl⟩

/-- The error of the operations and transforms at length `n`. -/
noncomputable def err (n : ℕ) : ℝ := 2 * ((n : ℝ) + 4) ^ 2 * u

theorem u_le_err (n : ℕ) : 32 * u ≤ err n := by
  unfold err
  have : (0 : ℝ) ≤ n := by positivity
  have := u_pos
  nlinarith [mul_nonneg this.le (show (0 : ℝ) ≤ 2 * ((n : ℝ) + 4) ^ 2 - 32 by nlinarith)]

theorem r2c_sum (h : NearestDouble rd) {n : ℕ} (hn : n ≤ 1000) {x : List ℤ} (hx : PMSeq n x) (g : ℕ → Option ℝ)
    (c : ℕ → ℝ) (hg : ∀ j < n, Ap (g j) (c j) (2 * u)) (hc : ∀ j < n, |c j| ≤ 1) (s : Option ℝ → Option ℝ) (sg : ℝ)
    (hs : ∀ o v d, Ap o v d → Ap (s o) (sg * v) d) (hsg : |sg| = 1) :
    Ap (sumDouble rd ((List.range n).map fun j =>
      s (binDouble rd (· * ·) ((x.map fun v => roundDouble rd (v : ℤ)).getD j none) (g j))))
      (∑ j ∈ Finset.range n, sg * (((x.getD j 0 : ℤ) : ℝ) * c j)) (err n) := by
  have hu := u_pos
  have hu2 := u_small
  have hn' : (n : ℝ) ≤ 1000 := by exact_mod_cast hn
  have hn0 : (0 : ℝ) ≤ n := by positivity
  have hmax := max_large
  have hent : ∀ j < n, ∃ z : ℤ, x.getD j 0 = z ∧ |z| = 1 ∧
      (x.map fun v => roundDouble rd (v : ℤ)).getD j none = some (z : ℝ) := by
    intro j hj
    have hj' : j < x.length := by rw [hx.1]; exact hj
    refine ⟨x[j], List.getD_eq_getElem _ _ hj', ?_, ?_⟩
    · rcases hx.2 _ (List.getElem_mem hj') with e | e <;> rw [e] <;> rfl
    · rw [List.getD_eq_getElem _ _ (by simpa using hj'), List.getElem_map]
      refine round_exact h (double_int ?_)
      rcases hx.2 _ (List.getElem_mem hj') with e | e <;> rw [e] <;> norm_num
  refine (sum_ap h hn _ _ (fun _ => 5 * u) (fun _ => 1) (T := n + 1) ?_ ?_ ?_ ?_ (by linarith)).mono ?_
  · intro j hj
    obtain ⟨z, hz, hz1, he⟩ := hent j hj
    rw [he, hz]
    have hz1' : |(z : ℝ)| = 1 := by rw [← Int.cast_abs, hz1]; simp
    refine hs _ _ _ ((mul_ap h ⟨_, rfl, double_int (by rw [hz1]; norm_num), by simp⟩ (hg j hj) (hc j hj) ?_).mono ?_)
    · rw [hz1']; linarith
    · rw [hz1']; nlinarith
  · intro j hj
    obtain ⟨z, hz, hz1, he⟩ := hent j hj
    have hz1' : |(z : ℝ)| = 1 := by rw [← Int.cast_abs, hz1]; simp
    rw [hz, abs_mul, abs_mul, hsg, hz1', one_mul, one_mul]
    exact hc j hj
  · intro j _; positivity
  · rw [Finset.sum_const, Finset.card_range, nsmul_eq_mul]
    nlinarith
  · rw [Finset.sum_const, Finset.card_range, nsmul_eq_mul]
    unfold err
    nlinarith [mul_nonneg hu.le hn0]

theorem sum_getD (X : List (Option ℝ × Option ℝ)) (f : Option ℝ × Option ℝ → ℝ) (z : Option ℝ × Option ℝ) :
    (X.map f).sum = ∑ i ∈ Finset.range X.length, f (X.getD i z) := by
  induction X with
  | nil => rfl
  | cons a X ih =>
    rw [List.map_cons, List.sum_cons, List.length_cons, Finset.sum_range_succ', ih, add_comm]
    rfl

/-- The magnitudes of the Hermitian extension. -/
theorem sum_herm (n : ℕ) (a : ℕ → ℝ) (ha : ∀ i, 0 ≤ a i) :
    ∑ k ∈ Finset.range n, (if k ≤ n / 2 then a k else a (n - k)) ≤ 2 * ∑ i ∈ Finset.range (n / 2 + 1), a i := by
  rw [Finset.sum_ite, two_mul]
  refine add_le_add ?_ ?_
  · refine Finset.sum_le_sum_of_subset_of_nonneg (fun k hk => ?_) fun _ _ _ => ha _
    have := (Finset.mem_filter.1 hk).2
    exact Finset.mem_range.2 (by omega)
  · rw [← Finset.sum_image (f := a) (g := fun k => n - k) fun i hi j hj e => by
      have h1 := Finset.mem_range.1 (Finset.mem_filter.1 hi).1
      have h2 := Finset.mem_range.1 (Finset.mem_filter.1 hj).1
      dsimp only at e
      omega]
    refine Finset.sum_le_sum_of_subset_of_nonneg (fun k hk => ?_) fun _ _ _ => ha _
    obtain ⟨j, hj, rfl⟩ := Finset.mem_image.1 hk
    have := (Finset.mem_filter.1 hj).2
    exact Finset.mem_range.2 (by omega)

theorem c2r_term (h : NearestDouble rd) {o p : Option ℝ} {a b : ℝ} (ho : Ap o a 0) (hp : Ap p b 0) (n m : ℕ)
    (hm : 4 * (|a| + |b|) + 4 ≤ maxDouble) :
    Ap (binDouble rd (· - ·) (binDouble rd (· * ·) o (cosDouble rd n m)) (binDouble rd (· * ·) p (sinDouble rd n m)))
      (a * Real.cos (2 * Real.pi * m / n) - b * Real.sin (2 * Real.pi * m / n)) (5 * u * (|a| + |b| + 1)) := by
  have hu := u_pos
  have hu2 := u_small
  have ha := abs_nonneg a
  have hb := abs_nonneg b
  have h1 := Real.abs_cos_le_one (2 * Real.pi * m / n)
  have h2 := Real.abs_sin_le_one (2 * Real.pi * m / n)
  have p1 := mul_ap h ho (cos_ap h n m) h1 (by linarith)
  have p2 := mul_ap h hp (sin_ap h n m) h2 (by linarith)
  have m1 : |a * Real.cos (2 * Real.pi * m / n)| ≤ |a| := by
    rw [abs_mul]; exact mul_le_of_le_one_right ha h1
  have m2 : |b * Real.sin (2 * Real.pi * m / n)| ≤ |b| := by
    rw [abs_mul]; exact mul_le_of_le_one_right hb h2
  have s1 : u * (3 * |a| + 2 * u * |a| + 1) ≤ 1 / 1000 * (|a| + 1) := by
    have := mul_nonneg hu.le ha
    nlinarith
  have s2 : u * (3 * |b| + 2 * u * |b| + 1) ≤ 1 / 1000 * (|b| + 1) := by
    have := mul_nonneg hu.le hb
    nlinarith
  refine (sub_ap h p1 p2 (c := (|a| + |b|) * (1 + 1 / 1000) + 1 / 500) (by linarith) (by linarith)).mono ?_
  have ua := mul_nonneg hu.le ha
  have ub := mul_nonneg hu.le hb
  have u2a : u * (u * |a|) ≤ 1 / 1000 * (u * |a|) := mul_le_mul_of_nonneg_right (by linarith) ua
  have u2b : u * (u * |b|) ≤ 1 / 1000 * (u * |b|) := mul_le_mul_of_nonneg_right (by linarith) ub
  nlinarith

theorem hermitian_parts (n : ℕ) (X : List (Option ℝ × Option ℝ)) (k : ℕ) :
    hermitian n (X.map fun z => (doubleVal z.1, doubleVal z.2)) k =
      if k ≤ n / 2 then ⟨doubleVal (X.getD k (none, none)).1, doubleVal (X.getD k (none, none)).2⟩
      else ⟨doubleVal (X.getD (n - k) (none, none)).1, -doubleVal (X.getD (n - k) (none, none)).2⟩ := by
  have e : ∀ i, (X.map fun z => (doubleVal z.1, doubleVal z.2)).getD i (0, 0) =
      (doubleVal (X.getD i (none, none)).1, doubleVal (X.getD i (none, none)).2) := by
    intro i
    rw [List.getD_eq_getElem?_getD, List.getD_eq_getElem?_getD, List.getElem?_map]
    cases X[i]? <;> rfl
  unfold hermitian
  rw [e, e]

/-- Double-precision arithmetic follows the error model. -/
theorem model (h : NearestDouble rd) {n : ℕ} [NeZero n] (hn : n ≤ 1000) {B : ℝ} (hB : B ≤ 2 ^ 200) :
    FloatModel (doubleFl rd) doubleVal DoubleOk n B (err n) := by
  have hu := u_pos
  have hu2 := u_small
  have hn' : (n : ℝ) ≤ 1000 := by exact_mod_cast hn
  have hn0 : (0 : ℝ) ≤ n := by positivity
  have hmax := max_large
  have hone : (1 : ℝ) ≤ 2 ^ 200 := one_le_pow₀ one_le_two
  have hue := u_le_err n
  have rnd : ∀ r, |r| ≤ 2 * (2 : ℝ) ^ 200 → Ap (roundDouble rd r) r (err n * (|r| + 1)) := fun r hr =>
    (round_ap h (hr.trans (by linarith))).mono (mul_le_mul_of_nonneg_right (by linarith) (by positivity))
  have bin : ∀ (f : ℝ → ℝ → ℝ) x y, DoubleOk x → DoubleOk y → |f (doubleVal x) (doubleVal y)| ≤ 2 * (2 : ℝ) ^ 200 →
      DoubleOk (binDouble rd f x y) ∧ |doubleVal (binDouble rd f x y) - f (doubleVal x) (doubleVal y)| ≤
        err n * (|f (doubleVal x) (doubleVal y)| + 1) := by
    rintro f _ _ ⟨a, rfl, ha⟩ ⟨b, rfl, hb⟩ hf
    exact (rnd _ hf).val
  refine ⟨?_, ?_, ?_, ?_, ?_, ?_, ?_, ?_, ?_, ?_, ?_, ?_, ?_⟩
  · intro z hz
    have hz' : |z| < 2 ^ 53 := by
      have : (n : ℤ) ≤ 1000 := by exact_mod_cast hn
      omega
    have : (doubleFl rd).ofInt z = some (z : ℝ) := round_exact h (double_int hz')
    rw [this]
    exact ⟨⟨_, rfl, double_int hz'⟩, rfl⟩
  · intro a b ha hb
    have hb1 : (1 : ℝ) ≤ b := by exact_mod_cast hb
    have ha1 : |(a : ℝ)| ≤ 4 := by rw [← Int.cast_abs]; exact_mod_cast ha
    have hq : |(a : ℝ) / b| ≤ 4 := by
      rw [abs_div, abs_of_nonneg (show (0 : ℝ) ≤ b by linarith), div_le_iff₀ (by linarith)]
      linarith
    obtain ⟨h1, h2⟩ := (round_ap h (hq.trans (by linarith))).val
    refine ⟨h1, h2.trans ?_⟩
    nlinarith
  · intro x y hx hy h1 h2
    exact bin (· + ·) x y hx hy ((abs_add_le _ _).trans (by linarith))
  · intro x y hx hy h1 h2
    exact bin (· - ·) x y hx hy ((abs_sub _ _).trans (by linarith))
  · intro x y hx hy h1
    exact bin (· * ·) x y hx hy (h1.trans (by linarith))
  · intro x y hx hy h1 h2
    have e : (doubleFl rd).div x y = binDouble rd (· / ·) x y := by
      show (if y = some 0 then none else binDouble rd (· / ·) x y) = _
      rw [if_neg]
      rintro rfl
      simp [doubleVal] at h2
      linarith
    rw [e]
    refine bin (· / ·) x y hx hy ?_
    rw [abs_div, div_le_iff₀ (by linarith)]
    have := abs_nonneg (doubleVal x)
    nlinarith
  · rintro _ ⟨a, rfl, ha⟩
    exact ⟨⟨-a, rfl, double_neg ha⟩, rfl⟩
  · rintro _ ⟨a, rfl, ha⟩
    exact ⟨⟨|a|, rfl, double_abs ha⟩, rfl⟩
  · rintro _ _ ⟨a, rfl, ha⟩ ⟨b, rfl, hb⟩
    simp [doubleFl, doubleVal]
  · rintro _ ⟨a, rfl, ha⟩ _
    exact Gap.round_dist a
  · intro x hx
    have hlen : (x.map fun v => (doubleFl rd).ofInt v).length = n := by rw [List.length_map]; exact hx.1
    constructor
    · show ((List.range (_ / 2 + 1)).map _).length = _
      rw [List.length_map, List.length_range, hlen]
    · intro k hk z hz
      simp only [doubleFl] at hz hlen
      rw [List.getElem?_map, hlen, List.getElem?_range (by omega)] at hz
      obtain rfl := Option.some.inj hz
      have hu' := fun j : ℕ => unit_parts n (j * k)
      have hr := (r2c_sum h hn hx (fun j => cosDouble rd n (j * k)) (fun j => Real.cos (2 * Real.pi * (j * k : ℕ) / n))
        (fun j _ => cos_ap h n (j * k)) (fun j _ => Real.abs_cos_le_one _) id 1 (fun o v d h => by simpa using h)
        (by simp)).val
      have hi := (r2c_sum h hn hx (fun j => sinDouble rd n (j * k)) (fun j => Real.sin (2 * Real.pi * (j * k : ℕ) / n))
        (fun j _ => sin_ap h n (j * k)) (fun j _ => Real.abs_sin_le_one _) (fun o => o.map (- ·)) (-1)
        (fun o v d h => by simpa using h.neg) (by simp)).val
      refine ⟨hr.1, hi.1, ?_, ?_⟩
      · refine le_trans (le_of_eq ?_) hr.2
        congr 2
        unfold dft
        rw [Complex.re_sum]
        refine Finset.sum_congr rfl fun j _ => ?_
        rw [mul_re, intCast_re, intCast_im, (hu' j).2.2.1]
        ring
      · refine le_trans (le_of_eq ?_) hi.2
        congr 2
        unfold dft
        rw [Complex.im_sum]
        refine Finset.sum_congr rfl fun j _ => ?_
        rw [mul_im, intCast_re, intCast_im, (hu' j).2.2.2]
        ring
  · intro X
    simp [doubleFl]
  · intro X hX hz t ht y hy
    simp only [doubleFl] at hy
    rw [List.getElem?_map, List.getElem?_range ht] at hy
    obtain rfl := Option.some.inj hy
    set a : ℕ → ℝ := fun i => |doubleVal (X.getD i (none, none)).1| + |doubleVal (X.getD i (none, none)).2| with ha
    have ha0 : ∀ i, 0 ≤ a i := fun i => by rw [ha]; positivity
    have hXi : ∀ i ≤ n / 2, X.getD i (none, none) ∈ X := fun i hi => by
      rw [List.getD_eq_getElem _ _ (by omega)]; exact List.getElem_mem _
    have haB : ∀ i ≤ n / 2, a i ≤ 2 * 2 ^ 200 := fun i hi => by
      obtain ⟨_, _, h1, h2⟩ := hz _ (hXi i hi)
      rw [ha]; linarith
    have hS : (X.map fun z => |doubleVal z.1| + |doubleVal z.2|).sum = ∑ i ∈ Finset.range (n / 2 + 1), a i := by
      rw [sum_getD X _ (none, none), hX]
    rw [hS]
    set S := ∑ i ∈ Finset.range (n / 2 + 1), a i with hSdef
    have hS0 : 0 ≤ S := Finset.sum_nonneg fun i _ => ha0 i
    have hSB : S ≤ 1001 * (2 * 2 ^ 200) := by
      refine (Finset.sum_le_card_nsmul _ _ (2 * 2 ^ 200) fun i hi => haB i (by
        have := Finset.mem_range.1 hi
        omega)).trans ?_
      rw [Finset.card_range, nsmul_eq_mul]
      refine mul_le_mul_of_nonneg_right ?_ (by positivity)
      have : n / 2 + 1 ≤ 1001 := by omega
      exact_mod_cast this
    set A : ℕ → ℝ := fun k => if k ≤ n / 2 then a k else a (n - k) with hA
    have hA0 : ∀ k, 0 ≤ A k := fun k => by rw [hA]; dsimp only; split <;> exact ha0 _
    have hAS : ∑ k ∈ Finset.range n, A k ≤ 2 * S := sum_herm n a ha0
    have hsumd : ∑ k ∈ Finset.range n, 5 * u * (A k + 1) ≤ 5 * u * (2 * S + n) := by
      rw [← Finset.mul_sum, Finset.sum_add_distrib, Finset.sum_const, Finset.card_range, nsmul_eq_mul, mul_one]
      exact mul_le_mul_of_nonneg_left (by linarith) (by positivity)
    have huS : u * S ≤ 1 / 1000000 * S := mul_le_mul_of_nonneg_right (by linarith) hS0
    have hun : u * n ≤ 1 / 1000000 * 1000 := mul_le_mul (by linarith) hn' hn0 (by norm_num)
    have hterm : ∀ k < n, Ap (let z := if k ≤ n / 2 then X.getD k (none, none) else
          ((X.getD (n - k) (none, none)).1, (X.getD (n - k) (none, none)).2.map (- ·))
        binDouble rd (· - ·) (binDouble rd (· * ·) z.1 (cosDouble rd n (k * t)))
          (binDouble rd (· * ·) z.2 (sinDouble rd n (k * t))))
        (hermitian n (X.map fun z => (doubleVal z.1, doubleVal z.2)) k * unit n (k * t : ℕ)).re (5 * u * (A k + 1)) ∧
        |(hermitian n (X.map fun z => (doubleVal z.1, doubleVal z.2)) k * unit n (k * t : ℕ)).re| ≤ A k := by
      intro k hk
      rw [mul_re, (unit_parts n (k * t)).1, (unit_parts n (k * t)).2.1, hermitian_parts, hA]
      dsimp only
      have c1 := Real.abs_cos_le_one (2 * Real.pi * (k * t : ℕ) / n)
      have c2 := Real.abs_sin_le_one (2 * Real.pi * (k * t : ℕ) / n)
      have bound : ∀ p q : ℝ, |p * Real.cos (2 * Real.pi * (k * t : ℕ) / n) - q * Real.sin (2 * Real.pi * (k * t : ℕ) / n)| ≤
          |p| + |q| := by
        intro p q
        refine (abs_sub _ _).trans (add_le_add ?_ ?_)
        · rw [abs_mul]; exact mul_le_of_le_one_right (abs_nonneg _) c1
        · rw [abs_mul]; exact mul_le_of_le_one_right (abs_nonneg _) c2
      split
      · rename_i hk2
        obtain ⟨o1, o2, _, _⟩ := hz _ (hXi k hk2)
        have := haB k hk2
        exact ⟨c2r_term h (ap_exact o1) (ap_exact o2) n (k * t) (by rw [ha] at this; dsimp only at this; linarith), bound _ _⟩
      · rename_i hk2
        obtain ⟨o1, o2, _, _⟩ := hz _ (hXi (n - k) (by omega))
        have := haB (n - k) (by omega)
        rw [ha] at this ⊢
        dsimp only at this ⊢
        have e : |-doubleVal (X.getD (n - k) (none, none)).2| = |doubleVal (X.getD (n - k) (none, none)).2| := abs_neg _
        refine ⟨?_, ?_⟩
        · have := c2r_term h (ap_exact o1) (ap_exact o2).neg n (k * t) (by rw [e]; linarith)
          rwa [e] at this
        · have := bound (doubleVal (X.getD (n - k) (none, none)).1) (-doubleVal (X.getD (n - k) (none, none)).2)
          rwa [e] at this
    have hfin := (sum_ap h hn _ _ (fun k => 5 * u * (A k + 1)) A (T := 3 * S + 1) (fun k hk => (hterm k hk).1)
      (fun k hk => (hterm k hk).2) (fun k _ => by have := hA0 k; positivity) (by
        rw [Finset.sum_add_distrib]
        linarith) (by linarith)).val
    refine ⟨hfin.1, hfin.2.trans ?_⟩
    have h9 : (n : ℝ) * (u * (2 * (3 * S + 1) + 2)) = u * (6 * (n * S) + 4 * n) := by ring
    have h10 : err n * (S + 1) = u * (2 * ((n : ℝ) + 4) ^ 2 * (S + 1)) := by unfold err; ring
    rw [h9, h10]
    have h11 : 5 * (2 * S + n) + (6 * ((n : ℝ) * S) + 4 * n) ≤ 2 * ((n : ℝ) + 4) ^ 2 * (S + 1) := by
      have := mul_nonneg hn0 hS0
      nlinarith [mul_nonneg (mul_nonneg hn0 hn0) hS0]
    have := mul_le_mul_of_nonneg_left h11 hu.le
    linarith

end

/-! ## Rounding exists -/

theorem finite_doubles : {x : ℝ | Double x}.Finite := by
  refine ((Set.finite_Icc (-(2 ^ 53) : ℤ) (2 ^ 53)).prod (Set.finite_Icc (-1074 : ℤ) 971)).image
    (fun p : ℤ × ℤ => (p.1 : ℝ) * (2 : ℝ) ^ p.2) |>.subset ?_
  rintro x ⟨m, e, hm, h1, h2, rfl⟩
  rw [abs_lt] at hm
  exact ⟨(m, e), ⟨⟨by omega, by omega⟩, ⟨h1, h2⟩⟩, rfl⟩

theorem exists_nearest : ∃ rd, NearestDouble rd := by
  have : ∀ x : ℝ, ∃ r, Double r ∧ ∀ y, Double y → |r - x| ≤ |y - x| := fun x => by
    obtain ⟨r, hr, h⟩ := Set.exists_min_image {x : ℝ | Double x} (fun y => |y - x|) finite_doubles
      ⟨0, by simpa using double_int (z := 0) (by norm_num)⟩
    exact ⟨r, hr, h⟩
  choose rd h using this
  exact ⟨rd, fun x _ => h x⟩

end Proofs.Binary64
