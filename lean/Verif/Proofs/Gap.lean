import Mathlib.RingTheory.IntegralClosure.IntegrallyClosed
import Mathlib.RingTheory.Polynomial.Cyclotomic.Roots
import Mathlib.RingTheory.RootsOfUnity.Complex
import Mathlib.RingTheory.Polynomial.RationalRoot
import Verif.Proofs.Rounding
import Verif.Proofs.Psd
import Verif.Spec.Numerics

/-!
# Helper lemmas: spectra keep away from the places where rounding decides
-/

set_option linter.unusedSectionVars false
set_option linter.unusedVariables false
set_option linter.unusedSimpArgs false

namespace Proofs.Gap
open Model Spec Proofs Proofs.Fourier Proofs.Rounding Proofs.Psd Complex

variable {n : ℕ} [NeZero n]

/-! ## Integrality -/

theorem unit_integral (m : ℤ) : IsIntegral ℤ (unit n m) := by
  refine IsIntegral.of_pow (Nat.pos_of_ne_zero (NeZero.ne n)) ?_
  have : unit n m ^ n = 1 := by
    rw [unit_eq, ← AddChar.map_nsmul_eq_pow]
    simp
  rw [this]
  exact isIntegral_one

theorem dft_integral (x : List ℤ) (k : ℕ) : IsIntegral ℤ (dft n x k) := by
  unfold dft
  refine IsIntegral.sum _ fun j _ => IsIntegral.mul ?_ (unit_integral _)
  exact isIntegral_algebraMap (R := ℤ) (A := ℂ) (x := x.getD j 0)

theorem conj_integral {z : ℂ} (h : IsIntegral ℤ z) : IsIntegral ℤ ((starRingEnd ℂ) z) :=
  h.map (starRingEnd ℂ).toIntAlgHom

theorem psd_integral (x : List ℤ) (k : ℕ) : IsIntegral ℤ ((psd n x k : ℝ) : ℂ) := by
  rw [psd_eq]
  exact (dft_integral x k).mul (conj_integral (dft_integral x k))

theorem I_integral : IsIntegral ℤ I := by
  refine IsIntegral.of_pow (n := 4) (by norm_num) ?_
  rw [I_pow_four]
  exact isIntegral_one

theorem crossIm_integral (pos : Bool) (x y : List ℤ) (k : ℕ) : IsIntegral ℤ ((crossIm n pos x y k : ℝ) : ℂ) := by
  have h1 := (dft_integral (n := n) x k).mul (conj_integral (dft_integral (n := n) y k))
  have h2 := (dft_integral (n := n) y k).mul (conj_integral (dft_integral (n := n) x k))
  have key : ∀ c1 c2 : ℂ, c2 = (starRingEnd ℂ) c1 → IsIntegral ℤ c1 → IsIntegral ℤ c2 →
      IsIntegral ℤ (((c1 - c2).im : ℝ) : ℂ) := by
    intro c1 c2 h i1 i2
    have : (((c1 - c2).im : ℝ) : ℂ) = -I * (c1 - c2) := by
      rw [h]
      apply Complex.ext <;> simp
    rw [this]
    exact (IsIntegral.neg I_integral).mul (i1.sub i2)
  unfold crossIm
  cases pos
  · exact key _ _ (by simp [mul_comm]) h2 h1
  · exact key _ _ (by simp [mul_comm]) h1 h2

theorem int_of_rat {q : ℚ} {v : ℝ} (h : IsIntegral ℤ ((v : ℝ) : ℂ)) (hv : v = q) : ∃ m : ℤ, q = m := by
  have h2 : IsIntegral ℤ (algebraMap ℚ ℂ q) := by
    have : algebraMap ℚ ℂ q = ((v : ℝ) : ℂ) := by rw [hv]; simp
    rw [this]; exact h
  have h3 : IsIntegral ℤ q := (isIntegral_algebraMap_iff (algebraMap ℚ ℂ).injective).1 h2
  obtain ⟨m, hm⟩ := IsIntegrallyClosed.isIntegral_iff.1 h3
  exact ⟨m, by rw [← hm]; simp⟩

/-- A real algebraic integer is not a half-integer. -/
theorem not_half {v : ℝ} (h : IsIntegral ℤ ((v : ℝ) : ℂ)) (z : ℤ) : v ≠ z + 1 / 2 := by
  intro hv
  obtain ⟨m, hm⟩ := int_of_rat (q := z + 1 / 2) h (by rw [hv]; push_cast; rfl)
  have : (2 * z + 1 : ℚ) = 2 * m := by linarith
  have h2 : (2 * z + 1 : ℤ) = 2 * m := by exact_mod_cast this
  omega

theorem not_tol {v : ℝ} (h : IsIntegral ℤ ((v : ℝ) : ℂ)) : |v| ≠ 1 / 10000 := by
  intro hv
  have key : ∀ q : ℚ, v = q → q = 1 / 10000 ∨ q = -(1 / 10000) → False := by
    intro q hq h2
    obtain ⟨m, hm⟩ := int_of_rat h hq
    rcases h2 with h2 | h2
    · have : (10000 * m : ℚ) = 1 := by rw [← hm, h2]; norm_num
      have h3 : (10000 * m : ℤ) = 1 := by exact_mod_cast this
      omega
    · have : (10000 * m : ℚ) = -1 := by rw [← hm, h2]; norm_num
      have h3 : (10000 * m : ℤ) = -1 := by exact_mod_cast this
      omega
  rcases (abs_eq (by norm_num)).1 hv with h1 | h1
  · exact key (1 / 10000) (by rw [h1]; push_cast; rfl) (.inl rfl)
  · exact key (-(1 / 10000)) (by rw [h1]; push_cast; rfl) (.inr rfl)

theorem round_dist (v : ℝ) : |v - roundAway v| ≤ 1 / 2 := by
  unfold roundAway
  rw [abs_le]
  split
  · have h1 := Int.floor_le (v + 1 / 2)
    have h2 := Int.lt_floor_add_one (v + 1 / 2)
    constructor <;> linarith
  · have h1 := Int.le_ceil (v - 1 / 2)
    have h2 := Int.ceil_lt_add_one (v - 1 / 2)
    constructor <;> linarith

theorem round_lt {v : ℝ} (h : ∀ z : ℤ, v ≠ z + 1 / 2) : |v - roundAway v| < 1 / 2 := by
  refine lt_of_le_of_ne (round_dist v) fun he => ?_
  rcases (abs_eq (by norm_num)).1 he with h1 | h1
  · exact h (roundAway v) (by linarith)
  · refine h (roundAway v - 1) ?_
    push_cast
    linarith

/-! ## A common gap -/

/-- Every computed quantity that decides keeps the distance `δ` from its threshold. -/
structure HasGap (n : ℕ) [NeZero n] (δ : ℝ) (x y : List ℤ) (k : ℕ) : Prop where
  auto : |(psd n x k + psd n y k) - roundAway (psd n x k + psd n y k)| + δ < 1 / 2
  comp : |(4 * n - (psd n x k + psd n y k)) - roundAway (4 * n - (psd n x k + psd n y k))| + δ < 1 / 2
  cross : ∀ pos, |crossIm n pos x y k - roundAway (crossIm n pos x y k)| + δ < 1 / 2
  tol : ∀ pos, |crossIm n pos x y k| + δ < 1 / 10000 ∨ 1 / 10000 + δ < |crossIm n pos x y k|
  bound : psd n x k + psd n y k = 4 * n ∨ psd n x k + psd n y k + δ < 4 * n ∨ 4 * n + δ < psd n x k + psd n y k

theorem HasGap.mono {δ δ' : ℝ} {x y : List ℤ} {k : ℕ} (h : HasGap n δ x y k) (hd : δ' ≤ δ) : HasGap n δ' x y k where
  auto := by have := h.auto; linarith
  comp := by have := h.comp; linarith
  cross pos := by have := h.cross pos; linarith
  tol pos := by rcases h.tol pos with h | h <;> [left; right] <;> linarith
  bound := by rcases h.bound with h | h | h <;> [left; (right; left); (right; right)] <;> linarith

theorem lt_gap {a b : ℝ} (h : a < b) : ∃ δ > 0, a + δ < b := ⟨(b - a) / 2, by linarith, by linarith⟩

theorem gap_one (x y : List ℤ) (k : ℕ) : ∃ δ > 0, HasGap n δ x y k := by
  have hs : IsIntegral ℤ (((psd n x k + psd n y k : ℝ)) : ℂ) := by
    push_cast; exact (psd_integral x k).add (psd_integral y k)
  have hc : IsIntegral ℤ (((4 * n - (psd n x k + psd n y k) : ℝ)) : ℂ) := by
    have : IsIntegral ℤ ((4 * n : ℤ) : ℂ) := isIntegral_algebraMap (R := ℤ) (A := ℂ) (x := 4 * n)
    have := this.sub hs
    push_cast at this ⊢
    exact this
  obtain ⟨d1, p1, h1⟩ := lt_gap (round_lt (not_half hs))
  obtain ⟨d2, p2, h2⟩ := lt_gap (round_lt (not_half hc))
  have hx : ∀ pos, ∃ δ > 0, |crossIm n pos x y k - roundAway (crossIm n pos x y k)| + δ < 1 / 2 := fun pos =>
    lt_gap (round_lt (not_half (crossIm_integral pos x y k)))
  have ht : ∀ pos, ∃ δ > 0, |crossIm n pos x y k| + δ < 1 / 10000 ∨ 1 / 10000 + δ < |crossIm n pos x y k| := by
    intro pos
    rcases lt_or_gt_of_ne (not_tol (crossIm_integral (n := n) pos x y k)) with h | h
    · obtain ⟨d, p, h⟩ := lt_gap h; exact ⟨d, p, .inl h⟩
    · obtain ⟨d, p, h⟩ := lt_gap h; exact ⟨d, p, .inr h⟩
  obtain ⟨d3, p3, h3⟩ := hx true
  obtain ⟨d4, p4, h4⟩ := hx false
  obtain ⟨d5, p5, h5⟩ := ht true
  obtain ⟨d6, p6, h6⟩ := ht false
  obtain ⟨d7, p7, h7⟩ : ∃ δ > 0, psd n x k + psd n y k = 4 * n ∨ psd n x k + psd n y k + δ < 4 * n ∨
      4 * n + δ < psd n x k + psd n y k := by
    rcases lt_trichotomy (psd n x k + psd n y k) (4 * n) with h | h | h
    · obtain ⟨d, p, h⟩ := lt_gap h; exact ⟨d, p, .inr (.inl h)⟩
    · exact ⟨1, one_pos, .inl h⟩
    · obtain ⟨d, p, h⟩ := lt_gap h; exact ⟨d, p, .inr (.inr h)⟩
  set δ := min (min (min d1 d2) (min d3 d4)) (min (min d5 d6) d7) with hδ
  have q1 : δ ≤ d1 := (min_le_left _ _).trans ((min_le_left _ _).trans (min_le_left _ _))
  have q2 : δ ≤ d2 := (min_le_left _ _).trans ((min_le_left _ _).trans (min_le_right _ _))
  have q3 : δ ≤ d3 := (min_le_left _ _).trans ((min_le_right _ _).trans (min_le_left _ _))
  have q4 : δ ≤ d4 := (min_le_left _ _).trans ((min_le_right _ _).trans (min_le_right _ _))
  have q5 : δ ≤ d5 := (min_le_right _ _).trans ((min_le_left _ _).trans (min_le_left _ _))
  have q6 : δ ≤ d6 := (min_le_right _ _).trans ((min_le_left _ _).trans (min_le_right _ _))
  have q7 : δ ≤ d7 := (min_le_right _ _).trans (min_le_right _ _)
  refine ⟨δ, by positivity, by linarith, by linarith, ?_, ?_, ?_⟩
  · intro pos; cases pos <;> linarith
  · intro pos
    cases pos
    · rcases h6 with h | h <;> [left; right] <;> linarith
    · rcases h5 with h | h <;> [left; right] <;> linarith
  · rcases h7 with h | h | h <;> [left; (right; left); (right; right)] <;> linarith

theorem common {α : Type} (P : α → ℝ → Prop) (hm : ∀ a δ δ', δ' ≤ δ → P a δ → P a δ') (l : List α)
    (h : ∀ a ∈ l, ∃ δ > 0, P a δ) : ∃ δ > 0, ∀ a ∈ l, P a δ := by
  induction l with
  | nil => exact ⟨1, one_pos, by simp⟩
  | cons a l ih =>
    obtain ⟨d1, p1, h1⟩ := h a (by simp)
    obtain ⟨d2, p2, h2⟩ := ih fun b hb => h b (by simp [hb])
    refine ⟨min d1 d2, lt_min p1 p2, fun b hb => ?_⟩
    rcases List.mem_cons.1 hb with rfl | hb
    · exact hm _ _ _ (min_le_left _ _) h1
    · exact hm _ _ _ (min_le_right _ _) (h2 b hb)

/-- One gap for all sequences of a length. -/
theorem gap_all (n : ℕ) [NeZero n] :
    ∃ δ > 0, ∀ x y, PMSeq n x → PMSeq n y → ∀ k ≤ n / 2, HasGap n δ x y k := by
  have h := common (fun (p : List ℤ × List ℤ × ℕ) δ => HasGap n δ p.1 p.2.1 p.2.2) (fun _ _ _ hd h => h.mono hd)
    ((Complete.allPM n) ×ˢ ((Complete.allPM n) ×ˢ (List.range (n / 2 + 1)))) (fun p _ => gap_one _ _ _)
  obtain ⟨δ, hp, h⟩ := h
  refine ⟨δ, hp, fun x y hx hy k hk => h (x, y, k) ?_⟩
  exact List.pair_mem_product.2 ⟨Complete.mem_allPM hx,
    List.pair_mem_product.2 ⟨Complete.mem_allPM hy, List.mem_range.2 (by omega)⟩⟩

/-! ## The filter -/

section
variable {K : Type} {A : Fl K} {val : K → ℝ} {ok : K → Prop} {B e : ℝ}

theorem psd_sq {x : List ℤ} (hx : PMSeq n x) (k : ℕ) : psd n x k ≤ ((n : ℝ) + 1) ^ 2 := by
  have := psd_le hx k
  have := n_one (n := n)
  nlinarith

theorem sum_near (h : FloatModel A val ok n B e) (hs : Small n B e) {x y : List ℤ} (hx : PMSeq n x) (hy : PMSeq n y)
    {k : ℕ} {p q : K} (hp : Near val ok p (psd n x k) (7 * U n e)) (hq : Near val ok q (psd n y k) (7 * U n e)) :
    Near val ok (A.add p q) (psd n x k + psd n y k) (17 * U n e) := by
  have hU := U_le hs
  have hsq := hs.sq
  have hc := hs.cube
  have a1 := psd_nonneg (n := n) x k
  have a2 := psd_nonneg (n := n) y k
  have b1 := psd_sq hx k
  have b2 := psd_sq hy k
  refine (add_near h hs.pos (c := 2 * ((n : ℝ) + 1) ^ 2) hp hq (by rw [abs_of_nonneg a1]; linarith)
    (by rw [abs_of_nonneg a2]; linarith) (by rw [abs_of_nonneg (by linarith)]; linarith)).mono ?_
  have : e * (2 * ((n : ℝ) + 1) ^ 2 + 7 * U n e + 7 * U n e + 1) ≤ e * (3 * ((n : ℝ) + 1) ^ 2) :=
    mul_le_mul_of_nonneg_left (by linarith) hs.pos
  have e2 : e * (3 * ((n : ℝ) + 1) ^ 2) = 3 * U n e := by unfold U; ring
  linarith

theorem bound_near (h : FloatModel A val ok n B e) (hs : Small n B e) :
    Near val ok (A.mul (A.lit 4 1) (A.ofInt n)) (4 * n) (3 * U n e) := by
  have h1 := n_one (n := n)
  have he := hs.pos
  have he2 := hs.e_le
  obtain ⟨o1, v1⟩ := h.lit 4 1 (by norm_num) (by norm_num)
  obtain ⟨o2, v2⟩ := h.ofInt n (by rw [abs_of_nonneg (by positivity)]; linarith [show (0:ℤ) ≤ n by positivity])
  have v2 : val (A.ofInt n) = n := by rw [v2]; simp
  have v1 : |val (A.lit 4 1) - 4| ≤ e := by simpa using v1
  have hc := hs.cube
  have d1 : |val (A.lit 4 1) * n - 4 * n| ≤ e * n := by
    rw [← sub_mul, abs_mul, abs_of_nonneg (show (0 : ℝ) ≤ n by linarith)]
    exact mul_le_mul_of_nonneg_right v1 (by linarith)
  have d2 : |val (A.lit 4 1) * n| ≤ 5 * n := by
    have := abs_sub_abs_le_abs_sub (val (A.lit 4 1) * n) (4 * n)
    rw [abs_of_nonneg (show (0 : ℝ) ≤ 4 * n by linarith)] at this
    nlinarith
  obtain ⟨o3, v3⟩ := h.mul _ _ o1 o2 (by rw [v2]; nlinarith)
  rw [v2] at v3
  refine ⟨o3, ?_⟩
  have h5 : e * (|val (A.lit 4 1) * n| + 1) ≤ e * (5 * n + 1) := mul_le_mul_of_nonneg_left (by linarith) he
  have h6 : e * (5 * n + 1) + e * n ≤ 3 * U n e := by
    unfold U
    nlinarith [mul_nonneg he (show (0 : ℝ) ≤ 3 * (n + 1) ^ 2 - (6 * n + 1) by nlinarith)]
  have := abs_sub_le (val (A.mul (A.lit 4 1) (A.ofInt n))) (val (A.lit 4 1) * n) (4 * n)
  linarith

theorem zip_at {x y : List ℤ} (h : FloatModel A val ok n B e) (hs : Small n B e) (hx : PMSeq n x) (hy : PMSeq n y) {k : ℕ}
    (hk : k ≤ n / 2) :
    ∃ p q, (List.zip ((dftSequence A x).map A.normSqr) ((dftSequence A y).map A.normSqr))[k]? = some (p, q) ∧
      Near val ok p (psd n x k) (7 * U n e) ∧ Near val ok q (psd n y k) (7 * U n e) := by
  obtain ⟨p, hp, np⟩ := psd_near h hs hx hk
  obtain ⟨q, hq, nq⟩ := psd_near h hs hy hk
  exact ⟨p, q, List.getElem?_zip_eq_some.2 ⟨hp, hq⟩, np, nq⟩

theorem filter_keep (h : FloatModel A val ok n B e) (hs : Small n B e) {x y : List ℤ} (hx : PMSeq n x) (hy : PMSeq n y)
    (hk : ∀ k, 1 ≤ k → k ≤ n / 2 → psd n x k + psd n y k + 20 * U n e ≤ 4 * n) :
    boundExceeded A ((dftSequence A x).map A.normSqr) ((dftSequence A y).map A.normSqr)
      (A.mul (A.lit 4 1) (A.ofInt n)) = false := by
  unfold boundExceeded
  rw [List.any_eq_false]
  intro pq hpq
  obtain ⟨j, hj⟩ := List.mem_iff_getElem?.1 hpq
  rw [List.getElem?_drop] at hj
  have hlen : 1 + j < n / 2 + 1 := by
    by_contra hc
    rw [List.getElem?_eq_none (by
      rw [List.length_zip, List.length_map, List.length_map, dft_length h hx, dft_length h hy]; omega)] at hj
    cases hj
  obtain ⟨p, q, hpq', np, nq⟩ := zip_at h hs hx hy (k := 1 + j) (by omega)
  rw [hpq'] at hj
  obtain rfl := Option.some.inj hj
  have n1 := sum_near h hs hx hy np nq
  have n2 := bound_near h hs
  rw [h.gt _ _ n1.1 n2.1]
  have := hk (1 + j) (by omega) (by omega)
  have k1 := (abs_le.1 n1.2).2
  have k2 := (abs_le.1 n2.2).1
  linarith

theorem filter_drop (h : FloatModel A val ok n B e) (hs : Small n B e) {x y : List ℤ} (hx : PMSeq n x) (hy : PMSeq n y)
    {k : ℕ} (h1 : 1 ≤ k) (h2 : k ≤ n / 2) (hk : 4 * n + 20 * U n e < psd n x k + psd n y k) :
    boundExceeded A ((dftSequence A x).map A.normSqr) ((dftSequence A y).map A.normSqr)
      (A.mul (A.lit 4 1) (A.ofInt n)) = true := by
  unfold boundExceeded
  rw [List.any_eq_true]
  obtain ⟨p, q, hpq, np, nq⟩ := zip_at h hs hx hy h2
  refine ⟨(p, q), List.mem_iff_getElem?.2 ⟨k - 1, ?_⟩, ?_⟩
  · rw [List.getElem?_drop, show 1 + (k - 1) = k by omega]
    exact hpq
  · have n1 := sum_near h hs hx hy np nq
    have n2 := bound_near h hs
    rw [h.gt _ _ n1.1 n2.1]
    have k1 := (abs_le.1 n1.2).1
    have k2 := (abs_le.1 n2.2).2
    linarith

/-! ## The keys -/

theorem round_near (h : FloatModel A val ok n B e) (hs : Small n B e) {f : K} {v : ℝ} (hf : Near val ok f v (22 * U n e))
    (hv : |v - roundAway v| + 22 * U n e < 1 / 2) (hb : |v| ≤ 6 * ((n : ℝ) + 1) ^ 2) : A.round f = roundAway v := by
  refine round_eq h hf.1 ?_ ?_
  · have h1 := hf.2
    have h2 := abs_sub_abs_le_abs_sub (val f) v
    have := hs.cube
    have := hs.sq
    have := round_dist v
    have := abs_nonneg (v - roundAway v)
    linarith
  · have := abs_sub_le (val f) v (roundAway v)
    have := hf.2
    linarith

/-- The computed values of the power spectra, entry by entry. -/
theorem psdPair_near (h : FloatModel A val ok n B e) (hs : Small n B e) {x y : List ℤ} (hx : PMSeq n x) (hy : PMSeq n y)
    (side : Side) :
    (computePsdPair A ((dftSequence A x).map A.normSqr) ((dftSequence A y).map A.normSqr) n side).length = n / 2 ∧
    ∀ j < n / 2, ∃ f, (computePsdPair A ((dftSequence A x).map A.normSqr) ((dftSequence A y).map A.normSqr) n side)[j]? =
        some f ∧ Near val ok f (keyValue n side x y (j + 1)) (22 * U n e) ∧
      |keyValue n side x y (j + 1)| ≤ 6 * ((n : ℝ) + 1) ^ 2 := by
  have hU := U_le hs
  have hU0 := U_nonneg hs
  have hsq := hs.sq
  have hcu := hs.cube
  have h1 := n_one (n := n)
  unfold computePsdPair
  constructor
  · rw [List.length_zipWith, List.length_drop, List.length_drop, List.length_map, List.length_map, dft_length h hx,
      dft_length h hy]
    omega
  intro j hj
  rw [List.getElem?_zipWith, List.getElem?_drop, List.getElem?_drop]
  obtain ⟨p, hp, np⟩ := psd_near h hs hx (k := 1 + j) (by omega)
  obtain ⟨q, hq, nq⟩ := psd_near h hs hy (k := 1 + j) (by omega)
  rw [hp, hq, Nat.add_comm j 1]
  have n1 := sum_near h hs hx hy np nq
  have a1 := psd_nonneg (n := n) x (1 + j)
  have a2 := psd_nonneg (n := n) y (1 + j)
  have b1 := psd_sq hx (1 + j)
  have b2 := psd_sq hy (1 + j)
  cases side
  · refine ⟨_, rfl, n1.mono (by linarith), ?_⟩
    unfold keyValue
    rw [abs_of_nonneg (by dsimp only; linarith)]; dsimp only; linarith
  · obtain ⟨o2, v2⟩ := h.ofInt (4 * n) (by rw [abs_of_nonneg (by positivity)])
    have n2 : Near val ok (A.ofInt (4 * n)) (4 * n) 0 := ⟨o2, by rw [v2]; simp⟩
    have hb : |4 * (n : ℝ) - (psd n x (1 + j) + psd n y (1 + j))| ≤ 4 * ((n : ℝ) + 1) ^ 2 := by
      rw [abs_le]; constructor <;> nlinarith
    have n3 := sub_near h hs.pos n2 n1 (by rw [abs_of_nonneg (by linarith)]; nlinarith)
      (by rw [abs_of_nonneg (by linarith)]; linarith) hb
    refine ⟨_, rfl, n3.mono ?_, by unfold keyValue; dsimp only; linarith⟩
    have : e * (4 * ((n : ℝ) + 1) ^ 2 + 0 + 17 * U n e + 1) ≤ e * (5 * ((n : ℝ) + 1) ^ 2) :=
      mul_le_mul_of_nonneg_left (by linarith) hs.pos
    have e2 : e * (5 * ((n : ℝ) + 1) ^ 2) = 5 * U n e := by unfold U; ring
    linarith

/-- Rounding gives the exact values if these keep away from half-integers. -/
theorem psdPair_round (h : FloatModel A val ok n B e) (hs : Small n B e) {x y : List ℤ} (hx : PMSeq n x) (hy : PMSeq n y)
    (side : Side) (hg : ∀ k, 1 ≤ k → k ≤ n / 2 →
      |keyValue n side x y k - roundAway (keyValue n side x y k)| + 22 * U n e < 1 / 2) :
    (computePsdPair A ((dftSequence A x).map A.normSqr) ((dftSequence A y).map A.normSqr) n side).map A.round =
      psdVals n side x y := by
  obtain ⟨hl, he⟩ := psdPair_near h hs hx hy side
  apply List.ext_getElem?
  intro j
  unfold psdVals
  rw [List.getElem?_map, List.getElem?_map]
  by_cases hj : j < n / 2
  · obtain ⟨f, hf, hn, hb⟩ := he j hj
    rw [hf, List.getElem?_range' (by omega)]
    simp only [Option.map_some, Option.some_inj, one_mul]
    rw [round_near h hs hn (hg (j + 1) (by omega) (by omega)) hb, Nat.add_comm]
    cases side <;> rfl
  · rw [List.getElem?_eq_none (by rw [hl]; omega), List.getElem?_eq_none (l := List.range' 1 (n / 2)) (by simp; omega)]
    rfl

theorem psdPair_keys (h : FloatModel A val ok n B e) (hs : Small n B e) {x y : List ℤ} (hx : PMSeq n x) (hy : PMSeq n y)
    (hg : ∀ k ≤ n / 2, HasGap n (22 * U n e) x y k) (side : Side) :
    (computePsdPair A ((dftSequence A x).map A.normSqr) ((dftSequence A y).map A.normSqr) n side).map A.round =
      psdVals n side x y :=
  psdPair_round h hs hx hy side fun k _ k2 => by
    cases side
    · exact (hg k k2).auto
    · exact (hg k k2).comp

theorem crossIm_eq (pos : Bool) (x y : List ℤ) (k : ℕ) :
    crossIm n pos x y k = if pos then
      (dft n x k * (starRingEnd ℂ) (dft n y k)).im - (dft n y k * (starRingEnd ℂ) (dft n x k)).im
      else (dft n y k * (starRingEnd ℂ) (dft n x k)).im - (dft n x k * (starRingEnd ℂ) (dft n y k)).im := by
  unfold crossIm
  cases pos <;> simp only [sub_im]

theorem cross_abs {x y : List ℤ} (hx : PMSeq n x) (hy : PMSeq n y) (k : ℕ) :
    |(dft n x k * (starRingEnd ℂ) (dft n y k)).im| ≤ ((n : ℝ) + 1) ^ 2 := by
  refine (abs_im_le_norm _).trans ?_
  rw [norm_mul, RCLike.norm_conj]
  have h1 := n_one (n := n)
  have := mul_le_mul (norm_dft_le hx k) (norm_dft_le hy k) (norm_nonneg _) (by linarith)
  nlinarith

/-- The computed imaginary parts, frequency by frequency. -/
theorem crossPsdPair_near (h : FloatModel A val ok n B e) (hs : Small n B e) {x y : List ℤ} (hx : PMSeq n x)
    (hy : PMSeq n y) {tags : Tag × Tag} {pos : Bool} (hp : crossSign tags = some pos) :
    ∃ g : ℕ → K × K, computeCrossPsdPair A (dftSequence A x) (dftSequence A y) tags n =
        some ((List.range' 1 (n / 2)).map g) ∧
      ∀ k ≤ n / 2, Near val ok (g k).2 (crossIm n pos x y k) (22 * U n e) ∧
        |crossIm n pos x y k| ≤ 6 * ((n : ℝ) + 1) ^ 2 := by
  have hU := U_le hs
  have hU0 := U_nonneg hs
  have hsq := hs.sq
  have hcu := hs.cube
  unfold computeCrossPsdPair
  rw [hp]
  refine ⟨_, rfl, fun k hk => ?_⟩
  obtain ⟨z, w, hz, hw, n1, n2⟩ := cross_near h hs hx hy hk
  obtain ⟨w', z', hw', hz', n3, n4⟩ := cross_near h hs hy hx hk
  obtain rfl : z = z' := Option.some.inj (hz.symm.trans hz')
  obtain rfl : w = w' := Option.some.inj (hw.symm.trans hw')
  have e1 : (computeCrossPsd A (dftSequence A x) (dftSequence A y)).getD k (A.ofInt 0, A.ofInt 0) =
      A.cmul z (A.conj w) := by
    unfold computeCrossPsd
    rw [List.getD_eq_getElem?_getD, List.getElem?_zipWith, hz, hw]; rfl
  have e2 : (computeCrossPsd A (dftSequence A y) (dftSequence A x)).getD k (A.ofInt 0, A.ofInt 0) =
      A.cmul w (A.conj z) := by
    unfold computeCrossPsd
    rw [List.getD_eq_getElem?_getD, List.getElem?_zipWith, hz, hw]; rfl
  have c1 := cross_abs (n := n) hx hy k
  have c2 := cross_abs (n := n) hy hx k
  have hd : ∀ {a b : ℝ}, |a| ≤ ((n : ℝ) + 1) ^ 2 → |b| ≤ ((n : ℝ) + 1) ^ 2 → |a - b| ≤ 2 * ((n : ℝ) + 1) ^ 2 :=
    fun ha hb => (abs_sub _ _).trans (by linarith)
  have hmono : 7 * U n e + 7 * U n e + e * (2 * ((n : ℝ) + 1) ^ 2 + 7 * U n e + 7 * U n e + 1) ≤ 22 * U n e := by
    have : e * (2 * ((n : ℝ) + 1) ^ 2 + 7 * U n e + 7 * U n e + 1) ≤ e * (3 * ((n : ℝ) + 1) ^ 2) :=
      mul_le_mul_of_nonneg_left (by linarith) hs.pos
    have e2 : e * (3 * ((n : ℝ) + 1) ^ 2) = 3 * U n e := by unfold U; ring
    linarith
  rw [crossIm_eq]
  simp only [e1, e2]
  cases pos
  · simp only [Bool.false_eq_true, if_false]
    refine ⟨(sub_near h hs.pos n4 n2 (by linarith) (by linarith) (hd c2 c1)).mono hmono, ?_⟩
    have := hd c2 c1
    linarith
  · simp only [if_true]
    refine ⟨(sub_near h hs.pos n2 n4 (by linarith) (by linarith) (hd c1 c2)).mono hmono, ?_⟩
    have := hd c1 c2
    linarith

theorem any_congr' {α : Type} {l : List α} {p q : α → Bool} (h : ∀ a ∈ l, p a = q a) : l.any p = l.any q := by
  induction l with
  | nil => rfl
  | cons a l ih => rw [List.any_cons, List.any_cons, h a (by simp), ih fun b hb => h b (by simp [hb])]

/-- With a small enough error the keys from power spectra are the exact ones. -/
theorem psd_keys (h : FloatModel A val ok n B e) (hs : Small n B e)
    (hg : ∀ x y, PMSeq n x → PMSeq n y → ∀ k ≤ n / 2, HasGap n (23 * U n e) x y k) : PsdKeys A n := by
  intro x y hx hy tags pos hp ty hty side i j b d hd
  have hU0 := U_nonneg hs
  have hg' : ∀ k ≤ n / 2, HasGap n (22 * U n e) x y k := fun k hk => (hg x y hx hy k hk).mono (by linarith)
  rw [Matching.pairData_some hd]
  unfold pairKey
  dsimp only
  rw [psdPair_keys h hs hx hy hg', hx.1]
  obtain ⟨g, hc, hn⟩ := crossPsdPair_near h hs hx hy hp
  rw [hc]
  have h1 : ((List.range' 1 (n / 2)).map g).map (fun z => side.op (A.round z.2)) =
      (List.range' 1 (n / 2)).map fun k => side.op (roundAway (crossIm n pos x y k)) := by
    rw [List.map_map]
    refine List.map_congr_left fun k hk => ?_
    have hk' : k ≤ n / 2 := by have := List.mem_range'_1.1 hk; omega
    simp only [Function.comp]
    rw [round_near h hs (hn k hk').1 ((hg' k hk').cross pos) (hn k hk').2]
  have h2 : (((List.range' 1 (n / 2)).map g).any fun z => A.gt (A.abs z.2) (A.lit 1 10000)) =
      (List.range' 1 (n / 2)).any fun k => decide (|crossIm n pos x y k| > 1 / 10000) := by
    rw [List.any_map]
    refine any_congr' fun k hk => ?_
    have hk' : k ≤ n / 2 := by have := List.mem_range'_1.1 hk; omega
    simp only [Function.comp]
    obtain ⟨⟨o1, v1⟩, -⟩ := hn k hk'
    obtain ⟨o2, v2⟩ := h.abs _ o1
    obtain ⟨o3, v3⟩ := h.lit 1 10000 (by norm_num) (by norm_num)
    have v3 : |val (A.lit 1 10000) - 1 / 10000| ≤ e := by simpa using v3
    rw [Bool.eq_iff_iff, h.gt _ _ o2 o3, v2, decide_eq_true_iff]
    have hd : abs (|val (g k).2| - |crossIm n pos x y k|) ≤ 22 * U n e := (abs_abs_sub_abs_le _ _).trans v1
    have he : e ≤ U n e := by
      unfold U
      nlinarith [hs.sq, hs.pos]
    obtain ⟨a1, a2⟩ := abs_le.1 hd
    obtain ⟨a3, a4⟩ := abs_le.1 v3
    rcases (hg x y hx hy k hk').tol pos with ht | ht
    · constructor <;> intro hh <;> linarith
    · constructor <;> intro hh <;> linarith
  rcases hty with rfl | rfl | rfl
  · simp only [Option.bind_some, h1, psdKey]
  · simp only [Option.bind_some, h2, psdKey]
    split <;> rfl
  · rfl

end

end Proofs.Gap
