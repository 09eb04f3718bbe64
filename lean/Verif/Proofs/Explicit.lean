import Verif.Proofs.Norm
import Verif.Proofs.Prime

/-!
# Helper lemmas: how far spectra keep away from the places where rounding decides
-/

set_option linter.unusedSectionVars false
set_option linter.unusedVariables false
set_option linter.unusedSimpArgs false

namespace Proofs.Explicit
open Model Spec Proofs Proofs.Fourier Proofs.Rounding Proofs.Psd Proofs.Gap Proofs.Rigid Proofs.Keys Proofs.Matching
  Proofs.Complete Proofs.Pipeline Complex

variable {n : ℕ} [NeZero n]

theorem ψ_sign (h : n ≤ 2) (a : ZMod n) : ∃ z : ℤ, (ψ a : ℂ) = z := by
  have hp : (ψ a : ℂ) ^ n = 1 := by
    rw [← AddChar.map_nsmul_eq_pow]
    simp
  have h0 := npos (n := n)
  interval_cases n
  · exact ⟨1, by simpa using hp⟩
  · rcases eq_or_eq_neg_of_sq_eq_sq (ψ a) 1 (by rw [hp, one_pow]) with h | h
    · exact ⟨1, by simpa using h⟩
    · exact ⟨-1, by simpa using h⟩

/-- A transform of integers that is not zero, and bounded with its conjugates by `B`, is not small. -/
theorem lower_one (g : ZMod n → ℤ) (k : ZMod n) (hne : D g k ≠ 0) (B : ℝ) (h1 : 1 ≤ B)
    (hB : ∀ i : ℕ, ‖D g ((i : ZMod n) * k)‖ ≤ B) : 1 ≤ ‖D g k‖ * B ^ (n.totient / 2 - 1) := by
  have hB0 : 0 ≤ B ^ (n.totient / 2 - 1) := by positivity
  rcases Nat.lt_or_ge 2 n with h | h
  · have hl := Norm.lower (by omega) g k hne B fun i _ => hB i
    have he := Nat.totient_even h
    have : n.totient - 2 = (n.totient / 2 - 1) * 2 := by
      obtain ⟨m, hm⟩ := he
      omega
    rw [this, pow_mul, ← mul_pow] at hl
    by_contra hc
    push Not at hc
    have := pow_lt_one₀ (mul_nonneg (norm_nonneg _) hB0) hc (two_ne_zero)
    linarith
  · have hz : ∃ z : ℤ, D g k = z := by
      choose f hf using ψ_sign (n := n) h
      refine ⟨∑ s, g s * f (-(s * k)), ?_⟩
      unfold D
      push_cast
      exact Finset.sum_congr rfl fun s _ => by rw [hf]
    obtain ⟨z, hz⟩ := hz
    have h2 : 1 ≤ ‖D g k‖ := by
      rw [hz, Complex.norm_intCast]
      have : z ≠ 0 := by rintro rfl; exact hne (by rw [hz]; simp)
      exact_mod_cast Int.one_le_abs this
    have h3 : 1 ≤ B ^ (n.totient / 2 - 1) := one_le_pow₀ h1
    nlinarith

theorem D_smul (c : ℤ) (f : ZMod n → ℤ) (k : ZMod n) : D (fun t => c * f t) k = c * D f k := by
  unfold D
  rw [Finset.mul_sum]
  refine Finset.sum_congr rfl fun t _ => ?_
  push_cast; ring

/-- The bound on the product of the conjugates. -/
noncomputable def R (n : ℕ) : ℝ := (8 * n + 1) ^ (n.totient / 2 - 1)

theorem R_one : 1 ≤ R n := one_le_pow₀ (by have : (0 : ℝ) ≤ n := by positivity
                                           linarith)

/-- The values for pairs of complementary quadruples. -/
theorem value_range {q : QuadSeq} (hq : PMQuad n q) (hc : Complementary (cyc n q.a) (cyc n q.b) (cyc n q.c) (cyc n q.d))
    {t1 t2 : Tag} (hne : t1 ≠ t2) (side : Side) (k : ℕ) :
    0 ≤ keyValue n side (q.sequence t1) (q.sequence t2) k ∧ keyValue n side (q.sequence t1) (q.sequence t2) k ≤ 4 * n := by
  have h := psd_sum hq.a hq.b hq.c hq.d hc k
  have a := psd_nonneg (n := n) q.a k
  have b := psd_nonneg (n := n) q.b k
  have c := psd_nonneg (n := n) q.c k
  have d := psd_nonneg (n := n) q.d k
  unfold keyValue
  cases side <;> cases t1 <;> cases t2 <;> first | exact absurd rfl hne | skip
  all_goals simp only [QuadSeq.sequence]; constructor <;> linarith

theorem value_integral (side : Side) (x y : List ℤ) (k : ℕ) : IsIntegral ℤ ((keyValue n side x y k : ℝ) : ℂ) := by
  have hs : IsIntegral ℤ (((psd n x k + psd n y k : ℝ)) : ℂ) := by
    push_cast; exact (psd_integral x k).add (psd_integral y k)
  cases side
  · exact hs
  · have : IsIntegral ℤ ((4 * n : ℤ) : ℂ) := isIntegral_algebraMap (R := ℤ) (A := ℂ) (x := 4 * n)
    have := this.sub hs
    unfold keyValue
    push_cast at this ⊢
    exact this

/-- The distance from half-integers. -/
theorem half_gap {q : QuadSeq} (hq : PMQuad n q) (hc : Complementary (cyc n q.a) (cyc n q.b) (cyc n q.c) (cyc n q.d))
    {t1 t2 : Tag} (hne : t1 ≠ t2) (side : Side) (k : ℕ) (z : ℤ) :
    1 ≤ 2 * |keyValue n side (q.sequence t1) (q.sequence t2) k - (z + 1 / 2)| * R n := by
  set v := fun i : ℕ => keyValue n side (q.sequence t1) (q.sequence t2) i with hv
  have hr : ∀ i, 0 ≤ v i ∧ v i ≤ 4 * n := fun i => value_range hq hc hne side i
  have hR := R_one (n := n)
  have hn0 : (0 : ℝ) ≤ n := by positivity
  have hab : 2 * |v k - (z + 1 / 2)| = |2 * v k - (2 * z + 1)| := by
    rw [show 2 * v k - (2 * z + 1) = 2 * (v k - (z + 1 / 2)) by ring, abs_mul, abs_two]
  change 1 ≤ 2 * |v k - (z + 1 / 2)| * R n
  rw [hab]
  by_cases hlo : z < 0
  · have : (z : ℝ) ≤ -1 := by exact_mod_cast (show z ≤ -1 by omega)
    have : 1 ≤ |2 * v k - (2 * z + 1)| := by
      rw [abs_of_nonneg (by linarith [(hr k).1])]; linarith [(hr k).1]
    nlinarith
  by_cases hhi : 4 * (n : ℤ) ≤ z
  · have : (4 * n : ℝ) ≤ z := by exact_mod_cast hhi
    have : 1 ≤ |2 * v k - (2 * z + 1)| := by
      rw [abs_of_nonpos (by linarith [(hr k).2])]; linarith [(hr k).2]
    nlinarith
  have z0 : (0 : ℝ) ≤ z := by exact_mod_cast (show 0 ≤ z by omega)
  have z1 : (z : ℝ) + 1 ≤ 4 * n := by exact_mod_cast (show z + 1 ≤ 4 * n by omega)
  let g : ZMod n → ℤ := fun t =>
    2 * corr side (cyc n (q.sequence t1)) (cyc n (q.sequence t2)) t - (if t = 0 then 2 * z + 1 else 0)
  have hg : ∀ i : ℕ, D g (i : ZMod n) = ((2 * v i - (2 * z + 1) : ℝ) : ℂ) := by
    intro i
    have e1 := D_sub (n := n) (fun t => 2 * corr side (cyc n (q.sequence t1)) (cyc n (q.sequence t2)) t)
      (fun t => if t = 0 then 2 * z + 1 else 0) (i : ZMod n)
    rw [D_smul, D_point, ← value_transform] at e1
    refine e1.trans ?_
    push_cast
    rfl
  have hl := lower_one g (k : ZMod n) (fun h0 => ?_) (8 * n + 1) (by linarith) fun i => ?_
  · rw [hg, Complex.norm_real, Real.norm_eq_abs] at hl
    exact hl
  · rw [hg, Complex.ofReal_eq_zero] at h0
    exact not_half (value_integral side (q.sequence t1) (q.sequence t2) k) z (by
      change v k = _
      linarith)
  · rw [← Nat.cast_mul, hg, Complex.norm_real, Real.norm_eq_abs, abs_le]
    constructor <;> linarith [(hr (i * k)).1, (hr (i * k)).2]

/-- The distance from zero. -/
theorem zero_gap {q : QuadSeq} (hq : PMQuad n q) (hc : Complementary (cyc n q.a) (cyc n q.b) (cyc n q.c) (cyc n q.d))
    {t1 t2 : Tag} (hne : t1 ≠ t2) (side : Side) (k : ℕ) (h0 : keyValue n side (q.sequence t1) (q.sequence t2) k ≠ 0) :
    1 ≤ keyValue n side (q.sequence t1) (q.sequence t2) k * R n := by
  have hn0 : (0 : ℝ) ≤ n := by positivity
  have hl := lower_one (corr side (cyc n (q.sequence t1)) (cyc n (q.sequence t2))) (k : ZMod n) (fun h => h0 ?_)
    (8 * n + 1) (by linarith) fun i => ?_
  · rw [← value_transform, Complex.norm_real, Real.norm_eq_abs, abs_of_nonneg (value_range hq hc hne side k).1] at hl
    exact hl
  · rw [← value_transform, Complex.ofReal_eq_zero] at h
    exact h
  · rw [← Nat.cast_mul, ← value_transform, Complex.norm_real, Real.norm_eq_abs,
      abs_of_nonneg (value_range hq hc hne side _).1]
    linarith [(value_range hq hc hne side (i * k)).2]

section
variable {K : Type} {A : Fl K} {val : K → ℝ} {ok : K → Prop} {B e : ℝ}

theorem small_of (h : PreciseEnough n B e) : Small n B e := by
  refine ⟨h.nonneg, ?_, h.range⟩
  have h1 := n_one (n := n)
  have h2 := h.small
  have : 0 ≤ e * ((n : ℝ) + 1) ^ 2 := mul_nonneg h.nonneg (by positivity)
  nlinarith

theorem U_small (h : PreciseEnough n B e) : 1000000 * n * U n e ≤ 1 := h.small

theorem U_tiny (h : PreciseEnough n B e) : 1000000 * U n e ≤ 1 := by
  have h1 := n_one (n := n)
  have h2 := U_small h
  have := U_nonneg (small_of h)
  nlinarith

theorem U_gap (h : PreciseEnough n B e) : 50 * U n e * R n ≤ 1 := h.gap

theorem round_gap (h : PreciseEnough n B e) {v : ℝ} (hv : ∀ z : ℤ, 1 ≤ 2 * |v - (z + 1 / 2)| * R n) :
    |v - roundAway v| + 22 * U n e < 1 / 2 := by
  have hR := R_one (n := n)
  have hU := U_nonneg (small_of h)
  have hg := U_gap h
  have key : ∀ z : ℤ, 22 * U n e < |v - (z + 1 / 2)| := by
    intro z
    have := hv z
    by_contra hc
    push Not at hc
    have : 2 * |v - (z + 1 / 2)| * R n ≤ 2 * (22 * U n e) * R n :=
      mul_le_mul_of_nonneg_right (by linarith) (by linarith)
    have : 2 * (22 * U n e) * R n ≤ 44 / 50 := by linarith
    linarith
  have hd := round_dist v
  have k1 := key (roundAway v)
  have k2 := key (roundAway v - 1)
  push_cast at k2
  rw [abs_le] at hd
  rw [abs_of_nonpos (by linarith)] at k1
  rw [abs_of_nonneg (by linarith)] at k2
  have : |v - roundAway v| < 1 / 2 - 22 * U n e := by
    rw [abs_lt]; constructor <;> linarith
  linarith

/-- The filter keeps every pair of a complementary quadruple that does not touch the bound. -/
theorem keeps (h : FloatModel A val ok n B e) (hp : PreciseEnough n B e) {q : QuadSeq} (hq : PMQuad n q)
    (hc : Complementary (cyc n q.a) (cyc n q.b) (cyc n q.c) (cyc n q.d)) {t1 t2 : Tag} (hne : t1 ≠ t2)
    (hk : ∀ k, 1 ≤ k → k ≤ n / 2 → psd n (q.sequence t1) k + psd n (q.sequence t2) k ≠ 4 * n) :
    boundExceeded A ((dftSequence A (q.sequence t1)).map A.normSqr) ((dftSequence A (q.sequence t2)).map A.normSqr)
      (A.mul (A.lit 4 1) (A.ofInt n)) = false := by
  refine filter_keep h (small_of hp) (seq_pm hq _) (seq_pm hq _) fun k k1 k2 => ?_
  have hz := zero_gap hq hc hne .right k (fun h0 => hk k k1 k2 (by unfold keyValue at h0; dsimp only at h0; linarith))
  have hR := R_one (n := n)
  have hg := U_gap hp
  unfold keyValue at hz
  dsimp only at hz
  by_contra hcon
  push Not at hcon
  have : (4 * n - (psd n (q.sequence t1) k + psd n (q.sequence t2) k)) * R n ≤ 20 * U n e * R n :=
    mul_le_mul_of_nonneg_right (by linarith) (by linarith)
  have := mul_nonneg (U_nonneg (small_of hp)) (show 0 ≤ R n by linarith)
  linarith

theorem wts_am {q : QuadSeq} (hq : IsWTS n q) (t1 t2 : Tag) : Spec.Amicable (cyc n (q.sequence t1)) (cyc n (q.sequence t2)) := by
  have hm := wts_amicable hq t1 t2
  rwa [← cyc_seq, ← cyc_seq] at hm

/-- Keys with the explicit precision. -/
theorem keys (h : FloatModel A val ok n B e) (hp : PreciseEnough n B e) : SpectrumKeys A n := by
  have hs := small_of hp
  have hU0 := U_nonneg hs
  have hU := U_tiny hp
  have hUn := U_small hp
  have hn1 := n_one (n := n)
  have hn0 : (0 : ℝ) < n := by linarith
  constructor
  · intro q hq t1 t2 hne ty hty side tags hsome i j b d b' d' hd hd'
    obtain ⟨pos, hpos⟩ := Option.isSome_iff_exists.1 hsome
    have hx := seq_pm hq.1 t1
    have hy := seq_pm hq.1 t2
    rw [pairKey_psd hx hy hpos hty hd', psdKey_amicable (wts_am hq t1 t2)]
    rw [pairData_some hd]
    unfold pairKey
    dsimp only
    rw [psdPair_round h hs hx hy side fun k _ _ => round_gap hp (half_gap hq.1 hq.2.1 hne side k), hx.1]
    obtain ⟨g, hc, hnear⟩ := crossPsdPair_near h hs hx hy hpos
    rw [hc]
    have hz : ∀ k ≤ n / 2, Near val ok (g k).2 0 (22 * U n e) := by
      intro k hk
      have := (hnear k hk).1
      rwa [crossIm_amicable (wts_am hq t1 t2)] at this
    have h1 : ((List.range' 1 (n / 2)).map g).map (fun z => side.op (A.round z.2)) = List.replicate (n / 2) 0 := by
      rw [List.map_map]
      have : ∀ k ∈ List.range' 1 (n / 2), ((fun z => side.op (A.round z.2)) ∘ g) k = (fun _ => (0 : ℤ)) k := by
        intro k hk
        have hk' : k ≤ n / 2 := by have := List.mem_range'_1.1 hk; omega
        simp only [Function.comp]
        rw [round_near h hs (hz k hk') (by rw [roundAway_zero]; simp; linarith) (by simp; positivity), roundAway_zero]
        cases side <;> rfl
      rw [List.map_congr_left this]
      simp
    have h2 : (((List.range' 1 (n / 2)).map g).any fun z => A.gt (A.abs z.2) (A.lit 1 10000)) = false := by
      rw [List.any_map, List.any_eq_false]
      intro k hk
      have hk' : k ≤ n / 2 := by have := List.mem_range'_1.1 hk; omega
      simp only [Function.comp]
      obtain ⟨o1, v1⟩ := hz k hk'
      obtain ⟨o2, v2⟩ := h.abs _ o1
      obtain ⟨o3, v3⟩ := h.lit 1 10000 (by norm_num) (by norm_num)
      have v3 : |val (A.lit 1 10000) - 1 / 10000| ≤ e := by simpa using v3
      rw [h.gt _ _ o2 o3, v2, not_lt]
      have he : e ≤ U n e := by
        unfold U
        nlinarith [hs.sq, hs.pos]
      rw [sub_zero] at v1
      have := (abs_le.1 v3).1
      linarith
    rcases hty with rfl | rfl | rfl
    · simp only [Option.bind_some, h1]
    · simp only [Option.bind_some, h2]; rfl
    · rfl
  · intro x y hx hy ty hty side tags hsome i j b d hd
    obtain ⟨pos, hpos⟩ := Option.isSome_iff_exists.1 hsome
    obtain ⟨hl, hent⟩ := psdPair_near h hs hx hy side
    obtain ⟨g, hc, hnear⟩ := crossPsdPair_near h hs hx hy hpos
    have hval : ∀ k < n / 2, ∃ z, ((computePsdPair A ((dftSequence A x).map A.normSqr) ((dftSequence A y).map A.normSqr) n
        side).map A.round)[k]? = some z ∧ |keyValue n side x y (k + 1) - z| ≤ 1 / 2 + 1 / (2 * n) := by
      intro k hk
      obtain ⟨f, hf, hn, hb⟩ := hent k hk
      refine ⟨A.round f, by rw [List.getElem?_map, hf]; rfl, ?_⟩
      have hr := h.round f hn.1 (by
        have h2 := abs_sub_abs_le_abs_sub (val f) (keyValue n side x y (k + 1))
        have := hn.2
        have := hs.cube
        have := hs.sq
        linarith)
      have h1 := hn.2
      rw [abs_sub_comm] at h1
      have h3 := abs_sub_le (keyValue n side x y (k + 1)) (val f) (A.round f)
      have h4 : 22 * U n e ≤ 1 / (2 * n) := by
        rw [le_div_iff₀ (by linarith)]
        linarith
      linarith
    rw [pairData_some hd]
    unfold pairKey
    dsimp only
    rw [hx.1, hc]
    rcases hty with rfl | rfl | rfl
    · refine ⟨_, rfl, fun u hu => ?_⟩
      obtain rfl := Option.some.inj hu
      refine ⟨by simp [hl], fun k hk => ?_⟩
      obtain ⟨z, hz, hzd⟩ := hval k hk
      exact ⟨z, by rw [List.getElem?_append_left (by rw [List.length_map, hl]; exact hk), hz], hzd⟩
    · simp only [Option.bind_some]
      split
      · exact ⟨_, rfl, fun u hu => by cases hu⟩
      · refine ⟨_, rfl, fun u hu => ?_⟩
        obtain rfl := Option.some.inj hu
        exact ⟨by simp [hl], hval⟩
    · refine ⟨_, rfl, fun u hu => ?_⟩
      obtain rfl := Option.some.inj hu
      exact ⟨by simp [hl], hval⟩

end

end Proofs.Explicit
