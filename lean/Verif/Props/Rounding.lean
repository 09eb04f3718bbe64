import Verif.Proofs.Perturbed
import Verif.Props.Psd

/-!
# Properties C74-C76: rounding errors in the matching stage
-/

set_option linter.unusedVariables false

namespace Props
open Model Spec Proofs

/-- C74. In every arithmetic that follows the error model with `e (n + 1)² ≤ 1/1000`, the inverse transforms come out
within one half of the exact ones and are rounded to the right integers. -/
theorem C74_accurate {K : Type} (A : Fl K) (val : K → ℝ) (ok : K → Prop) (n : ℕ) [NeZero n] (B e : ℝ) (he : 0 ≤ e)
    (hs : e * ((n : ℝ) + 1) ^ 2 ≤ 1 / 1000) (hB : 16 * ((n : ℝ) + 1) ^ 3 ≤ B) (h : FloatModel A val ok n B e) :
    Accurate A val n :=
  Rounding.accurate h ⟨he, hs, hB⟩

/-- C74. So the computed correlations are the integer correlations. -/
theorem C74_correlations {K : Type} (A : Fl K) (val : K → ℝ) (ok : K → Prop) (n : ℕ) [NeZero n] (B e : ℝ) (he : 0 ≤ e)
    (hs : e * ((n : ℝ) + 1) ^ 2 ≤ 1 / 1000) (hB : 16 * ((n : ℝ) + 1) ^ 3 ≤ B) (h : FloatModel A val ok n B e)
    (x y : List ℤ) (hx : PMSeq n x) (hy : PMSeq n y) (tags : Tag × Tag) :
    computeAutoCorrelationPairDft A ((dftSequence A x).map A.normSqr) n ((dftSequence A y).map A.normSqr) n =
        computeAutoCorrelationPair x y ∧
      computeCrossCorrelationsDft A (dftSequence A x) (dftSequence A y) tags n = computeCrossCorrelations x y tags :=
  have hA := C74_accurate A val ok n B e he hs hB h
  ⟨C28_auto_pair A val n hA x y hx hy, C28_cross A val n hA x y hx hy tags⟩

/-- The error model is satisfiable, also by an arithmetic with errors: length 20, error `10⁻⁶`. -/
example : FloatModel (perturbedFl (1 / 1000000)) id (fun _ => True) 20 (16 * ((20 : ℕ) + 1) ^ 3) (1 / 1000000) ∧
    (1 / 1000000 : ℝ) * (((20 : ℕ) : ℝ) + 1) ^ 2 ≤ 1 / 1000 :=
  ⟨Perturbed.perturbed_model (by norm_num) le_rfl, by norm_num⟩

/-- C75. The values from which power-spectrum keys are formed are never halfway between two integers, and never equal to
the tolerance of the Williamson-type test: rounding is always well away from a decision at infinite precision. -/
theorem C75_never_half (n : ℕ) [NeZero n] (x y : List ℤ) (k : ℕ) (z : ℤ) :
    psd n x k + psd n y k ≠ z + 1 / 2 ∧ 4 * n - (psd n x k + psd n y k) ≠ z + 1 / 2 ∧
      2 * (dft n x k * (starRingEnd ℂ) (dft n y k)).im ≠ z + 1 / 2 ∧
      |2 * (dft n x k * (starRingEnd ℂ) (dft n y k)).im| ≠ 1 / 10000 := by
  have hc : 2 * (dft n x k * (starRingEnd ℂ) (dft n y k)).im = Psd.crossIm n true x y k := by
    unfold Psd.crossIm
    simp
    ring
  have hs : IsIntegral ℤ (((psd n x k + psd n y k : ℝ)) : ℂ) := by
    push_cast; exact (Gap.psd_integral x k).add (Gap.psd_integral y k)
  refine ⟨Gap.not_half hs z, fun h => Gap.not_half hs (4 * n - z - 1) ?_, ?_, ?_⟩
  · push_cast; linarith
  · rw [hc]; exact Gap.not_half (Gap.crossIm_integral true x y k) z
  · rw [hc]; exact Gap.not_tol (Gap.crossIm_integral true x y k)

/-- The bound on the error below which rounding decides nothing. -/
theorem threshold (n : ℕ) [NeZero n] : ∃ e0 > 0, ∀ {K : Type} (A : Fl K) (val : K → ℝ) (ok : K → Prop) (B e : ℝ),
    0 ≤ e → e ≤ e0 → 16 * ((n : ℝ) + 1) ^ 3 ≤ B → FloatModel A val ok n B e →
      Rounding.Small n B e ∧ ∀ x y, PMSeq n x → PMSeq n y → ∀ k ≤ n / 2, Gap.HasGap n (23 * Rounding.U n e) x y k := by
  obtain ⟨δ, hδ, hg⟩ := Gap.gap_all n
  have hN : (0 : ℝ) < ((n : ℝ) + 1) ^ 2 := by positivity
  refine ⟨min (δ / 23) (1 / 1000) / ((n : ℝ) + 1) ^ 2, by positivity, ?_⟩
  intro K A val ok B e h0 he hB h
  rw [le_div_iff₀ hN] at he
  have h1 := he.trans (min_le_left _ _)
  have h2 := he.trans (min_le_right _ _)
  refine ⟨⟨h0, h2, hB⟩, fun x y hx hy k hk => (hg x y hx hy k hk).mono ?_⟩
  unfold Rounding.U
  linarith

/-- C75. For every length there is a precision from which on every arithmetic computes exactly the power-spectrum keys of
exact arithmetic, for every pair of ±1 sequences, type, side and pairing. -/
theorem C75_keys (n : ℕ) [NeZero n] : ∃ e0 > 0, ∀ {K : Type} (A : Fl K) (val : K → ℝ) (ok : K → Prop) (B e : ℝ),
    0 ≤ e → e ≤ e0 → 16 * ((n : ℝ) + 1) ^ 3 ≤ B → FloatModel A val ok n B e →
    ∀ x y, PMSeq n x → PMSeq n y → ∀ ty, Supported ty → ∀ side tags, (crossSign tags).isSome → ∀ i j b d b' d',
      pairData A b (x, i) (y, j) = some d → pairData exactFl b' (x, i) (y, j) = some d' →
        pairKey A ty side .psd tags n d = pairKey exactFl ty side .psd tags n d' := by
  obtain ⟨e0, h0, ht⟩ := threshold n
  refine ⟨e0, h0, ?_⟩
  intro K A val ok B e p1 p2 hB h x y hx hy ty hty side tags hsome i j b d b' d' hd hd'
  obtain ⟨pos, hp⟩ := Option.isSome_iff_exists.1 hsome
  obtain ⟨hs, hg⟩ := ht A val ok B e p1 p2 hB h
  rw [Gap.psd_keys h hs hg hx hy hp hty hd, Psd.pairKey_psd hx hy hp hty hd']

/-- C76. The filter of the pair stage with rounding errors: outside a margin of `20 e (n + 1)²` around the bound it
decides as exact arithmetic does. -/
theorem C76_margin_partial {K : Type} (A : Fl K) (val : K → ℝ) (ok : K → Prop) (n : ℕ) [NeZero n] (B e : ℝ) (he : 0 ≤ e)
    (hs : e * ((n : ℝ) + 1) ^ 2 ≤ 1 / 1000) (hB : 16 * ((n : ℝ) + 1) ^ 3 ≤ B) (h : FloatModel A val ok n B e)
    (x y : List ℤ) (hx : PMSeq n x) (hy : PMSeq n y) :
    ((∀ k, 1 ≤ k → k ≤ n / 2 → psd n x k + psd n y k + 20 * (e * ((n : ℝ) + 1) ^ 2) ≤ 4 * n) →
      boundExceeded A ((dftSequence A x).map A.normSqr) ((dftSequence A y).map A.normSqr)
        (A.mul (A.lit 4 1) (A.ofInt n)) = false) ∧
    ((∃ k, 1 ≤ k ∧ k ≤ n / 2 ∧ 4 * n + 20 * (e * ((n : ℝ) + 1) ^ 2) < psd n x k + psd n y k) →
      boundExceeded A ((dftSequence A x).map A.normSqr) ((dftSequence A y).map A.normSqr)
        (A.mul (A.lit 4 1) (A.ofInt n)) = true) :=
  ⟨fun hk => Gap.filter_keep h ⟨he, hs, hB⟩ hx hy hk,
    fun ⟨_, h1, h2, hk⟩ => Gap.filter_drop h ⟨he, hs, hB⟩ hx hy h1 h2 hk⟩

/-- C76 is false for the code, whatever the precision: the comparison has no tolerance, and for every positive error `e`
there is an arithmetic within that error in which a pair of a complementary quadruple is discarded (length 2, the power
spectra of the pair add up to exactly `4 n`). -/
theorem C76_fails (e : ℝ) (he : 0 < e) (B : ℝ) :
    ∃ A : Fl ℝ, FloatModel A id (fun _ => True) 2 B e ∧ ¬ FilterSafe A 2 ∧
      filteredCouplesPsds A [[1, -1]] [[1, -1]] (A.mul (A.lit 4 1) (A.ofInt (2 : ℕ))) = [] ∧
      IsQTS 2 ⟨2, [1, -1], [1, -1], [1, 1], [1, 1]⟩ ∧ IsWS 2 ⟨2, [1, -1], [1, -1], [1, 1], [1, 1]⟩ := by
  have hpm : PMQuad 2 ⟨2, [1, -1], [1, -1], [1, 1], [1, 1]⟩ :=
    ⟨rfl, by decide, by decide, by decide, by decide⟩
  have hq : IsQTS 2 ⟨2, [1, -1], [1, -1], [1, 1], [1, 1]⟩ := (C08_verify_qts 2 _ hpm).1 (by decide)
  have hw : IsWS 2 ⟨2, [1, -1], [1, -1], [1, 1], [1, 1]⟩ := (C08_verify_ws 2 _ hpm).1 (by decide)
  have hr := Perturbed.perturbed_rejects he
  refine ⟨perturbedFl e, Perturbed.perturbed_model he.le le_rfl, fun hF => ?_, ?_, hq, hw⟩
  · have := hF _ hpm hq.2.1 .W .X (by decide)
    exact absurd (hr.symm.trans this) (by decide)
  · unfold filteredCouplesPsds pairData
    simp only [List.zipIdx_cons, List.zipIdx_nil, List.flatMap_cons, List.flatMap_nil, List.filterMap_cons,
      List.filterMap_nil, hr, if_true, List.append_nil]

/-- C76, what does hold: from some precision on, the filter decides exactly as in exact arithmetic for every pair whose
spectra do not add up to exactly `4 n` at some frequency other than 0. Missing: the remaining pairs, see `C76_fails`. -/
theorem C76_gap_partial (n : ℕ) [NeZero n] : ∃ e0 > 0, ∀ {K : Type} (A : Fl K) (val : K → ℝ) (ok : K → Prop) (B e : ℝ),
    0 ≤ e → e ≤ e0 → 16 * ((n : ℝ) + 1) ^ 3 ≤ B → FloatModel A val ok n B e →
    ∀ x y, PMSeq n x → PMSeq n y → (∀ k, 1 ≤ k → k ≤ n / 2 → psd n x k + psd n y k ≠ 4 * n) →
      (boundExceeded A ((dftSequence A x).map A.normSqr) ((dftSequence A y).map A.normSqr)
        (A.mul (A.lit 4 1) (A.ofInt n)) = true ↔ ∃ k, 1 ≤ k ∧ k ≤ n / 2 ∧ 4 * n < psd n x k + psd n y k) := by
  obtain ⟨e0, h0, ht⟩ := threshold n
  refine ⟨e0, h0, ?_⟩
  intro K A val ok B e p1 p2 hB h x y hx hy hne
  obtain ⟨hs, hg⟩ := ht A val ok B e p1 p2 hB h
  have hU := Rounding.U_nonneg hs
  constructor
  · intro hb
    by_contra hno
    push Not at hno
    have := Gap.filter_keep h hs hx hy fun k k1 k2 => by
      rcases (hg x y hx hy k k2).bound with h1 | h1 | h1
      · exact absurd h1 (hne k k1 k2)
      · linarith
      · have := hno k k1 k2
        linarith
    rw [this] at hb
    cases hb
  · rintro ⟨k, k1, k2, hk⟩
    refine Gap.filter_drop h hs hx hy k1 k2 ?_
    rcases (hg x y hx hy k k2).bound with h1 | h1 | h1 <;> linarith

/-- C76, what does hold: at odd prime lengths no spectrum of a pair of a complementary quadruple touches the bound, so
from some precision on no such pair is discarded. -/
theorem C76_prime_partial (n : ℕ) [NeZero n] (hp : n.Prime) (hodd : n ≠ 2) :
    ∃ e0 > 0, ∀ {K : Type} (A : Fl K) (val : K → ℝ) (ok : K → Prop) (B e : ℝ),
      0 ≤ e → e ≤ e0 → 16 * ((n : ℝ) + 1) ^ 3 ≤ B → FloatModel A val ok n B e → FilterSafe A n := by
  obtain ⟨e0, h0, ht⟩ := threshold n
  have h3 : 3 ≤ n := by have := hp.two_le; omega
  refine ⟨e0, h0, ?_⟩
  intro K A val ok B e p1 p2 hB h
  obtain ⟨hs, hg⟩ := ht A val ok B e p1 p2 hB h
  have hU := Rounding.U_nonneg hs
  intro s hpm hc t1 t2 hne
  have hx := Fourier.pm_seq hpm t1
  have hy := Fourier.pm_seq hpm t2
  refine Gap.filter_keep h hs hx hy fun k k1 k2 => ?_
  have hlt := Prime.pair_lt hp h3 hpm hc hne (k := k) k1 (by omega)
  rcases (hg _ _ hx hy k k2).bound with h1 | h1 | h1 <;> linarith

/-- C74, C75. From some precision on the keys of both matching options are good enough for the enumeration, given that
the filter discards no pair of a complementary quadruple. -/
theorem C75_numerics (n : ℕ) [NeZero n] : ∃ e0 > 0, ∀ {K : Type} (A : Fl K) (val : K → ℝ) (ok : K → Prop) (B e : ℝ),
    0 ≤ e → e ≤ e0 → 16 * ((n : ℝ) + 1) ^ 3 ≤ B → FloatModel A val ok n B e → FilterSafe A n →
    ∀ mo, Numerics A val n mo := by
  obtain ⟨e0, h0, hk⟩ := C75_keys n
  obtain ⟨e1, h1, ht⟩ := threshold n
  refine ⟨min e0 e1, lt_min h0 h1, fun {K} A val ok B e p1 p2 hB h hF mo => ⟨hF, fun _ => ?_, fun _ => ?_⟩⟩
  · exact Rounding.accurate h (ht A val ok B e p1 (p2.trans (min_le_right _ _)) hB h).1
  · exact Rigid.keys_good (Rigid.spectrum_iff.1 (hk A val ok B e p1 (p2.trans (min_le_left _ _)) hB h))

/-- C76. So at odd prime lengths every arithmetic that is precise enough is good enough for the enumeration. -/
theorem C76_prime_numerics_partial (n : ℕ) [NeZero n] (hp : n.Prime) (hodd : n ≠ 2) :
    ∃ e0 > 0, ∀ {K : Type} (A : Fl K) (val : K → ℝ) (ok : K → Prop) (B e : ℝ),
      0 ≤ e → e ≤ e0 → 16 * ((n : ℝ) + 1) ^ 3 ≤ B → FloatModel A val ok n B e → ∀ mo, Numerics A val n mo := by
  obtain ⟨e0, h0, hk⟩ := C75_numerics n
  obtain ⟨e1, h1, hF⟩ := C76_prime_partial n hp hodd
  exact ⟨min e0 e1, lt_min h0 h1, fun {K} A val ok B e p1 p2 hB h mo =>
    hk A val ok B e p1 (p2.trans (min_le_left _ _)) hB h (hF A val ok B e p1 (p2.trans (min_le_right _ _)) hB h) mo⟩

/-- C76. So at odd prime lengths up to 31 the whole enumeration is independent of rounding: from some precision on, with
either way of matching, every arithmetic gives exactly the least member of every class of QT and of Williamson-type
sequences. -/
theorem C76_prime_enumeration_partial (n : ℕ) [NeZero n] (hp : n.Prime) (hodd : n ≠ 2) (hn : n ≤ 31) :
    ∃ e0 > 0, ∀ {K : Type} (A : Fl K) (val : K → ℝ) (ok : K → Prop) (B e : ℝ),
      0 ≤ e → e ≤ e0 → 16 * ((n : ℝ) + 1) ^ 3 ≤ B → FloatModel A val ok n B e →
      ∀ (ty : SeqType), ty = .quaternionType ∨ ty = .williamsonType → (∃ q, OfType n ty q) →
      ∀ (mo : MatchOption) (pr : Option Pairing),
        ∃ w, writePairs A n ty mo pr = some w ∧ ∀ dirs, Listing w dirs →
          ∃ r, joinPairs ty dirs = some r ∧ r.Nodup ∧ ∀ x, x ∈ r ↔ LeastInClass n ty x := by
  obtain ⟨e0, h0, hN⟩ := C76_prime_numerics_partial n hp hodd
  refine ⟨e0, h0, fun {K} A val ok B e p1 p2 hB h ty hty hex mo pr => ?_⟩
  obtain ⟨w, hw, _, h3⟩ := C32_enumeration A val n hn (hN A val ok B e p1 p2 hB h mo) ty hty pr
  refine ⟨w, hw, fun dirs hd => ?_⟩
  obtain ⟨r, a, b, c, _⟩ := h3 dirs hd hex
  exact ⟨r, a, b, c⟩

/-- Length 5: there are QT sequences, and for every error there is an arithmetic with that error. -/
example : Nat.Prime 5 ∧ (∃ q, IsQTS 5 q) ∧
    ∀ e > 0, FloatModel (perturbedFl e) id (fun _ => True) 5 (16 * ((5 : ℕ) + 1) ^ 3) e :=
  ⟨by decide, ⟨exQTS5, exQTS5_isQTS⟩, fun e he => Perturbed.perturbed_model he.le le_rfl⟩

end Props
