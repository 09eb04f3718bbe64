import Verif.Proofs.Explicit
import Verif.Props.Driver

/-!
# Property C91: an explicit precision that suffices
-/

set_option linter.unusedVariables false

namespace Props
open Model Spec Proofs

/-- C91. How far the values that are rounded keep from the places where rounding decides: for two sequences of a
complementary quadruple, the sum of the power spectra is at least `1 / (2 (8 n + 1) ^ (φ(n) / 2 - 1))` away from every
half-integer, and equal to the bound `4 n` of the filter or at least twice that away from it. -/
theorem C91_gap (n : ℕ) [NeZero n] (s : QuadSeq) (hs : PMQuad n s)
    (hc : Complementary (cyc n s.a) (cyc n s.b) (cyc n s.c) (cyc n s.d)) (t1 t2 : Tag) (hne : t1 ≠ t2) (k : ℕ) :
    (∀ z : ℤ, 1 / (2 * (8 * n + 1 : ℝ) ^ (Nat.totient n / 2 - 1)) ≤
      |psd n (s.sequence t1) k + psd n (s.sequence t2) k - (z + 1 / 2)|) ∧
    (psd n (s.sequence t1) k + psd n (s.sequence t2) k = 4 * n ∨
      1 / (8 * n + 1 : ℝ) ^ (Nat.totient n / 2 - 1) ≤ 4 * n - (psd n (s.sequence t1) k + psd n (s.sequence t2) k)) := by
  have hR := Explicit.R_one (n := n)
  unfold Explicit.R at hR
  constructor
  · intro z
    have := Explicit.half_gap hs hc hne .left k z
    rw [div_le_iff₀ (by linarith)]
    unfold Explicit.R keyValue at this
    dsimp only at this
    linarith
  · by_cases h0 : psd n (s.sequence t1) k + psd n (s.sequence t2) k = 4 * n
    · exact .inl h0
    · right
      have := Explicit.zero_gap hs hc hne .right k (by unfold keyValue; dsimp only; intro h; exact h0 (by linarith))
      rw [div_le_iff₀ (by linarith)]
      exact this

/-- C91. With the explicit precision `PreciseEnough` the power-spectrum keys are good enough. -/
theorem C91_keys {K : Type} (A : Fl K) (val : K → ℝ) (ok : K → Prop) (n : ℕ) [NeZero n] (B e : ℝ)
    (hp : PreciseEnough n B e) (h : FloatModel A val ok n B e) : SpectrumKeys A n :=
  Explicit.keys h hp

/-- C91. With it the filter keeps every pair of a complementary quadruple whose spectra do not add up to exactly `4 n`. -/
theorem C91_filter {K : Type} (A : Fl K) (val : K → ℝ) (ok : K → Prop) (n : ℕ) [NeZero n] (B e : ℝ)
    (hp : PreciseEnough n B e) (h : FloatModel A val ok n B e) (s : QuadSeq) (hs : PMQuad n s)
    (hc : Complementary (cyc n s.a) (cyc n s.b) (cyc n s.c) (cyc n s.d)) (t1 t2 : Tag) (hne : t1 ≠ t2)
    (hk : ∀ k, 1 ≤ k → k ≤ n / 2 → psd n (s.sequence t1) k + psd n (s.sequence t2) k ≠ 4 * n) :
    boundExceeded A ((dftSequence A (s.sequence t1)).map A.normSqr) ((dftSequence A (s.sequence t2)).map A.normSqr)
      (A.mul (A.lit 4 1) (A.ofInt n)) = false :=
  Explicit.keeps h hp hs hc hne hk

/-- C91. With it the arithmetic is good enough for both matching options, if the filter discards no pair of a
complementary quadruple. -/
theorem C91_numerics {K : Type} (A : Fl K) (val : K → ℝ) (ok : K → Prop) (n : ℕ) [NeZero n] (B e : ℝ)
    (hp : PreciseEnough n B e) (h : FloatModel A val ok n B e) (hF : FilterSafe A n) (mo : MatchOption) :
    Numerics A val n mo :=
  ⟨hF, fun _ => Rounding.accurate h (Explicit.small_of hp), fun _ => C91_keys A val ok n B e hp h⟩

/-- C91. At odd prime lengths nothing more is needed. -/
theorem C91_prime {K : Type} (A : Fl K) (val : K → ℝ) (ok : K → Prop) (n : ℕ) [NeZero n] (hn : n.Prime) (hodd : n ≠ 2)
    (B e : ℝ) (hp : PreciseEnough n B e) (h : FloatModel A val ok n B e) (mo : MatchOption) : Numerics A val n mo :=
  C91_numerics A val ok n B e hp h (fun s hs hc t1 t2 hne =>
    C91_filter A val ok n B e hp h s hs hc t1 t2 hne fun k k1 k2 =>
      ne_of_lt (Prime.pair_lt hn (by have := hn.two_le; omega) hs hc hne k1 (by omega))) mo

/-- C91. So at odd prime lengths up to 31 the enumeration with that precision, with either way of matching, gives exactly
the least member of every class. -/
theorem C91_enumeration {K : Type} (A : Fl K) (val : K → ℝ) (ok : K → Prop) (n : ℕ) [NeZero n] (hn : n.Prime)
    (hodd : n ≠ 2) (hn31 : n ≤ 31) (B e : ℝ) (hp : PreciseEnough n B e) (h : FloatModel A val ok n B e) (ty : SeqType)
    (hty : ty = .quaternionType ∨ ty = .williamsonType) (hex : ∃ q, OfType n ty q) (mo : MatchOption)
    (pr : Option Pairing) :
    ∃ w, writePairs A n ty mo pr = some w ∧ ∀ dirs, Listing w dirs →
      ∃ r, joinPairs ty dirs = some r ∧ r.Nodup ∧ ∀ x, x ∈ r ↔ LeastInClass n ty x := by
  obtain ⟨w, hw, _, h3⟩ := C32_enumeration A val n hn31 (C91_prime A val ok n hn hodd B e hp h mo) ty hty pr
  refine ⟨w, hw, fun dirs hd => ?_⟩
  obtain ⟨r, a, b, c, _⟩ := h3 dirs hd hex
  exact ⟨r, a, b, c⟩

/-- C91. And so does the whole driver for QT sequences. -/
theorem C91_driver_qts {K κ : Type} [DecidableEq κ] (env : Env K κ) (hf : Env.Fair env) (hc : ExactLabelling env.canon)
    (val : K → ℝ) (ok : K → Prop) (n : ℕ) [NeZero n] (hn : n.Prime) (hodd : n ≠ 2) (hn31 : n ≤ 31) (B e : ℝ)
    (hp : PreciseEnough n B e) (h : FloatModel env.A val ok n B e) (hex : ∃ q, IsQTS n q) (flags : List Flag) (s : Store)
    (hr : Ready s "qts".toList (natText n) flags) :
    ∃ s' r, driverSh env "qts".toList (natText n) flags s = (s', 0) ∧ r.Nodup ∧
      (∀ x, x ∈ r ↔ LeastInClass n .quaternionType x) ∧
      SeqsStored s' "qts".toList (natText n) "result.seq".toList r := by
  obtain ⟨s', r, a, b, c, d, _⟩ := C79_qts env hf hc val n hn31 flags (C91_prime env.A val ok n hn hodd B e hp h _) hex s hr
  exact ⟨s', r, a, b, c, d⟩

/-- C91. And for Williamson-type sequences. -/
theorem C91_driver_wts {K κ : Type} [DecidableEq κ] (env : Env K κ) (hf : Env.Fair env) (hc : ExactLabelling env.canon)
    (val : K → ℝ) (ok : K → Prop) (n : ℕ) [NeZero n] (hn : n.Prime) (hodd : n ≠ 2) (hn31 : n ≤ 31) (B e : ℝ)
    (hp : PreciseEnough n B e) (h : FloatModel env.A val ok n B e) (hex : ∃ q, IsWTS n q) (flags : List Flag) (s : Store)
    (hr : Ready s "wts".toList (natText n) flags) :
    ∃ s' r r', driverSh env "wts".toList (natText n) flags s = (s', 0) ∧ r.Nodup ∧
      (∀ x, x ∈ r ↔ LeastInClass n .williamsonType x) ∧
      SeqsStored s' "wts".toList (natText n) "result.seq".toList r ∧
      r'.Nodup ∧ (∀ x ∈ r', IsWTS n x) ∧
      (∀ q, IsWTS n q → ∃ x ∈ r', QTEquiv (fam n q) (fam n x) ∧ ∀ y ∈ r', QTEquiv (fam n q) (fam n y) → y = x) ∧
      SeqsStored s' "wts".toList (natText n) "result-qts.seq".toList r' := by
  obtain ⟨s', r, r', a, b, c, d, _, f, g, i, j, _⟩ :=
    C79_wts env hf hc val n hn31 flags (C91_prime env.A val ok n hn hodd B e hp h _) hex s hr
  exact ⟨s', r, r', a, b, c, d, f, g, i, j⟩

/-- C91. The precision in numbers: an error of `2 · 10⁻¹²` suffices for all lengths up to 12, and `7.8 · 10⁻¹⁵` for the
lengths 13, 14, 15, 16, 18, 20, 22, 24 and 30. (Double precision has a relative error of about `1.1 · 10⁻¹⁶` in each
operation.) -/
theorem C91_numbers (n : ℕ) (B : ℝ) (hB : 16 * ((n : ℝ) + 1) ^ 3 ≤ B) :
    (1 ≤ n → n ≤ 12 → ∀ e, 0 ≤ e → e ≤ 2 / 1000000000000 → PreciseEnough n B e) ∧
    (n ∈ [13, 14, 15, 16, 18, 20, 22, 24, 30] → ∀ e, 0 ≤ e → e ≤ 78 / 10000000000000000 → PreciseEnough n B e) := by
  constructor
  · intro h1 h2 e he h
    have ht : ∀ m ∈ List.range' 1 12, 50 * 2 * (m + 1) ^ 2 * (8 * m + 1) ^ (Nat.totient m / 2 - 1) ≤ 1000000000000 ∧
        1000000 * m * 2 * (m + 1) ^ 2 ≤ 1000000000000 := by decide
    obtain ⟨g1, g2⟩ := ht n (List.mem_range'_1.2 ⟨h1, by omega⟩)
    have g1' : (50 * 2 * ((n : ℝ) + 1) ^ 2 * (8 * n + 1) ^ (Nat.totient n / 2 - 1)) ≤ 1000000000000 := by exact_mod_cast g1
    have g2' : (1000000 * (n : ℝ) * 2 * (n + 1) ^ 2) ≤ 1000000000000 := by exact_mod_cast g2
    refine ⟨he, ?_, ?_, hB⟩
    · have := mul_le_mul_of_nonneg_right h (show (0 : ℝ) ≤ 1000000 * n * ((n : ℝ) + 1) ^ 2 by positivity)
      linarith
    · have := mul_le_mul_of_nonneg_right h
        (show (0 : ℝ) ≤ 50 * ((n : ℝ) + 1) ^ 2 * (8 * n + 1) ^ (Nat.totient n / 2 - 1) by positivity)
      linarith
  · intro hn e he h
    have ht : ∀ m ∈ [13, 14, 15, 16, 18, 20, 22, 24, 30],
        50 * 78 * (m + 1) ^ 2 * (8 * m + 1) ^ (Nat.totient m / 2 - 1) ≤ 10000000000000000 ∧
        1000000 * m * 78 * (m + 1) ^ 2 ≤ 10000000000000000 := by decide
    obtain ⟨g1, g2⟩ := ht n hn
    have g1' : (50 * 78 * ((n : ℝ) + 1) ^ 2 * (8 * n + 1) ^ (Nat.totient n / 2 - 1)) ≤ 10000000000000000 := by
      exact_mod_cast g1
    have g2' : (1000000 * (n : ℝ) * 78 * (n + 1) ^ 2) ≤ 10000000000000000 := by exact_mod_cast g2
    refine ⟨he, ?_, ?_, hB⟩
    · have := mul_le_mul_of_nonneg_right h (show (0 : ℝ) ≤ 1000000 * n * ((n : ℝ) + 1) ^ 2 by positivity)
      linarith
    · have := mul_le_mul_of_nonneg_right h
        (show (0 : ℝ) ≤ 50 * ((n : ℝ) + 1) ^ 2 * (8 * n + 1) ^ (Nat.totient n / 2 - 1) by positivity)
      linarith

/-- The hypotheses are met: an arithmetic with errors of `10⁻¹²` at length 5, for which there are QT sequences. -/
example : Nat.Prime 5 ∧ (∃ q, OfType 5 .quaternionType q) ∧
    PreciseEnough 5 (16 * ((5 : ℕ) + 1) ^ 3) (1 / 1000000000000) ∧
    FloatModel (perturbedFl (1 / 1000000000000)) id (fun _ => True) 5 (16 * ((5 : ℕ) + 1) ^ 3) (1 / 1000000000000) :=
  ⟨by decide, ⟨exQTS5, exQTS5_isQTS⟩,
    (C91_numbers 5 _ le_rfl).1 (by norm_num) (by norm_num) _ (by norm_num) (by norm_num),
    Perturbed.perturbed_model (by norm_num) le_rfl⟩

end Props
