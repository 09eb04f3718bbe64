import Verif.Proofs.Binary64
import Verif.Proofs.PrimeGap
import Verif.Props.Precision

/-!
# Property C101: double precision suffices at prime lengths
-/

set_option linter.unusedVariables false

namespace Props
open Model Spec Proofs

/-- C101. Double-precision arithmetic, with any rule for ties and transforms computed by direct summation, follows the
error model: at lengths up to 1000 with the error `2 (n + 4)² / 2⁵³`. -/
theorem C101_model (rd : ℝ → ℝ) (hrd : NearestDouble rd) (n : ℕ) [NeZero n] (hn : n ≤ 1000) (B : ℝ) (hB : B ≤ 2 ^ 200) :
    FloatModel (doubleFl rd) doubleVal DoubleOk n B (2 * ((n : ℝ) + 4) ^ 2 / 2 ^ 53) := by
  have := Binary64.model hrd hn hB
  unfold Binary64.err Binary64.u at this
  rwa [mul_one_div] at this

theorem double_small (n : ℕ) (hn : n ≤ 1000) : 2 * ((n : ℝ) + 4) ^ 2 / 2 ^ 53 * ((n : ℝ) + 1) ^ 2 ≤ 1 / 1000 := by
  have h1 : (n : ℝ) ≤ 1000 := by exact_mod_cast hn
  have h0 : (0 : ℝ) ≤ n := by positivity
  have h2 : ((n : ℝ) + 4) ^ 2 ≤ 1004 ^ 2 := pow_le_pow_left₀ (by linarith) (by linarith) 2
  have h3 : ((n : ℝ) + 1) ^ 2 ≤ 1001 ^ 2 := pow_le_pow_left₀ (by linarith) (by linarith) 2
  have h4 := mul_le_mul h2 h3 (by positivity) (by positivity)
  have : 2 * ((n : ℝ) + 4) ^ 2 / 2 ^ 53 * ((n : ℝ) + 1) ^ 2 = 2 / 2 ^ 53 * (((n : ℝ) + 4) ^ 2 * ((n : ℝ) + 1) ^ 2) := by ring
  rw [this]
  refine (mul_le_mul_of_nonneg_left h4 (by positivity)).trans ?_
  norm_num

theorem double_range (n : ℕ) (hn : n ≤ 1000) : 16 * ((n : ℝ) + 1) ^ 3 ≤ (2 : ℝ) ^ 200 := by
  have h1 : (n : ℝ) ≤ 1000 := by exact_mod_cast hn
  have h0 : (0 : ℝ) ≤ n := by positivity
  have h2 : ((n : ℝ) + 1) ^ 3 ≤ 1001 ^ 3 := pow_le_pow_left₀ (by linarith) (by linarith) 3
  refine (mul_le_mul_of_nonneg_left h2 (by norm_num)).trans ?_
  norm_num

/-- C101. So at lengths up to 1000 the correlations computed through transforms in double precision are the integer
correlations. -/
theorem C101_correlations (rd : ℝ → ℝ) (hrd : NearestDouble rd) (n : ℕ) [NeZero n] (hn : n ≤ 1000) (x y : List ℤ)
    (hx : PMSeq n x) (hy : PMSeq n y) (tags : Tag × Tag) :
    let A := doubleFl rd
    computeAutoCorrelationPairDft A ((dftSequence A x).map A.normSqr) n ((dftSequence A y).map A.normSqr) n =
        computeAutoCorrelationPair x y ∧
      computeCrossCorrelationsDft A (dftSequence A x) (dftSequence A y) tags n = computeCrossCorrelations x y tags :=
  C74_correlations (doubleFl rd) doubleVal DoubleOk n (2 ^ 200) _ (by positivity) (double_small n hn) (double_range n hn)
    (C101_model rd hrd n hn _ le_rfl) x y hx hy tags

/-- C101. At an odd prime length the power spectrum of a ±1 sequence is, away from frequency 0, either zero or at least
`4 (4 (n - 3) / n²) ^ ((n - 3) / 2)`. -/
theorem C101_spectrum (n : ℕ) [NeZero n] (hn : n.Prime) (hodd : n ≠ 2) (x : List ℤ) (hx : PMSeq n x) (k : ℕ) (h1 : 1 ≤ k)
    (h2 : k < n) : psd n x k = 0 ∨ 4 * (4 * (n - 3 : ℕ) / (n : ℝ) ^ 2) ^ ((n - 3) / 2) ≤ psd n x k := by
  by_cases h : psd n x k = 0
  · exact .inl h
  · exact .inr (PrimeGap.psd_low hn (by have := hn.two_le; omega) hx h1 h2 h)

/-- C101. And the spectra of two members of a complementary quadruple stay at least that far below `4 n`. -/
theorem C101_gap (n : ℕ) [NeZero n] (hn : n.Prime) (hodd : n ≠ 2) (s : QuadSeq) (hs : PMQuad n s)
    (hc : Complementary (cyc n s.a) (cyc n s.b) (cyc n s.c) (cyc n s.d)) (t1 t2 : Tag) (hne : t1 ≠ t2) (k : ℕ) (h1 : 1 ≤ k)
    (h2 : k < n) :
    psd n (s.sequence t1) k + psd n (s.sequence t2) k + 4 * (4 * (n - 3 : ℕ) / (n : ℝ) ^ 2) ^ ((n - 3) / 2) ≤ 4 * n :=
  PrimeGap.pair_low hn (by have := hn.two_le; omega) hs hc hne h1 h2

/-- C101. So at an odd prime length the filter discards no pair of a complementary quadruple in any arithmetic that
follows the error model with an error below that distance. -/
theorem C101_filter {K : Type} (A : Fl K) (val : K → ℝ) (ok : K → Prop) (n : ℕ) [NeZero n] (hn : n.Prime) (hodd : n ≠ 2)
    (B e : ℝ) (he : 0 ≤ e) (hs : e * ((n : ℝ) + 1) ^ 2 ≤ 1 / 1000) (hB : 16 * ((n : ℝ) + 1) ^ 3 ≤ B)
    (hg : 20 * (e * ((n : ℝ) + 1) ^ 2) ≤ 4 * (4 * (n - 3 : ℕ) / (n : ℝ) ^ 2) ^ ((n - 3) / 2))
    (h : FloatModel A val ok n B e) : FilterSafe A n := by
  intro s hpm hc t1 t2 hne
  refine Gap.filter_keep h ⟨he, hs, hB⟩ (Fourier.pm_seq hpm t1) (Fourier.pm_seq hpm t2) fun k k1 k2 => ?_
  have := C101_gap n hn hodd s hpm hc t1 t2 hne k k1 (by omega)
  unfold Rounding.U
  linarith

/-- C101. Double precision is good enough for matching by correlations at the odd prime lengths up to 23. -/
theorem C101_numerics (rd : ℝ → ℝ) (hrd : NearestDouble rd) (n : ℕ) [NeZero n] (hn : n.Prime) (hodd : n ≠ 2)
    (h23 : n ≤ 23) : Numerics (doubleFl rd) doubleVal n .correlation := by
  have hm := C101_model rd hrd n (by omega) (2 ^ 200) le_rfl
  have hsm := double_small n (by omega)
  have hB := double_range n (by omega)
  refine ⟨?_, fun _ => C74_accurate _ _ _ n _ _ (by positivity) hsm hB hm, fun h => by cases h⟩
  refine C101_filter _ _ _ n hn hodd _ _ (by positivity) hsm hB ?_ hm
  have h3 : 3 ≤ n := by have := hn.two_le; omega
  clear hm hsm hB
  interval_cases n <;> norm_num

/-- C101. And for matching by power spectra at 3, 5, 7 and 11. -/
theorem C101_numerics_psd (rd : ℝ → ℝ) (hrd : NearestDouble rd) (n : ℕ) [NeZero n] (hn : n.Prime) (hodd : n ≠ 2)
    (h12 : n ≤ 12) (mo : MatchOption) : Numerics (doubleFl rd) doubleVal n mo := by
  refine C91_prime (doubleFl rd) doubleVal DoubleOk n hn hodd (2 ^ 200) _
    ((C91_numbers n _ (double_range n (by omega))).1 (by have := hn.two_le; omega) h12 _ (by positivity) ?_)
    (C101_model rd hrd n (by omega) _ le_rfl) mo
  have h1 : (n : ℝ) ≤ 12 := by exact_mod_cast h12
  have h0 : (0 : ℝ) ≤ n := by positivity
  have h2 : ((n : ℝ) + 4) ^ 2 ≤ 16 ^ 2 := pow_le_pow_left₀ (by linarith) (by linarith) 2
  rw [div_le_iff₀ (by positivity)]
  refine le_trans (mul_le_mul_of_nonneg_left h2 (by norm_num)) ?_
  norm_num

/-- The matching options and lengths for which double precision is shown to suffice. -/
theorem double_numerics (rd : ℝ → ℝ) (hrd : NearestDouble rd) (n : ℕ) [NeZero n] (hn : n.Prime) (hodd : n ≠ 2)
    (mo : MatchOption) (hmo : mo = .correlation ∧ n ≤ 23 ∨ n ≤ 12) : Numerics (doubleFl rd) doubleVal n mo := by
  rcases hmo with ⟨rfl, h⟩ | h
  · exact C101_numerics rd hrd n hn hodd h
  · exact C101_numerics_psd rd hrd n hn hodd h mo

/-- C101. So in double precision the enumeration gives exactly the least member of every class: at the odd prime lengths
up to 23 when matching by correlations, and at 3, 5, 7 and 11 when matching by power spectra. -/
theorem C101_enumeration (rd : ℝ → ℝ) (hrd : NearestDouble rd) (n : ℕ) [NeZero n] (hn : n.Prime) (hodd : n ≠ 2)
    (mo : MatchOption) (hmo : mo = .correlation ∧ n ≤ 23 ∨ n ≤ 12) (ty : SeqType)
    (hty : ty = .quaternionType ∨ ty = .williamsonType) (hex : ∃ q, OfType n ty q) (pr : Option Pairing) :
    ∃ w, writePairs (doubleFl rd) n ty mo pr = some w ∧ ∀ dirs, Listing w dirs →
      ∃ r, joinPairs ty dirs = some r ∧ r.Nodup ∧ ∀ x, x ∈ r ↔ LeastInClass n ty x := by
  obtain ⟨w, hw, _, h3⟩ := C32_enumeration (doubleFl rd) doubleVal n (by rcases hmo with ⟨_, h⟩ | h <;> omega)
    (double_numerics rd hrd n hn hodd mo hmo) ty hty pr
  refine ⟨w, hw, fun dirs hd => ?_⟩
  obtain ⟨r, a, b, c, _⟩ := h3 dirs hd hex
  exact ⟨r, a, b, c⟩

/-- C101. And so does the driver for QT sequences. -/
theorem C101_driver_qts {κ : Type} [DecidableEq κ] (env : Env (Option ℝ) κ) (rd : ℝ → ℝ) (hrd : NearestDouble rd)
    (hA : env.A = doubleFl rd) (hf : Env.Fair env) (hc : ExactLabelling env.canon) (n : ℕ) [NeZero n] (hn : n.Prime)
    (hodd : n ≠ 2) (flags : List Flag) (hmo : flagMatching flags = .correlation ∧ n ≤ 23 ∨ n ≤ 12) (hex : ∃ q, IsQTS n q)
    (s : Store) (hr : Ready s "qts".toList (natText n) flags) :
    ∃ s' r, driverSh env "qts".toList (natText n) flags s = (s', 0) ∧ r.Nodup ∧
      (∀ x, x ∈ r ↔ LeastInClass n .quaternionType x) ∧
      SeqsStored s' "qts".toList (natText n) "result.seq".toList r := by
  obtain ⟨s', r, a, b, c, d, _⟩ := C79_qts env hf hc doubleVal n (by rcases hmo with ⟨_, h⟩ | h <;> omega) flags
    (by rw [hA]; exact double_numerics rd hrd n hn hodd _ hmo) hex s hr
  exact ⟨s', r, a, b, c, d⟩

/-- C101. And for Williamson-type sequences. -/
theorem C101_driver_wts {κ : Type} [DecidableEq κ] (env : Env (Option ℝ) κ) (rd : ℝ → ℝ) (hrd : NearestDouble rd)
    (hA : env.A = doubleFl rd) (hf : Env.Fair env) (hc : ExactLabelling env.canon) (n : ℕ) [NeZero n] (hn : n.Prime)
    (hodd : n ≠ 2) (flags : List Flag) (hmo : flagMatching flags = .correlation ∧ n ≤ 23 ∨ n ≤ 12) (hex : ∃ q, IsWTS n q)
    (s : Store) (hr : Ready s "wts".toList (natText n) flags) :
    ∃ s' r r', driverSh env "wts".toList (natText n) flags s = (s', 0) ∧ r.Nodup ∧
      (∀ x, x ∈ r ↔ LeastInClass n .williamsonType x) ∧
      SeqsStored s' "wts".toList (natText n) "result.seq".toList r ∧
      r'.Nodup ∧ (∀ x ∈ r', IsWTS n x) ∧
      (∀ q, IsWTS n q → ∃ x ∈ r', QTEquiv (fam n q) (fam n x) ∧ ∀ y ∈ r', QTEquiv (fam n q) (fam n y) → y = x) ∧
      SeqsStored s' "wts".toList (natText n) "result-qts.seq".toList r' := by
  obtain ⟨s', r, r', a, b, c, d, _, f, g, i, j, _⟩ :=
    C79_wts env hf hc doubleVal n (by rcases hmo with ⟨_, h⟩ | h <;> omega) flags
      (by rw [hA]; exact double_numerics rd hrd n hn hodd _ hmo) hex s hr
  exact ⟨s', r, r', a, b, c, d, f, g, i, j⟩

/-- There is such a rounding, 0.1 is not a number of the format and is moved by it, and there are QT sequences of the prime
length 5. -/
example : (∃ rd, NearestDouble rd) ∧ (∀ rd, NearestDouble rd → rd (1 / 10) ≠ 1 / 10) ∧ Nat.Prime 5 ∧
    ∃ q, OfType 5 .quaternionType q := by
  refine ⟨Binary64.exists_nearest, fun rd h he => ?_, by decide, ⟨exQTS5, exQTS5_isQTS⟩⟩
  obtain ⟨⟨m, e, _, _, _, hx⟩, _⟩ := h (1 / 10) (le_trans (by rw [abs_of_nonneg] <;> norm_num) Binary64.max_large)
  rw [he] at hx
  obtain ⟨k, rfl | rfl⟩ := e.eq_nat_or_neg
  · rw [zpow_natCast] at hx
    have h2 : (1 : ℤ) = 10 * (m * 2 ^ k) := by
      have : (1 : ℝ) = 10 * (m * 2 ^ k) := by linarith
      exact_mod_cast this
    omega
  · rw [zpow_neg, zpow_natCast] at hx
    have h2 : (2 : ℤ) ^ k = 10 * m := by
      have : (2 : ℝ) ^ k = 10 * m := by
        field_simp at hx
        linarith
      exact_mod_cast this
    have h3 : (5 : ℤ) ∣ 2 ^ k := ⟨2 * m, by rw [h2]; ring⟩
    have h4 := Int.Prime.dvd_pow' (by decide : Nat.Prime 5) h3
    norm_num at h4

end Props
