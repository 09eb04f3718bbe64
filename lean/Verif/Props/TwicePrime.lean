import Verif.Proofs.DoubleExact
import Verif.Proofs.TwicePrime
import Verif.Props.DoubleFails
import Verif.Props.Linear

/-!
# Property C104: double precision at twice a prime, and the shortest length at which it fails
-/

set_option linter.unusedVariables false

namespace Props
open Model Spec Proofs

/-- C104. At twice a prime that leaves remainder 3 by 4 the spectra of two members of a complementary quadruple stay below
`4 n` by at least `4 ((p - 3) / p²) ^ ((p - 3) / 2)` at every frequency other than 0. -/
theorem C104_gap (p : ℕ) [NeZero (2 * p)] (hp : p.Prime) (h4 : p % 4 = 3) (s : QuadSeq) (hs : PMQuad (2 * p) s)
    (hc : Complementary (cyc (2 * p) s.a) (cyc (2 * p) s.b) (cyc (2 * p) s.c) (cyc (2 * p) s.d)) (t1 t2 : Tag)
    (hne : t1 ≠ t2) (k : ℕ) (h1 : 1 ≤ k) (h2 : k < 2 * p) :
    psd (2 * p) (s.sequence t1) k + psd (2 * p) (s.sequence t2) k + 4 * ((p - 3 : ℕ) / (p : ℝ) ^ 2) ^ ((p - 3) / 2) ≤
      4 * (2 * p : ℕ) := by
  have := TwicePrime.pair_low hp h4 hs hc hne h1 h2
  unfold TwicePrime.low at this
  push_cast
  linarith

/-- C104. So at these lengths the filter discards no pair of a complementary quadruple in any arithmetic that follows the
error model with an error below that distance. -/
theorem C104_filter {K : Type} (A : Fl K) (val : K → ℝ) (ok : K → Prop) (p : ℕ) [NeZero (2 * p)] (hp : p.Prime)
    (h4 : p % 4 = 3) (B e : ℝ) (he : 0 ≤ e) (hs : e * (((2 * p : ℕ) : ℝ) + 1) ^ 2 ≤ 1 / 1000)
    (hB : 16 * (((2 * p : ℕ) : ℝ) + 1) ^ 3 ≤ B)
    (hg : 20 * (e * (((2 * p : ℕ) : ℝ) + 1) ^ 2) ≤ 4 * ((p - 3 : ℕ) / (p : ℝ) ^ 2) ^ ((p - 3) / 2))
    (h : FloatModel A val ok (2 * p) B e) : FilterSafe A (2 * p) := by
  intro s hpm hc t1 t2 hne
  refine Gap.filter_keep h ⟨he, hs, hB⟩ (Fourier.pm_seq hpm t1) (Fourier.pm_seq hpm t2) fun k k1 k2 => ?_
  have := C104_gap p hp h4 s hpm hc t1 t2 hne k k1 (by omega)
  unfold Rounding.U
  linarith

/-- C104. At lengths 1, 2 and 4 the transforms in double precision are exact, and so is the filter. -/
theorem C104_exact (rd : ℝ → ℝ) (hrd : NearestDouble rd) (n : ℕ) [NeZero n] (hn : n ∣ 4) : FilterSafe (doubleFl rd) n :=
  DoubleExact.filterSafe hrd hn

theorem twice_filter (rd : ℝ → ℝ) (hrd : NearestDouble rd) (p : ℕ) [NeZero (2 * p)] (hp : p = 3 ∨ p = 7 ∨ p = 11) :
    FilterSafe (doubleFl rd) (2 * p) := by
  have hpr : p.Prime ∧ p % 4 = 3 ∧ p ≤ 11 := by rcases hp with rfl | rfl | rfl <;> decide
  have hm := C101_model rd hrd (2 * p) (by omega) (2 ^ 200) le_rfl
  refine C104_filter _ _ _ p hpr.1 hpr.2.1 _ _ (by positivity) (double_small (2 * p) (by omega))
    (double_range (2 * p) (by omega)) ?_ hm
  clear * - hp
  rcases hp with rfl | rfl | rfl <;> norm_num

/-- The lengths and matching options in question. -/
def ShortLength (mo : MatchOption) (n : ℕ) : Prop := n ≤ 7 ∨ mo = .correlation ∧ n ∈ [11, 13, 14, 17, 19, 22, 23] ∨ n = 11

theorem short_filter (rd : ℝ → ℝ) (hrd : NearestDouble rd) (n : ℕ) [NeZero n]
    (hn : n ∈ [1, 2, 3, 4, 5, 6, 7, 11, 13, 14, 17, 19, 22, 23]) : FilterSafe (doubleFl rd) n := by
  simp only [List.mem_cons, List.not_mem_nil, or_false] at hn
  rcases hn with rfl | rfl | rfl | rfl | rfl | rfl | rfl | rfl | rfl | rfl | rfl | rfl | rfl | rfl
  · exact C104_exact rd hrd 1 (by norm_num)
  · exact C104_exact rd hrd 2 (by norm_num)
  · exact (C101_numerics rd hrd 3 (by decide) (by norm_num) (by norm_num)).filter
  · exact C104_exact rd hrd 4 (by norm_num)
  · exact (C101_numerics rd hrd 5 (by decide) (by norm_num) (by norm_num)).filter
  · exact twice_filter rd hrd 3 (by norm_num)
  · exact (C101_numerics rd hrd 7 (by decide) (by norm_num) (by norm_num)).filter
  · exact (C101_numerics rd hrd 11 (by decide) (by norm_num) (by norm_num)).filter
  · exact (C101_numerics rd hrd 13 (by decide) (by norm_num) (by norm_num)).filter
  · exact twice_filter rd hrd 7 (by norm_num)
  · exact (C101_numerics rd hrd 17 (by decide) (by norm_num) (by norm_num)).filter
  · exact (C101_numerics rd hrd 19 (by decide) (by norm_num) (by norm_num)).filter
  · exact twice_filter rd hrd 11 (by norm_num)
  · exact (C101_numerics rd hrd 23 (by decide) (by norm_num) (by norm_num)).filter

/-- C104. The shortest length at which the filter discards a pair of a complementary quadruple in double precision is 8. -/
theorem C104_least (rd : ℝ → ℝ) (hrd : NearestDouble rd) :
    IsLeast {n : ℕ | ∃ h : NeZero n, ¬ FilterSafe (doubleFl rd) n} 8 := by
  refine ⟨⟨inferInstance, (C76_double_fails rd hrd).1⟩, ?_⟩
  rintro n ⟨h, hn⟩
  by_contra hc
  push Not at hc
  refine hn (short_filter rd hrd n ?_)
  have := h.out
  interval_cases n <;> first | omega | decide

/-- C104. Double precision is good enough for both ways of matching at all lengths up to 7 and at 11, and for matching by
correlations at 13, 14, 17, 19, 22 and 23. -/
theorem C104_numerics (rd : ℝ → ℝ) (hrd : NearestDouble rd) (n : ℕ) [hz : NeZero n] (mo : MatchOption)
    (hn : ShortLength mo n) : Numerics (doubleFl rd) doubleVal n mo := by
  have hmem : n ∈ [1, 2, 3, 4, 5, 6, 7, 11, 13, 14, 17, 19, 22, 23] := by
    have := hz.out
    rcases hn with h | ⟨_, h⟩ | rfl
    · clear * - h this
      interval_cases n <;> first | omega | decide
    · revert h
      simp only [List.mem_cons, List.not_mem_nil, or_false]
      omega
    · decide
  have hF := short_filter rd hrd n hmem
  have h23 : n ≤ 23 := by
    revert hmem
    simp only [List.mem_cons, List.not_mem_nil, or_false]
    omega
  have hm := C101_model rd hrd n (by omega) (2 ^ 200) le_rfl
  have hsm := double_small n (by omega)
  have hB := double_range n (by omega)
  refine ⟨hF, fun _ => C74_accurate _ _ _ n _ _ (by positivity) hsm hB hm, fun hmo => ?_⟩
  have h12 : n ≤ 12 := by
    rcases hn with h | ⟨h, _⟩ | rfl
    · omega
    · rw [h] at hmo; cases hmo
    · norm_num
  refine C91_keys _ _ _ n _ _ ((C91_numbers n _ hB).1 (Nat.pos_of_ne_zero hz.out) h12 _ (by positivity) ?_) hm
  have h1 : (n : ℝ) ≤ 12 := by exact_mod_cast h12
  have h0 : (0 : ℝ) ≤ n := by positivity
  have h2 : ((n : ℝ) + 4) ^ 2 ≤ 16 ^ 2 := pow_le_pow_left₀ (by linarith) (by linarith) 2
  rw [div_le_iff₀ (by positivity)]
  refine le_trans (mul_le_mul_of_nonneg_left h2 (by norm_num)) ?_
  norm_num

theorem short_le {mo : MatchOption} {n : ℕ} (h : ShortLength mo n) : n ≤ 31 := by
  rcases h with h | ⟨_, h⟩ | h
  · omega
  · revert h
    simp only [List.mem_cons, List.not_mem_nil, or_false]
    omega
  · omega

/-- C104. So at these lengths the enumeration in double precision gives exactly the least member of every class. -/
theorem C104_enumeration (rd : ℝ → ℝ) (hrd : NearestDouble rd) (n : ℕ) [NeZero n] (mo : MatchOption)
    (hn : ShortLength mo n) (ty : SeqType) (hty : ty = .quaternionType ∨ ty = .williamsonType)
    (hex : ∃ q, OfType n ty q) (pr : Option Pairing) :
    ∃ w, writePairs (doubleFl rd) n ty mo pr = some w ∧ ∀ dirs, Listing w dirs →
      ∃ r, joinPairs ty dirs = some r ∧ r.Nodup ∧ ∀ x, x ∈ r ↔ LeastInClass n ty x := by
  obtain ⟨w, hw, _, h3⟩ := C32_enumeration (doubleFl rd) doubleVal n (short_le hn) (C104_numerics rd hrd n mo hn) ty hty pr
  refine ⟨w, hw, fun dirs hd => ?_⟩
  obtain ⟨r, a, b, c, _⟩ := h3 dirs hd hex
  exact ⟨r, a, b, c⟩

/-- C104. And so does the driver for QT sequences. -/
theorem C104_driver_qts {κ : Type} [DecidableEq κ] (env : Env (Option ℝ) κ) (rd : ℝ → ℝ) (hrd : NearestDouble rd)
    (hA : env.A = doubleFl rd) (hf : Env.Fair env) (hc : ExactLabelling env.canon) (n : ℕ) [NeZero n]
    (flags : List Flag) (hn : ShortLength (flagMatching flags) n) (hex : ∃ q, IsQTS n q)
    (s : Store) (hr : Ready s "qts".toList (natText n) flags) :
    ∃ s' r, driverSh env "qts".toList (natText n) flags s = (s', 0) ∧ r.Nodup ∧
      (∀ x, x ∈ r ↔ LeastInClass n .quaternionType x) ∧
      SeqsStored s' "qts".toList (natText n) "result.seq".toList r := by
  obtain ⟨s', r, a, b, c, d, _⟩ := C79_qts env hf hc doubleVal n (short_le hn) flags
    (by rw [hA]; exact C104_numerics rd hrd n _ hn) hex s hr
  exact ⟨s', r, a, b, c, d⟩

/-- C104. And for Williamson-type sequences. -/
theorem C104_driver_wts {κ : Type} [DecidableEq κ] (env : Env (Option ℝ) κ) (rd : ℝ → ℝ) (hrd : NearestDouble rd)
    (hA : env.A = doubleFl rd) (hf : Env.Fair env) (hc : ExactLabelling env.canon) (n : ℕ) [NeZero n]
    (flags : List Flag) (hn : ShortLength (flagMatching flags) n) (hex : ∃ q, IsWTS n q)
    (s : Store) (hr : Ready s "wts".toList (natText n) flags) :
    ∃ s' r r', driverSh env "wts".toList (natText n) flags s = (s', 0) ∧ r.Nodup ∧
      (∀ x, x ∈ r ↔ LeastInClass n .williamsonType x) ∧
      SeqsStored s' "wts".toList (natText n) "result.seq".toList r ∧
      r'.Nodup ∧ (∀ x ∈ r', IsWTS n x) ∧
      (∀ q, IsWTS n q → ∃ x ∈ r', QTEquiv (fam n q) (fam n x) ∧ ∀ y ∈ r', QTEquiv (fam n q) (fam n y) → y = x) ∧
      SeqsStored s' "wts".toList (natText n) "result-qts.seq".toList r' := by
  obtain ⟨s', r, r', a, b, c, d, _, f, g, i, j, _⟩ := C79_wts env hf hc doubleVal n (short_le hn) flags
    (by rw [hA]; exact C104_numerics rd hrd n _ hn) hex s hr
  exact ⟨s', r, r', a, b, c, d, f, g, i, j⟩

/-- C104. At 6, 14 and 22 the transforms may be those of any library. -/
theorem C104_library (rd : ℝ → ℝ) (hrd : NearestDouble rd) (L : Library) (p : ℕ) [NeZero (2 * p)]
    (hp : p = 3 ∨ p = 7 ∨ p = 11) (D : ℕ) (G : ℝ) (hD : 1 ≤ D) (hL : Transforms L (2 * p) D G) (hDG : D * G ≤ 100000) :
    Numerics (libraryFl rd L) doubleVal (2 * p) .correlation := by
  have hpr : p.Prime ∧ p % 4 = 3 ∧ p ≤ 11 := by rcases hp with rfl | rfl | rfl <;> decide
  have hG := library_gain L (2 * p) D G hL
  have hbig : D * G * (((2 * p : ℕ) : ℝ) + 1) ^ 2 ≤ 500000000000 := by
    have h1 : ((2 * p : ℕ) : ℝ) ≤ 22 := by exact_mod_cast (by omega)
    have h2 : (((2 * p : ℕ) : ℝ) + 1) ^ 2 ≤ 23 ^ 2 := pow_le_pow_left₀ (by positivity) (by linarith) 2
    refine (mul_le_mul hDG h2 (by positivity) (by norm_num)).trans (by norm_num)
  have hm := C103_model rd hrd L (2 * p) (by omega) D G hD hL (library_one (2 * p) D G hG hbig) (2 ^ 150) le_rfl
  have hsm := library_small (2 * p) D G hbig
  have hB := library_range (2 * p) (by omega)
  refine ⟨C104_filter _ _ _ p hpr.1 hpr.2.1 _ _ (by positivity) hsm hB ?_ hm,
    fun _ => C74_accurate _ _ _ (2 * p) _ _ (by positivity) hsm hB hm, fun h => by cases h⟩
  have eq : 20 * (16 * D * G / 2 ^ 53 * (((2 * p : ℕ) : ℝ) + 1) ^ 2) = 320 / 2 ^ 53 * (((2 * p : ℕ) : ℝ) + 1) ^ 2 * (D * G) := by ring
  rw [eq]
  refine (mul_le_mul_of_nonneg_left hDG (by positivity)).trans ?_
  clear * - hp
  rcases hp with rfl | rfl | rfl <;> norm_num

/-- A Williamson-type quadruple of length 6. -/
def quad6 : QuadSeq := ⟨6, [1, 1, 1, -1, 1, 1], [1, 1, -1, 1, -1, 1], [1, 1, -1, -1, -1, 1], [1, -1, -1, 1, -1, -1]⟩

theorem quad6_wts : IsWTS 6 quad6 :=
  (C08_verify_wts 6 _ ⟨rfl, by decide, by decide, by decide, by decide⟩).1 (by decide +kernel)

/-- There are Williamson-type sequences of length 6, which is twice the prime 3, and there is such a rounding. -/
example : (∃ rd, NearestDouble rd) ∧ (∃ q, OfType (2 * 3) .williamsonType q) ∧ Nat.Prime 3 ∧ 3 % 4 = 3 ∧
    ShortLength .psd 6 ∧ ShortLength .correlation 22 :=
  ⟨Binary64.exists_nearest, ⟨quad6, quad6_wts⟩, by decide, by decide, .inl (by norm_num), .inr (.inl ⟨rfl, by decide⟩)⟩

end Props
