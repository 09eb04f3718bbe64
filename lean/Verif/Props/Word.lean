import Verif.Proofs.Word
import Verif.Props.Rowsum

/-!
# Property C98: 64-bit arithmetic

`Model.Word` models the functions that compute with `isize` and `usize` on 64-bit words, in a debug build (`dbg = true`,
`none` is a panic) and in a release build (`dbg = false`, wrapping). The theorems hold for both unless stated otherwise. A
vector of `2^58` bytes does not fit in the memory of any machine of this kind.
-/

namespace Props
open Model Spec Proofs Proofs.Word

/-! ## Correlations, keys and tests -/

/-- C98. The correlations of ±1 sequences fit in a word. -/
theorem C98_correlation (dbg : Bool) (n : ℕ) (hn : n < 2 ^ 58) (x y : List ℤ) (hx : PMSeq n x) (hy : PMSeq n y) (t : ℕ)
    (ht : t ≤ n) :
    Word.periodicAutocorrelation dbg x t = some (periodicAutocorrelation x t) ∧
      Word.crossCorrelation dbg x y t = some (crossCorrelation x y t) :=
  ⟨(paf_ret dbg hn hx ht).1, (ccf_ret dbg hn hx hy ht).1⟩

/-- The offset has to be at most the length: beyond it `i + n - offset` underflows. The debug build panics, and the release
build reads another entry: the correlation at offset 4 is not the one at offset 1. -/
theorem C98_offset_limit :
    Word.crossCorrelation true [1, 1, -1] [1, 1, -1] 4 = none ∧
      Word.crossCorrelation false [1, 1, -1] [1, 1, -1] 4 = some 1 ∧
      Word.crossCorrelation false [1, 1, -1] [1, 1, -1] 1 = some (-1) := by decide +kernel

/-- C98. The sums and differences in the keys of the pair files, and in the final check of a match, fit in a word. -/
theorem C98_keys (dbg : Bool) (n : ℕ) (hn : n < 2 ^ 58) (x y : List ℤ) (hx : PMSeq n x) (hy : PMSeq n y) (tags : Tag × Tag) :
    Word.computeAutoCorrelationPair dbg x y = some (computeAutoCorrelationPair x y) ∧
      Word.computeCrossCorrelations dbg x y tags = computeCrossCorrelations x y tags ∧
      Word.computeComplementaryAutoCorrelations dbg x y = some (computeComplementaryAutoCorrelations x y) ∧
      Word.computeComplementaryCrossCorrelations dbg x y tags = computeComplementaryCrossCorrelations x y tags :=
  ⟨autoPair_eq dbg hn hx hy, crossCorrelations_eq dbg hn hx hy tags, complAuto_eq dbg hn hx hy, complCross_eq dbg hn hx hy tags⟩

/-- C98. So does the check of the two remaining conditions. -/
theorem C98_tagged (dbg : Bool) (n : ℕ) (hn : n < 2 ^ 58) (s : Four) (h1 : PMSeq n s.1) (h2 : PMSeq n s.2.1)
    (h3 : PMSeq n s.2.2.1) (h4 : PMSeq n s.2.2.2) (tags : Tag × Tag × Tag × Tag) :
    Word.verifyCrossCorrelationTagged dbg s tags = verifyCrossCorrelationTagged s tags :=
  tagged_eq dbg hn h1 h2 h3 h4 tags

/-- C98. The verification of a quadruple gives, in either build, the answer of exact arithmetic. -/
theorem C98_verify (dbg : Bool) (n : ℕ) (h0 : 0 < n) (hn : n < 2 ^ 58) (s : QuadSeq) (hs : PMQuad n s) (ty : SeqType) :
    Word.verify dbg s ty = some (s.verify ty) := verify_eq dbg hn h0 hs ty

/-- C98. The empty quadruple is the exception: `size - 1` underflows, so that every verification panics in a debug build. -/
theorem C98_verify_empty (ty : SeqType) (hty : ty = .quaternionType ∨ ty = .williamsonType ∨ ty = .williamson) :
    Word.verify true (QuadSeq.new 0) ty = none ∧ (QuadSeq.new 0).verify ty = true := by
  rcases hty with rfl | rfl | rfl <;> exact ⟨rfl, rfl⟩

example : PMQuad 3 exWS3 ∧ Word.verify true exWS3 .williamson = some true ∧ Word.verify false exWS3 .williamsonType = some true ∧
    Word.verify false exWS3 .quaternionType = some true := by decide +kernel

/-! ## Row sums -/

/-- C98. Row sums and the test of their order fit in a word. -/
theorem C98_sorted (dbg : Bool) (n : ℕ) (hn : n < 2 ^ 58) (s : QuadSeq) (hs : PMQuad n s) :
    Word.hasSortedRowsums dbg s = some (hasSortedRowsums s) ∧ Word.rowsum dbg s.a = some s.a.sum :=
  ⟨sorted_eq dbg hn hs, by rw [← C22_rowsum]; exact (rowsum_eq dbg hn hs.a).1⟩

/-- C98. The list of row sums is computed without overflow, and is the list of property C24. -/
theorem C98_rowsums (dbg : Bool) (n : ℕ) (hn : n < 2 ^ 58) (ty : SeqType) :
    Word.generateRowsums dbg n ty = generateRowsums n ty ∧
      ∃ l, Word.generateRowsums dbg n ty = some l ∧ l.Nodup ∧ ∀ a b c d : ℤ, (a, b, c, d) ∈ l ↔
        a ^ 2 + b ^ 2 + c ^ 2 + d ^ 2 = 4 * n ∧
        ((2 : ℤ) ∣ a - n ∧ (2 : ℤ) ∣ b - n ∧ (2 : ℤ) ∣ c - n ∧ (2 : ℤ) ∣ d - n) ∧
        ((0 ≤ a ∧ a ≤ b ∧ b ≤ c ∧ c ≤ d) ∨ (ty = .quaternionType ∧ 0 < a ∧ a < b ∧ b < c ∧ c < -d)) := by
  have h := rowsums_word dbg hn ty
  exact ⟨h, by rw [h]; exact C24_rowsums_exact n ty⟩

/-- C98. All sums of four squares up to `2^60` are found without overflow. -/
theorem C98_four_squares (dbg : Bool) (p : ℕ) (hp : p < 2 ^ 60) :
    ∃ l, Word.sumOfFourSquares dbg p = some l ∧ l.Nodup ∧ ∀ a b c d : ℤ, (a, b, c, d) ∈ l ↔
      (0 ≤ a ∧ a ≤ b ∧ b ≤ c ∧ c ≤ d) ∧ a ^ 2 + b ^ 2 + c ^ 2 + d ^ 2 = p := by
  rw [four_word dbg hp]
  exact C23_four_squares p

example : Word.generateRowsums true 3 .williamson = some [(1, 1, 1, 3)] ∧
    Word.generateRowsums false 21 .quaternionType = generateRowsums 21 .quaternionType := by decide +kernel

/-- A bound is needed: for `p = 2^62`, which the command line accepts, `4 * p` overflows. The debug build panics; the release
build lists the single quadruple (0, 0, 0, 0), whose squares do not sum to `4 * p`. -/
theorem C98_rowsums_limit (ty : SeqType) :
    Word.generateRowsums true (2 ^ 62) ty = none ∧ Word.generateRowsums false (2 ^ 62) ty = some [(0, 0, 0, 0)] ∧
      ∃ l, generateRowsums (2 ^ 62) ty = some l ∧ ((0, 0, 0, 0) : Quad) ∉ l ∧ ((0, 0, 0, 2 ^ 32) : Quad) ∈ l := by
  refine ⟨rfl, by cases ty <;> decide +kernel, ?_⟩
  obtain ⟨l, e, _, k⟩ := generateRowsums_spec (2 ^ 62) ty
  refine ⟨l, e, fun h => ?_, (k _).2 ⟨by decide, .inl (by unfold SortedQ; decide)⟩⟩
  have := ((k _).1 h).1.1
  revert this
  decide

/-! ## Sequences with a given row sum

The row sum is any `isize` read from the command line. -/

/-- C98. In a release build every row sum gives the sequences of exact arithmetic. Where the additions wrap, the vector ends
before the number of ones does. -/
theorem C98_sequences (size : ℕ) (hs : size < 2 ^ 62) (rs : ℤ) (h1 : -2 ^ 63 ≤ rs) (h2 : rs < 2 ^ 63) :
    Word.generateSequencesWithRowsum false rs size = some (generateSequencesWithRowsum rs size) :=
  sequences_release hs h1 h2

/-- C98. A debug build panics for the least `isize`, and if `size + rowsum` exceeds the largest one and the parities agree;
otherwise it gives the same sequences. -/
theorem C98_sequences_debug (size : ℕ) (hs : size < 2 ^ 62) (rs : ℤ) (h1 : -2 ^ 63 ≤ rs) (h2 : rs < 2 ^ 63) :
    Word.generateSequencesWithRowsum true rs size =
      if rs = -2 ^ 63 ∨ 2 ^ 63 ≤ (size : ℤ) + rs ∧ rs % 2 = size % 2 then none
      else some (generateSequencesWithRowsum rs size) := by
  split
  · next h =>
    rcases h with rfl | ⟨h, hp⟩
    · exact sequences_panic_abs size
    · exact sequences_panic_add hs h2 h hp
  · next h =>
    by_cases c : (size : ℤ) + rs < 2 ^ 63
    · exact sequences_debug hs (by omega) c true
    · unfold Word.generateSequencesWithRowsum generateSequencesWithRowsum Word.abs64
      rw [if_neg (by omega), Option.bind_some,
        asUsize_nat (m := rs.natAbs % 2) (by rw [Int.tmod_eq_emod_of_nonneg (by omega)]; omega) (by omega),
        if_pos (by omega), if_pos (by omega)]

example : Word.generateSequencesWithRowsum true 1 3 = some [[1, 1, -1], [1, -1, 1], [-1, 1, 1]] ∧
    Word.generateSequencesWithRowsum true (2 ^ 63 - 1) 1 = none ∧ Word.generateSequencesWithRowsum false (2 ^ 63 - 1) 1 = some [] ∧
    Word.generateSequencesWithRowsum true (-2 ^ 63) 4 = none ∧ Word.generateSequencesWithRowsum false (-2 ^ 63) 4 = some [] := by
  decide +kernel

end Props
