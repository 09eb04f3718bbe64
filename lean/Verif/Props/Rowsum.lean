import Verif.Props.Canonical
import Verif.Proofs.Rowsum

/-!
# Properties C22 - C25: row sums
-/

namespace Props
open Model Spec Proofs

/-! ## C22: sequences with a prescribed row sum -/

/-- C22. The generator returns every ±1 sequence with the given length and sum exactly once, and nothing else. The
bounds are those of `isize`; parity and range of the row sum are unrestricted. -/
theorem C22_generate (rs : ℤ) (size : ℕ) (h1 : size < 2 ^ 62) (h2 : -2 ^ 62 < rs) (h3 : rs < 2 ^ 62) :
    (generateSequencesWithRowsum rs size).Nodup ∧
      ∀ l, l ∈ generateSequencesWithRowsum rs size ↔ (l.length = size ∧ ∀ x ∈ l, x = 1 ∨ x = -1) ∧ l.sum = rs :=
  generate_spec rs size h1 h2 h3

/-- C22. Nothing is returned for a row sum of the wrong parity or out of range. -/
theorem C22_impossible (rs : ℤ) (size : ℕ) (h1 : size < 2 ^ 62) (h2 : -2 ^ 62 < rs) (h3 : rs < 2 ^ 62)
    (h : ¬ (2 : ℤ) ∣ size - rs ∨ rs < -size ∨ (size : ℤ) < rs) : generateSequencesWithRowsum rs size = [] := by
  refine List.eq_nil_iff_forall_not_mem.2 fun l hl => ?_
  obtain ⟨k1, k2⟩ := ((generate_spec rs size h1 h2 h3).2 l).1 hl
  obtain ⟨k, hk⟩ := pm_sum_parity k1
  have := pm_sum_range k1
  rcases h with h | h | h
  · exact h ⟨-k, by omega⟩
  · omega
  · omega

/-- C22. The row sum computed for a stored sequence is the sum of its entries. -/
theorem C22_rowsum (l : List ℤ) : rowsum l = l.sum := rowsum_eq_sum l

example : generateSequencesWithRowsum 1 3 = [[1, 1, -1], [1, -1, 1], [-1, 1, 1]] := by decide
example : generateSequencesWithRowsum (-3) 3 = [[-1, -1, -1]] := by decide
example : generateSequencesWithRowsum 2 3 = [] := by decide
example : generateSequencesWithRowsum (-5) 3 = [] := by decide

/-! ## C23: four squares -/

/-- C23. The search terminates (within the fuel of the model) and lists the sorted non-negative quadruples with the
given sum of squares, each exactly once. -/
theorem C23_four_squares (p : ℕ) :
    ∃ l, sumOfFourSquares p = some l ∧ l.Nodup ∧ ∀ a b c d : ℤ, (a, b, c, d) ∈ l ↔
      (0 ≤ a ∧ a ≤ b ∧ b ≤ c ∧ c ≤ d) ∧ a ^ 2 + b ^ 2 + c ^ 2 + d ^ 2 = p := by
  obtain ⟨l, h1, h2, h3⟩ := sumOfFourSquares_spec p
  refine ⟨l, h1, h2.imp fun h e => ?_, fun a b c d => ?_⟩
  · subst e; exact QLt_irrefl _ h
  · rw [h3]
    unfold SortedQ squareSum
    constructor
    · rintro ⟨k1, k2⟩; exact ⟨k1, by simp only at k2; linarith⟩
    · rintro ⟨k1, k2⟩; exact ⟨k1, by simp only; linarith⟩

/-- C23. The quadruples are listed in lexicographic order. -/
theorem C23_sorted (p : ℕ) (l : List Quad) (h : sumOfFourSquares p = some l) :
    l.Pairwise fun s t => toLex (s.1, toLex (s.2.1, toLex (s.2.2.1, s.2.2.2))) <
      toLex (t.1, toLex (t.2.1, toLex (t.2.2.1, t.2.2.2))) := by
  obtain ⟨l', h1, h2, _⟩ := sumOfFourSquares_spec p
  rw [h] at h1
  cases h1
  refine h2.imp fun h => ?_
  rw [Prod.Lex.toLex_lt_toLex, Prod.Lex.toLex_lt_toLex, Prod.Lex.toLex_lt_toLex]
  exact h

example : sumOfFourSquares 12 = some [(0, 2, 2, 2), (1, 1, 1, 3)] := by decide +kernel
example : sumOfFourSquares 0 = some [(0, 0, 0, 0)] := by decide +kernel

/-! ## C25: the row-sum identity -/

/-- C25. The squares of the row sums of a periodic complementary quadruple add up to `4n`. -/
theorem C25_sum_of_squares (n : ℕ) [NeZero n] (s : QuadSeq) (hs : PMQuad n s)
    (h : Complementary (cyc n s.a) (cyc n s.b) (cyc n s.c) (cyc n s.d)) :
    rowsum s.a ^ 2 + rowsum s.b ^ 2 + rowsum s.c ^ 2 + rowsum s.d ^ 2 = 4 * n := by
  have := sum_squares (cyc_pm hs.a) (cyc_pm hs.b) (cyc_pm hs.c) (cyc_pm hs.d) h
  rw [sum_cyc hs.a.1, sum_cyc hs.b.1, sum_cyc hs.c.1, sum_cyc hs.d.1] at this
  simp only [rowsum_eq_sum]
  exact this

/-- C25. Each row sum has the parity of the length and is at most the length in absolute value. -/
theorem C25_parity (n : ℕ) (l : List ℤ) (h : PMSeq n l) :
    (2 : ℤ) ∣ rowsum l - n ∧ -(n : ℤ) ≤ rowsum l ∧ rowsum l ≤ n := by
  obtain ⟨k, hk⟩ := pm_sum_parity h
  have := pm_sum_range h
  rw [rowsum_eq_sum]
  exact ⟨⟨k, by omega⟩, this⟩

/-- C25. The same for the program's own verdict: if `is_periodic_complementary` accepts, the squares add up. -/
theorem C25_checked (n : ℕ) [NeZero n] (s : QuadSeq) (hs : PMQuad n s) (h : s.isPeriodicComplementary = true) :
    rowsum s.a ^ 2 + rowsum s.b ^ 2 + rowsum s.c ^ 2 + rowsum s.d ^ 2 = 4 * n :=
  C25_sum_of_squares n s hs ((isPeriodicComplementary_iff hs).1 h)

example : rowsum exQTS5.a ^ 2 + rowsum exQTS5.b ^ 2 + rowsum exQTS5.c ^ 2 + rowsum exQTS5.d ^ 2 = 4 * (5 : ℕ) :=
  C25_sum_of_squares 5 exQTS5 exQTS5_isQTS.1 exQTS5_isQTS.2.1

/-! ## C24: the restriction to sorted row sums -/

/-- C24. The generated row sums are, without repetition, the sorted non-negative quadruples of the parity of `n` with
sum of squares `4n`, and for quaternion-type sequences also those with the last entry negated, provided all four are
distinct and non-zero. -/
theorem C24_rowsums_exact (n : ℕ) (ty : SeqType) :
    ∃ l, generateRowsums n ty = some l ∧ l.Nodup ∧ ∀ a b c d : ℤ, (a, b, c, d) ∈ l ↔
      a ^ 2 + b ^ 2 + c ^ 2 + d ^ 2 = 4 * n ∧
      ((2 : ℤ) ∣ a - n ∧ (2 : ℤ) ∣ b - n ∧ (2 : ℤ) ∣ c - n ∧ (2 : ℤ) ∣ d - n) ∧
      ((0 ≤ a ∧ a ≤ b ∧ b ≤ c ∧ c ≤ d) ∨ (ty = .quaternionType ∧ 0 < a ∧ a < b ∧ b < c ∧ c < -d)) := by
  obtain ⟨l, h1, h2, h3⟩ := generateRowsums_spec n ty
  refine ⟨l, h1, h2, fun a b c d => ?_⟩
  rw [h3]
  unfold SortedQ squareSum
  simp only
  have e : a * a + b * b + c * c + d * d = a ^ 2 + b ^ 2 + c ^ 2 + d ^ 2 := by ring
  rw [e]
  constructor
  · rintro ⟨⟨k1, k2, k3, k4, k5⟩, k6⟩
    exact ⟨k1, ⟨by omega, by omega, by omega, by omega⟩, k6⟩
  · rintro ⟨k1, ⟨k2, k3, k4, k5⟩, k6⟩
    exact ⟨⟨k1, by omega, by omega, by omega, by omega⟩, k6⟩

theorem mem_rowsums {n : ℕ} [NeZero n] {s : QuadSeq} {ty : SeqType} (hs : PMQuad n s)
    (hc : Complementary (cyc n s.a) (cyc n s.b) (cyc n s.c) (cyc n s.d))
    (h : (0 ≤ rsF (fam n s) .W ∧ rsF (fam n s) .W ≤ rsF (fam n s) .X ∧ rsF (fam n s) .X ≤ rsF (fam n s) .Y ∧
        rsF (fam n s) .Y ≤ rsF (fam n s) .Z) ∨
      ty = .quaternionType ∧ (0 < rsF (fam n s) .W ∧ rsF (fam n s) .W < rsF (fam n s) .X ∧
        rsF (fam n s) .X < rsF (fam n s) .Y ∧ rsF (fam n s) .Y < -rsF (fam n s) .Z)) :
    ∃ l, generateRowsums n ty = some l ∧ rowsums s ∈ l := by
  obtain ⟨l, h1, _, h3⟩ := C24_rowsums_exact n ty
  refine ⟨l, h1, (h3 _ _ _ _).2 ⟨C25_sum_of_squares n s hs hc, ⟨(C25_parity n _ hs.a).1, (C25_parity n _ hs.b).1,
    (C25_parity n _ hs.c).1, (C25_parity n _ hs.d).1⟩, ?_⟩⟩
  have hw := PMQuad.wf hs
  have ea := rowsum_fam hw .W
  have eb := rowsum_fam hw .X
  have ec := rowsum_fam hw .Y
  have ed := rowsum_fam hw .Z
  rw [← ea, ← eb, ← ec, ← ed] at h
  exact h

/-- C24. Every quaternion-type sequence is equivalent, by negate-and-swap operations alone, to one whose row sums are
in the generated list. -/
theorem C24_complete_qts (n : ℕ) [NeZero n] (s : QuadSeq) (hs : IsQTS n s) :
    ∃ t l, IsQTS n t ∧ NSEquiv (fam n s) (fam n t) ∧ QTEquiv (fam n s) (fam n t) ∧
      generateRowsums n .quaternionType = some l ∧ rowsums t ∈ l := by
  obtain ⟨g, hg, hsort⟩ := ns_sorted (fam n s)
  rw [C04_isQTS_iff_isWTS, isWTS_iff] at hs
  have hv := (sn_valid (ns_sn hg)).1 hs.2
  have ht : IsWTS n (ofFam n g) := isWTS_iff.2 ⟨wf_ofFam (PMFam.bd hv.pm), by rwa [fam_ofFam]⟩
  obtain ⟨l, h1, h2⟩ := mem_rowsums (ty := .quaternionType) ht.1 ht.2.1 (by
    rw [fam_ofFam]
    rcases hsort with h | h
    · exact .inl h
    · exact .inr ⟨rfl, h⟩)
  refine ⟨ofFam n g, l, (C04_isQTS_iff_isWTS n _).2 ht, ?_, ?_, h1, h2⟩
  · rw [fam_ofFam]; exact hg
  · rw [fam_ofFam]; exact ns_qt hg

/-- C24. Every Williamson-type sequence is equivalent, by negations and swaps alone, to one whose row sums are in the
generated list. -/
theorem C24_complete_wts (n : ℕ) [NeZero n] (s : QuadSeq) (hs : IsWTS n s) (ty : SeqType) :
    ∃ t l, IsWTS n t ∧ SNEquiv (fam n s) (fam n t) ∧ WTEquiv (fam n s) (fam n t) ∧
      generateRowsums n ty = some l ∧ rowsums t ∈ l := by
  obtain ⟨g, hg, hsort⟩ := sn_sorted (fam n s)
  rw [isWTS_iff] at hs
  have hv := (sn_valid hg).1 hs.2
  have ht : IsWTS n (ofFam n g) := isWTS_iff.2 ⟨wf_ofFam (PMFam.bd hv.pm), by rwa [fam_ofFam]⟩
  obtain ⟨l, h1, h2⟩ := mem_rowsums (ty := ty) ht.1 ht.2.1 (by rw [fam_ofFam]; exact .inl hsort)
  refine ⟨ofFam n g, l, ht, ?_, ?_, h1, h2⟩
  · rw [fam_ofFam]; exact hg
  · rw [fam_ofFam]; exact sn_wt hg

/-- C24. The same for Williamson sequences. -/
theorem C24_complete_ws (n : ℕ) [NeZero n] (s : QuadSeq) (hs : IsWS n s) (ty : SeqType) :
    ∃ t l, IsWS n t ∧ SNEquiv (fam n s) (fam n t) ∧ WSEquiv (fam n s) (fam n t) ∧
      generateRowsums n ty = some l ∧ rowsums t ∈ l := by
  obtain ⟨g, hg, hsort⟩ := sn_sorted (fam n s)
  rw [isWS_iff] at hs
  have hv := (sn_symf hg).1 hs.2
  have ht : IsWS n (ofFam n g) := isWS_iff.2 ⟨wf_ofFam (PMFam.bd hv.pm), by rwa [fam_ofFam]⟩
  obtain ⟨l, h1, h2⟩ := mem_rowsums (ty := ty) ht.1 ht.2.1 (by rw [fam_ofFam]; exact .inl hsort)
  refine ⟨ofFam n g, l, ht, ?_, ?_, h1, h2⟩
  · rw [fam_ofFam]; exact hg
  · rw [fam_ofFam]
    exact hg.mono fun _ _ h => .inr (.inr h)

/-- C24. What the row-sum filter keeps: the generated row sums of quaternion type and, in addition, quadruples with
`0 < a < b < c = -d`, because the duplicate test compares signed values. -/
theorem C24_filter_exact (n : ℕ) [NeZero n] (s : QuadSeq) (hs : PMQuad n s)
    (hc : Complementary (cyc n s.a) (cyc n s.b) (cyc n s.c) (cyc n s.d)) (l : List Quad)
    (hl : generateRowsums n .quaternionType = some l) :
    hasSortedRowsums s = true ↔ rowsums s ∈ l ∨
      (0 < rowsum s.a ∧ rowsum s.a < rowsum s.b ∧ rowsum s.b < rowsum s.c ∧ rowsum s.c = -rowsum s.d) := by
  obtain ⟨l', h1, _, h3⟩ := C24_rowsums_exact n .quaternionType
  rw [hl] at h1
  cases h1
  have := C25_sum_of_squares n s hs hc
  have pa := (C25_parity n _ hs.a).1
  have pb := (C25_parity n _ hs.b).1
  have pc := (C25_parity n _ hs.c).1
  have pd := (C25_parity n _ hs.d).1
  unfold rowsums
  rw [h3]
  simp only [this, pa, pb, pc, pd, true_and]
  unfold hasSortedRowsums quadContainsDup quadContainsZero rowsums
  simp only [Bool.or_eq_true, decide_eq_true_eq]
  split <;> rw [decide_eq_true_eq] <;> omega

/-- C24. The filter therefore loses no class of quaternion-type sequences either. -/
theorem C24_filter_complete (n : ℕ) [NeZero n] (s : QuadSeq) (hs : IsQTS n s) :
    ∃ t, IsQTS n t ∧ QTEquiv (fam n s) (fam n t) ∧ t ∈ filterByRowsums [t] := by
  obtain ⟨t, l, h1, _, h2, h3, h4⟩ := C24_complete_qts n s hs
  refine ⟨t, h1, h2, ?_⟩
  unfold filterByRowsums
  rw [List.mem_filter]
  exact ⟨List.mem_singleton_self _, (C24_filter_exact n t h1.1 h1.2.1 l h3).2 (.inl h4)⟩

/-- The filter and the generated list disagree: row sums `(1, 3, 5, -5)` pass the filter at length 15 but are not
generated. (The sequences with these row sums are equivalent to sequences with row sums `(1, 3, 5, 5)`.) -/
def exFilter15 : QuadSeq :=
  { size := 15, a := List.replicate 8 1 ++ List.replicate 7 (-1), b := List.replicate 9 1 ++ List.replicate 6 (-1),
    c := List.replicate 10 1 ++ List.replicate 5 (-1), d := List.replicate 5 1 ++ List.replicate 10 (-1) }

/-- C24. Witness of the disagreement. -/
theorem C24_filter_mismatch : hasSortedRowsums exFilter15 = true ∧
    ∀ l, generateRowsums 15 .quaternionType = some l → rowsums exFilter15 ∉ l := by
  refine ⟨by decide, fun l hl h => ?_⟩
  obtain ⟨l', h1, _, h3⟩ := C24_rowsums_exact 15 .quaternionType
  rw [hl] at h1
  cases h1
  have e : rowsums exFilter15 = (1, 3, 5, -5) := by decide
  rw [e, h3] at h
  omega

example : generateRowsums 3 .quaternionType = some [(1, 1, 1, 3)] := by decide +kernel
example : generateRowsums 3 .williamsonType = some [(1, 1, 1, 3)] := by decide +kernel
example : ∃ l, generateRowsums 21 .quaternionType = some l ∧ (1, 3, 5, -7) ∈ l := by
  obtain ⟨l, h, _, h3⟩ := C24_rowsums_exact 21 .quaternionType
  exact ⟨l, h, (h3 _ _ _ _).2 (by norm_num)⟩
example : ∃ t l, IsQTS 5 t ∧ NSEquiv (fam 5 exQTS5) (fam 5 t) ∧ QTEquiv (fam 5 exQTS5) (fam 5 t) ∧
    generateRowsums 5 .quaternionType = some l ∧ rowsums t ∈ l := C24_complete_qts 5 exQTS5 exQTS5_isQTS

end Props
