import Verif.Proofs.Solver
import Verif.Spec.Solver
import Verif.Props.Rowsum

/-!
# C72, C73: the equation files for a solver
-/

namespace Props
open Model Spec Proofs

theorem letter_tag {i : ℕ} {t : Tag} (h : indexToTag i = some t) : "WXYZ".toList[i]? = some t.toChar := by
  rcases i with _ | _ | _ | _ | i <;> first | (cases h; rfl) | cases h

theorem comment_eq {n : ℕ} {s1 s2 : List ℤ} (h1 : PMSeq n s1) (h2 : PMSeq n s2) (t1 t2 : Tag) (rs : Quad) :
    generateComment s1 t1 s2 t2 rs = some (commentFor t1.toChar t2.toChar s1 s2 rs) := by
  have key : ∀ {s : List ℤ}, PMSeq n s → sequenceToString s = some (signs s) := fun h => by
    rw [Files.seqToString_pm h.2]
    rfl
  unfold generateComment commentFor
  rw [key h1, key h2]
  simp only [Option.bind_some, Option.map_some, List.flatten_cons, List.flatten_nil, List.append_assoc, List.append_nil]
  rfl

theorem pairFile_iff (rs : Quad) {n : ℕ} {s1 s2 : List ℤ} (p1 : PMSeq n s1) (p2 : PMSeq n s2) (x : List Char) :
    PairFile rs s1 s2 x ↔ Solver.content rs (s1, s2) = some x := by
  unfold PairFile Solver.content
  simp only [Option.bind_eq_some_iff, Option.map_eq_some_iff]
  constructor
  · rintro ⟨t, u, l1, l2, e, h1, h2, h3, h4, h5, rfl⟩
    rw [letter_tag h1] at h3
    rw [letter_tag h2] at h4
    cases h3
    cases h4
    exact ⟨t, h1, u, h2, e, h5, _, comment_eq p1 p2 t u rs, rfl⟩
  · rintro ⟨t, h1, u, h2, e, h4, c, h3, rfl⟩
    rw [comment_eq p1 p2] at h3
    cases h3
    exact ⟨t, u, _, _, e, h1, h2, letter_tag h1, letter_tag h2, h4, rfl⟩

/-- C72. The run does not panic, and every file it leaves behind is the file of a pair of sequences with the two best
values of some generated row sum. -/
theorem C72_sound (n : ℕ) (hn : n < 2 ^ 62) (l : List Quad) (hl : generateRowsums n .quaternionType = some l) :
    ∃ ws, findWithRowsum exactFl n .quaternionType = some ws ∧ ∀ path x, fileAfter ws path = some x →
      ∃ rs ∈ l, ∃ s1 s2, (PMSeq n s1 ∧ s1.sum = (getTwoBest rs).1.1) ∧ (PMSeq n s2 ∧ s2.sum = (getTwoBest rs).2.1) ∧
        PairFile rs s1 s2 x := by
  obtain ⟨ws, h1, h2⟩ := Solver.find_sound hn hl
  refine ⟨ws, h1, fun p x hx => ?_⟩
  obtain ⟨rs, hrs, s1, s2, k1, k2, k3⟩ := h2 p x hx
  exact ⟨rs, hrs, s1, s2, k1, k2, (pairFile_iff _ k1.1 k2.1 _).2 k3⟩

/-- C72, the part that holds: a row sum that shares its two best values and their positions with no other generated row
sum keeps the files of all its pairs. Missing: the same for the other row sums, which is false (`C72_lost`). -/
theorem C72_complete_partial (n : ℕ) (hn : n < 2 ^ 62) (l : List Quad) (hl : generateRowsums n .quaternionType = some l)
    (rs : Quad) (hrs : rs ∈ l) (hu : ∀ rs' ∈ l, getTwoBest rs' = getTwoBest rs → rs' = rs) (s1 s2 : List ℤ)
    (h1 : PMSeq n s1) (h1' : s1.sum = (getTwoBest rs).1.1) (h2 : PMSeq n s2) (h2' : s2.sum = (getTwoBest rs).2.1) :
    ∃ ws path x, findWithRowsum exactFl n .quaternionType = some ws ∧ PairFile rs s1 s2 x ∧ fileAfter ws path = some x := by
  obtain ⟨ws, p, x, k1, k2, k3⟩ := Solver.find_complete hn hl hrs hu h1 h1' h2 h2'
  exact ⟨ws, p, x, k1, (pairFile_iff _ h1 h2 _).2 k2, k3⟩

/-- C72 fails when two row sums share the two best values: the directory is named after these only, and one of the two
row sums keeps no file at all. -/
theorem C72_lost (n : ℕ) (hn : n < 2 ^ 62) (l : List Quad) (hl : generateRowsums n .quaternionType = some l)
    (r1 r2 : Quad) (h1 : r1 ∈ l) (h2 : r2 ∈ l) (hne : r1 ≠ r2) (hb : getTwoBest r1 = getTwoBest r2) :
    ∃ ws rs, findWithRowsum exactFl n .quaternionType = some ws ∧ (rs = r1 ∨ rs = r2) ∧
      ∀ s1 s2 path x, PMSeq n s1 → PMSeq n s2 → PairFile rs s1 s2 x → fileAfter ws path ≠ some x := by
  obtain ⟨l', e, hnd, -⟩ := C24_rowsums_exact n .quaternionType
  rw [hl] at e
  cases e
  obtain ⟨ws, rs, k1, k2, k3⟩ := Solver.find_lost hn hl hnd h1 h2 hne hb
  exact ⟨ws, rs, k1, k2, fun s1 s2 p x p1 p2 hx => k3 s1 s2 p x p1 p2 ((pairFile_iff _ p1 p2 _).1 hx)⟩

/-- C72 fails at length 45: all files of `(1, 7, 7, 9)` or all files of `(5, 5, 7, 9)` are overwritten. -/
theorem C72_lost_45 : ∃ ws rs, findWithRowsum exactFl 45 .quaternionType = some ws ∧
    (rs = (1, 7, 7, 9) ∨ rs = (5, 5, 7, 9)) ∧
      ∀ s1 s2 path x, PMSeq 45 s1 → PMSeq 45 s2 → PairFile rs s1 s2 x → fileAfter ws path ≠ some x := by
  obtain ⟨l, hl, -, h3⟩ := C24_rowsums_exact 45 .quaternionType
  exact C72_lost 45 (by norm_num) l hl _ _ ((h3 1 7 7 9).2 (by norm_num)) ((h3 5 5 7 9).2 (by norm_num)) (by decide) (by decide)

/-- The hypotheses of the partial theorem are met at length 3, where the only row sum is `(1, 1, 1, 3)`. -/
example : ∃ ws path x, findWithRowsum exactFl 3 .quaternionType = some ws ∧
    PairFile (1, 1, 1, 3) [1, 1, -1] [1, 1, 1] x ∧ fileAfter ws path = some x := by
  have hl : generateRowsums 3 .quaternionType = some [(1, 1, 1, 3)] := by decide +kernel
  refine C72_complete_partial 3 (by norm_num) _ hl _ (by simp) (fun rs' h _ => by simpa using h) _ _ ?_ (by decide) ?_ (by decide)
  · exact ⟨rfl, by decide⟩
  · exact ⟨rfl, by decide⟩

/-! ## C73: the filter on single sequences -/

/-- C73 fails: with the bound `4n` of its only caller the filter rejects no sequence, because it compares with the square
of the bound. -/
theorem C73_never_rejects (n : ℕ) (l : List (List ℤ)) (hl : ∀ x ∈ l, PMSeq n x) :
    filteredDft exactFl l (exactFl.mul (exactFl.lit 4 1) (exactFl.ofInt n)) = l := Solver.filter_all l hl

/-- C73 fails: the constant sequence of length 5 has spectrum 25, above the bound 20, and is kept. -/
theorem C73_fails : ∃ x, PMSeq 5 x ∧ psd 5 x 0 > 4 * (5 : ℕ) ∧
    x ∈ filteredDft exactFl [x] (exactFl.mul (exactFl.lit 4 1) (exactFl.ofInt (5 : ℕ))) := by
  refine ⟨[1, 1, 1, 1, 1], ⟨rfl, by decide⟩, ?_, ?_⟩
  · have : dft 5 [1, 1, 1, 1, 1] 0 = 5 := by
      unfold dft unit
      simp [Finset.sum_range_succ]
      norm_num
    unfold psd
    rw [this]
    norm_num [Complex.normSq_apply]
  · rw [C73_never_rejects 5 _ (by intro x hx; rw [List.mem_singleton.1 hx]; exact ⟨rfl, by decide⟩)]
    exact List.mem_singleton_self _

/-- C73, the part that holds: every sequence whose spectrum is within the bound is kept, in particular every member of a
periodic complementary quadruple. Missing: that the others are rejected, which is false. -/
theorem C73_keeps_partial (n : ℕ) [NeZero n] (l : List (List ℤ)) (hl : ∀ x ∈ l, PMSeq n x) (a b c d : List ℤ)
    (ha : PMSeq n a) (hb : PMSeq n b) (hc : PMSeq n c) (hd : PMSeq n d)
    (h : Complementary (cyc n a) (cyc n b) (cyc n c) (cyc n d)) (hmem : a ∈ l) :
    (∀ k, psd n a k ≤ 4 * n) ∧ a ∈ filteredDft exactFl l (exactFl.mul (exactFl.lit 4 1) (exactFl.ofInt n)) := by
  refine ⟨fun k => ?_, by rw [C73_never_rejects n l hl]; exact hmem⟩
  have := Fourier.psd_sum ha hb hc hd h k
  have hb' := Fourier.psd_nonneg (n := n) b k
  have hc' := Fourier.psd_nonneg (n := n) c k
  have hd' := Fourier.psd_nonneg (n := n) d k
  linarith

end Props
