import Verif.Proofs.Enumerate
import Verif.Proofs.Rigid
import Verif.Props.Canonical
import Verif.Props.Rowsum
import Verif.Props.Matching

/-!
# Properties C07 (stored sequences), C29-C33, C50, C51, C55, C59, C60: the file pipeline
-/

set_option linter.unusedVariables false

namespace Props
open Model Spec Proofs

/-! ## C07: text encoding of ±1 sequences -/

/-- C07. Printing a ±1 sequence never panics, the text has one character per entry, and reading it gives the sequence
back. -/
theorem C07_pm_print_read (s : List ℤ) (h : ∀ v ∈ s, v = 1 ∨ v = -1) :
    ∃ t, sequenceToString s = some t ∧ t.length = s.length ∧ stringToSequence t = some s :=
  ⟨_, Files.seqToString_pm h, by simp [Files.pmText], Files.stringToSeq_pm h⟩

/-- C07. Reading a text over `+`, `-` and printing gives the text back. -/
theorem C07_pm_read_print (t : Text) (s : List ℤ) (h : stringToSequence t = some s) :
    (∀ v ∈ s, v = 1 ∨ v = -1) ∧ sequenceToString s = some t := by
  obtain ⟨h1, h2⟩ := Files.stringToSeq_some h
  exact ⟨h1, by rw [h2]; exact Files.seqToString_pm h1⟩

/-- C07. Reading panics exactly on texts with a foreign character. -/
theorem C07_pm_read_panics (t : Text) : stringToSequence t = none ↔ ∃ c ∈ t, c ≠ '+' ∧ c ≠ '-' := by
  unfold stringToSequence
  rw [mapM_eq_none]
  have : ∀ c, charToPm c = none ↔ c ≠ '+' ∧ c ≠ '-' := by
    intro c
    unfold charToPm
    split <;> simp_all
  simp only [this]

/-- C07. Printing panics exactly on sequences with an entry other than ±1. -/
theorem C07_pm_print_panics (s : List ℤ) : sequenceToString s = none ↔ ∃ v ∈ s, v ≠ 1 ∧ v ≠ -1 := by
  unfold sequenceToString
  rw [mapM_eq_none]
  have : ∀ v, pmToChar v = none ↔ v ≠ 1 ∧ v ≠ -1 := by
    intro v
    unfold pmToChar
    split <;> simp_all
  simp only [this]

/-- C07. A file of ±1 sequences is read back completely and in order. -/
theorem C07_file_roundtrip (l : List (List ℤ)) (h : ∀ s ∈ l, ∀ v ∈ s, v = 1 ∨ v = -1) :
    ∃ t, sequencesText l = some t ∧ fileToSequences t = some l :=
  ⟨_, Files.sequencesText_pm h, Files.fileToSeq_pm h⟩

example : stringToSequence "+-+".toList = some [1, -1, 1] ∧ stringToSequence "+0".toList = none ∧
    (sequencesText [[1, -1], [-1, -1]]).bind fileToSequences = some [[1, -1], [-1, -1]] := by decide

/-! ## C50: buffered writing -/

/-- C50. The file consists of the lines in order, each exactly once; reading gives them back. -/
theorem C50_contents (lines : List Text) (h : ∀ l ∈ lines, '\n' ∉ l ∧ '\r' ∉ l) :
    readLines (writeBlocks lines).flatten = lines := by
  rw [Txt.writeBlocks_flatten]; exact Txt.readLines_unlines lines h

/-- C50. After any number of write calls but the last, the file holds exactly the first lines, in blocks of 1000. -/
theorem C50_prefix (lines : List Text) (h : ∀ l ∈ lines, '\n' ∉ l ∧ '\r' ∉ l) :
    (writeBlocks lines).length = lines.length / 1000 + 1 ∧
    ∀ k, k < (writeBlocks lines).length →
      readLines ((writeBlocks lines).take k).flatten = lines.take (1000 * k) := by
  refine ⟨Txt.writeBlocks_length lines, fun k hk => ?_⟩
  rw [Txt.writeBlocks_take lines hk]
  exact Txt.readLines_unlines _ fun l hl => h l (List.mem_of_mem_take hl)

/-- C50. The lines handed to the writer: the indices of the surviving pairs, strictly increasing in lexicographic order,
so no pair occurs twice; they are exactly the pairs that pass the filter and are not dropped. -/
theorem C50_pairs_once {K : Type} (A : Fl K) (s1 s2 : List (List ℤ)) (h1 : s1.length < 2 ^ 64) (h2 : s2.length < 2 ^ 64)
    (tags : Tag × Tag) (ty : SeqType) (p : ℕ) (side : Side) (mo : MatchOption) (lines : List Text)
    (h : pairLines A s1 s2 tags ty p side mo = some lines) :
    lines.Pairwise (fun a b => ∃ k l i j i' j', getLineFrom a = some (k, (i, j)) ∧ getLineFrom b = some (l, (i', j')) ∧
      (i < i' ∨ i = i' ∧ j < j')) ∧
    ∀ l, l ∈ lines ↔ ∃ i j x y d v, s1[i]? = some x ∧ s2[j]? = some y ∧
      pairData A (A.mul (A.lit 4 1) (A.ofInt p)) (x, i) (y, j) = some d ∧
      pairKey A ty side mo tags p d = some (some v) ∧ l = lineText v i j :=
  Enumerate.pairLines_once A h1 h2 tags ty p side mo h

/-- 2001 lines: three blocks, and after two of them the first 2000 lines. -/
example : (writeBlocks (List.replicate 2001 "1_:_0_0".toList)).length = 3 := by
  rw [(C50_prefix _ (by intro l hl; rw [List.eq_of_mem_replicate hl]; decide)).1, List.length_replicate]

/-! ## C51: pair lines -/

/-- C51. A written line is parsed back to its indices and a key that depends only on the values. -/
theorem C51_line_roundtrip (v : List ℤ) (i j : ℕ) (hi : i < 2 ^ 64) (hj : j < 2 ^ 64) :
    getLineFrom (lineText v i j) = some (keyOf v, (i, j)) := Txt.getLine_lineText v hi hj

/-- C51. Different values give different keys. -/
theorem C51_keys_injective (u v : List ℤ) (i j k l : ℕ) (hi : i < 2 ^ 64) (hj : j < 2 ^ 64) (hk : k < 2 ^ 64)
    (hl : l < 2 ^ 64) (h : (getLineFrom (lineText u i j)).map Prod.fst = (getLineFrom (lineText v k l)).map Prod.fst) :
    u = v := by
  rw [Txt.getLine_lineText u hi hj, Txt.getLine_lineText v hk hl] at h
  exact Txt.keyOf_inj (Option.some.inj h)

example : lineText [-3, 0, 12] 4 17 = "-3_0_12_:_4_17".toList ∧
    getLineFrom "-3_0_12_:_4_17".toList = some ("-3_0_12".toList, (4, 17)) ∧
    lineText [] 0 5 = "_:_0_5".toList ∧ getLineFrom "_:_0_5".toList = some ([], (0, 5)) := by decide

/-! ## C29: completeness of the sorted-file join -/

/-- Two files as left by the sorting stage: the only key of the second occurs in the first, but behind a key it is a
digit-prefix of. -/
def exFile12 : List Text := ["1_23_:_0_0".toList, "1_2_:_0_1".toList]
/-- The second file. -/
def exFile34 : List Text := ["1_2_:_0_0".toList]

/-- C29 is false: both files are sorted bytewise, the key `1_2` occurs in both, and the join finds nothing. -/
theorem C29_join_loses_match :
    sortText (unlines exFile12) = unlines exFile12 ∧ sortText (unlines exFile34) = unlines exFile34 ∧
    getLineFrom "1_2_:_0_1".toList = some ("1_2".toList, (0, 1)) ∧ "1_2_:_0_1".toList ∈ exFile12 ∧
    getLineFrom "1_2_:_0_0".toList = some ("1_2".toList, (0, 0)) ∧ "1_2_:_0_0".toList ∈ exFile34 ∧
    joinLoop 4 exFile12 exFile34 = some [] := by
  have h : ∀ l : List Text, l = exFile12 ∨ l = exFile34 → sortText (unlines l) = unlines l := by
    rintro l (rfl | rfl) <;> unfold sortText <;> rw [List.mergeSort_of_pairwise]
    all_goals decide
  exact ⟨h _ (.inl rfl), h _ (.inr rfl), by decide⟩

/-- C29, what does hold: on sorted files of lines that can be parsed the join ends normally and returns every
combination of lines whose common key is not a proper prefix or extension of another key in the files. Missing for the
full property: keys that are prefixes of each other, for which it fails. -/
theorem C29_join_complete_partial (l12 l34 : List Text) (h12 : ∀ l ∈ l12, ∃ p, getLineFrom l = some p)
    (h34 : ∀ l ∈ l34, ∃ p, getLineFrom l = some p) (s12 : l12.Pairwise fun a b => textLe a b = true)
    (s34 : l34.Pairwise fun a b => textLe a b = true) :
    ∃ r, joinLoop (l12.length + l34.length + 1) l12 l34 = some r ∧
      ∀ key, (∀ l ∈ l12 ++ l34, ∀ k p, getLineFrom l = some (k, p) → k = key ∨ (¬ key <+: k ∧ ¬ k <+: key)) →
        ∀ a ∈ l12, ∀ b ∈ l34, ∀ p q, getLineFrom a = some (key, p) → getLineFrom b = some (key, q) → (p, q) ∈ r := by
  obtain ⟨r, hr, _⟩ := Join.loop_sound (l12.length + l34.length + 1) l12 l34 h12 h34 (Nat.lt_succ_self _)
  refine ⟨r, hr, fun key hk a ha b hb p q hp hq => ?_⟩
  exact Join.loop_complete key _ l12 l34 h12 h34 s12 s34 (fun l hl => hk l (List.mem_append_left _ hl))
    (fun l hl => hk l (List.mem_append_right _ hl)) (Nat.lt_succ_self _) r hr ha hb hp hq

example : joinLoop 6 ["-3_:_0_0".toList, "1_2_:_0_1".toList, "1_2_:_4_1".toList] ["1_2_:_7_0".toList, "1_2_:_8_9".toList] =
    some [((0, 1), (7, 0)), ((0, 1), (8, 9)), ((4, 1), (7, 0)), ((4, 1), (8, 9))] := by decide

/-! ## C30: soundness of the join -/

/-- C30. Whatever the files of a directory contain and in whatever order they are listed: if the join ends normally,
every quadruple returned is of the requested type; its four sequences are those stored in the files `seq_W.seq`, ...,
`seq_Z.seq` at the indices given by two lines with the same key, one of each of two sorted pair files, where the indices
belong to the tags in the names of these files. -/
theorem C30_join_sound (n : ℕ) [NeZero n] (ty : SeqType) (hty : Supported ty) (d : Dir) (r : List QuadSeq)
    (h : joinDir ty d = some r)
    (hlen : ∀ f ∈ d, ∀ t, f.1 = seqFileName t → ∀ l, fileToSequences f.2 = some l → ∀ x ∈ l, x.length = n) :
    ∀ q ∈ r, OfType n ty q ∧ ∃ n12 n34 f12 f34 o ix k a b, (n12, f12) ∈ d ∧ (n34, f34) ∈ d ∧
      (pairSuffix ++ sortedSuffix).isSuffixOf n12 = true ∧ (pairSuffix ++ sortedSuffix).isSuffixOf n34 = true ∧
      getTagFromFilename n12 = some (o.1, o.2.1) ∧ getTagFromFilename n34 = some (o.2.2.1, o.2.2.2) ∧
      a ∈ readLines f12 ∧ b ∈ readLines f34 ∧ getLineFrom a = some (k, (ix.1, ix.2.1)) ∧
      getLineFrom b = some (k, (ix.2.2.1, ix.2.2.2)) ∧
      ∀ t, ∃ f ∈ d, ∃ l i, f.1 = seqFileName t ∧ fileToSequences f.2 = some l ∧ Enumerate.posOf o ix t = some i ∧
        l[i]? = some (q.sequence t) :=
  Enumerate.dir_sound hty h hlen

/-- A directory of length 1 whose files are listed in an unusual order; the join returns one sequence. -/
def exDir1 : Dir :=
  [("seq_Z.seq".toList, "+\n".toList), ("pair_XY.pair.sorted".toList, "_:_0_0\n".toList), ("seq_W.seq".toList, "-\n+\n".toList),
    ("pair_WZ.pair.sorted".toList, "_:_1_0\n".toList), ("seq_Y.seq".toList, "+\n".toList), ("seq_X.seq".toList, "-\n".toList)]

example : joinDir .williamsonType exDir1 = some [{ size := 1, a := [1], b := [-1], c := [1], d := [1] }] := by decide

/-! ## C31: one row-sum directory -/

/-- C28. Exact arithmetic is within the error bounds of both matching options, for every length. -/
theorem C28_numerics (n : ℕ) [NeZero n] (mo : MatchOption) : Numerics exactFl id n mo := Rigid.exact_numerics mo

/-- C31. With either matching option, for every arithmetic within its error bounds: the pair stage of one row-sum
quadruple ends normally, and after sorting, however the directory is listed, the join returns exactly the sequences of
the requested type with these row sums. (The bound on the number of sequences per row sum excludes an overflow of line
numbers; it holds whenever `n < 64`, see below.) -/
theorem C31_directory {K : Type} (A : Fl K) (val : K → ℝ) (n : ℕ) [NeZero n] {mo : MatchOption} (hN : Numerics A val n mo) (hn : n < 2 ^ 62) (ty : SeqType) (hty : Supported ty) (rs : Quad)
    (hrs : rs.1 ^ 2 + rs.2.1 ^ 2 + rs.2.2.1 ^ 2 + rs.2.2.2 ^ 2 = 4 * n)
    (hfit : ∀ t, (rowsumSequences ty (tagRowsum rs t) n).length < 2 ^ 64) (pr : Option Pairing) :
    ∃ d0, writePairsRowsum A ty rs n mo pr = some d0 ∧ ∀ d, d.Perm (sortDir d0) →
      ∃ r, joinDir ty d = some r ∧ ∀ q, q ∈ r ↔ OfType n ty q ∧ (q.a.sum, q.b.sum, q.c.sum, q.d.sum) = rs :=
  Rigid.dir_all A val hN hn hty rs hrs hfit pr

/-- C31. The same for lengths below 64, without the bound on the number of sequences. -/
theorem C31_directory_small {K : Type} (A : Fl K) (val : K → ℝ) (n : ℕ) [NeZero n] {mo : MatchOption} (hN : Numerics A val n mo) (hn : n < 64) (ty : SeqType) (hty : Supported ty) (rs : Quad)
    (hrs : rs.1 ^ 2 + rs.2.1 ^ 2 + rs.2.2.1 ^ 2 + rs.2.2.2 ^ 2 = 4 * n) (pr : Option Pairing) :
    ∃ d0, writePairsRowsum A ty rs n mo pr = some d0 ∧ ∀ d, d.Perm (sortDir d0) →
      ∃ r, joinDir ty d = some r ∧ ∀ q, q ∈ r ↔ OfType n ty q ∧ (q.a.sum, q.b.sum, q.c.sum, q.d.sum) = rs := by
  have hn' : n < 2 ^ 62 := lt_of_lt_of_le hn (by norm_num)
  refine Rigid.dir_all A val hN hn' hty rs hrs (fun t => ?_) pr
  obtain ⟨h1, h2⟩ := Complete.rowsum_small hn' rs hrs t
  exact lt_of_le_of_lt (Complete.rowsumSequences_length hn' ty h1 h2) (Nat.pow_lt_pow_right (by norm_num) hn)

/-- The hypotheses are met by exact arithmetic and the row sums of `exQTS5`, so the run is not empty. -/
example : ∃ d0, writePairsRowsum exactFl .quaternionType (rowsums exQTS5) 5 .correlation (some .WX) = some d0 ∧
    ∃ r, joinDir .quaternionType (sortDir d0) = some r ∧ exQTS5 ∈ r := by
  obtain ⟨d0, h0, h⟩ := C31_directory_small exactFl id 5 (C28_numerics 5 _) (by norm_num)
    .quaternionType (.inl rfl) (rowsums exQTS5) (by decide) (some .WX)
  obtain ⟨r, hr, hq⟩ := h _ (List.Perm.refl _)
  exact ⟨d0, h0, r, hr, (hq _).2 ⟨exQTS5_isQTS, by decide⟩⟩

/-! ## C32: the whole enumeration -/

theorem typeEquiv_ofType {n : ℕ} [NeZero n] {ty : SeqType} (hty : ty = .quaternionType ∨ ty = .williamsonType)
    {s t : QuadSeq} (hs : OfType n ty s) (ht : PMQuad n t) (h : TypeEquiv ty (fam n s) (fam n t)) : OfType n ty t := by
  rcases hty with rfl | rfl
  · have hw := (isWTS_iff.1 ((C04_isQTS_iff_isWTS n s).1 hs)).2
    refine (C04_isQTS_iff_isWTS n t).2 (isWTS_iff.2 ⟨PMQuad.wf ht, ?_⟩)
    have h' : QTEquiv (fam n s) (fam n t) := h
    unfold QTEquiv at h'
    rw [eqvGen_pres pres_QT] at h'
    exact h'.rec hw fun _ h ih => valid_QTMove h ih
  · have hw := (isWTS_iff.1 hs).2
    refine isWTS_iff.2 ⟨PMQuad.wf ht, ?_⟩
    have h' : WTEquiv (fam n s) (fam n t) := h
    unfold WTEquiv at h'
    rw [eqvGen_pres pres_WT] at h'
    exact h'.rec hw fun _ h ih => valid_WTMove h ih

/-- The pair stage, sorting and matching of all directories, for lengths below 64. -/
theorem pipeline_all {K : Type} (A : Fl K) (val : K → ℝ) (n : ℕ) [NeZero n] {mo : MatchOption} (hN : Numerics A val n mo) (hn : n < 64) (ty : SeqType) (hty : Supported ty) (pr : Option Pairing) :
    ∃ l w, generateRowsums n ty = some l ∧ writePairs A n ty mo pr = some w ∧ (w.map Prod.fst).Nodup ∧
      ∀ dirs, Listing w dirs → ∃ r, joinAll ty dirs = some r ∧ ∀ q, q ∈ r ↔ OfType n ty q ∧ rowsums q ∈ l := by
  obtain ⟨l, hl, hnd, _⟩ := C24_rowsums_exact n ty
  have hn' : n < 2 ^ 62 := lt_of_lt_of_le hn (by norm_num)
  obtain ⟨w, h1, h2, h3⟩ := Complete.all_dirs A mo hl pr fun rs hrs =>
    C31_directory_small A val n hN hn ty hty rs (Complete.generated_squares hl hrs) pr
  refine ⟨l, w, hl, h1, ?_, fun dirs hd => ?_⟩
  · rw [h2]
    exact hnd.map fun a b h => Complete.dirName_inj h
  · obtain ⟨r, hr, hq⟩ := h3 dirs hd
    refine ⟨r, hr, fun q => ?_⟩
    rw [hq]
    unfold rowsums
    simp only [rowsum_eq_sum]

/-- The join stage on directories whose matches are the sequences of the type with generated row sums. -/
theorem enumeration_core {n : ℕ} [NeZero n] (hn : n ≤ 31) {ty : SeqType}
    (hty : ty = .quaternionType ∨ ty = .williamsonType) {l : List Quad} (hl : generateRowsums n ty = some l)
    {dirs : List (Text × Dir)} {m : List QuadSeq} (hm : joinAll ty dirs = some m)
    (hmem : ∀ q, q ∈ m ↔ OfType n ty q ∧ rowsums q ∈ l) (hex : ∃ q, OfType n ty q) :
    ∃ r, joinPairs ty dirs = some r ∧ r.Nodup ∧ (∀ x, x ∈ r ↔ LeastInClass n ty x) ∧ (∀ x ∈ r, OfType n ty x) ∧
      ∀ s, OfType n ty s → ∃ x ∈ r, TypeEquiv ty (fam n s) (fam n x) ∧
        ∀ y ∈ r, TypeEquiv ty (fam n s) (fam n y) → y = x := by
  have hsup : Supported ty := by rcases hty with h | h <;> simp [Supported, h]
  have he : (CanEquiv ty : Fam n → Fam n → Prop) = TypeEquiv ty := by rcases hty with rfl | rfl <;> rfl
  have hE := typeEquiv_equivalence n ty
  have hrep : ∀ s, OfType n ty s → ∃ t ∈ m, TypeEquiv ty (fam n s) (fam n t) := by
    intro s hs
    rcases hty with rfl | rfl
    · obtain ⟨t, l', k1, _, k2, k3, k4⟩ := C24_complete_qts n s hs
      rw [hl] at k3
      cases k3
      exact ⟨t, (hmem t).2 ⟨k1, k4⟩, k2⟩
    · obtain ⟨t, l', k1, _, k2, k3, k4⟩ := C24_complete_wts n s hs .williamsonType
      rw [hl] at k3
      cases k3
      exact ⟨t, (hmem t).2 ⟨k1, k4⟩, k2⟩
  have hpm : ∀ s ∈ m, PMQuad n s := fun s hs => (Keys.ofType_wts ((hmem s).1 hs).1).1
  have hne : m ≠ [] := by
    obtain ⟨q, hq⟩ := hex
    obtain ⟨t, ht, _⟩ := hrep q hq
    exact List.ne_nil_of_mem ht
  obtain ⟨r, hr, hnd, hx⟩ := Enumerate.joinPairs_spec hn hsup hm hne hpm
  rw [he] at hx
  have hleast : ∀ x, x ∈ r ↔ LeastInClass n ty x := by
    intro x
    rw [hx]
    constructor
    · rintro ⟨s, hs, hsx⟩
      exact ⟨typeEquiv_ofType hty ((hmem s).1 hs).1 hsx.1.1 hsx.1.2, fun t ht hxt =>
        hsx.2 t ⟨ht, hE.trans hsx.1.2 hxt⟩⟩
    · rintro ⟨hx1, hx2⟩
      obtain ⟨t, ht, hxt⟩ := hrep x hx1
      exact ⟨t, ht, ⟨(Keys.ofType_wts hx1).1, hE.symm hxt⟩, fun u hu => hx2 u hu.1 (hE.trans hxt hu.2)⟩
  refine ⟨r, hr, hnd, hleast, fun x hx => ((hleast x).1 hx).1, fun s hs => ?_⟩
  obtain ⟨t, ht, hst⟩ := hrep s hs
  obtain ⟨G, hG⟩ := group_exists (n := n) hn (canonicalOps_sub ty)
  obtain ⟨x, _, hxl⟩ := qtCanonical_spec hn hsup (hpm t ht) hG
  rw [he] at hxl
  refine ⟨x, (hx x).2 ⟨t, ht, hxl⟩, hE.trans hst hxl.1.2, fun y hy hsy => ?_⟩
  obtain ⟨u, hu, huy⟩ := (hx y).1 hy
  exact (rep_eq_iff hE (hpm u hu) (hpm t ht) huy hxl).2 (hE.trans huy.1.2 (hE.trans (hE.symm hsy) hst))

/-- C32. For QT and Williamson-type sequences of length 1 to 31, with either matching option, any pairing and
any arithmetic within the error bounds: the pair stage ends normally and uses a different directory for every row-sum
quadruple; and after sorting, however directories and files are listed, the join stage returns, without repetition,
exactly the lexicographically least member of every equivalence class (if there is any sequence at all), so exactly one
sequence equivalent to any given one. -/
theorem C32_enumeration {K : Type} (A : Fl K) (val : K → ℝ) (n : ℕ) [NeZero n] (hn : n ≤ 31) {mo : MatchOption} (hN : Numerics A val n mo) (ty : SeqType) (hty : ty = .quaternionType ∨ ty = .williamsonType) (pr : Option Pairing) :
    ∃ w, writePairs A n ty mo pr = some w ∧ (w.map Prod.fst).Nodup ∧
      ∀ dirs, Listing w dirs → (∃ q, OfType n ty q) →
        ∃ r, joinPairs ty dirs = some r ∧ r.Nodup ∧ (∀ x, x ∈ r ↔ LeastInClass n ty x) ∧ (∀ x ∈ r, OfType n ty x) ∧
          ∀ s, OfType n ty s → ∃ x ∈ r, TypeEquiv ty (fam n s) (fam n x) ∧
            ∀ y ∈ r, TypeEquiv ty (fam n s) (fam n y) → y = x := by
  have hsup : Supported ty := by rcases hty with h | h <;> simp [Supported, h]
  obtain ⟨l, w, hl, h1, h2, h3⟩ := pipeline_all A val n hN (by omega) ty hsup pr
  refine ⟨w, h1, h2, fun dirs hd hex => ?_⟩
  obtain ⟨m, hm, hmem⟩ := h3 dirs hd
  exact enumeration_core hn hty hl hm hmem hex

/-- C32. For Williamson-type sequences the second list returned contains exactly one sequence of every QT class. -/
theorem C32_up_to_qt {K : Type} (A : Fl K) (val : K → ℝ) (n : ℕ) [NeZero n] (hn : n ≤ 31) {mo : MatchOption} (hN : Numerics A val n mo) (pr : Option Pairing) (hex : ∃ q, IsWTS n q) :
    ∃ w, writePairs A n .williamsonType mo pr = some w ∧ ∀ dirs, Listing w dirs →
      ∃ r r', findWriteQuadSeq n .williamsonType dirs = some (r, some r') ∧ r'.Nodup ∧
        joinPairs .williamsonType dirs = some r ∧
        (∀ x ∈ r', IsWTS n x) ∧ ∀ s, IsWTS n s → ∃ x ∈ r', QTEquiv (fam n s) (fam n x) ∧
          ∀ y ∈ r', QTEquiv (fam n s) (fam n y) → y = x := by
  obtain ⟨w, h1, _, h3⟩ := C32_enumeration A val n hn hN .williamsonType (.inr rfl) pr
  refine ⟨w, h1, fun dirs hd => ?_⟩
  obtain ⟨r, hr, _, _, hty, hrep⟩ := h3 dirs hd hex
  have hne : r ≠ [] := by
    obtain ⟨q, hq⟩ := hex
    obtain ⟨x, hx, _⟩ := hrep q hq
    exact List.ne_nil_of_mem hx
  obtain ⟨r', hr', hnd, huniq⟩ := C21_pipeline n hn r hne hty fun t ht => by
    obtain ⟨x, hx, h, _⟩ := hrep t ht
    exact ⟨x, hx, .symm _ _ h⟩
  refine ⟨r, r', ?_, hnd, hr, fun x hx => ?_, huniq⟩
  · unfold findWriteQuadSeq
    rw [hr, Option.bind_some]
    dsimp only
    rw [hr']; rfl
  · have hpm : ∀ q ∈ expandWts n r, PMQuad n q := fun q hq => (C21_sound n r hty q hq).1.1
    obtain ⟨r'', k1, _, k3, _⟩ := C17_reduce n hn .quaternionType (.inl rfl) (expandWts n r) (by
      obtain ⟨x, hx⟩ := List.exists_mem_of_ne_nil r hne
      exact List.ne_nil_of_mem (List.mem_append_left _ hx)) hpm
    rw [hr'] at k1
    cases k1
    obtain ⟨hp, s, hs, hsx⟩ := k3 x hx
    exact (C04_isQTS_iff_isWTS n x).1
      (typeEquiv_ofType (.inl rfl) ((C04_isQTS_iff_isWTS n s).2 (C21_sound n r hty s hs).1) hp hsx)

/-- C32 for Williamson sequences, as far as it goes: the result contains, without repetition, exactly the least member
of every Williamson-type class that contains a Williamson sequence. Missing: the outputs need not be symmetric, and
classes of Williamson sequences that fall into one Williamson-type class are merged (see C18). -/
theorem C32_williamson_partial {K : Type} (A : Fl K) (val : K → ℝ) (n : ℕ) [NeZero n] (hn : n ≤ 31)
    {mo : MatchOption} (hN : Numerics A val n mo) (pr : Option Pairing) (hex : ∃ q, IsWS n q) :
    ∃ w, writePairs A n .williamson mo pr = some w ∧ ∀ dirs, Listing w dirs →
      ∃ r, joinPairs .williamson dirs = some r ∧ r.Nodup ∧ ∀ x, x ∈ r ↔
        LeastInClass n .williamsonType x ∧ ∃ s, IsWS n s ∧ WTEquiv (fam n s) (fam n x) := by
  obtain ⟨l, w, hl, h1, h2, h3⟩ := pipeline_all A val n hN (by omega) .williamson (by simp [Supported]) pr
  refine ⟨w, h1, fun dirs hd => ?_⟩
  obtain ⟨m, hm, hmem⟩ := h3 dirs hd
  have hE := typeEquiv_equivalence n .williamsonType
  have hrep : ∀ s, IsWS n s → ∃ t ∈ m, WTEquiv (fam n s) (fam n t) := by
    intro s hs
    obtain ⟨t, l', k1, k2, _, k3, k4⟩ := C24_complete_ws n s hs .williamson
    rw [hl] at k3
    cases k3
    exact ⟨t, (hmem t).2 ⟨k1, k4⟩, sn_wt k2⟩
  have hpm : ∀ s ∈ m, PMQuad n s := fun s hs => (Keys.ofType_wts ((hmem s).1 hs).1).1
  have hne : m ≠ [] := by
    obtain ⟨q, hq⟩ := hex
    obtain ⟨t, ht, _⟩ := hrep q hq
    exact List.ne_nil_of_mem ht
  obtain ⟨r, hr, hnd, hx⟩ := Enumerate.joinPairs_spec hn (.inr (.inr rfl)) hm hne hpm
  refine ⟨r, hr, hnd, fun x => ?_⟩
  rw [hx]
  constructor
  · rintro ⟨s, hs, hsx⟩
    have hws : IsWS n s := ((hmem s).1 hs).1
    have hwx : WTEquiv (fam n s) (fam n x) := hsx.1.2
    refine ⟨⟨typeEquiv_ofType (.inr rfl) (isWTS_of_isWS hws) hsx.1.1 hwx, fun t ht hxt => ?_⟩, s, hws, hwx⟩
    exact hsx.2 t ⟨ht, .trans _ _ _ hwx hxt⟩
  · rintro ⟨⟨hx1, hx2⟩, s, hs, hsx⟩
    obtain ⟨t, ht, hst⟩ := hrep s hs
    have hxt : WTEquiv (fam n x) (fam n t) := .trans _ _ _ (.symm _ _ hsx) hst
    have hx1' : IsWTS n x := hx1
    exact ⟨t, ht, ⟨hx1'.1, .symm _ _ hxt⟩, fun u hu => hx2 u hu.1 (.trans _ _ _ hxt hu.2)⟩

/-- Every written set of directories has a listing, e.g. the order of writing. -/
theorem listing_self (w : List (Text × Dir)) : Listing w (w.map fun d => (d.1, sortDir d.2)) := by
  refine ⟨w, List.Perm.refl _, ?_⟩
  induction w with
  | nil => exact .nil
  | cons d ds ih => exact .cons ⟨rfl, List.Perm.refl _⟩ ih

/-- The hypotheses are met at lengths 5 (QT) and 3 (Williamson-type), so the results are not empty. -/
example : ∃ w r, writePairs exactFl 5 .quaternionType .correlation none = some w ∧
    joinPairs .quaternionType (w.map fun d => (d.1, sortDir d.2)) = some r ∧ r ≠ [] := by
  obtain ⟨w, h1, _, h3⟩ := C32_enumeration exactFl id 5 (by norm_num) (C28_numerics 5 _)
    .quaternionType (.inl rfl) none
  obtain ⟨r, hr, _, _, _, hrep⟩ := h3 _ (listing_self w) ⟨exQTS5, exQTS5_isQTS⟩
  obtain ⟨x, hx, _⟩ := hrep exQTS5 exQTS5_isQTS
  exact ⟨w, r, h1, hr, List.ne_nil_of_mem hx⟩
example : ∃ q, IsWTS 3 q := ⟨exWS3, isWTS_of_isWS exWS3_isWS⟩
example : ∃ q, IsWS 3 q := ⟨exWS3, exWS3_isWS⟩

/-! ## C33: independence of pairing and listing order -/

/-- C33. Two runs with any pairings, any arithmetics within the error bounds and any listings return the same sequences,
up to their order. -/
theorem C33_same_result {K K' : Type} (A : Fl K) (val : K → ℝ) (A' : Fl K') (val' : K' → ℝ) (n : ℕ) [NeZero n]
    (hn : n ≤ 31) {mo : MatchOption} (hN : Numerics A val n mo) {mo' : MatchOption} (hN' : Numerics A' val' n mo')
    (ty : SeqType) (hty : ty = .quaternionType ∨ ty = .williamsonType) (hex : ∃ q, OfType n ty q)
    (pr pr' : Option Pairing) :
    ∃ w w', writePairs A n ty mo pr = some w ∧ writePairs A' n ty mo' pr' = some w' ∧
      ∀ dirs dirs', Listing w dirs → Listing w' dirs' →
        ∃ r r', joinPairs ty dirs = some r ∧ joinPairs ty dirs' = some r' ∧ r.Perm r' := by
  obtain ⟨w, h1, _, h3⟩ := C32_enumeration A val n hn hN ty hty pr
  obtain ⟨w', h1', _, h3'⟩ := C32_enumeration A' val' n hn hN' ty hty pr'
  refine ⟨w, w', h1, h1', fun dirs dirs' hd hd' => ?_⟩
  obtain ⟨r, hr, hnd, hm, _⟩ := h3 dirs hd hex
  obtain ⟨r', hr', hnd', hm', _⟩ := h3' dirs' hd' hex
  exact ⟨r, r', hr, hr', (List.perm_ext_iff_of_nodup hnd hnd').2 fun x => (hm x).trans (hm' x).symm⟩

/-- C33. Before the reduction, too, the matches of a directory do not depend on the pairing or the listing. -/
theorem C33_same_matches {K : Type} (A : Fl K) (val : K → ℝ) (n : ℕ) [NeZero n] (hn : n < 64)
    {mo : MatchOption} (hN : Numerics A val n mo) (ty : SeqType) (hty : Supported ty) (pr pr' : Option Pairing) :
    ∃ w w', writePairs A n ty mo pr = some w ∧ writePairs A n ty mo pr' = some w' ∧
      ∀ dirs dirs', Listing w dirs → Listing w' dirs' →
        ∃ r r', joinAll ty dirs = some r ∧ joinAll ty dirs' = some r' ∧ ∀ q, q ∈ r ↔ q ∈ r' := by
  obtain ⟨l, w, hl, h1, _, h3⟩ := pipeline_all A val n hN hn ty hty pr
  obtain ⟨l', w', hl', h1', _, h3'⟩ := pipeline_all A val n hN hn ty hty pr'
  rw [hl] at hl'
  cases hl'
  refine ⟨w, w', h1, h1', fun dirs dirs' hd hd' => ?_⟩
  obtain ⟨r, hr, hq⟩ := h3 dirs hd
  obtain ⟨r', hr', hq'⟩ := h3' dirs' hd'
  exact ⟨r, r', hr, hr', fun q => (hq q).trans (hq' q).symm⟩

example : (∃ q, OfType 5 .quaternionType q) ∧ Accurate exactFl id 5 ∧ FilterSafe exactFl 5 :=
  ⟨⟨exQTS5, exQTS5_isQTS⟩, C28_exact_accurate 5⟩

/-! ## C55: names -/

/-- C55. The name of a sequence type used in paths is read back as the type; every other text is rejected. -/
theorem C55_seqtype_roundtrip (ty : SeqType) (t : Text) : strToSeqtype t = some ty ↔ t = ty.toText := by
  constructor
  · intro h
    unfold strToSeqtype at h
    repeat' (split at h)
    all_goals first | (cases h; assumption) | cases h
  · rintro rfl
    cases ty <;> decide

/-- C55. The tags are read back from the name of a sorted pair file. -/
theorem C55_tags_roundtrip (t1 t2 : Tag) : getTagFromFilename (pairFileName t1 t2 ++ sortedSuffix) = some (t1, t2) :=
  Pipeline.pairName_tags t1 t2

/-- C55 fails for the placeholder files: for strictly increasing row sums (as generated) and every pairing the names
created in advance differ from those the pair stage writes. -/
theorem C55_placeholder_mismatch (a b c d : ℤ) (hab : a < b) (hbc : b < c) (hcd : c < d) (pr : Pairing) :
    ∃ f1 f2, createRowsumDirs (a, b, c, d) (some pr) = some [f1, f2] ∧
      let t := pairingTags (some pr)
      f1 ≠ pairFileName t.1.1 t.1.2 ∧ f1 ≠ pairFileName t.2.1 t.2.2 ∧ f2 ≠ pairFileName t.1.1 t.1.2 ∧
        f2 ≠ pairFileName t.2.1 t.2.2 := by
  have e : (sortQuad (a, b, c, d)).2 = [3, 2, 1, 0] := Enumerate.sort_increasing hab hbc hcd
  unfold createRowsumDirs
  rw [e]
  cases pr
  · exact ⟨_, _, rfl, by decide⟩
  · exact ⟨_, _, rfl, by decide⟩
  · exact ⟨_, _, rfl, by decide⟩

/-- C55, what does hold: for row sums that are already in decreasing order (in particular four equal ones) the
placeholder files are the files the pair stage writes. Missing: all other row sums, see above. -/
theorem C55_placeholder_partial (a b c d : ℤ) (hab : b ≤ a) (hbc : c ≤ b) (hcd : d ≤ c) (pr : Pairing) :
    createRowsumDirs (a, b, c, d) (some pr) =
      let t := pairingTags (some pr)
      some [pairFileName t.1.1 t.1.2, pairFileName t.2.1 t.2.2] := by
  have e : (sortQuad (a, b, c, d)).2 = [0, 1, 2, 3] := Enumerate.sort_decreasing hab hbc hcd
  unfold createRowsumDirs
  rw [e]
  cases pr <;> rfl

example : generateRowsums 21 .williamsonType = some [(1, 1, 1, 9), (1, 3, 5, 7), (3, 5, 5, 5)] ∧
    createRowsumDirs (1, 3, 5, 7) (some .WX) = some ["pair_ZY.pair".toList, "pair_XW.pair".toList] := by decide +kernel

/-! ## C59: the warning about half-integers -/

/-- C59 is false: the value `-1/2` is a half-integer and no warning is given, whatever the tolerance below 1. -/
theorem C59_misses_negative (tol : ℝ) (h : tol ≤ 1) : halfIntWarning exactFl tol [-1 / 2] = false :=
  Enumerate.warning_negative h

/-- C59, what does hold, in exact arithmetic: for non-negative values a warning is given exactly if some value lies
within the tolerance of a half-integer. Missing: negative values, for which it fails. -/
theorem C59_warning_partial (tol : ℝ) (h : tol ≤ 1) (vals : List ℝ) (hv : ∀ a ∈ vals, 0 ≤ a) :
    halfIntWarning exactFl tol vals = true ↔ ∃ a ∈ vals, ∃ z : ℤ, |a - (z + 1 / 2)| < tol :=
  Enumerate.warning_iff h hv

example : halfIntWarning exactFl (1 / 100) [3, 5 / 2] = true :=
  (C59_warning_partial _ (by norm_num) _ (by intro a ha; fin_cases ha <;> norm_num)).2
    ⟨5 / 2, by simp, 2, by norm_num⟩

/-! ## C60: no solutions -/

/-- C60 is false: if no sequence survives matching the join stage panics. -/
theorem C60_panics (ty : SeqType) (hty : Supported ty) (dirs : List (Text × Dir)) (h : joinAll ty dirs = some []) :
    joinPairs ty dirs = none := by
  unfold joinPairs
  rw [h]
  rcases hty with rfl | rfl | rfl <;> rfl

/-- A directory with stored sequences of length 1 but no pairs: the matching ends normally with no match. -/
example : joinAll .quaternionType [("rowsum_1_1_1_1".toList, [("seq_W.seq".toList, "+\n".toList),
    ("seq_X.seq".toList, "+\n".toList), ("seq_Y.seq".toList, "+\n".toList), ("seq_Z.seq".toList, "+\n".toList),
    ("pair_WZ.pair.sorted".toList, []), ("pair_XY.pair.sorted".toList, [])])] = some [] := by decide

/-- C60, what does hold: if some ±1 quadruple of length at most 31 survives, the join stage ends normally with a
non-empty result. Missing: the empty match set, for which it panics. -/
theorem C60_nonempty_partial (n : ℕ) [NeZero n] (hn : n ≤ 31) (ty : SeqType) (hty : Supported ty)
    (dirs : List (Text × Dir)) (l : List QuadSeq) (h : joinAll ty dirs = some l) (hne : l ≠ []) (hl : ∀ s ∈ l, PMQuad n s) :
    ∃ r, joinPairs ty dirs = some r ∧ r ≠ [] := by
  obtain ⟨r, hr, _, hx⟩ := Enumerate.joinPairs_spec hn hty h hne hl
  obtain ⟨s, hs⟩ := List.exists_mem_of_ne_nil l hne
  obtain ⟨G, hG⟩ := group_exists (n := n) hn (canonicalOps_sub ty)
  obtain ⟨x, _, hxl⟩ := qtCanonical_spec hn hty (hl s hs) hG
  exact ⟨r, hr, List.ne_nil_of_mem ((hx x).2 ⟨s, hs, hxl⟩)⟩

example : joinAll .williamsonType [("rowsum_-1_1_1_1".toList, exDir1)] =
    some [{ size := 1, a := [1], b := [-1], c := [1], d := [1] }] := by decide

end Props
