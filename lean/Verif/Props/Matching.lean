import Verif.Proofs.Keys
import Verif.Props.Equivalence

/-!
# Properties C26, C27, C28, C52, C53: matching keys and power spectra
-/

namespace Props
open Model Spec Proofs

/-! ## C26: matching keys -/

/-- C26. For a sequence of the requested type the keys written for the two pairs of any pairing agree (and neither pair
is dropped), for every arithmetic within the error bound and every bound of the filter that lets the pairs through. -/
theorem C26_keys_agree {K : Type} (A : Fl K) (val : K → ℝ) (n : ℕ) [NeZero n] (hA : Accurate A val n) (ty : SeqType)
    (s : QuadSeq) (hs : OfType n ty s) (pr : Option Pairing) (b1 b2 : K) (i j k l p : ℕ) (d12 d34 : PairData K)
    (h12 : pairData A b1 (s.sequence (pairingTags pr).1.1, i) (s.sequence (pairingTags pr).1.2, j) = some d12)
    (h34 : pairData A b2 (s.sequence (pairingTags pr).2.1, k) (s.sequence (pairingTags pr).2.2, l) = some d34) :
    ∃ v, pairKey A ty .left .correlation (pairingTags pr).1 p d12 = some (some v) ∧
      pairKey A ty .right .correlation (pairingTags pr).2 p d34 = some (some v) := by
  obtain ⟨a, b, ha, hb⟩ := Keys.pairing_sign pr
  have hpm := (Keys.ofType_wts hs).1
  rw [Keys.pairKey_corr hA (Keys.seq_pm hpm _) (Keys.seq_pm hpm _) ha h12,
    Keys.pairKey_corr hA (Keys.seq_pm hpm _) (Keys.seq_pm hpm _) hb h34]
  simp only [Keys.cyc_seq]
  exact Keys.corrKey_agree hs pr a b

/-- C26. Conversely, equal keys imply periodic complementarity, and for QT the cross-correlation condition of the
pairing. -/
theorem C26_keys_sound {K : Type} (A : Fl K) (val : K → ℝ) (n : ℕ) [NeZero n] (hA : Accurate A val n) (ty : SeqType)
    (s : QuadSeq) (hs : PMQuad n s) (pr : Option Pairing) (b1 b2 : K) (i j k l p : ℕ) (d12 d34 : PairData K)
    (h12 : pairData A b1 (s.sequence (pairingTags pr).1.1, i) (s.sequence (pairingTags pr).1.2, j) = some d12)
    (h34 : pairData A b2 (s.sequence (pairingTags pr).2.1, k) (s.sequence (pairingTags pr).2.2, l) = some d34)
    (v : List ℤ) (h1 : pairKey A ty .left .correlation (pairingTags pr).1 p d12 = some (some v))
    (h2 : pairKey A ty .right .correlation (pairingTags pr).2 p d34 = some (some v)) :
    Complementary (cyc n s.a) (cyc n s.b) (cyc n s.c) (cyc n s.d) ∧
      (ty = .quaternionType → PairCross pr (fam n s)) := by
  obtain ⟨a, b, ha, hb⟩ := Keys.pairing_sign pr
  rw [Keys.pairKey_corr hA (Keys.seq_pm hs _) (Keys.seq_pm hs _) ha h12] at h1
  rw [Keys.pairKey_corr hA (Keys.seq_pm hs _) (Keys.seq_pm hs _) hb h34] at h2
  simp only [Keys.cyc_seq] at h1 h2
  exact Keys.corrKey_sound pr ha hb h1 h2

/-! ## C27: power spectra -/

/-- C27. The power spectra of a complementary quadruple add up to `4 n` at every frequency. -/
theorem C27_psd_sum (n : ℕ) [NeZero n] (s : QuadSeq) (hs : PMQuad n s)
    (hc : Complementary (cyc n s.a) (cyc n s.b) (cyc n s.c) (cyc n s.d)) (k : ℕ) :
    psd n s.a k + psd n s.b k + psd n s.c k + psd n s.d k = 4 * n :=
  Fourier.psd_sum hs.a hs.b hs.c hs.d hc k

/-- Two members of a complementary quadruple satisfy the power-spectrum bound. -/
theorem pair_psd_le (n : ℕ) [NeZero n] (s : QuadSeq) (hs : PMQuad n s)
    (hc : Complementary (cyc n s.a) (cyc n s.b) (cyc n s.c) (cyc n s.d)) (t1 t2 : Tag) (ht : t1 ≠ t2) (k : ℕ) :
    psd n (s.sequence t1) k + psd n (s.sequence t2) k ≤ 4 * n := by
  have h := C27_psd_sum n s hs hc k
  have h1 := Fourier.psd_nonneg (n := n) s.a k
  have h2 := Fourier.psd_nonneg (n := n) s.b k
  have h3 := Fourier.psd_nonneg (n := n) s.c k
  have h4 := Fourier.psd_nonneg (n := n) s.d k
  cases t1 <;> cases t2 <;> first | exact absurd rfl ht | (simp only [QuadSeq.sequence]; linarith)

/-- The hypotheses of `C26_keys_agree` hold for a QT sequence of length 5, the pairing WY and exact arithmetic. -/
example : Accurate exactFl id 5 ∧ OfType 5 .quaternionType exQTS5 ∧ ∃ d12 d34,
    pairData exactFl (exactFl.mul (exactFl.lit 4 1) (exactFl.ofInt (5 : ℕ))) (exQTS5.sequence .W, 3)
      (exQTS5.sequence .Y, 8) = some d12 ∧
    pairData exactFl (exactFl.mul (exactFl.lit 4 1) (exactFl.ofInt (5 : ℕ))) (exQTS5.sequence .X, 1)
      (exQTS5.sequence .Z, 0) = some d34 :=
  ⟨Fourier.exact_accurate, exQTS5_isQTS, _, _,
    Matching.pairData_ok (Fourier.exact_pair_safe (n := 5) _ _ (Keys.seq_pm exQTS5_pm _) (Keys.seq_pm exQTS5_pm _)
      (pair_psd_le 5 exQTS5 exQTS5_pm exQTS5_isQTS.2.1 .W .Y (by decide))),
    Matching.pairData_ok (Fourier.exact_pair_safe (n := 5) _ _ (Keys.seq_pm exQTS5_pm _) (Keys.seq_pm exQTS5_pm _)
      (pair_psd_le 5 exQTS5 exQTS5_pm exQTS5_isQTS.2.1 .X .Z (by decide)))⟩

/-- C27. With exact arithmetic the pair stage discards no pair that belongs to a complementary quadruple: the pair is
produced with its two positions. -/
theorem C27_filter_psds (n : ℕ) [NeZero n] (s : QuadSeq) (hs : PMQuad n s)
    (hc : Complementary (cyc n s.a) (cyc n s.b) (cyc n s.c) (cyc n s.d)) (t1 t2 : Tag) (ht : t1 ≠ t2)
    (seqs1 seqs2 : List (List ℤ)) (i j : ℕ) (h1 : seqs1[i]? = some (s.sequence t1))
    (h2 : seqs2[j]? = some (s.sequence t2)) :
    ∃ d ∈ filteredCouplesPsds exactFl seqs1 seqs2 (exactFl.mul (exactFl.lit 4 1) (exactFl.ofInt n)),
      d.i1 = i ∧ d.i2 = j ∧ d.seq1 = s.sequence t1 ∧ d.seq2 = s.sequence t2 := by
  have hf := Fourier.exact_pair_safe (n := n) _ _ (Keys.seq_pm hs t1) (Keys.seq_pm hs t2)
    (pair_psd_le n s hs hc t1 t2 ht)
  have hd := Matching.pairData_ok (i := i) (j := j) hf
  refine ⟨_, List.mem_flatMap.2 ⟨(s.sequence t1, i), List.mem_zipIdx_iff_getElem?.2 h1,
    List.mem_filterMap.2 ⟨(s.sequence t2, j), List.mem_zipIdx_iff_getElem?.2 h2, hd⟩⟩, rfl, rfl, rfl, rfl⟩

/-- C27. The same for the filters used by the in-memory search, which also test frequency 0. -/
theorem C27_filter_couples (n : ℕ) [NeZero n] (s : QuadSeq) (hs : PMQuad n s)
    (hc : Complementary (cyc n s.a) (cyc n s.b) (cyc n s.c) (cyc n s.d)) (t1 t2 : Tag) (ht : t1 ≠ t2)
    (seqs1 seqs2 : List (List ℤ)) (h1 : s.sequence t1 ∈ seqs1) (h2 : s.sequence t2 ∈ seqs2) :
    (s.sequence t1, s.sequence t2) ∈
        filteredCouples exactFl seqs1 seqs2 (exactFl.mul (exactFl.lit 4 1) (exactFl.ofInt n)) ∧
      ∀ i j, seqs1[i]? = some (s.sequence t1) → seqs2[j]? = some (s.sequence t2) →
        ((s.sequence t1, i), (s.sequence t2, j)) ∈
          filteredEnumCouples exactFl seqs1 seqs2 (exactFl.mul (exactFl.lit 4 1) (exactFl.ofInt n)) := by
  have ha : coupleAllowed exactFl (exactFl.mul (exactFl.lit 4 1) (exactFl.ofInt n)) (s.sequence t1)
      (s.sequence t2) = true := by
    unfold coupleAllowed
    rw [Fourier.exact_psd (Keys.seq_pm hs t1).1, Fourier.exact_psd (Keys.seq_pm hs t2).1, List.all_eq_true]
    intro p hp
    rw [List.zip_map', List.mem_map] at hp
    obtain ⟨k, -, rfl⟩ := hp
    have := pair_psd_le n s hs hc t1 t2 ht k
    simp [exactFl]
    linarith
  constructor
  · unfold filteredCouples
    rw [List.mem_filter, List.mem_flatMap]
    exact ⟨⟨_, h1, List.mem_map.2 ⟨_, h2, rfl⟩⟩, ha⟩
  · intro i j hi hj
    unfold filteredEnumCouples
    rw [List.mem_filter, List.mem_flatMap]
    exact ⟨⟨(s.sequence t1, i), List.mem_zipIdx_iff_getElem?.2 hi,
      List.mem_map.2 ⟨_, List.mem_zipIdx_iff_getElem?.2 hj, rfl⟩⟩, ha⟩

/-! ## C28: correlations by transforms -/

/-- C28. Exact arithmetic satisfies the error bound, for every length. -/
theorem C28_exact_accurate (n : ℕ) [NeZero n] : Accurate exactFl id n ∧ FilterSafe exactFl n :=
  ⟨Fourier.exact_accurate, Fourier.exact_filterSafe⟩

/-- C28. The exact inverse transforms of the (cross) power spectra are the integer correlations. -/
theorem C28_exact_transform (n : ℕ) [NeZero n] (x y : List ℤ) (t : ℕ) :
    exactAuto n x t = ((paf (cyc n x) t : ℤ) : ℂ) ∧ exactCross n x y t = ((ccf (cyc n x) (cyc n y) t : ℤ) : ℂ) :=
  ⟨Fourier.exactAuto_eq x t, Fourier.exactCross_eq x y t⟩

/-- C28. Within the error bound the autocorrelations computed by transforms are the directly computed ones, at all
offsets. -/
theorem C28_auto {K : Type} (A : Fl K) (val : K → ℝ) (n : ℕ) [NeZero n] (hA : Accurate A val n) (x : List ℤ)
    (hx : PMSeq n x) :
    computeAutoCorrelationDft A ((dftSequence A x).map A.normSqr) n =
      (List.range n).map fun t => periodicAutocorrelation x t := by
  rw [Fourier.auto_computed hA hx]
  exact List.map_congr_left fun t _ => (paf_eq hx t).symm

/-- C28. The same for the sums over a pair. -/
theorem C28_auto_pair {K : Type} (A : Fl K) (val : K → ℝ) (n : ℕ) [NeZero n] (hA : Accurate A val n) (x y : List ℤ)
    (hx : PMSeq n x) (hy : PMSeq n y) :
    computeAutoCorrelationPairDft A ((dftSequence A x).map A.normSqr) n ((dftSequence A y).map A.normSqr) n =
      computeAutoCorrelationPair x y := by
  rw [Matching.autoPair_computed hA hx hy, Matching.autoPair_eq hx hy]

/-- C28. The same for the signed cross-correlations, with the same panics on inadmissible tags. -/
theorem C28_cross {K : Type} (A : Fl K) (val : K → ℝ) (n : ℕ) [NeZero n] (hA : Accurate A val n) (x y : List ℤ)
    (hx : PMSeq n x) (hy : PMSeq n y) (tags : Tag × Tag) :
    computeCrossCorrelationsDft A (dftSequence A x) (dftSequence A y) tags n = computeCrossCorrelations x y tags := by
  rw [Matching.crossPair_computed hA hx hy, Matching.cross_eq hx hy]

example : computeAutoCorrelationPair [1, 1, -1, 1, 1] [1, 1, 1, -1, -1] = [2, -2] := by decide
example : computeCrossCorrelations [1, 1, -1, 1, -1] [1, 1, 1, -1, -1] (.W, .X) = some [0, -4] := by decide
example : PMSeq 5 [1, 1, -1, 1, -1] := by decide

/-! ## C53: tagged verification -/

/-- The four tags in some order. -/
def AllTags (t : Tag × Tag × Tag × Tag) : Prop := [t.1, t.2.1, t.2.2.1, t.2.2.2].Nodup

instance (t : Tag × Tag × Tag × Tag) : Decidable (AllTags t) := by unfold AllTags; infer_instance

set_option linter.unusedSimpArgs false in
set_option maxHeartbeats 1600000 in
/-- C53. For four sequences with the four tags in any order, grouped in pairs: the key of the first pair equals the
complementary key of the second pair and the tagged cross-correlation check succeeds if and only if the quadruple is a QT
sequence. -/
theorem C53_tagged (n : ℕ) [NeZero n] (s : QuadSeq) (hs : PMQuad n s) (t : Tag × Tag × Tag × Tag) (ht : AllTags t) :
    (MatchData.from (s.sequence t.1) (s.sequence t.2.1) (t.1, t.2.1) =
        (computeComplementaryCrossCorrelations (s.sequence t.2.2.1) (s.sequence t.2.2.2) (t.2.2.1, t.2.2.2)).map
          (fun cross =>
            { auto := computeComplementaryAutoCorrelations (s.sequence t.2.2.1) (s.sequence t.2.2.2), cross }) ∧
      verifyCrossCorrelationTagged (s.sequence t.1, s.sequence t.2.1, s.sequence t.2.2.1, s.sequence t.2.2.2) t =
        some true) ↔ IsQTS n s := by
  have hw : IsQTS n s ↔ Complementary (fam n s .W) (fam n s .X) (fam n s .Y) (fam n s .Z) ∧ Matching.Conds (fam n s) := by
    unfold IsQTS
    rw [Matching.qtcross_iff, Matching.conds_iff]
    exact ⟨fun h => h.2, fun h => ⟨hs, h⟩⟩
  rw [hw]
  obtain ⟨t1, t2, t3, t4⟩ := t
  unfold MatchData.from
  rw [Matching.cross_eq (Keys.seq_pm hs _) (Keys.seq_pm hs _), Matching.compCross_eq (Keys.seq_pm hs _) (Keys.seq_pm hs _),
    Matching.autoPair_eq (Keys.seq_pm hs _) (Keys.seq_pm hs _), Matching.compAuto_eq (Keys.seq_pm hs _) (Keys.seq_pm hs _)]
  simp only [Keys.cyc_seq]
  have hv : ∀ c d : Four, (List.range n).all (fun t => crossCond c t = 0 && crossCond d t = 0) = true ↔
      (∀ t < n, crossCond c t = 0) ∧ ∀ t < n, crossCond d t = 0 := by
    intro c d
    rw [List.all_eq_true, ← forall₂_and]
    simp
  have hlen : ∀ t, (s.sequence t).length = n := fun t => (Keys.seq_pm hs t).1
  have hZW := Matching.all_crossCond (Keys.seq_pm hs .Z) (Keys.seq_pm hs .W) (Keys.seq_pm hs .X) (Keys.seq_pm hs .Y)
  have hZX := Matching.all_crossCond (Keys.seq_pm hs .Z) (Keys.seq_pm hs .X) (Keys.seq_pm hs .Y) (Keys.seq_pm hs .W)
  have hZY := Matching.all_crossCond (Keys.seq_pm hs .Z) (Keys.seq_pm hs .Y) (Keys.seq_pm hs .W) (Keys.seq_pm hs .X)
  simp only [Keys.cyc_seq] at hZW hZX hZY
  unfold Matching.Conds
  cases t1 <;> cases t2 <;> first
    | exact absurd ht (by decide)
    | cases t3 <;> first
      | exact absurd ht (by decide)
      | cases t4 <;> first
        | exact absurd ht (by decide)
        | (simp only [crossSign, Option.map_some, Option.some.injEq, MatchData.mk.injEq, Matching.auto_iff,
              Matching.cross_iff, verifyCrossCorrelationTagged, findTagged, remainingConds, List.zip_cons_cons,
              List.zip_nil_right, List.filter_cons, List.filter_nil, decide_true, decide_false, reduceCtorEq, if_true,
              if_false, Bool.false_eq_true, List.getLast?_singleton, Option.bind_some, hlen, hv, hZW, hZX, hZY]
           simp only [Complementary]
           constructor
           · rintro ⟨⟨h1, h2⟩, h3, h4⟩
             refine ⟨fun t ht => ?_, fun t => ?_, fun t => ?_, fun t => ?_⟩
             · have := h1 t ht; omega
             all_goals (have a1 := h2 t; have a2 := h3 t; have a3 := h4 t; omega)
           · rintro ⟨h1, h2, h3, h4⟩
             refine ⟨⟨fun t ht => ?_, fun t => ?_⟩, fun t => ?_, fun t => ?_⟩
             · have := h1 t ht; omega
             all_goals (have a1 := h2 t; have a2 := h3 t; have a3 := h4 t; omega))

example : AllTags (.Y, .W, .Z, .X) := by decide
/-- A QT sequence of length 3 passes the check in this order of tags. -/
example : verifyCrossCorrelationTagged ([1, -1, -1], [1, 1, 1], [1, -1, -1], [1, -1, -1]) (.Y, .W, .Z, .X) =
    some true := by decide

/-! ## C52: the matching table -/

/-- The pairs with a given key, in order. -/
def pairsWithKey (tags : Tag × Tag) (key : MatchData) (l : List (List ℤ × List ℤ)) : List (List ℤ × List ℤ) :=
  l.filter fun c => MatchData.from c.1 c.2 tags = some key

/-- C52 (partial). Looking up a key returns all filtered pairs with this key except the first one; a key occurs in the
table exactly if some filtered pair has it. Missing: the first pair (see `C52_first_pair_lost`). -/
theorem C52_lookup_partial {K : Type} (A : Fl K) (s1 s2 : List (List ℤ)) (tags : Tag × Tag) (p : ℕ) (tb : MatchTable)
    (h : generateMatchingTable A s1 s2 tags p = some tb) (key : MatchData) :
    tb.lookup key = match pairsWithKey tags key (filteredCouples A s1 s2 (A.mul (A.lit 4 1) (A.ofInt p))) with
      | [] => none
      | _ :: rest => some rest := by
  unfold generateMatchingTable at h
  generalize filteredCouples A s1 s2 (A.mul (A.lit 4 1) (A.ofInt p)) = l at h ⊢
  have gen : ∀ (l done : List (List ℤ × List ℤ)) (tb0 tb : MatchTable),
      (∀ key, tb0.lookup key = match pairsWithKey tags key done with | [] => none | _ :: rest => some rest) →
      l.foldlM (fun table c => (MatchData.from c.1 c.2 tags).map fun key => tableInsert table key c) tb0 = some tb →
      ∀ key, tb.lookup key = match pairsWithKey tags key (done ++ l) with | [] => none | _ :: rest => some rest := by
    intro l
    induction l with
    | nil => intro done tb0 tb h0 h key; cases h; rw [List.append_nil]; exact h0 key
    | cons c cs ih =>
      intro done tb0 tb h0 h key
      rw [List.foldlM_cons] at h
      cases hm : MatchData.from c.1 c.2 tags with
      | none => rw [hm] at h; cases h
      | some k =>
        rw [hm] at h
        have := ih (done ++ [c]) (tableInsert tb0 k c) tb ?_ h key
        · rwa [List.append_assoc] at this
        · intro key
          rw [Matching.lookup_insert, h0 key, h0 k]
          unfold pairsWithKey
          rw [List.filter_append]
          by_cases hk : key = k
          · subst hk
            simp only [if_true, List.filter_cons, List.filter_nil, hm, decide_true]
            cases List.filter (fun c => decide (MatchData.from c.1 c.2 tags = some key)) done <;> rfl
          · have : ¬ (some k = some key) := fun h => hk (Option.some.inj h).symm
            simp only [if_neg hk, List.filter_cons, List.filter_nil, hm, this, decide_false, Bool.false_eq_true, if_false,
              List.append_nil]
  exact gen l [] [] tb (fun _ => rfl) h key

/-- C52 is violated: with exact arithmetic the table for the lists `[[1]]` and `[[1]]` has the key of the only pair, which
passes the filter, but the list stored for it is empty. -/
theorem C52_first_pair_lost :
    ([1], [1]) ∈ filteredCouples exactFl [[1]] [[1]] (exactFl.mul (exactFl.lit 4 1) (exactFl.ofInt 1)) ∧
      MatchData.from [1] [1] (.W, .X) = some { auto := [], cross := [] } ∧
      (generateMatchingTable exactFl [[1]] [[1]] (.W, .X) 1).map (fun tb => tb.lookup { auto := [], cross := [] }) =
        some (some []) := by
  have hf : filteredCouples exactFl [[1]] [[1]] (exactFl.mul (exactFl.lit 4 1) (exactFl.ofInt 1)) = [([1], [1])] := by
    have := (C27_filter_couples 1 { size := 1, a := [1], b := [1], c := [1], d := [1] } (by decide)
      (fun t ht => absurd (Subsingleton.elim t 0) ht) .W .X (by decide) [[1]] [[1]] (by decide) (by decide)).1
    unfold filteredCouples at this ⊢
    have h2 := (List.mem_filter.1 this).2
    simp only [Nat.cast_one, QuadSeq.sequence] at h2
    simp only [List.flatMap_cons, List.flatMap_nil, List.map_cons, List.map_nil, List.append_nil, List.filter_cons,
      List.filter_nil, h2, if_true]
  refine ⟨by rw [hf]; simp, by decide, ?_⟩
  unfold generateMatchingTable
  rw [show ((1 : ℕ) : ℤ) = 1 from rfl, hf]
  decide

end Props
