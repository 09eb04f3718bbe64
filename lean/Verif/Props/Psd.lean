import Verif.Props.FindWrite

/-!
# Properties C58, C87: matching by power spectra, and what equal keys mean
-/

set_option linter.unusedVariables false

namespace Props
open Model Spec Proofs

/-- C58. The pair data of the two halves of a sequence of the requested type pass the filter, and the keys written for
the two halves are equal. -/
theorem C58_keys_agree (n : ℕ) [NeZero n] (ty : SeqType) (q : QuadSeq) (hq : OfType n ty q) (pr : Option Pairing)
    (i1 i2 i3 i4 : ℕ) :
    ∃ d12 d34 v,
      pairData exactFl (exactFl.mul (exactFl.lit 4 1) (exactFl.ofInt n)) (q.sequence (pairingTags pr).1.1, i1)
        (q.sequence (pairingTags pr).1.2, i2) = some d12 ∧
      pairData exactFl (exactFl.mul (exactFl.lit 4 1) (exactFl.ofInt n)) (q.sequence (pairingTags pr).2.1, i3)
        (q.sequence (pairingTags pr).2.2, i4) = some d34 ∧
      pairKey exactFl ty .left .psd (pairingTags pr).1 n d12 = some (some v) ∧
      pairKey exactFl ty .right .psd (pairingTags pr).2 n d34 = some (some v) := by
  have hw := Keys.ofType_wts hq
  have hty := Keys.ofType_supported hq
  have hF := (C28_exact_accurate n).2
  obtain ⟨p12, p34, e12, e34⟩ := Keys.pairing_sign pr
  obtain ⟨v, hv1, hv2⟩ := Psd.psdKey_agree hq pr p12 p34
  have h12 := Matching.pairData_ok (i := i1) (j := i2)
    (hF q hw.1 hw.2.1 _ _ (Complete.pairing_ne pr).1)
  have h34 := Matching.pairData_ok (i := i3) (j := i4)
    (hF q hw.1 hw.2.1 _ _ (Complete.pairing_ne pr).2)
  refine ⟨_, _, v, h12, h34, ?_, ?_⟩
  · rw [Psd.pairKey_psd (Keys.seq_pm hw.1 _) (Keys.seq_pm hw.1 _) e12 hty h12, hv1]
  · rw [Psd.pairKey_psd (Keys.seq_pm hw.1 _) (Keys.seq_pm hw.1 _) e34 hty h34, hv2]

/-- Two keys do not interfere in the order of the sorted files. -/
def Isolated (u v : List ℤ) : Prop := u = v ∨ (¬ keyOf v <+: keyOf u ∧ ¬ keyOf u <+: keyOf v)

/-- The value list `u` is written as the key of a pair for `side`, by the pair stage for the row sums `rs`. -/
def WrittenKey (n : ℕ) [NeZero n] (ty : SeqType) (rs : Quad) (tags : Tag × Tag) (side : Side) (u : List ℤ) : Prop :=
  ∃ x y i j d, PMSeq n x ∧ PMSeq n y ∧ x.sum = tagRowsum rs tags.1 ∧ y.sum = tagRowsum rs tags.2 ∧
    (ty = .williamson → Symm (cyc n x) ∧ Symm (cyc n y)) ∧
    pairData exactFl (exactFl.mul (exactFl.lit 4 1) (exactFl.ofInt n)) (x, i) (y, j) = some d ∧
    pairKey exactFl ty side .psd tags n d = some (some u)

/-- C58. The key of a sequence of the type never interferes with another key that is written to one of the two files of
its directory: the order of the sorted files is the order of the merge. -/
theorem C58_isolated (n : ℕ) [NeZero n] (ty : SeqType) (hty : Supported ty) (rs : Quad)
    (hrs : rs.1 ^ 2 + rs.2.1 ^ 2 + rs.2.2.1 ^ 2 + rs.2.2.2 ^ 2 = 4 * n) (pr : Option Pairing) (q : QuadSeq)
    (hq : OfType n ty q) (hqr : (q.a.sum, q.b.sum, q.c.sum, q.d.sum) = rs) (v : List ℤ) (i j : ℕ) (d12 : PairData ℝ)
    (hd : pairData exactFl (exactFl.mul (exactFl.lit 4 1) (exactFl.ofInt n)) (q.sequence (pairingTags pr).1.1, i)
      (q.sequence (pairingTags pr).1.2, j) = some d12)
    (hv : pairKey exactFl ty .left .psd (pairingTags pr).1 n d12 = some (some v)) (u : List ℤ)
    (hu : WrittenKey n ty rs (pairingTags pr).1 .left u ∨ WrittenKey n ty rs (pairingTags pr).2 .right u) :
    Isolated u v := by
  obtain ⟨p12, p34, e12, e34⟩ := Keys.pairing_sign pr
  have hw := Keys.ofType_wts hq
  rw [Psd.pairKey_psd (Keys.seq_pm hw.1 _) (Keys.seq_pm hw.1 _) e12 hty hd] at hv
  obtain ⟨i1, i2⟩ := Rigid.key_iso hty pr p12 p34 rs hrs hq (fun t => by subst hqr; cases t <;> rfl) (Option.some.inj hv)
  rcases hu with ⟨x, y, i, j, d, hx, hy, sx, sy, _, hd', hk⟩ | ⟨x, y, i, j, d, hx, hy, sx, sy, _, hd', hk⟩
  · rw [Psd.pairKey_psd hx hy e12 hty hd'] at hk
    exact i1 x y u hx hy sx sy (Option.some.inj hk)
  · rw [Psd.pairKey_psd hx hy e34 hty hd'] at hk
    exact i2 x y u hx hy sx sy (Option.some.inj hk)

/-- C58. So in a directory with power-spectrum matching, for every type and pairing, exactly the sequences of the type
with the row sums are returned. -/
theorem C58_complete (n : ℕ) [NeZero n] (hn : n < 64) (ty : SeqType) (hty : Supported ty) (rs : Quad)
    (hrs : rs.1 ^ 2 + rs.2.1 ^ 2 + rs.2.2.1 ^ 2 + rs.2.2.2 ^ 2 = 4 * n) (pr : Option Pairing) :
    ∃ d0, writePairsRowsum exactFl ty rs n .psd pr = some d0 ∧ ∀ d, d.Perm (sortDir d0) →
      ∃ r, joinDir ty d = some r ∧ ∀ q, q ∈ r ↔ OfType n ty q ∧ (q.a.sum, q.b.sum, q.c.sum, q.d.sum) = rs :=
  C31_directory_small exactFl id n (C28_numerics n .psd) hn ty hty rs hrs pr

/-- C58. And the whole enumeration of length 1 to 31 with power-spectrum matching returns exactly the least member of
every class. -/
theorem C58_enumeration (n : ℕ) [NeZero n] (hn : n ≤ 31) (ty : SeqType)
    (hty : ty = .quaternionType ∨ ty = .williamsonType) (pr : Option Pairing) (hex : ∃ q, OfType n ty q) :
    ∃ w, writePairs exactFl n ty .psd pr = some w ∧ ∀ dirs, Listing w dirs →
      ∃ r, joinPairs ty dirs = some r ∧ r.Nodup ∧ ∀ x, x ∈ r ↔ LeastInClass n ty x := by
  obtain ⟨w, hw, _, h⟩ := C32_enumeration exactFl id n hn (C28_numerics n .psd) ty hty pr
  refine ⟨w, hw, fun dirs hd => ?_⟩
  obtain ⟨r, a, b, c, _⟩ := h dirs hd hex
  exact ⟨r, a, b, c⟩

/-- The hypotheses are met by the Williamson sequence `exWS3` and the QT sequence `exQTS5`. -/
example : (∃ d0, writePairsRowsum exactFl .williamson (rowsums exWS3) 3 .psd (some .WX) = some d0 ∧
    ∃ r, joinDir .williamson (sortDir d0) = some r ∧ exWS3 ∈ r) ∧
    ∃ d0, writePairsRowsum exactFl .quaternionType (rowsums exQTS5) 5 .psd (some .WX) = some d0 ∧
      ∃ r, joinDir .quaternionType (sortDir d0) = some r ∧ exQTS5 ∈ r := by
  constructor
  · obtain ⟨d0, h0, h⟩ := C58_complete 3 (by norm_num) .williamson (by simp [Supported]) (rowsums exWS3) (by decide)
      (some .WX)
    obtain ⟨r, hr, hq⟩ := h _ (List.Perm.refl _)
    exact ⟨d0, h0, r, hr, (hq _).2 ⟨exWS3_isWS, by decide⟩⟩
  · obtain ⟨d0, h0, h⟩ := C58_complete 5 (by norm_num) .quaternionType (.inl rfl) (rowsums exQTS5) (by decide) (some .WX)
    obtain ⟨r, hr, hq⟩ := h _ (List.Perm.refl _)
    exact ⟨d0, h0, r, hr, (hq _).2 ⟨exQTS5_isQTS, by decide⟩⟩

/-! ## C87: what equal keys mean -/

/-- C87. Correlation keys of the two halves of any quadruple of ±1 sequences are written and equal if and only if the
quadruple is complementary and, for QT, `PairCross` holds, for Williamson-type, both pairs are amicable. Missing: for QT
the condition of the definition, see `C87_fails`. -/
theorem C87_correlation_partial {K : Type} (A : Fl K) (val : K → ℝ) (n : ℕ) [NeZero n] (hA : Accurate A val n) (ty : SeqType)
    (hty : Supported ty) (s : QuadSeq) (hs : PMQuad n s) (pr : Option Pairing) (b1 b2 : K) (i j k l p : ℕ)
    (d12 d34 : PairData K)
    (h12 : pairData A b1 (s.sequence (pairingTags pr).1.1, i) (s.sequence (pairingTags pr).1.2, j) = some d12)
    (h34 : pairData A b2 (s.sequence (pairingTags pr).2.1, k) (s.sequence (pairingTags pr).2.2, l) = some d34) :
    (∃ v, pairKey A ty .left .correlation (pairingTags pr).1 p d12 = some (some v) ∧
      pairKey A ty .right .correlation (pairingTags pr).2 p d34 = some (some v)) ↔
    Complementary (cyc n s.a) (cyc n s.b) (cyc n s.c) (cyc n s.d) ∧ KeyCondition ty pr (fam n s) := by
  obtain ⟨a, b, ha, hb⟩ := Keys.pairing_sign pr
  rw [Keys.pairKey_corr hA (Keys.seq_pm hs _) (Keys.seq_pm hs _) ha h12,
    Keys.pairKey_corr hA (Keys.seq_pm hs _) (Keys.seq_pm hs _) hb h34]
  simp only [Keys.cyc_seq]
  exact Rigid.corrKey_iff hty (fam n s) pr ha hb

/-- C87. The same for power-spectrum keys, although these are rounded: for quadruples whose row sums have squares that
add up to `4 n`, as in every directory. -/
theorem C87_psd_partial {K : Type} (A : Fl K) (n : ℕ) [NeZero n] (hA : ExactSpectrumKeys A n) (ty : SeqType)
    (hty : Supported ty) (s : QuadSeq) (hs : PMQuad n s)
    (hr : s.a.sum ^ 2 + s.b.sum ^ 2 + s.c.sum ^ 2 + s.d.sum ^ 2 = 4 * n) (pr : Option Pairing) (b1 b2 : K) (i j k l : ℕ)
    (d12 d34 : PairData K)
    (h12 : pairData A b1 (s.sequence (pairingTags pr).1.1, i) (s.sequence (pairingTags pr).1.2, j) = some d12)
    (h34 : pairData A b2 (s.sequence (pairingTags pr).2.1, k) (s.sequence (pairingTags pr).2.2, l) = some d34) :
    (∃ v, pairKey A ty .left .psd (pairingTags pr).1 n d12 = some (some v) ∧
      pairKey A ty .right .psd (pairingTags pr).2 n d34 = some (some v)) ↔
    Complementary (cyc n s.a) (cyc n s.b) (cyc n s.c) (cyc n s.d) ∧ KeyCondition ty pr (fam n s) := by
  obtain ⟨a, b, ha, hb⟩ := Keys.pairing_sign pr
  have hK : Psd.PsdKeys A n := Rigid.spectrum_iff.1 hA
  rw [hK (Keys.seq_pm hs _) (Keys.seq_pm hs _) ha hty h12, hK (Keys.seq_pm hs _) (Keys.seq_pm hs _) hb hty h34]
  simp only [Option.some.injEq]
  exact Rigid.psdKey_iff hty hs hr pr ha hb

/-- C87. The condition in the QT keys has the sign of one side reversed: it and the condition of the definition hold
together if and only if both pairs are amicable. So the keys of QT sequences agree in spite of the sign, because their
pairs are amicable. -/
theorem C87_sign (n : ℕ) [NeZero n] (pr : Option Pairing) (f : Fam n) :
    (QTCross (f .W) (f .X) (f .Y) (f .Z) → DefinedCross pr f) ∧
    (DefinedCross pr f ∧ PairCross pr f ↔
      Amicable (f (pairingTags pr).1.1) (f (pairingTags pr).1.2) ∧
        Amicable (f (pairingTags pr).2.1) (f (pairingTags pr).2.2)) := by
  constructor
  · intro h
    rcases pr with _ | _ | _ | _ <;> intro t
    · exact (h t).2.2
    · exact (h t).1
    · exact (h t).2.1
    · exact (h t).2.2
  · constructor
    · rintro ⟨h1, h2⟩
      rcases pr with _ | _ | _ | _ <;> simp only [DefinedCross, PairCross, pairingTags] at h1 h2 ⊢ <;>
        refine ⟨fun t => ?_, fun t => ?_⟩ <;> have a := h1 t <;> have b := h2 t <;> omega
    · rintro ⟨h1, h2⟩
      rcases pr with _ | _ | _ | _ <;> simp only [DefinedCross, PairCross, pairingTags] at h1 h2 ⊢ <;>
        refine ⟨fun t => ?_, fun t => ?_⟩ <;> have a := h1 t <;> have b := h2 t <;> omega

/-- C87 fails with the condition of the definition in place of `PairCross`: there are complementary quadruples that
satisfy it though their keys differ, and others with equal keys that do not satisfy it. -/
theorem C87_fails :
    (∃ s, PMQuad 4 s ∧ Complementary (cyc 4 s.a) (cyc 4 s.b) (cyc 4 s.c) (cyc 4 s.d) ∧
      DefinedCross (some .WX) (fam 4 s) ∧ ¬ KeyCondition .quaternionType (some .WX) (fam 4 s)) ∧
    (∃ s, PMQuad 4 s ∧ Complementary (cyc 4 s.a) (cyc 4 s.b) (cyc 4 s.c) (cyc 4 s.d) ∧
      ¬ DefinedCross (some .WX) (fam 4 s) ∧ KeyCondition .quaternionType (some .WX) (fam 4 s)) := by
  refine ⟨⟨⟨4, [1, 1, 1, -1], [1, 1, -1, 1], [1, 1, 1, -1], [-1, 1, 1, 1]⟩, ⟨rfl, by decide, by decide, by decide, by decide⟩, ?_, ?_, ?_⟩,
    ⟨⟨4, [1, 1, 1, -1], [1, 1, -1, 1], [1, 1, 1, -1], [1, 1, -1, 1]⟩, ⟨rfl, by decide, by decide, by decide, by decide⟩, ?_, ?_, ?_⟩⟩
  all_goals simp only [Complementary, DefinedCross, KeyCondition, PairCross]; decide

/-- The hypotheses of `C87_psd_partial` are met by a quadruple that is not of the type. -/
example : ExactSpectrumKeys exactFl 4 ∧
    PMQuad 4 ⟨4, [1, 1, 1, -1], [1, 1, -1, 1], [1, 1, 1, -1], [-1, 1, 1, 1]⟩ ∧ (2 ^ 2 + 2 ^ 2 + 2 ^ 2 + 2 ^ 2 : ℤ) = 4 * 4 :=
  ⟨Rigid.spectrum_iff.2 Psd.exact_keys, ⟨rfl, by decide, by decide, by decide, by decide⟩, by norm_num⟩

end Props
