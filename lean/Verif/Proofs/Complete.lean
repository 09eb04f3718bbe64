import Verif.Proofs.Isolation

/-!
# Helper lemmas: completeness of one directory and of all directories
-/

set_option linter.unusedSectionVars false
set_option linter.unusedVariables false
set_option linter.unusedSimpArgs false

namespace Proofs.Complete
open Model Spec Proofs.Txt Proofs.Keys Proofs.Matching Proofs.Pipeline Proofs.Isolation

variable {n : ℕ} [NeZero n]

theorem symmetricSeq_iff {x : List ℤ} (h : PMSeq n x) : symmetricSeq x = true ↔ Symm (cyc n x) := by
  unfold symmetricSeq
  rw [List.all_eq_true]
  simp only [List.mem_range'_1, decide_eq_true_eq, h.1]
  constructor
  · intro H
    have K : ∀ t : ZMod n, t ≠ 0 → cyc n x t = cyc n x (-t) := by
      rw [← forall_pos_lt_iff]
      intro t h1 h2
      simp only [cyc_neg_natCast _ h1 h2, cyc_natCast_lt _ h2]
      by_cases hh : t ≤ n / 2
      · exact H t ⟨h1, by omega⟩
      · have := H (n - t) ⟨by omega, by omega⟩
        rw [show n - (n - t) = t by omega] at this
        exact this.symm
    intro t
    by_cases ht : t = 0
    · subst ht; simp
    · exact K t ht
  · rintro ha t ⟨h1, h2⟩
    have h2 : t < n := by have := npos (n := n); omega
    simp only [← cyc_neg_natCast _ h1 h2, ← cyc_natCast_lt _ h2]
    exact ha _

theorem rowsum_small (hn : n < 2 ^ 62) (rs : Quad)
    (hrs : rs.1 ^ 2 + rs.2.1 ^ 2 + rs.2.2.1 ^ 2 + rs.2.2.2 ^ 2 = 4 * n) (t : Tag) :
    -2 ^ 62 < tagRowsum rs t ∧ tagRowsum rs t < 2 ^ 62 := by
  have key : ∀ r : ℤ, r ^ 2 ≤ 4 * n → -2 ^ 62 < r ∧ r < 2 ^ 62 := by
    intro r hr
    have hb : (4 * n : ℤ) < 2 ^ 64 := by
      have : (n : ℤ) < 2 ^ 62 := by exact_mod_cast hn
      linarith
    constructor <;> by_contra hc <;> push Not at hc <;> nlinarith
  have h1 := sq_nonneg rs.1
  have h2 := sq_nonneg rs.2.1
  have h3 := sq_nonneg rs.2.2.1
  have h4 := sq_nonneg rs.2.2.2
  cases t <;> exact key _ (by simp only [tagRowsum]; linarith)

theorem rowsumSequences_spec (hn : n < 2 ^ 62) (ty : SeqType) {r : ℤ} (h1 : -2 ^ 62 < r) (h2 : r < 2 ^ 62) (x : List ℤ) :
    x ∈ rowsumSequences ty r n ↔ (PMSeq n x ∧ x.sum = r) ∧ (ty = .williamson → Symm (cyc n x)) := by
  have hg := (generate_spec r n hn h1 h2).2 x
  unfold rowsumSequences
  cases ty <;> simp only [List.mem_filter, hg, reduceCtorEq, false_implies, and_true, true_implies]
  refine and_congr_right fun h => ?_
  exact symmetricSeq_iff h.1

/-- The row sums of a quadruple. -/
theorem tagRowsum_eq {q : QuadSeq} {rs : Quad} :
    (q.a.sum, q.b.sum, q.c.sum, q.d.sum) = rs ↔ ∀ t, (q.sequence t).sum = tagRowsum rs t := by
  constructor
  · rintro rfl t; cases t <;> rfl
  · intro h
    have h1 := h .W
    have h2 := h .X
    have h3 := h .Y
    have h4 := h .Z
    obtain ⟨a, b, c, d⟩ := rs
    simp only [QuadSeq.sequence, tagRowsum] at h1 h2 h3 h4
    rw [h1, h2, h3, h4]

theorem psd_pair_le {q : QuadSeq} (hq : IsWTS n q) {t1 t2 : Tag} (ht : t1 ≠ t2) (k : ℕ) :
    psd n (q.sequence t1) k + psd n (q.sequence t2) k ≤ 4 * n := by
  have h := Fourier.psd_sum hq.1.a hq.1.b hq.1.c hq.1.d hq.2.1 k
  have h1 := Fourier.psd_nonneg (n := n) q.a k
  have h2 := Fourier.psd_nonneg (n := n) q.b k
  have h3 := Fourier.psd_nonneg (n := n) q.c k
  have h4 := Fourier.psd_nonneg (n := n) q.d k
  cases t1 <;> cases t2 <;> first | exact absurd rfl ht | (simp only [QuadSeq.sequence]; linarith)

theorem pairing_ne (pr : Option Pairing) :
    (pairingTags pr).1.1 ≠ (pairingTags pr).1.2 ∧ (pairingTags pr).2.1 ≠ (pairingTags pr).2.2 := by
  rcases pr with _ | _ | _ | _ <;> decide

/-- Membership of a sequence of the requested type in the generated lists. -/
theorem mem_rowsumSequences (hn : n < 2 ^ 62) {ty : SeqType} {rs : Quad}
    (hrs : rs.1 ^ 2 + rs.2.1 ^ 2 + rs.2.2.1 ^ 2 + rs.2.2.2 ^ 2 = 4 * n) {q : QuadSeq} (hq : OfType n ty q) :
    (∀ t, q.sequence t ∈ rowsumSequences ty (tagRowsum rs t) n) ↔ (q.a.sum, q.b.sum, q.c.sum, q.d.sum) = rs := by
  rw [tagRowsum_eq]
  refine forall_congr' fun t => ?_
  obtain ⟨b1, b2⟩ := rowsum_small hn rs hrs t
  rw [rowsumSequences_spec hn ty b1 b2]
  constructor
  · exact fun h => h.1.2
  · refine fun h => ⟨⟨seq_pm (ofType_wts hq).1 t, h⟩, ?_⟩
    rintro rfl
    cases t
    · exact hq.2.2.1
    · exact hq.2.2.2.1
    · exact hq.2.2.2.2.1
    · exact hq.2.2.2.2.2

/-- Completeness and soundness of one directory with correlation matching. -/
theorem corr_dir {K : Type} (A : Fl K) (val : K → ℝ) (hA : Accurate A val n) (hF : FilterSafe A n) (hn : n < 2 ^ 62)
    {ty : SeqType} (hty : Supported ty) (rs : Quad)
    (hrs : rs.1 ^ 2 + rs.2.1 ^ 2 + rs.2.2.1 ^ 2 + rs.2.2.2 ^ 2 = 4 * n)
    (hfit : ∀ t, (rowsumSequences ty (tagRowsum rs t) n).length < 2 ^ 64) (pr : Option Pairing) :
    ∃ d0, writePairsRowsum A ty rs n .correlation pr = some d0 ∧ ∀ d, d.Perm (sortDir d0) →
      ∃ r, joinDir ty d = some r ∧ ∀ q, q ∈ r ↔ OfType n ty q ∧ (q.a.sum, q.b.sum, q.c.sum, q.d.sum) = rs := by
  have hmem : ∀ t x, x ∈ rowsumSequences ty (tagRowsum rs t) n →
      PMSeq n x ∧ x.sum = tagRowsum rs t := fun t x hx =>
    ((rowsumSequences_spec hn ty (rowsum_small hn rs hrs t).1 (rowsum_small hn rs hrs t).2 x).1 hx).1
  obtain ⟨p12, p34, e12, e34⟩ := pairing_sign pr
  obtain ⟨d0, h0, h⟩ := dir_spec A hty rs .correlation pr _ (fun t => rfl) (fun t x hx => (hmem t x hx).1)
    (fun t x hx => (hmem t x hx).2) hfit (key n ty .left p12) (key n ty .right p34)
    (fun x hx y hy i j d hd => by
      rw [pairKey_corr hA (hmem _ x hx).1 (hmem _ y hy).1 e12 hd, corrKey_key hty])
    (fun x hx y hy i j d hd => by
      rw [pairKey_corr hA (hmem _ x hx).1 (hmem _ y hy).1 e34 hd, corrKey_key hty])
  refine ⟨d0, h0, fun d hd => ?_⟩
  obtain ⟨r, hr, h1, h2⟩ := h d hd
  refine ⟨r, hr, fun q => ⟨fun hq => ?_, ?_⟩⟩
  · obtain ⟨k1, k2, _⟩ := h1 q hq
    exact ⟨k1, (mem_rowsumSequences hn hrs k1).1 k2⟩
  · rintro ⟨hq, hqr⟩
    have hw := ofType_wts hq
    have hall := (mem_rowsumSequences hn hrs hq).2 hqr
    obtain ⟨v, hv1, hv2⟩ := corrKey_agree hq pr p12 p34
    rw [← cyc_seq, ← cyc_seq, corrKey_key hty, Option.some_inj] at hv1 hv2
    obtain ⟨i1, i2⟩ := key_iso hty pr p12 p34 rs hrs hq (tagRowsum_eq.1 hqr) hv1
    exact h2 q hq hall
      (hF q hw.1 hw.2.1 _ _ (pairing_ne pr).1)
      (hF q hw.1 hw.2.1 _ _ (pairing_ne pr).2) v hv1 hv2
      (fun x hx y hy u hu => i1 x y u (hmem _ x hx).1 (hmem _ y hy).1 (hmem _ x hx).2 (hmem _ y hy).2 hu)
      (fun x hx y hy u hu => i2 x y u (hmem _ x hx).1 (hmem _ y hy).1 (hmem _ x hx).2 (hmem _ y hy).2 hu)

/-! ## The number of sequences -/

/-- All ±1 lists of a length. -/
def allPM : ℕ → List (List ℤ)
  | 0 => [[]]
  | m + 1 => (allPM m).map (fun l => 1 :: l) ++ (allPM m).map fun l => -1 :: l

theorem allPM_length (m : ℕ) : (allPM m).length = 2 ^ m := by
  induction m with
  | zero => rfl
  | succ m ih => simp [allPM, ih]; omega

theorem mem_allPM {m : ℕ} {l : List ℤ} (h : PMSeq m l) : l ∈ allPM m := by
  obtain ⟨rfl, h⟩ := h
  induction l with
  | nil => simp [allPM]
  | cons x xs ih =>
    have := ih fun y hy => h y (List.mem_cons_of_mem _ hy)
    rw [List.length_cons, allPM, List.mem_append, List.mem_map, List.mem_map]
    rcases h x (List.mem_cons_self ..) with rfl | rfl
    · exact .inl ⟨xs, this, rfl⟩
    · exact .inr ⟨xs, this, rfl⟩

theorem rowsumSequences_length (hn : n < 2 ^ 62) (ty : SeqType) {r : ℤ} (h1 : -2 ^ 62 < r) (h2 : r < 2 ^ 62) :
    (rowsumSequences ty r n).length ≤ 2 ^ n := by
  have hnd : (rowsumSequences ty r n).Nodup := by
    have := (generate_spec r n hn h1 h2).1
    unfold rowsumSequences
    cases ty <;> first | exact this | exact this.filter _
  have hsub : rowsumSequences ty r n ⊆ allPM n := fun x hx =>
    mem_allPM ((rowsumSequences_spec hn ty h1 h2 x).1 hx).1.1
  rw [← allPM_length n]
  exact (hnd.subperm hsub).length_le

/-! ## All directories -/

theorem generated_squares {ty : SeqType} {l : List Quad} (hl : generateRowsums n ty = some l) {rs : Quad} (h : rs ∈ l) :
    rs.1 ^ 2 + rs.2.1 ^ 2 + rs.2.2.1 ^ 2 + rs.2.2.2 ^ 2 = 4 * n := by
  obtain ⟨l', e, _, hm⟩ := generateRowsums_spec n ty
  rw [hl] at e
  cases e
  have := ((hm rs).1 h).1.1
  unfold squareSum at this
  linarith

/-- The directory written for one row sum. -/
def dirOf {K : Type} (A : Fl K) (mo : MatchOption) (ty : SeqType) (n : ℕ) (pr : Option Pairing) (rs : Quad) : Text × Dir :=
  (rowsumDirName rs, (writePairsRowsum A ty rs n mo pr).getD [])

/-- From single directories to several directories, for any arithmetic and matching option. -/
theorem some_dirs {K : Type} (A : Fl K) (mo : MatchOption) {ty : SeqType} {T : QuadSeq → Prop} {l : List Quad} (pr : Option Pairing)
    (key : ∀ rs ∈ l, ∃ d0, writePairsRowsum A ty rs n mo pr = some d0 ∧ ∀ d, d.Perm (sortDir d0) →
      ∃ r, joinDir ty d = some r ∧ ∀ q, q ∈ r ↔ T q ∧ (q.a.sum, q.b.sum, q.c.sum, q.d.sum) = rs) :
    (l.mapM fun rs => (writePairsRowsum A ty rs n mo pr).map fun d => (rowsumDirName rs, d)) =
        some (l.map (dirOf A mo ty n pr)) ∧
      ∀ dirs, Listing (l.map (dirOf A mo ty n pr)) dirs → ∃ r, joinAll ty dirs = some r ∧
        ∀ q, q ∈ r ↔ T q ∧ (q.a.sum, q.b.sum, q.c.sum, q.d.sum) ∈ l := by
  let f : Quad → Text × Dir := fun rs => (rowsumDirName rs, (writePairsRowsum A ty rs n mo pr).getD [])
  have ef : dirOf A mo ty n pr = f := rfl
  rw [ef]
  refine ⟨mapM_some fun rs hrs => ?_, ?_⟩
  · obtain ⟨d0, h0, _⟩ := key rs hrs
    show _ = some (rowsumDirName rs, _)
    rw [h0]; rfl
  rintro dirs ⟨ds, hp, hd⟩
  have h1 : ∀ d ∈ dirs, ∃ rs ∈ l, ∃ r, joinDir ty d.2 = some r ∧
      ∀ q, q ∈ r ↔ T q ∧ (q.a.sum, q.b.sum, q.c.sum, q.d.sum) = rs := by
    intro d hdm
    obtain ⟨i, hi, e⟩ := List.getElem_of_mem hdm
    have hlen := hd.length_eq
    have hi' : i < ds.length := by omega
    obtain ⟨_, hperm⟩ := (List.forall₂_iff_get.1 hd).2 i hi hi'
    have hmem : ds[i] ∈ l.map f := hp.mem_iff.1 (List.getElem_mem hi')
    obtain ⟨rs, hrs, ers⟩ := List.mem_map.1 hmem
    obtain ⟨d0, h0, hj⟩ := key rs hrs
    refine ⟨rs, hrs, hj d.2 ?_⟩
    have : ds[i].2 = d0 := by rw [← ers]; show (writePairsRowsum _ _ _ _ _ _).getD [] = d0; rw [h0]; rfl
    rw [← e, ← this]
    exact hperm
  have h2 : ∀ rs ∈ l, ∃ d ∈ dirs, ∃ r, joinDir ty d.2 = some r ∧
      ∀ q, q ∈ r ↔ T q ∧ (q.a.sum, q.b.sum, q.c.sum, q.d.sum) = rs := by
    intro rs hrs
    have hmem : f rs ∈ ds := hp.mem_iff.2 (List.mem_map.2 ⟨rs, hrs, rfl⟩)
    obtain ⟨i, hi, e⟩ := List.getElem_of_mem hmem
    have hlen := hd.length_eq
    have hi' : i < dirs.length := by omega
    obtain ⟨_, hperm⟩ := (List.forall₂_iff_get.1 hd).2 i hi' hi
    obtain ⟨d0, h0, hj⟩ := key rs hrs
    refine ⟨dirs[i], List.getElem_mem hi', hj _ ?_⟩
    have : ds[i].2 = d0 := by rw [e]; show (writePairsRowsum _ _ _ _ _ _).getD [] = d0; rw [h0]; rfl
    rw [← this]
    exact hperm
  unfold joinAll
  rw [mapM_some (g := fun d => (joinDir ty d.2).getD []) fun d hdm => by
    obtain ⟨rs, _, r, hr, _⟩ := h1 d hdm
    rw [hr]; rfl]
  refine ⟨_, rfl, fun q => ?_⟩
  simp only [List.mem_flatten, List.mem_map]
  constructor
  · rintro ⟨_, ⟨d, hdm, rfl⟩, hq⟩
    obtain ⟨rs, hrs, r, hr, hq'⟩ := h1 d hdm
    rw [hr] at hq
    obtain ⟨k1, k2⟩ := (hq' q).1 hq
    exact ⟨k1, k2 ▸ hrs⟩
  · rintro ⟨hq, hrs⟩
    obtain ⟨d, hdm, r, hr, hq'⟩ := h2 _ hrs
    refine ⟨r, ⟨d, hdm, by rw [hr]; rfl⟩, (hq' q).2 ⟨hq, rfl⟩⟩

/-- From single directories to all directories, for any arithmetic and matching option. -/
theorem all_dirs {K : Type} (A : Fl K) (mo : MatchOption) {ty : SeqType} {T : QuadSeq → Prop} {l : List Quad}
    (hl : generateRowsums n ty = some l) (pr : Option Pairing)
    (key : ∀ rs ∈ l, ∃ d0, writePairsRowsum A ty rs n mo pr = some d0 ∧ ∀ d, d.Perm (sortDir d0) →
      ∃ r, joinDir ty d = some r ∧ ∀ q, q ∈ r ↔ T q ∧ (q.a.sum, q.b.sum, q.c.sum, q.d.sum) = rs) :
    ∃ w, writePairs A n ty mo pr = some w ∧ w.map Prod.fst = l.map rowsumDirName ∧
      ∀ dirs, Listing w dirs → ∃ r, joinAll ty dirs = some r ∧
        ∀ q, q ∈ r ↔ T q ∧ (q.a.sum, q.b.sum, q.c.sum, q.d.sum) ∈ l := by
  obtain ⟨h1, h2⟩ := some_dirs A mo pr key
  refine ⟨_, ?_, ?_, h2⟩
  · unfold writePairs
    rw [hl, Option.bind_some]
    exact h1
  · rw [List.map_map]; rfl

theorem corr_all {K : Type} (A : Fl K) (val : K → ℝ) (hA : Accurate A val n) (hF : FilterSafe A n) (hn : n < 2 ^ 62)
    {ty : SeqType} (hty : Supported ty) {l : List Quad} (hl : generateRowsums n ty = some l)
    (hfit : ∀ rs ∈ l, ∀ t, (rowsumSequences ty (tagRowsum rs t) n).length < 2 ^ 64) (pr : Option Pairing) :
    ∃ w, writePairs A n ty .correlation pr = some w ∧ w.map Prod.fst = l.map rowsumDirName ∧
      ∀ dirs, Listing w dirs → ∃ r, joinAll ty dirs = some r ∧
        ∀ q, q ∈ r ↔ OfType n ty q ∧ (q.a.sum, q.b.sum, q.c.sum, q.d.sum) ∈ l :=
  all_dirs A .correlation hl pr fun rs hrs =>
    corr_dir A val hA hF hn hty rs (generated_squares hl hrs) (hfit rs hrs) pr

/-! ## Directory names -/

theorem dirName_inj {r s : Quad} (h : rowsumDirName r = rowsumDirName s) : r = s := by
  have e : ∀ q : Quad, rowsumDirName q = ['r', 'o', 'w', 's', 'u', 'm', '_'] ++ keyOf [q.1, q.2.1, q.2.2.1, q.2.2.2] := by
    intro q
    simp [rowsumDirName, keyOf]
  rw [e, e] at h
  have := keyOf_inj (List.append_cancel_left h)
  simp only [List.cons.injEq, and_true] at this
  exact Prod.ext this.1 (Prod.ext this.2.1 (Prod.ext this.2.2.1 this.2.2.2))

end Proofs.Complete
