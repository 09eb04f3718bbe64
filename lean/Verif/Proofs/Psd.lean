import Verif.Proofs.Complete

/-!
# Helper lemmas: matching by power spectra in exact arithmetic
-/

set_option linter.unusedSectionVars false
set_option linter.unusedVariables false
set_option linter.unusedSimpArgs false

namespace Proofs.Psd
open Model Spec Proofs.Txt Proofs.Keys Proofs.Matching Proofs.Pipeline Proofs.Isolation Proofs.Complete Proofs.Fourier
  Complex

variable {n : ℕ} [NeZero n]

/-- The value in a key for the sum `a` of two power spectra. -/
noncomputable def sideVal (n : ℕ) (side : Side) (a : ℝ) : ℤ :=
  roundAway (match side with | .left => a | .right => 4 * n - a)

noncomputable def psdVals (n : ℕ) (side : Side) (x y : List ℤ) : List ℤ :=
  (List.range' 1 (n / 2)).map fun k => sideVal n side (psd n x k + psd n y k)

noncomputable def crossIm (n : ℕ) (pos : Bool) (x y : List ℤ) (k : ℕ) : ℝ :=
  let c1 := dft n x k * (starRingEnd ℂ) (dft n y k)
  let c2 := dft n y k * (starRingEnd ℂ) (dft n x k)
  if pos then (c1 - c2).im else (c2 - c1).im

noncomputable def psdKey (n : ℕ) (ty : SeqType) (side : Side) (pos : Bool) (x y : List ℤ) : Option (List ℤ) :=
  match ty with
  | .quaternionType =>
    some (psdVals n side x y ++ (List.range' 1 (n / 2)).map fun k => side.op (roundAway (crossIm n pos x y k)))
  | .williamsonType =>
    if (List.range' 1 (n / 2)).any fun k => decide (|crossIm n pos x y k| > 1 / 10000) then none
    else some (psdVals n side x y)
  | _ => some (psdVals n side x y)

theorem psdPair_exact {x y : List ℤ} (hx : x.length = n) (hy : y.length = n) (side : Side) :
    (computePsdPair exactFl ((dftSequence exactFl x).map exactFl.normSqr)
      ((dftSequence exactFl y).map exactFl.normSqr) n side).map exactFl.round = psdVals n side x y := by
  rw [exact_psd hx, exact_psd hy]
  unfold computePsdPair psdVals
  rw [← List.map_drop, ← List.map_drop, List.zipWith_map, List.zipWith_self, List.map_map]
  have : (List.range (n / 2 + 1)).drop 1 = List.range' 1 (n / 2) := by
    rw [List.range_eq_range', List.drop_range']
    simp
  rw [this]
  refine List.map_congr_left fun k _ => ?_
  cases side <;> simp [exactFl, sideVal]

theorem crossPsd_exact {x y : List ℤ} (hx : x.length = n) (hy : y.length = n) :
    computeCrossPsd exactFl (dftSequence exactFl x) (dftSequence exactFl y) =
      (List.range (n / 2 + 1)).map fun k => ((dft n x k * (starRingEnd ℂ) (dft n y k)).re,
        (dft n x k * (starRingEnd ℂ) (dft n y k)).im) := by
  rw [exact_dft hx, exact_dft hy]
  unfold computeCrossPsd
  rw [List.zipWith_map, List.zipWith_self]
  refine List.map_congr_left fun k _ => ?_
  simp [Fl.cmul, Fl.conj, exactFl]
  try ring

theorem crossPsdPair_exact {x y : List ℤ} (hx : x.length = n) (hy : y.length = n) {tags : Tag × Tag} {pos : Bool}
    (hs : crossSign tags = some pos) :
    ∃ c, computeCrossPsdPair exactFl (dftSequence exactFl x) (dftSequence exactFl y) tags n = some c ∧
      c.map Prod.snd = (List.range' 1 (n / 2)).map fun k => crossIm n pos x y k := by
  unfold computeCrossPsdPair
  rw [hs]
  refine ⟨_, rfl, ?_⟩
  rw [List.map_map]
  refine List.map_congr_left fun k hk => ?_
  have hk' : k < n / 2 + 1 := by have := List.mem_range'_1.1 hk; omega
  have hg : ∀ (f : ℕ → ℝ × ℝ) z, ((List.range (n / 2 + 1)).map f).getD k z = f k := by
    intro f z
    rw [List.getD_eq_getElem _ _ (by simpa using hk')]
    simp
  simp only [Function.comp, crossPsd_exact hx hy, crossPsd_exact hy hx, hg]
  unfold crossIm
  cases pos <;> simp [Fl.csub, exactFl]

theorem pairKey_psd {x y : List ℤ} (hx : PMSeq n x) (hy : PMSeq n y) {tags : Tag × Tag} {pos : Bool}
    (hs : crossSign tags = some pos) {ty : SeqType} (hty : Supported ty) {side : Side} {i j : ℕ} {b : ℝ}
    {d : PairData ℝ} (hd : pairData exactFl b (x, i) (y, j) = some d) :
    pairKey exactFl ty side .psd tags n d = some (psdKey n ty side pos x y) := by
  rw [pairData_some hd]
  unfold pairKey
  dsimp only
  rw [psdPair_exact hx.1 hy.1, hx.1]
  obtain ⟨c, hc, hc2⟩ := crossPsdPair_exact hx.1 hy.1 hs
  rw [hc]
  have h1 : (c.map fun z => side.op (exactFl.round z.2)) =
      (List.range' 1 (n / 2)).map fun k => side.op (roundAway (crossIm n pos x y k)) := by
    have := congrArg (List.map fun r => side.op (roundAway r)) hc2
    rw [List.map_map, List.map_map] at this
    exact this
  have h2 : (c.any fun z => exactFl.gt (exactFl.abs z.2) (exactFl.lit 1 10000)) =
      (List.range' 1 (n / 2)).any fun k => decide (|crossIm n pos x y k| > 1 / 10000) := by
    have := congrArg (fun l => List.any l fun r => decide (|r| > 1 / 10000)) hc2
    simp only [List.any_map] at this
    rw [show (fun z : ℝ × ℝ => exactFl.gt (exactFl.abs z.2) (exactFl.lit 1 10000)) =
      (fun r : ℝ => decide (|r| > 1 / 10000)) ∘ Prod.snd from by
        funext z; simp only [exactFl, Function.comp]; norm_num]
    exact this
  rcases hty with rfl | rfl | rfl
  · simp only [Option.bind_some, h1, psdKey]
  · simp only [Option.bind_some, h2, psdKey]
    split <;> rfl
  · rfl

theorem crossIm_amicable {x y : List ℤ} (h : Spec.Amicable (cyc n x) (cyc n y)) (pos : Bool) (k : ℕ) :
    crossIm n pos x y k = 0 := by
  have : dft n x k * (starRingEnd ℂ) (dft n y k) = dft n y k * (starRingEnd ℂ) (dft n x k) := by
    rw [dft_eq, dft_eq, F_mul_conj, F_mul_conj]
    refine Finset.sum_congr rfl fun t _ => ?_
    rw [h t]
  unfold crossIm
  simp only [this, sub_self, zero_im, ite_self]

theorem roundAway_zero : roundAway 0 = 0 := by simpa using roundAway_int 0

theorem psdKey_amicable {x y : List ℤ} (h : Spec.Amicable (cyc n x) (cyc n y)) (ty : SeqType) (side : Side) (pos : Bool) :
    psdKey n ty side pos x y = some (match ty with
      | .quaternionType => psdVals n side x y ++ List.replicate (n / 2) 0
      | _ => psdVals n side x y) := by
  unfold psdKey
  have hz : side.op (roundAway 0) = 0 := by rw [roundAway_zero]; cases side <;> rfl
  simp only [crossIm_amicable h, hz]
  have h1 : ((List.range' 1 (n / 2)).any fun _ => decide (|(0 : ℝ)| > 1 / 10000)) = false := by
    rw [List.any_eq_false]; intro k _; norm_num
  rw [h1]
  cases ty <;> simp [List.map_const']

theorem psdVals_agree {q : QuadSeq} (hq : IsWTS n q) (pr : Option Pairing) :
    psdVals n .left (q.sequence (pairingTags pr).1.1) (q.sequence (pairingTags pr).1.2) =
      psdVals n .right (q.sequence (pairingTags pr).2.1) (q.sequence (pairingTags pr).2.2) := by
  refine List.map_congr_left fun k _ => ?_
  have h := psd_sum hq.1.a hq.1.b hq.1.c hq.1.d hq.2.1 k
  unfold sideVal
  refine congrArg roundAway ?_
  rcases pr with _ | _ | _ | _ <;> simp only [pairingTags, QuadSeq.sequence] <;> linarith

theorem psdKey_agree {q : QuadSeq} {ty : SeqType} (h : OfType n ty q) (pr : Option Pairing) (p p' : Bool) :
    ∃ v, psdKey n ty .left p (q.sequence (pairingTags pr).1.1) (q.sequence (pairingTags pr).1.2) = some v ∧
      psdKey n ty .right p' (q.sequence (pairingTags pr).2.1) (q.sequence (pairingTags pr).2.2) = some v := by
  have hw := ofType_wts h
  have hm := fun a b => wts_amicable hw a b
  simp only [← cyc_seq] at hm
  rw [psdKey_amicable (hm _ _), psdKey_amicable (hm _ _), psdVals_agree hw pr]
  exact ⟨_, rfl, rfl⟩

theorem psdVals_length (side : Side) (x y : List ℤ) : (psdVals n side x y).length = n / 2 := by
  simp [psdVals]

theorem psdKey_qt_length {side : Side} {p : Bool} {x y u : List ℤ}
    (h : psdKey n .quaternionType side p x y = some u) : u.length = n / 2 + n / 2 := by
  unfold psdKey at h
  simp only [Option.some_inj] at h
  rw [← h]
  simp [psdVals_length]

theorem psdKey_qt_last {q : QuadSeq} (h : OfType n .quaternionType q) {side : Side} {p : Bool} {t1 t2 : Tag} {v : List ℤ}
    (hv : psdKey n .quaternionType side p (q.sequence t1) (q.sequence t2) = some v) : v.getLast?.getD 0 = 0 := by
  have hm := wts_amicable (ofType_wts h) t1 t2
  rw [← cyc_seq, ← cyc_seq] at hm
  rw [psdKey_amicable hm] at hv
  simp only [Option.some_inj] at hv
  rw [← hv]
  rcases Nat.eq_zero_or_pos (n / 2) with h0 | h0
  · have : psdVals n side (q.sequence t1) (q.sequence t2) = [] := List.length_eq_zero_iff.1 (by rw [psdVals_length, h0])
    rw [this, h0]; rfl
  · rw [List.getLast?_append, List.getLast?_replicate, if_neg (by omega)]; rfl

/-- The test whether a pair of sequences passes the filter. -/
def passes {K : Type} (A : Fl K) (n : ℕ) (x y : List ℤ) : Bool :=
  !boundExceeded A ((dftSequence A x).map A.normSqr) ((dftSequence A y).map A.normSqr)
    (A.mul (A.lit 4 1) (A.ofInt n))

theorem passes_data {K : Type} {A : Fl K} {x y : List ℤ} {i j : ℕ} {d : PairData K}
    (h : pairData A (A.mul (A.lit 4 1) (A.ofInt n)) (x, i) (y, j) = some d) :
    passes A n x y = true := by
  unfold pairData at h
  dsimp only at h
  split at h
  · cases h
  · rename_i hb
    unfold passes
    rw [Bool.eq_false_iff.2 hb]
    rfl

theorem data_passes {K : Type} {A : Fl K} {x y : List ℤ} (i j : ℕ) (h : passes A n x y = true) :
    ∃ d, pairData A (A.mul (A.lit 4 1) (A.ofInt n)) (x, i) (y, j) = some d := by
  refine ⟨_, pairData_ok ?_⟩
  unfold passes at h
  rw [Bool.not_eq_true'] at h
  exact h

theorem wts_passes {K : Type} {A : Fl K} (hF : FilterSafe A n) {q : QuadSeq} (hw : IsWTS n q) {t1 t2 : Tag}
    (h : t1 ≠ t2) : passes A n (q.sequence t1) (q.sequence t2) = true := by
  unfold passes
  rw [hF q hw.1 hw.2.1 _ _ h]
  rfl

/-- The keys computed from power spectra are those of exact arithmetic. -/
def PsdKeys {K : Type} (A : Fl K) (n : ℕ) : Prop :=
  ∀ {x y : List ℤ}, PMSeq n x → PMSeq n y → ∀ {tags : Tag × Tag} {pos : Bool}, crossSign tags = some pos →
    ∀ {ty : SeqType}, Supported ty → ∀ {side : Side} {i j : ℕ} {b : K} {d : PairData K},
      pairData A b (x, i) (y, j) = some d → pairKey A ty side .psd tags n d = some (psdKey n ty side pos x y)

theorem exact_keys : PsdKeys exactFl n := fun hx hy _ _ hs _ hty _ _ _ _ _ hd => pairKey_psd hx hy hs hty hd

/-- The key that is computed for a pair, if the pair passes the filter. -/
def aKey {K : Type} (A : Fl K) (n : ℕ) (ty : SeqType) (side : Side) (tags : Tag × Tag) (x y : List ℤ) : Option (List ℤ) :=
  ((pairData A (A.mul (A.lit 4 1) (A.ofInt n)) (x, 0) (y, 0)).bind fun d => pairKey A ty side .psd tags n d).join

theorem pairKey_index {K : Type} {A : Fl K} {b b' : K} {x y : List ℤ} {i j i' j' : ℕ} {d d' : PairData K}
    (h : pairData A b (x, i) (y, j) = some d) (h' : pairData A b' (x, i') (y, j') = some d') (ty : SeqType) (side : Side)
    (mo : MatchOption) (tags : Tag × Tag) (n : ℕ) : pairKey A ty side mo tags n d = pairKey A ty side mo tags n d' := by
  rw [pairData_some h, pairData_some h']
  rfl

theorem aKey_eq {K : Type} {A : Fl K} {x y : List ℤ} {i j : ℕ} {d : PairData K}
    (h : pairData A (A.mul (A.lit 4 1) (A.ofInt n)) (x, i) (y, j) = some d) (ty : SeqType) (side : Side) (tags : Tag × Tag) :
    aKey A n ty side tags x y = (pairKey A ty side .psd tags n d).join := by
  obtain ⟨d', hd'⟩ := data_passes (n := n) 0 0 (passes_data h)
  unfold aKey
  rw [hd', Option.bind_some, pairKey_index h hd']

theorem aKey_some {K : Type} {A : Fl K} {x y u : List ℤ} {ty : SeqType} {side : Side} {tags : Tag × Tag}
    (h : aKey A n ty side tags x y = some u) :
    ∃ d, pairData A (A.mul (A.lit 4 1) (A.ofInt n)) (x, 0) (y, 0) = some d ∧ pairKey A ty side .psd tags n d = some (some u) := by
  unfold aKey at h
  cases hd : pairData A (A.mul (A.lit 4 1) (A.ofInt n)) (x, 0) (y, 0) with
  | none => rw [hd] at h; cases h
  | some d =>
    rw [hd, Option.bind_some] at h
    refine ⟨d, rfl, ?_⟩
    cases hk : pairKey A ty side .psd tags n d with
    | none => rw [hk] at h; cases h
    | some o => rw [hk] at h; exact congrArg some h

/-- Matching by power spectra: soundness for one directory, and completeness for quadruples with an isolated key. -/
theorem psd_dir {K : Type} (A : Fl K) (hF : FilterSafe A n) (hn : n < 2 ^ 62) {ty : SeqType} (hty : Supported ty) (rs : Quad)
    (hrs : rs.1 ^ 2 + rs.2.1 ^ 2 + rs.2.2.1 ^ 2 + rs.2.2.2 ^ 2 = 4 * n)
    (hfit : ∀ t, (rowsumSequences ty (tagRowsum rs t) n).length < 2 ^ 64) (pr : Option Pairing)
    (hT : ∀ x y, PMSeq n x → PMSeq n y → ∀ side tags, (crossSign tags).isSome → ∀ i j b d,
      pairData A b (x, i) (y, j) = some d → ∃ o, pairKey A ty side .psd tags n d = some o) :
    ∃ d0, writePairsRowsum A ty rs n .psd pr = some d0 ∧ ∀ d, d.Perm (sortDir d0) →
      ∃ r, joinDir ty d = some r ∧ (∀ q ∈ r, OfType n ty q ∧ (q.a.sum, q.b.sum, q.c.sum, q.d.sum) = rs) ∧
        ∀ q, OfType n ty q → (q.a.sum, q.b.sum, q.c.sum, q.d.sum) = rs → ∀ v,
          aKey A n ty .left (pairingTags pr).1 (q.sequence (pairingTags pr).1.1) (q.sequence (pairingTags pr).1.2) = some v →
          aKey A n ty .right (pairingTags pr).2 (q.sequence (pairingTags pr).2.1) (q.sequence (pairingTags pr).2.2) = some v →
          (∀ x y u, PMSeq n x → PMSeq n y → x.sum = tagRowsum rs (pairingTags pr).1.1 →
            y.sum = tagRowsum rs (pairingTags pr).1.2 → aKey A n ty .left (pairingTags pr).1 x y = some u →
            u = v ∨ (¬ keyOf v <+: keyOf u ∧ ¬ keyOf u <+: keyOf v)) →
          (∀ x y u, PMSeq n x → PMSeq n y → x.sum = tagRowsum rs (pairingTags pr).2.1 →
            y.sum = tagRowsum rs (pairingTags pr).2.2 → aKey A n ty .right (pairingTags pr).2 x y = some u →
            u = v ∨ (¬ keyOf v <+: keyOf u ∧ ¬ keyOf u <+: keyOf v)) → q ∈ r := by
  obtain ⟨p12, p34, e12, e34⟩ := pairing_sign pr
  have hmem : ∀ t x, x ∈ rowsumSequences ty (tagRowsum rs t) n →
      (PMSeq n x ∧ x.sum = tagRowsum rs t) ∧ (ty = .williamson → Symm (cyc n x)) := fun t x hx =>
    (rowsumSequences_spec hn ty (rowsum_small hn rs hrs t).1 (rowsum_small hn rs hrs t).2 x).1 hx
  have hk : ∀ {side tags x y i j d}, PMSeq n x → PMSeq n y → (crossSign tags).isSome = true →
      pairData A (A.mul (A.lit 4 1) (A.ofInt n)) (x, i) (y, j) = some d →
      pairKey A ty side .psd tags n d = some (aKey A n ty side tags x y) := by
    intro side tags x y i j d hx hy ht hd
    obtain ⟨o, ho⟩ := hT x y hx hy side tags ht i j _ d hd
    rw [aKey_eq hd, ho]
    rfl
  obtain ⟨d0, h0, h⟩ := dir_spec A hty rs .psd pr _ (fun t => rfl) (fun t x hx => (hmem t x hx).1.1)
    (fun t x hx => (hmem t x hx).1.2) hfit (aKey A n ty .left (pairingTags pr).1) (aKey A n ty .right (pairingTags pr).2)
    (fun x hx y hy i j d hd => hk (hmem _ x hx).1.1 (hmem _ y hy).1.1 (by rw [e12]; rfl) hd)
    (fun x hx y hy i j d hd => hk (hmem _ x hx).1.1 (hmem _ y hy).1.1 (by rw [e34]; rfl) hd)
  refine ⟨d0, h0, fun d hd => ?_⟩
  obtain ⟨r, hr, h1, h2⟩ := h d hd
  refine ⟨r, hr, fun q hq => ?_, ?_⟩
  · obtain ⟨k1, k2, _⟩ := h1 q hq
    exact ⟨k1, (mem_rowsumSequences hn hrs k1).1 k2⟩
  · intro q hq hqr v hv1 hv2 i1 i2
    have hw := ofType_wts hq
    have hall := (mem_rowsumSequences hn hrs hq).2 hqr
    exact h2 q hq hall
      (hF q hw.1 hw.2.1 _ _ (pairing_ne pr).1)
      (hF q hw.1 hw.2.1 _ _ (pairing_ne pr).2) v hv1 hv2
      (fun x hx y hy u hu => i1 x y u (hmem _ x hx).1.1 (hmem _ y hy).1.1 (hmem _ x hx).1.2 (hmem _ y hy).1.2 hu)
      (fun x hx y hy u hu => i2 x y u (hmem _ x hx).1.1 (hmem _ y hy).1.1 (hmem _ x hx).1.2 (hmem _ y hy).1.2 hu)

/-! ## Length 3 -/

theorem psd_three (x : List ℤ) (hx : PMSeq 3 x) : psd 3 x 1 = 0 ∨ psd 3 x 1 = 4 := by
  have hs : (∑ t : ZMod 3, ψ (n := 3) t) = 0 := by
    have := orthogonality (n := 3) 1
    simpa using this
  have e0 : ψ (n := 3) 0 = 1 := AddChar.map_zero_eq_one _
  have hu : (Finset.univ : Finset (ZMod 3)) = {0, 1, 2} := rfl
  have h3 : ∀ f : ZMod 3 → ℂ, ∑ t, f t = f 0 + (f 1 + f 2) := by
    intro f
    rw [hu, Finset.sum_insert (by decide), Finset.sum_insert (by decide), Finset.sum_singleton]
  have e2 : ∀ l : List ℤ, PMSeq 3 l → (paf (cyc 3 l) 1 = paf (cyc 3 l) 2) ∧
      (paf (cyc 3 l) 0 - paf (cyc 3 l) 1 = 0 ∨ paf (cyc 3 l) 0 - paf (cyc 3 l) 1 = 4) := by
    intro l hl
    have := Complete.mem_allPM hl
    revert l
    have h : ∀ l ∈ Complete.allPM 3, (paf (cyc 3 l) 1 = paf (cyc 3 l) 2) ∧
      (paf (cyc 3 l) 0 - paf (cyc 3 l) 1 = 0 ∨ paf (cyc 3 l) 0 - paf (cyc 3 l) 1 = 4) := by decide
    intro l _ hl
    exact h l hl
  obtain ⟨a, b⟩ := e2 x hx
  have key : ((psd 3 x 1 : ℝ) : ℂ) = ((paf (cyc 3 x) 0 - paf (cyc 3 x) 1 : ℤ) : ℝ) := by
    rw [psd_eq, dft_eq, F_mul_conj]
    simp only [ccf_self]
    rw [h3] at hs ⊢
    rw [e0] at hs
    have n1 : (-(1 * ((1 : ℕ) : ZMod 3))) = 2 := by decide
    have n2 : (-(2 * ((1 : ℕ) : ZMod 3))) = 1 := by decide
    have n0 : (-(0 * ((1 : ℕ) : ZMod 3))) = 0 := by decide
    rw [n0, n1, n2, e0, ← a]
    have : (ψ (n := 3) 2 : ℂ) = -1 - ψ (n := 3) 1 := by linear_combination hs
    rw [this]
    push_cast
    ring
  have key' := Complex.ofReal_injective key
  rcases b with b | b <;> rw [b] at key' <;> [left; right] <;> rw [key'] <;> norm_num

/-- The keys of length 3. -/
theorem psdKey_three {ty : SeqType} (hty : ty = .williamson ∨ ty = .williamsonType) {side : Side} {pos : Bool}
    {x y u : List ℤ} (hx : PMSeq 3 x) (hy : PMSeq 3 y) (h : psdKey 3 ty side pos x y = some u) :
    u ∈ [[0], [4], [8], [12]] := by
  have e : u = psdVals 3 side x y := by
    unfold psdKey at h
    rcases hty with rfl | rfl
    · exact (Option.some.inj h).symm
    · simp only at h
      split at h
      · cases h
      · exact (Option.some.inj h).symm
  have e2 : psdVals 3 side x y = [sideVal 3 side (psd 3 x 1 + psd 3 y 1)] := rfl
  have hr : ∀ z : ℤ, roundAway (z : ℝ) = z := roundAway_int
  rw [e, e2]
  unfold sideVal
  rcases psd_three x hx with h1 | h1 <;> rcases psd_three y hy with h2 | h2 <;> rw [h1, h2] <;> cases side <;>
    simp only []
  · rw [show (0 + 0 : ℝ) = (0 : ℤ) by norm_num, hr]; decide
  · rw [show (4 * (3 : ℕ) - (0 + 0) : ℝ) = (12 : ℤ) by norm_num, hr]; decide
  · rw [show (0 + 4 : ℝ) = (4 : ℤ) by norm_num, hr]; decide
  · rw [show (4 * (3 : ℕ) - (0 + 4) : ℝ) = (8 : ℤ) by norm_num, hr]; decide
  · rw [show (4 + 0 : ℝ) = (4 : ℤ) by norm_num, hr]; decide
  · rw [show (4 * (3 : ℕ) - (4 + 0) : ℝ) = (8 : ℤ) by norm_num, hr]; decide
  · rw [show (4 + 4 : ℝ) = (8 : ℤ) by norm_num, hr]; decide
  · rw [show (4 * (3 : ℕ) - (4 + 4) : ℝ) = (4 : ℤ) by norm_num, hr]; decide

end Proofs.Psd
