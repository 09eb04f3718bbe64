import Verif.Proofs.Reps
import Verif.Proofs.Rigid
import Verif.Spec.Kept

/-!
# Helper lemmas: what the join finds if the filter discards pairs of solutions
-/

set_option linter.unusedSectionVars false
set_option linter.unusedVariables false

namespace Proofs.Kept
open Model Spec Proofs.Txt Proofs.Join Proofs.Keys Proofs.Matching Proofs.Files Proofs.Pipeline Proofs.Isolation Proofs.Complete Proofs.Psd
  Proofs.Rigid

variable {n : ℕ} [NeZero n]

theorem kept_passes {K : Type} {A : Fl K} {x y : List ℤ} : PairKept A n x y ↔ passes A n x y = true := by
  unfold PairKept passes
  rw [Bool.not_eq_true']

/-- One directory with correlation matching, whatever the filter does. -/
theorem corr_dir {K : Type} (A : Fl K) (val : K → ℝ) (hA : Accurate A val n) (hn : n < 2 ^ 62)
    {ty : SeqType} (hty : Supported ty) (rs : Quad)
    (hrs : rs.1 ^ 2 + rs.2.1 ^ 2 + rs.2.2.1 ^ 2 + rs.2.2.2 ^ 2 = 4 * n)
    (hfit : ∀ t, (rowsumSequences ty (tagRowsum rs t) n).length < 2 ^ 64) (pr : Option Pairing) :
    ∃ d0, writePairsRowsum A ty rs n .correlation pr = some d0 ∧ ∀ d, d.Perm (sortDir d0) →
      ∃ r, joinDir ty d = some r ∧
        ∀ q, q ∈ r ↔ (OfType n ty q ∧ Spec.Kept A n pr q) ∧ (q.a.sum, q.b.sum, q.c.sum, q.d.sum) = rs := by
  have hmem : ∀ t x, x ∈ rowsumSequences ty (tagRowsum rs t) n →
      PMSeq n x ∧ x.sum = tagRowsum rs t := fun t x hx =>
    ((rowsumSequences_spec hn ty (rowsum_small hn rs hrs t).1 (rowsum_small hn rs hrs t).2 x).1 hx).1
  obtain ⟨p12, p34, e12, e34⟩ := pairing_sign pr
  let g12 : List ℤ → List ℤ → Option (List ℤ) := fun x y => if passes A n x y then key n ty .left p12 x y else none
  let g34 : List ℤ → List ℤ → Option (List ℤ) := fun x y => if passes A n x y then key n ty .right p34 x y else none
  obtain ⟨d0, h0, h⟩ := dir_spec A hty rs .correlation pr _ (fun t => rfl) (fun t x hx => (hmem t x hx).1)
    (fun t x hx => (hmem t x hx).2) hfit g12 g34
    (fun x hx y hy i j d hd => by
      rw [pairKey_corr hA (hmem _ x hx).1 (hmem _ y hy).1 e12 hd, corrKey_key hty]
      exact congrArg some (if_pos (passes_data hd)).symm)
    (fun x hx y hy i j d hd => by
      rw [pairKey_corr hA (hmem _ x hx).1 (hmem _ y hy).1 e34 hd, corrKey_key hty]
      exact congrArg some (if_pos (passes_data hd)).symm)
  have of_some : ∀ {c : Bool} {k : Option (List ℤ)}, (if c then k else none).isSome = true → c = true := by
    intro c k hk
    cases c
    · simp at hk
    · rfl
  have of_eq : ∀ {c : Bool} {k : Option (List ℤ)} {u}, (if c then k else none) = some u → k = some u := by
    intro c k u hk
    cases c
    · simp at hk
    · exact hk
  refine ⟨d0, h0, fun d hd => ?_⟩
  obtain ⟨r, hr, h1, h2⟩ := h d hd
  refine ⟨r, hr, fun q => ⟨fun hq => ?_, ?_⟩⟩
  · obtain ⟨k1, k2, k3, k4⟩ := h1 q hq
    exact ⟨⟨k1, kept_passes.2 (of_some k3), kept_passes.2 (of_some k4)⟩, (mem_rowsumSequences hn hrs k1).1 k2⟩
  · rintro ⟨⟨hq, hk1, hk2⟩, hqr⟩
    have hall := (mem_rowsumSequences hn hrs hq).2 hqr
    obtain ⟨v, hv1, hv2⟩ := corrKey_agree hq pr p12 p34
    rw [← cyc_seq, ← cyc_seq, corrKey_key hty, Option.some_inj] at hv1 hv2
    obtain ⟨i1, i2⟩ := key_iso hty pr p12 p34 rs hrs hq (tagRowsum_eq.1 hqr) hv1
    exact h2 q hq hall hk1 hk2 v ((if_pos (kept_passes.1 hk1)).trans hv1) ((if_pos (kept_passes.1 hk2)).trans hv2)
      (fun x hx y hy u hu => i1 x y u (hmem _ x hx).1 (hmem _ y hy).1 (hmem _ x hx).2 (hmem _ y hy).2 (of_eq hu))
      (fun x hx y hy u hu => i2 x y u (hmem _ x hx).1 (hmem _ y hy).1 (hmem _ x hx).2 (hmem _ y hy).2 (of_eq hu))

/-- The key computed for a kept pair of a quadruple that is searched for. -/
theorem aKey_kept {K : Type} {A : Fl K} (hK : SpectrumKeys A n) {ty : SeqType} (hty : Supported ty)
    {q : QuadSeq} (hw : IsWTS n q) {t1 t2 : Tag} (hne : t1 ≠ t2) (hk : PairKept A n (q.sequence t1) (q.sequence t2))
    {side : Side} {tags : Tag × Tag} {pos : Bool} (hp : crossSign tags = some pos) :
    aKey A n ty side tags (q.sequence t1) (q.sequence t2) = psdKey n ty side pos (q.sequence t1) (q.sequence t2) := by
  obtain ⟨d, hd⟩ := data_passes (n := n) 0 0 (kept_passes.1 hk)
  obtain ⟨b', d', hd'⟩ := big_bound (q.sequence t1) (q.sequence t2) 0 0
  rw [aKey_eq hd, hK.solution q hw t1 t2 hne ty hty side tags (by rw [hp]; rfl) _ _ _ d b' d' hd hd',
    pairKey_psd (seq_pm hw.1 _) (seq_pm hw.1 _) hp hty hd']
  rfl

/-- One directory with matching by power spectra, whatever the filter does. -/
theorem psd_dir {K : Type} (A : Fl K) (hK : SpectrumKeys A n) (hn : n < 2 ^ 62) {ty : SeqType} (hty : Supported ty)
    (rs : Quad) (hrs : rs.1 ^ 2 + rs.2.1 ^ 2 + rs.2.2.1 ^ 2 + rs.2.2.2 ^ 2 = 4 * n)
    (hfit : ∀ t, (rowsumSequences ty (tagRowsum rs t) n).length < 2 ^ 64) (pr : Option Pairing) :
    ∃ d0, writePairsRowsum A ty rs n .psd pr = some d0 ∧ ∀ d, d.Perm (sortDir d0) →
      ∃ r, joinDir ty d = some r ∧
        ∀ q, q ∈ r ↔ (OfType n ty q ∧ Spec.Kept A n pr q) ∧ (q.a.sum, q.b.sum, q.c.sum, q.d.sum) = rs := by
  obtain ⟨p12, p34, e12, e34⟩ := pairing_sign pr
  have hmem : ∀ t x, x ∈ rowsumSequences ty (tagRowsum rs t) n →
      PMSeq n x ∧ x.sum = tagRowsum rs t := fun t x hx =>
    ((rowsumSequences_spec hn ty (rowsum_small hn rs hrs t).1 (rowsum_small hn rs hrs t).2 x).1 hx).1
  have hk : ∀ {side tags x y i j d}, PMSeq n x → PMSeq n y → (crossSign tags).isSome = true →
      pairData A (A.mul (A.lit 4 1) (A.ofInt n)) (x, i) (y, j) = some d →
      pairKey A ty side .psd tags n d = some (aKey A n ty side tags x y) := by
    intro side tags x y i j d hx hy ht hd
    obtain ⟨o, ho, _⟩ := hK.others x y hx hy ty hty side tags ht i j _ d hd
    rw [aKey_eq hd, ho]
    rfl
  have of_some : ∀ {side tags x y}, (aKey A n ty side tags x y).isSome = true → PairKept A n x y := by
    intro side tags x y h
    obtain ⟨u, hu⟩ := Option.isSome_iff_exists.1 h
    obtain ⟨d, hd, _⟩ := aKey_some hu
    exact kept_passes.2 (passes_data hd)
  obtain ⟨d0, h0, h⟩ := dir_spec A hty rs .psd pr _ (fun t => rfl) (fun t x hx => (hmem t x hx).1)
    (fun t x hx => (hmem t x hx).2) hfit (aKey A n ty .left (pairingTags pr).1) (aKey A n ty .right (pairingTags pr).2)
    (fun x hx y hy i j d hd => hk (hmem _ x hx).1 (hmem _ y hy).1 (by rw [e12]; rfl) hd)
    (fun x hx y hy i j d hd => hk (hmem _ x hx).1 (hmem _ y hy).1 (by rw [e34]; rfl) hd)
  refine ⟨d0, h0, fun d hd => ?_⟩
  obtain ⟨r, hr, h1, h2⟩ := h d hd
  refine ⟨r, hr, fun q => ⟨fun hq => ?_, ?_⟩⟩
  · obtain ⟨k1, k2, k3, k4⟩ := h1 q hq
    exact ⟨⟨k1, of_some k3, of_some k4⟩, (mem_rowsumSequences hn hrs k1).1 k2⟩
  · rintro ⟨⟨hq, hk1, hk2⟩, hqr⟩
    have hw := ofType_wts hq
    have hall := (mem_rowsumSequences hn hrs hq).2 hqr
    obtain ⟨v, hv1, hv2⟩ := psdKey_agree hq pr p12 p34
    obtain ⟨i1, i2⟩ := aKey_iso hK hty pr p12 rs hrs hq (fun t => by subst hqr; cases t <;> rfl) hv1
    exact h2 q hq hall hk1 hk2 v (by rw [aKey_kept hK hty hw (pairing_ne pr).1 hk1 e12]; exact hv1)
      (by rw [aKey_kept hK hty hw (pairing_ne pr).2 hk2 e34]; exact hv2)
      (fun x hx y hy u hu => i1 x y u (hmem _ x hx).1 (hmem _ y hy).1 (hmem _ x hx).2 (hmem _ y hy).2 hu)
      (fun x hx y hy u hu => i2 x y u (hmem _ x hx).1 (hmem _ y hy).1 (hmem _ x hx).2 (hmem _ y hy).2 hu)

theorem dir_kept {K : Type} (A : Fl K) (val : K → ℝ) {mo : MatchOption} (hN : KeyNumerics A val n mo) (hn : n < 2 ^ 62)
    {ty : SeqType} (hty : Supported ty) (rs : Quad) (hrs : rs.1 ^ 2 + rs.2.1 ^ 2 + rs.2.2.1 ^ 2 + rs.2.2.2 ^ 2 = 4 * n)
    (hfit : ∀ t, (rowsumSequences ty (tagRowsum rs t) n).length < 2 ^ 64) (pr : Option Pairing) :
    ∃ d0, writePairsRowsum A ty rs n mo pr = some d0 ∧ ∀ d, d.Perm (sortDir d0) →
      ∃ r, joinDir ty d = some r ∧
        ∀ q, q ∈ r ↔ (OfType n ty q ∧ Spec.Kept A n pr q) ∧ (q.a.sum, q.b.sum, q.c.sum, q.d.sum) = rs := by
  cases mo with
  | correlation => exact corr_dir A val (hN.correlation rfl) hn hty rs hrs hfit pr
  | psd => exact psd_dir A (hN.psd rfl) hn hty rs hrs hfit pr

/-! ## QT equivalence implies Williamson-type equivalence -/

theorem qt_wt {f g : Fam n} (h : QTEquiv f g) : WTEquiv f g := by
  have one : ∀ (f : Fam n) (_ : Even n) (t : Tag), WTEquiv f (halfAt (fun u => decide (u = t)) f) := fun f he t =>
    .rel _ _ (.inr (.inr (.inl (.mk he t))))
  unfold QTEquiv at h
  induction h with
  | refl x => exact .refl _
  | symm x y _ ih => exact .symm _ _ ih
  | trans x y z _ _ h1 h2 => exact .trans _ _ _ h1 h2
  | rel x y h =>
    rcases h with h | h | h | h
    · exact .rel _ _ (.inl h)
    · exact .rel _ _ (.inr (.inl h))
    · cases h with
      | two he t1 t2 h12 =>
        have h : WTEquiv x _ := .trans _ _ _ (one x he t1) (one _ he t2)
        refine (congrArg (WTEquiv x) ?_).mp h
        funext t
        unfold halfAt
        cases t1 <;> cases t2 <;> cases t <;> first | exact absurd rfl h12 | rfl
      | four he =>
        have h : WTEquiv x _ := .trans _ _ _ (one x he .W) (.trans _ _ _ (one _ he .X) (.trans _ _ _ (one _ he .Y) (one _ he .Z)))
        refine (congrArg (WTEquiv x) ?_).mp h
        funext t
        unfold halfAt
        cases t <;> rfl
    · cases h with
      | mk t0 t1 t2 h12 =>
        exact .trans _ _ _ (.rel _ _ (.inr (.inr (.inr (.neg t0))))) (.rel _ _ (.inr (.inr (.inr (.swap t1 t2 h12)))))

end Proofs.Kept
