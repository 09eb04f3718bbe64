import Verif.Proofs.Fourier
import Verif.Proofs.Rowsum

/-!
# Helper lemmas: matching keys
-/

set_option linter.unusedSectionVars false
set_option linter.unusedVariables false
set_option linter.unusedSimpArgs false

namespace Proofs.Matching
open Model Spec Proofs Proofs.Amicable

variable {n : ℕ} [NeZero n]

/-- Autocorrelation values of a pair at the shifts `1, …, n / 2`. -/
def autoVals (x y : ZMod n → ℤ) : List ℤ := (List.range' 1 (n / 2)).map fun (t : ℕ) => paf x (t : ZMod n) + paf y t

/-- Signed differences of the cross-correlations of a pair at the shifts `1, …, n / 2`. -/
def crossVals (pos : Bool) (x y : ZMod n → ℤ) : List ℤ :=
  (List.range' 1 (n / 2)).map fun (t : ℕ) => if pos then asym x y (t : ZMod n) else asym y x t

theorem half_lt {t : ℕ} (ht : t ∈ List.range' 1 (n / 2)) : 1 ≤ t ∧ t ≤ n / 2 ∧ t < n := by
  rw [List.mem_range'_1] at ht; have := npos (n := n); omega

theorem half_ne {t : ℕ} (ht : t ∈ List.range' 1 (n / 2)) : (t : ZMod n) ≠ 0 := by
  obtain ⟨h1, -, h2⟩ := half_lt ht
  intro h
  have := congrArg ZMod.val h
  rw [ZMod.val_cast_of_lt h2, ZMod.val_zero] at this
  omega

theorem from_half {g : ZMod n → ℤ} (hs : ∀ t, g (-t) = 0 → g t = 0)
    (h : ∀ t ∈ List.range' 1 (n / 2), g ((t : ℕ) : ZMod n) = 0) (t : ZMod n) (ht : t ≠ 0) : g t = 0 := by
  have hv : t.val ≠ 0 := by rwa [Ne, ZMod.val_eq_zero]
  have hlt := ZMod.val_lt t
  by_cases hle : t.val ≤ n / 2
  · have := h t.val (by rw [List.mem_range'_1]; omega)
    rwa [ZMod.natCast_zmod_val] at this
  · apply hs
    have := h (n - t.val) (by rw [List.mem_range'_1]; omega)
    rw [Nat.cast_sub hlt.le, ZMod.natCast_zmod_val, ZMod.natCast_self, zero_sub] at this
    exact this

theorem paf_even (x : ZMod n → ℤ) (t : ZMod n) : paf x (-t) = paf x t := by
  rw [← Fourier.ccf_self, ← Fourier.ccf_self, ← ccf_neg]

theorem asym_zero (x y : ZMod n → ℤ) : asym x y 0 = 0 := by
  have := asym_neg x y 0
  rw [neg_zero] at this; omega

/-- Equal autocorrelation keys mean complementarity. -/
theorem auto_iff (a b c d : ZMod n → ℤ) :
    autoVals a b = (autoVals c d).map (fun v => -v) ↔ Complementary a b c d := by
  unfold autoVals
  rw [List.map_map, List.map_inj_left]
  constructor
  · intro h
    have := from_half (g := fun t => paf a t + paf b t + paf c t + paf d t)
      (fun t ht => by simp only [paf_even] at ht; exact ht)
      (fun t ht => by have := h t ht; simp only [Function.comp] at this; show _ + _ + _ + _ = (0 : ℤ); omega)
    exact this
  · intro h t ht
    have := h t (half_ne ht)
    simp only [Function.comp]; omega

/-- Equal cross-correlation keys mean that the two differences are opposite everywhere. -/
theorem cross_iff (x y z w : ZMod n → ℤ) (p q : Bool) :
    crossVals p x y = (crossVals q z w).map (fun v => -v) ↔
      ∀ t, (if p then asym x y t else asym y x t) + (if q then asym z w t else asym w z t) = 0 := by
  unfold crossVals
  rw [List.map_map, List.map_inj_left]
  constructor
  · intro h t
    by_cases ht : t = 0
    · subst ht; cases p <;> cases q <;> simp [asym_zero]
    · refine from_half (g := fun t => (if p then asym x y t else asym y x t) + (if q then asym z w t else asym w z t))
        (fun t ht => ?_) (fun t ht => ?_) t ht
      · cases p <;> cases q <;> simp only [asym_neg, if_true, if_false, Bool.false_eq_true] at ht ⊢ <;> omega
      · have := h t ht; simp only [Function.comp] at this; show _ + _ = (0 : ℤ); omega
  · intro h t ht
    have := h t
    simp only [Function.comp]; omega

theorem crossVals_zero {x y : ZMod n → ℤ} (h : Spec.Amicable x y) (p : Bool) :
    crossVals p x y = List.replicate (n / 2) 0 := by
  unfold crossVals
  rw [List.eq_replicate_iff]
  refine ⟨by simp, fun b hb => ?_⟩
  rw [List.mem_map] at hb
  obtain ⟨t, -, rfl⟩ := hb
  have := h t
  simp only [asym]
  cases p <;> simp [this]

theorem amicable_of_crossVals {x y : ZMod n → ℤ} {p : Bool} (h : ∀ v ∈ crossVals p x y, v = 0) : Spec.Amicable x y := by
  have h0 : ∀ t, t ≠ 0 → asym x y t = 0 := by
    refine from_half (fun t ht => by rw [asym_neg] at ht; omega) fun t ht => ?_
    have := h _ (List.mem_map.2 ⟨t, ht, rfl⟩)
    cases p
    · simp only [Bool.false_eq_true, if_false] at this; rw [asym_swap] at this; omega
    · simpa using this
  intro t
  by_cases ht : t = 0
  · subst ht; exact amicable_zero _ _
  · have := h0 t ht; unfold asym at this; omega

/-- The three conditions of `matching.rs`. -/
def Conds (f : Fam n) : Prop :=
  (∀ t, asym (f .Z) (f .W) t + asym (f .X) (f .Y) t = 0) ∧ (∀ t, asym (f .Z) (f .X) t + asym (f .Y) (f .W) t = 0) ∧
    ∀ t, asym (f .Z) (f .Y) t + asym (f .W) (f .X) t = 0

theorem conds_iff (f : Fam n) : Conds f ↔ PairwiseAmicable (f .W) (f .X) (f .Y) (f .Z) := by
  constructor
  · rintro ⟨h1, h2, h3⟩
    refine amicable_of_signed 1 (Or.inl rfl) (fun t => ?_) (fun t => ?_) (fun t => ?_)
    · have := h3 t; rw [asym_swap (f .Y) (f .Z)] at this; omega
    · have := h2 t; rw [asym_swap (f .W) (f .Y)] at this; omega
    · have := h1 t; rw [asym_swap (f .W) (f .Z)] at this; omega
  · rintro ⟨h1, h2, h3, h4, h5, h6⟩
    refine ⟨fun t => ?_, fun t => ?_, fun t => ?_⟩
    · have a1 := h3 t; have a2 := h4 t; simp only [asym]; omega
    · have a1 := h5 t; have a2 := h2 t; simp only [asym]; omega
    · have a1 := h6 t; have a2 := h1 t; simp only [asym]; omega

theorem qtcross_iff (a b c d : ZMod n → ℤ) : QTCross a b c d ↔ PairwiseAmicable a b c d := by
  constructor
  · intro h
    refine amicable_of_signed (-1) (Or.inr rfl) (fun t => ?_) (fun t => ?_) (fun t => ?_)
    · have := (h t).1; simp only [asym]; omega
    · have := (h t).2.1; simp only [asym]; omega
    · have := (h t).2.2; simp only [asym]; omega
  · rintro ⟨h1, h2, h3, h4, h5, h6⟩ t
    have := h1 t; have := h2 t; have := h3 t; have := h4 t; have := h5 t; have := h6 t
    refine ⟨?_, ?_, ?_⟩ <;> omega

theorem isQTS_iff_wts {s : QuadSeq} : IsQTS n s ↔ IsWTS n s := by
  unfold IsQTS IsWTS; rw [qtcross_iff]

/-! ## Direct (integer) keys -/

theorem autoPair_eq {l m : List ℤ} (hl : PMSeq n l) (hm : PMSeq n m) :
    computeAutoCorrelationPair l m = autoVals (cyc n l) (cyc n m) := by
  unfold computeAutoCorrelationPair computeAutoCorrelation autoVals
  rw [hl.1, hm.1, List.zipWith_map, List.zipWith_self]
  refine List.map_congr_left fun t _ => ?_
  rw [paf_eq hl, paf_eq hm]

theorem compAuto_eq {l m : List ℤ} (hl : PMSeq n l) (hm : PMSeq n m) :
    computeComplementaryAutoCorrelations l m = (autoVals (cyc n l) (cyc n m)).map fun v => -v := by
  unfold computeComplementaryAutoCorrelations autoVals
  rw [hl.1, List.map_map]
  refine List.map_congr_left fun t _ => ?_
  rw [paf_eq hl, paf_eq hm]; rfl

theorem cross_eq {l m : List ℤ} (hl : PMSeq n l) (hm : PMSeq n m) (tags : Tag × Tag) :
    computeCrossCorrelations l m tags = (crossSign tags).map fun p => crossVals p (cyc n l) (cyc n m) := by
  unfold computeCrossCorrelations crossVals
  rw [hl.1]
  congr 1; funext p
  refine List.map_congr_left fun t ht => ?_
  have := (half_lt ht).2.2.le
  rw [ccf_eq hl hm this, ccf_eq hm hl this]; rfl

theorem compCross_eq {l m : List ℤ} (hl : PMSeq n l) (hm : PMSeq n m) (tags : Tag × Tag) :
    computeComplementaryCrossCorrelations l m tags =
      (crossSign tags).map fun p => (crossVals p (cyc n l) (cyc n m)).map fun v => -v := by
  unfold computeComplementaryCrossCorrelations crossVals
  rw [hl.1]
  congr 1; funext p
  rw [List.map_map]
  refine List.map_congr_left fun t ht => ?_
  have := (half_lt ht).2.2.le
  rw [ccf_eq hl hm this, ccf_eq hm hl this]; rfl

/-! ## The tagged verification -/

theorem all_crossCond {w x y z : List ℤ} (hw : PMSeq n w) (hx : PMSeq n x) (hy : PMSeq n y) (hz : PMSeq n z) :
    (∀ t < n, crossCond (w, x, y, z) t = 0) ↔
      ∀ t, asym (cyc n w) (cyc n x) t + asym (cyc n y) (cyc n z) t = 0 := by
  rw [← forall_lt_iff]
  refine forall_congr' fun t => imp_congr_right fun ht => ?_
  unfold crossCond asym
  simp only []
  rw [ccf_eq hw hx ht.le, ccf_eq hx hw ht.le, ccf_eq hy hz ht.le, ccf_eq hz hy ht.le]
  constructor <;> intro h <;> omega

/-! ## Keys computed with transforms -/

theorem pairData_some {K : Type} {A : Fl K} {b : K} {e1 e2 : List ℤ × ℕ} {d : PairData K}
    (h : pairData A b e1 e2 = some d) :
    d = { i1 := e1.2, seq1 := e1.1, i2 := e2.2, seq2 := e2.1, dft1 := dftSequence A e1.1,
          norm1 := (dftSequence A e1.1).map A.normSqr, dft2 := dftSequence A e2.1,
          norm2 := (dftSequence A e2.1).map A.normSqr } := by
  unfold pairData at h
  dsimp only at h
  split at h
  · cases h
  · exact (Option.some.inj h).symm

theorem pairData_ok {K : Type} {A : Fl K} {b : K} {x y : List ℤ} {i j : ℕ}
    (h : boundExceeded A ((dftSequence A x).map A.normSqr) ((dftSequence A y).map A.normSqr) b = false) :
    pairData A b (x, i) (y, j) = some
      { i1 := i, seq1 := x, i2 := j, seq2 := y, dft1 := dftSequence A x,
        norm1 := (dftSequence A x).map A.normSqr, dft2 := dftSequence A y, norm2 := (dftSequence A y).map A.normSqr } := by
  unfold pairData
  dsimp only
  rw [h]
  rfl

section
variable {K : Type} {A : Fl K} {val : K → ℝ}

theorem autoPair_computed (hA : Accurate A val n) {l m : List ℤ} (hl : PMSeq n l) (hm : PMSeq n m) :
    computeAutoCorrelationPairDft A ((dftSequence A l).map A.normSqr) n ((dftSequence A m).map A.normSqr) n =
      autoVals (cyc n l) (cyc n m) := by
  unfold computeAutoCorrelationPairDft autoVals
  dsimp only
  rw [Fourier.auto_computed hA hl, Fourier.auto_computed hA hm]
  rw [List.length_map, List.length_range]
  refine List.map_congr_left fun t ht => ?_
  have := (half_lt ht).2.2
  unfold at0
  rw [Fourier.getD_map_range _ _ _ this, Fourier.getD_map_range _ _ _ this]

theorem crossPair_computed (hA : Accurate A val n) {l m : List ℤ} (hl : PMSeq n l) (hm : PMSeq n m) (tags : Tag × Tag) :
    computeCrossCorrelationsDft A (dftSequence A l) (dftSequence A m) tags n =
      (crossSign tags).map fun p => crossVals p (cyc n l) (cyc n m) := by
  rw [Fourier.cross_computed hA hl hm]; rfl

end

/-! ## The matching table -/

theorem lookup_insert (tb : MatchTable) (k k' : MatchData) (p : List ℤ × List ℤ) :
    (tableInsert tb k p).lookup k' =
      if k' = k then some (match tb.lookup k with | some l => l ++ [p] | none => []) else tb.lookup k' := by
  induction tb with
  | nil =>
    simp only [tableInsert, List.lookup]
    by_cases h : k' = k
    · simp [h]
    · have : (k' == k) = false := by simpa using h
      simp [this, h]
  | cons e r ih =>
    obtain ⟨k0, l0⟩ := e
    simp only [tableInsert]
    by_cases h : k0 = k
    · subst h
      simp only [if_true, List.lookup]
      by_cases h' : k' = k0
      · simp [h']
      · have : (k' == k0) = false := by simpa using h'
        simp [this, h']
    · rw [if_neg h]
      simp only [List.lookup]
      by_cases h' : k' = k0
      · have hk : k' ≠ k := by rw [h']; exact h
        subst h'
        simp [hk]
      · have e1 : (k' == k0) = false := by simpa using h'
        have e2 : (k == k0) = false := by simpa using fun h2 : k = k0 => h h2.symm
        simp only [e1, e2]
        rw [ih]

end Proofs.Matching
