import Mathlib.NumberTheory.LegendreSymbol.AddCharacter
import Mathlib.Algebra.BigOperators.Ring.Finset
import Mathlib.Data.List.GetD
import Mathlib.Tactic.Ring
import Mathlib.Tactic.Linarith
import Mathlib.Tactic.FieldSimp
import Verif.Spec.Fourier
import Verif.Proofs.Basic

/-!
# Helper lemmas: finite Fourier transforms on `ZMod n`
-/

set_option linter.unusedSectionVars false
set_option linter.unusedVariables false
set_option linter.unusedSimpArgs false

namespace Proofs.Fourier
open Model Spec Proofs Complex

variable {n : ℕ} [NeZero n]

/-- The standard additive character. -/
noncomputable abbrev ψ : AddChar (ZMod n) ℂ := ZMod.stdAddChar

theorem unit_eq (m : ℤ) : unit n m = ψ (m : ZMod n) := by
  unfold unit; rw [ψ, ZMod.stdAddChar_coe]

theorem unit_nat (m : ℕ) : unit n (m : ℤ) = ψ (m : ZMod n) := by rw [unit_eq]; simp

theorem conj_ψ (a : ZMod n) : (starRingEnd ℂ) (ψ a) = ψ (-a) := by
  have : ψ a = ((ZMod.toCircle a : Circle) : ℂ) := rfl
  have h2 : ψ (-a) = ((ZMod.toCircle (-a) : Circle) : ℂ) := rfl
  rw [this, h2, AddChar.map_neg_eq_inv, Circle.coe_inv_eq_conj]

/-- Transform on `ZMod n`. -/
noncomputable def F (x : ZMod n → ℤ) (k : ZMod n) : ℂ := ∑ j, (x j : ℂ) * ψ (-(j * k))

theorem dft_eq (l : List ℤ) (k : ℕ) : dft n l k = F (cyc n l) (k : ZMod n) := by
  unfold dft F
  rw [sum_range_zmod n (fun j => ((l.getD j 0 : ℤ) : ℂ) * unit n (-(j * k : ℕ)))]
  refine Finset.sum_congr rfl fun j _ => ?_
  rw [unit_eq]
  simp [cyc]

theorem conj_F (x : ZMod n → ℤ) (k : ZMod n) : (starRingEnd ℂ) (F x k) = F x (-k) := by
  unfold F
  rw [map_sum]
  refine Finset.sum_congr rfl fun j _ => ?_
  rw [map_mul, conj_ψ]
  simp

theorem F_mul_conj (x y : ZMod n → ℤ) (k : ZMod n) :
    F x k * (starRingEnd ℂ) (F y k) = ∑ t, (ccf x y t : ℂ) * ψ (-(t * k)) := by
  rw [conj_F]
  unfold F
  rw [Finset.sum_mul_sum]
  simp only [ccf, Int.cast_sum, Int.cast_mul, Finset.sum_mul]
  conv_rhs => rw [Finset.sum_comm]
  refine Finset.sum_congr rfl fun i _ => ?_
  refine Fintype.sum_equiv (Equiv.subLeft i) _ _ fun j => ?_
  simp only [Equiv.subLeft_apply, sub_sub_cancel]
  rw [mul_mul_mul_comm, ← AddChar.map_add_eq_mul]
  have : -(i * k) + -(j * -k) = -((i - j) * k) := by ring
  rw [this]

theorem orthogonality (t : ZMod n) : ∑ k, ψ (k * t) = if t = 0 then (n : ℂ) else 0 := by
  have := AddChar.sum_mulShift (ψ := (ZMod.stdAddChar : AddChar (ZMod n) ℂ)) t (ZMod.isPrimitive_stdAddChar n)
  rw [ZMod.card] at this
  rw [this]; split <;> simp

theorem inversion (g : ZMod n → ℤ) (t : ZMod n) :
    ∑ k, (∑ s, (g s : ℂ) * ψ (-(s * k))) * ψ (k * t) = n * g t := by
  simp only [Finset.sum_mul]
  rw [Finset.sum_comm]
  have : ∀ s, ∑ k, (g s : ℂ) * ψ (-(s * k)) * ψ (k * t) = (g s : ℂ) * (if t - s = 0 then (n : ℂ) else 0) := by
    intro s
    rw [← orthogonality, Finset.mul_sum]
    refine Finset.sum_congr rfl fun k _ => ?_
    rw [mul_assoc, ← AddChar.map_add_eq_mul]
    congr 2; ring
  simp only [this]
  rw [Finset.sum_eq_single t]
  · simp; ring
  · intro s _ hs; rw [if_neg (fun h => hs (sub_eq_zero.1 h).symm)]; simp
  · simp

theorem sum_cross (x y : ZMod n → ℤ) (t : ZMod n) :
    ∑ k, F x k * (starRingEnd ℂ) (F y k) * ψ (k * t) = n * ccf x y t := by
  simp only [F_mul_conj]; exact inversion _ _

theorem n_ne : (n : ℂ) ≠ 0 := Nat.cast_ne_zero.2 (NeZero.ne n)

theorem exactCross_eq (l m : List ℤ) (t : ℕ) :
    exactCross n l m t = (ccf (cyc n l) (cyc n m) (t : ZMod n) : ℂ) := by
  unfold exactCross
  rw [sum_range_zmod n (fun k => dft n l k * (starRingEnd ℂ) (dft n m k) * unit n (k * t : ℕ))]
  have : ∀ k : ZMod n, dft n l k.val * (starRingEnd ℂ) (dft n m k.val) * unit n (k.val * t : ℕ) =
      F (cyc n l) k * (starRingEnd ℂ) (F (cyc n m) k) * ψ (k * (t : ZMod n)) := by
    intro k
    rw [dft_eq, dft_eq, unit_nat]; simp
  simp only [this]
  rw [sum_cross, mul_div_cancel_left₀ _ n_ne]

theorem ccf_self (x : ZMod n → ℤ) (t : ZMod n) : ccf x x t = paf x t := by
  unfold ccf paf
  refine Fintype.sum_equiv (Equiv.subRight t) _ _ fun i => ?_
  simp [mul_comm]

theorem psd_eq (l : List ℤ) (k : ℕ) : (psd n l k : ℂ) = dft n l k * (starRingEnd ℂ) (dft n l k) := by
  unfold psd; rw [mul_conj]

theorem exactAuto_eq (l : List ℤ) (t : ℕ) : exactAuto n l t = (paf (cyc n l) (t : ZMod n) : ℂ) := by
  rw [← ccf_self, ← exactCross_eq]
  unfold exactAuto exactCross
  simp only [psd_eq]

/-- Power spectra of a complementary quadruple add up to `4 n`. -/
theorem psd_sum {a b c d : List ℤ} (ha : PMSeq n a) (hb : PMSeq n b) (hc : PMSeq n c) (hd : PMSeq n d)
    (h : Complementary (cyc n a) (cyc n b) (cyc n c) (cyc n d)) (k : ℕ) :
    psd n a k + psd n b k + psd n c k + psd n d k = 4 * n := by
  have hz : ∀ {l : List ℤ}, PMSeq n l → paf (cyc n l) 0 = n := by
    intro l hl
    unfold paf
    have : ∀ i : ZMod n, cyc n l i * cyc n l (i + 0) = 1 := by
      intro i; rw [add_zero]
      rcases cyc_pm hl i with h | h <;> rw [h] <;> norm_num
    rw [Finset.sum_congr rfl fun i _ => this i]; simp
  have key : ((psd n a k + psd n b k + psd n c k + psd n d k : ℝ) : ℂ) = ((4 * n : ℝ) : ℂ) := by
    push_cast
    simp only [psd_eq, dft_eq, F_mul_conj, ccf_self, ← Finset.sum_add_distrib, ← add_mul]
    rw [Finset.sum_eq_single (0 : ZMod n)]
    · rw [hz ha, hz hb, hz hc, hz hd]; simp; ring
    · intro t _ ht
      have := h t ht
      have h2 : ((paf (cyc n a) t : ℂ) + paf (cyc n b) t + paf (cyc n c) t + paf (cyc n d) t) = 0 := by
        exact_mod_cast this
      rw [h2, zero_mul]
    · simp
  exact_mod_cast key

theorem psd_nonneg (l : List ℤ) (k : ℕ) : 0 ≤ psd n l k := normSq_nonneg _

/-! ## The exact arithmetic -/

theorem roundAway_near {x : ℝ} {k : ℤ} (h : |x - k| < 1 / 2) : roundAway x = k := by
  obtain ⟨h1, h2⟩ := abs_lt.1 h
  unfold roundAway
  split
  · rw [Int.floor_eq_iff]; constructor <;> linarith
  · rw [Int.ceil_eq_iff]; constructor <;> linarith

theorem roundAway_int (k : ℤ) : roundAway (k : ℝ) = k := roundAway_near (by simp)

theorem exact_dft {l : List ℤ} (hl : l.length = n) :
    dftSequence exactFl l = (List.range (n / 2 + 1)).map fun k => ((dft n l k).re, (dft n l k).im) := by
  unfold dftSequence exactFl
  simp only [List.length_map, hl]
  refine List.map_congr_left fun k hk => ?_
  have : (∑ j ∈ Finset.range n, (((l.map fun x => ((x : ℤ) : ℝ)).getD j 0 : ℝ) : ℂ) * unit n (-(j * k : ℕ))) =
      dft n l k := by
    unfold dft
    refine Finset.sum_congr rfl fun j hj => ?_
    have hj' : j < l.length := by rw [hl]; exact Finset.mem_range.1 hj
    rw [List.getD_eq_getElem _ _ (by simpa using hj'), List.getD_eq_getElem _ _ hj']
    simp
  rw [this]

theorem exact_psd {l : List ℤ} (hl : l.length = n) :
    (dftSequence exactFl l).map exactFl.normSqr = (List.range (n / 2 + 1)).map fun k => psd n l k := by
  rw [exact_dft hl, List.map_map]
  refine List.map_congr_left fun k _ => ?_
  simp [Fl.normSqr, exactFl, psd, normSq_apply]

/-- The Hermitian extension of the first half of a spectrum `G` with `G (n - k) = conj (G k)` is the whole spectrum. -/
theorem hermitian_eq (G : ℕ → ℂ) (hG : ∀ k, k < n → n / 2 < k → G k = (starRingEnd ℂ) (G (n - k)))
    {X : List (ℝ × ℝ)} (hX : ∀ k ≤ n / 2, X.getD k (0, 0) = ((G k).re, (G k).im)) {k : ℕ} (hk : k < n) :
    hermitian n X k = G k := by
  unfold hermitian
  split
  · rename_i h; rw [hX k h]
  · rename_i h
    rw [hX (n - k) (by omega), hG k hk (by omega)]
    apply Complex.ext <;> simp

theorem dft_hermitian (l : List ℤ) {k : ℕ} (hk : k < n) : dft n l k = (starRingEnd ℂ) (dft n l (n - k)) := by
  rw [dft_eq, dft_eq, conj_F]
  congr 1
  rw [Nat.cast_sub hk.le]; simp

theorem exact_inverse (G : ℕ → ℂ) (hG : ∀ k, k < n → n / 2 < k → G k = (starRingEnd ℂ) (G (n - k)))
    {X : List (ℝ × ℝ)} (hX : ∀ k ≤ n / 2, X.getD k (0, 0) = ((G k).re, (G k).im)) :
    inverseDft exactFl X n = (List.range n).map fun t =>
      ((∑ k ∈ Finset.range n, G k * unit n (k * t : ℕ)) / n).re := by
  unfold inverseDft
  simp only [exactFl, List.map_map]
  refine List.map_congr_left fun t _ => ?_
  simp only [Function.comp]
  have : ∀ k ∈ Finset.range n, (hermitian n ((List.range (n / 2 + 1)).map fun i =>
      X.getD i (((0 : ℤ) : ℝ), ((0 : ℤ) : ℝ))) k * unit n (k * t : ℕ)).re = (G k * unit n (k * t : ℕ)).re := by
    intro k hk
    rw [hermitian_eq G hG _ (Finset.mem_range.1 hk)]
    intro i hi
    rw [List.getD_eq_getElem _ _ (by simp; omega)]
    simp only [List.getElem_map, List.getElem_range]
    have := hX i hi
    simpa using this
  rw [Finset.sum_congr rfl this, ← Complex.re_sum]
  have h2 : ((n : ℤ) : ℝ) = ((n : ℕ) : ℝ) := by simp
  rw [h2, ← Complex.ofReal_natCast, Complex.div_ofReal_re]

theorem getD_map_range {α : Type} (f : ℕ → α) (m i : ℕ) (h : i < m) (d : α) : ((List.range m).map f).getD i d = f i := by
  rw [List.getD_eq_getElem _ _ (by simpa using h)]; simp

theorem exact_auto {l : List ℤ} (hl : l.length = n) :
    inverseDft exactFl (((dftSequence exactFl l).map exactFl.normSqr).map fun e => (e, exactFl.ofInt 0)) n =
      (List.range n).map fun t => (exactAuto n l t).re := by
  rw [exact_inverse (fun k => (psd n l k : ℂ))]
  · rfl
  · intro k hk _
    rw [conj_ofReal]
    simp only [psd]
    rw [dft_hermitian l hk, normSq_conj]
  · intro k hk
    rw [exact_psd hl, List.map_map, getD_map_range _ _ _ (by omega)]
    simp [exactFl]

theorem exact_cross {l m : List ℤ} (hl : l.length = n) (hm : m.length = n) :
    inverseDft exactFl (seqMultiplyPointwiseComplex exactFl (dftSequence exactFl l)
      ((dftSequence exactFl m).map exactFl.conj)) n = (List.range n).map fun t => (exactCross n l m t).re := by
  rw [exact_inverse (fun k => dft n l k * (starRingEnd ℂ) (dft n m k))]
  · rfl
  · intro k hk _
    rw [dft_hermitian l hk, dft_hermitian m hk]; simp
  · intro k hk
    unfold seqMultiplyPointwiseComplex
    rw [exact_dft hl, exact_dft hm, List.map_map, List.zipWith_map, List.zipWith_self, getD_map_range _ _ _ (by omega)]
    simp [Fl.cmul, Fl.conj, exactFl]

theorem exact_accurate : Accurate exactFl id n where
  length X := by unfold inverseDft; simp [exactFl]
  auto x hx t ht := by
    refine ⟨?_, fun k _ h => roundAway_near h⟩
    rw [exact_auto hx.1, getD_map_range _ _ _ ht]; simp
  cross x y hx hy t ht := by
    refine ⟨?_, fun k _ h => roundAway_near h⟩
    rw [exact_cross hx.1 hy.1, exact_cross hy.1 hx.1, getD_map_range _ _ _ ht, getD_map_range _ _ _ ht]
    simp [exactFl]

theorem exact_pair_safe (x y : List ℤ) (hx : PMSeq n x) (hy : PMSeq n y) (h : ∀ k, psd n x k + psd n y k ≤ 4 * n) :
    boundExceeded exactFl ((dftSequence exactFl x).map exactFl.normSqr) ((dftSequence exactFl y).map exactFl.normSqr)
      (exactFl.mul (exactFl.lit 4 1) (exactFl.ofInt n)) = false := by
  unfold boundExceeded
  rw [exact_psd hx.1, exact_psd hy.1, List.any_eq_false]
  intro p hp
  have hp := List.mem_of_mem_drop hp
  rw [List.zip_map', List.mem_map] at hp
  obtain ⟨k, -, rfl⟩ := hp
  have := h k
  simp [exactFl]
  linarith

theorem pm_seq {s : QuadSeq} (h : PMQuad n s) (t : Tag) : PMSeq n (s.sequence t) := by
  cases t
  · exact h.a
  · exact h.b
  · exact h.c
  · exact h.d

theorem pair_le {s : QuadSeq} (hs : PMQuad n s) (hc : Complementary (cyc n s.a) (cyc n s.b) (cyc n s.c) (cyc n s.d))
    {t1 t2 : Tag} (ht : t1 ≠ t2) (k : ℕ) : psd n (s.sequence t1) k + psd n (s.sequence t2) k ≤ 4 * n := by
  have h := psd_sum hs.a hs.b hs.c hs.d hc k
  have h1 := psd_nonneg (n := n) s.a k
  have h2 := psd_nonneg (n := n) s.b k
  have h3 := psd_nonneg (n := n) s.c k
  have h4 := psd_nonneg (n := n) s.d k
  cases t1 <;> cases t2 <;> first | exact absurd rfl ht | (simp only [QuadSeq.sequence]; linarith)

theorem exact_filterSafe : FilterSafe exactFl n := fun _ hs hc _ _ ht =>
  exact_pair_safe _ _ (pm_seq hs _) (pm_seq hs _) (pair_le hs hc ht)

/-! ## Computed correlations -/

section
variable {K : Type} {A : Fl K} {val : K → ℝ}

theorem ccf_abs_le {l m : List ℤ} (hl : PMSeq n l) (hm : PMSeq n m) (t : ZMod n) :
    |ccf (cyc n l) (cyc n m) t| ≤ n := by
  unfold ccf
  refine (Finset.abs_sum_le_sum_abs _ _).trans ?_
  have h1 : ∀ i ∈ (Finset.univ : Finset (ZMod n)), |cyc n l i * cyc n m (i - t)| ≤ 1 := by
    intro i _
    rw [abs_mul]
    rcases cyc_pm hl i with h | h <;> rcases cyc_pm hm (i - t) with h' | h' <;> rw [h, h'] <;> norm_num
  refine (Finset.sum_le_sum h1).trans ?_
  simp

theorem auto_computed (hA : Accurate A val n) {l : List ℤ} (hl : PMSeq n l) :
    computeAutoCorrelationDft A ((dftSequence A l).map A.normSqr) n =
      (List.range n).map fun (t : ℕ) => paf (cyc n l) (t : ZMod n) := by
  unfold computeAutoCorrelationDft
  apply List.ext_getElem
  · simp [hA.length]
  · intro t h1 h2
    have ht : t < n := by simpa using h2
    simp only [List.getElem_map, List.getElem_range]
    have := hA.auto l hl t ht
    dsimp only at this
    rw [exactAuto_eq, List.getD_eq_getElem _ _ (by rw [hA.length]; exact ht)] at this
    refine this.2 _ ?_ (by simpa using this.1)
    have h1 := ccf_abs_le hl hl (t : ZMod n)
    rw [ccf_self] at h1
    have h2 : (0 : ℤ) ≤ n := by positivity
    linarith

theorem cross_computed (hA : Accurate A val n) {l m : List ℤ} (hl : PMSeq n l) (hm : PMSeq n m) (tags : Tag × Tag) :
    computeCrossCorrelationsDft A (dftSequence A l) (dftSequence A m) tags n =
      (crossSign tags).map fun pos => (List.range' 1 (n / 2)).map fun (t : ℕ) =>
        if pos then ccf (cyc n l) (cyc n m) (t : ZMod n) - ccf (cyc n m) (cyc n l) t
        else ccf (cyc n m) (cyc n l) (t : ZMod n) - ccf (cyc n l) (cyc n m) t := by
  unfold computeCrossCorrelationsDft
  dsimp only
  congr 1
  funext pos
  refine List.map_congr_left fun t ht => ?_
  have ht : t < n := by rw [List.mem_range'_1] at ht; have := npos (n := n); omega
  have hb : ∀ {l m : List ℤ}, PMSeq n l → PMSeq n m →
      |ccf (cyc n l) (cyc n m) (t : ZMod n) - ccf (cyc n m) (cyc n l) t| ≤ 2 * n := by
    intro l m hl hm
    have h1 := ccf_abs_le hl hm (t : ZMod n)
    have h2 := ccf_abs_le hm hl (t : ZMod n)
    exact (abs_sub _ _).trans (by linarith)
  cases pos
  · have := hA.cross m l hm hl t ht
    rw [exactCross_eq, exactCross_eq] at this
    simp only [Bool.false_eq_true, if_false]
    refine this.2 _ (hb hm hl) (by simpa using this.1)
  · have := hA.cross l m hl hm t ht
    rw [exactCross_eq, exactCross_eq] at this
    simp only [if_true]
    refine this.2 _ (hb hl hm) (by simpa using this.1)

end

end Proofs.Fourier
