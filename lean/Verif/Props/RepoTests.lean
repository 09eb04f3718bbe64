import Verif.Props.Convert
import Verif.Props.Rounding
import Mathlib.Data.Nat.Choose.Basic

/-!
# Property C94: what the unit tests of the repository check on samples, for all inputs

The tests under `rust/src/tests` assert relations between functions on a few inputs. The theorems here state those of
them that no other property states, for all inputs. The examples evaluate the model on the inputs of the tests: they are
tests of the model, not proofs.
-/

set_option linter.unusedVariables false

namespace Props
open Model Spec Proofs

/-! ## Numbers of generated sequences -/

theorem chooseOnes_length (m r : ℕ) : (chooseOnes m r).length = m.choose r := by
  induction m generalizing r with
  | zero => cases r <;> rfl
  | succ m ih =>
    cases r with
    | zero => rw [chooseOnes_zero, Nat.choose_zero_right]; rfl
    | succ r =>
      by_cases h : m < r
      · rw [chooseOnes_gt (by omega), Nat.choose_eq_zero_of_lt (by omega)]; rfl
      · have e : chooseOnes (m + 1) (r + 1) =
            (chooseOnes m r).map (fun l => 1 :: l) ++ (chooseOnes m (r + 1)).map fun l => -1 :: l := by
          show (if m < r then [] else _) = _
          rw [if_neg h]
        rw [e, List.length_append, List.length_map, List.length_map, ih, ih, Nat.choose_succ_succ]

/-- C94 (`test_generate_sequence`). The recursion started on `n` entries `-1` returns as many sequences as there are
choices of `k` positions out of `n`. -/
theorem C94_count_recursion (n k : ℕ) :
    (genSeqRec (n + 1) (List.replicate n (-1)) k 0).1.length = n.choose k := by
  have := genSeqRec_eq (n + 1) [] n k (by omega)
  rw [List.nil_append, List.length_nil] at this
  rw [this, List.length_map, chooseOnes_length]

/-- C94 (`test_rowsum_generate`). With `k` entries `1` the row sum is `2 k - n`, and the number of sequences generated
for it is the binomial coefficient. -/
theorem C94_count_rowsum (n k : ℕ) (hn : n < 2 ^ 61) (hk : k ≤ n) :
    (generateSequencesWithRowsum (2 * k - n) n).length = n.choose k := by
  obtain ⟨h1, h2⟩ := generate_spec (2 * k - n) n (by omega) (by omega) (by omega)
  obtain ⟨k1, k2⟩ := chooseOnes_spec n k
  rw [← chooseOnes_length]
  exact ((List.perm_ext_iff_of_nodup h1 k1).2 fun l => by rw [h2, k2]).length_eq

example : (generateSequencesWithRowsum (2 * (2 : ℕ) - (7 : ℕ)) 7).length = 21 ∧ Nat.choose 7 2 = 21 := by decide

/-! ## Reductions -/

/-- C94 (`reduce_equiv`). The set of representatives depends only on the set of sequences given, not on their order or on
repetitions. -/
theorem C94_order (n : ℕ) [NeZero n] (hn : n ≤ 31) (ops : List Op) (hops : ∀ op ∈ ops, op ∈ allOps)
    (l l' : List QuadSeq) (hne : l ≠ []) (hl : ∀ s ∈ l, PMQuad n s) (hm : ∀ s, s ∈ l ↔ s ∈ l') :
    ∃ r r', reduceToEquivalence l ops = some r ∧ reduceToEquivalence l' ops = some r' ∧ r.Perm r' := by
  obtain ⟨r, h1, h2, h3⟩ := classes_spec hn hops hne hl
  have hne' : l' ≠ [] := by
    obtain ⟨s, hs⟩ := List.exists_mem_of_ne_nil l hne
    exact List.ne_nil_of_mem ((hm s).1 hs)
  obtain ⟨r', k1, k2, k3⟩ := classes_spec hn hops hne' fun s hs => hl s ((hm s).2 hs)
  refine ⟨r, r', h1, k1, (List.perm_ext_iff_of_nodup h2 k2).2 fun x => ?_⟩
  rw [h3, k3]
  exact exists_congr fun s => by rw [hm]

/-- The first sequence of `check_equiv_five`, `test_equivalence.rs:56-61`. -/
def exTest5 : QuadSeq :=
  { size := 5, a := [1, -1, -1, -1, -1], b := [1, -1, -1, -1, -1], c := [-1, -1, 1, 1, -1], d := [1, -1, 1, 1, -1] }

example : [exQTS5, exTest5, exQTS5] ≠ [] ∧ (∀ s ∈ [exQTS5, exTest5, exQTS5], PMQuad 5 s) ∧
    (∀ s, s ∈ [exQTS5, exTest5, exQTS5] ↔ s ∈ [exTest5, exQTS5]) ∧ equivalentNegateSwap ∈ allOps :=
  ⟨by simp, by decide, fun s => by simp; tauto, by simp [allOps]⟩

theorem reach_cls {n : ℕ} [NeZero n] (hn : n ≤ 31) (ty : SeqType) {s : QuadSeq} (hs : PMQuad n s) :
    Reach (equivalences ty) s = Cls n (TypeEquiv ty) s := by
  have hn' : n ≤ 100 := by omega
  funext t
  exact propext ⟨fun h => ⟨reach_pm hn' (equivalences_sub ty) hs h, ((reach_type hn' ty (PMQuad.wf hs) t).1 h).2⟩,
    fun h => (reach_type hn' ty (PMQuad.wf hs) t).2 ⟨PMQuad.wf h.1, h.2⟩⟩

theorem cls_congr {n : ℕ} [NeZero n] (ty : SeqType) {s t : QuadSeq} (h : TypeEquiv ty (fam n s) (fam n t)) :
    Cls n (TypeEquiv ty) s = Cls n (TypeEquiv ty) t := by
  have hE := typeEquiv_equivalence n ty
  funext u
  exact propext ⟨fun k => ⟨k.1, hE.trans (hE.symm h) k.2⟩, fun k => ⟨k.1, hE.trans h k.2⟩⟩

theorem qts_of_equiv {n : ℕ} [NeZero n] {s t : QuadSeq} (hs : IsQTS n s) (ht : PMQuad n t)
    (h : TypeEquiv .quaternionType (fam n s) (fam n t)) (hn : n ≤ 100) : IsQTS n t := by
  have hr : Reach (equivalences .quaternionType) s t := (reach_type hn _ (PMQuad.wf hs.1) t).2 ⟨PMQuad.wf ht, h⟩
  clear h ht
  induction hr with
  | refl => exact hs
  | tail _ k ih =>
    obtain ⟨op, hop, hm⟩ := k
    exact (C09_qts n hn _ _ ih op hop hm).1

/-- C94 (`test_prop_5`). Filtering all sequences equivalent to a list of QT sequences by their row sums loses no class:
the reduced lists have the same members. -/
theorem C94_prop5 (n : ℕ) [NeZero n] (hn : n ≤ 31) (l : List QuadSeq) (hne : l ≠ []) (hl : ∀ s ∈ l, IsQTS n s) :
    ∃ all r r', generateEquivalentQuadSeqs l .quaternionType = some all ∧
      reduceToEquivalence all (equivalences .quaternionType) = some r ∧
      reduceToEquivalence (filterByRowsums all) (equivalences .quaternionType) = some r' ∧ r.Perm r' := by
  obtain ⟨all, e, _, hm⟩ := equivalent_fold (n := n) (by omega) .quaternionType l fun s hs => (hl s hs).1
  have hE := typeEquiv_equivalence n .quaternionType
  have hall : ∀ s ∈ all, PMQuad n s := fun s hs => ((hm s).1 hs).1
  have hq : ∀ s ∈ all, IsQTS n s := by
    intro s hs
    obtain ⟨h1, q, hq, h2⟩ := (hm s).1 hs
    exact qts_of_equiv (hl q hq) h1 h2 (by omega)
  have hsub : ∀ s ∈ filterByRowsums all, s ∈ all := fun s hs => (List.mem_filter.1 hs).1
  have hkey : ∀ s ∈ all, ∃ t ∈ filterByRowsums all, TypeEquiv .quaternionType (fam n s) (fam n t) := by
    intro s hs
    obtain ⟨t, h1, h2, h3⟩ := C24_filter_complete n s (hq s hs)
    obtain ⟨_, q, hq', hqs⟩ := (hm s).1 hs
    refine ⟨t, List.mem_filter.2 ⟨(hm t).2 ⟨h1.1, q, hq', hE.trans hqs h2⟩, ?_⟩, h2⟩
    exact (List.mem_filter.1 h3).2
  have hne1 : all ≠ [] := by
    obtain ⟨s, hs⟩ := List.exists_mem_of_ne_nil l hne
    exact List.ne_nil_of_mem ((hm s).2 ⟨(hl s hs).1, s, hs, hE.refl _⟩)
  have hne2 : filterByRowsums all ≠ [] := by
    obtain ⟨s, hs⟩ := List.exists_mem_of_ne_nil all hne1
    obtain ⟨t, ht, _⟩ := hkey s hs
    exact List.ne_nil_of_mem ht
  obtain ⟨r, h1, h2, h3⟩ := classes_spec hn (equivalences_sub .quaternionType) hne1 hall
  obtain ⟨r', k1, k2, k3⟩ := classes_spec hn (equivalences_sub .quaternionType) hne2 fun s hs => hall s (hsub s hs)
  refine ⟨all, r, r', e, h1, k1, (List.perm_ext_iff_of_nodup h2 k2).2 fun x => ?_⟩
  rw [h3, k3]
  constructor
  · rintro ⟨s, hs, hx⟩
    obtain ⟨t, ht, hst⟩ := hkey s hs
    refine ⟨t, ht, ?_⟩
    rwa [reach_cls hn _ (hall t (hsub t ht)), ← cls_congr _ hst, ← reach_cls hn _ (hall s hs)]
  · rintro ⟨s, hs, hx⟩
    exact ⟨s, hsub s hs, hx⟩

example : ∃ all r r', generateEquivalentQuadSeqs [exQTS5] .quaternionType = some all ∧
    reduceToEquivalence all (equivalences .quaternionType) = some r ∧
    reduceToEquivalence (filterByRowsums all) (equivalences .quaternionType) = some r' ∧ r.Perm r' :=
  C94_prop5 5 (by norm_num) [exQTS5] (by simp) (by rintro s h; rw [List.mem_singleton.1 h]; exact exQTS5_isQTS)

/-- The operations that keep QT sequences at every length. -/
def keepingOps : List Op := [equivalentUniformShift, equivalentEvenAlternatedNegation, equivalentAutomorphism,
  equivalentNegateSwap, equivalentDualHalfShift, equivalentReverse, equivalentDoubleNegate, equivalentDoubleReorder,
  equivalentDisjointSwaps, equivalentSingleHalfShift, equivalentUniformHalfShift]

/-- C94 (`equ_negate_swap`, `equ_reorder`, `equ_shift`, `equ_negate`, `equ_alt_negate`, `equ_perm`, `test_class`,
`test_equivalence_class`). The class of a QT sequence under any of these operations is closed under them, and every member
is accepted by `verify` and becomes a perfect quaternion sequence. -/
theorem C94_class (n : ℕ) [NeZero n] (hn : n ≤ 100) (ops : List Op) (hops : ∀ op ∈ ops, op ∈ keepingOps) (s : QuadSeq)
    (hs : IsQTS n s) :
    ∃ c, generateEquivalenceClass ops s = some c ∧ s ∈ c ∧ (∀ t ∈ c, ∀ op ∈ ops, ∀ u ∈ op t, u ∈ c) ∧
      ∀ t ∈ c, t.verify .quaternionType = true ∧ ∃ q, t.toQs = some q ∧ q.isPerfect = true := by
  have hall : ∀ op ∈ keepingOps, op ∈ allOps := by
    intro op h
    simp only [keepingOps, allOps, List.mem_cons, List.not_mem_nil, or_false] at h ⊢
    tauto
  obtain ⟨c, h1, _, h3⟩ := generateEquivalenceClass_spec (n := n) (ops := ops)
    (fun op h => good_all hn op (hall op (hops op h))) (PMQuad.wf hs.1)
  have hq : ∀ t, Reach ops s t → IsQTS n t := by
    intro t h
    induction h with
    | refl => exact hs
    | tail _ k ih =>
      obtain ⟨op, hop, hm⟩ := k
      have := hops op hop
      by_cases h : op ∈ equivalences .quaternionType
      · exact (C09_qts n hn _ _ ih op h hm).1
      · refine (C10_auxiliary n _ _ ih op ?_ hm).1
        simp only [keepingOps, equivalences, List.mem_cons, List.not_mem_nil, or_false] at this h ⊢
        tauto
  refine ⟨c, h1, (h3 s).2 .refl, fun t ht op hop u hu => (h3 u).2 (((h3 t).1 ht).tail ⟨op, hop, hu⟩), fun t ht => ?_⟩
  have hqt := hq t ((h3 t).1 ht)
  have hv := (C08_verify_qts n t hqt.1).2 hqt
  obtain ⟨q, k1, k2⟩ := C03_verifyQts_iff_isPerfect n t hqt.1
  exact ⟨hv, q, k1, k2.1 hv⟩

example : ∃ c, generateEquivalenceClass [equivalentNegateSwap, equivalentReverse] exQTS5 = some c ∧ exQTS5 ∈ c ∧
    (∀ t ∈ c, ∀ op ∈ [equivalentNegateSwap, equivalentReverse], ∀ u ∈ op t, u ∈ c) ∧
    ∀ t ∈ c, t.verify .quaternionType = true ∧ ∃ q, t.toQs = some q ∧ q.isPerfect = true :=
  C94_class 5 (by norm_num) _ (by simp [keepingOps]) exQTS5 exQTS5_isQTS

/-! ## Transform and inverse transform -/

theorem inverse_dft_near {K : Type} {A : Fl K} {val : K → ℝ} {ok : K → Prop} {n : ℕ} [NeZero n] {B e : ℝ}
    (h : FloatModel A val ok n B e) (hs : Rounding.Small n B e) {x : List ℤ} (hx : PMSeq n x) {t : ℕ} (ht : t < n) :
    Rounding.Near val ok ((inverseDft A (dftSequence A x) n).getD t (A.ofInt 0)) ((x.getD t 0 : ℤ) : ℝ)
      (42 * Rounding.U n e) := by
  have h1 := Rounding.n_one (n := n)
  have e1 : (∑ k ∈ Finset.range n, dft n x k * unit n (k * t : ℕ)) / n = ((x.getD t 0 : ℤ) : ℂ) := by
    rw [sum_range_zmod n (fun k => dft n x k * unit n (k * t : ℕ))]
    have : ∀ k : ZMod n, dft n x k.val * unit n (k.val * t : ℕ) =
        (∑ s, (cyc n x s : ℂ) * Fourier.ψ (-(s * k))) * Fourier.ψ (k * (t : ZMod n)) := by
      intro k
      rw [Fourier.dft_eq, Fourier.unit_nat]
      simp [Fourier.F]
    simp only [this]
    rw [Fourier.inversion, mul_div_cancel_left₀ _ Fourier.n_ne]
    unfold cyc
    rw [ZMod.val_natCast, Nat.mod_eq_of_lt ht]
  have e2 : (((x.getD t 0 : ℤ) : ℂ)).re = ((x.getD t 0 : ℤ) : ℝ) := Complex.intCast_re _
  have hb : |((x.getD t 0 : ℤ) : ℝ)| ≤ n := by
    rw [List.getD_eq_getElem x 0 (by rw [hx.1]; exact ht)]
    rcases hx.2 _ (List.getElem_mem (by rw [hx.1]; exact ht : t < x.length)) with h | h <;> rw [h] <;> simpa using h1
  have := Rounding.inverse_near h hs (fun k => dft n x k) (fun k hk _ => Fourier.dft_hermitian x hk)
    (X := dftSequence A x) (fun k hk => by
      obtain ⟨z, hz, n1, n2⟩ := Rounding.dft_near h hx hk
      have : e ≤ 7 * Rounding.U n e := by
        have hp := hs.pos
        have hq := hs.sq
        unfold Rounding.U
        nlinarith
      exact ⟨z, hz, n1.mono this, n2.mono this⟩)
    (fun k hk => ⟨(Rounding.re_le hx k).trans (by nlinarith), (Rounding.im_le hx k).trans (by nlinarith)⟩) ht
    (by rw [e1, e2]; exact hb)
  rwa [e1, e2] at this

/-- C94 (`test_dft_inv`). In every arithmetic within the error model, transforming a ±1 sequence, transforming back and
rounding returns the sequence. -/
theorem C94_dft_inverse {K : Type} (A : Fl K) (val : K → ℝ) (ok : K → Prop) (n : ℕ) [NeZero n] (B e : ℝ) (he : 0 ≤ e)
    (hs : e * ((n : ℝ) + 1) ^ 2 ≤ 1 / 1000) (hB : 16 * ((n : ℝ) + 1) ^ 3 ≤ B) (h : FloatModel A val ok n B e)
    (x : List ℤ) (hx : PMSeq n x) : (inverseDft A (dftSequence A x) n).map A.round = x := by
  have hS : Rounding.Small n B e := ⟨he, hs, hB⟩
  have hl : (inverseDft A (dftSequence A x) n).length = n := (Rounding.accurate h hS).length _
  refine List.ext_getElem (by rw [List.length_map, hl, hx.1]) fun t h1 h2 => ?_
  have ht : t < n := by rw [← hx.1]; exact h2
  have hn := inverse_dft_near h hS hx ht
  rw [List.getElem_map]
  rw [List.getD_eq_getElem _ _ (by rw [hl]; exact ht), List.getD_eq_getElem x 0 h2] at hn
  refine Rounding.rounds h hS hn.1 _ ?_ (lt_of_le_of_lt hn.2 (by have := Rounding.U_le hS; linarith))
  have : (0 : ℤ) < n := by have := Nat.pos_of_ne_zero (NeZero.ne n); exact_mod_cast this
  rcases hx.2 _ (List.getElem_mem h2) with h | h <;> rw [h] <;> simp <;> omega

/-- The sequence of the test, in an arithmetic with errors. -/
example : (inverseDft (perturbedFl (1 / 1000000)) (dftSequence (perturbedFl (1 / 1000000))
    [1, -1, -1, -1, 1, 1, -1, 1, -1, 1]) 10).map (perturbedFl (1 / 1000000)).round = [1, -1, -1, -1, 1, 1, -1, 1, -1, 1] :=
  C94_dft_inverse _ id (fun _ => True) 10 (16 * ((10 : ℕ) + 1) ^ 3) (1 / 1000000) (by norm_num) (by norm_num) le_rfl
    (Perturbed.perturbed_model (by norm_num) le_rfl) _ (by decide)

end Props
