import Verif.Proofs.CheckedMat
import Verif.Props.Canonical
import Verif.Props.Matrices

/-!
# Property C93: 8-bit arithmetic in a debug build

`Model.Checked` models the functions that compute with `i8` in a build with overflow checks; `none` is a panic. The other
model files wrap, as a release build does.
-/

namespace Props
open Model Spec Proofs Proofs.Check

/-! ## Correlations -/

/-- C93. The correlations of ±1 sequences never overflow, at any length. -/
theorem C93_correlation (n : ℕ) (x y : List ℤ) (hx : PMSeq n x) (hy : PMSeq n y) (k : ℕ) :
    Checked.periodicAutocorrelation x k = some (periodicAutocorrelation x k) ∧
      Checked.crossCorrelation x y k = some (crossCorrelation x y k) :=
  ⟨paf_eq hx k, ccf_eq hx hy k⟩

example : PMSeq 3 [1, -1, 1] ∧ Checked.periodicAutocorrelation [1, -1, 1] 1 = some (-1) := by decide

/-- The check matters: other entries do overflow. -/
example : Checked.periodicAutocorrelation [16, 16] 1 = none ∧ periodicAutocorrelation [16, 16] 1 = 0 := by decide

/-! ## Classes -/

/-- C93. Generating the class of a ±1 quadruple does not panic up to length 100, and gives the class of the release build. -/
theorem C93_class (n : ℕ) [NeZero n] (hn : n ≤ 100) (ty : SeqType) (s : QuadSeq) (hs : PMQuad n s) :
    Checked.generateEquivalenceClass (Checked.equivalences ty) s = generateEquivalenceClass (equivalences ty) s ∧
      (Checked.generateEquivalenceClass (Checked.equivalences ty) s).isSome = true := by
  have h := class_eq (NeZero.pos n) (agrees_equivalences hn ty) (equivalences_sub ty) (wf_shaped (PMQuad.wf hs))
  obtain ⟨d, k1, _, _⟩ := generateEquivalenceClass_spec (fun op h => good_all hn op (equivalences_sub ty op h)) (PMQuad.wf hs)
  exact ⟨h, by rw [h, k1]; rfl⟩

/-- C93. From length 101 on it panics, for every quadruple and each of the three types, in either build: the table of
automorphisms ends there. -/
theorem C93_class_panics (ty : SeqType) (hty : ty = .quaternionType ∨ ty = .williamsonType ∨ ty = .williamson) (s : QuadSeq)
    (hs : 100 < s.size) : Checked.generateEquivalenceClass (Checked.equivalences ty) s = none := by
  have hmem : Checked.equivalentAutomorphism ∈ Checked.equivalences ty := by
    rcases hty with rfl | rfl | rfl <;> simp [Checked.equivalences]
  have hnew : Checked.classNew (Checked.equivalences ty) [s] = none := by
    unfold Checked.classNew
    rw [mapM_none (f := fun s => (Checked.equivalences ty).mapM fun (f : Checked.Op) => f s) (List.mem_singleton.2 rfl)
      (mapM_none (f := fun (f : Checked.Op) => f s) hmem (if_neg (by omega)))]
    rfl
  unfold Checked.generateEquivalenceClass
  cases classFuel s with
  | zero => rfl
  | succ k => rw [Checked.classLoop, hnew]; rfl

example : PMQuad 5 exQTS5 ∧ 100 < (QuadSeq.new 101).size := ⟨exQTS5_pm, by decide⟩

/-! ## Canonical forms -/

/-- C93. The canonical forms under negations and swaps do not overflow on ±1 quadruples, at any length. -/
theorem C93_canonical (n : ℕ) [NeZero n] (s : QuadSeq) (hs : PMQuad n s) :
    Checked.nsCanonical s = nsCanonical s ∧ (Checked.nsCanonical s).isSome = true ∧
      Checked.snSsCanonical s = some (snSsCanonical s) := by
  have hB : Shaped n B s := wf_shaped (PMQuad.wf hs)
  obtain ⟨q, h, _⟩ := nsCanonical_spec hs
  exact ⟨ns_eq hB, by rw [ns_eq hB, h]; rfl, sn_eq hB⟩

example : PMQuad 3 exWS3 ∧ Checked.nsCanonical exWS3 = nsCanonical exWS3 := by decide +kernel

/-! ## Reduction to representatives -/

/-- C93. Up to length 31 the reduction in a debug build does not panic and agrees with the release build. -/
theorem C93_reduce (n : ℕ) [NeZero n] (hn : n ≤ 31) (ty : SeqType) (hty : ty = .quaternionType ∨ ty = .williamsonType)
    (l : List QuadSeq) (hne : l ≠ []) (hl : ∀ s ∈ l, PMQuad n s) :
    Checked.reduceToCanonicalReps l ty = reduceToCanonicalReps l ty ∧ (Checked.reduceToCanonicalReps l ty).isSome = true := by
  have h := reduce_eq hn (fun s hs => PMQuad.wf (hl s hs)) ty
  obtain ⟨r, h1, _⟩ := C17_reduce n hn ty hty l hne hl
  exact ⟨h, by rw [h, h1]; rfl⟩

/-- C93. From length 32 on it panics on every non-empty list, whatever the type and the entries: a label is -128, and its
absolute value is not an `i8`. -/
theorem C93_reduce_panics (s : QuadSeq) (hs : 32 ≤ s.size) (l : List QuadSeq) (ty : SeqType) :
    Checked.reduceToCanonicalReps (s :: l) ty = none :=
  reduce_none hs l ty

/-- C93. A debug build never gives wrong representatives: at every length, if the reduction returns, its result contains
exactly the least elements of the classes met by the list. -/
theorem C93_debug_correct (n : ℕ) [NeZero n] (ty : SeqType) (hty : ty = .quaternionType ∨ ty = .williamsonType)
    (l r : List QuadSeq) (hl : ∀ s ∈ l, PMQuad n s) (h : Checked.reduceToCanonicalReps l ty = some r) :
    n ≤ 31 ∧ r.Nodup ∧
      (∀ x ∈ r, PMQuad n x ∧ ∃ s ∈ l, TypeEquiv ty (fam n s) (fam n x)) ∧
      (∀ s ∈ l, ∃ x ∈ r, TypeEquiv ty (fam n s) (fam n x) ∧
        ∀ y ∈ r, TypeEquiv ty (fam n s) (fam n y) → y = x) ∧
      (∀ x ∈ r, ∀ t, PMQuad n t → TypeEquiv ty (fam n x) (fam n t) → flat x ≤ flat t) := by
  cases l with
  | nil => cases h
  | cons s l =>
    have hn : n ≤ 31 := by
      by_contra hn
      rw [C93_reduce_panics s (by rw [(hl s List.mem_cons_self).size]; omega)] at h
      cases h
    obtain ⟨r', h1, h2⟩ := C17_reduce n hn ty hty (s :: l) (List.cons_ne_nil _ _) hl
    rw [(C93_reduce n hn ty hty (s :: l) (List.cons_ne_nil _ _) hl).1, h1] at h
    cases h
    exact ⟨hn, h2⟩

example : (Checked.reduceToCanonicalReps [exWS3] .quaternionType).isSome = true := by
  have : NeZero 3 := ⟨by decide⟩
  exact (C93_reduce 3 (by omega) _ (.inl rfl) [exWS3] (by simp) (by decide)).2

/-- C93. A release build does, at length 32: every quadruple gets the same representative as some quadruple that is not
equivalent to it, so that of the two classes at least one is lost. A debug build panics. -/
theorem C93_release_merges (ty : SeqType) (hty : ty = .quaternionType ∨ ty = .williamsonType) (s : QuadSeq) (hs : PMQuad 32 s) :
    ∃ t r, PMQuad 32 t ∧ ¬ TypeEquiv ty (fam 32 s) (fam 32 t) ∧ reduceToCanonicalReps [s, t] ty = some [r] ∧
      Checked.reduceToCanonicalReps [s, t] ty = none := by
  have hc : CanType ty := by rcases hty with h | h <;> simp [CanType, h]
  obtain ⟨r, hr⟩ := merged32 hc hs
  exact ⟨flipLast s, r, flip_pm hs, apart32 ty hs, hr, C93_reduce_panics _ (by rw [hs.size]) _ _⟩

example : PMQuad 32 (QuadSeq.new 32) := by decide

/-! ## Matrices -/

/-- C93. The block matrix of a ±1 quadruple is built without overflow, at any length. -/
theorem C93_block (n : ℕ) [NeZero n] (s : QuadSeq) (hs : PMQuad n s) (ty : SeqType) :
    Checked.HM.fromWilliamson s ty = HM.fromWilliamson s ty ∧
      (Checked.HM.fromWilliamson s .quaternionType).isSome = true :=
  ⟨fromWilliamson_eq hs ty, by rw [fromWilliamson_eq hs]; rfl⟩

/-- C93. Dephasing a ±1 matrix does not overflow, at any size. -/
theorem C93_dephase (m : HM) (hm : m.matrix.length = m.size ∧ ∀ r ∈ m.matrix, r.length = m.size ∧ ∀ x ∈ r, x = 1 ∨ x = -1) :
    Checked.HM.dephase m = some m.dephase ∧ Checked.HM.dephased m = some m.dephased := by
  have h : PMGrid m.size m.matrix := by
    refine ⟨⟨hm.1, fun r hr => (hm.2 r hr).1⟩, fun i j hi hj => ?_⟩
    have hi' : i < m.matrix.length := by rw [hm.1]; exact hi
    have hr := hm.2 _ (List.getElem_mem hi')
    have hj' : j < (m.matrix[i]).length := by rw [hr.1]; exact hj
    have e : get2 0 m.matrix i j = (m.matrix[i])[j] := by
      unfold get2
      rw [List.getD_eq_getElem _ _ hi', List.getD_eq_getElem _ _ hj']
    rw [e]
    exact hr.2 _ (List.getElem_mem hj')
  exact ⟨dephase_eq h, dephased_eq h⟩

/-- C93. Verifying a ±1 matrix does not overflow up to size 127. -/
theorem C93_verify (m : HM) (h : PMMat (zmat m.size m.matrix)) (hn : m.size ≤ 127) : Checked.HM.verify m = some m.verify :=
  verify_small h hn

/-- C93. A Hadamard matrix is accepted without overflow up to size 255: the partial inner products of two orthogonal rows are
at most half the size. -/
theorem C93_verify_hadamard (m : HM) (h : IsHadamard (zmat m.size m.matrix)) (hn : m.size ≤ 255) :
    Checked.HM.verify m = some true :=
  verify_had h hn

/-- C93. The verification stops at the first pair of rows that are not orthogonal, at any size: overflows in later pairs do
not matter. -/
theorem C93_verify_stops (m : HM) (h : PMMat (zmat m.size m.matrix)) (i j : ℕ) (hij : i < j) (hj : j < m.size)
    (hb : ∀ a b, a < b → b < m.size → a < i ∨ a = i ∧ b ≤ j → ∀ k ≤ m.size,
      -128 ≤ ∑ l ∈ Finset.range k, m.get a l * m.get b l ∧ ∑ l ∈ Finset.range k, m.get a l * m.get b l ≤ 127)
    (hne : ∑ l ∈ Finset.range m.size, m.get i l * m.get j l ≠ 0) : Checked.HM.verify m = some false :=
  verify_stops h hij hj hb hne

/-- A row, a row with product 1 with it, and rows equal to the second. -/
example : Checked.HM.verify ⟨129, List.replicate 129 1 :: List.replicate 128 (List.replicate 65 1 ++ List.replicate 64 (-1))⟩ =
    some false := by decide +kernel

/-- C93. From size 128 on the verification of the matrix of ones panics. -/
theorem C93_verify_panics (n : ℕ) (hn : 128 ≤ n) : Checked.HM.verify (HM.new n) = none :=
  verify_ones hn

example : Checked.HM.verify (HM.new 3) = some false ∧ Checked.HM.verify ⟨2, [[1, 1], [1, -1]]⟩ = some true ∧
    Checked.HM.dephase ⟨2, [[-1, 1], [1, 1]]⟩ = some ⟨2, [[1, 1], [1, -1]]⟩ ∧
    (Checked.HM.fromWilliamson exWS3 .quaternionType).isSome = true := by decide +kernel

end Props
