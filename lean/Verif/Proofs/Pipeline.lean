import Mathlib.Data.List.ReduceOption
import Verif.Proofs.Files
import Verif.Proofs.Rowsum

/-!
# Helper lemmas: one row-sum directory from writing to joining
-/

set_option linter.unusedSectionVars false
set_option linter.unusedVariables false
set_option linter.unusedSimpArgs false

namespace Proofs.Pipeline
open Model Spec Proofs.Txt Proofs.Join Proofs.Keys Proofs.Files

/-- The lines a pair file may contain, for a key function. -/
def LineOf (g : List ℤ → List ℤ → Option (List ℤ)) (s1 s2 : List (List ℤ)) (l : Text) : Prop :=
  ∃ i j x y v, s1[i]? = some x ∧ s2[j]? = some y ∧ g x y = some v ∧ l = lineText v i j

theorem pairLines_spec {K : Type} (A : Fl K) (s1 s2 : List (List ℤ)) (tags : Tag × Tag) (ty : SeqType) (p : ℕ)
    (side : Side) (mo : MatchOption) (g : List ℤ → List ℤ → Option (List ℤ))
    (hg : ∀ x ∈ s1, ∀ y ∈ s2, ∀ i j d, pairData A (A.mul (A.lit 4 1) (A.ofInt p)) (x, i) (y, j) = some d →
      pairKey A ty side mo tags p d = some (g x y)) :
    ∃ lines, pairLines A s1 s2 tags ty p side mo = some lines ∧ (∀ l ∈ lines, LineOf g s1 s2 l) ∧
      ∀ i j x y v d, s1[i]? = some x → s2[j]? = some y →
        pairData A (A.mul (A.lit 4 1) (A.ofInt p)) (x, i) (y, j) = some d → g x y = some v →
        lineText v i j ∈ lines := by
  unfold pairLines
  have hmem : ∀ d, d ∈ filteredCouplesPsds A s1 s2 (A.mul (A.lit 4 1) (A.ofInt p)) ↔ ∃ i j x y, s1[i]? = some x ∧
      s2[j]? = some y ∧ pairData A (A.mul (A.lit 4 1) (A.ofInt p)) (x, i) (y, j) = some d := by
    intro d
    unfold filteredCouplesPsds
    simp only [List.mem_flatMap, List.mem_filterMap]
    constructor
    · rintro ⟨⟨x, i⟩, hx, ⟨y, j⟩, hy, h⟩
      exact ⟨i, j, x, y, List.mem_zipIdx_iff_getElem?.1 hx, List.mem_zipIdx_iff_getElem?.1 hy, h⟩
    · rintro ⟨i, j, x, y, hx, hy, h⟩
      exact ⟨(x, i), List.mem_zipIdx_iff_getElem?.2 hx, (y, j), List.mem_zipIdx_iff_getElem?.2 hy, h⟩
  rw [mapM_some (g := fun d => (g d.seq1 d.seq2).map fun vals => lineText vals d.i1 d.i2)]
  · refine ⟨_, rfl, ?_, ?_⟩
    · intro l hl
      rw [List.reduceOption_mem_iff, List.mem_map] at hl
      obtain ⟨d, hd, hl⟩ := hl
      obtain ⟨i, j, x, y, hx, hy, h⟩ := (hmem d).1 hd
      have e := Matching.pairData_some h
      rw [Option.map_eq_some_iff] at hl
      obtain ⟨v, hv, rfl⟩ := hl
      subst e
      exact ⟨i, j, x, y, v, hx, hy, hv, rfl⟩
    · intro i j x y v d hx hy h hv
      rw [List.reduceOption_mem_iff, List.mem_map]
      refine ⟨d, (hmem d).2 ⟨i, j, x, y, hx, hy, h⟩, ?_⟩
      rw [Matching.pairData_some h, Option.map_eq_some_iff]
      exact ⟨v, hv, rfl⟩
  · intro d hd
    obtain ⟨i, j, x, y, hx, hy, h⟩ := (hmem d).1 hd
    rw [hg x (List.mem_of_getElem? hx) y (List.mem_of_getElem? hy) i j d h, Matching.pairData_some h]
    rfl

theorem line_parse {g : List ℤ → List ℤ → Option (List ℤ)} {s1 s2 : List (List ℤ)} (h1 : s1.length < 2 ^ 64)
    (h2 : s2.length < 2 ^ 64) {l : Text} (h : LineOf g s1 s2 l) :
    ∃ i j x y v, s1[i]? = some x ∧ s2[j]? = some y ∧ g x y = some v ∧ l = lineText v i j ∧
      getLineFrom l = some (keyOf v, (i, j)) := by
  obtain ⟨i, j, x, y, v, hx, hy, hv, rfl⟩ := h
  have li : i < s1.length := (List.getElem?_eq_some_iff.1 hx).1
  have lj : j < s2.length := (List.getElem?_eq_some_iff.1 hy).1
  exact ⟨i, j, x, y, v, hx, hy, hv, rfl, getLine_lineText v (by omega) (by omega)⟩

variable {n : ℕ} [NeZero n]

/-- Joining two files of well-formed lines. -/
theorem join_files {ty : SeqType} (hty : Supported ty) (sq : Tag → List (List ℤ)) (hpm : ∀ t, ∀ x ∈ sq t, PMSeq n x)
    (hlen : ∀ t, (sq t).length < 2 ^ 64) (tab : SeqTable) (htab : ∀ t, get tab t = sq t) (o : TagOrder)
    (ho : [o.1, o.2.1, o.2.2.1, o.2.2.2].Nodup) (g12 g34 : List ℤ → List ℤ → Option (List ℤ)) (f12 f34 : Text)
    (h12 : ∀ l ∈ readLines f12, LineOf g12 (sq o.1) (sq o.2.1) l)
    (h34 : ∀ l ∈ readLines f34, LineOf g34 (sq o.2.2.1) (sq o.2.2.2) l) :
    ∃ r, joinPairsFiles ty (f12, f34) o tab = some r ∧
      (∀ q ∈ r, OfType n ty q ∧ (∀ t, q.sequence t ∈ sq t) ∧ (g12 (q.sequence o.1) (q.sequence o.2.1)).isSome ∧
        (g34 (q.sequence o.2.2.1) (q.sequence o.2.2.2)).isSome) ∧
      (Sorted (readLines f12) → Sorted (readLines f34) → ∀ q, OfType n ty q → ∀ i j k l v,
        (sq o.1)[i]? = some (q.sequence o.1) → (sq o.2.1)[j]? = some (q.sequence o.2.1) →
        (sq o.2.2.1)[k]? = some (q.sequence o.2.2.1) → (sq o.2.2.2)[l]? = some (q.sequence o.2.2.2) →
        lineText v i j ∈ readLines f12 → lineText v k l ∈ readLines f34 →
        Isolated (keyOf v) (readLines f12) → Isolated (keyOf v) (readLines f34) → q ∈ r) := by
  have p12 : Parses (readLines f12) := fun l hl => by
    obtain ⟨i, j, x, y, v, _, _, _, _, h⟩ := line_parse (hlen _) (hlen _) (h12 l hl)
    exact ⟨_, h⟩
  have p34 : Parses (readLines f34) := fun l hl => by
    obtain ⟨i, j, x, y, v, _, _, _, _, h⟩ := line_parse (hlen _) (hlen _) (h34 l hl)
    exact ⟨_, h⟩
  obtain ⟨ms, hms, hsound⟩ := loop_sound ((readLines f12).length + (readLines f34).length + 1) _ _ p12 p34
    (Nat.lt_succ_self _)
  have hcand : ∀ m ∈ ms, ∃ s : Tag → List ℤ, (∀ t, s t ∈ sq t) ∧
      getSequences tab o (m.1.1, m.1.2, m.2.1, m.2.2) = some (mkQuad s) ∧ (g12 (s o.1) (s o.2.1)).isSome ∧
        (g34 (s o.2.2.1) (s o.2.2.2)).isSome := by
    intro m hm
    obtain ⟨k, a, ha, b, hb, e1, e2⟩ := hsound m hm
    obtain ⟨i, j, x, y, v, hx, hy, hv, rfl, e3⟩ := line_parse (hlen _) (hlen _) (h12 a ha)
    obtain ⟨i', j', x', y', v', hx', hy', hv', rfl, e4⟩ := line_parse (hlen _) (hlen _) (h34 b hb)
    rw [e1] at e3
    rw [e2] at e4
    have q1 : m.1 = (i, j) := (Prod.ext_iff.1 (Option.some.inj e3)).2
    have q2 : m.2 = (i', j') := (Prod.ext_iff.1 (Option.some.inj e4)).2
    rw [q1, q2]
    have hn := ho
    simp only [List.nodup_cons, List.mem_cons, List.not_mem_nil, or_false, not_or, not_false_eq_true, List.nodup_nil,
      and_true] at hn
    obtain ⟨⟨n1, n2, n3⟩, ⟨n4, n5⟩, n6⟩ := hn
    let s : Tag → List ℤ := fun t => if t = o.1 then x else if t = o.2.1 then y else if t = o.2.2.1 then x' else y'
    have s1 : s o.1 = x := if_pos rfl
    have s2 : s o.2.1 = y := by
      show (if _ then _ else _) = _
      rw [if_neg (Ne.symm n1), if_pos rfl]
    have s3 : s o.2.2.1 = x' := by
      show (if _ then _ else _) = _
      rw [if_neg (Ne.symm n2), if_neg (Ne.symm n4), if_pos rfl]
    have s4 : s o.2.2.2 = y' := by
      show (if _ then _ else _) = _
      rw [if_neg (Ne.symm n3), if_neg (Ne.symm n5), if_neg (Ne.symm n6)]
    refine ⟨s, fun t => ?_, getSequences_some tab o ho _ s (by rw [htab, s1]; exact hx) (by rw [htab, s2]; exact hy)
      (by rw [htab, s3]; exact hx') (by rw [htab, s4]; exact hy'), by rw [s1, s2, hv]; rfl, by rw [s3, s4, hv']; rfl⟩
    rcases tag_cover o ho t with rfl | rfl | rfl | rfl
    · rw [s1]; exact List.mem_of_getElem? hx
    · rw [s2]; exact List.mem_of_getElem? hy
    · rw [s3]; exact List.mem_of_getElem? hx'
    · rw [s4]; exact List.mem_of_getElem? hy'
  have htest : ∀ m ∈ ms, ∃ r, testMatch ty tab o m = some r ∧
      (∀ q ∈ r, OfType n ty q ∧ (∀ t, q.sequence t ∈ sq t) ∧ (g12 (q.sequence o.1) (q.sequence o.2.1)).isSome ∧
        (g34 (q.sequence o.2.2.1) (q.sequence o.2.2.2)).isSome) ∧
      (∀ q, OfType n ty q → getSequences tab o (m.1.1, m.1.2, m.2.1, m.2.2) = some q → q ∈ r) := by
    intro m hm
    obtain ⟨s, hs, e, z1, z2⟩ := hcand m hm
    obtain ⟨b, hb, hb'⟩ := condition_pm hty (mkQuad_pm fun t => hpm t _ (hs t))
    unfold testMatch
    rw [e]
    simp only [Option.bind_some]
    rw [hb]
    refine ⟨_, rfl, ?_, ?_⟩
    · intro q hq
      cases b with
      | false => simp at hq
      | true =>
        simp only [if_true, List.mem_singleton] at hq
        subst hq
        exact ⟨hb'.1 rfl, fun t => by rw [mkQuad_seq]; exact hs t, by rw [mkQuad_seq, mkQuad_seq]; exact z1,
          by rw [mkQuad_seq, mkQuad_seq]; exact z2⟩
    · intro q hq he
      cases he
      rw [hb'.2 hq]
      simp
  unfold joinPairsFiles
  simp only [hms, Option.bind_some]
  have hmap : ms.mapM (testMatch ty tab o) = some (ms.map fun m => (testMatch ty tab o m).getD []) :=
    mapM_some fun m hm => by
      obtain ⟨r, hr, _⟩ := htest m hm
      rw [hr]; rfl
  rw [hmap]
  refine ⟨_, rfl, ?_, ?_⟩
  · intro q hq
    obtain ⟨l, hl, hq⟩ := List.mem_flatten.1 hq
    obtain ⟨m, hm, rfl⟩ := List.mem_map.1 hl
    obtain ⟨r, hr, h1, _⟩ := htest m hm
    rw [hr] at hq
    exact h1 q hq
  · intro S12 S34 q hq i j k l v e1 e2 e3 e4 m12 m34 I12 I34
    have li : i < (sq o.1).length := (List.getElem?_eq_some_iff.1 e1).1
    have lj : j < (sq o.2.1).length := (List.getElem?_eq_some_iff.1 e2).1
    have lk : k < (sq o.2.2.1).length := (List.getElem?_eq_some_iff.1 e3).1
    have ll : l < (sq o.2.2.2).length := (List.getElem?_eq_some_iff.1 e4).1
    have b1 := hlen o.1
    have b2 := hlen o.2.1
    have b3 := hlen o.2.2.1
    have b4 := hlen o.2.2.2
    have hm := loop_complete (keyOf v) _ _ _ p12 p34 S12 S34 I12 I34 (Nat.lt_succ_self _) ms hms m12 m34
      (getLine_lineText v (by omega) (by omega)) (getLine_lineText v (by omega) (by omega))
    obtain ⟨r, hr, _, h2⟩ := htest _ hm
    refine List.mem_flatten.2 ⟨r, List.mem_map.2 ⟨_, hm, by rw [hr]; rfl⟩, h2 q hq ?_⟩
    have hw := (ofType_wts hq).1
    have := getSequences_some tab o ho (i, j, k, l) q.sequence (by rw [htab]; exact e1) (by rw [htab]; exact e2)
      (by rw [htab]; exact e3) (by rw [htab]; exact e4)
    rw [mkQuad_sequence (by rw [hw.size, hw.a.1])] at this
    exact this

/-! ## The directory -/

theorem pairName_tags (t1 t2 : Tag) : getTagFromFilename (pairFileName t1 t2 ++ sortedSuffix) = some (t1, t2) := by
  cases t1 <;> cases t2 <;> decide

theorem pairName_suffix (t1 t2 : Tag) : pairSuffix.isSuffixOf (pairFileName t1 t2) = true := by
  cases t1 <;> cases t2 <;> decide

theorem seqName_notpair (t : Tag) : pairSuffix.isSuffixOf (seqFileName t) = false := by
  cases t <;> decide

theorem seqName_notsorted (t : Tag) : (pairSuffix ++ sortedSuffix).isSuffixOf (seqFileName t) = false := by
  cases t <;> decide

theorem pairName_sorted (t1 t2 : Tag) :
    (pairSuffix ++ sortedSuffix).isSuffixOf (pairFileName t1 t2 ++ sortedSuffix) = true := by
  cases t1 <;> cases t2 <;> decide

theorem pairName_notseq (t1 t2 : Tag) : seqSuffix.isSuffixOf (pairFileName t1 t2 ++ sortedSuffix) = false := by
  cases t1 <;> cases t2 <;> decide

theorem perm_pair {α : Type} {l : List α} {a b : α} (h : l.Perm [a, b]) : l = [a, b] ∨ l = [b, a] := by
  match l, h.length_eq with
  | [x, y], _ =>
    have hx : x = a ∨ x = b := by simpa using (h.mem_iff (a := x)).1 (List.mem_cons_self ..)
    rcases hx with rfl | rfl
    · left
      have := (List.perm_cons x).1 h
      rw [List.perm_singleton.1 this]
    · right
      have := (List.perm_cons x).1 (h.trans (List.Perm.swap x a []))
      rw [List.perm_singleton.1 this]

/-- The directory of one row-sum quadruple after the pair stage and sorting, joined in any listing order. -/
theorem dir_spec {K : Type} (A : Fl K) {ty : SeqType} (hty : Supported ty) (rs : Quad) (mo : MatchOption)
    (pr : Option Pairing) (sq : Tag → List (List ℤ)) (hsq : ∀ t, rowsumSequences ty (tagRowsum rs t) n = sq t)
    (hpm : ∀ t, ∀ x ∈ sq t, PMSeq n x) (hsum : ∀ t, ∀ x ∈ sq t, x.sum = tagRowsum rs t)
    (hlen : ∀ t, (sq t).length < 2 ^ 64) (g12 g34 : List ℤ → List ℤ → Option (List ℤ))
    (hg12 : ∀ x ∈ sq (pairingTags pr).1.1, ∀ y ∈ sq (pairingTags pr).1.2, ∀ i j d,
      pairData A (A.mul (A.lit 4 1) (A.ofInt n)) (x, i) (y, j) = some d →
      pairKey A ty .left mo (pairingTags pr).1 n d = some (g12 x y))
    (hg34 : ∀ x ∈ sq (pairingTags pr).2.1, ∀ y ∈ sq (pairingTags pr).2.2, ∀ i j d,
      pairData A (A.mul (A.lit 4 1) (A.ofInt n)) (x, i) (y, j) = some d →
      pairKey A ty .right mo (pairingTags pr).2 n d = some (g34 x y)) :
    ∃ d0, writePairsRowsum A ty rs n mo pr = some d0 ∧ ∀ d, d.Perm (sortDir d0) →
      ∃ r, joinDir ty d = some r ∧ (∀ q ∈ r, OfType n ty q ∧ (∀ t, q.sequence t ∈ sq t) ∧
          (g12 (q.sequence (pairingTags pr).1.1) (q.sequence (pairingTags pr).1.2)).isSome ∧
          (g34 (q.sequence (pairingTags pr).2.1) (q.sequence (pairingTags pr).2.2)).isSome) ∧
        ∀ q, OfType n ty q → (∀ t, q.sequence t ∈ sq t) →
          boundExceeded A ((dftSequence A (q.sequence (pairingTags pr).1.1)).map A.normSqr)
            ((dftSequence A (q.sequence (pairingTags pr).1.2)).map A.normSqr) (A.mul (A.lit 4 1) (A.ofInt n)) = false →
          boundExceeded A ((dftSequence A (q.sequence (pairingTags pr).2.1)).map A.normSqr)
            ((dftSequence A (q.sequence (pairingTags pr).2.2)).map A.normSqr) (A.mul (A.lit 4 1) (A.ofInt n)) = false →
          ∀ v, g12 (q.sequence (pairingTags pr).1.1) (q.sequence (pairingTags pr).1.2) = some v →
            g34 (q.sequence (pairingTags pr).2.1) (q.sequence (pairingTags pr).2.2) = some v →
            (∀ x ∈ sq (pairingTags pr).1.1, ∀ y ∈ sq (pairingTags pr).1.2, ∀ u, g12 x y = some u →
              u = v ∨ (¬ keyOf v <+: keyOf u ∧ ¬ keyOf u <+: keyOf v)) →
            (∀ x ∈ sq (pairingTags pr).2.1, ∀ y ∈ sq (pairingTags pr).2.2, ∀ u, g34 x y = some u →
              u = v ∨ (¬ keyOf v <+: keyOf u ∧ ¬ keyOf u <+: keyOf v)) → q ∈ r := by
  rcases hpt : pairingTags pr with ⟨⟨t1, t2⟩, ⟨t3, t4⟩⟩
  have hnd : [t1, t2, t3, t4].Nodup := by
    rcases pr with _ | _ | _ | _ <;> (cases hpt; decide)
  have hnd' : [t3, t4, t1, t2].Nodup := by
    rcases pr with _ | _ | _ | _ <;> (cases hpt; decide)
  rw [hpt] at hg12 hg34
  dsimp only at hg12 hg34 ⊢
  obtain ⟨L12, e12, a12, b12⟩ := pairLines_spec A (sq t1) (sq t2) (t1, t2) ty n .left mo g12 hg12
  obtain ⟨L34, e34, a34, b34⟩ := pairLines_spec A (sq t3) (sq t4) (t3, t4) ty n .right mo g34 hg34
  have hpmt : ∀ t, ∀ s ∈ sq t, IsPM s := fun t s hs => (hpm t s hs).2
  have hver : ∀ u v : Tag, verifyRowsums (sq u) (sq v) (u, v) rs = true := by
    intro u v
    unfold verifyRowsums
    rw [Bool.and_eq_true, List.all_eq_true, List.all_eq_true]
    exact ⟨fun s hs => by simp [rowsum_eq_sum, hsum u s hs], fun s hs => by simp [rowsum_eq_sum, hsum v s hs]⟩
  have w12 : writeSeqPairs A (sq t1) (sq t2) (t1, t2) ty rs n .left mo = some (unlines L12) := by
    unfold writeSeqPairs
    rw [if_pos (hver _ _), e12]
    simp [writeBlocks_flatten]
  have w34 : writeSeqPairs A (sq t3) (sq t4) (t3, t4) ty rs n .right mo = some (unlines L34) := by
    unfold writeSeqPairs
    rw [if_pos (hver _ _), e34]
    simp [writeBlocks_flatten]
  let c : Tag → Text := fun t => unlines ((sq t).map pmText)
  have hd0 : writePairsRowsum A ty rs n mo pr = some [(seqFileName .W, c .W), (seqFileName .X, c .X),
      (seqFileName .Y, c .Y), (seqFileName .Z, c .Z), (pairFileName t1 t2, unlines L12),
      (pairFileName t3 t4, unlines L34)] := by
    unfold writePairsRowsum
    simp only [hsq, hpt]
    rw [sequencesText_pm (hpmt _), sequencesText_pm (hpmt _), sequencesText_pm (hpmt _), sequencesText_pm (hpmt _)]
    simp only [Option.bind_some]
    rw [w12, w34]
    rfl
  have hsort : sortDir [(seqFileName .W, c .W), (seqFileName .X, c .X),
      (seqFileName .Y, c .Y), (seqFileName .Z, c .Z), (pairFileName t1 t2, unlines L12),
      (pairFileName t3 t4, unlines L34)] = [(seqFileName .W, c .W), (seqFileName .X, c .X),
      (seqFileName .Y, c .Y), (seqFileName .Z, c .Z), (pairFileName t1 t2 ++ sortedSuffix, sortText (unlines L12)),
      (pairFileName t3 t4 ++ sortedSuffix, sortText (unlines L34))] := by
    unfold sortDir
    simp only [List.map_cons, List.map_nil, seqName_notpair, pairName_suffix, if_true, Bool.false_eq_true, if_false]
  have clean12 : ∀ l ∈ L12, '\n' ∉ l ∧ '\r' ∉ l := fun l hl => by
    obtain ⟨i, j, x, y, v, _, _, _, rfl⟩ := a12 l hl; exact lineText_clean v i j
  have clean34 : ∀ l ∈ L34, '\n' ∉ l ∧ '\r' ∉ l := fun l hl => by
    obtain ⟨i, j, x, y, v, _, _, _, rfl⟩ := a34 l hl; exact lineText_clean v i j
  have r12 := read_sortText L12 clean12
  have r34 := read_sortText L34 clean34
  have m12 : ∀ l, l ∈ readLines (sortText (unlines L12)) ↔ l ∈ L12 := fun l => by
    rw [r12]; exact (mergeSort_perm L12).mem_iff
  have m34 : ∀ l, l ∈ readLines (sortText (unlines L34)) ↔ l ∈ L34 := fun l => by
    rw [r34]; exact (mergeSort_perm L34).mem_iff
  have s12 : Sorted (readLines (sortText (unlines L12))) := by rw [r12]; exact mergeSort_sorted L12
  have s34 : Sorted (readLines (sortText (unlines L34))) := by rw [r34]; exact mergeSort_sorted L34
  refine ⟨_, hd0, ?_⟩
  rw [hsort]
  intro d hd
  obtain ⟨tab, htab, hget⟩ := readFold c sq (fun t => fileToSeq_pm (hpmt t)) d (by
    intro f hf
    have := (hd.mem_iff (a := f)).1 hf
    simp only [List.mem_cons, List.not_mem_nil, or_false] at this
    rcases this with rfl | rfl | rfl | rfl | rfl | rfl
    · exact .inr ⟨_, rfl⟩
    · exact .inr ⟨_, rfl⟩
    · exact .inr ⟨_, rfl⟩
    · exact .inr ⟨_, rfl⟩
    · exact .inl (pairName_notseq _ _)
    · exact .inl (pairName_notseq _ _)) { w := [], x := [], y := [], z := [] }
  have hget' : ∀ t, get tab t = sq t := fun t => (hget t).1 (hd.mem_iff.2 (by cases t <;> simp))
  have hfil := hd.filter fun f => (pairSuffix ++ sortedSuffix).isSuffixOf f.1
  simp only [List.filter_cons, List.filter_nil, seqName_notsorted, pairName_sorted, if_true, Bool.false_eq_true,
    if_false] at hfil
  have iso : ∀ (g : List ℤ → List ℤ → Option (List ℤ)) (u w : Tag) (L : List Text), (∀ l ∈ L, LineOf g (sq u) (sq w) l) →
      ∀ v, (∀ x ∈ sq u, ∀ y ∈ sq w, ∀ z, g x y = some z → z = v ∨ (¬ keyOf v <+: keyOf z ∧ ¬ keyOf z <+: keyOf v)) →
      Isolated (keyOf v) L := by
    intro g u w L hL v hv l hl k p hk
    obtain ⟨i, j, x, y, z, hx, hy, hz, _, e⟩ := line_parse (hlen u) (hlen w) (hL l hl)
    rw [e] at hk
    have ek : keyOf z = k := (Prod.ext_iff.1 (Option.some.inj hk)).1
    rw [← ek]
    rcases hv x (List.mem_of_getElem? hx) y (List.mem_of_getElem? hy) z hz with rfl | h
    · exact .inl rfl
    · exact .inr h
  rcases perm_pair hfil with hf | hf
  · obtain ⟨r, hr, h1, h2⟩ := join_files (n := n) hty sq hpm hlen tab hget' (t1, t2, t3, t4) hnd g12 g34
      (sortText (unlines L12)) (sortText (unlines L34)) (fun l hl => a12 l ((m12 l).1 hl))
      (fun l hl => a34 l ((m34 l).1 hl))
    refine ⟨r, ?_, h1, ?_⟩
    · unfold joinDir getOrderFromDir
      rw [readDir_eq, htab, hf]
      simp only [Option.bind_some, pairName_tags, Option.map_some]
      exact hr
    · intro q hq hmem f1 f2 v k1 k2 i1 i2
      obtain ⟨i, hi⟩ := List.mem_iff_getElem?.1 (hmem t1)
      obtain ⟨j, hj⟩ := List.mem_iff_getElem?.1 (hmem t2)
      obtain ⟨k, hk⟩ := List.mem_iff_getElem?.1 (hmem t3)
      obtain ⟨l, hl⟩ := List.mem_iff_getElem?.1 (hmem t4)
      refine h2 s12 s34 q hq i j k l v hi hj hk hl
        ((m12 _).2 (b12 i j _ _ v _ hi hj (Matching.pairData_ok f1) k1))
        ((m34 _).2 (b34 k l _ _ v _ hk hl (Matching.pairData_ok f2) k2))
        (iso g12 t1 t2 _ (fun l hl => a12 l ((m12 l).1 hl)) v i1) (iso g34 t3 t4 _ (fun l hl => a34 l ((m34 l).1 hl)) v i2)
  · obtain ⟨r, hr, h1, h2⟩ := join_files (n := n) hty sq hpm hlen tab hget' (t3, t4, t1, t2) hnd' g34 g12
      (sortText (unlines L34)) (sortText (unlines L12)) (fun l hl => a34 l ((m34 l).1 hl))
      (fun l hl => a12 l ((m12 l).1 hl))
    refine ⟨r, ?_, fun q hq => ⟨(h1 q hq).1, (h1 q hq).2.1, (h1 q hq).2.2.2, (h1 q hq).2.2.1⟩, ?_⟩
    · unfold joinDir getOrderFromDir
      rw [readDir_eq, htab, hf]
      simp only [Option.bind_some, pairName_tags, Option.map_some]
      exact hr
    · intro q hq hmem f1 f2 v k1 k2 i1 i2
      obtain ⟨i, hi⟩ := List.mem_iff_getElem?.1 (hmem t1)
      obtain ⟨j, hj⟩ := List.mem_iff_getElem?.1 (hmem t2)
      obtain ⟨k, hk⟩ := List.mem_iff_getElem?.1 (hmem t3)
      obtain ⟨l, hl⟩ := List.mem_iff_getElem?.1 (hmem t4)
      refine h2 s34 s12 q hq k l i j v hk hl hi hj
        ((m34 _).2 (b34 k l _ _ v _ hk hl (Matching.pairData_ok f2) k2))
        ((m12 _).2 (b12 i j _ _ v _ hi hj (Matching.pairData_ok f1) k1))
        (iso g34 t3 t4 _ (fun l hl => a34 l ((m34 l).1 hl)) v i2) (iso g12 t1 t2 _ (fun l hl => a12 l ((m12 l).1 hl)) v i1)

end Proofs.Pipeline
