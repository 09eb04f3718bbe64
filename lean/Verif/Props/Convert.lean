import Verif.Proofs.Print
import Verif.Props.Graph

/-!
# Properties C67 - C70: printed matrices and the conversion to quaternionic matrices
-/

set_option linter.unusedVariables false

namespace Props
open Model Spec Proofs Proofs.Conversion
open scoped Quaternion

/-! ## C67: printed matrices determine the matrices -/

/-- C67. Two ±1 matrices are printed alike only if they are equal. -/
theorem C67_hm (m m' : HM) (h : Square m.size m.matrix) (h' : Square m'.size m'.matrix)
    (hp : PMMat (zmat m.size m.matrix)) (hp' : PMMat (zmat m'.size m'.matrix)) : m.toString = m'.toString ↔ m = m' :=
  ⟨Print.hm_inj h h' hp hp', fun e => by rw [e]⟩

/-- C67. Printing in Magma syntax panics exactly for the empty matrix. -/
theorem C67_magma_panics (m : HM) : m.toStringMagma = none ↔ m.size = 0 := by
  unfold HM.toStringMagma
  split <;> simp_all

/-- C67. Two non-empty ±1 matrices are printed alike in Magma syntax only if they are equal. -/
theorem C67_magma (m m' : HM) (h : Square m.size m.matrix) (h' : Square m'.size m'.matrix)
    (hp : PMMat (zmat m.size m.matrix)) (hp' : PMMat (zmat m'.size m'.matrix)) (h0 : m.size ≠ 0) (h0' : m'.size ≠ 0) :
    m.toStringMagma = m'.toStringMagma ↔ m = m' :=
  ⟨Print.magma_inj h h' hp hp' h0 h0', fun e => by rw [e]⟩

/-- C67. A file of matrices in Magma syntax, one per line, determines the list of matrices. -/
theorem C67_magma_file (l l' : List HM)
    (hl : ∀ m ∈ l, m.size ≠ 0 ∧ Square m.size m.matrix ∧ PMMat (zmat m.size m.matrix))
    (hl' : ∀ m ∈ l', m.size ≠ 0 ∧ Square m.size m.matrix ∧ PMMat (zmat m.size m.matrix))
    (he : (l.mapM HM.toStringMagma).map unlines = (l'.mapM HM.toStringMagma).map unlines) : l = l' := by
  have key : ∀ l : List HM, (∀ m ∈ l, m.size ≠ 0) → ∃ ps, l.mapM HM.toStringMagma = some ps ∧
      ∀ p ∈ ps, '\n' ∉ p ∧ '\r' ∉ p := by
    intro l hl
    have h1 : ∀ m ∈ l, m.toStringMagma = some (m.toStringMagma.getD []) := fun m hm => by
      cases h : m.toStringMagma with
      | none => exact absurd ((C67_magma_panics m).1 h) (hl m hm)
      | some p => rfl
    refine ⟨_, Print.mapM_some h1, fun p hp => ?_⟩
    obtain ⟨m, hm, rfl⟩ := List.mem_map.1 hp
    exact Print.magma_clean (h1 m hm)
  obtain ⟨ps, h1, h2⟩ := key l fun m hm => (hl m hm).1
  obtain ⟨ps', h1', h2'⟩ := key l' fun m hm => (hl' m hm).1
  rw [h1, h1'] at he
  have he : unlines ps = unlines ps' := Option.some.inj he
  have e : ps = ps' := by rw [← Txt.readLines_unlines ps h2, ← Txt.readLines_unlines ps' h2', he]
  subst e
  have f1 := mapM_some_iff.1 h1
  have f2 := mapM_some_iff.1 h1'
  clear h1 h1' h2 h2' he
  induction f1 generalizing l' with
  | nil => cases f2; rfl
  | @cons m p l ps hm _ ih =>
    cases f2 with
    | @cons m' _ l' _ hm' f2 =>
      have g := hl m (by simp)
      have g' := hl' m' (by simp)
      rw [Print.magma_inj g.2.1 g'.2.1 g.2.2 g'.2.2 g.1 g'.1 (hm.trans hm'.symm),
        ih l' (fun x hx => hl x (by simp [hx])) (fun x hx => hl' x (by simp [hx])) rfl f2]

/-- C67. Two quaternionic matrices over the alphabet are printed alike only if they are equal. -/
theorem C67_qhm (m m' : QHM) (h : Square m.size m.matrix) (h' : Square m'.size m'.matrix)
    (hp : ∀ i j, i < m.size → j < m.size → m.get i j ∈ Q24)
    (hp' : ∀ i j, i < m'.size → j < m'.size → m'.get i j ∈ Q24) : m.toString = m'.toString ↔ m = m' :=
  ⟨Print.qhm_inj h h' hp hp', fun e => by rw [e]⟩

example : Square 2 exHM2.matrix ∧ PMMat (zmat 2 exHM2.matrix) ∧ exHM2.toString = "| + + |\n| + - |\n".toList ∧
    exHM2.toStringMagma = some "M := Matrix([[1,1],[1,-1]]);".toList ∧ exHM2'.toString ≠ exHM2.toString := by decide +kernel
example : (QHM.fromPqs exQS5).dephase.toString.isSome ∧ Square 5 (QHM.fromPqs exQS5).dephase.matrix := by decide +kernel

/-! ## C68: the conversion of a result file to quaternionic matrices -/

/-- The matrix of one sequence. -/
theorem normalised_of {n : ℕ} [NeZero n] {s : QuadSeq} (hs : IsQTS n s) :
    ∃ q p, s.toQs = some q ∧ Normalised n (qcyc n q.values) (QHM.fromPqs q).dephase ∧
      (QHM.fromPqs q).dephased = (QHM.fromPqs q).dephase ∧
      IsQHadamard (qmat n (QHM.fromPqs q).dephase.matrix) ∧
      (∀ i < n, (QHM.fromPqs q).dephase.get 0 i = Q1 ∧ (QHM.fromPqs q).dephase.get i 0 = Q1) ∧
      (QHM.fromPqs q).dephase.toString = some p := by
  obtain ⟨q, h1, h2⟩ := C03_isQTS_iff_perfect n s hs.1
  obtain ⟨q', h1', h3, h4, h5, h6⟩ := C06_quad_roundtrip n s hs.1
  rw [h1] at h1'
  cases h1'
  have h24 : ∀ x ∈ q.values, x ∈ Q24 := fun v hv => by
    have := h5 v hv
    revert this
    have : ∀ v ∈ QPLUS, v ∈ Q24 := by decide +kernel
    exact this v
  obtain ⟨k1, k2, k3, _⟩ := C39_fromPqs n q h3 h4 h24
  have hin := QHad.fromPqs_in24 h3 h4 h24
  have hin' : ∀ i j, i < (QHM.fromPqs q).size → j < (QHM.fromPqs q).size → (QHM.fromPqs q).get i j ∈ Q24 := by
    rw [k1]; exact hin
  obtain ⟨g0, g1, g2, g3, g4, g5, g6⟩ := C40_dephase (QHM.fromPqs q) (by rw [k1]; exact k2) hin'
  obtain ⟨_, _, d3⟩ := QHad.dephase_spec (m := QHM.fromPqs q) (by rw [k1]; exact k2)
  rw [k1] at g1 g2 g3 g6 d3
  obtain ⟨p, hp⟩ := Option.isSome_iff_exists.1 g5
  refine ⟨q, p, h1, ⟨g1, g2, fun i j hi hj => ?_⟩, g0, g6 (k3.2 (h2.1 hs)), g3, hp⟩
  have e : toH (((QHM.fromPqs q).dephase.matrix.getD i []).getD j Q0) = toH (QHad.deph (QHM.fromPqs q).matrix i j) :=
    congrArg toH (d3 i j hi hj)
  have hg : ∀ r c, r < n → c < n → toH (get2 Q0 (QHM.fromPqs q).matrix r c) = qcyc n q.values ((c : ZMod n) - r) :=
    fun r c hr hc => QHad.fromPqs_get h3 hr hc
  have h0 : 0 < n := Nat.pos_of_ne_zero (NeZero.ne n)
  rw [e]
  unfold QHad.deph
  simp only [toH_mul, toH_conj, hg i 0 hi h0, hg 0 0 h0 h0, hg i j hi hj, hg 0 j h0 hj, star_mul, star_star, Nat.cast_zero,
    sub_zero, zero_sub, mul_assoc]

theorem nonCommuting_iff {n : ℕ} {m : QHM} (hs : m.size = n) :
    m.containsNonCommutingElements = true ↔ NonCommuting (qmat n m.matrix) := by
  rw [C41_containsNonCommuting_iff, hs]
  unfold NonCommuting
  constructor
  · rintro ⟨i, j, k, l, i1, i2, j1, j2, k1, k2, l1, l2, h⟩
    exact ⟨⟨i, i2⟩, ⟨j, j2⟩, ⟨k, k2⟩, ⟨l, l2⟩, i1, j1, k1, l1, h⟩
  · rintro ⟨i, j, k, l, i1, j1, k1, l1, h⟩
    exact ⟨i, j, k, l, i1, i.2, j1, j.2, k1, k.2, l1, l.2, h⟩

theorem convert_lines {n : ℕ} [NeZero n] {lines : List Text} {l : List QuadSeq}
    (h : List.Forall₂ (fun line (s : QuadSeq) => (QS.fromStr line).bind QuadSeq.fromPqs = some s ∧
      s.toQs = QS.fromStr line) lines l) (hl : ∀ s ∈ l, IsQTS n s) :
    ∃ mats ps, List.Forall₂ (fun (s : QuadSeq) m => (∃ q, s.toQs = some q ∧ Normalised n (qcyc n q.values) m) ∧
        IsQHadamard (qmat n m.matrix) ∧ ∀ i < n, m.get 0 i = Q1 ∧ m.get i 0 = Q1) l mats ∧
      List.Forall₂ (fun (m : QHM) p => m.toString = some p) mats ps ∧
      ∃ rs, lines.mapM convertLine = some rs ∧ rs.map Prod.fst = ps ∧
        rs.map Prod.snd = mats.map fun m => m.containsNonCommutingElements := by
  induction h with
  | nil => exact ⟨[], [], .nil, .nil, [], rfl, rfl, rfl⟩
  | @cons line s lines l hs _ ih =>
    obtain ⟨mats, ps, a1, a2, rs, a3, a4, a5⟩ := ih fun x hx => hl x (by simp [hx])
    obtain ⟨q, p, c1, c2, c3, c4, c5, c6⟩ := normalised_of (hl s (by simp))
    refine ⟨(QHM.fromPqs q).dephase :: mats, p :: ps, .cons ⟨⟨q, c1, c2⟩, c4, c5⟩ a1, .cons c6 a2,
      (p, (QHM.fromPqs q).dephase.containsNonCommutingElements) :: rs, ?_, by rw [List.map_cons, a4],
      by rw [List.map_cons, a5]; rfl⟩
    have : convertLine line = some (p, (QHM.fromPqs q).dephase.containsNonCommutingElements) := by
      unfold convertLine
      rw [← hs.2, c1, Option.bind_some]
      dsimp only
      rw [c6]
      rfl
    rw [List.mapM_cons, this, a3]
    rfl

open Classical in
/-- C68. Converting the result file of a list of QT sequences writes, in order, their normalised quaternionic Hadamard
matrices, and reports the number of sequences and the number of matrices with non-commuting entries. -/
theorem C68_convert (n : ℕ) [NeZero n] (l : List QuadSeq) (hl : ∀ s ∈ l, IsQTS n s) :
    ∃ t mats ps, resultText l = some t ∧
      List.Forall₂ (fun s m => (∃ q, s.toQs = some q ∧ Normalised n (qcyc n q.values) m) ∧
        IsQHadamard (qmat n m.matrix) ∧ ∀ i < n, m.get 0 i = Q1 ∧ m.get i 0 = Q1) l mats ∧
      List.Forall₂ (fun (m : QHM) p => m.toString = some p) mats ps ∧
      convertQsToMatrices t = some ((ps.map fun p => p ++ ['\n']).flatten, l.length,
        mats.countP fun m => decide (NonCommuting (qmat n m.matrix))) := by
  obtain ⟨t, h1, h2⟩ := resultText_spec (n := n) (l := l) fun s hs => (hl s hs).1
  obtain ⟨mats, ps, a1, a2, rs, a3, a4, a5⟩ := convert_lines h2 hl
  refine ⟨t, mats, ps, h1, a1, a2, ?_⟩
  unfold convertQsToMatrices
  rw [a3, Option.map_some, a4]
  have e1 : rs.length = l.length := by
    rw [a1.length_eq, ← List.length_map (f := Prod.snd), a5, List.length_map]
  have e2 : rs.countP Prod.snd = mats.countP fun m => decide (NonCommuting (qmat n m.matrix)) := by
    have : rs.countP Prod.snd = (rs.map Prod.snd).countP id := by rw [List.countP_map]; rfl
    rw [this, a5, List.countP_map]
    refine List.countP_congr fun m hm => ?_
    obtain ⟨i, hi, rfl⟩ := List.getElem_of_mem hm
    have hi' : i < l.length := by rw [a1.length_eq]; exact hi
    have := (a1.get hi' hi).1
    obtain ⟨q, _, hN⟩ := this
    have := nonCommuting_iff (m := mats.get ⟨i, hi⟩) hN.1
    simpa using this
  rw [e1, e2]
  unfold unlines
  rw [List.flatMap_def]

/-- C68. The conversion panics exactly when a line has a character outside the alphabet. -/
theorem C68_panics (t : Text) : convertQsToMatrices t = none ↔ ∃ line ∈ readLines t, ∃ c ∈ line, c ∉ Q24_STRING := by
  unfold convertQsToMatrices
  rw [Option.map_eq_none_iff, mapM_eq_none]
  refine exists_congr fun line => and_congr_right fun _ => ?_
  rw [← C07_read_panics]
  constructor
  · intro h
    by_contra hc
    obtain ⟨qs, hq⟩ := Option.ne_none_iff_exists'.1 hc
    have hch : ∀ c ∈ line, c ∈ Q24_STRING := by
      by_contra hn
      push Not at hn
      exact hc ((C07_read_panics line).2 hn)
    obtain ⟨q, e1, e2, e3, e4, _⟩ := C07_read_print line hch
    unfold convertLine at h
    rw [e1, Option.bind_some] at h
    dsimp only at h
    rw [Option.map_eq_none_iff] at h
    by_cases h0 : line.length = 0
    · have hz : (QHM.fromPqs q).dephase.size = 0 := by
        have : (QHM.fromPqs q).size = 0 := by rw [← h0, ← e2]; rfl
        rw [← this]
        exact (QHad.dephase_spec (m := QHM.fromPqs q) (by
          refine ⟨?_, fun r hr => ?_⟩
          · unfold QHM.fromPqs; simp
          · exfalso
            unfold QHM.fromPqs at hr
            rw [e2, h0] at hr
            simp at hr)).1
      unfold QHM.toString at h
      rw [hz] at h
      cases h
    · have : NeZero line.length := ⟨h0⟩
      obtain ⟨k1, k2, _⟩ := C39_fromPqs line.length q e2 e3 e4
      have hin := QHad.fromPqs_in24 e2 e3 e4
      obtain ⟨_, _, _, _, _, g5, _⟩ := C40_dephase (QHM.fromPqs q) (by rw [k1]; exact k2) (by rw [k1]; exact hin)
      rw [h] at g5
      cases g5
  · intro h
    unfold convertLine
    rw [h]
    rfl

example : ((resultText [exQTS5, exQTS5]).bind convertQsToMatrices).map (fun r => (r.1.length, r.2)) = some (142, 2, 2) := by
  decide +kernel
example : convertQsToMatrices "+a\n".toList = none := by decide +kernel

/-! ## C69: writing the matrices of all equivalent sequences -/

theorem equivalent_fold {n : ℕ} [NeZero n] (hn : n ≤ 100) (ty : SeqType) (l : List QuadSeq) (hl : ∀ s ∈ l, PMQuad n s) :
    ∃ c, generateEquivalentQuadSeqs l ty = some c ∧ c.Nodup ∧
      ∀ t, t ∈ c ↔ PMQuad n t ∧ ∃ s ∈ l, TypeEquiv ty (fam n s) (fam n t) := by
  have key : ∀ (l : List QuadSeq) (r : List QuadSeq), (∀ s ∈ l, PMQuad n s) → r.Nodup →
      (∀ s ∈ r, PMQuad n s) → (∀ s ∈ r, ∀ t, PMQuad n t → TypeEquiv ty (fam n s) (fam n t) → t ∈ r) →
      ∃ c, l.foldlM (fun result q => if q ∈ result then some result
        else (generateEquivalenceClass (equivalences ty) q).map fun c => (result ++ c).dedup) r = some c ∧ c.Nodup ∧
        ∀ t, t ∈ c ↔ t ∈ r ∨ PMQuad n t ∧ ∃ s ∈ l, TypeEquiv ty (fam n s) (fam n t) := by
    intro l
    induction l with
    | nil => intro r _ hr _ _; exact ⟨r, rfl, hr, by simp⟩
    | cons a l ih =>
      intro r hl hr hp hcl
      have ha := hl a (by simp)
      rw [List.foldlM_cons]
      by_cases hm : a ∈ r
      · rw [if_pos hm]
        obtain ⟨c, h1, h2, h3⟩ := ih r (fun s hs => hl s (by simp [hs])) hr hp hcl
        refine ⟨c, h1, h2, fun t => ?_⟩
        rw [h3]
        constructor
        · rintro (h | ⟨h, s, hs, he⟩)
          · exact .inl h
          · exact .inr ⟨h, s, by simp [hs], he⟩
        · rintro (h | ⟨h, s, hs, he⟩)
          · exact .inl h
          · rcases List.mem_cons.1 hs with rfl | hs
            · exact .inl (hcl s hm t h he)
            · exact .inr ⟨h, s, hs, he⟩
      · rw [if_neg hm]
        obtain ⟨c0, k1, k2, k3⟩ := C11_class_eq n hn ty a ha
        rw [k1]
        have hmem : ∀ t, t ∈ (r ++ c0).dedup ↔ t ∈ r ∨ PMQuad n t ∧ TypeEquiv ty (fam n a) (fam n t) := by
          intro t
          rw [List.mem_dedup, List.mem_append, k3]
        obtain ⟨c, h1, h2, h3⟩ := ih (r ++ c0).dedup (fun s hs => hl s (by simp [hs])) (List.nodup_dedup _)
          (fun s hs => by
            rcases (hmem s).1 hs with h | h
            · exact hp s h
            · exact h.1)
          (fun s hs t ht he => by
            rw [hmem]
            rcases (hmem s).1 hs with h | h
            · exact .inl (hcl s h t ht he)
            · exact .inr ⟨ht, (typeEquiv_equivalence n ty).trans h.2 he⟩)
        refine ⟨c, h1, h2, fun t => ?_⟩
        rw [h3, hmem]
        constructor
        · rintro ((h | ⟨h, he⟩) | ⟨h, s, hs, he⟩)
          · exact .inl h
          · exact .inr ⟨h, a, by simp, he⟩
          · exact .inr ⟨h, s, by simp [hs], he⟩
        · rintro (h | ⟨h, s, hs, he⟩)
          · exact .inl (.inl h)
          · rcases List.mem_cons.1 hs with rfl | hs
            · exact .inl (.inr ⟨h, he⟩)
            · exact .inr ⟨h, s, hs, he⟩
  obtain ⟨c, h1, h2, h3⟩ := key l [] hl List.nodup_nil (by simp) (by simp)
  exact ⟨c, h1, h2, fun t => by rw [h3]; simp⟩

/-- C69. The expanded list written for a result file of QT or Williamson-type sequences consists of the normalised
quaternionic Hadamard matrices of all sequences equivalent to one of them, each sequence once - for every iteration order
of the hash set. -/
theorem C69_write_all (n : ℕ) [NeZero n] (hn : n ≤ 100) (ty : SeqType) (hty : ty = .quaternionType ∨ ty = .williamsonType)
    (order : List QuadSeq → List QuadSeq) (ho : ∀ l, (order l).Perm l) (l : List QuadSeq) (hl : ∀ s ∈ l, OfType n ty s) :
    ∃ t seqs ps, resultText l = some t ∧ seqs.Nodup ∧
      (∀ s, s ∈ seqs ↔ PMQuad n s ∧ ∃ s0 ∈ l, TypeEquiv ty (fam n s0) (fam n s)) ∧
      List.Forall₂ (fun (s : QuadSeq) p => ∃ q m, s.toQs = some q ∧ Normalised n (qcyc n q.values) m ∧
        IsQHadamard (qmat n m.matrix) ∧ m.toString = some p) seqs ps ∧
      qhmWriteAll order ty t = some ((ps.map fun p => p ++ ['\n', '\n']).flatten) := by
  have hpm : ∀ s ∈ l, PMQuad n s := fun s hs => (verify_of_ofType (hl s hs)).1
  obtain ⟨t, h1, h2⟩ := resultText_spec (n := n) (l := l) hpm
  obtain ⟨c, k1, k2, k3⟩ := equivalent_fold hn ty l hpm
  have hmem : ∀ s, s ∈ order c ↔ PMQuad n s ∧ ∃ s0 ∈ l, TypeEquiv ty (fam n s0) (fam n s) := fun s => by
    rw [(ho c).mem_iff, k3]
  have hq : ∀ s ∈ order c, IsQTS n s := fun s hs => by
    obtain ⟨a, s0, b, e⟩ := (hmem s).1 hs
    exact (C04_isQTS_iff_isWTS n s).2 (verify_of_ofType (typeEquiv_ofType hty (hl s0 b) a e)).2.2
  have key : ∀ r : List QuadSeq, (∀ s ∈ r, IsQTS n s) → ∃ ps,
      List.Forall₂ (fun (s : QuadSeq) p => ∃ q m, s.toQs = some q ∧ Normalised n (qcyc n q.values) m ∧
        IsQHadamard (qmat n m.matrix) ∧ m.toString = some p) r ps ∧
      (r.mapM fun (seq : QuadSeq) => seq.toQs.bind fun qs => (QHM.fromPqs qs).dephased.toString.map fun s =>
        s ++ ['\n', '\n']) = some (ps.map fun p => p ++ ['\n', '\n']) := by
    intro r hr
    induction r with
    | nil => exact ⟨[], .nil, rfl⟩
    | cons s r ih =>
      obtain ⟨ps, a1, a2⟩ := ih fun s hs => hr s (by simp [hs])
      obtain ⟨q, p, c1, c2, c3, c4, c5, c6⟩ := normalised_of (hr s (by simp))
      refine ⟨p :: ps, .cons ⟨q, _, c1, c2, c4, c6⟩ a1, ?_⟩
      rw [List.mapM_cons, a2, c1, Option.bind_some, c3, c6]
      rfl
  obtain ⟨ps, a1, a2⟩ := key _ hq
  refine ⟨t, order c, ps, h1, (ho c).nodup_iff.2 k2, hmem, a1, ?_⟩
  unfold qhmWriteAll
  rw [mapM_some_iff.2 (h2.imp fun _ _ h => h.1), Option.bind_some, k1, Option.bind_some, a2]
  rfl

/-- A length 3 run. -/
example : OfType 3 .williamsonType exWS3 := isWTS_of_isWS exWS3_isWS

/-! ## C70: the check that all QT sequences are Williamson-type -/

/-- C70. The check succeeds exactly on files of non-empty QT sequences: its second assertion never fails after the first
one has passed. -/
theorem C70_check_iff (t : Text) : verifyQtsEqWts t = some () ↔
    ∀ line ∈ readLines t, ∃ (n : ℕ) (_ : NeZero n) (s : QuadSeq),
      (QS.fromStr line).bind QuadSeq.fromPqs = some s ∧ IsQTS n s := by
  unfold verifyQtsEqWts
  constructor
  · intro h line hline
    obtain ⟨l, hl, h⟩ := Option.bind_eq_some_iff.1 h
    split at h
    · rename_i hv
      have hf := mapM_some_iff.1 hl
      obtain ⟨i, hi, rfl⟩ := List.getElem_of_mem hline
      have hi' : i < l.length := by rw [← hf.length_eq]; exact hi
      have hs := hf.get hi hi'
      have := (List.all_eq_true.1 hv) l[i] (List.getElem_mem hi')
      simp only [Bool.and_eq_true, decide_eq_true_eq] at this
      obtain ⟨⟨h0, h1⟩, h2⟩ := this
      obtain ⟨p1, p2⟩ := parse_line hs
      simp only [List.get_eq_getElem] at p1 p2 hs
      have : NeZero (readLines t)[i].length := ⟨by rw [← p2]; exact h0⟩
      exact ⟨_, this, l[i], hs, (C08_verify_qts _ _ p1).1 h1⟩
    · cases h
  · intro h
    have hf : ∃ l, List.Forall₂ (fun line (s : QuadSeq) => (QS.fromStr line).bind QuadSeq.fromPqs = some s ∧
        ∃ (n : ℕ) (_ : NeZero n), IsQTS n s) (readLines t) l := by
      revert h
      generalize readLines t = lines
      intro h
      induction lines with
      | nil => exact ⟨[], .nil⟩
      | cons a lines ih =>
        obtain ⟨l, hl⟩ := ih fun x hx => h x (by simp [hx])
        obtain ⟨n, hn, s, h1, h2⟩ := h a (by simp)
        exact ⟨s :: l, .cons ⟨h1, n, hn, h2⟩ hl⟩
    obtain ⟨l, hl⟩ := hf
    rw [mapM_some_iff.2 (hl.imp fun _ _ h => h.1), Option.bind_some, if_pos]
    rw [List.all_eq_true]
    intro s hs
    obtain ⟨i, hi, rfl⟩ := List.getElem_of_mem hs
    have hi' : i < (readLines t).length := by rw [hl.length_eq]; exact hi
    obtain ⟨_, n, hn, hq⟩ := hl.get hi' hi
    simp only [List.get_eq_getElem] at hq
    have h1 := (C08_verify_qts n _ hq.1).2 hq
    have h2 := (C08_verify_wts n _ hq.1).2 ((C04_isQTS_iff_isWTS n _).1 hq)
    change QuadSeq.verifyWts _ = true at h2
    unfold QuadSeq.verifyWts at h2
    change QuadSeq.verifyQts _ = true at h1
    have h0 : (l[i]).size ≠ 0 := by rw [hq.1.size]; exact NeZero.ne n
    simp only [Bool.and_eq_true] at h2 ⊢
    exact ⟨⟨by simpa using h0, h1⟩, h2.2⟩

/-- C70. The check passes on the result of every enumeration of QT sequences. -/
theorem C70_result_file (n : ℕ) [NeZero n] (l : List QuadSeq) (hl : ∀ s ∈ l, IsQTS n s) :
    ∃ t, resultText l = some t ∧ verifyQtsEqWts t = some () := by
  obtain ⟨t, h1, h2⟩ := resultText_spec (n := n) (l := l) fun s hs => (hl s hs).1
  refine ⟨t, h1, (C70_check_iff t).2 fun line hline => ?_⟩
  obtain ⟨i, hi, rfl⟩ := List.getElem_of_mem hline
  have hi' : i < l.length := by rw [← h2.length_eq]; exact hi
  exact ⟨n, inferInstance, l[i], (h2.get hi hi').1, hl _ (List.getElem_mem hi')⟩

example : (resultText [exQTS5, exQTS5]).bind verifyQtsEqWts = some () := by decide +kernel
example : verifyQtsEqWts "+-+\n".toList = none := by decide +kernel

end Props
