import Verif.Proofs.Codec

/-!
# Properties C01 - C08: perfection, verification, conversion, encoding
-/

namespace Props
open Model Spec Proofs
open scoped Quaternion

/-- A QT sequence of length 5 that is not symmetric; used to show hypotheses are met. -/
def exQTS5 : QuadSeq :=
  { size := 5, a := [-1, -1, 1, -1, 1], b := [-1, -1, -1, 1, -1], c := [-1, -1, -1, 1, -1],
    d := [-1, -1, 1, 1, 1] }

theorem exQTS5_pm : PMQuad 5 exQTS5 :=
  by decide

/-- A Williamson sequence of length 3. -/
def exWS3 : QuadSeq :=
  { size := 3, a := [-1, -1, -1], b := [-1, 1, 1], c := [-1, 1, 1], d := [-1, 1, 1] }

theorem exWS3_pm : PMQuad 3 exWS3 :=
  by decide

/-! ## C01, C02: the perfection tests -/

/-- C01. The half-range test accepts exactly the perfect sequences (any length `n ≥ 1`). -/
theorem C01_isPerfect_iff (n : ℕ) [NeZero n] (q : QS) (hs : q.size = n) (_hl : q.values.length = n) :
    q.isPerfect = true ↔ Perfect (qcyc n q.values) :=
  isPerfect_iff q hs

/-- C01, the empty sequence: accepted, and there is no nonzero shift. -/
theorem C01_isPerfect_empty (q : QS) (hs : q.size = 0) : q.isPerfect = true := by
  unfold QS.isPerfect; simp [hs]

example : (QS.fromStr "+QxxQ".toList).map QS.isPerfect = some true := by decide +kernel
example : (QS.fromStr "++iQi".toList).map QS.isPerfect = some true := by decide +kernel
example : (QS.fromStr "++iQx".toList).map QS.isPerfect = some false := by decide +kernel

/-- C02. The half-range test accepts exactly the odd-perfect sequences. -/
theorem C02_isOddPerfect_iff (n : ℕ) [NeZero n] (q : QS) (hs : q.size = n) (_hl : q.values.length = n) :
    q.isOddPerfect = true ↔ OddPerfect n q.values :=
  isOddPerfect_iff q hs

example : (QS.fromStr "+-Q".toList).map QS.isOddPerfect = some true := by decide +kernel
example : (QS.fromStr "+-q".toList).map QS.isOddPerfect = some false := by decide +kernel

/-! ## C03: QT verification is perfection -/

/-- C03. A ±1 quadruple converts to a quaternion sequence, and it passes QT verification iff that sequence
passes the perfection test. -/
theorem C03_verifyQts_iff_isPerfect (n : ℕ) [NeZero n] (s : QuadSeq) (h : PMQuad n s) :
    ∃ q, s.toQs = some q ∧ (s.verifyQts = true ↔ q.isPerfect = true) := by
  refine ⟨_, toQs_eq h, ?_⟩
  rw [isPerfect_iff (n := n) _ rfl]
  have : qcyc n ((List.range n).map fun i => linQuat (s.values i)) =
      fun x => toH (linQuat (cyc n s.a x, cyc n s.b x, cyc n s.c x, cyc n s.d x)) := by
    funext x; exact qcyc_toQs s x
  simp only [this, perfect_iff]
  unfold QuadSeq.verifyQts
  rw [Bool.and_eq_true, isPeriodicComplementary_iff h, verifyCrossCorrelation_iff h]

/-- C03 in mathematical terms: a ±1 quadruple is a QT sequence iff its quaternion sequence is perfect. -/
theorem C03_isQTS_iff_perfect (n : ℕ) [NeZero n] (s : QuadSeq) (h : PMQuad n s) :
    ∃ q, s.toQs = some q ∧ (IsQTS n s ↔ Perfect (qcyc n q.values)) := by
  refine ⟨_, toQs_eq h, ?_⟩
  have : qcyc n ((List.range n).map fun i => linQuat (s.values i)) =
      fun x => toH (linQuat (cyc n s.a x, cyc n s.b x, cyc n s.c x, cyc n s.d x)) := by
    funext x; exact qcyc_toQs s x
  simp only [this, perfect_iff]
  exact ⟨fun H => H.2, fun H => ⟨h, H⟩⟩

example : PMQuad 5 exQTS5 ∧ exQTS5.verifyQts = true := ⟨exQTS5_pm, by decide⟩

/-! ## C08: verification decides the definitions -/

/-- C08, quaternion type. -/
theorem C08_verify_qts (n : ℕ) [NeZero n] (s : QuadSeq) (h : PMQuad n s) :
    s.verify .quaternionType = true ↔ IsQTS n s := by
  change s.verifyQts = true ↔ _
  unfold QuadSeq.verifyQts IsQTS
  rw [Bool.and_eq_true, isPeriodicComplementary_iff h, verifyCrossCorrelation_iff h]
  simp [h]

/-- C08, Williamson type. -/
theorem C08_verify_wts (n : ℕ) [NeZero n] (s : QuadSeq) (h : PMQuad n s) :
    s.verify .williamsonType = true ↔ IsWTS n s := by
  change s.verifyWts = true ↔ _
  unfold QuadSeq.verifyWts IsWTS
  rw [Bool.and_eq_true, isPeriodicComplementary_iff h, isAmicable_iff h]
  simp [h]

/-- C08, Williamson. -/
theorem C08_verify_ws (n : ℕ) [NeZero n] (s : QuadSeq) (h : PMQuad n s) :
    s.verify .williamson = true ↔ IsWS n s := by
  change s.verifyWs = true ↔ _
  unfold QuadSeq.verifyWs IsWS
  rw [Bool.and_eq_true, isPeriodicComplementary_iff h, isSymmetric_iff h]
  simp [h]

example : exQTS5.verify .quaternionType = true ∧ exQTS5.verify .williamsonType = true ∧
    exQTS5.verify .williamson = false ∧ exWS3.verify .williamson = true := by decide

/-! ## C04: QT sequences and Williamson-type sequences coincide -/

/-- C04. The weak condition is amicability, for arbitrary integer sequences of any length. -/
theorem C04_qtCross_iff_amicable (n : ℕ) [NeZero n] (a b c d : ZMod n → ℤ) :
    QTCross a b c d ↔ PairwiseAmicable a b c d :=
  Amicable.qtcross_iff a b c d

/-- C04. The two verifications accept the same ±1 quadruples, and the two cross-correlation checks agree. -/
theorem C04_verify_qts_eq_wts (n : ℕ) [NeZero n] (s : QuadSeq) (h : PMQuad n s) :
    s.verify .quaternionType = s.verify .williamsonType ∧ s.verifyCrossCorrelation = s.isAmicable := by
  have h2 : s.verifyCrossCorrelation = s.isAmicable := by
    rw [Bool.eq_iff_iff, verifyCrossCorrelation_iff h, isAmicable_iff h, Amicable.qtcross_iff]
  refine ⟨?_, h2⟩
  change s.verifyQts = s.verifyWts
  unfold QuadSeq.verifyQts QuadSeq.verifyWts
  rw [h2]

/-- The check of the `amicable` command on the sequences of a file, `main.rs:268-289`: every sequence must
have equal results of both checks. -/
theorem C04_isQTS_iff_isWTS (n : ℕ) [NeZero n] (s : QuadSeq) : IsQTS n s ↔ IsWTS n s := by
  unfold IsQTS IsWTS; rw [Amicable.qtcross_iff]

example : exQTS5.verifyCrossCorrelation = true ∧ exQTS5.isSymmetric = false := by decide

/-! ## C05: Williamson sequences are Williamson-type and QT -/

/-- C05. -/
theorem C05_ws_is_wts (n : ℕ) [NeZero n] (s : QuadSeq) (h : PMQuad n s)
    (hv : s.verify .williamson = true) :
    s.verify .williamsonType = true ∧ s.verify .quaternionType = true := by
  have hw : s.verify .williamsonType = true := by
    rw [C08_verify_wts n s h]
    obtain ⟨_, hc, ha, hb, hc', hd⟩ := (C08_verify_ws n s h).1 hv
    exact ⟨h, hc, amicable_of_symm ha hb, amicable_of_symm ha hc', amicable_of_symm ha hd,
      amicable_of_symm hb hc', amicable_of_symm hb hd, amicable_of_symm hc' hd⟩
  exact ⟨hw, by rw [(C04_verify_qts_eq_wts n s h).1, hw]⟩

example : PMQuad 3 exWS3 ∧ exWS3.verify .williamson = true := ⟨exWS3_pm, by decide⟩

/-! ## C06: lossless conversion -/

/-- C06. Every ±1 quadruple converts to a sequence over the 16 quaternions and back to itself. -/
theorem C06_quad_roundtrip (n : ℕ) (s : QuadSeq) (h : PMQuad n s) :
    ∃ q, s.toQs = some q ∧ q.size = n ∧ q.values.length = n ∧ (∀ v ∈ q.values, v ∈ QPLUS) ∧
      QuadSeq.fromPqs q = some s := by
  refine ⟨_, toQs_eq h, rfl, by simp, ?_, fromPqs_toQs h⟩
  intro v hv
  obtain ⟨i, hi, rfl⟩ := List.mem_map.1 hv
  exact table_mem _ ((pm4_iff_mem _).1 (values_pm4 h (List.mem_range.1 hi)))

/-- C06. Every sequence over the 16 quaternions converts to a ±1 quadruple and back to itself. -/
theorem C06_qs_roundtrip (q : QS) (hl : q.values.length = q.size) (hp : ∀ v ∈ q.values, v ∈ QPLUS)
    (hsym : q.symmetry = none) :
    ∃ s, QuadSeq.fromPqs q = some s ∧ PMQuad q.size s ∧ s.toQs = some q := by
  obtain ⟨s, h1, h2, h3⟩ := toQs_fromPqs hl hp
  refine ⟨s, h1, h2, ?_⟩
  rw [h3, ← hsym]

/-- C06. The conversion to a quadruple panics exactly on sequences with an entry outside the 16 quaternions. -/
theorem C06_fromPqs_panics (q : QS) : QuadSeq.fromPqs q = none ↔ ∃ v ∈ q.values, v ∉ QPLUS :=
  fromPqs_none

/-- C06. The conversion to a quaternion sequence panics exactly if some position is not a ±1 quadruple. -/
theorem C06_toQs_panics (s : QuadSeq) : s.toQs = none ↔ ∃ i < s.size, ¬ PM4 (s.values i) := by
  constructor
  · intro h
    by_contra hc
    push Not at hc
    have := fold_setValue s.size (fun i => QuadSeq.quadToQuat (s.values i)) (fun i => linQuat (s.values i))
      s.size le_rfl fun i hi => table_lin _ ((pm4_iff_mem _).1 (hc i hi))
    unfold QuadSeq.toQs at h
    rw [this] at h
    simp at h
  · rintro ⟨i, hi, hv⟩
    exact fold_setValue_none s.size (fun i => QuadSeq.quadToQuat (s.values i)) s.size le_rfl
      ⟨i, hi, quadToQuat_none hv⟩

example : (exQTS5.toQs.bind QS.toStringRaw) = some "++iQi".toList := by decide +kernel
example : QuadSeq.fromPqs { size := 1, values := [QSc], symmetry := none } = none := by decide +kernel

/-! ## C07: text encoding of quaternion sequences -/

/-- C07. Printing a sequence over the 24-element alphabet never panics and reading the text gives it back. -/
theorem C07_print_read (q : QS) (hl : q.values.length = q.size) (hp : ∀ v ∈ q.values, v ∈ Q24) :
    ∃ str, q.toStringRaw = some str ∧ QS.fromStr str = some { q with symmetry := none } := by
  obtain ⟨m, h1, h2, h3⟩ := mapM_roundtrip (f := quaternionToString) (g := QS.charToQuat) (l := q.values)
    fun x hx => let ⟨c, _, h1, h2⟩ := q24_char x (hp x hx); ⟨c, h1, h2⟩
  refine ⟨m, h1, ?_⟩
  unfold QS.fromStr
  rw [h2, Option.map_some, h3, hl]

/-- C07. Reading a text over the alphabet and printing it gives the text back. -/
theorem C07_read_print (str : List Char) (hp : ∀ c ∈ str, c ∈ Q24_STRING) :
    ∃ q, QS.fromStr str = some q ∧ q.size = str.length ∧ q.values.length = str.length ∧
      (∀ v ∈ q.values, v ∈ Q24) ∧ q.toStringRaw = some str := by
  obtain ⟨m, h1, h2, h3⟩ := mapM_roundtrip (f := QS.charToQuat) (g := quaternionToString) (l := str)
    fun x hx => let ⟨c, _, h1, h2⟩ := char_q24 x (hp x hx); ⟨c, h1, h2⟩
  refine ⟨{ size := str.length, values := m, symmetry := none }, ?_, rfl, h3, ?_, h2⟩
  · unfold QS.fromStr; rw [h1]; rfl
  · intro v hv
    by_contra hc
    have : m.mapM quaternionToString = none := mapM_eq_none.2 ⟨v, hv, quaternionToString_none.2 hc⟩
    rw [this] at h2; simp at h2

/-- C07. Reading panics exactly on texts with a character outside the alphabet. -/
theorem C07_read_panics (str : List Char) : QS.fromStr str = none ↔ ∃ c ∈ str, c ∉ Q24_STRING := by
  unfold QS.fromStr
  rw [Option.map_eq_none_iff, mapM_eq_none]
  simp only [charToQuat_none]

/-- C07. Printing panics exactly on sequences with an entry outside the alphabet. -/
theorem C07_print_panics (q : QS) : q.toStringRaw = none ↔ ∃ v ∈ q.values, v ∉ Q24 := by
  unfold QS.toStringRaw
  rw [mapM_eq_none]
  simp only [quaternionToString_none]

example : (QS.fromStr "+-iIjJkKqQxXyYzZsSuUvVwW".toList).bind QS.toStringRaw =
    some "+-iIjJkKqQxXyYzZsSuUvVwW".toList := by decide +kernel
example : QS.fromStr "+a".toList = none := by decide +kernel

end Props
