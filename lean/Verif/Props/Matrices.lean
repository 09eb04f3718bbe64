import Verif.Proofs.Dephase
import Verif.Proofs.QHad
import Verif.Props.Sequences

/-!
# Properties C34 - C41: Hadamard matrices and quaternionic Hadamard matrices
-/

namespace Props
open Model Spec Proofs Proofs.Loops
open scoped Quaternion Matrix

/-! ## C34, C35: the matrix of a quadruple -/

/-- C34. The construction succeeds, gives a square ±1 matrix of size `4n`, and it is Hadamard iff the quadruple is a QT
sequence. -/
theorem C34_hadamard_iff_qts (n : ℕ) [NeZero n] (s : QuadSeq) (h : PMQuad n s) :
    ∃ m, HM.fromWilliamson s .quaternionType = some m ∧ m.size = 4 * n ∧ Square (4 * n) m.matrix ∧
      PMMat (zmat (4 * n) m.matrix) ∧ (IsHadamard (zmat (4 * n) m.matrix) ↔ IsQTS n s) ∧
      (IsHadamard (zmat (4 * n) m.matrix) ↔ IsWTS n s) := by
  obtain ⟨m, h1, h2, h3, h4⟩ := Hadamard.fromWilliamson_spec h
  have hw := Hadamard.hadamard_iff h h4
  refine ⟨m, h1, h2, h3, ?_, by rw [C04_isQTS_iff_isWTS]; exact hw, hw⟩
  intro i j
  obtain ⟨p, r, hr, hi⟩ := Hadamard.exists_block (n := n) i.2
  obtain ⟨q, c, hc, hj⟩ := Hadamard.exists_block (n := n) j.2
  have := h4 p q r c hr hc
  rw [← hi, ← hj] at this
  change get2 0 m.matrix i j = 1 ∨ get2 0 m.matrix i j = -1
  rw [this]
  exact Dephase.pm_mul (Hadamard.sgn_pm p q) (Hadamard.pm_cyc h _ _)

/-- C34. The code's two verifications agree: the matrix passes `HM::verify` iff the quadruple passes QT verification,
as long as the matrix has at most 255 rows. -/
theorem C34_verify_iff (n : ℕ) [NeZero n] (s : QuadSeq) (h : PMQuad n s) (hn : 4 * n ≤ 255) :
    ∃ m, HM.fromWilliamson s .quaternionType = some m ∧ (m.verify = true ↔ s.verify .quaternionType = true) := by
  obtain ⟨m, h1, h2, h3, h4, h5, -⟩ := C34_hadamard_iff_qts n s h
  refine ⟨m, h1, ?_⟩
  rw [C08_verify_qts n s h, ← h5, ← h2]
  exact Dephase.verify_hadamard (by rw [h2]; exact h4) (by rw [h2]; exact hn)

/-- C34. For the other two sequence types the construction panics, whatever the quadruple. -/
theorem C34_other_types_panic (s : QuadSeq) :
    HM.fromWilliamson s .williamson = none ∧ HM.fromWilliamson s .williamsonType = none := ⟨rfl, rfl⟩

example : PMQuad 5 exQTS5 ∧ exQTS5.verify .quaternionType = true ∧
    (HM.fromWilliamson exQTS5 .quaternionType).map HM.verify = some true :=
  ⟨exQTS5_pm, by decide, by decide +kernel⟩

/-- C35. -/
theorem C35_getQts_fromWilliamson (n : ℕ) [NeZero n] (s : QuadSeq) (h : PMQuad n s) :
    ∃ m, HM.fromWilliamson s .quaternionType = some m ∧ m.getQts = s := by
  obtain ⟨m, h1, h2, h3, h4⟩ := Hadamard.fromWilliamson_spec h
  exact ⟨m, h1, Hadamard.getQts_spec h h2 h4⟩

/-- C35. Different quadruples give different matrices. -/
theorem C35_injective (n k : ℕ) [NeZero n] [NeZero k] (s t : QuadSeq) (hs : PMQuad n s) (ht : PMQuad k t)
    (h : HM.fromWilliamson s .quaternionType = HM.fromWilliamson t .quaternionType) : s = t := by
  obtain ⟨m, h1, h2⟩ := C35_getQts_fromWilliamson n s hs
  obtain ⟨m', h3, h4⟩ := C35_getQts_fromWilliamson k t ht
  have : m = m' := Option.some.inj (by rw [← h1, ← h3, h])
  rw [← h2, ← h4, this]

example : (HM.fromWilliamson exQTS5 .quaternionType).map HM.getQts = some exQTS5 := by decide +kernel

/-! ## C36: verification -/

/-- C36. For ±1 matrices of size at most 255 verification decides the Hadamard property (with a wrapping `i8`
accumulator). -/
theorem C36_verify_iff (m : HM) (h : PMMat (zmat m.size m.matrix)) (hn : m.size ≤ 255) :
    m.verify = true ↔ IsHadamard (zmat m.size m.matrix) :=
  Dephase.verify_hadamard h hn

/-- C36. Up to size 127 no accumulator wraps: after every number of steps it holds the exact partial inner product, so
the checked and the wrapping arithmetic agree. -/
theorem C36_no_wrap (m : HM) (h : PMMat (zmat m.size m.matrix)) (hn : m.size ≤ 127) (i j k : ℕ) (hi : i < m.size)
    (hj : j < m.size) (hk : k ≤ m.size) :
    HM.innerProduct k (m.row i) (m.row j) = ∑ l ∈ Finset.range k, m.get i l * m.get j l ∧
      |∑ l ∈ Finset.range k, m.get i l * m.get j l| ≤ 127 := by
  have hb : |∑ l ∈ Finset.range k, m.get i l * m.get j l| ≤ k :=
    Dephase.abs_sum_le _ _ _ (fun l hl => Dephase.pm_get h hi (by omega)) (fun l hl => Dephase.pm_get h hj (by omega))
  have hk' : (k : ℤ) ≤ 127 := by exact_mod_cast hk.trans hn
  refine ⟨?_, hb.trans hk'⟩
  rw [Dephase.inner_eq]
  have := abs_le.1 hb
  exact Dephase.wrap8_small (by
    change -128 ≤ ∑ l ∈ Finset.range k, m.get i l * m.get j l; omega) (by
    change ∑ l ∈ Finset.range k, m.get i l * m.get j l ≤ 127; omega)

/-- C36. What verification decides in general: inner products that are multiples of 256, for every matrix. -/
theorem C36_verify_mod (m : HM) : m.verify = true ↔
    ∀ i j, i < j → j < m.size → (256 : ℤ) ∣ ∑ k ∈ Finset.range m.size, m.get i k * m.get j k :=
  Dephase.verify_iff m

/-- C36. At size 256 the accumulator wraps: the all-ones matrix is accepted and is not Hadamard. -/
theorem C36_wraps : (HM.new 256).verify = true ∧ PMMat (zmat 256 (HM.new 256).matrix) ∧
    ¬ IsHadamard (zmat 256 (HM.new 256).matrix) := by
  have hg : ∀ i j, i < 256 → j < 256 → get2 0 (HM.new 256).matrix i j = 1 := fun i j hi hj =>
    get2_replicate 256 1 0 hi hj
  refine ⟨?_, fun i j => .inl (hg i j i.2 j.2), ?_⟩
  · rw [C36_verify_mod]
    intro i j hij hj
    change j < 256 at hj
    have e : ∑ k ∈ Finset.range 256, (HM.new 256).get i k * (HM.new 256).get j k = 256 := by
      rw [Finset.sum_congr rfl fun k hk => by
        rw [show (HM.new 256).get i k = 1 from hg i k (by omega) (Finset.mem_range.1 hk),
          show (HM.new 256).get j k = 1 from hg j k (by omega) (Finset.mem_range.1 hk)]]
      simp
    change (256 : ℤ) ∣ ∑ k ∈ Finset.range 256, (HM.new 256).get i k * (HM.new 256).get j k
    rw [e]
  · rintro ⟨_, h⟩
    have := (Hadamard.zmat_hadamard 256 _).1 h 0 1 (by omega) (by omega)
    rw [Finset.sum_congr rfl fun k hk => by
      rw [hg 0 k (by omega) (Finset.mem_range.1 hk), hg 1 k (by omega) (Finset.mem_range.1 hk)]] at this
    simp at this

/-- A Hadamard matrix of size 4 whose first row is not constant. -/
def exHM4 : HM :=
  { size := 4, matrix := [[-1, 1, 1, 1], [1, -1, 1, 1], [1, 1, -1, 1], [1, 1, 1, -1]] }

example : PMMat (zmat 4 exHM4.matrix) ∧ Square 4 exHM4.matrix ∧ exHM4.verify = true := by decide +kernel
example : ({ exHM4 with matrix := [[1, 1, 1, 1], [1, -1, 1, 1], [1, 1, -1, 1], [1, 1, 1, -1]] } : HM).verify = false := by
  decide +kernel

/-! ## C37, C38: normalisation -/

/-- C37. In-place normalisation: first row and column all ones, still square with entries ±1, and Hadamard if the matrix
was. Every entry is the old one times one sign per row and one sign per column. -/
theorem C37_dephase (m : HM) (hs : Square m.size m.matrix) (h : PMMat (zmat m.size m.matrix)) :
    m.dephase.size = m.size ∧ Square m.size m.dephase.matrix ∧ PMMat (zmat m.size m.dephase.matrix) ∧
      (∀ i < m.size, m.dephase.get 0 i = 1 ∧ m.dephase.get i 0 = 1) ∧
      (∃ a b : ℕ → ℤ, (∀ i < m.size, (a i = 1 ∨ a i = -1) ∧ (b i = 1 ∨ b i = -1)) ∧
        ∀ i j, i < m.size → j < m.size → m.dephase.get i j = a i * m.get i j * b j) ∧
      (IsHadamard (zmat m.size m.matrix) ↔ IsHadamard (zmat m.size m.dephase.matrix)) := by
  obtain ⟨h1, h2, h3⟩ := Dephase.dephase_spec hs h
  have hpm : ∀ {i j}, i < m.size → j < m.size → m.get i j = 1 ∨ m.get i j = -1 := fun hi hj => Dephase.pm_get h hi hj
  have ha : ∀ i < m.size, m.get 0 0 * m.get i 0 = 1 ∨ m.get 0 0 * m.get i 0 = -1 := fun i hi =>
    Dephase.pm_mul (hpm (by omega) (by omega)) (hpm hi (by omega))
  have hb : ∀ i < m.size, m.get 0 i = 1 ∨ m.get 0 i = -1 := fun i hi => hpm (by omega) hi
  refine ⟨h1, h2, ?_, ?_, ⟨fun i => m.get 0 0 * m.get i 0, fun i => m.get 0 i, fun i hi => ⟨ha i hi, hb i hi⟩, ?_⟩, ?_⟩
  · intro i j
    change get2 0 m.dephase.matrix i j = 1 ∨ get2 0 m.dephase.matrix i j = -1
    rw [h3 i j i.2 j.2]
    exact Dephase.pm_mul (ha i i.2) (Dephase.pm_mul (hb j j.2) (hpm i.2 j.2))
  · intro i hi
    have h0 : 0 < m.size := by omega
    constructor
    · change get2 0 m.dephase.matrix 0 i = 1
      rw [h3 0 i h0 hi]
      change m.get 0 0 * m.get 0 0 * (m.get 0 i * m.get 0 i) = 1
      rw [Dephase.pm_sq (hpm h0 h0), Dephase.pm_sq (hpm h0 hi)]; norm_num
    · change get2 0 m.dephase.matrix i 0 = 1
      rw [h3 i 0 hi h0]
      change m.get 0 0 * m.get i 0 * (m.get 0 0 * m.get i 0) = 1
      exact Dephase.pm_sq (ha i hi)
  · intro i j hi hj
    change get2 0 m.dephase.matrix i j = _
    rw [h3 i j hi hj]
    change m.get 0 0 * m.get i 0 * (m.get 0 j * m.get i j) = _
    ring
  · constructor
    · exact Dephase.hadamard_signs (fun i => m.get 0 0 * m.get i 0) (fun i => m.get 0 i) ha hb h3
    · refine Dephase.hadamard_signs (fun i => m.get 0 0 * m.get i 0) (fun i => m.get 0 i) ha hb fun r c hr hc => ?_
      rw [h3 r c hr hc]
      change m.get r c = m.get 0 0 * m.get r 0 * (m.get 0 c * (m.get 0 0 * m.get r 0 * (m.get 0 c * m.get r c)))
      have e1 := Dephase.pm_sq (ha r hr)
      have e2 := Dephase.pm_sq (hb c hc)
      linear_combination (-(m.get r c * m.get 0 c * m.get 0 c)) * e1 - m.get r c * e2

example : exHM4.dephase.matrix = [[1, 1, 1, 1], [1, 1, -1, -1], [1, -1, 1, -1], [1, -1, -1, 1]] := by decide +kernel

/-- C38 is false: the copying version undoes its first step, so the first row is not all ones. -/
theorem C38_dephased_differs : Square exHM4.size exHM4.matrix ∧ IsHadamard (zmat 4 exHM4.matrix) ∧
    exHM4.dephased ≠ exHM4.dephase ∧ exHM4.dephased.get 0 1 = -1 := by
  refine ⟨by decide, by decide +kernel, by decide +kernel, by decide +kernel⟩

/-- C38, what holds (`_partial`: the full claim, equality with the in-place version for every ±1 matrix, is false): the
copy has every row multiplied by its first entry, so its first column is all ones and Hadamard matrices stay Hadamard; it
equals the in-place version exactly when the first row of the matrix is constant. -/
theorem C38_dephased_partial (m : HM) (hs : Square m.size m.matrix) (h : PMMat (zmat m.size m.matrix)) :
    m.dephased.size = m.size ∧ Square m.size m.dephased.matrix ∧
      (∀ i j, i < m.size → j < m.size → m.dephased.get i j = m.get i 0 * m.get i j) ∧
      (∀ i < m.size, m.dephased.get i 0 = 1) ∧
      (IsHadamard (zmat m.size m.matrix) → IsHadamard (zmat m.size m.dephased.matrix)) ∧
      (m.dephased = m.dephase ↔ ∀ j < m.size, m.get 0 j = m.get 0 0) := by
  obtain ⟨h1, h2, h3⟩ := Dephase.dephase_spec hs h
  obtain ⟨g1, g2, g3⟩ := Dephase.dephased_spec h
  have hpm : ∀ {i j}, i < m.size → j < m.size → m.get i j = 1 ∨ m.get i j = -1 := fun hi hj => Dephase.pm_get h hi hj
  refine ⟨g1, g2, g3, fun i hi => ?_, ?_, ?_⟩
  · change get2 0 m.dephased.matrix i 0 = 1
    rw [g3 i 0 hi (by omega)]
    exact Dephase.pm_sq (hpm hi (by omega))
  · refine Dephase.hadamard_signs (fun i => m.get i 0) (fun _ => 1) (fun i hi => hpm hi (by omega)) (fun _ _ => .inl rfl)
      fun r c hr hc => ?_
    rw [g3 r c hr hc, one_mul]
    rfl
  · constructor
    · intro e j hj
      have h0 : 0 < m.size := by omega
      have a1 := g3 0 j h0 hj
      rw [e, h3 0 j h0 hj] at a1
      change m.get 0 0 * m.get 0 0 * (m.get 0 j * m.get 0 j) = m.get 0 0 * m.get 0 j at a1
      rcases hpm h0 h0 with e1 | e1 <;> rcases hpm h0 hj with e2 | e2 <;> rw [e1, e2] at a1 ⊢ <;> norm_num at a1
    · intro e
      have : m.dephased.matrix = m.dephase.matrix := by
        refine shape_ext g2 h2 0 fun r c hr hc => ?_
        have h0 : 0 < m.size := by omega
        rw [g3 r c hr hc, h3 r c hr hc]
        change m.get r 0 * m.get r c = m.get 0 0 * m.get r 0 * (m.get 0 c * m.get r c)
        rw [e c hc]
        linear_combination (-(m.get r 0 * m.get r c)) * Dephase.pm_sq (hpm h0 h0)
      cases hd : m.dephased; cases hd' : m.dephase
      rw [hd] at this g1; rw [hd'] at this h1
      simp only at this g1 h1
      rw [this, g1, h1]

/-! ## C39 - C41: quaternionic matrices -/

/-- C39. The circulant matrix of a sequence over the 24-element alphabet is a quaternionic Hadamard matrix iff the
sequence is perfect, and iff it passes verification. -/
theorem C39_fromPqs (n : ℕ) [NeZero n] (q : QS) (hs : q.size = n) (hl : q.values.length = n)
    (hq : ∀ x ∈ q.values, x ∈ Q24) :
    (QHM.fromPqs q).size = n ∧ Square n (QHM.fromPqs q).matrix ∧
      (IsQHadamard (qmat n (QHM.fromPqs q).matrix) ↔ Perfect (qcyc n q.values)) ∧
      ((QHM.fromPqs q).verify = true ↔ Perfect (qcyc n q.values)) ∧
      ((QHM.fromPqs q).verify = q.isPerfect) := by
  have h24 := QHad.fromPqs_in24 hs hl hq
  have hsz : (QHM.fromPqs q).size = n := hs
  have hv : (QHM.fromPqs q).verify = true ↔ Perfect (qcyc n q.values) := by
    rw [QHad.verify_iff (by rw [hsz]; exact h24), QHad.qmat_iff, ← QHad.fromPqs_perfect hs hl hq, hsz]
  refine ⟨hsz, ?_, ?_, hv, ?_⟩
  · have := shape_map n (fun row col => q.values.getD ((col + n - row) % n) Q0)
    unfold QHM.fromPqs
    simp only [hs]
    exact this
  · unfold IsQHadamard
    rw [QHad.qmat_iff, QHad.fromPqs_perfect hs hl hq]
    refine ⟨fun h => h.2, fun h => ⟨fun i j => (QHad.q24_star (h24 i j i.2 j.2)).1, h⟩⟩
  · rw [Bool.eq_iff_iff, hv, C01_isPerfect_iff n q hs hl]

/-- C39. Verification of any matrix over the alphabet decides `M M* = n I`; the tolerance makes no difference. -/
theorem C39_verify_iff (m : QHM) (h : ∀ i j, i < m.size → j < m.size → m.get i j ∈ Q24) :
    m.verify = true ↔ IsQHadamard (qmat m.size m.matrix) := by
  rw [QHad.verify_iff h]
  exact ⟨fun H => ⟨fun i j => (QHad.q24_star (h i j i.2 j.2)).1, H⟩, fun H => H.2⟩

/-- C39 for QT sequences: the quaternion matrix of the converted sequence passes verification iff the quadruple does. -/
theorem C39_quad (n : ℕ) [NeZero n] (s : QuadSeq) (h : PMQuad n s) :
    ∃ q, s.toQs = some q ∧ ((QHM.fromPqs q).verify = true ↔ s.verify .quaternionType = true) := by
  obtain ⟨q, h1, h2⟩ := C03_verifyQts_iff_isPerfect n s h
  have hq := toQs_eq h
  rw [h1] at hq
  have hq := Option.some.inj hq
  have hs : q.size = n := by rw [hq]
  have hl : q.values.length = n := by rw [hq]; simp
  have h24 : ∀ x ∈ q.values, x ∈ Q24 := by
    rw [hq]
    intro x hx
    obtain ⟨i, hi, rfl⟩ := List.mem_map.1 hx
    have hi := List.mem_range.1 hi
    have : ∀ a ∈ [(1 : ℤ), -1], ∀ b ∈ [(1 : ℤ), -1], ∀ c ∈ [(1 : ℤ), -1], ∀ d ∈ [(1 : ℤ), -1],
        linQuat (a, b, c, d) ∈ Q24 := by decide +kernel
    have pm : ∀ {l : List ℤ}, PMSeq n l → at0 l i ∈ [(1 : ℤ), -1] := by
      intro l hl
      have := at0_pm hl.2 (i := i) (by rw [hl.1]; exact hi)
      simpa using this
    exact this _ (pm h.a) _ (pm h.b) _ (pm h.c) _ (pm h.d)
  refine ⟨q, h1, ?_⟩
  rw [(C39_fromPqs n q hs hl h24).2.2.2.2, ← h2]
  rfl

/-- A perfect sequence of length 5 and a sequence that is not perfect. -/
def exQS5 : QS := { size := 5, values := [Q1, -QQ, QQ * QI, QQ * QI, -QQ], symmetry := none }

example : exQS5.size = 5 ∧ exQS5.values.length = 5 ∧ (∀ x ∈ exQS5.values, x ∈ Q24) ∧
    (QHM.fromPqs exQS5).verify = true := by decide +kernel
example : (QHM.fromPqs { size := 3, values := [Q1, QI, QJ], symmetry := none }).verify = false := by decide +kernel

/-- C40. Normalising a matrix over the alphabet: first row and column all ones, entries stay in the alphabet, printing
cannot panic, `M M* = n I` is kept, and both versions agree. -/
theorem C40_dephase (m : QHM) (hs : Square m.size m.matrix)
    (h : ∀ i j, i < m.size → j < m.size → m.get i j ∈ Q24) :
    m.dephased = m.dephase ∧ m.dephase.size = m.size ∧ Square m.size m.dephase.matrix ∧
      (∀ i < m.size, m.dephase.get 0 i = Q1 ∧ m.dephase.get i 0 = Q1) ∧
      (∀ i j, i < m.size → j < m.size → m.dephase.get i j ∈ Q24) ∧ m.dephase.toString.isSome ∧
      (IsQHadamard (qmat m.size m.matrix) → IsQHadamard (qmat m.size m.dephase.matrix)) := by
  obtain ⟨h1, h2, h3⟩ := QHad.dephase_spec hs
  obtain ⟨g1, g2, g3⟩ := QHad.dephased_spec m
  have h24 : QHad.In24 m.size m.matrix := h
  have hd : QHad.In24 m.size m.dephase.matrix := by
    intro i j hi hj
    rw [h3 i j hi hj]
    exact QHad.deph_in24 h24 hi hj
  refine ⟨?_, h1, h2, fun i hi => ⟨?_, ?_⟩, hd, QHad.toString_isSome (by rw [h1]; exact hd), ?_⟩
  · have : m.dephased.matrix = m.dephase.matrix :=
      shape_ext g2 h2 Q0 fun r c hr hc => by rw [g3 r c hr hc, h3 r c hr hc]
    cases hd : m.dephased; cases hd' : m.dephase
    rw [hd] at this g1; rw [hd'] at this h1
    simp only at this g1 h1
    rw [this, g1, h1]
  · exact (h3 0 i (by omega) hi).trans (QHad.deph_row h24 hi)
  · exact (h3 i 0 hi (by omega)).trans (QHad.deph_col h24 hi)
  · rintro ⟨_, hg⟩
    refine ⟨fun i j => (QHad.q24_star (hd i j i.2 j.2)).1, ?_⟩
    rw [QHad.qmat_iff] at hg ⊢
    exact QHad.deph_gram h24 h3 hg

/-- C40, converse: every entry is a unit of the alphabet times the old entry times a unit, one per row and one per column;
together with `C40_dephase` the normalised matrix is an equivalent quaternionic Hadamard matrix. -/
theorem C40_dephase_entries (m : QHM) (hs : Square m.size m.matrix)
    (h : ∀ i j, i < m.size → j < m.size → m.get i j ∈ Q24) :
    ∃ d e : ℕ → ℍ[ℚ], (∀ i < m.size, d i * star (d i) = 1 ∧ e i * star (e i) = 1) ∧
      ∀ i j, i < m.size → j < m.size → toH (m.dephase.get i j) = d i * (toH (m.get i j) * e j) := by
  obtain ⟨h1, h2, h3⟩ := QHad.dephase_spec hs
  refine ⟨fun r => toH (m.get r 0 * (m.get 0 0).conj).conj, fun c => toH (m.get 0 c).conj, fun i hi => ⟨?_, ?_⟩, ?_⟩
  · have h0 : 0 < m.size := by omega
    exact (QHad.q24_star (QHad.q24_conj _ (QHad.q24_mul _ (h i 0 hi h0) _ (QHad.q24_conj _ (h 0 0 h0 h0))))).1
  · have h0 : 0 < m.size := by omega
    exact (QHad.q24_star (QHad.q24_conj _ (h 0 i h0 hi))).1
  · intro i j hi hj
    change toH (get2 Q0 m.dephase.matrix i j) = _
    rw [h3 i j hi hj]
    unfold QHad.deph
    simp only [toH_mul]
    rfl

example : Square 5 (QHM.fromPqs exQS5).matrix ∧ (∀ i < 5, ∀ j < 5, (QHM.fromPqs exQS5).get i j ∈ Q24) ∧
    (QHM.fromPqs exQS5).dephase.verify = true := by decide +kernel

/-- C41. -/
theorem C41_containsNonCommuting_iff (m : QHM) : m.containsNonCommutingElements = true ↔
    ∃ i j k l, 1 ≤ i ∧ i < m.size ∧ 1 ≤ j ∧ j < m.size ∧ 1 ≤ k ∧ k < m.size ∧ 1 ≤ l ∧ l < m.size ∧
      toH (m.get i j) * toH (m.get k l) ≠ toH (m.get k l) * toH (m.get i j) := by
  rw [QHad.contains_iff]
  simp only [← toH_mul, ne_eq, toH_inj]

example : (QHM.fromPqs exQS5).dephase.containsNonCommutingElements = true := by decide +kernel
example : ({ size := 3, matrix := [[QI, QJ, QK], [QJ, QI, QI], [QK, Q1, QI]] } : QHM).containsNonCommutingElements = false := by
  decide +kernel

end Props
