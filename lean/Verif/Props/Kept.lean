import Verif.Proofs.Kept
import Verif.Props.Driver
import Verif.Props.FastTransform

/-!
# Property C107: what is lost if the filter discards pairs of solutions
-/

set_option linter.unusedVariables false

namespace Props
open Model Spec Proofs Proofs.Store Proofs.Program Proofs.Driver Proofs.Command Proofs.Stages Proofs.Scripts

/-- C107. In every arithmetic whose keys are good enough, whatever its filter does, the join of a directory finds exactly
the sequences of the type with the row sums of the directory both of whose pairs are kept by the filter. -/
theorem C107_directory {K : Type} (A : Fl K) (val : K → ℝ) (n : ℕ) [NeZero n] {mo : MatchOption}
    (hN : KeyNumerics A val n mo) (hn : n < 64) (ty : SeqType) (hty : Supported ty) (rs : Quad)
    (hrs : rs.1 ^ 2 + rs.2.1 ^ 2 + rs.2.2.1 ^ 2 + rs.2.2.2 ^ 2 = 4 * n) (pr : Option Pairing) :
    ∃ d0, writePairsRowsum A ty rs n mo pr = some d0 ∧ ∀ d, d.Perm (sortDir d0) →
      ∃ r, joinDir ty d = some r ∧
        ∀ q, q ∈ r ↔ (OfType n ty q ∧ Kept A n pr q) ∧ (q.a.sum, q.b.sum, q.c.sum, q.d.sum) = rs := by
  have hn' : n < 2 ^ 62 := lt_of_lt_of_le hn (by norm_num)
  refine Kept.dir_kept A val hN hn' hty rs hrs (fun t => ?_) pr
  obtain ⟨h1, h2⟩ := Complete.rowsum_small hn' rs hrs t
  exact lt_of_le_of_lt (Complete.rowsumSequences_length hn' ty h1 h2) (Nat.pow_lt_pow_right (by norm_num) hn)

/-- All directories. -/
theorem kept_pipeline {K : Type} (A : Fl K) (val : K → ℝ) (n : ℕ) [NeZero n] {mo : MatchOption}
    (hN : KeyNumerics A val n mo) (hn : n < 64) (ty : SeqType) (hty : Supported ty) (pr : Option Pairing) :
    ∃ l w, generateRowsums n ty = some l ∧ writePairs A n ty mo pr = some w ∧
      ∀ dirs, Listing w dirs → ∃ r, joinAll ty dirs = some r ∧
        ∀ q, q ∈ r ↔ (OfType n ty q ∧ Kept A n pr q) ∧ rowsums q ∈ l := by
  obtain ⟨l, hl, hnd, _⟩ := C24_rowsums_exact n ty
  obtain ⟨w, h1, h2, h3⟩ := Complete.all_dirs A mo hl pr fun rs hrs =>
    C107_directory A val n hN hn ty hty rs (Complete.generated_squares hl hrs) pr
  refine ⟨l, w, hl, h1, fun dirs hd => ?_⟩
  obtain ⟨r, hr, hq⟩ := h3 dirs hd
  refine ⟨r, hr, fun q => ?_⟩
  rw [hq]
  unfold rowsums
  simp only [rowsum_eq_sum]

/-- C107. The enumeration in such an arithmetic: the list has no repetition and consists of the least members of exactly
the classes that have a member with generated row sums both of whose pairs are kept by the filter. If there is no such
class the join panics. -/
theorem C107_enumeration {K : Type} (A : Fl K) (val : K → ℝ) (n : ℕ) [NeZero n] (hn : n ≤ 31) {mo : MatchOption}
    (hN : KeyNumerics A val n mo) (ty : SeqType) (hty : ty = .quaternionType ∨ ty = .williamsonType) (pr : Option Pairing) :
    ∃ l w, generateRowsums n ty = some l ∧ writePairs A n ty mo pr = some w ∧ ∀ dirs, Listing w dirs →
      ((∃ s, ClassKept A n ty pr l s) → ∃ r, joinPairs ty dirs = some r ∧ r.Nodup ∧
        ∀ x, x ∈ r ↔ LeastInClass n ty x ∧ ClassKept A n ty pr l x) ∧
      ((¬ ∃ s, ClassKept A n ty pr l s) → joinPairs ty dirs = none) := by
  have hsup : Supported ty := by rcases hty with h | h <;> simp [Supported, h]
  have he : (CanEquiv ty : Fam n → Fam n → Prop) = TypeEquiv ty := by rcases hty with rfl | rfl <;> rfl
  have hE := typeEquiv_equivalence n ty
  obtain ⟨l, w, hl, hw, h3⟩ := kept_pipeline A val n hN (by omega) ty hsup pr
  refine ⟨l, w, hl, hw, fun dirs hd => ?_⟩
  obtain ⟨m, hm, hmem⟩ := h3 dirs hd
  constructor
  · rintro ⟨s, t, ht, htl, htk, _⟩
    have hpm : ∀ s ∈ m, PMQuad n s := fun s hs => (Keys.ofType_wts ((hmem s).1 hs).1.1).1
    obtain ⟨r, hr, hnd, hx⟩ := Enumerate.joinPairs_spec hn hsup hm
      (List.ne_nil_of_mem ((hmem t).2 ⟨⟨ht, htk⟩, htl⟩)) hpm
    rw [he] at hx
    refine ⟨r, hr, hnd, fun x => ?_⟩
    rw [hx]
    constructor
    · rintro ⟨s, hs, hsx⟩
      obtain ⟨⟨s1, s2⟩, s3⟩ := (hmem s).1 hs
      exact ⟨⟨typeEquiv_ofType hty s1 hsx.1.1 hsx.1.2, fun t ht hxt => hsx.2 t ⟨ht, hE.trans hsx.1.2 hxt⟩⟩,
        s, s1, s3, s2, hE.symm hsx.1.2⟩
    · rintro ⟨⟨hx1, hx2⟩, s, s1, s3, s2, hxs⟩
      exact ⟨s, (hmem s).2 ⟨⟨s1, s2⟩, s3⟩, ⟨(Keys.ofType_wts hx1).1, hE.symm hxs⟩, fun u hu => hx2 u hu.1 (hE.trans hxs hu.2)⟩
  · intro hno
    have : m = [] := by
      rw [List.eq_nil_iff_forall_not_mem]
      intro q hq
      obtain ⟨⟨q1, q2⟩, q3⟩ := (hmem q).1 hq
      exact hno ⟨q, q, q1, q3, q2, hE.refl _⟩
    subst this
    exact C60_panics ty hsup dirs hm

/-- C107. For Williamson-type sequences, the second list has exactly one sequence of every QT class inside the classes of
the first. -/
theorem C107_up_to_qt {K : Type} (A : Fl K) (val : K → ℝ) (n : ℕ) [NeZero n] (hn : n ≤ 31) {mo : MatchOption}
    (hN : KeyNumerics A val n mo) (pr : Option Pairing) :
    ∃ l w, generateRowsums n .williamsonType = some l ∧ writePairs A n .williamsonType mo pr = some w ∧
      ((∃ s, ClassKept A n .williamsonType pr l s) → ∀ dirs, Listing w dirs →
        ∃ r r', findWriteQuadSeq n .williamsonType dirs = some (r, some r') ∧ r.Nodup ∧
          (∀ x, x ∈ r ↔ LeastInClass n .williamsonType x ∧ ClassKept A n .williamsonType pr l x) ∧ r'.Nodup ∧
          (∀ x ∈ r', IsWTS n x ∧ ClassKept A n .williamsonType pr l x) ∧
          ∀ t, IsWTS n t → ClassKept A n .williamsonType pr l t → ∃ x ∈ r', QTEquiv (fam n t) (fam n x) ∧
            ∀ y ∈ r', QTEquiv (fam n t) (fam n y) → y = x) := by
  have hE := typeEquiv_equivalence n .williamsonType
  obtain ⟨l, w, hl, hw, h⟩ := C107_enumeration A val n hn hN .williamsonType (.inr rfl) pr
  refine ⟨l, w, hl, hw, fun hex dirs hd => ?_⟩
  obtain ⟨r, hr, hnd, hmem⟩ := (h dirs hd).1 hex
  have hty : ∀ q ∈ r, IsWTS n q := fun q hq => ((hmem q).1 hq).1.1
  have hrep : ∀ t, IsWTS n t → ClassKept A n .williamsonType pr l t → ∃ q ∈ r, WTEquiv (fam n q) (fam n t) := by
    intro t ht hk
    obtain ⟨x, hx, htx⟩ := least_exists hn (.inr rfl) (show OfType n .williamsonType t from ht)
    refine ⟨x, (hmem x).2 ⟨hx, ?_⟩, hE.symm htx⟩
    obtain ⟨s, s1, s2, s3, s4⟩ := hk
    exact ⟨s, s1, s2, s3, hE.trans (hE.symm htx) s4⟩
  obtain ⟨s0, hk0⟩ := hex
  have hne : r ≠ [] := by
    obtain ⟨s, s1, s2, s3, s4⟩ := hk0
    obtain ⟨x, hx, _⟩ := hrep s s1 ⟨s, s1, s2, s3, hE.refl _⟩
    exact List.ne_nil_of_mem hx
  have hpm : ∀ q ∈ expandWts n r, PMQuad n q := fun q hq => (C21_sound n r hty q hq).1.1
  obtain ⟨r', k1, k2, k3, k4, _⟩ := C17_reduce n hn .quaternionType (.inl rfl) (expandWts n r) (by
    obtain ⟨x, hx⟩ := List.exists_mem_of_ne_nil r hne
    exact List.ne_nil_of_mem (List.mem_append_left _ hx)) hpm
  refine ⟨r, r', ?_, hnd, hmem, k2, fun x hx => ?_, fun t ht hk => ?_⟩
  · unfold findWriteQuadSeq
    rw [hr]
    simp only [Option.bind_some]
    rw [k1]
    rfl
  · obtain ⟨hp, s, hs, hsx⟩ := k3 x hx
    obtain ⟨hsw, p, hpr, hps⟩ := C21_sound n r hty s hs
    obtain ⟨t, t1, t2, t3, t4⟩ := ((hmem p).1 hpr).2
    exact ⟨(C04_isQTS_iff_isWTS n x).1 (typeEquiv_ofType (.inl rfl) ((C04_isQTS_iff_isWTS n s).2 hsw) hp hsx),
      t, t1, t2, t3, hE.trans (hE.symm (hE.trans hps (Kept.qt_wt hsx))) t4⟩
  · obtain ⟨q0, hq0, hqt0⟩ := hrep t ht hk
    obtain ⟨q, hq, hqt⟩ := expansion_member (fun q hq => (hty q hq).1) hq0 hqt0
    obtain ⟨x, hx, hqx, huniq⟩ := k4 q hq
    exact ⟨x, hx, .trans _ _ _ (.symm _ _ hqt) hqx, fun y hy hty => huniq y hy (.trans _ _ _ hqt hty)⟩

/-! ## The driver -/

/-- C107. The driver on QT sequences: if some class is kept it ends with status 0, and the result files have the least
members of exactly the classes that are kept. -/
theorem C107_driver_qts {F κ : Type} [DecidableEq κ] (env : Env F κ) (hf : Env.Fair env) (val : F → ℝ) (n : ℕ) [NeZero n]
    (hn : n ≤ 31) (flags : List Flag) (hN : KeyNumerics env.A val n (flagMatching flags)) (s : Store)
    (hr : Ready s "qts".toList (natText n) flags) :
    ∃ l, generateRowsums n .quaternionType = some l ∧
      ((∃ q, ClassKept env.A n .quaternionType (strToRowsumPairing (flagPairing flags)) l q) →
        ∃ s' r, driverSh env "qts".toList (natText n) flags s = (s', 0) ∧ r.Nodup ∧
          (∀ x, x ∈ r ↔ LeastInClass n .quaternionType x ∧
            ClassKept env.A n .quaternionType (strToRowsumPairing (flagPairing flags)) l x) ∧
          SeqsStored s' "qts".toList (natText n) "result.seq".toList r ∧
          QuadsStored s' "qts".toList (natText n) "result.qseq".toList r ∧
          QhmStored n s' "qts".toList (natText n) r ∧
          ∀ a b, (a, b) ≠ ("qts".toList, natText n) → s' a b = s a b) := by
  obtain ⟨l, w, hl, hw, hj⟩ := C107_enumeration env.A val n hn hN .quaternionType (.inl rfl)
    (strToRowsumPairing (flagPairing flags))
  refine ⟨l, hl, fun hex => ?_⟩
  obtain ⟨s', r, r', t, q, h1, ⟨rfl, hnd, hmem⟩, h3, h4, h5, h6, _, _, _, h9, _, h10⟩ := driver_core env hf (n := n)
    (by omega) .quaternionType flags s hr rfl hw
    (P := fun r r' => r' = none ∧ r.Nodup ∧ ∀ x, x ∈ r ↔ LeastInClass n .quaternionType x ∧
      ClassKept env.A n .quaternionType (strToRowsumPairing (flagPairing flags)) l x)
    (fun dirs hd => by
      obtain ⟨r, hr, k⟩ := (hj dirs hd).1 hex
      exact ⟨r, none, by unfold findWriteQuadSeq; rw [hr]; rfl, rfl, k⟩)
    (fun r r' h => by
      obtain ⟨rfl, _, hmem⟩ := h
      exact ⟨fun x hx => ⟨((hmem x).1 hx).1.1.1, fun _ => (verify_of_ofType ((hmem x).1 hx).1.1).2.1⟩,
        fun l hl => by cases hl⟩)
  have hty : ∀ x ∈ r, IsQTS n x := fun x hx => ((hmem x).1 hx).1.1
  exact ⟨s', r, h1, hnd, hmem, seqs_stored (fun x hx => (hty x hx).1) h3 h5,
    quads_stored (fun x hx => (hty x hx).1) h4 h6, qhm_stored hty h3 h9, h10⟩

/-- C107. The driver on Williamson-type sequences. -/
theorem C107_driver_wts {F κ : Type} [DecidableEq κ] (env : Env F κ) (hf : Env.Fair env) (val : F → ℝ) (n : ℕ) [NeZero n]
    (hn : n ≤ 31) (flags : List Flag) (hN : KeyNumerics env.A val n (flagMatching flags)) (s : Store)
    (hr : Ready s "wts".toList (natText n) flags) :
    ∃ l, generateRowsums n .williamsonType = some l ∧
      ((∃ q, ClassKept env.A n .williamsonType (strToRowsumPairing (flagPairing flags)) l q) →
        ∃ s' r r', driverSh env "wts".toList (natText n) flags s = (s', 0) ∧ r.Nodup ∧
          (∀ x, x ∈ r ↔ LeastInClass n .williamsonType x ∧
            ClassKept env.A n .williamsonType (strToRowsumPairing (flagPairing flags)) l x) ∧
          SeqsStored s' "wts".toList (natText n) "result.seq".toList r ∧
          QuadsStored s' "wts".toList (natText n) "result.qseq".toList r ∧
          r'.Nodup ∧ (∀ x ∈ r', IsWTS n x) ∧
          (∀ q, IsWTS n q → ClassKept env.A n .williamsonType (strToRowsumPairing (flagPairing flags)) l q →
            ∃ x ∈ r', QTEquiv (fam n q) (fam n x) ∧ ∀ y ∈ r', QTEquiv (fam n q) (fam n y) → y = x) ∧
          SeqsStored s' "wts".toList (natText n) "result-qts.seq".toList r' ∧
          QuadsStored s' "wts".toList (natText n) "result-qts.qseq".toList r' ∧
          QhmStored n s' "wts".toList (natText n) r ∧
          ∀ a b, (a, b) ≠ ("wts".toList, natText n) → s' a b = s a b) := by
  obtain ⟨l, w, hl, hw, hj⟩ := C107_up_to_qt env.A val n hn hN (strToRowsumPairing (flagPairing flags))
  refine ⟨l, hl, fun hex => ?_⟩
  obtain ⟨s', r, r', t, q, h1, ⟨l', rfl, hnd, hmem, hnd', hl', hrep⟩, h3, h4, h5, h6, h7, _, _, h9, _, h10⟩ :=
    driver_core env hf (n := n) (by omega) .williamsonType flags s hr rfl hw
    (P := fun r r' => ∃ l', r' = some l' ∧ r.Nodup ∧ (∀ x, x ∈ r ↔ LeastInClass n .williamsonType x ∧
      ClassKept env.A n .williamsonType (strToRowsumPairing (flagPairing flags)) l x) ∧ l'.Nodup ∧ (∀ x ∈ l', IsWTS n x) ∧
      ∀ q, IsWTS n q → ClassKept env.A n .williamsonType (strToRowsumPairing (flagPairing flags)) l q →
        ∃ x ∈ l', QTEquiv (fam n q) (fam n x) ∧ ∀ y ∈ l', QTEquiv (fam n q) (fam n y) → y = x)
    (fun dirs hd => by
      obtain ⟨r, r', a1, a2, a3, a4, a5, a6⟩ := hj hex dirs hd
      exact ⟨r, some r', a1, r', rfl, a2, a3, a4, fun x hx => (a5 x hx).1, a6⟩)
    (fun r r' h => by
      obtain ⟨l', rfl, _, hmem, _, hl', _⟩ := h
      exact ⟨fun x hx => ⟨((hmem x).1 hx).1.1.1, fun h => by cases h⟩, fun l'' hl'' => by
        cases hl''
        exact fun x hx => (hl' x hx).1⟩)
  have hty : ∀ x ∈ r, IsWTS n x := fun x hx => ((hmem x).1 hx).1.1
  obtain ⟨t2, q2, m1, m2, m3, m4⟩ := h7 l' rfl
  exact ⟨s', r, l', h1, hnd, hmem, seqs_stored (fun x hx => (hty x hx).1) h3 h5,
    quads_stored (fun x hx => (hty x hx).1) h4 h6, hnd', hl', hrep, seqs_stored (fun x hx => (hl' x hx).1) m1 m3,
    quads_stored (fun x hx => (hl' x hx).1) m2 m4,
    qhm_stored (fun x hx => (C04_isQTS_iff_isWTS n x).2 (hty x hx)) h3 h9, h10⟩

/-! ## Only classes that touch the bound can be lost -/

/-- C107. With the explicit precision of C91 only a class all of whose members with generated row sums touch the bound
`4 n` exactly can be missing. -/
theorem C107_touching {K : Type} (A : Fl K) (val : K → ℝ) (ok : K → Prop) (n : ℕ) [NeZero n] (hn : n ≤ 31) (B e : ℝ)
    (hp : PreciseEnough n B e) (h : FloatModel A val ok n B e) (mo : MatchOption) (ty : SeqType)
    (hty : ty = .quaternionType ∨ ty = .williamsonType) (pr : Option Pairing) :
    ∃ l w, generateRowsums n ty = some l ∧ writePairs A n ty mo pr = some w ∧ ∀ dirs, Listing w dirs →
      (∃ s, OfType n ty s ∧ rowsums s ∈ l ∧ ¬ Touches n pr s) →
      ∃ r, joinPairs ty dirs = some r ∧ r.Nodup ∧ (∀ x ∈ r, LeastInClass n ty x) ∧
        ∀ x, LeastInClass n ty x → x ∉ r →
          ∀ s, OfType n ty s → rowsums s ∈ l → TypeEquiv ty (fam n x) (fam n s) → Touches n pr s := by
  have hkeep : ∀ s, OfType n ty s → ¬ Touches n pr s → Kept A n pr s := by
    intro s hs ht
    have hw := Keys.ofType_wts hs
    unfold Touches at ht
    push Not at ht
    exact ⟨C91_filter A val ok n B e hp h s hw.1 hw.2.1 _ _ (Complete.pairing_ne pr).1 fun k k1 k2 hk => ht.1 ⟨k, k1, k2, hk⟩,
      C91_filter A val ok n B e hp h s hw.1 hw.2.1 _ _ (Complete.pairing_ne pr).2 fun k k1 k2 hk => ht.2 ⟨k, k1, k2, hk⟩⟩
  obtain ⟨l, w, hl, hw, hj⟩ := C107_enumeration A val n hn (mo := mo)
    ⟨fun _ => Rounding.accurate h (Explicit.small_of hp), fun _ => C91_keys A val ok n B e hp h⟩ ty hty pr
  refine ⟨l, w, hl, hw, fun dirs hd ⟨s, s1, s2, s3⟩ => ?_⟩
  obtain ⟨r, hr, hnd, hmem⟩ := (hj dirs hd).1 ⟨s, s, s1, s2, hkeep s s1 s3, (typeEquiv_equivalence n ty).refl _⟩
  refine ⟨r, hr, hnd, fun x hx => ((hmem x).1 hx).1, fun x hx hxr t t1 t2 t3 => ?_⟩
  by_contra hc
  exact hxr ((hmem x).2 ⟨hx, t, t1, t2, hkeep t t1 hc, t3⟩)

/-! ## Double precision -/

/-- C107. Double precision, transforms by direct summation: the correlation keys are good enough at every length up to
1000, so C107_enumeration and the drivers apply at every length up to 31. -/
theorem C107_double (rd : ℝ → ℝ) (hrd : NearestDouble rd) (n : ℕ) [NeZero n] (hn : n ≤ 1000) :
    KeyNumerics (doubleFl rd) doubleVal n .correlation :=
  ⟨fun _ => C74_accurate _ _ _ n _ _ (by positivity) (double_small n hn) (double_range n hn)
    (C101_model rd hrd n hn (2 ^ 200) le_rfl), fun h => by cases h⟩

/-- Lengths at which double precision with direct summation meets the explicit precision. -/
def directLengths : List ℕ := [1, 2, 3, 4, 5, 6, 7, 8, 9, 10, 11, 12, 14, 15, 16, 18, 20, 24, 30]

theorem direct_precise (n : ℕ) (hn : n ∈ directLengths) : PreciseEnough n (2 ^ 200) (2 * ((n : ℝ) + 4) ^ 2 / 2 ^ 53) := by
  have ht : ∀ m ∈ directLengths, m ≤ 30 ∧
      50 * 2 * (m + 4) ^ 2 * (m + 1) ^ 2 * (8 * m + 1) ^ (Nat.totient m / 2 - 1) ≤ 2 ^ 53 ∧
      1000000 * m * 2 * (m + 4) ^ 2 * (m + 1) ^ 2 ≤ 2 ^ 53 := by decide +kernel
  obtain ⟨g0, g1, g2⟩ := ht n hn
  have g1' : (50 * 2 * ((n : ℝ) + 4) ^ 2 * ((n : ℝ) + 1) ^ 2 * (8 * n + 1) ^ (Nat.totient n / 2 - 1)) ≤ 2 ^ 53 := by
    exact_mod_cast g1
  have g2' : (1000000 * (n : ℝ) * 2 * ((n : ℝ) + 4) ^ 2 * (n + 1) ^ 2) ≤ 2 ^ 53 := by exact_mod_cast g2
  refine ⟨by positivity, ?_, ?_, double_range n (by omega)⟩
  · rw [div_mul_eq_mul_div, mul_div_assoc', div_le_one (by positivity)]
    linarith
  · rw [div_mul_eq_mul_div, mul_div_assoc', div_mul_eq_mul_div, div_le_one (by positivity)]
    linarith

/-- C107. In double precision with direct summation, at the lengths up to 30 of the list and with either way of matching,
the enumeration lists least members of classes only, none twice, and only a class all of whose members with generated row
sums touch the bound can be missing. -/
theorem C107_double_touching (rd : ℝ → ℝ) (hrd : NearestDouble rd) (n : ℕ) [NeZero n] (hn : n ∈ directLengths)
    (mo : MatchOption) (ty : SeqType) (hty : ty = .quaternionType ∨ ty = .williamsonType) (pr : Option Pairing) :
    ∃ l w, generateRowsums n ty = some l ∧ writePairs (doubleFl rd) n ty mo pr = some w ∧ ∀ dirs, Listing w dirs →
      (∃ s, OfType n ty s ∧ rowsums s ∈ l ∧ ¬ Touches n pr s) →
      ∃ r, joinPairs ty dirs = some r ∧ r.Nodup ∧ (∀ x ∈ r, LeastInClass n ty x) ∧
        ∀ x, LeastInClass n ty x → x ∉ r →
          ∀ s, OfType n ty s → rowsums s ∈ l → TypeEquiv ty (fam n x) (fam n s) → Touches n pr s := by
  have h30 : n ≤ 30 := by
    have : ∀ m ∈ directLengths, m ≤ 30 := by decide
    exact this n hn
  exact C107_touching _ _ _ n (by omega) _ _ (direct_precise n hn) (C101_model rd hrd n (by omega) _ le_rfl) mo ty hty pr

/-- C107. The fast transform by factors: the correlation keys are good enough at every length up to 180, for every choice
of factors. -/
theorem C107_fast (rd : ℝ → ℝ) (hrd : NearestDouble rd) (fs : ℕ → List ℕ) (n : ℕ) [NeZero n] (hn : n ≤ 180)
    (hf : Factors (fs n) n) : KeyNumerics (libraryFl rd (fastLib rd fs)) doubleVal n .correlation := by
  have hT := C105_transforms rd hrd fs n hf
  have hDG : ((2 * n : ℕ) : ℝ) * (n : ℝ) ^ 2 * ((n : ℝ) + 1) ^ 2 ≤ 500000000000 := by
    have h1 : (n : ℝ) ≤ 180 := by exact_mod_cast hn
    have h0 : (0 : ℝ) ≤ n := by positivity
    have h2 : (n : ℝ) ^ 2 ≤ 180 ^ 2 := pow_le_pow_left₀ h0 h1 2
    have h3 : ((n : ℝ) + 1) ^ 2 ≤ 181 ^ 2 := pow_le_pow_left₀ (by linarith) (by linarith) 2
    have h4 : ((2 * n : ℕ) : ℝ) ≤ 360 := by exact_mod_cast (by omega)
    calc ((2 * n : ℕ) : ℝ) * (n : ℝ) ^ 2 * ((n : ℝ) + 1) ^ 2 ≤ 360 * 180 ^ 2 * 181 ^ 2 := by gcongr
      _ ≤ 500000000000 := by norm_num
  exact ⟨fun _ => C74_accurate _ _ _ n (2 ^ 150) _ (by positivity) (library_small n _ _ hDG) (library_range n (by omega))
    (C103_model rd hrd _ n (by omega) _ _ (fast_pos n) hT (library_one n _ _ (library_gain _ n _ _ hT) hDG) _ le_rfl),
    fun h => by cases h⟩

/-- Lengths at which double precision with the fast transform meets the explicit precision. -/
def fastLengths : List ℕ := [1, 2, 3, 4, 5, 6, 7, 8, 9, 10, 12, 14, 15, 16, 18]

theorem fast_precise (n : ℕ) (hn : n ∈ fastLengths) :
    PreciseEnough n (2 ^ 150) (16 * (2 * n : ℕ) * (n : ℝ) ^ 2 / 2 ^ 53) := by
  have ht : ∀ m ∈ fastLengths, m ≤ 18 ∧
      50 * 16 * (2 * m) * m ^ 2 * (m + 1) ^ 2 * (8 * m + 1) ^ (Nat.totient m / 2 - 1) ≤ 2 ^ 53 ∧
      1000000 * m * 16 * (2 * m) * m ^ 2 * (m + 1) ^ 2 ≤ 2 ^ 53 := by decide +kernel
  obtain ⟨g0, g1, g2⟩ := ht n hn
  have g1' : 50 * 16 * (2 * (n : ℝ)) * (n : ℝ) ^ 2 * ((n : ℝ) + 1) ^ 2 * (8 * n + 1) ^ (Nat.totient n / 2 - 1) ≤ 2 ^ 53 := by
    exact_mod_cast g1
  have g2' : 1000000 * (n : ℝ) * 16 * (2 * (n : ℝ)) * (n : ℝ) ^ 2 * ((n : ℝ) + 1) ^ 2 ≤ 2 ^ 53 := by exact_mod_cast g2
  push_cast
  refine ⟨by positivity, ?_, ?_, library_range n (by omega)⟩
  · rw [div_mul_eq_mul_div, mul_div_assoc', div_le_one (by positivity)]
    linarith
  · rw [div_mul_eq_mul_div, mul_div_assoc', div_mul_eq_mul_div, div_le_one (by positivity)]
    linarith

/-- C107. The same with the fast transform, for every choice of factors. -/
theorem C107_fast_touching (rd : ℝ → ℝ) (hrd : NearestDouble rd) (fs : ℕ → List ℕ) (n : ℕ) [NeZero n]
    (hn : n ∈ fastLengths) (hf : Factors (fs n) n) (mo : MatchOption) (ty : SeqType)
    (hty : ty = .quaternionType ∨ ty = .williamsonType) (pr : Option Pairing) :
    ∃ l w, generateRowsums n ty = some l ∧ writePairs (libraryFl rd (fastLib rd fs)) n ty mo pr = some w ∧
      ∀ dirs, Listing w dirs → (∃ s, OfType n ty s ∧ rowsums s ∈ l ∧ ¬ Touches n pr s) →
      ∃ r, joinPairs ty dirs = some r ∧ r.Nodup ∧ (∀ x ∈ r, LeastInClass n ty x) ∧
        ∀ x, LeastInClass n ty x → x ∉ r →
          ∀ s, OfType n ty s → rowsums s ∈ l → TypeEquiv ty (fam n x) (fam n s) → Touches n pr s := by
  have h18 : n ≤ 18 := by
    have : ∀ m ∈ fastLengths, m ≤ 18 := by decide
    exact this n hn
  have hT := C105_transforms rd hrd fs n hf
  have hp := fast_precise n hn
  have hone : 16 * ((2 * n : ℕ) : ℝ) * (n : ℝ) ^ 2 / 2 ^ 53 ≤ 1 := by
    have h1 : (n : ℝ) ≤ 18 := by exact_mod_cast h18
    have h0 : (0 : ℝ) ≤ n := by positivity
    have h2 : (n : ℝ) ^ 2 ≤ 18 ^ 2 := pow_le_pow_left₀ h0 h1 2
    have h4 : ((2 * n : ℕ) : ℝ) ≤ 36 := by exact_mod_cast (by omega)
    rw [div_le_one (by positivity)]
    calc 16 * ((2 * n : ℕ) : ℝ) * (n : ℝ) ^ 2 ≤ 16 * 36 * 18 ^ 2 := by gcongr
      _ ≤ 2 ^ 53 := by norm_num
  exact C107_touching _ _ _ n (by omega) _ _ hp (C103_model rd hrd _ n (by omega) _ _ (fast_pos n) hT hone _ le_rfl) mo ty
    hty pr

/-- The hypotheses are met where those of C32 are not: with the fast transform at length 16 the keys are good enough, the
filter is not safe. -/
example : ∃ (rd : ℝ → ℝ) (fs : ℕ → List ℕ), NearestDouble rd ∧ Factors (fs 16) 16 ∧
    KeyNumerics (libraryFl rd (fastLib rd fs)) doubleVal 16 .correlation ∧
    ¬ Numerics (libraryFl rd (fastLib rd fs)) doubleVal 16 .correlation ∧ 16 ∈ fastLengths ∧ 16 ∈ directLengths := by
  obtain ⟨rd, hrd⟩ := Binary64.exists_nearest
  have hf : Factors ((fun _ => [4, 4]) 16) 16 := ⟨by decide, by decide⟩
  exact ⟨rd, fun _ => [4, 4], hrd, hf, C107_fast rd hrd _ 16 (by norm_num) hf,
    fun h => (C105_fails rd hrd _ hf).1 h.filter, by decide, by decide⟩

/-- There are classes with a member that does not touch the bound, and it is kept. -/
example : ∃ l s, generateRowsums 5 .quaternionType = some l ∧ OfType 5 .quaternionType s ∧ rowsums s ∈ l ∧
    ¬ Touches 5 (some .WX) s ∧ ClassKept exactFl 5 .quaternionType (some .WX) l s := by
  obtain ⟨t, l, ht, _, _, hl, htl⟩ := C24_complete_qts 5 exQTS5 exQTS5_isQTS
  have hs : OfType 5 .quaternionType t := ht
  have hw := Keys.ofType_wts hs
  refine ⟨l, t, hl, hs, htl, ?_, t, hs, htl, ⟨?_, ?_⟩, (typeEquiv_equivalence 5 .quaternionType).refl _⟩
  · rintro (⟨k, k1, k2, hk⟩ | ⟨k, k1, k2, hk⟩)
    · exact (Prime.pair_lt (by decide) (by norm_num) hw.1 hw.2.1 (by decide) k1 (by omega)).ne hk
    · exact (Prime.pair_lt (by decide) (by norm_num) hw.1 hw.2.1 (by decide) k1 (by omega)).ne hk
  · exact (C28_numerics 5 .correlation).filter t hw.1 hw.2.1 _ _ (by decide)
  · exact (C28_numerics 5 .correlation).filter t hw.1 hw.2.1 _ _ (by decide)

end Props
