import Verif.Proofs.Scripts
import Verif.Spec.Driver
import Verif.Props.Convert
import Verif.Props.Psd
import Verif.Props.Rounding

/-!
# Properties C79 to C82: the shell scripts
-/

set_option linter.unusedVariables false

namespace Props
open Model Spec Proofs Proofs.Store Proofs.Program Proofs.Driver Proofs.Command Proofs.Stages Proofs.Scripts

variable {F κ : Type} [DecidableEq κ]

/-! ## Helpers -/

theorem seqs_stored {n : ℕ} [NeZero n] {r : List QuadSeq} (hr : ∀ q ∈ r, PMQuad n q) {s : Store} {T N name t : Text}
    (ht : resultText r = some t) (h : readTop s T N name = some t) : SeqsStored s T N name r := by
  obtain ⟨t', k1, k2⟩ := Conversion.resultText_spec (n := n) (l := r) hr
  rw [ht] at k1
  cases k1
  exact ⟨t, h, k2.imp fun _ _ h => h.1⟩

theorem quads_stored {n : ℕ} {r : List QuadSeq} (hr : ∀ q ∈ r, PMQuad n q) {s : Store} {T N name t : Text}
    (ht : qseqText r = some t) (h : readTop s T N name = some t) : QuadsStored s T N name r := by
  unfold QuadsStored
  rw [h]
  unfold qseqText at ht
  rw [mapM_some fun q hq => toText_eq (hr q hq), Option.map_some] at ht
  cases ht
  unfold unlines
  rw [List.flatMap_map]
  congr 1
  refine List.flatMap_congr fun q _ => ?_
  rw [List.append_assoc]
  rfl

theorem qhm_stored {n : ℕ} [NeZero n] {r : List QuadSeq} (hr : ∀ q ∈ r, IsQTS n q) {s : Store} {T N t : Text}
    (ht : resultText r = some t)
    (h : ∀ m, convertQsToMatrices t = some m → readTop s T N "result.qhm".toList = some m.1) : QhmStored n s T N r := by
  obtain ⟨t', mats, ps, k1, k2, k3, k4⟩ := C68_convert n r hr
  rw [ht] at k1
  cases k1
  exact ⟨mats, ps, by rw [h _ k4]; unfold unlines; rw [List.flatMap_def], k2.imp fun _ _ h => ⟨h.1, h.2.1⟩, k3⟩

theorem mats_stored {canon : Graph → κ} {order : List HM → List HM} {debug : Bool} {ty : SeqType} {src text : Text}
    {out : List HM} {Q : QuadSeq → Prop} (h1 : hadamardRepresentatives canon order debug ty src = some out)
    (h2 : hadamardEquivalenceFromFile canon order debug ty src = some text)
    (h3 : ∀ m ∈ out, HMHadamard m ∧ ∃ q, Q q ∧ HM.fromWilliamson q .quaternionType = some m)
    (h4 : out.Pairwise (fun x y => ¬ HMEquiv x y))
    (h5 : ∀ q, Q q → ∀ m, HM.fromWilliamson q .quaternionType = some m → ∃! y, y ∈ out ∧ HMEquiv m y) {s : Store} {T N : Text}
    (h : readTop s T N "result.mat".toList = some text) : MatsStored s T N Q := by
  unfold hadamardEquivalenceFromFile at h2
  rw [h1, Option.bind_some] at h2
  obtain ⟨ts, e1, e2⟩ := Option.map_eq_some_iff.1 h2
  exact ⟨out, ts, by rw [h, e2], Conversion.mapM_some_iff.1 e1, h3, h4, h5⟩

/-- Every class has a least member. -/
theorem least_exists {n : ℕ} [NeZero n] (hn : n ≤ 31) {ty : SeqType} (hty : ty = .quaternionType ∨ ty = .williamsonType)
    {q : QuadSeq} (hq : OfType n ty q) : ∃ x, LeastInClass n ty x ∧ TypeEquiv ty (fam n q) (fam n x) := by
  obtain ⟨w, _, _, h⟩ := C32_enumeration exactFl id n hn (C28_numerics n .correlation) ty hty (some .WX)
  obtain ⟨r, _, _, h1, _, h2⟩ := h _ (listing_self w) ⟨q, hq⟩
  obtain ⟨x, hx, hxq, _⟩ := h2 q hq
  exact ⟨x, (h1 x).1 hx, hxq⟩

/-- The driver on QT sequences, when the pair and join stages enumerate. -/
theorem qts_results (env : Env F κ) (hf : Env.Fair env) (hc : ExactLabelling env.canon) (n : ℕ) [NeZero n] (hn : n ≤ 31)
    (flags : List Flag) (s : Store) (hr : Ready s "qts".toList (natText n) flags) {w : List (Text × Dir)}
    (hw : writePairs env.A n .quaternionType (if .c ∈ flags then .correlation else .psd)
      (strToRowsumPairing (flagPairing flags)) = some w)
    (hj : ∀ dirs, Listing w dirs → ∃ r, joinPairs .quaternionType dirs = some r ∧ r.Nodup ∧
      ∀ x, x ∈ r ↔ LeastInClass n .quaternionType x) :
    ∃ s' r, driverSh env "qts".toList (natText n) flags s = (s', 0) ∧ r.Nodup ∧
      (∀ x, x ∈ r ↔ LeastInClass n .quaternionType x) ∧
      SeqsStored s' "qts".toList (natText n) "result.seq".toList r ∧
      QuadsStored s' "qts".toList (natText n) "result.qseq".toList r ∧
      QhmStored n s' "qts".toList (natText n) r ∧
      (.h ∈ flags → MatsStored s' "qts".toList (natText n) (IsQTS n)) ∧
      ∀ a b, (a, b) ≠ ("qts".toList, natText n) → s' a b = s a b := by
  obtain ⟨s', r, r', t, q, h1, ⟨rfl, hnd, hmem⟩, h3, h4, h5, h6, h7, h8, _, h9, _, h10⟩ := driver_core env hf (n := n)
    (by omega) .quaternionType flags s hr rfl hw
    (P := fun r r' => r' = none ∧ r.Nodup ∧ ∀ x, x ∈ r ↔ LeastInClass n .quaternionType x)
    (fun dirs hd => by
      obtain ⟨r, hr, k⟩ := hj dirs hd
      exact ⟨r, none, by unfold findWriteQuadSeq; rw [hr]; rfl, rfl, k⟩)
    (fun r r' h => by
      obtain ⟨rfl, _, hmem⟩ := h
      exact ⟨fun x hx => ⟨((hmem x).1 hx).1.1, fun _ => (verify_of_ofType ((hmem x).1 hx).1).2.1⟩, fun l hl => by cases hl⟩)
  have hty : ∀ x ∈ r, IsQTS n x := fun x hx => ((hmem x).1 hx).1
  refine ⟨s', r, h1, hnd, hmem, seqs_stored (fun x hx => (hty x hx).1) h3 h5,
    quads_stored (fun x hx => (hty x hx).1) h4 h6, qhm_stored hty h3 h9, fun hh => ?_, h10⟩
  obtain ⟨t', out, text, k1, k2, k3, k4, k5, k6⟩ := C65_convert_list env.canon hc env.hmOrder hf.hm env.debug .quaternionType
    n r fun x hx => ⟨hty x hx, fun _ => ns_of_least (hty x hx).1 ((hmem x).1 hx).2⟩
  rw [h3] at k1
  cases k1
  refine mats_stored k2 k3 (fun m hm => ⟨(k4 m hm).1, ?_⟩) k5 ?_ (h8 hh t text h5 k3)
  · obtain ⟨x, hx, e⟩ := (k4 m hm).2
    exact ⟨x, hty x hx, e⟩
  · intro y hy m hm
    obtain ⟨x, hx, hsx⟩ := least_exists hn (.inl rfl) (show OfType n .quaternionType y from hy)
    have hx := (hmem x).2 hx
    obtain ⟨m1, m2, e1, e2, he⟩ := C64_qt_implies_hadamard n y x hy.1 (hty x hx).1 hsx
    rw [hm] at e1
    cases e1
    obtain ⟨z, ⟨y1, y2⟩, y3⟩ := k6 x hx m2 e2
    exact ⟨z, ⟨y1, HadEquiv.HMEquiv.trans he y2⟩,
      fun u hu => y3 u ⟨hu.1, HadEquiv.HMEquiv.trans (HadEquiv.HMEquiv.symm he) hu.2⟩⟩

/-! ## C79: the driver from start to end -/

/-- C79. The driver with any flags on QT sequences of length up to 31, in every environment with arithmetic that is good
enough for the matching option of the flags: if there are such
sequences, it ends with status 0, and then `result.seq` and `result.qseq` have exactly the least member of every class,
`result.qhm` has the quaternionic Hadamard matrices, and with `-h` `result.mat` has exactly one matrix of every
class of Hadamard matrices that come from QT sequences. Nothing outside the directory changes. -/
theorem C79_qts (env : Env F κ) (hf : Env.Fair env) (hc : ExactLabelling env.canon) (val : F → ℝ) (n : ℕ) [NeZero n]
    (hn : n ≤ 31) (flags : List Flag) (hN : Numerics env.A val n (flagMatching flags)) (hex : ∃ q, IsQTS n q) (s : Store) (hr : Ready s "qts".toList (natText n) flags) :
    ∃ s' r, driverSh env "qts".toList (natText n) flags s = (s', 0) ∧ r.Nodup ∧
      (∀ x, x ∈ r ↔ LeastInClass n .quaternionType x) ∧
      SeqsStored s' "qts".toList (natText n) "result.seq".toList r ∧
      QuadsStored s' "qts".toList (natText n) "result.qseq".toList r ∧
      QhmStored n s' "qts".toList (natText n) r ∧
      (.h ∈ flags → MatsStored s' "qts".toList (natText n) (IsQTS n)) ∧
      ∀ a b, (a, b) ≠ ("qts".toList, natText n) → s' a b = s a b := by
  obtain ⟨w, hw, _, hj⟩ := C32_enumeration env.A val n hn hN .quaternionType (.inl rfl)
    (strToRowsumPairing (flagPairing flags))
  refine qts_results env hf hc n hn flags s hr hw fun dirs hd => ?_
  obtain ⟨r, h1, h2, h3, _⟩ := hj dirs hd hex
  exact ⟨r, h1, h2, h3⟩

/-- C79. The same with any flags for odd prime lengths, in every arithmetic that is precise enough. -/
theorem C79_prime (n : ℕ) [NeZero n] (hp : n.Prime) (hodd : n ≠ 2) (hn : n ≤ 31) :
    ∃ e0 > 0, ∀ {K κ : Type} [DecidableEq κ] (env : Env K κ) (val : K → ℝ) (ok : K → Prop) (B e : ℝ),
      0 ≤ e → e ≤ e0 → 16 * ((n : ℝ) + 1) ^ 3 ≤ B → FloatModel env.A val ok n B e → (∃ q, IsQTS n q) →
      Env.Fair env → ExactLabelling env.canon → ∀ (flags : List Flag) (s : Store),
      Ready s "qts".toList (natText n) flags →
    ∃ s' r, driverSh env "qts".toList (natText n) flags s = (s', 0) ∧ r.Nodup ∧
      (∀ x, x ∈ r ↔ LeastInClass n .quaternionType x) ∧
      SeqsStored s' "qts".toList (natText n) "result.seq".toList r ∧
      QuadsStored s' "qts".toList (natText n) "result.qseq".toList r ∧
      QhmStored n s' "qts".toList (natText n) r ∧
      (.h ∈ flags → MatsStored s' "qts".toList (natText n) (IsQTS n)) ∧
      ∀ a b, (a, b) ≠ ("qts".toList, natText n) → s' a b = s a b := by
  obtain ⟨e0, h0, h⟩ := C76_prime_numerics_partial n hp hodd
  exact ⟨e0, h0, fun {K κ} _ env val ok B e p1 p2 p3 p4 hex hf hc flags s hr =>
    C79_qts env hf hc val n hn flags (h env.A val ok B e p1 p2 p3 p4 _) hex s hr⟩

/-- C79. The driver with any flags on Williamson-type sequences: `result.seq` has the least member of every class
for Williamson-type equivalence, `result-qts.seq` exactly one member of every class for QT equivalence. -/
theorem C79_wts (env : Env F κ) (hf : Env.Fair env) (hc : ExactLabelling env.canon) (val : F → ℝ) (n : ℕ) [NeZero n]
    (hn : n ≤ 31) (flags : List Flag) (hN : Numerics env.A val n (flagMatching flags)) (hex : ∃ q, IsWTS n q) (s : Store) (hr : Ready s "wts".toList (natText n) flags) :
    ∃ s' r r', driverSh env "wts".toList (natText n) flags s = (s', 0) ∧ r.Nodup ∧
      (∀ x, x ∈ r ↔ LeastInClass n .williamsonType x) ∧
      SeqsStored s' "wts".toList (natText n) "result.seq".toList r ∧
      QuadsStored s' "wts".toList (natText n) "result.qseq".toList r ∧
      r'.Nodup ∧ (∀ x ∈ r', IsWTS n x) ∧
      (∀ q, IsWTS n q → ∃ x ∈ r', QTEquiv (fam n q) (fam n x) ∧ ∀ y ∈ r', QTEquiv (fam n q) (fam n y) → y = x) ∧
      SeqsStored s' "wts".toList (natText n) "result-qts.seq".toList r' ∧
      QuadsStored s' "wts".toList (natText n) "result-qts.qseq".toList r' ∧
      QhmStored n s' "wts".toList (natText n) r ∧
      (.h ∈ flags → MatsStored s' "wts".toList (natText n) (IsWTS n)) ∧
      ∀ a b, (a, b) ≠ ("wts".toList, natText n) → s' a b = s a b := by
  obtain ⟨w, hw, _, hj⟩ := C32_enumeration env.A val n hn hN .williamsonType (.inr rfl)
    (strToRowsumPairing (flagPairing flags))
  obtain ⟨w1, hw1, hj1⟩ := C32_up_to_qt env.A val n hn hN (strToRowsumPairing (flagPairing flags)) hex
  obtain ⟨w2, hw2, hj2⟩ := C65_wts env.A val n hn hN (strToRowsumPairing (flagPairing flags)) hex env.canon hc
    env.hmOrder hf.hm env.debug
  rw [hw] at hw1 hw2
  cases hw1
  cases hw2
  obtain ⟨s', r, r', t, q, h1, ⟨l, rfl, hnd, hmem, hnd', hty', hrep, t', out, text, k1, k2, k3, k4, k5, k6⟩, h3, h4, h5, h6, h7,
      h8, _, h9, _, h10⟩ := driver_core env hf (n := n) (by omega) .williamsonType flags s hr rfl hw
    (P := fun r r' => ∃ l, r' = some l ∧ r.Nodup ∧ (∀ x, x ∈ r ↔ LeastInClass n .williamsonType x) ∧ l.Nodup ∧
      (∀ x ∈ l, IsWTS n x) ∧
      (∀ q, IsWTS n q → ∃ x ∈ l, QTEquiv (fam n q) (fam n x) ∧ ∀ y ∈ l, QTEquiv (fam n q) (fam n y) → y = x) ∧
      ∃ t out text, resultText l = some t ∧
        hadamardRepresentatives env.canon env.hmOrder env.debug .williamsonType t = some out ∧
        hadamardEquivalenceFromFile env.canon env.hmOrder env.debug .williamsonType t = some text ∧
        (∀ m ∈ out, HMHadamard m ∧ ∃ s, IsWTS n s ∧ HM.fromWilliamson s .quaternionType = some m) ∧
        out.Pairwise (fun x y => ¬ HMEquiv x y) ∧
        ∀ s, IsWTS n s → ∀ m, HM.fromWilliamson s .quaternionType = some m → ∃! y, y ∈ out ∧ HMEquiv m y)
    (fun dirs hd => by
      obtain ⟨r, a1, a2, a3, _⟩ := hj dirs hd hex
      obtain ⟨r1, l, b1, b2, b3, b4, b5⟩ := hj1 dirs hd
      obtain ⟨r2, l2, t, out, text, c1, c2⟩ := hj2 dirs hd
      rw [b1] at c1
      cases c1
      rw [a1] at b3
      cases b3
      exact ⟨r, some l, b1, l, rfl, a2, a3, b2, b4, b5, t, out, text, c2⟩)
    (fun r r' h => by
      obtain ⟨l, rfl, _, hmem, _, hl, _⟩ := h
      exact ⟨fun x hx => ⟨((hmem x).1 hx).1.1, fun h => by cases h⟩, fun l' hl' => by
        cases hl'
        exact fun x hx => (hl x hx).1⟩)
  have hty : ∀ x ∈ r, IsWTS n x := fun x hx => ((hmem x).1 hx).1
  obtain ⟨t2, q2, m1, m2, m3, m4⟩ := h7 l rfl
  rw [k1] at m1
  cases m1
  exact ⟨s', r, l, h1, hnd, hmem, seqs_stored (fun x hx => (hty x hx).1) h3 h5,
    quads_stored (fun x hx => (hty x hx).1) h4 h6, hnd', hty', hrep, seqs_stored (fun x hx => (hty' x hx).1) k1 m3,
    quads_stored (fun x hx => (hty' x hx).1) m2 m4,
    qhm_stored (fun x hx => (C04_isQTS_iff_isWTS n x).2 (hty x hx)) h3 h9,
    fun hh => mats_stored k2 k3 k4 k5 k6 (h8 hh t' text m3 k3), h10⟩

/-- C79, as far as it holds for Williamson sequences: `result.seq` has the least members of the classes for Williamson-type
equivalence that contain a Williamson sequence. (The members themselves need not be Williamson sequences, and one class of
Williamson sequences may be joined with another one: C24 and C29.) -/
theorem C79_williamson_partial (env : Env F κ) (hf : Env.Fair env) (val : F → ℝ) (n : ℕ) [NeZero n]
    (hn : n ≤ 31) (flags : List Flag) (hN : Numerics env.A val n (flagMatching flags)) (hex : ∃ q, IsWS n q) (s : Store) (hr : Ready s "ws".toList (natText n) flags) :
    ∃ s' r, driverSh env "ws".toList (natText n) flags s = (s', 0) ∧ r.Nodup ∧
      (∀ x, x ∈ r ↔ LeastInClass n .williamsonType x ∧ ∃ q, IsWS n q ∧ WTEquiv (fam n q) (fam n x)) ∧
      SeqsStored s' "ws".toList (natText n) "result.seq".toList r ∧
      QuadsStored s' "ws".toList (natText n) "result.qseq".toList r ∧
      QhmStored n s' "ws".toList (natText n) r ∧
      ∀ a b, (a, b) ≠ ("ws".toList, natText n) → s' a b = s a b := by
  obtain ⟨w, hw, hj⟩ := C32_williamson_partial env.A val n hn hN (strToRowsumPairing (flagPairing flags)) hex
  obtain ⟨s', r, r', t, q, h1, ⟨rfl, hnd, hmem⟩, h3, h4, h5, h6, _, _, _, h9, _, h10⟩ := driver_core env hf (n := n)
    (by omega) .williamson flags s hr rfl hw
    (P := fun r r' => r' = none ∧ r.Nodup ∧ ∀ x, x ∈ r ↔ LeastInClass n .williamsonType x ∧ ∃ q, IsWS n q ∧ WTEquiv (fam n q) (fam n x))
    (fun dirs hd => by
      obtain ⟨r, hr, k⟩ := hj dirs hd
      exact ⟨r, none, by unfold findWriteQuadSeq; rw [hr]; rfl, rfl, k⟩)
    (fun r r' h => by
      obtain ⟨rfl, _, hmem⟩ := h
      exact ⟨fun x hx => ⟨((hmem x).1 hx).1.1.1, fun h => by cases h⟩, fun l hl => by cases hl⟩)
  have hty : ∀ x ∈ r, IsWTS n x := fun x hx => ((hmem x).1 hx).1.1
  exact ⟨s', r, h1, hnd, hmem, seqs_stored (fun x hx => (hty x hx).1) h3 h5,
    quads_stored (fun x hx => (hty x hx).1) h4 h6, qhm_stored (fun x hx => (C04_isQTS_iff_isWTS n x).2 (hty x hx)) h3 h9, h10⟩

-- The hypotheses are met: length 5, exact arithmetic, an exact labelling, and a directory left by an earlier run.
example : ∃ (κ : Type) (_ : DecidableEq κ) (env : Env ℝ κ) (s : Store), env.A = exactFl ∧ Env.Fair env ∧
    ExactLabelling env.canon ∧ (∃ q, IsQTS 5 q) ∧ Ready s "qts".toList (natText 5) [.d, .h] ∧
    subDirs s "qts".toList (natText 5) ≠ [] := by
  obtain ⟨κ, canon, hc⟩ := exact_exists
  exact ⟨κ, Classical.decEq κ, ⟨exactFl, canon, id, id, id, id, false⟩,
    fun a b => if (a, b) = ("qts".toList, "5".toList) then some ⟨[], [("rowsum_1_1_3_3".toList, [])]⟩ else none, rfl,
    ⟨fun _ => .refl _, fun _ => .refl _, fun _ => .refl _, fun _ => .refl _⟩, hc, ⟨exQTS5, exQTS5_isQTS⟩,
    ⟨by decide, by unfold IsWord; decide⟩, by decide⟩

/-! ## C80: the exit status of the driver -/

/-- C80. The exit status is 0 if and only if both arguments are given and no row-sum directory is left by an earlier run
(or `-d` is given): it does not depend on what the program does. -/
theorem C80_status (env : Env F κ) (T N : Text) (flags : List Flag) (s : Store) :
    (driverSh env T N flags s).2 = 0 ↔
      T ≠ [] ∧ N ≠ [] ∧ ∀ e ∈ subDirs s T N, "rowsum_".toList <+: e.1 → .d ∈ flags := by
  unfold driverSh
  by_cases h : T = [] ∨ N = []
  · rw [if_pos h]
    exact ⟨fun h => by simp at h, fun h' => absurd h (by rintro (e | e); exacts [h'.1 e, h'.2.1 e])⟩
  · rw [if_neg h]
    rw [not_or] at h
    have e2 := hasRowsum_flags T N flags (.default, s)
    rcases hst : flags.foldl (driverFlag T N) (.default, s) with ⟨o, s1⟩
    rw [hst] at e2
    dsimp only at e2 ⊢
    by_cases hr : hasRowsumDirs s1 T N = true
    · rw [if_pos hr]
      obtain ⟨e, he, h1, h2⟩ := e2.1 hr
      exact ⟨fun h => by simp at h, fun h' => absurd (h'.2.2 e he h1) h2⟩
    · rw [if_neg hr, stages_eq env T N o (mkdir_some s1 T N)]
      refine ⟨fun _ => ⟨h.1, h.2, fun e he h1 => ?_⟩, fun _ => rfl⟩
      by_contra hd
      exact hr (e2.2 ⟨e, he, h1, hd⟩)

/-- C80 fails: with an unknown type, a length that is not a number or a length not in the form in which the program
writes it (such as `05`), the driver ends with status 0, and no result is in the directory it announces. -/
theorem C80_wrong_arguments (env : Env F κ) (T N : Text) (flags : List Flag) (s : Store) (hT : T ≠ []) (hN : N ≠ [])
    (hd : ∀ e ∈ subDirs s T N, "rowsum_".toList <+: e.1 → .d ∈ flags)
    (h : strToSeqtype T = none ∨ parseUsize N = none ∨ ∃ n, parseUsize N = some n ∧ N ≠ natText n) :
    (driverSh env T N flags s).2 = 0 ∧ ∀ x, readTop (driverSh env T N flags s).1 T N x = readTop s T N x := by
  refine ⟨(C80_status env T N flags s).2 ⟨hT, hN, hd⟩, fun x => ?_⟩
  have he : Elsewhere T N := by
    intro ty n h1 h2
    rcases h with h | h | ⟨m, h, h3⟩
    · rw [h] at h1; cases h1
    · rw [h] at h2; cases h2
    · rw [h] at h2; cases h2; exact h3
  have e0 : ∀ {s a b c l}, a ≠ "amicable".toList → a ≠ "convert".toList → b = T → c = N →
      (runProgram env s (a :: b :: c :: l)).1 T N = s T N := fun h1 h2 hb hc =>
    elsewhere_run env _ he (fun e => h1 (Option.some.inj e)) (fun e => absurd (Option.some.inj e) h2)
      fun _ => by subst hb; subst hc; exact ⟨rfl, rfl⟩
  have e1 : ∀ {s b}, (runProgram env s ["convert".toList, b, T, N]).1 T N = s T N :=
    elsewhere_run env _ he (fun e => absurd (Option.some.inj e) (by decide)) (fun _ => ⟨rfl, rfl⟩)
      fun h => absurd rfl h
  refine driver_read env flags s hT hN hd x (fun s mo pw => ?_) (fun s => ?_) (fun s => ?_) (fun s => ?_)
  · exact read_congr (e0 (by decide) (by decide) rfl rfl) x
  · exact read_congr (e0 (by decide) (by decide) rfl rfl) x
  · exact read_congr e1 x
  · exact read_congr e1 x

-- Three such command lines: the general type, a length in words and a length with a leading zero.
example : strToSeqtype "pqs".toList = none ∧ parseUsize "five".toList = none ∧
    (parseUsize "05".toList = some 5 ∧ "05".toList ≠ natText 5) := by decide

/-- C80 fails: with an empty pairing the pair stage panics, the driver ends with status 0, and `result.seq` and the other
files of the join stage are those of an earlier run. -/
theorem C80_empty_pairing (env : Env F κ) (hf : Env.Fair env) (n : ℕ) (hn : n < 2 ^ 64) (ty : SeqType) (flags : List Flag)
    (s : Store) (hd : ∀ e ∈ subDirs s ty.toText (natText n), .d ∈ flags ∧ "rowsum_".toList <+: e.1)
    (hb : ∀ c ∈ flagPairing flags, c = ' ' ∨ c = '\t' ∨ c = '\n') :
    (driverSh env ty.toText (natText n) flags s).2 = 0 ∧
      ∀ x ∈ ["result.seq".toList, "result.qseq".toList, "result-qts.seq".toList, "result-qts.qseq".toList],
        readTop (driverSh env ty.toText (natText n) flags s).1 ty.toText (natText n) x =
          readTop s ty.toText (natText n) x := by
  refine ⟨(C80_status ..).2 ⟨?_, Txt.natText_ne n, fun e he _ => (hd e he).1⟩, fun x hx => ?_⟩
  · cases ty <;> decide
  · have key : ∀ x ∈ ["result.seq".toList, "result.qseq".toList, "result-qts.seq".toList, "result-qts.qseq".toList],
        x ≠ "result.mat".toList ∧ x ≠ "result.qhm".toList := by decide
    exact driver_blank env hf hn ty flags s hd hb x (key x hx).1 (key x hx).2

example : ∀ c ∈ flagPairing [.p "WX".toList, .p []], c = ' ' ∨ c = '\t' ∨ c = '\n' := by decide

/-- C80 fails: for Williamson sequences of length 3 the conversion asked for by `-h` panics; the driver ends with status
0 and `result.mat` is that of an earlier run, or is missing. -/
theorem C80_ws (env : Env F κ) (hf : Env.Fair env) (val : F → ℝ) (flags : List Flag)
    (hN : Numerics env.A val 3 (flagMatching flags)) (s : Store) (hr : Ready s "ws".toList (natText 3) flags) :
    (driverSh env "ws".toList (natText 3) flags s).2 = 0 ∧
      readTop (driverSh env "ws".toList (natText 3) flags s).1 "ws".toList (natText 3) "result.mat".toList =
        readTop s "ws".toList (natText 3) "result.mat".toList := by
  obtain ⟨w, hw, hj⟩ := C32_williamson_partial env.A val 3 (by norm_num) hN (strToRowsumPairing (flagPairing flags))
    ⟨exWS3, exWS3_isWS⟩
  obtain ⟨w', hw', hp⟩ := C65_ws_panics env.A val hN (strToRowsumPairing (flagPairing flags)) env.canon env.hmOrder env.debug
  rw [hw] at hw'
  cases hw'
  obtain ⟨s', r, r', t, q, h1, ⟨hnone, hpm⟩, h3, h4, h5, h6, h7, h8, h9, _⟩ := driver_core env hf (n := 3) (by norm_num)
    .williamson flags s hr rfl hw
    (P := fun r r' => (∀ t, resultText r = some t →
      hadamardEquivalenceFromFile env.canon env.hmOrder env.debug .williamson t = none) ∧ (∀ x ∈ r, PMQuad 3 x) ∧ r' = none)
    (fun dirs hd => by
      obtain ⟨r, t, k1, k2, k3⟩ := hp dirs hd
      obtain ⟨r1, e1, _, e3⟩ := hj dirs hd
      have : r1 = r := by
        unfold findWriteQuadSeq at k1
        rw [e1] at k1
        simp only [Option.bind_some, Option.some.injEq, Prod.mk.injEq, and_true] at k1
        exact k1
      subst this
      refine ⟨r1, none, k1, fun t' ht' => ?_, fun x hx => (verify_of_ofType ((e3 x).1 hx).1.1).1, rfl⟩
      rw [k2] at ht'
      cases ht'
      exact k3)
    (fun r r' h => ⟨fun x hx => ⟨h.2.1 x hx, fun h => by cases h⟩, fun l hl => by rw [h.2.2] at hl; cases hl⟩)
  have h1 : driverSh env "ws".toList (natText 3) flags s = (s', 0) := h1
  rw [h1]
  exact ⟨rfl, h9 t h5 (hnone t h3)⟩

/-- C80 fails: flags that do not exist are ignored. -/
theorem C80_unknown_flags (env : Env F κ) (T N : Text) (flags : List Flag) (s : Store) :
    driverSh env T N flags s = driverSh env T N (flags.filter fun f => f ≠ .other) s := by
  have : ∀ st : Options × Store, flags.foldl (driverFlag T N) st =
      (flags.filter fun f => f ≠ .other).foldl (driverFlag T N) st := by
    induction flags with
    | nil => exact fun _ => rfl
    | cons f l ih =>
      intro st
      rw [List.foldl_cons, List.filter_cons, ih]
      split
      · rfl
      · rename_i h
        have : f = .other := by simpa using h
        subst this
        rfl
  unfold driverSh
  rw [this]

/-- C80, what holds: a status other than 0 is 1, and then nothing has been changed. (Missing: status 0 does not mean
that the results are there.) -/
theorem C80_refusal_partial (env : Env F κ) (T N : Text) (flags : List Flag) (s : Store)
    (h : (driverSh env T N flags s).2 ≠ 0) : driverSh env T N flags s = (s, 1) := by
  unfold driverSh at h ⊢
  by_cases h0 : T = [] ∨ N = []
  · rw [if_pos h0]
  · rw [if_neg h0] at h ⊢
    have e2 := hasRowsum_flags T N flags (.default, s)
    have e3 := flags_noclean T N flags
    rcases hst : flags.foldl (driverFlag T N) (.default, s) with ⟨o, s1⟩
    rw [hst] at e2 h
    dsimp only at e2 h ⊢
    by_cases hr : hasRowsumDirs s1 T N = true
    · rw [if_pos hr]
      obtain ⟨e, _, _, h2⟩ := e2.1 hr
      have := e3 h2 (.default, s)
      rw [hst] at this
      exact Prod.ext this rfl
    · rw [if_neg hr, stages_eq env T N o (mkdir_some s1 T N)] at h
      exact absurd rfl h

-- The driver refuses to overwrite the directory of an earlier run.
example (env : Env F κ) : (driverSh env "qts".toList "5".toList [.h]
    (fun a b => if (a, b) = ("qts".toList, "5".toList) then some ⟨[], [("rowsum_1_1_3_3".toList, [])]⟩ else none)).2 ≠ 0 := by
  rw [Ne, C80_status]
  rintro ⟨_, _, h⟩
  have := h ("rowsum_1_1_3_3".toList, []) (by decide) (by decide)
  revert this
  decide

/-! ## C81: the numbers reported -/

/-- C81. After the pair stage and the sorting, `countpairs.sh` prints the total printed by the pair stage. -/
theorem C81_countpairs (A : Fl F) (n : ℕ) (ty : SeqType) (mo : MatchOption) (pr : Option Pairing) (w : List (Text × Dir))
    (hw : writePairs A n ty mo pr = some w) (s : Store) (hd : SameDirs (subDirs s ty.toText (natText n)) w) :
    (writePairsRun A n ty mo pr).result = some (countPairsSh (sortPairsSh s ty.toText (natText n)).1 ty.toText (natText n)) := by
  obtain ⟨l, hl, hrun⟩ := pairsRun_some A hw
  rw [hrun]
  show some _ = some _
  congr 1
  have e1 : countPairsSh (sortPairsSh s ty.toText (natText n)).1 ty.toText (natText n) =
      ((subDirs (sortPairsSh s ty.toText (natText n)).1 ty.toText (natText n)).map fun e => dirLines e.2).sum := by
    unfold countPairsSh subDirs
    cases (sortPairsSh s ty.toText (natText n)).1 ty.toText (natText n) <;> rfl
  rw [e1, sort_dirs, List.map_map]
  have hs := (pairs_names hw).2.2
  have hf := writePairs_dirs A hw hl
  obtain ⟨ds, hp, hD⟩ := hd
  have e2 : (subDirs s ty.toText (natText n)).map ((fun e : Text × Dir => dirLines e.2) ∘ fun e => (e.1, sortDirSh e.2)) =
      ds.map fun e => dirLines (sortDir e.2) := by
    have hs' : ∀ e ∈ ds, Sortable e.2 := fun e he => hs e (hp.mem_iff.1 he)
    generalize subDirs s ty.toText (natText n) = D at hD
    clear hp hrun
    induction hD with
    | nil => rfl
    | @cons a b D ds hab _ ih =>
      rw [List.map_cons, List.map_cons, ih fun e he => hs' e (List.mem_cons_of_mem _ he)]
      congr 1
      exact dirLines_perm ((sortDirSh_perm (sortable_perm hab.2 (hs' b (List.mem_cons_self ..)))).trans (sortDir_perm hab.2))
  rw [e2, (hp.map _).sum_eq]
  congr 1
  clear e2 hp hrun hD hs hw hl e1
  induction hf with
  | nil => rfl
  | cons hab _ ih => rw [List.map_cons, List.map_cons, ih, sortedDir_lines A hab.2]

/-- C81. For QT sequences in exact arithmetic that total is the number of pairs of sequences that have the row sums of a
generated quadruple and whose power spectra stay below the bound. -/
theorem C81_total (n : ℕ) [NeZero n] (hn : n < 2 ^ 62) (mo : MatchOption) (pr : Option Pairing) (w : List (Text × Dir))
    (hw : writePairs exactFl n .quaternionType mo pr = some w) :
    ∃ l, generateRowsums n .quaternionType = some l ∧
      (writePairsRun exactFl n .quaternionType mo pr).result = some ((l.map fun rs =>
        (PairSet n (tagRowsum rs (pairingTags pr).1.1) (tagRowsum rs (pairingTags pr).1.2)).ncard +
        (PairSet n (tagRowsum rs (pairingTags pr).2.1) (tagRowsum rs (pairingTags pr).2.2)).ncard).sum) := by
  obtain ⟨l, hl, hrun⟩ := pairsRun_some exactFl hw
  refine ⟨l, hl, ?_⟩
  rw [hrun]
  show some _ = some _
  congr 2
  refine List.map_congr_left fun rs hrs => ?_
  obtain ⟨p12, p34, e12, e34⟩ := Keys.pairing_sign pr
  have hsq := Complete.generated_squares hl hrs
  rw [pairCount_exact hn hsq mo e12, pairCount_exact hn hsq mo e34]

-- The hypotheses are met.
example : ∃ w, writePairs exactFl 5 .quaternionType .correlation none = some w ∧ w ≠ [] := by
  obtain ⟨w, h1, _, h2⟩ := C32_enumeration exactFl id 5 (by norm_num) (C28_numerics 5 _)
    .quaternionType (.inl rfl) none
  exact ⟨w, h1, pairs_ne_nil (.inl rfl) fun dirs hd => h2 dirs hd ⟨exQTS5, exQTS5_isQTS⟩⟩

/-- C81. The number of lines of `result.mat`, printed by the driver, is the number of classes of Hadamard matrices that come
from the sequences. -/
theorem C81_matrices (s : Store) (T N : Text) (Q : QuadSeq → Prop) (h : MatsStored s T N Q) :
    (readTop s T N "result.mat".toList).map wcLines =
      some {c : Set HM | ∃ q m, Q q ∧ HM.fromWilliamson q .quaternionType = some m ∧ c = {y | HMEquiv m y}}.ncard := by
  obtain ⟨out, ts, h1, h2, h3, h4, h5⟩ := h
  rw [h1, Option.map_some]
  congr 1
  rw [wc_unlines ts fun t ht => by
    obtain ⟨m, _, hm⟩ := forall₂_mem_right h2 ht
    exact (Print.magma_clean hm).1]
  rw [← h2.length_eq]
  have hinj : ∀ x ∈ out, ∀ y ∈ out, ({z | HMEquiv x z} : Set HM) = {z | HMEquiv y z} → x = y := by
    intro x hx y hy e
    obtain ⟨_, q, hq, hm⟩ := h3 x hx
    obtain ⟨z, _, hz⟩ := h5 q hq x hm
    have hxx : HMEquiv x x := HadEquiv.HMEquiv.refl x
    have hxy : HMEquiv y x := by
      have : x ∈ ({z | HMEquiv x z} : Set HM) := hxx
      rw [e] at this
      exact this
    rw [hz x ⟨hx, hxx⟩, hz y ⟨hy, HadEquiv.HMEquiv.symm hxy⟩]
  have hnd : (out.map fun m => ({z | HMEquiv m z} : Set HM)).Nodup := by
    unfold List.Nodup
    rw [List.pairwise_map]
    refine h4.imp fun {x y} hxy e => hxy ?_
    have : y ∈ ({z | HMEquiv y z} : Set HM) := HadEquiv.HMEquiv.refl y
    rw [← e] at this
    exact this
  classical
  have e : {c : Set HM | ∃ q m, Q q ∧ HM.fromWilliamson q .quaternionType = some m ∧ c = {y | HMEquiv m y}} =
      ((out.map fun m => ({z | HMEquiv m z} : Set HM)).toFinset : Set (Set HM)) := by
    ext c
    simp only [List.coe_toFinset, List.mem_map, Set.mem_ofPred_eq]
    constructor
    · rintro ⟨q, m, hq, hm, rfl⟩
      obtain ⟨z, ⟨hz, hmz⟩, _⟩ := h5 q hq m hm
      refine ⟨z, hz, ?_⟩
      ext y
      exact ⟨fun h => HadEquiv.HMEquiv.trans hmz h, fun h => HadEquiv.HMEquiv.trans (HadEquiv.HMEquiv.symm hmz) h⟩
    · rintro ⟨m, hm, rfl⟩
      obtain ⟨_, q, hq, e⟩ := h3 m hm
      exact ⟨q, m, hq, e, rfl⟩
  rw [e, Set.ncard_coe_finset, List.toFinset_card_of_nodup hnd, List.length_map]

/-- C81. The number of lines of `result.seq` is the number of equivalence classes of sequences. -/
theorem C81_sequences (n : ℕ) [NeZero n] (hn : n ≤ 31) (ty : SeqType) (hty : ty = .quaternionType ∨ ty = .williamsonType)
    (s : Store) (T N name t : Text) (r : List QuadSeq) (hs : SeqsStored s T N name r) (ht : readTop s T N name = some t)
    (hnd : r.Nodup) (hr : ∀ x, x ∈ r ↔ LeastInClass n ty x) :
    (readLines t).length =
      {c : Set QuadSeq | ∃ q, OfType n ty q ∧ c = {x | PMQuad n x ∧ TypeEquiv ty (fam n q) (fam n x)}}.ncard := by
  have hE := typeEquiv_equivalence n ty
  have hpm : ∀ {x}, OfType n ty x → PMQuad n x := fun h => (verify_of_ofType h).1
  obtain ⟨t', h1, h2⟩ := hs
  rw [ht] at h1
  cases h1
  rw [h2.length_eq]
  have huniq : ∀ x y, LeastInClass n ty x → LeastInClass n ty y → TypeEquiv ty (fam n x) (fam n y) → x = y := by
    intro x y hx hy e
    exact flat_inj (pm_len (hpm hx.1)) (pm_len (hpm hy.1)) ((hpm hx.1).size.trans (hpm hy.1).size.symm)
      (le_antisymm (hx.2 y (hpm hy.1) e) (hy.2 x (hpm hx.1) (hE.symm e)))
  have hmem : ∀ x y, PMQuad n y →
      ({z | PMQuad n z ∧ TypeEquiv ty (fam n x) (fam n z)} : Set QuadSeq) =
        {z | PMQuad n z ∧ TypeEquiv ty (fam n y) (fam n z)} → TypeEquiv ty (fam n x) (fam n y) := by
    intro x y hy e
    have : y ∈ ({z | PMQuad n z ∧ TypeEquiv ty (fam n y) (fam n z)} : Set QuadSeq) := ⟨hy, hE.refl _⟩
    rw [← e] at this
    exact this.2
  classical
  have hnd' : (r.map fun x => ({z | PMQuad n z ∧ TypeEquiv ty (fam n x) (fam n z)} : Set QuadSeq)).Nodup := by
    refine (List.nodup_map_iff_inj_on hnd).2 fun x hx y hy e => ?_
    have hx := (hr x).1 hx
    have hy := (hr y).1 hy
    exact huniq x y hx hy (hmem x y (hpm hy.1) e)
  have e : {c : Set QuadSeq | ∃ q, OfType n ty q ∧ c = {x | PMQuad n x ∧ TypeEquiv ty (fam n q) (fam n x)}} =
      ((r.map fun x => ({z | PMQuad n z ∧ TypeEquiv ty (fam n x) (fam n z)} : Set QuadSeq)).toFinset :
        Set (Set QuadSeq)) := by
    ext c
    simp only [List.coe_toFinset, List.mem_map, Set.mem_ofPred_eq]
    constructor
    · rintro ⟨q, hq, rfl⟩
      obtain ⟨l, _, _, k3, k4, k5⟩ := C17_reduce n hn ty hty [q] (by simp) (fun s hs => by
        rw [List.mem_singleton] at hs; subst hs; exact hpm hq)
      obtain ⟨x, hx, e, _⟩ := k4 q (List.mem_singleton.2 rfl)
      refine ⟨x, (hr x).2 ⟨typeEquiv_ofType hty hq (k3 x hx).1 e, k5 x hx⟩, ?_⟩
      ext z
      exact and_congr_right fun _ => ⟨fun h => hE.trans e h, fun h => hE.trans (hE.symm e) h⟩
    · rintro ⟨x, hx, rfl⟩
      exact ⟨x, ((hr x).1 hx).1, rfl⟩
  rw [e, Set.ncard_coe_finset, List.toFinset_card_of_nodup hnd', List.length_map]

/-! ## C82: sorting again -/

/-- C82 fails: if some directory has no `*.pair` file when `sortpairs.sh` runs, the directories can no longer be joined:
whatever the program writes later, and however often the script is run again, the join stage panics. -/
theorem C82_no_pair_file (env : Env F κ) (hf : Env.Fair env) (ty : SeqType) (n : ℕ) (s : Store) (e : Text × Dir)
    (he : e ∈ subDirs s ty.toText (natText n)) (hp : ∀ f ∈ e.2, ¬ ".pair".toList <:+ f.1) (ops : List Write) :
    joinRun env (applyOps (sortPairsSh s ty.toText (natText n)).1 ops) ty n = ⟨[], none⟩ ∧
      joinRun env (sortPairsSh (applyOps (sortPairsSh s ty.toText (natText n)).1 ops) ty.toText (natText n)).1 ty n =
        ⟨[], none⟩ := by
  have h : HasName (sortPairsSh s ty.toText (natText n)).1 ty.toText (natText n) e.1 unmatchedName := by
    refine ⟨(e.1, sortDirSh e.2), ?_, rfl, ?_⟩
    · rw [sort_dirs]
      exact List.mem_map_of_mem (f := fun e : Text × Dir => (e.1, sortDirSh e.2)) he
    · rw [sort_without fun f hf => ?_]
      · exact (putFile_names _ _ _ _).2 (.inl rfl)
      · rw [Bool.eq_false_iff, Ne, suffix_iff]
        exact hp f hf
  exact ⟨join_hasName env hf (applyOps_hasName ops h),
    join_hasName env hf (sort_hasName (applyOps_hasName ops h) (by decide))⟩

/-- C82 fails: running `sortpairs.sh` a second time has this effect on every directory. -/
theorem C82_again (env : Env F κ) (hf : Env.Fair env) (ty : SeqType) (n : ℕ) (s : Store)
    (h : subDirs s ty.toText (natText n) ≠ []) (ops : List Write) :
    joinRun env (applyOps (sortPairsSh (sortPairsSh s ty.toText (natText n)).1 ty.toText (natText n)).1 ops) ty n =
      ⟨[], none⟩ := by
  obtain ⟨e, he⟩ := List.exists_mem_of_ne_nil _ h
  refine (C82_no_pair_file env hf ty n (sortPairsSh s ty.toText (natText n)).1 (e.1, sortDirSh e.2) ?_ (fun f hf hp => ?_)
    ops).1
  · rw [sort_dirs]
    exact List.mem_map_of_mem (f := fun e : Text × Dir => (e.1, sortDirSh e.2)) he
  · have := sort_no_pair e.2 f hf
    rw [Bool.eq_false_iff, Ne, suffix_iff] at this
    exact this hp

/-- C82, what holds: after the pair stage, the second run only adds an empty file to every directory: the sorted files
stay, and so does the number of pairs counted. (Missing: the join stage after the second run.) -/
theorem C82_adds_partial (A : Fl F) (n : ℕ) (ty : SeqType) (mo : MatchOption) (pr : Option Pairing) (w : List (Text × Dir))
    (hw : writePairs A n ty mo pr = some w) (s : Store) (hd : SameDirs (subDirs s ty.toText (natText n)) w) :
    let s1 := (sortPairsSh s ty.toText (natText n)).1
    let s2 := (sortPairsSh s1 ty.toText (natText n)).1
    subDirs s2 ty.toText (natText n) =
        (subDirs s1 ty.toText (natText n)).map (fun e => (e.1, e.2 ++ [("*.pair.sorted".toList, [])])) ∧
      countPairsSh s2 ty.toText (natText n) = countPairsSh s1 ty.toText (natText n) := by
  intro s1 s2
  have hs := (pairs_names hw).2.2
  obtain ⟨l, hl, _⟩ := pairsRun_some A hw
  have hf := writePairs_dirs A hw hl
  obtain ⟨ds, hp, hD⟩ := hd
  have hmem : ∀ e ∈ subDirs s ty.toText (natText n), unmatchedName ∉ (sortDirSh e.2).map Prod.fst := by
    intro e he
    obtain ⟨b, hb, _, heb⟩ := forall₂_mem_left hD he
    have hb' := hp.mem_iff.1 hb
    obtain ⟨rs, _, _, hrs⟩ := forall₂_mem_right hf hb'
    have hperm := (sortDirSh_perm (sortable_perm heb (hs b hb'))).trans (sortDir_perm heb)
    rw [(hperm.map Prod.fst).mem_iff]
    exact unmatched_not_mem A hrs
  have e1 : subDirs s2 ty.toText (natText n) =
      (subDirs s1 ty.toText (natText n)).map (fun e => (e.1, e.2 ++ [("*.pair.sorted".toList, [])])) := by
    show subDirs (sortPairsSh s1 _ _).1 _ _ = (subDirs (sortPairsSh s _ _).1 _ _).map _
    rw [sort_dirs, sort_dirs, List.map_map, List.map_map]
    refine List.map_congr_left fun e he => ?_
    refine Prod.ext rfl ?_
    show sortDirSh (sortDirSh e.2) = _
    rw [sort_twice]
    unfold putFile
    rw [if_neg (hmem e he)]
    rfl
  refine ⟨e1, ?_⟩
  rw [count_eq, count_eq, e1, List.map_map]
  congr 1
  refine List.map_congr_left fun e _ => ?_
  show dirLines (e.2 ++ [("*.pair.sorted".toList, [])]) = dirLines e.2
  unfold dirLines
  rw [List.filter_append, List.map_append, List.sum_append]
  exact Nat.add_zero _

-- The hypotheses are met by the store that the pair stage leaves in an empty one.
example (ty : SeqType) (n : ℕ) (w : List (Text × Dir)) : SameDirs (subDirs
    (fun a b => if (a, b) = (ty.toText, natText n) then some ⟨[], w⟩ else none) ty.toText (natText n)) w := by
  refine ⟨w, .refl _, ?_⟩
  unfold subDirs
  dsimp only
  rw [if_pos rfl]
  exact List.forall₂_same.2 fun e _ => ⟨rfl, .refl _⟩

/-! ## C83: the stages one by one -/

/-- C83. The separate scripts, run one after the other, leave the same files as the driver. -/
theorem C83_stages (env : Env F κ) (T N : Text) (flags : List Flag) (s : Store) (h : (driverSh env T N flags s).2 = 0) :
    (pairsSh env T N flags s).2 = 0 ∧
      (driverSh env T N flags s).1 =
        let s1 := (pairsSh env T N flags s).1
        let s2 := joinPairsSh env T N (sortPairsSh s1 T N).1
        let s3 := if .h ∈ flags then convertHmSh env T N s2 else s2
        convertQhmSh env T N s3 := by
  unfold driverSh pairsSh at *
  by_cases h0 : T = [] ∨ N = []
  · rw [if_pos h0] at h; cases h
  · rw [if_neg h0] at h ⊢
    rw [if_neg h0]
    obtain ⟨e1, e2, e3⟩ := pairsFlags_eq T N flags .default .default s rfl rfl
    have e4 := (flags_options T N flags (.default, s)).2.1
    rcases hst : flags.foldl (driverFlag T N) (.default, s) with ⟨o, s1⟩
    rcases hst' : flags.foldl (pairsFlag T N) (.default, s) with ⟨o', s1'⟩
    rw [hst] at e1 e2 e3 e4 h
    rw [hst'] at e1 e2 e3
    dsimp only at e1 e2 e3 e4 h ⊢
    subst e1
    by_cases hr : hasRowsumDirs s1' T N = true
    · rw [if_pos hr] at h; cases h
    · rw [if_neg hr, if_neg hr, stages_eq env T N o (mkdir_some s1' T N), e2, e3]
      refine ⟨rfl, ?_⟩
      have k1 := program_keep env (["pairs".toList, T, N, o.matchOption] ++ shellWords o.pairing) (mkdir_some s1' T N)
      have k2 := sort_keep T N k1
      unfold convertQhmSh joinPairsSh convertHmSh
      dsimp only
      rw [if_pos k2, e4]
      simp [Options.default]

/-- C83. Without the folder of the length, the scripts of the later stages change nothing. -/
theorem C83_no_folder (env : Env F κ) (ty : SeqType) (n : ℕ) (hn : n < 2 ^ 64) (s : Store) (hs : s ty.toText (natText n) = none) :
    joinPairsSh env ty.toText (natText n) s = s ∧ convertHmSh env ty.toText (natText n) s = s ∧
      convertQhmSh env ty.toText (natText n) s = s := by
  have hty : strToSeqtype ty.toText = some ty := seqtype_text ty
  have hnn : parseUsize (natText n) = some n := Txt.parse_natText hn
  have ht : ∀ x, readTop s ty.toText (natText n) x = none := fun x => by
    unfold readTop
    rw [hs]
    rfl
  refine ⟨?_, ?_, ?_⟩
  · unfold joinPairsSh
    rw [hs]
    rfl
  · unfold convertHmSh runProgram
    rw [main_hm env s hty hnn]
    unfold convertHmRun
    dsimp only
    rw [ht]
    rfl
  · unfold convertQhmSh runProgram
    rw [main_qhm env s hty hnn]
    unfold convertQhmRun
    rw [ht]
    rfl

/-- C83. If the driver refuses to work, so does `pairs.sh`. -/
theorem C83_refusal (env : Env F κ) (T N : Text) (flags : List Flag) (s : Store) :
    (driverSh env T N flags s).2 ≠ 0 ↔ pairsSh env T N flags s = (s, 1) := by
  constructor
  · intro h
    have hd := C80_status env T N flags s
    unfold pairsSh
    by_cases h0 : T = [] ∨ N = []
    · rw [if_pos h0]
    · rw [if_neg h0]
      obtain ⟨e1, -, -⟩ := pairsFlags_eq T N flags .default .default s rfl rfl
      have e2 := hasRowsum_flags T N flags (.default, s)
      have e3 := flags_noclean T N flags
      rcases hst : flags.foldl (driverFlag T N) (.default, s) with ⟨o, s1⟩
      rcases hst' : flags.foldl (pairsFlag T N) (.default, s) with ⟨o', s1'⟩
      rw [hst, hst'] at e1
      rw [hst] at e2
      dsimp only at e1 e2 ⊢
      subst e1
      by_cases hr : hasRowsumDirs s1' T N = true
      · rw [if_pos hr]
        obtain ⟨e, _, _, h2⟩ := e2.1 hr
        have := e3 h2 (.default, s)
        rw [hst] at this
        exact Prod.ext this rfl
      · refine absurd (hd.2 ⟨fun e => h0 (.inl e), fun e => h0 (.inr e), fun e he h1 => ?_⟩) h
        by_contra hc
        exact hr (e2.2 ⟨e, he, h1, hc⟩)
  · intro h h0
    have := (C83_stages env T N flags s h0).1
    rw [h] at this
    cases this

-- The driver does work: nothing stands in its way in an empty store.
example (env : Env F κ) : (driverSh env "qts".toList "5".toList [.c, .h] fun _ _ => none).2 = 0 :=
  (C80_status ..).2 ⟨by decide, by decide, fun e he => by cases he⟩

end Props
