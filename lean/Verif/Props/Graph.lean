import Verif.Proofs.Conversion
import Verif.Props.Matrices
import Verif.Props.FindWrite

/-!
# Properties C46, C64 - C66: Hadamard matrices up to equivalence
-/

set_option linter.unusedVariables false

namespace Props
open Model Spec Proofs Proofs.Conversion

/-! ## C46: the graph of a Hadamard matrix -/

/-- C46. Two Hadamard matrices have isomorphic graphs iff they have the same size and one is obtained from the other by
permuting and negating rows and columns. -/
theorem C46_graph_iff (m1 m2 : HM) (h1 : HMHadamard m1) (h2 : HMHadamard m2) :
    Graph.Iso (graphFromHm m1) (graphFromHm m2) ↔ HMEquiv m1 m2 :=
  Grph.graph_iso_iff m1 m2 h1.2 h2.2.1

/-- C46. With an exact labelling the isomorphism test decides equivalence. -/
theorem C46_are_isomorphic {κ : Type} [DecidableEq κ] (canon : Graph → κ) (hc : ExactLabelling canon) (m1 m2 : HM)
    (h1 : HMHadamard m1) (h2 : HMHadamard m2) :
    areIsomorphic canon (graphFromHm m1) (graphFromHm m2) = true ↔ HMEquiv m1 m2 := by
  unfold areIsomorphic
  rw [decide_eq_true_iff, hc, C46_graph_iff m1 m2 h1 h2]

/-- C46. The reduction of a list of Hadamard matrices is a sublist of it and has exactly one member in every class met by
the list. -/
theorem C46_reduce {κ : Type} [DecidableEq κ] (canon : Graph → κ) (hc : ExactLabelling canon) (mats : List HM)
    (hm : ∀ m ∈ mats, HMHadamard m) :
    (reduceToHadamardEquivalence canon mats).Sublist mats ∧
      (reduceToHadamardEquivalence canon mats).Pairwise (fun x y => ¬ HMEquiv x y) ∧
      ∀ m ∈ mats, ∃! y, y ∈ reduceToHadamardEquivalence canon mats ∧ HMEquiv m y := by
  obtain ⟨h1, h2, h3⟩ := uniqueBy_spec (canonHm canon) mats
  obtain ⟨_, k2, k3⟩ := classes_of_keys hc hm (fun x hx => h1.subset hx) h2 h3
  exact ⟨h1, k2, k3⟩

/-- The class of the verified sequence types in which a line of the input file lies, and the matrix built from it. -/
def LineMatrix (ty : SeqType) (line : Text) (m : HM) : Prop :=
  ∃ q, (QS.fromStr line).bind QuadSeq.fromPqs = some q ∧ (∃ (n : ℕ) (_ : NeZero n), OfType n ty q ∧ m.size = 4 * n) ∧
    HM.fromWilliamson q .quaternionType = some m

theorem ofType_of_verify {n : ℕ} [NeZero n] {ty : SeqType} {q : QuadSeq} (hq : PMQuad n q) (h : q.verify ty = true) :
    OfType n ty q ∧ IsWTS n q := by
  cases ty
  case quaternionType =>
    have := (C08_verify_qts n q hq).1 h
    exact ⟨this, (C04_isQTS_iff_isWTS n q).1 this⟩
  case williamsonType =>
    have := (C08_verify_wts n q hq).1 h
    exact ⟨this, this⟩
  case williamson =>
    have := (C08_verify_ws n q hq).1 h
    exact ⟨this, isWTS_of_isWS this⟩
  all_goals exact absurd h (by unfold QuadSeq.verify; simp)

theorem verify_of_ofType {n : ℕ} [NeZero n] {ty : SeqType} {q : QuadSeq} (h : OfType n ty q) :
    PMQuad n q ∧ q.verify ty = true ∧ IsWTS n q := by
  cases ty
  case quaternionType =>
    have h : IsQTS n q := h
    exact ⟨h.1, (C08_verify_qts n q h.1).2 h, (C04_isQTS_iff_isWTS n q).1 h⟩
  case williamsonType =>
    have h : IsWTS n q := h
    exact ⟨h.1, (C08_verify_wts n q h.1).2 h, h⟩
  case williamson =>
    have h : IsWS n q := h
    exact ⟨h.1, (C08_verify_ws n q h.1).2 h, isWTS_of_isWS h⟩
  all_goals exact absurd h (by unfold OfType; simp)

/-- C46, the conversion command. If it does not panic, every line of the input is a sequence of the requested type, the
matrix of each line is Hadamard, and the matrices written are, without repetition, exactly one from every equivalence
class of the matrices of the lines - for every iteration order of the hash map. -/
theorem C46_from_file {κ : Type} [DecidableEq κ] (canon : Graph → κ) (hc : ExactLabelling canon)
    (order : List HM → List HM) (ho : ∀ l, (order l).Perm l) (debug : Bool) (ty : SeqType) (t : Text) (out : List HM)
    (h : hadamardRepresentatives canon order debug ty t = some out) :
    ∃ mats, List.Forall₂ (LineMatrix ty) (readLines t) mats ∧ (∀ m ∈ mats, HMHadamard m) ∧ (∀ m ∈ out, m ∈ mats) ∧
      out.Pairwise (fun x y => ¬ HMEquiv x y) ∧ ∀ m ∈ mats, ∃! y, y ∈ out ∧ HMEquiv m y := by
  unfold hadamardRepresentatives at h
  obtain ⟨l, hl, h⟩ := Option.bind_eq_some_iff.1 h
  split at h
  · rename_i hv
    obtain ⟨mats, hmats, rfl⟩ := Option.map_eq_some_iff.1 h
    have hl' := mapM_some_iff.1 hl
    have hm' := mapM_some_iff.1 hmats
    have hv' : ∀ q ∈ l, q.size ≠ 0 ∧ q.verify ty = true := by
      intro q hq
      have := (List.all_eq_true.1 hv) q hq
      simpa using this
    have key : ∀ (lines : List Text) (l : List QuadSeq) (mats : List HM),
        List.Forall₂ (fun x y => readCanonicalLine debug x = some y) lines l →
        List.Forall₂ (fun x y => HM.fromWilliamson x .quaternionType = some y) l mats →
        (∀ q ∈ l, q.size ≠ 0 ∧ q.verify ty = true) →
        List.Forall₂ (LineMatrix ty) lines mats ∧ ∀ m ∈ mats, HMHadamard m := by
      intro lines l mats h1
      induction h1 generalizing mats with
      | nil => intro h2 _; cases h2; exact ⟨.nil, by simp⟩
      | cons hx hxs ih =>
        intro h2 h3
        obtain ⟨m, ms, e1, e2, rfl⟩ := List.forall₂_cons_left_iff.1 h2
        obtain ⟨i1, i2⟩ := ih ms e2 fun q hq => h3 q (List.mem_cons_of_mem _ hq)
        rename_i line q _ _
        obtain ⟨hp, _⟩ := readCanonical_some hx
        obtain ⟨hpm, hsz⟩ := parse_line hp
        obtain ⟨hne, hver⟩ := h3 q (List.mem_cons_self ..)
        have : NeZero line.length := ⟨by rw [← hsz]; exact hne⟩
        obtain ⟨hot, hwt⟩ := ofType_of_verify hpm hver
        obtain ⟨m', k1, k2, k3, k4, k5, k6⟩ := C34_hadamard_iff_qts line.length q hpm
        rw [e1] at k1
        cases k1
        refine ⟨.cons ⟨q, hp, ⟨_, this, hot, k2⟩, e1⟩ i1, ?_⟩
        intro x hx
        rcases List.mem_cons.1 hx with rfl | hx
        · refine ⟨by rw [k2]; exact k3, ?_⟩
          rw [k2]
          exact k6.2 hwt
        · exact i2 x hx
    obtain ⟨a1, a2⟩ := key _ _ _ hl' hm' hv'
    obtain ⟨b1, b2, b3⟩ := mapValues_spec (canonHm canon) mats
    have hp := ho (((mats.map fun m => (canonHm canon m, m)).foldl mapInsert []).map Prod.snd)
    have hp2 : (order (((mats.map fun m => (canonHm canon m, m)).foldl mapInsert []).map Prod.snd)).Pairwise
        (fun x y => canonHm canon x ≠ canonHm canon y) := by
      exact (hp.pairwise_iff (fun {a b} h => h.symm)).2 b2
    obtain ⟨c1, c2, c3⟩ := classes_of_keys hc a2 (fun x hx => b1 x (hp.mem_iff.1 hx)) hp2 (fun x hx => by
      obtain ⟨y, hy, e⟩ := b3 x hx
      exact ⟨y, hp.mem_iff.2 hy, e⟩)
    exact ⟨mats, a1, a2, fun m hm => b1 m (hp.mem_iff.1 hm), c2, c3⟩
  · cases h

/-- C46. The conversion succeeds on every file whose lines are non-empty sequences of the type (canonical ones if debug
assertions are enabled), and then the matrices are printed. -/
theorem C46_succeeds {κ : Type} [DecidableEq κ] (canon : Graph → κ) (order : List HM → List HM)
    (ho : ∀ l, (order l).Perm l) (debug : Bool) (ty : SeqType) (t : Text)
    (h : ∀ line ∈ readLines t, ∃ (n : ℕ) (_ : NeZero n) (q : QuadSeq),
      (QS.fromStr line).bind QuadSeq.fromPqs = some q ∧ OfType n ty q ∧ (debug = true → nsCanonical q = some q)) :
    ∃ out text, hadamardRepresentatives canon order debug ty t = some out ∧
      hadamardEquivalenceFromFile canon order debug ty t = some text ∧
      ∃ ps, text = unlines ps ∧ List.Forall₂ (fun m p => m.toStringMagma = some p) out ps := by
  have h1 : ∃ l mats, (readLines t).mapM (readCanonicalLine debug) = some l ∧
      (l.all fun q => q.size ≠ 0 && q.verify ty) = true ∧
      (l.mapM fun seq => HM.fromWilliamson seq .quaternionType) = some mats ∧ ∀ m ∈ mats, m.size ≠ 0 := by
    revert h
    generalize readLines t = lines
    intro h
    induction lines with
    | nil => exact ⟨[], [], rfl, rfl, rfl, by simp⟩
    | cons a lines ih =>
      obtain ⟨l, mats, k1, k2, k3, k4⟩ := ih fun line hl => h line (List.mem_cons_of_mem _ hl)
      obtain ⟨n, hn, q, e1, e2, e3⟩ := h a (List.mem_cons_self ..)
      obtain ⟨p1, p2, p3⟩ := verify_of_ofType e2
      obtain ⟨m, m1, m2, _⟩ := C34_hadamard_iff_qts n q p1
      refine ⟨q :: l, m :: mats, ?_, ?_, ?_, ?_⟩
      · rw [List.mapM_cons, readCanonical_of e1 e3, k1]; rfl
      · rw [List.all_cons, k2, p2, p1.size]; simp [NeZero.ne n]
      · rw [List.mapM_cons, m1, k3]; rfl
      · intro x hx
        rcases List.mem_cons.1 hx with rfl | hx
        · rw [m2]; have := NeZero.ne n; omega
        · exact k4 x hx
  obtain ⟨l, mats, k1, k2, k3, k4⟩ := h1
  refine ⟨order (((mats.map fun m => (canonHm canon m, m)).foldl mapInsert []).map Prod.snd), ?_⟩
  have hrep : hadamardRepresentatives canon order debug ty t =
      some (order (((mats.map fun m => (canonHm canon m, m)).foldl mapInsert []).map Prod.snd)) := by
    unfold hadamardRepresentatives
    rw [k1, Option.bind_some, if_pos k2, k3]
    rfl
  have hsz : ∀ m ∈ order (((mats.map fun m => (canonHm canon m, m)).foldl mapInsert []).map Prod.snd), m.size ≠ 0 := by
    intro m hm
    exact k4 m ((mapValues_spec (canonHm canon) mats).1 m ((ho _).mem_iff.1 hm))
  generalize order (((mats.map fun m => (canonHm canon m, m)).foldl mapInsert []).map Prod.snd) = out at hrep hsz
  have : ∃ ps, out.mapM HM.toStringMagma = some ps := by
    cases hp : out.mapM HM.toStringMagma with
    | some ps => exact ⟨ps, rfl⟩
    | none =>
      obtain ⟨m, hm, e⟩ := mapM_eq_none.1 hp
      unfold HM.toStringMagma at e
      rw [if_neg (hsz m hm)] at e
      cases e
  obtain ⟨ps, hps⟩ := this
  refine ⟨unlines ps, hrep, ?_, ps, rfl, mapM_some_iff.1 hps⟩
  unfold hadamardEquivalenceFromFile
  rw [hrep, Option.bind_some, hps]
  rfl

/-- An exact labelling exists: the class of the graph. -/
theorem exact_exists : ∃ (κ : Type) (canon : Graph → κ), ExactLabelling canon := by
  have heq : Equivalence Graph.Iso :=
    ⟨fun g => ⟨Equiv.refl _, fun u v => Iff.rfl⟩,
     fun {g1 g2} h => by
      obtain ⟨f, hf⟩ := h
      refine ⟨f.symm, fun u v => ?_⟩
      have := hf (f.symm u) (f.symm v)
      rw [Equiv.apply_symm_apply, Equiv.apply_symm_apply] at this
      exact this.symm,
     fun {g1 g2 g3} h h' => by
      obtain ⟨f, hf⟩ := h
      obtain ⟨f', hf'⟩ := h'
      exact ⟨f.trans f', fun u v => (hf u v).trans (hf' (f u) (f v))⟩⟩
  refine ⟨Quotient ⟨Graph.Iso, heq⟩, fun g => Quotient.mk _ g, fun g1 g2 => ?_⟩
  exact Quotient.eq (r := ⟨Graph.Iso, heq⟩)

/-- Two different equivalent Hadamard matrices: the matrix of order 2 and the one with its first row negated; and a
±1 matrix of order 2 that is not equivalent to them. -/
def exHM2 : HM := { size := 2, matrix := [[1, 1], [1, -1]] }
def exHM2' : HM := { size := 2, matrix := [[-1, -1], [1, -1]] }
example : HMHadamard exHM2 ∧ HMHadamard exHM2' ∧ exHM2 ≠ exHM2' ∧ HMEquiv exHM2 exHM2' :=
  ⟨⟨by decide, by decide⟩, ⟨by decide, by decide⟩, by decide, rfl,
    1, 1, fun i => if i.val = 0 then -1 else 1, fun _ => 1, fun i => by dsimp only; split <;> simp, fun _ => .inl rfl,
    by decide⟩
example : (graphFromHm exHM2).nodes = 8 ∧ (graphFromHm exHM2).edges =
    [(0, 0), (1, 1), (2, 2), (3, 3), (0, 4), (2, 6), (0, 5), (2, 7), (1, 4), (3, 6), (1, 7), (3, 5)] := by decide
/-- The model run on a file with a repeated line (keyed by the graph itself). -/
example : ((exQTS5.toQs.bind QS.toStringRaw).bind fun l =>
    (hadamardRepresentatives id id false .quaternionType (unlines [l, l])).map List.length) = some 1 := by decide +kernel

/-! ## C64: QT equivalence implies Hadamard equivalence -/

/-- C64. The matrices of two QT-equivalent ±1 quadruples are equivalent. -/
theorem C64_qt_implies_hadamard (n : ℕ) [NeZero n] (s t : QuadSeq) (hs : PMQuad n s) (ht : PMQuad n t)
    (h : QTEquiv (fam n s) (fam n t)) :
    ∃ m m', HM.fromWilliamson s .quaternionType = some m ∧ HM.fromWilliamson t .quaternionType = some m' ∧
      HMEquiv m m' := HadEquiv.hm_equiv hs ht h

/-- Different QT-equivalent quadruples. -/
example : PMQuad 5 exQTS5 ∧ ∃ t, PMQuad 5 t ∧ t ≠ exQTS5 ∧ QTEquiv (fam 5 exQTS5) (fam 5 t) := by
  obtain ⟨r, h1, h2, h3, _⟩ := C14_ns_canonical 5 exQTS5 exQTS5_pm
  refine ⟨exQTS5_pm, r, h2, ?_, ns_qt h3⟩
  rintro rfl
  revert h1
  decide

/-! ## C66: the result files -/

/-- C66. Writing a list of ±1 quadruples to a result file and reading the file line by line gives the list back. -/
theorem C66_result_file (n : ℕ) [NeZero n] (l : List QuadSeq) (hl : ∀ s ∈ l, PMQuad n s) :
    ∃ t, resultText l = some t ∧ (readLines t).mapM (fun line => (QS.fromStr line).bind QuadSeq.fromPqs) = some l := by
  obtain ⟨t, h1, h2⟩ := resultText_spec hl
  exact ⟨t, h1, mapM_some_iff.2 (h2.imp fun _ _ h => h.1)⟩

example : (resultText [exQTS5, exQTS5]).map (fun t => (readLines t).length) = some 2 := by decide +kernel

/-! ## C65: from the enumeration to the matrices -/

/-- C65. Converting the result file of a list of sequences of a type (canonical ones) gives exactly one matrix from every
equivalence class of their matrices. -/
theorem C65_convert_list {κ : Type} [DecidableEq κ] (canon : Graph → κ) (hc : ExactLabelling canon)
    (order : List HM → List HM) (ho : ∀ l, (order l).Perm l) (debug : Bool) (ty : SeqType) (n : ℕ) [NeZero n]
    (l : List QuadSeq) (hl : ∀ s ∈ l, OfType n ty s ∧ (debug = true → nsCanonical s = some s)) :
    ∃ t out text, resultText l = some t ∧ hadamardRepresentatives canon order debug ty t = some out ∧
      hadamardEquivalenceFromFile canon order debug ty t = some text ∧
      (∀ m ∈ out, HMHadamard m ∧ ∃ s ∈ l, HM.fromWilliamson s .quaternionType = some m) ∧
      out.Pairwise (fun x y => ¬ HMEquiv x y) ∧
      ∀ s ∈ l, ∀ m, HM.fromWilliamson s .quaternionType = some m → ∃! y, y ∈ out ∧ HMEquiv m y := by
  obtain ⟨t, h1, h2⟩ := resultText_spec (n := n) (l := l) fun s hs => (verify_of_ofType (hl s hs).1).1
  have hmem : ∀ line ∈ readLines t, ∃ s ∈ l, (QS.fromStr line).bind QuadSeq.fromPqs = some s := by
    intro line hline
    obtain ⟨i, hi, rfl⟩ := List.getElem_of_mem hline
    have hi' : i < l.length := by rw [← h2.length_eq]; exact hi
    exact ⟨l[i], List.getElem_mem hi', (h2.get hi hi').1⟩
  obtain ⟨out, text, h3, h4, _⟩ := C46_succeeds canon order ho debug ty t fun line hline => by
    obtain ⟨s, hs, e⟩ := hmem line hline
    exact ⟨n, inferInstance, s, e, (hl s hs).1, (hl s hs).2⟩
  obtain ⟨mats, k1, k2, k3, k4, k5⟩ := C46_from_file canon hc order ho debug ty t out h3
  refine ⟨t, out, text, h1, h3, h4, fun m hm => ⟨k2 m (k3 m hm), ?_⟩, k4, fun s hs m hsm => ?_⟩
  · obtain ⟨i, hi, e⟩ := List.getElem_of_mem (k3 m hm)
    have hi' : i < (readLines t).length := by rw [k1.length_eq]; exact hi
    obtain ⟨q, q1, _, q3⟩ := k1.get hi' hi
    obtain ⟨s, hs, e'⟩ := hmem _ (List.getElem_mem hi')
    simp only [List.get_eq_getElem] at q1 q3
    rw [e'] at q1
    cases q1
    exact ⟨_, hs, by rw [q3, e]⟩
  · obtain ⟨i, hi, e⟩ := List.getElem_of_mem hs
    have hi' : i < (readLines t).length := by rw [h2.length_eq]; exact hi
    have hi'' : i < mats.length := by rw [← k1.length_eq]; exact hi'
    obtain ⟨q, q1, _, q3⟩ := k1.get hi' hi''
    have e' := (h2.get hi' hi).1
    simp only [List.get_eq_getElem] at q1 q3 e'
    rw [e'] at q1
    cases q1
    rw [e, hsm] at q3
    have := Option.some.inj q3
    exact k5 m (by rw [this]; exact List.getElem_mem hi'')

theorem ns_of_least {n : ℕ} [NeZero n] {x : QuadSeq} (hx : PMQuad n x)
    (hmin : ∀ t, PMQuad n t → QTEquiv (fam n x) (fam n t) → flat x ≤ flat t) : nsCanonical x = some x := by
  obtain ⟨q, k1, k2, k3, k4, _⟩ := C14_ns_canonical n x hx
  rw [k1]
  exact congrArg some (flat_inj (pm_len k2) (pm_len hx) (k2.size.trans hx.size.symm)
    (le_antisymm (k4 x hx (.refl _)) (hmin q k2 (ns_qt k3))))

/-- C65. Enumerating the QT sequences of length `n ≤ 31` with either matching option and converting the result gives exactly
one matrix from every Hadamard equivalence class that contains the matrix of a QT sequence of length `n`. -/
theorem C65_qts {K : Type} (A : Fl K) (val : K → ℝ) (n : ℕ) [NeZero n] (hn : n ≤ 31) {mo : MatchOption} (hN : Numerics A val n mo) (pr : Option Pairing) (hex : ∃ q, IsQTS n q) {κ : Type} [DecidableEq κ] (canon : Graph → κ)
    (hc : ExactLabelling canon) (order : List HM → List HM) (ho : ∀ l, (order l).Perm l) (debug : Bool) :
    ∃ w, writePairs A n .quaternionType mo pr = some w ∧ ∀ dirs, Listing w dirs →
      ∃ r t out text, findWriteQuadSeq n .quaternionType dirs = some (r, none) ∧ resultText r = some t ∧
        hadamardRepresentatives canon order debug .quaternionType t = some out ∧
        hadamardEquivalenceFromFile canon order debug .quaternionType t = some text ∧
        (∀ m ∈ out, HMHadamard m ∧ ∃ s, IsQTS n s ∧ HM.fromWilliamson s .quaternionType = some m) ∧
        out.Pairwise (fun x y => ¬ HMEquiv x y) ∧
        ∀ s, IsQTS n s → ∀ m, HM.fromWilliamson s .quaternionType = some m → ∃! y, y ∈ out ∧ HMEquiv m y := by
  obtain ⟨w, h1, _, h3⟩ := C32_enumeration A val n hn hN .quaternionType (.inl rfl) pr
  refine ⟨w, h1, fun dirs hd => ?_⟩
  obtain ⟨r, hr, _, hleast, hty, hrep⟩ := h3 dirs hd hex
  obtain ⟨t, out, text, k1, k2, k3, k4, k5, k6⟩ := C65_convert_list canon hc order ho debug .quaternionType n r
    fun s hs => ⟨hty s hs, fun _ => ns_of_least (verify_of_ofType (hty s hs)).1 ((hleast s).1 hs).2⟩
  refine ⟨r, t, out, text, by unfold findWriteQuadSeq; rw [hr]; rfl, k1, k2, k3, fun m hm => ⟨(k4 m hm).1, ?_⟩, k5, ?_⟩
  · obtain ⟨s, hs, e⟩ := (k4 m hm).2
    exact ⟨s, hty s hs, e⟩
  · intro s hs m hm
    obtain ⟨x, hx, hsx, _⟩ := hrep s hs
    obtain ⟨m1, m2, e1, e2, he⟩ := C64_qt_implies_hadamard n s x hs.1 (verify_of_ofType (hty x hx)).1 hsx
    rw [hm] at e1
    cases e1
    obtain ⟨y, ⟨y1, y2⟩, y3⟩ := k6 x hx m2 e2
    exact ⟨y, ⟨y1, HadEquiv.HMEquiv.trans he y2⟩, fun z hz => y3 z ⟨hz.1, HadEquiv.HMEquiv.trans (HadEquiv.HMEquiv.symm he) hz.2⟩⟩

/-- C65. The same for Williamson-type sequences, converting `result-qts.seq`. -/
theorem C65_wts {K : Type} (A : Fl K) (val : K → ℝ) (n : ℕ) [NeZero n] (hn : n ≤ 31) {mo : MatchOption} (hN : Numerics A val n mo) (pr : Option Pairing) (hex : ∃ q, IsWTS n q) {κ : Type} [DecidableEq κ] (canon : Graph → κ)
    (hc : ExactLabelling canon) (order : List HM → List HM) (ho : ∀ l, (order l).Perm l) (debug : Bool) :
    ∃ w, writePairs A n .williamsonType mo pr = some w ∧ ∀ dirs, Listing w dirs →
      ∃ r r' t out text, findWriteQuadSeq n .williamsonType dirs = some (r, some r') ∧ resultText r' = some t ∧
        hadamardRepresentatives canon order debug .williamsonType t = some out ∧
        hadamardEquivalenceFromFile canon order debug .williamsonType t = some text ∧
        (∀ m ∈ out, HMHadamard m ∧ ∃ s, IsWTS n s ∧ HM.fromWilliamson s .quaternionType = some m) ∧
        out.Pairwise (fun x y => ¬ HMEquiv x y) ∧
        ∀ s, IsWTS n s → ∀ m, HM.fromWilliamson s .quaternionType = some m → ∃! y, y ∈ out ∧ HMEquiv m y := by
  obtain ⟨w, h1, h3⟩ := C32_up_to_qt A val n hn hN pr hex
  obtain ⟨w', h1', _, h3'⟩ := C32_enumeration A val n hn hN .williamsonType (.inr rfl) pr
  rw [h1] at h1'
  cases h1'
  refine ⟨w, h1, fun dirs hd => ?_⟩
  obtain ⟨r, r', hr, _, hj, hty, hrep⟩ := h3 dirs hd
  obtain ⟨r0, hj0, _, _, hty0, hrep0⟩ := h3' dirs hd hex
  rw [hj] at hj0
  cases hj0
  have hne : r ≠ [] := by
    obtain ⟨q, hq⟩ := hex
    obtain ⟨x, hx, _⟩ := hrep0 q hq
    exact List.ne_nil_of_mem hx
  have hred : reduceToCanonicalReps (expandWts n r) .quaternionType = some r' := by
    unfold findWriteQuadSeq at hr
    rw [hj, Option.bind_some] at hr
    obtain ⟨x, hx, e⟩ := Option.map_eq_some_iff.1 hr
    cases e
    exact hx
  obtain ⟨r'', j1, _, _, _, j5⟩ := C17_reduce n hn .quaternionType (.inl rfl) (expandWts n r) (by
    obtain ⟨x, hx⟩ := List.exists_mem_of_ne_nil r hne
    exact List.ne_nil_of_mem (List.mem_append_left _ hx)) fun q hq => (C21_sound n r hty0 q hq).1.1
  rw [hred] at j1
  cases j1
  obtain ⟨t, out, text, k1, k2, k3, k4, k5, k6⟩ := C65_convert_list canon hc order ho debug .williamsonType n r'
    fun s hs => ⟨hty s hs, fun _ => ns_of_least (hty s hs).1 (j5 s hs)⟩
  refine ⟨r, r', t, out, text, hr, k1, k2, k3, fun m hm => ⟨(k4 m hm).1, ?_⟩, k5, ?_⟩
  · obtain ⟨s, hs, e⟩ := (k4 m hm).2
    exact ⟨s, hty s hs, e⟩
  · intro s hs m hm
    obtain ⟨x, hx, hsx, _⟩ := hrep s hs
    obtain ⟨m1, m2, e1, e2, he⟩ := C64_qt_implies_hadamard n s x hs.1 (hty x hx).1 hsx
    rw [hm] at e1
    cases e1
    obtain ⟨y, ⟨y1, y2⟩, y3⟩ := k6 x hx m2 e2
    exact ⟨y, ⟨y1, HadEquiv.HMEquiv.trans he y2⟩, fun z hz => y3 z ⟨hz.1, HadEquiv.HMEquiv.trans (HadEquiv.HMEquiv.symm he) hz.2⟩⟩

/-- C65 fails for Williamson sequences of length 3: the enumeration succeeds, and the conversion of its result panics,
with and without debug assertions. -/
theorem C65_ws_panics {K : Type} (A : Fl K) (val : K → ℝ) {mo : MatchOption} (hN : Numerics A val 3 mo)
    (pr : Option Pairing) {κ : Type} [DecidableEq κ] (canon : Graph → κ) (order : List HM → List HM) (debug : Bool) :
    ∃ w, writePairs A 3 .williamson mo pr = some w ∧ ∀ dirs, Listing w dirs →
      ∃ r t, findWriteQuadSeq 3 .williamson dirs = some (r, none) ∧ resultText r = some t ∧
        hadamardEquivalenceFromFile canon order debug .williamson t = none := by
  obtain ⟨w, h1, h2⟩ := C32_williamson_partial A val 3 (by norm_num) hN pr ⟨exWS3, exWS3_isWS⟩
  refine ⟨w, h1, fun dirs hd => ?_⟩
  obtain ⟨r, hr, _, hmem⟩ := h2 dirs hd
  have hpm : ∀ x ∈ r, PMQuad 3 x := fun x hx => (verify_of_ofType ((hmem x).1 hx).1.1).1
  obtain ⟨t, k1, k2⟩ := resultText_spec (n := 3) (l := r) hpm
  refine ⟨r, t, by unfold findWriteQuadSeq; rw [hr]; rfl, k1, ?_⟩
  obtain ⟨_, r0, x, hr0, hx0, _, hv⟩ := C18_reduction_leaves_ws
  obtain ⟨r1, e1, _, e3⟩ := reduce_spec (n := 3) (by norm_num) (ty := .williamson) (by simp [CanType]) (l := [exWS3])
    (by simp) (by simpa using exWS3_pm)
  rw [hr0] at e1
  cases e1
  obtain ⟨s, hs, hsx⟩ := (e3 x).1 hx0
  rw [List.mem_singleton] at hs
  subst hs
  have hwx : WTEquiv (fam 3 exWS3) (fam 3 x) := hsx.1.2
  have hxr : x ∈ r := (hmem x).2 ⟨⟨typeEquiv_ofType (.inr rfl) (isWTS_of_isWS exWS3_isWS) hsx.1.1 hwx,
    fun t ht hxt => hsx.2 t ⟨ht, .trans _ _ _ hwx hxt⟩⟩, exWS3, exWS3_isWS, hwx⟩
  unfold hadamardEquivalenceFromFile
  have : hadamardRepresentatives canon order debug .williamson t = none := by
    unfold hadamardRepresentatives
    cases hl : (readLines t).mapM (readCanonicalLine debug) with
    | none => rfl
    | some l =>
      have hlr : l = r := by
        have a1 : List.Forall₂ (fun line s => (QS.fromStr line).bind QuadSeq.fromPqs = some s) (readLines t) l :=
          (mapM_some_iff.1 hl).imp fun _ _ h => (readCanonical_some h).1
        have a2 : List.Forall₂ (fun line s => (QS.fromStr line).bind QuadSeq.fromPqs = some s) (readLines t) r :=
          k2.imp fun _ _ h => h.1
        exact Option.some.inj ((mapM_some_iff.2 a1).symm.trans (mapM_some_iff.2 a2))
      subst hlr
      rw [Option.bind_some, if_neg]
      intro hall
      have := (List.all_eq_true.1 hall) x hxr
      rw [hv] at this
      simp at this
  rw [this]
  rfl

/-- The hypotheses can be met: exact arithmetic, an exact labelling (the class of the graph), and the order of
insertion. -/
example : (∃ q, IsQTS 5 q) ∧ (∃ q, IsWTS 3 q) ∧ (∀ mo, Numerics exactFl id 5 mo) ∧
    (∃ (κ : Type) (_ : DecidableEq κ) (canon : Graph → κ), ExactLabelling canon) ∧ (∀ l : List HM, (id l).Perm l) := by
  obtain ⟨κ, canon, h⟩ := exact_exists
  exact ⟨⟨exQTS5, exQTS5_isQTS⟩, ⟨exWS3, isWTS_of_isWS exWS3_isWS⟩, C28_numerics 5,
    ⟨κ, Classical.decEq κ, canon, h⟩, fun l => List.Perm.refl _⟩

end Props
