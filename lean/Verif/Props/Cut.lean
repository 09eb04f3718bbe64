import Verif.Proofs.Cut
import Verif.Props.Debug

/-!
# Property C97: files that end in the middle of a line

Most files are written with `write`, which may write only a part of the text; the number of bytes it returns is not
looked at. The property asked for is that a later stage that reads such a file panics or does with it what it would do
with the complete lines. It is violated (`C97_convert_violated`, `C97_join_violated`); the theorems with the suffix
`_partial` say what remains true.
-/

set_option linter.unusedVariables false

namespace Props
open Model Spec Proofs Proofs.Conversion Proofs.Stages

/-! ## Result files -/

/-- C97. Reading a file of results of length `n` that was cut off after `k * (n + 1) + m` characters, `m ≤ n`: never a
panic; the first `k` sequences and, unless `m = 0`, the first `m` entries of the next one, as a sequence of length `m`. -/
theorem C97_read (n : ℕ) [NeZero n] (l : List QuadSeq) (hl : ∀ s ∈ l, PMQuad n s) (t t' : Text)
    (ht : resultText l = some t) (hp : t' <+: t) :
    ∃ k m, k ≤ l.length ∧ m ≤ n ∧ (m ≠ 0 → k < l.length) ∧ t'.length = k * (n + 1) + m ∧
      (readLines t').mapM (fun line => (QS.fromStr line).bind QuadSeq.fromPqs) =
        some (l.take k ++ if m = 0 then [] else (l[k]?).toList.map (firstEntries m)) := by
  obtain ⟨k, m, h1, h2, h3, h4, h5⟩ := Cut.cut_lines hl ht hp
  exact ⟨k, m, h1, h2, h3, h4, mapM_some_iff.2 h5⟩

/-- C97, partial. Converting a file of results of length `n` that was cut off anywhere, if it does not panic: every matrix
written is a Hadamard matrix, of order `4 n` except for at most one, which comes from the incomplete line and has order
`4 m`, `m` being the number of letters left of this line; every complete line is represented by exactly one matrix.
Missing for the full property: that there is no matrix of order `4 m` with `m < n` (`C97_convert_violated`). -/
theorem C97_convert_partial {κ : Type} [DecidableEq κ] (canon : Graph → κ) (hc : ExactLabelling canon)
    (order : List HM → List HM) (ho : ∀ l, (order l).Perm l) (debug : Bool) (ty : SeqType) (n : ℕ) [NeZero n]
    (l : List QuadSeq) (hl : ∀ s ∈ l, OfType n ty s) (t t' : Text) (ht : resultText l = some t) (hp : t' <+: t)
    (out : List HM) (h : hadamardRepresentatives canon order debug ty t' = some out) :
    ∃ k m, k ≤ l.length ∧ m ≤ n ∧ t'.length = k * (n + 1) + m ∧
      (∀ M ∈ out, HMHadamard M ∧ (M.size = 4 * n ∨ (m ≠ 0 ∧ M.size = 4 * m))) ∧
      (out.filter fun M => M.size ≠ 4 * n).length ≤ 1 ∧
      (∀ s ∈ l.take k, ∀ M, HM.fromWilliamson s .quaternionType = some M → ∃! y, y ∈ out ∧ HMEquiv M y) := by
  obtain ⟨k, m, h1, h2, h3, h4, h5⟩ := Cut.cut_lines (fun s hs => (verify_of_ofType (hl s hs)).1) ht hp
  obtain ⟨mats, k1, k2, k3, k4, k5⟩ := C46_from_file canon hc order ho debug ty t' out h
  -- the matrix of every sequence that was read
  have hmat : List.Forall₂ (fun s M => HM.fromWilliamson s .quaternionType = some M)
      (l.take k ++ if m = 0 then [] else (l[k]?).toList.map (firstEntries m)) mats := by
    revert h5 k1
    generalize (l.take k ++ if m = 0 then [] else (l[k]?).toList.map (firstEntries m)) = qs
    generalize readLines t' = lines
    intro h5 k1
    clear k2 k3 k5
    induction h5 generalizing mats with
    | nil => cases k1; exact .nil
    | cons ha _ ih =>
      obtain ⟨M, Ms, e1, e2, rfl⟩ := List.forall₂_cons_left_iff.1 k1
      obtain ⟨q, q1, _, q3⟩ := e1
      rw [ha] at q1
      cases q1
      exact .cons q3 (ih Ms e2)
  obtain ⟨m1, m2, f1, f2, rfl⟩ : ∃ m1 m2, List.Forall₂ (fun s M => HM.fromWilliamson s .quaternionType = some M) (l.take k) m1 ∧
      List.Forall₂ (fun s M => HM.fromWilliamson s .quaternionType = some M)
        (if m = 0 then [] else (l[k]?).toList.map (firstEntries m)) m2 ∧ mats = m1 ++ m2 := by
    refine ⟨mats.take (l.take k).length, mats.drop (l.take k).length, ?_, ?_, (List.take_append_drop _ _).symm⟩
    · have := List.forall₂_take (l.take k).length hmat
      rwa [List.take_left] at this
    · have := List.forall₂_drop (l.take k).length hmat
      rwa [List.drop_left] at this
  have hsz : ∀ {n' : ℕ} [NeZero n'] {s M}, PMQuad n' s → HM.fromWilliamson s .quaternionType = some M → M.size = 4 * n' := by
    intro n' _ s M hs hM
    obtain ⟨M', e1, e2, _⟩ := C34_hadamard_iff_qts n' s hs
    rw [e1] at hM
    cases hM
    exact e2
  have g1 : ∀ M ∈ m1, M.size = 4 * n := by
    intro M hM
    obtain ⟨i, hi, rfl⟩ := List.getElem_of_mem hM
    have hi' : i < (l.take k).length := by rw [f1.length_eq]; exact hi
    exact hsz (verify_of_ofType (hl _ (List.mem_of_mem_take (List.getElem_mem hi')))).1 (f1.get hi' hi)
  have g2 : (m2 = [] ∨ ∃ M, m2 = [M] ∧ m ≠ 0 ∧ M.size = 4 * m) := by
    by_cases hm : m = 0
    · rw [if_pos hm] at f2
      cases f2
      exact .inl rfl
    · have hk := h3 hm
      rw [if_neg hm, List.getElem?_eq_getElem hk] at f2
      obtain ⟨M, Ms, e1, e2, rfl⟩ := List.forall₂_cons_left_iff.1 f2
      cases e2
      have : NeZero m := ⟨hm⟩
      exact .inr ⟨M, rfl, hm, hsz (Cut.firstEntries_pm (verify_of_ofType (hl _ (List.getElem_mem hk))).1 h2) e1⟩
  refine ⟨k, m, h1, h2, h4, fun M hM => ⟨k2 M (k3 M hM), ?_⟩, ?_, fun s hs M hM => ?_⟩
  · rcases List.mem_append.1 (k3 M hM) with hM | hM
    · exact .inl (g1 M hM)
    · rcases g2 with e | ⟨M', e, hm, hs⟩
      · rw [e] at hM; cases hM
      · rw [e, List.mem_singleton] at hM
        subst hM
        exact .inr ⟨hm, hs⟩
  · have hone : ∀ M ∈ out.filter (fun M => M.size ≠ 4 * n), m2 = [M] := by
      intro M hM
      rw [List.mem_filter] at hM
      have hne : M.size ≠ 4 * n := by simpa using hM.2
      rcases List.mem_append.1 (k3 M hM.1) with hM' | hM'
      · exact absurd (g1 M hM') hne
      · rcases g2 with e | ⟨M', e, _, _⟩
        · rw [e] at hM'; cases hM'
        · rw [e, List.mem_singleton] at hM'
          rw [e, hM']
    have hpw := k4.filter (fun M => decide (M.size ≠ 4 * n))
    revert hone hpw
    generalize out.filter (fun M => decide (M.size ≠ 4 * n)) = fl
    intro hone hpw
    match fl, hone, hpw with
    | [], _, _ => simp
    | [_], _, _ => simp
    | x :: y :: rest, hone, hpw =>
      exfalso
      have e1 := hone x (by simp)
      have e2 := hone y (by simp)
      rw [e1] at e2
      have hxy : x = y := by simpa using e2
      refine (List.pairwise_cons.1 hpw).1 y (by simp) ?_
      rw [hxy]
      exact ⟨rfl, 1, 1, fun _ => 1, fun _ => 1, fun _ => .inl rfl, fun _ => .inl rfl, fun i j => by simp⟩
  · refine k5 M (List.mem_append_left _ ?_)
    obtain ⟨i, hi, rfl⟩ := List.getElem_of_mem hs
    have hi' : i < m1.length := by rw [← f1.length_eq]; exact hi
    have := f1.get hi hi'
    simp only [List.get_eq_getElem] at this
    rw [this] at hM
    cases hM
    exact List.getElem_mem hi'

/-- C97. Whether the cut goes unnoticed (release build): exactly if it is between two lines or if the letters left of the
incomplete line are themselves a sequence of the type, of a smaller length (or the whole line). -/
theorem C97_convert_accepts {κ : Type} [DecidableEq κ] (canon : Graph → κ) (order : List HM → List HM)
    (ho : ∀ l, (order l).Perm l) (ty : SeqType) (n : ℕ) [NeZero n] (l : List QuadSeq) (hl : ∀ s ∈ l, OfType n ty s)
    (t t' : Text) (ht : resultText l = some t) (hp : t' <+: t) :
    ∃ k m, k ≤ l.length ∧ m ≤ n ∧ t'.length = k * (n + 1) + m ∧
      ((hadamardEquivalenceFromFile canon order false ty t').isSome ↔
        m = 0 ∨ ∃ (_ : NeZero m) (q : QuadSeq), l[k]? = some q ∧ OfType m ty (firstEntries m q)) := by
  obtain ⟨k, m, h1, h2, h3, h4, h5⟩ := Cut.cut_lines (fun s hs => (verify_of_ofType (hl s hs)).1) ht hp
  refine ⟨k, m, h1, h2, h4, ?_⟩
  have hmem : ∀ line ∈ readLines t', ∃ s, (s ∈ l ∨ (m ≠ 0 ∧ ∃ q, l[k]? = some q ∧ s = firstEntries m q)) ∧
      (QS.fromStr line).bind QuadSeq.fromPqs = some s := by
    have hin : ∀ s ∈ (l.take k ++ if m = 0 then [] else (l[k]?).toList.map (firstEntries m)),
        s ∈ l ∨ (m ≠ 0 ∧ ∃ q, l[k]? = some q ∧ s = firstEntries m q) := by
      intro s hs
      rcases List.mem_append.1 hs with hm | hm
      · exact .inl (List.mem_of_mem_take hm)
      · right
        by_cases m0 : m = 0
        · rw [if_pos m0] at hm; cases hm
        · rw [if_neg m0, List.getElem?_eq_getElem (h3 m0)] at hm
          exact ⟨m0, _, List.getElem?_eq_getElem (h3 m0), by simpa using hm⟩
    intro line hline
    obtain ⟨i, hi, rfl⟩ := List.getElem_of_mem hline
    have hi' : i < (l.take k ++ if m = 0 then [] else (l[k]?).toList.map (firstEntries m)).length := by
      rw [← h5.length_eq]; exact hi
    exact ⟨_, hin _ (List.getElem_mem hi'), h5.get hi hi'⟩
  constructor
  · intro h
    by_cases m0 : m = 0
    · exact .inl m0
    · right
      have hk := h3 m0
      refine ⟨⟨m0⟩, l[k], List.getElem?_eq_getElem hk, ?_⟩
      obtain ⟨text, h⟩ := Option.isSome_iff_exists.1 h
      unfold hadamardEquivalenceFromFile hadamardRepresentatives at h
      obtain ⟨out, h, _⟩ := Option.bind_eq_some_iff.1 h
      obtain ⟨qs, hq, h⟩ := Option.bind_eq_some_iff.1 h
      have : qs = l.take k ++ (if m = 0 then [] else (l[k]?).toList.map (firstEntries m)) := by
        have e := mapM_some_iff.2 h5
        have e' : (readCanonicalLine false) = fun line => (QS.fromStr line).bind QuadSeq.fromPqs := by
          funext line
          unfold readCanonicalLine
          refine congrArg (Option.bind _) (funext fun x => ?_)
          cases QuadSeq.fromPqs x <;> rfl
        rw [e'] at hq
        rw [hq] at e
        exact Option.some.inj e
      split at h
      · rename_i hv
        have := List.all_eq_true.1 hv (firstEntries m l[k]) (by
          rw [this, if_neg m0, List.getElem?_eq_getElem hk]
          simp)
        simp only [Bool.and_eq_true] at this
        have inst : NeZero m := ⟨m0⟩
        exact (ofType_of_verify (Cut.firstEntries_pm (verify_of_ofType (hl _ (List.getElem_mem hk))).1 h2) this.2).1
      · cases h
  · intro h
    obtain ⟨out, text, _, e, _⟩ := C46_succeeds canon order ho false ty t' fun line hline => by
      obtain ⟨s, hs, e⟩ := hmem line hline
      rcases hs with hs | ⟨m0, q, hq, rfl⟩
      · exact ⟨n, inferInstance, s, e, hl s hs, fun h => by cases h⟩
      · rcases h with h | ⟨inst, q', hq', ho⟩
        · exact absurd h m0
        · rw [hq] at hq'
          cases hq'
          exact ⟨m, inst, _, e, ho, fun h => by cases h⟩
    rw [e]
    rfl

/-- C97, violated: from every file of results of length `n > 1` all but the first letter can be lost without `convert hm`
(release build) noticing: the command ends normally, and writes a matrix of order 4 for the length `n`. -/
theorem C97_convert_violated {F κ : Type} [DecidableEq κ] (env : Env F κ) (hc : ExactLabelling env.canon)
    (ho : ∀ l, (env.hmOrder l).Perm l) (hd : env.debug = false) (ty : SeqType) (hty : Supported ty) (n : ℕ) [NeZero n]
    (hn : 1 < n) (hn' : n < 2 ^ 64) (l : List QuadSeq) (hl : ∀ s ∈ l, OfType n ty s) (hne : l ≠ []) (t : Text)
    (ht : resultText l = some t) (s : Store) (hs : readTop s ty.toText (natText n) (hmSource ty) = some (t.take 1)) :
    (runProgram env s ["convert".toList, "hm".toList, ty.toText, natText n]).2 = true ∧
      ∃ M text, HMHadamard M ∧ M.size = 4 ∧ M.toStringMagma = some text ∧
        hadamardEquivalenceFromFile env.canon env.hmOrder false ty (t.take 1) = some (text ++ ['\n']) := by
  have hpm : ∀ s ∈ l, PMQuad n s := fun s hs => (verify_of_ofType (hl s hs)).1
  obtain ⟨k, m, h1, h2, h3, h4, h5⟩ := Cut.cut_lines hpm ht (List.take_prefix 1 t)
  -- the file is not empty
  have hlen : (t.take 1).length = 1 := by
    obtain ⟨ls, e1, _, e3⟩ := resultText_lines hpm
    rw [ht] at e1
    cases e1
    cases ls with
    | nil => exact absurd (List.length_eq_zero_iff.1 e3.length_eq.symm) hne
    | cons x xs =>
      have e : unlines (x :: xs) = x ++ ('\n' :: unlines xs) := by simp [unlines]
      rw [e, List.length_take, List.length_append, List.length_cons]
      omega
  rw [hlen] at h4
  have hk : k = 0 := by
    rcases Nat.eq_zero_or_pos k with e | e
    · exact e
    · have := Nat.mul_le_mul e (Nat.le_refl (n + 1))
      omega
  subst hk
  have hm : m = 1 := by omega
  subst hm
  have hk := h3 (by omega)
  rw [List.take_zero, List.nil_append, if_neg (by omega), List.getElem?_eq_getElem hk] at h5
  obtain ⟨line, rest, e1, e2, e3⟩ := List.forall₂_cons_right_iff.1 h5
  cases e2
  have hone : OfType 1 ty (firstEntries 1 l[0]) :=
    Cut.ofType_one hty (Cut.firstEntries_pm (hpm _ (List.getElem_mem hk)) (by omega))
  obtain ⟨out, text, o1, o2, ps, o3, o4⟩ := C46_succeeds env.canon env.hmOrder ho false ty (t.take 1) fun line' hline => by
    rw [e3, List.mem_singleton] at hline
    subst hline
    exact ⟨1, inferInstance, _, e1, hone, fun h => by cases h⟩
  refine ⟨hm_runs env hn' hs (by rw [hd]; exact o2), ?_⟩
  obtain ⟨mats, k1, k2, k3, k4, k5⟩ := C46_from_file env.canon hc env.hmOrder ho false ty _ out o1
  rw [e3] at k1
  obtain ⟨M, Ms, q1, q2, rfl⟩ := List.forall₂_cons_left_iff.1 k1
  cases q2
  obtain ⟨y, ⟨hy, _⟩, _⟩ := k5 M (by simp)
  have hall : ∀ x ∈ out, x = M := fun x hx => List.mem_singleton.1 (k3 x hx)
  have hout : out = [M] := by
    match out, hy, hall, k4 with
    | [], hy, _, _ => cases hy
    | [x], _, hall, _ => rw [hall x (by simp)]
    | x :: z :: r, _, hall, k4 =>
      exfalso
      refine (List.pairwise_cons.1 k4).1 z (by simp) ?_
      rw [hall x (by simp), hall z (by simp)]
      exact ⟨rfl, 1, 1, fun _ => 1, fun _ => 1, fun _ => .inl rfl, fun _ => .inl rfl, fun i j => by simp⟩
  rw [hout] at o4
  obtain ⟨p, ps', p1, p2, rfl⟩ := List.forall₂_cons_left_iff.1 o4
  cases p2
  obtain ⟨q, r1, ⟨n', inst, r2, r3⟩, r4⟩ := q1
  rw [e1] at r1
  cases r1
  have : n' = 1 := by
    have := (verify_of_ofType r2).1.size
    exact this.symm
  subst this
  refine ⟨M, p, k2 M (by simp), r3, p1, ?_⟩
  rw [o2, o3]
  simp [unlines]

/-! ## The lists of sequences -/

/-- C97. If all sequences have the same length, the test of the candidates with the panics for different lengths is the
test of the model. -/
theorem C97_join_agrees (n : ℕ) [NeZero n] (ty : SeqType) (d : Dir)
    (hlen : ∀ f ∈ d, ∀ t, f.1 = seqFileName t → ∀ l, fileToSequences f.2 = some l → ∀ x ∈ l, x.length = n) :
    Ragged.joinDir ty d = joinDir ty d := Cut.join_agrees hlen

/-- C97, partial. The lists of the sequences X, Y, Z of length `n` may be cut off anywhere, and the other files of the
directory may have any contents: if the join does not panic, everything it finds is of the type and of length `n`.
Missing for the full property: the list of the sequences W has to consist of complete lines (`C97_join_violated`). -/
theorem C97_join_partial (n : ℕ) [NeZero n] (ty : SeqType) (hty : Supported ty) (d : Dir) (r : List QuadSeq)
    (hd : ∀ f ∈ d, ∀ t, f.1 = seqFileName t → CutList n f.2) (hw : ∀ f ∈ d, f.1 = seqFileName .W → WholeLines f.2)
    (h : Ragged.joinDir ty d = some r) : ∀ q ∈ r, OfType n ty q := Cut.join_cut hty hd hw h

/-- C97, violated: a candidate whose sequence W is one letter long passes the test of every type, however long the other
three sequences are. -/
theorem C97_candidate_violated (ty : SeqType) (hty : Supported ty) (q : QuadSeq) (hs : q.size = 1) (ha : q.a.length = 1)
    (hp : IsPM q.a ∧ IsPM q.b ∧ IsPM q.c ∧ IsPM q.d) (hb : q.b ≠ []) (hc : q.c ≠ []) (hd : q.d ≠ []) :
    Ragged.joinCondition ty q = some true := Cut.accepted_one hty hs ha hp hb hc hd

/-- A directory of length 3 with the list of the sequences W cut off after its first letter. -/
def exCutW : Dir :=
  [("seq_W.seq".toList, "+".toList), ("seq_X.seq".toList, "-++\n".toList), ("seq_Y.seq".toList, "-++\n".toList),
    ("seq_Z.seq".toList, "-++\n".toList), ("pair_WX.pair.sorted".toList, "_:_0_0\n".toList),
    ("pair_YZ.pair.sorted".toList, "_:_0_0\n".toList)]

/-- The same directory with the complete list, and with the list of the sequences Z cut off. -/
def exWhole : Dir :=
  [("seq_W.seq".toList, "+++\n".toList), ("seq_X.seq".toList, "-++\n".toList), ("seq_Y.seq".toList, "-++\n".toList),
    ("seq_Z.seq".toList, "-++\n".toList), ("pair_WX.pair.sorted".toList, "_:_0_0\n".toList),
    ("pair_YZ.pair.sorted".toList, "_:_0_0\n".toList)]
def exCutZ : Dir :=
  [("seq_W.seq".toList, "+++\n".toList), ("seq_X.seq".toList, "-++\n".toList), ("seq_Y.seq".toList, "-++\n".toList),
    ("seq_Z.seq".toList, "-+".toList), ("pair_WX.pair.sorted".toList, "_:_0_0\n".toList),
    ("pair_YZ.pair.sorted".toList, "_:_0_0\n".toList)]

/-- C97, violated: the join takes the rest of the cut line for a sequence and accepts a candidate of length one, for every
type, where the complete directory gives a sequence of length 3. -/
theorem C97_join_violated :
    (∀ f ∈ exCutW, ∀ t, f.1 = seqFileName t → CutList 3 f.2) ∧
      ∀ ty, Supported ty → (∃ q, Ragged.joinDir ty exCutW = some [q] ∧ q.size = 1 ∧ ¬ PMQuad 3 q) ∧
        ∃ q, Ragged.joinDir ty exWhole = some [q] ∧ PMQuad 3 q := by
  refine ⟨?_, ?_⟩
  · have h1 : CutList 3 "+".toList := ⟨["+++".toList], by decide, by decide⟩
    have h2 : CutList 3 "-++\n".toList := ⟨["-++".toList], by decide, by decide⟩
    intro f hf t ht
    simp only [exCutW, List.mem_cons, List.not_mem_nil, or_false] at hf
    rcases hf with rfl | rfl | rfl | rfl | rfl | rfl
    · exact h1
    · exact h2
    · exact h2
    · exact h2
    all_goals (exfalso; revert ht; cases t <;> decide)
  · rintro ty (rfl | rfl | rfl)
    all_goals exact ⟨⟨{ size := 1, a := [1], b := [-1, 1, 1], c := [-1, 1, 1], d := [-1, 1, 1] }, by decide +kernel, rfl,
      by decide⟩, { size := 3, a := [1, 1, 1], b := [-1, 1, 1], c := [-1, 1, 1], d := [-1, 1, 1] }, by decide +kernel,
      by decide⟩

-- The hypotheses of `C97_join_partial` are met by the complete directory, where something is found, and by a directory
-- with a cut list; the two tests differ there: without the panics, the model would accept or refuse what the code does
-- not survive.
example : Ragged.joinDir .williamsonType exWhole =
    some [{ size := 3, a := [1, 1, 1], b := [-1, 1, 1], c := [-1, 1, 1], d := [-1, 1, 1] }] ∧
    Ragged.joinDir .quaternionType exCutZ = none ∧ Ragged.joinDir .williamsonType exCutZ = some [] := by decide +kernel
example : (∀ f ∈ exCutZ, ∀ t, f.1 = seqFileName t → CutList 3 f.2) ∧ ∀ f ∈ exCutZ, f.1 = seqFileName .W → WholeLines f.2 := by
  refine ⟨?_, by unfold WholeLines; decide⟩
  have h1 : CutList 3 "+++\n".toList := ⟨["+++".toList], by decide, by decide⟩
  have h2 : CutList 3 "-++\n".toList := ⟨["-++".toList], by decide, by decide⟩
  have h3 : CutList 3 "-+".toList := ⟨["-++".toList], by decide, by decide⟩
  intro f hf t ht
  simp only [exCutZ, List.mem_cons, List.not_mem_nil, or_false] at hf
  rcases hf with rfl | rfl | rfl | rfl | rfl | rfl
  · exact h1
  · exact h2
  · exact h2
  · exact h3
  all_goals (exfalso; revert ht; cases t <;> decide)

-- Of the sequence of length 5 the first letter is a sequence of the type, the first two letters are not.
example : IsQTS 5 exQTS5 ∧ (firstEntries 1 exQTS5).verifyQts = true ∧ (firstEntries 2 exQTS5).verifyQts = false :=
  ⟨exQTS5_isQTS, by decide, by decide⟩

-- The hypotheses of `C97_convert_violated` are met.
example : ∃ (κ : Type) (_ : DecidableEq κ) (env : Env ℝ κ) (t : Text) (s : Store), ExactLabelling env.canon ∧
    (∀ l, (env.hmOrder l).Perm l) ∧ env.debug = false ∧ (∀ q ∈ [exQTS5], OfType 5 .quaternionType q) ∧
    resultText [exQTS5] = some t ∧
    readTop s (SeqType.quaternionType).toText (natText 5) (hmSource .quaternionType) = some (t.take 1) := by
  obtain ⟨κ, canon, hc⟩ := exact_exists
  obtain ⟨t, ht, _⟩ := resultText_spec (n := 5) (l := [exQTS5]) (by simpa using exQTS5_pm)
  refine ⟨κ, Classical.decEq κ, ⟨exactFl, canon, id, id, id, id, false⟩, t,
    fun a b => if (a, b) = ("qts".toList, "5".toList) then some ⟨[("result.seq".toList, t.take 1)], []⟩ else none,
    hc, fun _ => .refl _, rfl, by simpa [OfType] using exQTS5_isQTS, ht, rfl⟩

end Props
