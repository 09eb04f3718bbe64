import Verif.Proofs.SingleOps
import Verif.Props.Search
import Verif.Props.FindWrite
import Verif.Props.Mum

/-!
# Property C95: single precision changes no output
-/

namespace Props
open Model Spec Proofs Proofs.Single

/-- C95. The tables of quaternions, and with them the readers, the printers and the conversions between quaternions and
quadruples, are the exact ones; also where they panic. -/
theorem C95_tables {rd : ℚ → ℚ} (h : ExactRounding rd) :
    F32.qplus rd = QPLUS ∧ F32.fromStr rd = QS.fromStr ∧ F32.toStringRaw rd = QS.toStringRaw ∧
      F32.fromPqs rd = QuadSeq.fromPqs ∧ F32.toQs rd = QuadSeq.toQs ∧ F32.resultText rd = resultText := by
  refine ⟨qplus_eq h, fromStr_eq h, toStringRaw_eq h, fromPqs_eq h, toQs_eq h, ?_⟩
  funext l
  unfold F32.resultText resultText
  rw [toQs_eq h, toStringRaw_eq h]

example : F32.fromStr exRounding ['+', 'q', 'X', '?'] = none ∧
    ((F32.fromStr exRounding ['+', 'q', 'X']).bind (F32.toStringRaw exRounding)) = some ['+', 'q', 'X'] := by
  obtain ⟨-, h1, h2, -⟩ := C95_tables exRounding_exact
  rw [h1, h2]
  decide +kernel

/-- C95. Assigning a letter, with the mirrored or signed copy of the symmetric types. -/
theorem C95_set_value {rd : ℚ → ℚ} (h : ExactRounding rd) (q : QS) (v : Quat) (hv : v ∈ Q24) (i : ℕ) :
    F32.setValue rd q v i = q.setValue v i := setValue_eq h q hv i

example : (F32.setValue exRounding (QS.new 4 (some .II)) QQ 1).map QS.values = some [Q1, QQ, Q1, QQ.smul (-1)] := by
  rw [C95_set_value exRounding_exact _ _ (by decide +kernel)]
  decide +kernel

/-- C95. Perfection is decided alike up to length `2^23`. -/
theorem C95_perfect {rd : ℚ → ℚ} (h : ExactRounding rd) (q : QS) (hl : q.values.length = q.size)
    (h24 : ∀ x ∈ q.values, x ∈ Q24) (hn : q.size ≤ 2 ^ 23) :
    F32.isPerfect rd q = q.isPerfect ∧ F32.isOddPerfect rd q = q.isOddPerfect :=
  ⟨isPerfect_eq h q ⟨hl, h24⟩ hn, isOddPerfect_eq h q ⟨hl, h24⟩ hn⟩

example : F32.isPerfect exRounding { size := 3, values := [Q1, Q1, QQ], symmetry := none } =
    QS.isPerfect { size := 3, values := [Q1, Q1, QQ], symmetry := none } :=
  (C95_perfect exRounding_exact _ rfl (by decide +kernel) (by norm_num)).1

/-- C95. The exhaustive searches over quaternions print the same lines and count alike, for every symmetry type. -/
theorem C95_searches (n : ℕ) (hn : n ≤ 2 ^ 23) {rd : ℚ → ℚ} (h : ExactRounding rd) (symmetry : Option Symmetry) :
    F32.findNaive rd n symmetry = findNaive n symmetry ∧
      (∀ out, F32.findOptim rd n symmetry out ↔ findOptim n symmetry out) ∧
      ∀ out, F32.findOptimQ24 rd n symmetry out ↔ findOptimQ24 n symmetry out := by
  have ho := over_new n symmetry
  refine ⟨?_, fun out => ?_, fun out => ?_⟩
  · unfold F32.findNaive findNaive
    rw [(naiveRec_eq h n _ 1 ([], 0) ho hn).1]
  · unfold F32.findOptim findOptim
    rw [qplus_eq h]
    exact optimRec_iff h QPLUS qplus_q24 n _ 1 out ho hn
  · unfold F32.findOptimQ24 findOptimQ24
    rw [C57_table h]
    exact optimRec_iff h Q24 (fun _ hv => hv) n _ 1 out ho hn

/-- The search of the program at length 2 counts six sequences, whatever the rounding does elsewhere. -/
example : (F32.findNaive exRounding 2 none).map Prod.snd = some 6 := by
  rw [(C95_searches 2 (by norm_num) exRounding_exact none).1]
  decide +kernel

/-- C95. So do the searches over quadruples; the unique search for the lengths its class generation supports. -/
theorem C95_quad_searches (n : ℕ) (hn : n ≤ 2 ^ 23) {rd : ℚ → ℚ} (h : ExactRounding rd) (condition : QuadSeq → Bool) :
    F32.findAux rd n = findAux n ∧ F32.findWilliamson rd n condition = findWilliamson n condition ∧
      (0 < n → n ≤ 100 → F32.findUnique rd n = findUnique n) := by
  have ha : F32.findAux rd n = findAux n := by
    unfold F32.findAux findAux
    rw [(uniqueRec_eq h n (QuadSeq.new n) 0 [] hn).1]
  refine ⟨ha, williamsonRec_eq h condition n (QuadSeq.new n) 1 hn, fun h0 h100 => ?_⟩
  haveI : NeZero n := ⟨by omega⟩
  obtain ⟨L, hL, -, hm⟩ := C48_quadruples n
  unfold F32.findUnique findUnique
  rw [ha, hL, toQs_eq h, toStringRaw_eq h]
  simp only [Option.bind_some]
  cases e : findClasses L with
  | none => rfl
  | some cl =>
    have hc : ∀ c ∈ cl, ∀ t ∈ c, t.size = n := by
      refine (foldlM_congr (f' := _) (fun cl : List (List QuadSeq) => ∀ c ∈ cl, ∀ t ∈ c, t.size = n) (b := [])
        (by simp) fun cl hcl s hs => ⟨rfl, fun r hr => ?_⟩).2 cl e
      split at hr
      · rw [← Option.some.inj hr]; exact hcl
      · obtain ⟨c, hc, rfl⟩ := Option.map_eq_some_iff.1 hr
        obtain ⟨c', e1, -, e2⟩ := C11_class_eq n h100 .quaternionType s ((hm s).1 hs).1
        rw [hc] at e1
        cases e1
        intro d hd t ht
        rcases List.mem_append.1 hd with hd | hd
        · exact hcl d hd t ht
        · rw [List.mem_singleton.1 hd] at ht
          exact ((e2 t).1 ht).1.size
    simp only [Option.bind_some]
    congr 1
    refine mapM_congr fun c hcc => mapM_congr fun t ht => ?_
    cases e2 : t.toQs with
    | none => rfl
    | some q =>
      have hp := perfectQs h (by rw [hc c hcc t ht]; exact hn) e2
      simp only [Option.bind_some, hp]

example : (F32.findAux exRounding 2).map List.length = some 96 := by
  rw [(C95_quad_searches 2 (by norm_num) exRounding_exact fun _ => true).1]
  decide +kernel

/-- C95. The join accepts and writes the same quadruples, and panics on the same stores, if no line of a file is longer
than `2^23`. -/
theorem C95_join {rd : ℚ → ℚ} (h : ExactRounding rd) (n : ℕ) (ty : SeqType) (dirs : List (Text × Dir))
    (hd : ∀ e ∈ dirs, ∀ f ∈ e.2, ∀ l ∈ readLines f.2, l.length ≤ 2 ^ 23) :
    F32.joinPairs rd ty dirs = joinPairs ty dirs ∧ F32.findWriteQuadSeq rd n ty dirs = findWriteQuadSeq n ty dirs := by
  have e := joinPairs_eq h ty dirs hd
  refine ⟨e, ?_⟩
  unfold F32.findWriteQuadSeq findWriteQuadSeq
  rw [e]
  cases ty <;> rfl

example : (∀ e ∈ [("rowsum_-1_1_1_1".toList, exDir1)], ∀ f ∈ e.2, ∀ l ∈ readLines f.2, l.length ≤ 2 ^ 23) ∧
    (joinAll .quaternionType [("rowsum_-1_1_1_1".toList, exDir1)]).map List.length = some 1 := by decide +kernel

/-- C95. The conversion to matrices writes the same file and the same two counts, for every text. -/
theorem C95_convert {rd : ℚ → ℚ} (h : ExactRounding rd) (t : Text) :
    F32.convertQsToMatrices rd t = convertQsToMatrices t := by
  unfold F32.convertQsToMatrices convertQsToMatrices
  rw [convertLine_eq h]

example : (F32.convertQsToMatrices exRounding ['+', '+', '\n', '+', 'q', '\n']).isSome = true := by
  rw [C95_convert exRounding_exact]
  decide +kernel

/-- C95. So does the writer of all matrices, for every text and every order of the hash set. -/
theorem C95_write_all {rd : ℚ → ℚ} (h : ExactRounding rd) (order : List QuadSeq → List QuadSeq) (ty : SeqType) (t : Text) :
    F32.qhmWriteAll rd order ty t = qhmWriteAll order ty t := qhmWriteAll_eq h order ty t

example : (F32.qhmWriteAll exRounding id .quaternionType ['+', '\n']).isSome = true := by
  rw [C95_write_all exRounding_exact]
  decide +kernel

/-- C95. Dephasing is exact at every size, also on matrices with zeros among the entries. -/
theorem C95_dephase {rd : ℚ → ℚ} (h : ExactRounding rd) (m : QHM) (hm : ∀ r ∈ m.matrix, ∀ x ∈ r, x = Q0 ∨ x ∈ Q24) :
    F32.dephase rd m = m.dephase ∧ F32.dephased rd m = m.dephased ∧
      F32.containsNonCommutingElements rd m = m.containsNonCommutingElements := by
  have hm : AllM Q25 m.matrix := fun r hr x hx => List.mem_cons.2 (hm r hr x hx)
  exact ⟨(dephase_eq h m hm).1, (dephased_eq h m hm).1, commuting_eq h m hm⟩

example : F32.dephase exRounding { size := 2, matrix := [[QI, QQ], [Q0, QJ]] } =
    { size := 2, matrix := [[Q1, Q1], [Q0, Q0]] } := by
  rw [(C95_dephase exRounding_exact _ (by decide +kernel)).1]
  decide +kernel

/-- C95. Products of sequences over the alphabet are exact. -/
theorem C95_product {rd : ℚ → ℚ} (h : ExactRounding rd) (p q : QS) (hp : p.values.length = p.size ∧ ∀ x ∈ p.values, x ∈ Q24)
    (hq : q.values.length = q.size ∧ ∀ x ∈ q.values, x ∈ Q24) :
    F32.sequenceProduct rd p q = sequenceProduct p q := product_eq h p q hp hq

example : (F32.sequenceProduct exRounding { size := 2, values := [QQ, QI], symmetry := none }
    { size := 3, values := [QJ, QQ, QSc], symmetry := none }).map QS.values =
      some [QQ * QJ, QI * QQ, QQ * QSc, QI * QJ, QQ * QQ, QI * QSc] := by
  rw [C95_product exRounding_exact _ _ ⟨rfl, by decide +kernel⟩ ⟨rfl, by decide +kernel⟩]
  decide +kernel

/-- C95. The operators built from a matrix over the alphabet are exact at every size, and so are their tensor products. -/
theorem C95_operators {rd : ℚ → ℚ} (h : ExactRounding rd) (m m' : QHM) (hm : ∀ r ∈ m.matrix, ∀ x ∈ r, x ∈ Q24)
    (hm' : ∀ r ∈ m'.matrix, ∀ x ∈ r, x ∈ Q24) :
    F32.mumFromQhm rd m = MUM.fromQhm m ∧ F32.hmuoFromQhm rd m = HMUO.fromQhm m ∧
      F32.mumProduct rd (F32.mumFromQhm rd m) (F32.mumFromQhm rd m') = mumProduct (MUM.fromQhm m) (MUM.fromQhm m') ∧
      F32.hmuoTensor rd (F32.hmuoFromQhm rd m) (F32.hmuoFromQhm rd m') = (HMUO.fromQhm m).tensor (HMUO.fromQhm m') := by
  have a : AllM Q25 m.matrix := fun r hr x hx => List.mem_cons_of_mem _ (hm r hr x hx)
  have a' : AllM Q25 m'.matrix := fun r hr x hx => List.mem_cons_of_mem _ (hm' r hr x hx)
  obtain ⟨e1, e2⟩ := mum_eq h m a
  obtain ⟨e1', e2'⟩ := mum_eq h m' a'
  obtain ⟨f1, f2⟩ := hmuo_eq h m a
  obtain ⟨f1', f2'⟩ := hmuo_eq h m' a'
  refine ⟨e1, f1, ?_, ?_⟩
  · rw [e1, e1']; exact mumProduct_eq h _ _ e2 e2'
  · rw [f1, f1']
    unfold F32.hmuoTensor HMUO.tensor
    rw [tensor_eq h _ _ f2 f2']

example : (F32.hmuoFromQhm exRounding { size := 1, matrix := [[QQ]] }).operator.values =
    [[⟨1/2, -1/2⟩, ⟨1/2, -1/2⟩], [⟨-1/2, -1/2⟩, ⟨1/2, 1/2⟩]] := by
  rw [(C95_operators exRounding_exact _ { size := 0, matrix := [] } (by decide +kernel) (by decide +kernel)).2.1]
  decide +kernel

end Props
