import Verif.Proofs.Opb
import Verif.Props.Equations
import Verif.Props.Solver

/-!
# C102: the texts of the equation files
-/

namespace Props
open Model Spec Proofs

theorem linear_terms {cs : List ℤ} {r : ℤ} {e : Equation} (h : e ∈ linearEquation cs r) : e.terms ≠ [] := by
  unfold linearEquation at h
  dsimp only at h
  split at h
  · cases h
  · rename_i hne
    rw [List.mem_singleton.1 h]
    exact hne

theorem cross_terms {s1 s2 : List ℤ} {o1 o2 : OpType} {a : AddType} {e : Equation}
    (h : e ∈ equationsCrosscorrelation s1 o1 s2 o2 a) : e.terms ≠ [] := by
  obtain ⟨t, _, h⟩ := List.mem_flatMap.1 h
  exact linear_terms h

theorem generator_ne (o : OpType) (i k n : ℕ) : generator o i k n ≠ [] := by cases o <;> simp [generator]

theorem range_flatMap_ne {α : Type} {n : ℕ} (hn : n ≠ 0) (f : ℕ → List α) (hf : ∀ i, f i ≠ []) :
    (List.range' 1 n).flatMap f ≠ [] := by
  obtain ⟨m, rfl⟩ := Nat.exists_eq_succ_of_ne_zero hn
  rw [List.range'_succ, List.flatMap_cons]
  simp [hf]

theorem nonlin_terms {s1 s2 : List ℤ} {o1 o2 : OpType} {a : AddType} {e : Equation}
    (h : e ∈ equationsNonlinear s1 s2 o1 o2 a) : e.terms ≠ [] := by
  obtain ⟨t, ht, rfl⟩ := List.mem_map.1 h
  have := List.mem_range'_1.1 ht
  exact range_flatMap_ne (by omega) _ fun i => generator_ne _ _ _ _

theorem auto_terms {s1 s2 : List ℤ} {e : Equation} (h : e ∈ equationsAutocorrelation s1 s2) : e.terms ≠ [] := by
  obtain ⟨t, ht, rfl⟩ := List.mem_map.1 h
  have := List.mem_range'_1.1 ht
  exact range_flatMap_ne (by omega) _ fun i => by simp

theorem all_terms {s1 s2 : List ℤ} {t1 t2 p q : Tag} {rs : Quad} {es : List Equation}
    (h : equationsWilliamsonType s1 t1 s2 t2 rs = some ((p, q), es)) : ∀ e ∈ es, e.terms ≠ [] := by
  intro e he
  cases t1 <;> cases t2 <;> simp only [equationsWilliamsonType, Option.map_some, Option.map_none, Option.some.injEq,
    Prod.mk.injEq, reduceCtorEq] at h <;> obtain ⟨_, rfl⟩ := h <;>
    simp only [List.mem_append, equationsRowsum] at he <;>
    rcases he with (((he | he) | he) | (he | he)) | he <;>
    first | exact cross_terms he | exact nonlin_terms he | exact linear_terms he | exact auto_terms he

/-- The comment about the unknown sequences. -/
def unknownLine (p q : Char) : List Char := "* x1 ... xn is ".toList ++ [p] ++ ", xn+1 ... x2n is ".toList ++ [q]

theorem toChar_plain (t : Tag) : t.toChar ≠ '\n' := by cases t <;> decide

/-- C102. The reader finds in the file of a pair exactly the generated equations; the fourth line names the two unknown
sequences in the order of their variables. -/
theorem C102_read (rs : Quad) (s1 s2 : List ℤ) (x : List Char)
    (hx : PairFile rs s1 s2 x) :
    ∃ t1 t2 p q es, indexToTag (getTwoBest rs).1.2 = some t1 ∧ indexToTag (getTwoBest rs).2.2 = some t2 ∧
      [t1, t2, p, q].Nodup ∧ equationsWilliamsonType s1 t1 s2 t2 rs = some ((p, q), es) ∧ readOpb x = some es ∧
      (pieces '\n' x)[3]? = some (unknownLine p.toChar q.toChar) := by
  obtain ⟨t1, t2, l1, l2, eqs, h1, h2, h3, h4, h5, rfl⟩ := hx
  unfold generateEquations at h5
  dsimp only at h5
  obtain ⟨⟨⟨p, q⟩, es⟩, he, rfl⟩ := Option.map_eq_some_iff.1 h5
  rw [letter_tag h1] at h3
  rw [letter_tag h2] at h4
  cases h3
  cases h4
  refine ⟨t1, t2, p, q, es, h1, h2, (C54_defined _ _ _ _ _).2 _ _ _ he, he, ?_⟩
  have hs : ∀ s : List ℤ, '\n' ∉ signs s := by
    intro s h
    obtain ⟨v, _, h⟩ := List.mem_map.1 h
    revert h
    split <;> decide
  have hi : ∀ z : ℤ, '\n' ∉ intText z := fun z => Solver.notin_intText (by unfold Txt.IsDigit; decide) (by decide) z
  have e : commentFor t1.toChar t2.toChar s1 s2 rs ++ (additionalComment p q ++ es.flatMap Equation.text) =
      [['*', ' ', t1.toChar, ':', ' '] ++ signs s1, ['*', ' ', t2.toChar, ':', ' '] ++ signs s2,
        "* rowsum: (".toList ++ intText rs.1 ++ [','] ++ intText rs.2.1 ++ [','] ++ intText rs.2.2.1 ++ [','] ++
          intText rs.2.2.2 ++ [')'], unknownLine p.toChar q.toChar].flatMap (fun c => c ++ ['\n']) ++
        es.flatMap Equation.text := by
    unfold commentFor additionalComment unknownLine
    simp
  dsimp only
  rw [e]
  have hall : ∀ c ∈ [['*', ' ', t1.toChar, ':', ' '] ++ signs s1, ['*', ' ', t2.toChar, ':', ' '] ++ signs s2,
        "* rowsum: (".toList ++ intText rs.1 ++ [','] ++ intText rs.2.1 ++ [','] ++ intText rs.2.2.1 ++ [','] ++
          intText rs.2.2.2 ++ [')'], unknownLine p.toChar q.toChar], '\n' ∉ c ∧ (c = [] ∨ c.head? = some '*') := by
    have T := toChar_plain
    intro c hc
    simp only [List.mem_cons, List.not_mem_nil, or_false] at hc
    rcases hc with rfl | rfl | rfl | rfl
    · exact ⟨by simp [hs, (T t1).symm], .inr (by simp)⟩
    · exact ⟨by simp [hs, (T t2).symm], .inr (by simp)⟩
    · exact ⟨by simp [hi], .inr (by simp)⟩
    · exact ⟨by unfold unknownLine; simp [(T p).symm, (T q).symm], .inr (by unfold unknownLine; simp)⟩
  refine ⟨Opb.read_comments es (all_terms he) _ hall, ?_⟩
  rw [Opb.pieces_comments _ _ fun c hc => (hall c hc).1]
  rfl

/-- C102. What the file means to a solver: if the two sequences of the pair belong to a QT sequence with the given row
sums, and the variables encode the two other ones, then the equations in the file hold exactly if the last entries of these
two agree and `x0` has their value. -/
theorem C102_meaning (n : ℕ) [NeZero n] (hn : 2 ≤ n) (s : QuadSeq) (h : IsQTS n s) (t1 t2 : Tag)
    (h1 : indexToTag (getTwoBest (sums s)).1.2 = some t1) (h2 : indexToTag (getTwoBest (sums s)).2.2 = some t2)
    (x : List Char) (hx : PairFile (sums s) (part s t1) (part s t2) x) :
    ∃ p q es, [t1, t2, p, q].Nodup ∧ readOpb x = some es ∧
      (pieces '\n' x)[3]? = some (unknownLine p.toChar q.toChar) ∧
      ∀ ρ : ℕ → ℤ, Encodes ρ n (part s p) (part s q) → (ρ 0 = 0 ∨ ρ 0 = 1) →
        ((∀ e ∈ es, Holds ρ e) ↔
          (part s p).getD (n - 1) 0 = (part s q).getD (n - 1) 0 ∧ 2 * ρ 0 - 1 = (part s p).getD (n - 1) 0) := by
  obtain ⟨u1, u2, p, q, es, k1, k2, k3, k4, k5, k6⟩ := C102_read _ _ _ x hx
  rw [h1] at k1
  rw [h2] at k2
  cases k1
  cases k2
  exact ⟨p, q, es, k3, k5, k6, fun ρ hρ h0 => C54_all_iff h hn k4 hρ h0⟩

theorem linear_vars {cs : List ℤ} {r : ℤ} {e : Equation} (h : e ∈ linearEquation cs r) :
    ∀ t ∈ e.terms, ∀ v ∈ t.2, 1 ≤ v ∧ v ≤ cs.length := by
  unfold linearEquation at h
  dsimp only at h
  split at h
  · cases h
  · rw [List.mem_singleton.1 h]
    intro t ht v hv
    obtain ⟨c, hc, rfl⟩ := List.mem_map.1 ht
    have hc := (List.mem_filter.1 hc).1
    rw [List.mem_singleton.1 hv]
    have := List.le_snd_of_mem_zipIdx hc
    have := List.snd_lt_add_of_mem_zipIdx hc
    omega

theorem cross_vars {n : ℕ} {x1 x2 : List ℤ} {o1 o2 : OpType} {a : AddType} {e : Equation} (hl : x1.length = n)
    (he : e ∈ equationsCrosscorrelation x1 o1 x2 o2 a) : ∀ t ∈ e.terms, ∀ v ∈ t.2, v ≤ 2 * n := by
  intro t ht v hv
  obtain ⟨k, _, he⟩ := List.mem_flatMap.1 he
  have := (linear_vars he t ht v hv).2
  unfold crossCoefficients at this
  simp only [List.length_append, List.length_map, List.length_range] at this
  omega

theorem rowsum_vars {n : ℕ} {z1 z2 : ℤ} {e : Equation} (he : e ∈ equationsRowsum n z1 z2) :
    ∀ t ∈ e.terms, ∀ v ∈ t.2, v ≤ 2 * n := by
  intro t ht v hv
  rcases List.mem_append.1 he with he | he <;>
  · have := (linear_vars he t ht v hv).2
    simp only [List.length_append, List.length_replicate] at this
    omega

theorem nonlin_vars {n : ℕ} {s1 s2 : List ℤ} {o1 o2 : OpType} {a : AddType} {e : Equation} (hl : s1.length = n)
    (he : e ∈ equationsNonlinear s1 s2 o1 o2 a) : ∀ t ∈ e.terms, ∀ v ∈ t.2, v ≤ 2 * n := by
  intro t ht v hv
  obtain ⟨k, hk, rfl⟩ := List.mem_map.1 he
  have hk := List.mem_range'_1.1 hk
  obtain ⟨i, hi, ht⟩ := List.mem_flatMap.1 ht
  have hi := List.mem_range'_1.1 hi
  have hm : (i + k) % s1.length < s1.length := Nat.mod_lt _ (by omega)
  rw [hl] at hm hi ht
  generalize hr : (i + k) % n = r at *
  have : ∀ t ∈ generator o2 i k n, ∀ v ∈ t.2, v = i ∨ v = r ∨ v = i + n ∨ v = r + n := by
    intro t ht v hv
    unfold generator at ht
    rw [hr] at ht
    cases o2 <;> simp only [List.mem_cons, List.not_mem_nil, or_false] at ht <;>
      rcases ht with rfl | rfl | rfl | rfl | rfl | rfl <;>
      simp only [List.mem_cons, List.not_mem_nil, or_false] at hv <;> tauto
  have := this t ht v hv
  clear * - this hm hi
  omega

theorem auto_vars {n : ℕ} {s1 s2 : List ℤ} {e : Equation} (hl : s1.length = n) (he : e ∈ equationsAutocorrelation s1 s2) :
    ∀ t ∈ e.terms, ∀ v ∈ t.2, v ≤ 2 * n := by
  intro t ht v hv
  obtain ⟨k, hk, rfl⟩ := List.mem_map.1 he
  have hk := List.mem_range'_1.1 hk
  obtain ⟨i, hi, ht⟩ := List.mem_flatMap.1 ht
  have hi := List.mem_range'_1.1 hi
  have hm : (i + k) % s1.length < s1.length := Nat.mod_lt _ (by omega)
  rw [hl] at hm hi ht
  have : v = i ∨ v = (i + k) % n ∨ v = i + n ∨ v = (i + k) % n + n := by
    simp only [List.mem_cons, List.not_mem_nil, or_false] at ht
    rcases ht with rfl | rfl | rfl | rfl | rfl | rfl <;>
      simp only [List.mem_cons, List.not_mem_nil, or_false] at hv <;> tauto
  clear * - this hm hi
  omega

theorem vars_le {n : ℕ} {s1 s2 : List ℤ} (l1 : s1.length = n) (l2 : s2.length = n) {t1 t2 p q : Tag} {rs : Quad}
    {es : List Equation} (h : equationsWilliamsonType s1 t1 s2 t2 rs = some ((p, q), es)) :
    ∀ e ∈ es, ∀ t ∈ e.terms, ∀ v ∈ t.2, v ≤ 2 * n := by
  intro e he
  cases t1 <;> cases t2 <;> simp only [equationsWilliamsonType, Option.map_some, Option.map_none, Option.some.injEq,
    Prod.mk.injEq, reduceCtorEq] at h <;> obtain ⟨_, rfl⟩ := h <;>
    simp only [List.mem_append, l1] at he <;>
    rcases he with (((he | he) | he) | he) | he <;>
    first
      | with_reducible exact nonlin_vars l1 he
      | with_reducible exact rowsum_vars he
      | with_reducible exact auto_vars l1 he
      | with_reducible exact cross_vars l1 he
      | with_reducible exact cross_vars l2 he

theorem zero_occurs {n : ℕ} (hn : 2 ≤ n) {s1 s2 : List ℤ} (l1 : s1.length = n) {t1 t2 p q : Tag} {rs : Quad}
    {es : List Equation} (h : equationsWilliamsonType s1 t1 s2 t2 rs = some ((p, q), es)) : Occurs 0 es := by
  have hsub : ∀ e ∈ equationsAutocorrelation s1 s2, e ∈ es := by
    intro e he
    cases t1 <;> cases t2 <;> simp only [equationsWilliamsonType, Option.map_some, Option.map_none, Option.some.injEq,
      Prod.mk.injEq, reduceCtorEq] at h <;> obtain ⟨_, rfl⟩ := h <;> exact List.mem_append_right _ he
  refine ⟨_, hsub _ (List.mem_map.2 ⟨1, List.mem_range'_1.2 ⟨le_rfl, by omega⟩, rfl⟩), (-2, [0]), ?_, by simp⟩
  refine List.mem_flatMap.2 ⟨n - 1, List.mem_range'_1.2 ⟨by omega, by omega⟩, ?_⟩
  have : (n - 1 + 1) % s1.length = 0 := by rw [l1, Nat.sub_add_cancel (by omega), Nat.mod_self]
  dsimp only
  rw [this]
  simp

/-- C102, the part that holds: no variable beyond `x2n` occurs. Full statement: the variables are among `x1`, ..., `x2n`.
False, see `C102_x0`. -/
theorem C102_variables_partial (rs : Quad) (n : ℕ) (s1 s2 : List ℤ) (p1 : PMSeq n s1) (p2 : PMSeq n s2) (x : List Char)
    (hx : PairFile rs s1 s2 x) (es : List Equation) (he : readOpb x = some es) (v : ℕ) (hv : Occurs v es) : v ≤ 2 * n := by
  obtain ⟨_, _, p, q, es', _, _, _, k4, k5, _⟩ := C102_read _ _ _ x hx
  rw [he] at k5
  cases k5
  obtain ⟨e, h1, t, h2, h3⟩ := hv
  exact vars_le p1.1 p2.1 k4 e h1 t h2 v h3

/-- C102 is false: from length 2 on every file uses the variable `x0`, while the variables of the format begin with `x1`.
(The first line, which should count the variables and equations, is missing too.) -/
theorem C102_x0 (rs : Quad) (n : ℕ) (hn : 2 ≤ n) (s1 s2 : List ℤ) (p1 : PMSeq n s1) (x : List Char)
    (hx : PairFile rs s1 s2 x) :
    (∃ es, readOpb x = some es ∧ Occurs 0 es) ∧ ¬ "* #variable=".toList <+: x := by
  obtain ⟨_, _, p, q, es, _, _, _, k4, k5, _⟩ := C102_read _ _ _ x hx
  refine ⟨⟨es, k5, zero_occurs hn p1.1 k4⟩, ?_⟩
  obtain ⟨t1, _, l1, l2, _, h1, _, h3, _, _, rfl⟩ := hx
  rintro ⟨r, hr⟩
  rw [letter_tag h1] at h3
  cases h3
  have := congrArg (fun l : List Char => l[2]?) hr
  change some '#' = some t1.toChar at this
  cases t1 <;> exact absurd this (by decide)

/-- C102. Every file that the run leaves behind can be read, with the equations of some pair for some row sum. -/
theorem C102_run (n : ℕ) (hn : n < 2 ^ 62) (l : List Quad) (hl : generateRowsums n .quaternionType = some l) :
    ∃ ws, findWithRowsum exactFl n .quaternionType = some ws ∧ ∀ path x, fileAfter ws path = some x →
      ∃ rs ∈ l, ∃ s1 s2 t1 t2 p q es, PMSeq n s1 ∧ PMSeq n s2 ∧
        equationsWilliamsonType s1 t1 s2 t2 rs = some ((p, q), es) ∧ readOpb x = some es := by
  obtain ⟨ws, h1, h2⟩ := C72_sound n hn l hl
  refine ⟨ws, h1, fun path x hx => ?_⟩
  obtain ⟨rs, hrs, s1, s2, k1, k2, k3⟩ := h2 path x hx
  obtain ⟨t1, t2, p, q, es, _, _, _, m4, m5, _⟩ := C102_read rs s1 s2 x k3
  exact ⟨rs, hrs, s1, s2, t1, t2, p, q, es, k1.1, k2.1, m4, m5⟩

-- The reader on a small text, with signs, products, a comment and an empty line.
example : readOpb "* a comment\n\n4 x1 x12 -2 x1 +7 x0 = -3;\n1 x2 = 5;\n".toList =
    some [⟨[(4, [1, 12]), (-2, [1]), (7, [0])], -3⟩, ⟨[(1, [2])], 5⟩] := by decide +kernel

-- Texts that are refused: no `;`, a number missing, a variable without a coefficient.
example : readOpb "4 x1 = 3\n".toList = none ∧ readOpb "4 x1 = ;\n".toList = none ∧ readOpb "x1 = 3;\n".toList = none := by
  decide +kernel

/-- A file exists for a pair of length 3. -/
example : ∃ x, PairFile (1, 1, 1, 3) [1, 1, -1] [1, 1, 1] x := by
  refine ⟨_, .Y, .Z, 'Y', 'Z', _, by decide, by decide, by decide, by decide, rfl, rfl⟩

end Props
