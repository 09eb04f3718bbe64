import Verif.Model.Solver
import Verif.Proofs.Helpers
import Verif.Proofs.Files
import Verif.Proofs.Rowsum
import Verif.Proofs.Fourier
import Verif.Proofs.Print

/-!
# The equation files
-/

set_option linter.unusedSimpArgs false
set_option linter.unusedVariables false

namespace Proofs.Solver
open Model Spec Proofs.Txt Proofs.Fourier Proofs.Files

/-! ## The filter on single sequences -/

theorem psd_le {n : ℕ} {x : List ℤ} (hx : PMSeq n x) (k : ℕ) : psd n x k ≤ (n : ℝ) ^ 2 := by
  unfold psd
  rw [Complex.normSq_eq_norm_sq]
  have h : ‖dft n x k‖ ≤ n := by
    unfold dft
    refine (norm_sum_le _ _).trans ?_
    have : ∀ j ∈ Finset.range n, ‖((x.getD j 0 : ℤ) : ℂ) * unit n (-(j * k : ℕ))‖ ≤ 1 := by
      intro j hj
      rw [norm_mul]
      have h1 : ‖((x.getD j 0 : ℤ) : ℂ)‖ = 1 := by
        rw [List.getD_eq_getElem _ _ (by rw [hx.1]; exact Finset.mem_range.1 hj)]
        rcases hx.2 _ (List.getElem_mem (by rw [hx.1]; exact Finset.mem_range.1 hj)) with h | h <;> rw [h] <;> simp
      have h2 : ‖unit n (-(j * k : ℕ))‖ = 1 := by
        unfold unit
        rw [Complex.norm_exp]
        simp [Complex.div_re, Complex.mul_re, Complex.mul_im]
      rw [h1, h2, one_mul]
    refine (Finset.sum_le_sum this).trans ?_
    simp
  exact pow_le_pow_left₀ (norm_nonneg _) h 2

/-- The filter compares with the square of the bound, so with bound `4n` it keeps everything. -/
theorem filter_all {n : ℕ} (l : List (List ℤ)) (hl : ∀ x ∈ l, PMSeq n x) :
    filteredDft exactFl l (exactFl.mul (exactFl.lit 4 1) (exactFl.ofInt n)) = l := by
  unfold filteredDft
  rw [List.filter_eq_self]
  intro x hx
  have hx := hl x hx
  rw [List.all_eq_true]
  intro e he
  have hm : exactFl.normSqr e ∈ (dftSequence exactFl x).map exactFl.normSqr := List.mem_map_of_mem he
  rcases Nat.eq_zero_or_pos n with h0 | h0
  · subst h0
    have hnil : x = [] := List.length_eq_zero_iff.1 hx.1
    subst hnil
    simp [dftSequence, exactFl] at he
    subst he
    simp [exactFl, Fl.normSqr]
  · have : NeZero n := ⟨by omega⟩
    rw [exact_psd hx.1] at hm
    obtain ⟨k, -, hk⟩ := List.mem_map.1 hm
    rw [← hk]
    have h1 := psd_le hx k
    simp only [exactFl, Bool.not_eq_true', decide_eq_false_iff_not, not_lt, gt_iff_lt]
    have h2 : (0 : ℝ) ≤ (n : ℝ) ^ 2 := by positivity
    push_cast
    nlinarith

/-! ## Texts -/

theorem sep {x : Char} : ∀ {a b c d : Text}, x ∉ a → x ∉ b → a ++ x :: c = b ++ x :: d → a = b ∧ c = d
  | [], [], c, d, _, _, h => by simpa using h
  | [], y :: b, c, d, _, hb, h => by
    simp only [List.nil_append, List.cons_append, List.cons.injEq] at h
    exact absurd (h.1 ▸ List.mem_cons_self) hb
  | y :: a, [], c, d, ha, _, h => by
    simp only [List.nil_append, List.cons_append, List.cons.injEq] at h
    exact absurd (h.1 ▸ List.mem_cons_self) ha
  | y :: a, z :: b, c, d, ha, hb, h => by
    simp only [List.cons_append, List.cons.injEq] at h
    obtain ⟨e1, e2⟩ := sep (fun h' => ha (List.mem_cons_of_mem _ h')) (fun h' => hb (List.mem_cons_of_mem _ h')) h.2
    exact ⟨by rw [h.1, e1], e2⟩

theorem notin_natText {c : Char} (h : ¬ IsDigit c) (k : ℕ) : c ∉ natText k := fun h' => h (natText_digits k c h')

theorem notin_intText {c : Char} (h : ¬ IsDigit c) (hd : c ≠ '-') (z : ℤ) : c ∉ intText z := fun h' => by
  rcases intText_num z c h' with h1 | h1
  · exact hd h1
  · exact h h1

theorem intText_nonneg {z : ℤ} (h : 0 ≤ z) : intText z = natText z.natAbs := if_neg (by omega)

theorem path_eq (p : ℕ) (rs : Quad) (k : ℕ) : solverPath p rs k =
    ("results/equations/".toList ++ "qts".toList ++ "/find_".toList ++ natText p ++ "/rowsum_".toList) ++
    (intText (getTwoBest rs).1.1 ++ '-' :: (intText (getTwoBest rs).2.1 ++ '_' :: 'a' :: 't' :: '_' ::
      (natText (getTwoBest rs).1.2 ++ '-' :: (natText (getTwoBest rs).2.2 ++ '/' :: 'n' :: 'u' :: 'm' :: '_' ::
        (natText k ++ '.' :: 'o' :: 'p' :: 'b' :: []))))) := by
  unfold solverPath solverDir
  generalize getTwoBest rs = b
  obtain ⟨⟨m1, i1⟩, ⟨m2, i2⟩⟩ := b
  simp

theorem path_inj {p : ℕ} {rs rs' : Quad} {k k' : ℕ}
    (h1 : 0 ≤ (getTwoBest rs).1.1) (h2 : 0 ≤ (getTwoBest rs).2.1)
    (h1' : 0 ≤ (getTwoBest rs').1.1) (h2' : 0 ≤ (getTwoBest rs').2.1)
    (h : solverPath p rs k = solverPath p rs' k') : getTwoBest rs = getTwoBest rs' ∧ k = k' := by
  rw [path_eq, path_eq] at h
  have h := List.append_cancel_left h
  generalize getTwoBest rs = b at *
  generalize getTwoBest rs' = b' at *
  obtain ⟨⟨m1, i1⟩, ⟨m2, i2⟩⟩ := b
  obtain ⟨⟨m1', i1'⟩, ⟨m2', i2'⟩⟩ := b'
  dsimp only at *
  rw [intText_nonneg h1, intText_nonneg h1', intText_nonneg h2, intText_nonneg h2'] at h
  have d : ∀ c, c = '-' ∨ c = '_' ∨ c = '/' ∨ c = '.' → ¬ IsDigit c := by
    rintro c (rfl | rfl | rfl | rfl) <;> unfold IsDigit <;> decide
  obtain ⟨e1, h⟩ := sep (notin_natText (d _ (.inl rfl)) _) (notin_natText (d _ (.inl rfl)) _) h
  obtain ⟨e2, h⟩ := sep (notin_natText (d _ (.inr (.inl rfl))) _) (notin_natText (d _ (.inr (.inl rfl))) _) h
  simp only [List.cons.injEq, true_and] at h
  obtain ⟨e3, h⟩ := sep (notin_natText (d _ (.inl rfl)) _) (notin_natText (d _ (.inl rfl)) _) h
  obtain ⟨e4, h⟩ := sep (notin_natText (d _ (.inr (.inr (.inl rfl)))) _) (notin_natText (d _ (.inr (.inr (.inl rfl)))) _) h
  simp only [List.cons.injEq, true_and] at h
  obtain ⟨e5, -⟩ := sep (notin_natText (d _ (.inr (.inr (.inr rfl)))) _) (notin_natText (d _ (.inr (.inr (.inr rfl)))) _) h
  have := natText_inj e1
  have := natText_inj e2
  have := natText_inj e3
  have := natText_inj e4
  have := natText_inj e5
  simp only [Prod.mk.injEq]
  omega

theorem tagChar_ne (t : Tag) : t.toChar ≠ '\n' := by cases t <;> decide

/-- The row sum can be read off the content. -/
theorem comment_inj {s1 s2 s1' s2' : List ℤ} {t1 t2 t1' t2' : Tag} {rs rs' : Quad} {c c' e e' : Text}
    (h1 : IsPM s1) (h2 : IsPM s2) (h1' : IsPM s1') (h2' : IsPM s2')
    (hc : generateComment s1 t1 s2 t2 rs = some c) (hc' : generateComment s1' t1' s2' t2' rs' = some c')
    (h : c ++ e = c' ++ e') : rs = rs' := by
  unfold generateComment at hc hc'
  rw [seqToString_pm h1, seqToString_pm h2] at hc
  rw [seqToString_pm h1', seqToString_pm h2'] at hc'
  simp only [Option.bind_some, Option.map_some, Option.some.injEq] at hc hc'
  subst hc
  subst hc'
  have key : ∀ (t1 t2 : Tag) (x y : Text) (rs : Quad) (e : Text),
      "* ".toList ++ [t1.toChar] ++ ": ".toList ++ x ++ "\n* ".toList ++ [t2.toChar] ++ ": ".toList ++ y ++ "\n".toList ++
      ("* rowsum: (".toList ++ intText rs.1 ++ ",".toList ++ intText rs.2.1 ++ ",".toList ++ intText rs.2.2.1 ++ ",".toList ++
        intText rs.2.2.2 ++ ")".toList) ++ e =
      ('*' :: ' ' :: t1.toChar :: ':' :: ' ' :: x) ++ '\n' :: (('*' :: ' ' :: t2.toChar :: ':' :: ' ' :: y) ++ '\n' ::
        ("* rowsum: (".toList ++ (intText rs.1 ++ ',' :: (intText rs.2.1 ++ ',' :: (intText rs.2.2.1 ++ ',' ::
          (intText rs.2.2.2 ++ ')' :: e)))))) := by
    intros
    simp
  rw [key, key] at h
  have nl : ∀ (t : Tag) (s : List ℤ), '\n' ∉ ('*' :: ' ' :: t.toChar :: ':' :: ' ' :: pmText s) := by
    intro t s hm
    have := tagChar_ne t
    have h' := (pmText_clean s).1
    simp only [List.mem_cons] at hm
    rcases hm with h | h | h | h | h | h
    · exact absurd h (by decide)
    · exact absurd h (by decide)
    · exact this h.symm
    · exact absurd h (by decide)
    · exact absurd h (by decide)
    · exact h' h
  obtain ⟨-, h⟩ := sep (nl _ _) (nl _ _) h
  obtain ⟨-, h⟩ := sep (nl _ _) (nl _ _) h
  have h := List.append_cancel_left h
  have d : ∀ c, c = ',' ∨ c = ')' → ∀ z, c ∉ intText z := by
    rintro c (rfl | rfl) z <;> exact notin_intText (by unfold IsDigit; decide) (by decide) z
  obtain ⟨e1, h⟩ := sep (d _ (.inl rfl) _) (d _ (.inl rfl) _) h
  obtain ⟨e2, h⟩ := sep (d _ (.inl rfl) _) (d _ (.inl rfl) _) h
  obtain ⟨e3, h⟩ := sep (d _ (.inl rfl) _) (d _ (.inl rfl) _) h
  obtain ⟨e4, h⟩ := sep (d _ (.inr rfl) _) (d _ (.inr rfl) _) h
  exact Prod.ext (intText_inj e1) (Prod.ext (intText_inj e2) (Prod.ext (intText_inj e3) (intText_inj e4)))

/-! ## Files after a list of writes -/

theorem fileAfter_mem {ws : List (Text × Text)} {p c : Text} (h : fileAfter ws p = some c) : (p, c) ∈ ws := by
  unfold fileAfter at h
  obtain ⟨w, hw, rfl⟩ := Option.map_eq_some_iff.1 h
  have := List.mem_filter.1 (List.mem_of_getLast? hw)
  have e : w.1 = p := by simpa using this.2
  rw [← e]
  exact this.1

theorem fileAfter_unique {ws : List (Text × Text)} {p c : Text} (h : (p, c) ∈ ws) (hu : ∀ c', (p, c') ∈ ws → c' = c) :
    fileAfter ws p = some c := by
  cases e : fileAfter ws p with
  | some c' => rw [hu c' (fileAfter_mem e)]
  | none =>
    unfold fileAfter at e
    rw [Option.map_eq_none_iff, List.getLast?_eq_none_iff, List.filter_eq_nil_iff] at e
    exact absurd (e _ h) (by simp)

theorem fileAfter_later {ws ws' : List (Text × Text)} {p c : Text} (h : ∃ c', (p, c') ∈ ws')
    (hf : fileAfter (ws ++ ws') p = some c) : (p, c) ∈ ws' := by
  refine fileAfter_mem (ws := ws') ?_
  unfold fileAfter at hf ⊢
  rw [List.filter_append, List.getLast?_append] at hf
  obtain ⟨c', hc'⟩ := h
  cases e : (ws'.filter fun w => w.1 = p).getLast? with
  | some w => rw [e] at hf; exact hf
  | none =>
    rw [List.getLast?_eq_none_iff, List.filter_eq_nil_iff] at e
    exact absurd (e _ hc') (by simp)

/-! ## The files of one row sum -/

/-- Membership in the generated list. -/
theorem gen_props {n : ℕ} {l : List Quad} (hl : generateRowsums n .quaternionType = some l) {rs : Quad} (h : rs ∈ l) :
    0 ≤ rs.1 ∧ 0 ≤ rs.2.1 ∧ 0 ≤ rs.2.2.1 ∧ rs.1 ^ 2 + rs.2.1 ^ 2 + rs.2.2.1 ^ 2 + rs.2.2.2 ^ 2 = 4 * n := by
  obtain ⟨l', h1, -, h3⟩ := generateRowsums_spec n .quaternionType
  rw [hl] at h1
  cases h1
  obtain ⟨a, b, c, d⟩ := rs
  have h4 := (h3 (a, b, c, d)).1 h
  unfold SortedQ squareSum at h4
  simp only at h4 ⊢
  refine ⟨by omega, by omega, by omega, ?_⟩
  have := h4.1
  nlinarith

theorem entries_bound {n : ℕ} (hn : n < 2 ^ 62) {rs : Quad}
    (h : rs.1 ^ 2 + rs.2.1 ^ 2 + rs.2.2.1 ^ 2 + rs.2.2.2 ^ 2 = 4 * n) :
    ∀ i < 4, -4294967296 ≤ entry rs i ∧ entry rs i ≤ 4294967296 := by
  obtain ⟨a, b, c, d⟩ := rs
  simp only at h
  have hn' : (n : ℤ) < 4611686018427387904 := by exact_mod_cast hn
  have key : ∀ x : ℤ, x ^ 2 ≤ 4 * n → -4294967296 ≤ x ∧ x ≤ 4294967296 := by
    intro x hx
    constructor <;> nlinarith
  intro i hi
  have ha := sq_nonneg a
  have hb := sq_nonneg b
  have hc := sq_nonneg c
  have hd := sq_nonneg d
  rcases i with _ | _ | _ | _ | i
  · exact key a (by linarith)
  · exact key b (by linarith)
  · exact key c (by linarith)
  · exact key d (by linarith)
  · omega

structure Good (n : ℕ) (rs : Quad) : Prop where
  lt : (getTwoBest rs).1.2 < (getTwoBest rs).2.2
  lt4 : (getTwoBest rs).2.2 < 4
  nonneg1 : 0 ≤ (getTwoBest rs).1.1
  nonneg2 : 0 ≤ (getTwoBest rs).2.1
  small1 : (getTwoBest rs).1.1 < 2 ^ 62
  small2 : (getTwoBest rs).2.1 < 2 ^ 62

theorem good {n : ℕ} (hn : n < 2 ^ 62) {l : List Quad} (hl : generateRowsums n .quaternionType = some l) {rs : Quad}
    (h : rs ∈ l) : Good n rs := by
  obtain ⟨p1, p2, p3, p4⟩ := gen_props hl h
  have hb := entries_bound hn p4
  obtain ⟨h1, h2, h3, h4, h5⟩ := Helpers.twoBest_spec rs (fun i hi => by have := (hb i hi).1; omega)
  have e0 : entry rs 0 = rs.1 := rfl
  have e1 : entry rs 1 = rs.2.1 := rfl
  have e2 : entry rs 2 = rs.2.2.1 := rfl
  have b1 := (hb _ (h1.trans h2)).2
  have b2 := (hb _ h2).2
  rw [← h3] at b1
  rw [← h4] at b2
  generalize hb0 : getTwoBest rs = b at *
  obtain ⟨⟨m1, i1⟩, ⟨m2, i2⟩⟩ := b
  dsimp only at *
  have k : ∃ k < 3, k ≠ i1 ∧ k ≠ i2 := by
    by_cases g0 : 0 ≠ i1 ∧ 0 ≠ i2
    · exact ⟨0, by omega, g0⟩
    · by_cases g1 : 1 ≠ i1 ∧ 1 ≠ i2
      · exact ⟨1, by omega, g1⟩
      · exact ⟨2, by omega, by omega⟩
  obtain ⟨k, hk, hk1, hk2⟩ := k
  have h6 := h5 k (by omega) hk1 hk2
  have h7 : 0 ≤ entry rs k := by
    rcases k with _ | _ | _ | k
    · rw [e0]; exact p1
    · rw [e1]; exact p2
    · rw [e2]; exact p3
    · omega
  constructor <;> rw [hb0] <;> dsimp only <;> omega

/-- The sequences of one file. -/
def couples (n : ℕ) (rs : Quad) : List (List ℤ × List ℤ) :=
  (generateSequencesWithRowsum (getTwoBest rs).1.1 n).flatMap fun s1 =>
    (generateSequencesWithRowsum (getTwoBest rs).2.1 n).map fun s2 => (s1, s2)

theorem mem_couples {n : ℕ} (hn : n < 2 ^ 62) {rs : Quad} (g : Good n rs) (c : List ℤ × List ℤ) :
    c ∈ couples n rs ↔ (PMSeq n c.1 ∧ c.1.sum = (getTwoBest rs).1.1) ∧ PMSeq n c.2 ∧ c.2.sum = (getTwoBest rs).2.1 := by
  obtain ⟨s1, s2⟩ := c
  unfold couples
  have e1 := (generate_spec (getTwoBest rs).1.1 n hn (by have := g.nonneg1; norm_num; omega) g.small1).2 s1
  have e2 := (generate_spec (getTwoBest rs).2.1 n hn (by have := g.nonneg2; norm_num; omega) g.small2).2 s2
  simp only [List.mem_flatMap, List.mem_map, Prod.mk.injEq]
  constructor
  · rintro ⟨x, hx, y, hy, rfl, rfl⟩
    exact ⟨e1.1 hx, e2.1 hy⟩
  · rintro ⟨h1, h2⟩
    exact ⟨s1, e1.2 h1, s2, e2.2 h2, rfl, rfl⟩

/-- The content of the file for a pair. -/
def content (rs : Quad) (c : List ℤ × List ℤ) : Option Text :=
  (indexToTag (getTwoBest rs).1.2).bind fun tag1 => (indexToTag (getTwoBest rs).2.2).bind fun tag2 =>
    (generateEquations c.1 tag1 c.2 tag2 .quaternionType rs).bind fun eqs =>
      (generateComment c.1 tag1 c.2 tag2 rs).map fun comment => comment ++ eqs

theorem comment_ne (t u : Tag) : additionalComment t u ≠ [] := by
  unfold additionalComment
  intro h
  have := congrArg List.length h
  simp only [List.length_append, List.length_cons, List.length_nil] at this
  omega

theorem equations_some {t u : Tag} (h : ∀ s1 s2 rs, ∃ r, equationsWilliamsonType s1 t s2 u rs = some r) (s1 s2 : List ℤ)
    (rs : Quad) : ∃ eqs, generateEquations s1 t s2 u .quaternionType rs = some eqs ∧ eqs ≠ [] := by
  obtain ⟨r, hr⟩ := h s1 s2 rs
  refine ⟨_, by unfold generateEquations; rw [hr]; rfl, ?_⟩
  exact List.append_ne_nil_of_left_ne_nil (comment_ne _ _) _

theorem tags_some {i j : ℕ} (h : i < j) (h4 : j < 4) : ∃ t u, indexToTag i = some t ∧ indexToTag j = some u ∧
    ∀ s1 s2 rs, ∃ eqs, generateEquations s1 t s2 u .quaternionType rs = some eqs ∧ eqs ≠ [] := by
  have : (i = 0 ∧ j = 1) ∨ (i = 0 ∧ j = 2) ∨ (i = 0 ∧ j = 3) ∨ (i = 1 ∧ j = 2) ∨ (i = 1 ∧ j = 3) ∨ (i = 2 ∧ j = 3) := by omega
  rcases this with ⟨rfl, rfl⟩ | ⟨rfl, rfl⟩ | ⟨rfl, rfl⟩ | ⟨rfl, rfl⟩ | ⟨rfl, rfl⟩ | ⟨rfl, rfl⟩ <;>
    exact ⟨_, _, rfl, rfl, equations_some fun s1 s2 rs => ⟨_, rfl⟩⟩

theorem content_some {n : ℕ} {rs : Quad} (g : Good n rs) {c : List ℤ × List ℤ} (h1 : IsPM c.1) (h2 : IsPM c.2) :
    ∃ x, content rs c = some x := by
  obtain ⟨t, u, e1, e2, e3⟩ := tags_some g.lt g.lt4
  obtain ⟨eqs, e4, -⟩ := e3 c.1 c.2 rs
  unfold content
  rw [e1, e2]
  simp only [Option.bind_some, e4]
  unfold generateComment
  rw [seqToString_pm h1, seqToString_pm h2]
  exact ⟨_, rfl⟩

theorem content_inj {rs rs' : Quad} {c c' : List ℤ × List ℤ} (h1 : IsPM c.1) (h2 : IsPM c.2) (h1' : IsPM c'.1)
    (h2' : IsPM c'.2) {x : Text} (hc : content rs c = some x) (hc' : content rs' c' = some x) : rs = rs' := by
  unfold content at hc hc'
  simp only [Option.bind_eq_some_iff, Option.map_eq_some_iff] at hc hc'
  obtain ⟨t1, -, t2, -, e, -, k, hk, rfl⟩ := hc
  obtain ⟨t1', -, t2', -, e', -, k', hk', h⟩ := hc'
  exact (comment_inj h1' h2' h1 h2 hk' hk h).symm

theorem files_eq {n : ℕ} (hn : n < 2 ^ 62) {rs : Quad} (g : Good n rs) :
    solverFiles exactFl n .quaternionType rs =
      some ((couples n rs).zipIdx.map fun c => (solverPath n rs c.2, (content rs c.1).getD [])) := by
  obtain ⟨t, u, e1, e2, e3⟩ := tags_some g.lt g.lt4
  unfold solverFiles
  dsimp only
  rw [e1, e2]
  simp only [Option.bind_some]
  rw [filter_all _ (fun x hx => ((generate_spec (getTwoBest rs).1.1 n hn (by have := g.nonneg1; norm_num; omega) g.small1).2 x).1 hx |>.1),
    filter_all _ (fun x hx => ((generate_spec (getTwoBest rs).2.1 n hn (by have := g.nonneg2; norm_num; omega) g.small2).2 x).1 hx |>.1)]
  change Option.map _ (List.mapM _ (couples n rs)) = _
  have hm : (couples n rs).mapM (fun c => solverContent .quaternionType rs (t, u) c) =
      some ((couples n rs).map fun c => some ((content rs c).getD [])) := by
    refine Print.mapM_some fun c hc => ?_
    have hc := (mem_couples hn g c).1 hc
    obtain ⟨eqs, e4, e5⟩ := e3 c.1 c.2 rs
    obtain ⟨x, hx⟩ := content_some g hc.1.1.2 hc.2.1.2
    rw [hx]
    unfold content at hx
    rw [e1, e2] at hx
    simp only [Option.bind_some, e4] at hx
    unfold solverContent
    simp only [e4, Option.bind_some, if_pos e5]
    obtain ⟨k, hk, rfl⟩ := Option.map_eq_some_iff.1 hx
    rw [hk]
    rfl
  rw [hm]
  simp only [Option.map_some, Option.some.injEq]
  rw [List.filterMap_map]
  have : (couples n rs).filterMap (id ∘ fun c => some ((content rs c).getD [])) = (couples n rs).map fun c => (content rs c).getD [] := by
    rw [← List.filterMap_eq_map]; rfl
  rw [this, List.zipIdx_map, List.map_map]
  rfl

theorem find_eq {n : ℕ} (hn : n < 2 ^ 62) {l : List Quad} (hl : generateRowsums n .quaternionType = some l) :
    findWithRowsum exactFl n .quaternionType =
      some (l.flatMap fun rs => (couples n rs).zipIdx.map fun c => (solverPath n rs c.2, (content rs c.1).getD [])) := by
  unfold findWithRowsum
  rw [hl]
  simp only [Option.bind_some]
  rw [Print.mapM_some (fun rs hrs => files_eq hn (good hn hl hrs)), Option.map_some, List.flatMap_def]

theorem mem_find {n : ℕ} (hn : n < 2 ^ 62) {l : List Quad} (hl : generateRowsums n .quaternionType = some l)
    (l' : List Quad) (hl' : ∀ rs ∈ l', rs ∈ l) (p x : Text) :
    (p, x) ∈ (l'.flatMap fun rs => (couples n rs).zipIdx.map fun c => (solverPath n rs c.2, (content rs c.1).getD [])) ↔
      ∃ rs ∈ l', ∃ k c, (couples n rs)[k]? = some c ∧ p = solverPath n rs k ∧ content rs c = some x := by
  simp only [List.mem_flatMap, List.mem_map, Prod.mk.injEq]
  constructor
  · rintro ⟨rs, hrs, ⟨c, k⟩, hc, rfl, rfl⟩
    rw [List.mem_zipIdx_iff_getElem?] at hc
    have hm := (mem_couples hn (good hn hl (hl' rs hrs)) _).1 (List.mem_of_getElem? hc)
    obtain ⟨y, hy⟩ := content_some (good hn hl (hl' rs hrs)) hm.1.1.2 hm.2.1.2
    exact ⟨rs, hrs, k, c, hc, rfl, by dsimp only; rw [hy]; rfl⟩
  · rintro ⟨rs, hrs, k, c, hc, rfl, hx⟩
    exact ⟨rs, hrs, (c, k), List.mem_zipIdx_iff_getElem?.2 hc, rfl, by rw [hx]; rfl⟩

theorem couples_congr {n : ℕ} {rs rs' : Quad} (h : getTwoBest rs = getTwoBest rs') : couples n rs = couples n rs' := by
  unfold couples; rw [h]

/-- What is in the files afterwards. -/
theorem find_sound {n : ℕ} (hn : n < 2 ^ 62) {l : List Quad} (hl : generateRowsums n .quaternionType = some l) :
    ∃ ws, findWithRowsum exactFl n .quaternionType = some ws ∧ ∀ p x, fileAfter ws p = some x →
      ∃ rs ∈ l, ∃ s1 s2, (PMSeq n s1 ∧ s1.sum = (getTwoBest rs).1.1) ∧ (PMSeq n s2 ∧ s2.sum = (getTwoBest rs).2.1) ∧
        content rs (s1, s2) = some x := by
  refine ⟨_, find_eq hn hl, fun p x hx => ?_⟩
  obtain ⟨rs, hrs, k, c, hc, rfl, h⟩ := (mem_find hn hl l (fun _ h => h) p x).1 (fileAfter_mem hx)
  have hm := (mem_couples hn (good hn hl hrs) _).1 (List.mem_of_getElem? hc)
  exact ⟨rs, hrs, c.1, c.2, hm.1, hm.2, h⟩

theorem find_complete {n : ℕ} (hn : n < 2 ^ 62) {l : List Quad} (hl : generateRowsums n .quaternionType = some l)
    {rs : Quad} (hrs : rs ∈ l) (hu : ∀ rs' ∈ l, getTwoBest rs' = getTwoBest rs → rs' = rs) {s1 s2 : List ℤ}
    (h1 : PMSeq n s1) (h1' : s1.sum = (getTwoBest rs).1.1) (h2 : PMSeq n s2) (h2' : s2.sum = (getTwoBest rs).2.1) :
    ∃ ws p x, findWithRowsum exactFl n .quaternionType = some ws ∧ content rs (s1, s2) = some x ∧
      fileAfter ws p = some x := by
  have g := good hn hl hrs
  have hc := (mem_couples hn g (s1, s2)).2 ⟨⟨h1, h1'⟩, h2, h2'⟩
  obtain ⟨k, hk⟩ := List.getElem?_of_mem hc
  obtain ⟨x, hx⟩ := content_some g (c := (s1, s2)) h1.2 h2.2
  refine ⟨_, solverPath n rs k, x, find_eq hn hl, hx, fileAfter_unique ?_ ?_⟩
  · exact (mem_find hn hl l (fun _ h => h) _ x).2 ⟨rs, hrs, k, _, hk, rfl, hx⟩
  · intro x' hx'
    obtain ⟨rs', hrs', k', c', hc', hp, hx'⟩ := (mem_find hn hl l (fun _ h => h) _ x').1 hx'
    have g' := good hn hl hrs'
    obtain ⟨e1, e2⟩ := path_inj g.nonneg1 g.nonneg2 g'.nonneg1 g'.nonneg2 hp
    have := hu rs' hrs' e1.symm
    subst this
    subst e2
    rw [hk] at hc'
    cases hc'
    rw [hx] at hx'
    exact (Option.some.inj hx').symm

theorem find_lost {n : ℕ} (hn : n < 2 ^ 62) {l : List Quad} (hl : generateRowsums n .quaternionType = some l)
    (hnd : l.Nodup) {r1 r2 : Quad} (h1 : r1 ∈ l) (h2 : r2 ∈ l) (hne : r1 ≠ r2) (hb : getTwoBest r1 = getTwoBest r2) :
    ∃ ws rs, findWithRowsum exactFl n .quaternionType = some ws ∧ (rs = r1 ∨ rs = r2) ∧
      ∀ s1 s2 p x, PMSeq n s1 → PMSeq n s2 → content rs (s1, s2) = some x → fileAfter ws p ≠ some x := by
  have key : ∃ rs rs' la lb, (rs = r1 ∨ rs = r2) ∧ l = la ++ rs :: lb ∧ rs' ∈ lb ∧ getTwoBest rs = getTwoBest rs' := by
    obtain ⟨la, lb, e⟩ := List.append_of_mem h1
    have h2' : r2 ∈ la ++ r1 :: lb := e ▸ h2
    rcases List.mem_append.1 h2' with h | h
    · obtain ⟨lc, ld, e'⟩ := List.append_of_mem h
      exact ⟨r2, r1, lc, ld ++ r1 :: lb, .inr rfl, by rw [e, e']; simp, by simp, hb.symm⟩
    · rcases List.mem_cons.1 h with h | h
      · exact absurd h.symm hne
      · exact ⟨r1, r2, la, lb, .inl rfl, e, h, hb⟩
  obtain ⟨rs, rs', la, lb, hrs, e, hm, hb'⟩ := key
  refine ⟨_, rs, find_eq hn hl, hrs, fun s1 s2 p x p1 p2 hx hf => ?_⟩
  have hin : rs ∈ l := by rw [e]; simp
  have hin' : rs' ∈ l := by rw [e]; simp [hm]
  have hsub : ∀ r ∈ lb, r ∈ l := fun r hr => by rw [e]; simp [hr]
  -- the file at `p` was written for `rs`
  obtain ⟨r, hr, k, c, hc, hp, hc'⟩ := (mem_find hn hl l (fun _ h => h) p x).1 (fileAfter_mem hf)
  have hmc := (mem_couples hn (good hn hl hr) _).1 (List.mem_of_getElem? hc)
  have : r = rs := content_inj hmc.1.1.2 hmc.2.1.2 p1.2 p2.2 hc' hx
  subst this
  -- but it is overwritten later
  have hlast : (p, x) ∈ (lb.flatMap fun rs => (couples n rs).zipIdx.map fun c => (solverPath n rs c.2, (content rs c.1).getD [])) := by
    refine fileAfter_later (ws := (la ++ [r]).flatMap fun rs => (couples n rs).zipIdx.map fun c => (solverPath n rs c.2, (content rs c.1).getD [])) ?_ ?_
    · obtain ⟨y, hy⟩ := content_some (good hn hl hin') (c := c) hmc.1.1.2 hmc.2.1.2
      refine ⟨y, (mem_find hn hl lb hsub p y).2 ⟨rs', hm, k, c, by rw [← couples_congr hb']; exact hc, ?_, hy⟩⟩
      rw [hp, path_eq, path_eq, hb']
    · rw [← List.flatMap_append, List.append_assoc, List.singleton_append, ← e]
      exact hf
  obtain ⟨r', hr', k', c2, hc2, hp2, hc2'⟩ := (mem_find hn hl lb hsub p x).1 hlast
  have hmc2 := (mem_couples hn (good hn hl (hsub r' hr')) _).1 (List.mem_of_getElem? hc2)
  have : r' = r := content_inj hmc2.1.1.2 hmc2.2.1.2 p1.2 p2.2 hc2' hx
  subst this
  rw [e, List.nodup_append] at hnd
  exact (List.nodup_cons.1 hnd.2.1).1 hr'

end Proofs.Solver
