import Verif.Spec.Opb
import Verif.Proofs.Solver

/-!
# Helper lemmas: the texts of the equations are read back
-/

namespace Proofs.Opb
open Model Spec Proofs Proofs.Txt Proofs.Solver

instance (c : Char) : Decidable (IsDigit c) := by unfold IsDigit; infer_instance

theorem pieces_ne (c : Char) : ∀ l, pieces c l ≠ []
  | [] => by simp [pieces]
  | d :: l => by
      unfold pieces
      split
      · simp
      · split <;> simp

theorem pieces_free {c : Char} : ∀ {l : List Char}, c ∉ l → pieces c l = [l]
  | [], _ => rfl
  | d :: l, h => by
      have h1 : d ≠ c := fun e => h (e ▸ List.mem_cons_self)
      unfold pieces
      rw [if_neg h1, pieces_free fun h' => h (List.mem_cons_of_mem _ h')]

theorem pieces_sep {c : Char} (b : List Char) : ∀ {l : List Char}, c ∉ l → pieces c (l ++ c :: b) = l :: pieces c b
  | [], _ => by simp [pieces]
  | d :: l, h => by
      have h1 : d ≠ c := fun e => h (e ▸ List.mem_cons_self)
      rw [List.cons_append, pieces, if_neg h1, pieces_sep b fun h' => h (List.mem_cons_of_mem _ h')]

theorem digit_eq : digit = parseDigit := by
  funext a c
  unfold digit parseDigit
  rw [Nat.mul_comm]
  rfl

theorem digits_nat (k : ℕ) : digits (natText k) = some k := by
  unfold digits
  rw [if_neg (natText_ne k), digit_eq]
  exact natText_parse k

theorem natText_head (k : ℕ) : ∃ d l, natText k = d :: l ∧ IsDigit d := by
  cases h : natText k with
  | nil => exact absurd h (natText_ne k)
  | cons d l => exact ⟨d, l, rfl, natText_digits k d (h ▸ List.mem_cons_self)⟩

theorem number_nat (k : ℕ) : number (natText k) = some (k : ℤ) := by
  have h := digits_nat k
  obtain ⟨d, l, e, hd⟩ := natText_head k
  rw [e] at h ⊢
  unfold number
  have h1 : d ≠ '+' := by rintro rfl; exact absurd hd (by decide)
  have h2 : d ≠ '-' := by rintro rfl; exact absurd hd (by decide)
  rw [if_neg (by simpa using h1), if_neg (by simpa using h2), h]
  rfl

theorem number_plus (k : ℕ) : number ('+' :: natText k) = some (k : ℤ) := by
  unfold number
  rw [if_pos (by rfl), List.tail_cons, digits_nat]
  rfl

theorem number_minus (k : ℕ) : number ('-' :: natText k) = some (-(k : ℤ)) := by
  unfold number
  rw [if_neg (by simp), if_pos (by rfl), List.tail_cons, digits_nat]
  rfl

theorem number_int (z : ℤ) : number (intText z) = some z := by
  unfold intText
  split
  · rw [number_minus]
    congr 1
    omega
  · rw [number_nat]
    congr 1
    omega

/-- The first word of a term. -/
def coef (first : Bool) (z : ℤ) : List Char := (if z > 0 && !first then ['+'] else []) ++ intText z

theorem number_coef (first : Bool) (z : ℤ) : number (coef first z) = some z := by
  unfold coef
  split
  · rename_i h
    have hz : 0 < z := by
      simp only [Bool.and_eq_true, decide_eq_true_eq] at h
      exact h.1
    rw [intText_nonneg hz.le]
    rw [List.singleton_append, number_plus]
    congr 1
    omega
  · exact number_int z

theorem coef_num (first : Bool) (z : ℤ) : ∀ c ∈ coef first z, c = '+' ∨ c = '-' ∨ IsDigit c := by
  intro c hc
  unfold coef at hc
  rcases List.mem_append.1 hc with h | h
  · split at h
    · exact .inl (List.mem_singleton.1 h)
    · cases h
  · exact .inr (intText_num z c h)

theorem coef_ne (first : Bool) (z : ℤ) : coef first z ≠ [] := by
  unfold coef intText
  have := natText_ne z.natAbs
  split <;> split <;> simp [this]

theorem coef_first (first : Bool) (z : ℤ) : coef first z ≠ ['='] ∧ (coef first z).head? ≠ some 'x' := by
  have h := coef_num first z
  constructor
  · intro e
    rw [e] at h
    rcases h '=' List.mem_cons_self with h | h | h
    · exact absurd h (by decide)
    · exact absurd h (by decide)
    · exact absurd h (by decide)
  · intro e
    rcases h 'x' (List.mem_of_mem_head? e) with h | h | h
    · exact absurd h (by decide)
    · exact absurd h (by decide)
    · exact absurd h (by decide)

theorem notin_coef {c : Char} (h1 : c ≠ '+') (h2 : c ≠ '-') (h3 : ¬ IsDigit c) (first : Bool) (z : ℤ) : c ∉ coef first z := by
  intro h
  rcases coef_num first z c h with h | h | h
  · exact h1 h
  · exact h2 h
  · exact h3 h

/-- The word of a variable. -/
def var (v : ℕ) : List Char := 'x' :: natText v

theorem notin_var {c : Char} (h1 : c ≠ 'x') (h3 : ¬ IsDigit c) (v : ℕ) : c ∉ var v := by
  intro h
  rcases List.mem_cons.1 h with h | h
  · exact h1 h
  · exact notin_natText h3 v h

theorem pieces_term (b : List Char) : ∀ (vs : List ℕ) (w : List Char), ' ' ∉ w →
    pieces ' ' (w ++ (vs.flatMap fun v => ' ' :: 'x' :: natText v) ++ ' ' :: b) = w :: vs.map var ++ pieces ' ' b
  | [], w, hw => by simpa using pieces_sep b hw
  | v :: vs, w, hw => by
      have := pieces_term b vs (var v) (notin_var (by decide) (by decide) v)
      rw [List.flatMap_cons, List.append_assoc, List.cons_append, List.cons_append, List.append_assoc,
        List.cons_append, List.cons_append, pieces_sep _ hw]
      have e : 'x' :: (natText v ++ ((vs.flatMap fun v => ' ' :: 'x' :: natText v) ++ ' ' :: b)) =
          var v ++ (vs.flatMap fun v => ' ' :: 'x' :: natText v) ++ ' ' :: b := by
        simp [var]
      rw [e, this]
      simp

theorem termText_eq (first : Bool) (t : ℤ × List ℕ) :
    termText first t = coef first t.1 ++ (t.2.flatMap fun v => ' ' :: 'x' :: natText v) ++ [' '] := rfl

/-- The words of a term. -/
def words (first : Bool) (t : ℤ × List ℕ) : List (List Char) := coef first t.1 :: t.2.map var

theorem pieces_terms (b : List Char) (f : Bool) : ∀ ts : List (ℤ × List ℕ),
    pieces ' ' (ts.flatMap (termText f) ++ b) = ts.flatMap (words f) ++ pieces ' ' b
  | [] => rfl
  | t :: ts => by
      rw [List.flatMap_cons, List.flatMap_cons, List.append_assoc, termText_eq, List.append_assoc, List.singleton_append,
        pieces_term _ _ _ (notin_coef (by decide) (by decide) (by decide) _ _), pieces_terms b f ts]
      simp [words]

/-- The line of an equation, without the line end. -/
def line (e : Equation) : List Char :=
  (match e.terms with
    | [] => []
    | t :: ts => termText true t ++ ts.flatMap (termText false)) ++ ['=', ' '] ++ intText e.rhs ++ [';']

theorem text_eq (e : Equation) : e.text = line e ++ ['\n'] := by
  unfold Equation.text line
  cases e.terms <;> simp

/-- All words of the line. -/
def lineWords (e : Equation) : List (List Char) :=
  (match e.terms with
    | [] => []
    | t :: ts => words true t ++ ts.flatMap (words false)) ++ [['='], intText e.rhs ++ [';']]

theorem notin_rhs {c : Char} (h1 : c ≠ ';') (h2 : c ≠ '-') (h3 : ¬ IsDigit c) (z : ℤ) : c ∉ intText z ++ [';'] := by
  intro h
  rcases List.mem_append.1 h with h | h
  · exact notin_intText h3 h2 z h
  · exact h1 (List.mem_singleton.1 h)

theorem pieces_line (e : Equation) : pieces ' ' (line e) = lineWords e := by
  have h0 : pieces ' ' (['=', ' '] ++ (intText e.rhs ++ [';'])) = [['='], intText e.rhs ++ [';']] := by
    have := pieces_sep (c := ' ') (intText e.rhs ++ [';']) (l := ['=']) (by decide)
    rw [pieces_free (notin_rhs (by decide) (by decide) (by decide) _)] at this
    exact this
  unfold line lineWords
  cases e.terms with
  | nil => simpa using h0
  | cons t ts =>
    have h1 := pieces_terms (['=', ' '] ++ (intText e.rhs ++ [';'])) false ts
    rw [h0] at h1
    have h2 := pieces_term (ts.flatMap (termText false) ++ (['=', ' '] ++ (intText e.rhs ++ [';']))) t.2 (coef true t.1)
      (notin_coef (by decide) (by decide) (by decide) _ _)
    rw [h1] at h2
    simp only [termText_eq, List.append_assoc, List.cons_append, List.nil_append] at h2 ⊢
    rw [h2]
    simp [words]

theorem words_nonempty (e : Equation) : (lineWords e).filter (· ≠ []) = lineWords e := by
  rw [List.filter_eq_self]
  intro w hw
  have key : ∀ f t, w ∈ words f t → w ≠ [] := by
    intro f t h
    rcases List.mem_cons.1 h with rfl | h
    · exact coef_ne _ _
    · obtain ⟨v, _, rfl⟩ := List.mem_map.1 h
      simp [var]
  have : w ≠ [] := by
    unfold lineWords at hw
    rcases List.mem_append.1 hw with h | h
    · cases ht : e.terms with
      | nil => rw [ht] at h; cases h
      | cons t ts =>
        rw [ht] at h
        rcases List.mem_append.1 h with h | h
        · exact key _ _ h
        · obtain ⟨t', _, h⟩ := List.mem_flatMap.1 h
          exact key _ _ h
    · simp only [List.mem_cons, List.not_mem_nil, or_false] at h
      rcases h with rfl | rfl <;> simp
  simpa using this

theorem read_vars (rest : List (List Char)) (z : ℤ) : ∀ (vs us : List ℕ) (acc : List (ℤ × List ℕ)),
    readWords ((z, us) :: acc) (vs.map var ++ rest) = readWords ((z, us ++ vs) :: acc) rest
  | [], us, acc => by simp
  | v :: vs, us, acc => by
      have e : readWords ((z, us) :: acc) (var v :: (vs.map var ++ rest)) =
          (digits (var v).tail).bind fun k => readWords ((z, us ++ [k]) :: acc) (vs.map var ++ rest) := by
        rw [readWords]
        rw [if_neg (by unfold var; intro h; exact absurd (List.cons.inj h).1 (by decide)), if_pos (by rfl)]
      rw [List.map_cons, List.cons_append, e]
      show (digits (natText v)).bind _ = _
      rw [digits_nat, Option.bind_some, read_vars rest z vs _ acc]
      simp

theorem read_term (rest : List (List Char)) (f : Bool) (t : ℤ × List ℕ) (acc : List (ℤ × List ℕ)) :
    readWords acc (words f t ++ rest) = readWords (t :: acc) rest := by
  unfold words
  rw [List.cons_append, readWords.eq_def]
  dsimp only
  rw [if_neg (coef_first f t.1).1, if_neg (coef_first f t.1).2, number_coef, Option.bind_some,
    read_vars]
  rfl

theorem read_terms (rest : List (List Char)) (f : Bool) : ∀ (ts : List (ℤ × List ℕ)) (acc : List (ℤ × List ℕ)),
    readWords acc (ts.flatMap (words f) ++ rest) = readWords (ts.reverse ++ acc) rest
  | [], acc => rfl
  | t :: ts, acc => by
      rw [List.flatMap_cons, List.append_assoc, read_term, read_terms rest f ts]
      simp

theorem read_end (acc : List (ℤ × List ℕ)) (z : ℤ) : readWords acc [['='], intText z ++ [';']] = some ⟨acc.reverse, z⟩ := by
  rw [readWords.eq_def]
  dsimp only
  rw [if_pos rfl]
  unfold readRight
  simp [number_int]

theorem read_line (e : Equation) : readLine (line e) = some e := by
  unfold readLine
  rw [pieces_line, words_nonempty]
  unfold lineWords
  cases e with
  | mk terms rhs =>
  cases terms with
  | nil => exact read_end [] rhs
  | cons t ts =>
    dsimp only
    rw [List.append_assoc, read_term, read_terms, read_end]
    simp

theorem line_first (e : Equation) (he : e.terms ≠ []) : line e ≠ [] ∧ (line e).head? ≠ some '*' := by
  unfold line
  cases ht : e.terms with
  | nil => exact absurd ht he
  | cons t ts =>
    dsimp only
    rw [termText_eq]
    have h1 := coef_ne true t.1
    have h2 : (coef true t.1).head? ≠ some '*' := fun h =>
      notin_coef (c := '*') (by decide) (by decide) (by decide) true t.1 (List.mem_of_mem_head? h)
    cases hc : coef true t.1 with
    | nil => exact absurd hc h1
    | cons c l =>
      rw [hc] at h2
      simpa using h2

theorem notin_line (e : Equation) : '\n' ∉ line e := by
  have kt : ∀ f t, '\n' ∉ termText f t := by
    intro f t h
    rw [termText_eq] at h
    rcases List.mem_append.1 h with h | h
    · rcases List.mem_append.1 h with h | h
      · exact notin_coef (by decide) (by decide) (by decide) _ _ h
      · obtain ⟨v, _, h⟩ := List.mem_flatMap.1 h
        rcases List.mem_cons.1 h with h | h
        · exact absurd h (by decide)
        · exact notin_var (by decide) (by decide) v h
    · exact absurd (List.mem_singleton.1 h) (by decide)
  unfold line
  intro h
  rw [List.append_assoc, List.append_assoc] at h
  rcases List.mem_append.1 h with h | h
  · cases ht : e.terms with
    | nil => rw [ht] at h; cases h
    | cons t ts =>
      rw [ht] at h
      rcases List.mem_append.1 h with h | h
      · exact kt _ _ h
      · obtain ⟨t', _, h⟩ := List.mem_flatMap.1 h
        exact kt _ _ h
  · rcases List.mem_append.1 h with h | h
    · exact absurd h (by decide)
    · exact notin_rhs (by decide) (by decide) (by decide) _ h

theorem pieces_lines : ∀ es : List Equation, pieces '\n' (es.flatMap Equation.text) = es.map line ++ [[]]
  | [] => rfl
  | e :: es => by
      rw [List.flatMap_cons, text_eq, List.append_assoc, List.singleton_append, pieces_sep _ (notin_line e), pieces_lines es]
      rfl

theorem filter_lines (es : List Equation) (h : ∀ e ∈ es, e.terms ≠ []) :
    (es.map line ++ [[]]).filter (fun l => decide (l ≠ [] ∧ l.head? ≠ some '*')) = es.map line := by
  rw [List.filter_append, List.filter_eq_self.2]
  · simp
  · intro l hl
    obtain ⟨e, he, rfl⟩ := List.mem_map.1 hl
    exact decide_eq_true (line_first e (h e he))

theorem mapM_lines : ∀ es : List Equation, (es.map line).mapM readLine = some es
  | [] => rfl
  | e :: es => by
      rw [List.map_cons, List.mapM_cons, read_line, mapM_lines es]
      rfl

theorem pieces_comments (b : List Char) : ∀ cs : List (List Char), (∀ c ∈ cs, '\n' ∉ c) →
    pieces '\n' (cs.flatMap (fun c => c ++ ['\n']) ++ b) = cs ++ pieces '\n' b
  | [], _ => rfl
  | c :: cs, h => by
      rw [List.flatMap_cons, List.append_assoc, List.append_assoc, List.singleton_append, pieces_sep _ (h c List.mem_cons_self),
        pieces_comments b cs fun d hd => h d (List.mem_cons_of_mem _ hd)]
      rfl

/-- Comment lines in front of the equations. -/
theorem read_comments (es : List Equation) (h : ∀ e ∈ es, e.terms ≠ []) : ∀ cs : List (List Char),
    (∀ c ∈ cs, '\n' ∉ c ∧ (c = [] ∨ c.head? = some '*')) →
    readOpb (cs.flatMap (fun c => c ++ ['\n']) ++ es.flatMap Equation.text) = some es := by
  intro cs hcs
  unfold readOpb
  have : (pieces '\n' (cs.flatMap (fun c => c ++ ['\n']) ++ es.flatMap Equation.text)).filter
      (fun l => decide (l ≠ [] ∧ l.head? ≠ some '*')) = es.map line := by
    induction cs with
    | nil =>
      rw [List.flatMap_nil, List.nil_append, pieces_lines]
      exact filter_lines es h
    | cons c cs ih =>
      have hc := hcs c List.mem_cons_self
      rw [List.flatMap_cons, List.append_assoc, List.append_assoc, List.singleton_append, pieces_sep _ hc.1, List.filter_cons,
        if_neg (by rcases hc.2 with h | h <;> simp [h])]
      exact ih fun d hd => hcs d (List.mem_cons_of_mem _ hd)
  rw [this]
  exact mapM_lines es

end Proofs.Opb
