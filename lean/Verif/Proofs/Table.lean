import Verif.Model.Table
import Verif.Spec.Table
import Verif.Proofs.Opb
import Mathlib.Algebra.Order.Floor.Ring
import Mathlib.Data.Rat.Floor
import Mathlib.Tactic.Linarith
import Mathlib.Tactic.FieldSimp

/-!
# Helper lemmas: the table
-/

namespace Proofs.Table
open Model Spec Proofs Proofs.Txt Proofs.Opb Proofs.Solver

/-! ## Rounding -/

theorem round_near (q : ℚ) : |((roundHalfEven q : ℤ) : ℚ) - q| ≤ 1 / 2 := by
  have h1 : (q.floor : ℚ) ≤ q := Rat.floor_le q
  have h2 : q < q.floor + 1 := by exact_mod_cast Rat.lt_floor_add_one q
  rw [abs_le]
  unfold roundHalfEven
  dsimp only
  split
  · constructor <;> linarith
  · split
    · constructor <;> push_cast <;> linarith
    · split
      · constructor <;> linarith
      · constructor <;> push_cast <;> linarith

theorem absRat_eq (q : ℚ) : absRat q = |q| := by
  unfold absRat
  split
  · rename_i h
    rw [abs_of_neg h]
  · rename_i h
    rw [abs_of_nonneg (not_lt.1 h)]

theorem round_nonneg {q : ℚ} (h : 0 ≤ q) : 0 ≤ roundHalfEven q := by
  have h0 : 0 ≤ q.floor := Rat.le_floor_iff.2 (by simpa using h)
  unfold roundHalfEven
  dsimp only
  split
  · exact h0
  · split
    · omega
    · split <;> omega

theorem round_abs (q : ℚ) (k : ℚ) (hk : 0 ≤ k) :
    (((roundHalfEven (absRat q * k)).toNat : ℤ)) = roundHalfEven (absRat q * k) := by
  rw [Int.toNat_of_nonneg]
  exact round_nonneg (mul_nonneg (by rw [absRat_eq]; exact abs_nonneg q) hk)

/-! ## Decimals -/

theorem digits_snoc {s : List Char} {k d : ℕ} (hs : Spec.digits s = some k) (hd : d < 10) :
    Spec.digits (s ++ [digitChar d]) = some (10 * k + d) := by
  unfold Spec.digits at hs ⊢
  split at hs
  · cases hs
  · rw [if_neg (by simp), List.foldlM_append, hs]
    show (List.foldlM digit k [digitChar d]) = _
    rw [List.foldlM_cons, digit_eq]
    have := digitChar_toNat hd
    unfold parseDigit
    rw [this, if_pos (by omega)]
    simp only [Option.pure_def, Option.bind_eq_bind, Option.bind_some, List.foldlM_nil]
    congr 1
    omega

theorem number_digits {s : List Char} {k : ℕ} (h : Spec.digits s = some k) (hd : ∀ c ∈ s, IsDigit c) : number s = some (k : ℤ) := by
  unfold number
  have hp : ∀ x : Char, ¬ IsDigit x → s.head? ≠ some x := by
    intro x hx e
    exact hx (hd x (List.mem_of_head? e))
  rw [if_neg (hp _ (by decide)), if_neg (hp _ (by decide)), h]
  rfl

theorem number_neg {s : List Char} {k : ℕ} (h : Spec.digits s = some k) : number ('-' :: s) = some (-(k : ℤ)) := by
  unfold number
  rw [if_neg (by simp), if_pos (by simp), List.tail_cons, h]
  rfl

theorem decimal_of {a b : List Char} {d k : ℕ} (hs : Bool) (ha : ∀ c ∈ a, IsDigit c) (ha0 : a ≠ []) (hb : ∀ c ∈ b, IsDigit c)
    (hl : b.length = d) (h : Spec.digits (a ++ b) = some k) :
    decimal d ((if hs then ['-'] else []) ++ a ++ ['.'] ++ b) = some (if hs then -(k : ℤ) else k) := by
  have hp : ¬ IsDigit '.' := by decide
  have h1 : '.' ∉ (if hs then ['-'] else []) ++ a := by
    intro h'
    rcases List.mem_append.1 h' with h' | h'
    · cases hs <;> simp at h'
    · exact hp (ha _ h')
  have e : (if hs then ['-'] else []) ++ a ++ ['.'] ++ b = ((if hs then ['-'] else []) ++ a) ++ '.' :: b := by simp
  unfold decimal
  rw [e, pieces_sep b h1, pieces_free fun h' => hp (hb _ h')]
  have hab : ∀ c ∈ a ++ b, IsDigit c := fun c hc => (List.mem_append.1 hc).elim (ha c) (hb c)
  dsimp only
  rw [if_pos ⟨by simp [ha0], hl⟩]
  cases hs
  · simpa using number_digits h hab
  · simpa using number_neg h

theorem isDigit_digitChar {d : ℕ} (h : d < 10) : IsDigit (digitChar d) := by
  have := digitChar_toNat h
  unfold IsDigit
  rw [this]
  omega

theorem decimal_fixed2 (q : ℚ) : decimal 2 (fixed2 q) =
    some (if q < 0 then -((roundHalfEven (absRat q * 100)).toNat : ℤ) else ((roundHalfEven (absRat q * 100)).toNat : ℤ)) := by
  unfold fixed2 secsText
  generalize (roundHalfEven (absRat q * 100)).toNat = k
  have h := decimal_of (d := 2) (k := k) (decide (q < 0)) (natText_digits (k / 100)) (natText_ne _)
    (b := [digitChar (k / 10 % 10), digitChar (k % 10)]) (by
      intro c hc
      simp only [List.mem_cons, List.not_mem_nil, or_false] at hc
      rcases hc with rfl | rfl <;> exact isDigit_digitChar (by omega)) rfl (by
      have := digits_snoc (digits_snoc (digits_nat (k / 100)) (d := k / 10 % 10) (by omega)) (d := k % 10) (by omega)
      rw [List.append_assoc] at this
      rw [show [digitChar (k / 10 % 10), digitChar (k % 10)] = [digitChar (k / 10 % 10)] ++ [digitChar (k % 10)] from rfl, this]
      congr 1
      omega)
  simpa using h

theorem decimal_fixed1 (q : ℚ) : decimal 1 (fixed1 q) =
    some (if q < 0 then -((roundHalfEven (absRat q * 10)).toNat : ℤ) else ((roundHalfEven (absRat q * 10)).toNat : ℤ)) := by
  unfold fixed1
  generalize (roundHalfEven (absRat q * 10)).toNat = k
  have h := decimal_of (d := 1) (k := k) (decide (q < 0)) (natText_digits (k / 10)) (natText_ne _)
    (b := [digitChar (k % 10)]) (by
      intro c hc
      simp only [List.mem_cons, List.not_mem_nil, or_false] at hc
      rcases hc with rfl
      exact isDigit_digitChar (by omega)) rfl (by
      have := digits_snoc (digits_nat (k / 10)) (d := k % 10) (by omega)
      rw [this]
      congr 1
      omega)
  simpa using h

theorem near_of_round (q : ℚ) (m : ℕ) (hm : 0 < m) :
    |(((if q < 0 then -((roundHalfEven (absRat q * m)).toNat : ℤ) else ((roundHalfEven (absRat q * m)).toNat : ℤ)) : ℤ) : ℚ) / m - q|
      ≤ 1 / (2 * m) := by
  have hm' : (0 : ℚ) < m := by exact_mod_cast hm
  rw [round_abs q m hm'.le]
  have h := round_near (absRat q * m)
  have key : ∀ z : ℚ, z / m - q = (z - q * m) / m := fun z => by field_simp
  rw [key, abs_div, abs_of_pos hm', div_le_div_iff₀ hm' (by positivity)]
  have goal : |(((if q < 0 then -roundHalfEven (absRat q * m) else roundHalfEven (absRat q * m)) : ℤ) : ℚ) - q * m| ≤ 1 / 2 := by
    split
    · rename_i hq
      rw [absRat_eq, abs_of_neg hq] at h ⊢
      rw [← abs_neg]
      refine le_of_eq_of_le ?_ h
      congr 1
      push_cast
      ring
    · rename_i hq
      rwa [absRat_eq, abs_of_nonneg (not_lt.1 hq)] at h ⊢
  nlinarith

theorem nearest2 (q : ℚ) : Nearest2 (fixed2 q) q :=
  ⟨_, decimal_fixed2 q, by have := near_of_round q 100 (by norm_num); push_cast at this ⊢; norm_num at this ⊢; exact this⟩

theorem nearest1 (q : ℚ) : Nearest1 (fixed1 q) q :=
  ⟨_, decimal_fixed1 q, by have := near_of_round q 10 (by norm_num); push_cast at this ⊢; norm_num at this ⊢; exact this⟩

/-! ## The characters of the cells -/

/-- Digits, the minus sign and the point. -/
def Plain (t : List Char) : Prop := t ≠ [] ∧ ∀ c ∈ t, IsDigit c ∨ c = '-' ∨ c = '.'

theorem plain_nat (n : ℕ) : Plain (natText n) := ⟨natText_ne n, fun c hc => .inl (natText_digits n c hc)⟩

theorem plain_int (z : ℤ) : Plain (intText z) := by
  refine ⟨intText_ne z, fun c hc => ?_⟩
  unfold intText at hc
  split at hc
  · rcases List.mem_cons.1 hc with rfl | hc
    · exact .inr (.inl rfl)
    · exact .inl (natText_digits _ c hc)
  · exact .inl (natText_digits _ c hc)

theorem plain_sign {q : ℚ} {t : List Char} (ht : Plain t) : Plain ((if q < 0 then ['-'] else []) ++ t) := by
  refine ⟨by simp [ht.1], fun c hc => ?_⟩
  rcases List.mem_append.1 hc with hc | hc
  · split at hc
    · exact .inr (.inl (by simpa using hc))
    · cases hc
  · exact ht.2 c hc

theorem plain_fixed2 (q : ℚ) : Plain (fixed2 q) := by
  refine plain_sign ⟨by simp [secsText], fun c hc => ?_⟩
  unfold secsText at hc
  simp only [List.mem_append, List.mem_cons, List.not_mem_nil, or_false] at hc
  rcases hc with (hc | rfl) | rfl | rfl
  · exact .inl (natText_digits _ c hc)
  · exact .inr (.inr rfl)
  · exact .inl (isDigit_digitChar (by omega))
  · exact .inl (isDigit_digitChar (by omega))

theorem plain_fixed1 (q : ℚ) : Plain (fixed1 q) := by
  unfold fixed1
  dsimp only
  rw [List.append_assoc, List.append_assoc]
  refine plain_sign ⟨by simp, fun c hc => ?_⟩
  simp only [List.mem_append, List.mem_cons, List.not_mem_nil, or_false] at hc
  rcases hc with hc | rfl | rfl
  · exact .inl (natText_digits _ c hc)
  · exact .inr (.inr rfl)
  · exact .inl (isDigit_digitChar (by omega))

theorem plain_notin {t : List Char} (h : Plain t) {x : Char} (h1 : ¬ IsDigit x) (h2 : x ≠ '-') (h3 : x ≠ '.') : x ∉ t :=
  fun hx => (h.2 x hx).elim h1 fun h' => h'.elim h2 h3

/-! ## Lengths -/

theorem natAux_length : ∀ (k f n : ℕ), n < 10 ^ (k + 1) → (natAux f n).length ≤ k + 1
  | k, 0, n, _ => by simp [natAux]
  | k, f + 1, n, h => by
    unfold natAux
    split
    · simp
    · rename_i h10
      cases k with
      | zero => simp at h; omega
      | succ k =>
        have := natAux_length k f (n / 10) (by
          rw [Nat.div_lt_iff_lt_mul (by norm_num)]
          rwa [pow_succ] at h)
        simp
        omega

theorem natText_length {k n : ℕ} (h : n < 10 ^ (k + 1)) : (natText n).length ≤ k + 1 := natAux_length k _ n h

theorem intText_length {z : ℤ} {k : ℕ} (h : |z| < 10 ^ (k + 1)) : (intText z).length ≤ k + 2 := by
  have h' : z.natAbs < 10 ^ (k + 1) := by
    have : ((z.natAbs : ℕ) : ℤ) < ((10 ^ (k + 1) : ℕ) : ℤ) := by
      rw [Int.natCast_natAbs]
      push_cast
      exact h
    exact_mod_cast this
  unfold intText
  have := natText_length h'
  split
  · simp; omega
  · omega

theorem round_bound {q : ℚ} {m : ℕ} (hm : 0 < m) (h : |q| < 10 ^ 10) : (roundHalfEven (absRat q * m)).toNat / m < 10 ^ (10 + 1) := by
  have h1 := abs_le.1 (round_near (absRat q * m))
  have h2 := round_abs q m (by positivity)
  rw [Nat.div_lt_iff_lt_mul hm]
  have h3 : (((roundHalfEven (absRat q * m)).toNat : ℤ) : ℚ) = ((roundHalfEven (absRat q * m) : ℤ) : ℚ) := by rw [h2]
  rw [absRat_eq] at *
  have hm' : (1 : ℚ) ≤ m := by exact_mod_cast hm
  have h4 : (((roundHalfEven (|q| * m)).toNat : ℕ) : ℚ) < ((10 ^ (10 + 1) * m : ℕ) : ℚ) := by
    have h5 : (((roundHalfEven (|q| * m)).toNat : ℕ) : ℚ) = ((roundHalfEven (|q| * m) : ℤ) : ℚ) := by rw [← h3]; exact (Int.cast_natCast _).symm
    rw [h5]
    push_cast
    have := mul_lt_mul_of_pos_right h (show (0 : ℚ) < m by linarith)
    norm_num at this ⊢
    linarith [h1.2]
  exact_mod_cast h4

theorem fixed2_length {q : ℚ} (h : |q| < 10 ^ 10) : (fixed2 q).length ≤ 15 := by
  have h1 := natText_length (round_bound (m := 100) (by norm_num) h)
  unfold fixed2 secsText
  push_cast at h1
  simp only [List.length_append, List.length_cons, List.length_nil]
  split <;> simp <;> omega

theorem fixed1_length {q : ℚ} (h : |q| < 10 ^ 10) : (fixed1 q).length ≤ 15 := by
  have h1 := natText_length (round_bound (m := 10) (by norm_num) h)
  unfold fixed1
  push_cast at h1
  simp only [List.length_append, List.length_cons, List.length_nil]
  split <;> simp <;> omega

/-! ## Words and fields -/

theorem words_nil : Spec.words [] = [] := by decide

theorem words_sep {a : List Char} (b : List Char) (h : ' ' ∉ a) (h0 : a ≠ []) : Spec.words (a ++ ' ' :: b) = a :: Spec.words b := by
  unfold Spec.words
  rw [pieces_sep b h, List.filter_cons_of_pos (by simp [h0])]

theorem words_blank (b : List Char) : Spec.words (' ' :: b) = Spec.words b := by
  unfold Spec.words
  rw [show (' ' :: b) = [] ++ ' ' :: b from rfl, pieces_sep b (by simp), List.filter_cons_of_neg (by simp)]

theorem words_blanks (k : ℕ) (b : List Char) : Spec.words (List.replicate k ' ' ++ b) = Spec.words b := by
  induction k with
  | zero => rfl
  | succ k ih => rw [List.replicate_succ, List.cons_append, words_blank, ih]

theorem words_free {a : List Char} (h : ' ' ∉ a) (h0 : a ≠ []) : Spec.words a = [a] := by
  unfold Spec.words
  rw [pieces_free h, List.filter_cons_of_pos (by simp [h0]), List.filter_nil]

theorem words_cells : ∀ (a : List Char) (cs : List (List Char)), ' ' ∉ a → a ≠ [] →
    (∀ c ∈ cs, ' ' ∉ c ∧ c ≠ [] ∧ c.length ≤ 15) → Spec.words (a ++ cs.flatMap fun c => rjust c 16) = a :: cs
  | a, [], h, h0, _ => by simpa using words_free h h0
  | a, c :: cs, h, h0, hc => by
    obtain ⟨h1, h2, h3⟩ := hc c List.mem_cons_self
    obtain ⟨j, hj⟩ : ∃ j, 16 - c.length = j + 1 := ⟨15 - c.length, by omega⟩
    have e : a ++ (c :: cs).flatMap (fun c => rjust c 16) =
        a ++ ' ' :: (List.replicate j ' ' ++ (c ++ cs.flatMap fun c => rjust c 16)) := by
      rw [List.flatMap_cons, rjust, hj, List.replicate_succ]
      simp
    rw [e, words_sep _ h h0, words_blanks, words_cells c cs h1 h2 fun x hx => hc x (List.mem_cons_of_mem _ hx)]

theorem rjust_length {c : List Char} {w : ℕ} (h : c.length ≤ w) : (rjust c w).length = w := by
  simp [rjust]
  omega

theorem trim_rjust {c : List Char} {w : ℕ} (h1 : c.head? ≠ some ' ') (h2 : c.getLast? ≠ some ' ') : trim (rjust c w) = c := by
  have hd : ∀ l : List Char, l.head? ≠ some ' ' → l.dropWhile (· = ' ') = l := by
    intro l hl
    cases l with
    | nil => rfl
    | cons x l => rw [List.dropWhile_cons_of_neg (by simpa using hl)]
  have hr : ∀ k, (List.replicate k ' ' ++ c).dropWhile (· = ' ') = c := by
    intro k
    induction k with
    | zero => simpa using hd c h1
    | succ k ih => rw [List.replicate_succ, List.cons_append, List.dropWhile_cons_of_pos (by simp), ih]
  unfold trim rjust
  rw [hr, hd _ (by rwa [List.head?_reverse]), List.reverse_reverse]

theorem cut_cells (c : List Char) : ∀ (cs : List (List Char)), (∀ x ∈ cs ++ [c], x.length ≤ 16) →
    cut (List.replicate cs.length 16) ((cs ++ [c]).flatMap fun x => rjust x 16) = (cs ++ [c]).map fun x => rjust x 16
  | [], _ => by simp [cut]
  | x :: cs, h => by
    have hx := rjust_length (h x (by simp))
    rw [List.length_cons, List.replicate_succ, List.cons_append, List.flatMap_cons, cut, List.take_left' hx, List.drop_left' hx,
      cut_cells c cs fun y hy => h y (List.mem_cons_of_mem _ hy)]
    rfl

/-- No blanks at the ends. -/
def Ends (c : List Char) : Prop := c.head? ≠ some ' ' ∧ c.getLast? ≠ some ' '

instance (c : List Char) : Decidable (Ends c) := by unfold Ends; infer_instance

theorem fields_cells (a : List Char) (ha : a.length ≤ 2) (hae : Ends a) (cs : List (List Char)) (c : List Char)
    (h : ∀ x ∈ cs ++ [c], x.length ≤ 16 ∧ Ends x) :
    fields cs.length (rjust a 2 ++ (cs ++ [c]).flatMap fun x => rjust x 16) = a :: (cs ++ [c]) := by
  unfold fields
  have hx := rjust_length ha
  rw [cut, List.take_left' hx, List.drop_left' hx, cut_cells c cs fun y hy => (h y hy).1, List.map_cons, List.map_map,
    trim_rjust hae.1 hae.2]
  congr 1
  conv_rhs => rw [← List.map_id (cs ++ [c])]
  exact List.map_congr_left fun x hx => trim_rjust (h x hx).2.1 (h x hx).2.2

theorem plain_ends {t : List Char} (h : Plain t) : Ends t :=
  ⟨fun e => plain_notin h (by decide) (by decide) (by decide) (List.mem_of_head? e),
    fun e => plain_notin h (by decide) (by decide) (by decide) (List.mem_of_getLast? e)⟩

/-! ## LaTeX -/

theorem trim_pad {c : List Char} (h : Ends c) (i j : ℕ) : trim (List.replicate i ' ' ++ c ++ List.replicate j ' ') = c := by
  have hd : ∀ (k : ℕ) (l : List Char), l.head? ≠ some ' ' → (List.replicate k ' ' ++ l).dropWhile (· = ' ') = l := by
    intro k l hl
    induction k with
    | zero =>
      cases l with
      | nil => rfl
      | cons x l => exact List.dropWhile_cons_of_neg (by simpa using hl)
    | succ k ih => rw [List.replicate_succ, List.cons_append, List.dropWhile_cons_of_pos (by simp), ih]
  cases c with
  | nil =>
    have : ∀ k, (List.replicate k ' ').dropWhile (· = ' ') = [] := by
      intro k
      induction k with
      | zero => rfl
      | succ k ih => rw [List.replicate_succ, List.dropWhile_cons_of_pos (by simp), ih]
    unfold trim
    rw [List.append_nil, ← List.replicate_add, this]
    rfl
  | cons x c =>
    unfold trim
    rw [List.append_assoc, hd i _ (by simpa using h.1), List.reverse_append, List.reverse_replicate,
      hd j _ (by rw [List.head?_reverse]; exact h.2), List.reverse_reverse]

/-- A line in LaTeX. -/
def latexLine (a : List Char) (cs : List (List Char)) : List Char := a ++ (cs.flatMap fun c => " & ".toList ++ c) ++ " \\\\".toList

theorem pieces_latex : ∀ (i : ℕ) (a : List Char) (cs : List (List Char)), (∀ c ∈ a :: cs, '&' ∉ c ∧ Ends c) →
    (pieces '&' (List.replicate i ' ' ++ a ++ (cs.flatMap fun c => " & ".toList ++ c) ++ [' '])).map trim = a :: cs
  | i, a, [], h => by
    have e : List.replicate i ' ' ++ a ++ (([] : List (List Char)).flatMap fun c => " & ".toList ++ c) ++ [' '] =
        List.replicate i ' ' ++ a ++ List.replicate 1 ' ' := by simp
    rw [e, pieces_free (by
      have := (h a List.mem_cons_self).1
      simp [List.mem_append, List.mem_replicate, this])]
    rw [List.map_singleton, trim_pad (h a List.mem_cons_self).2]
  | i, a, c :: cs, h => by
    have e : List.replicate i ' ' ++ a ++ ((c :: cs).flatMap fun c => " & ".toList ++ c) ++ [' '] =
        (List.replicate i ' ' ++ a ++ List.replicate 1 ' ') ++ '&' ::
          (List.replicate 1 ' ' ++ c ++ (cs.flatMap fun c => " & ".toList ++ c) ++ [' ']) := by simp
    rw [e, pieces_sep _ (by
      have := (h a List.mem_cons_self).1
      simp [List.mem_append, List.mem_replicate, this]), List.map_cons, trim_pad (h a List.mem_cons_self).2,
      pieces_latex 1 c cs fun x hx => h x (List.mem_cons_of_mem _ hx)]

theorem latexCells_line (a : List Char) (cs : List (List Char)) (h : ∀ c ∈ a :: cs, '&' ∉ c ∧ Ends c) :
    latexCells (latexLine a cs) = some (a :: cs) := by
  have e : latexLine a cs = (a ++ (cs.flatMap fun c => " & ".toList ++ c) ++ [' ']) ++ ['\\', '\\'] := by
    unfold latexLine
    simp
  unfold latexCells
  rw [e, if_pos ⟨_, rfl⟩]
  have := pieces_latex 0 a cs h
  rw [List.take_left' (by simp; omega)]
  simpa using this

/-! ## Lines -/

theorem pieces_lines : ∀ ls : List (List Char), (∀ l ∈ ls, '\n' ∉ l) → pieces '\n' (ls.flatMap fun l => l ++ ['\n']) = ls ++ [[]]
  | [], _ => rfl
  | l :: ls, h => by
    have e : (l :: ls).flatMap (fun l => l ++ ['\n']) = l ++ '\n' :: ls.flatMap fun l => l ++ ['\n'] := by simp
    rw [e, pieces_sep _ (h l List.mem_cons_self), pieces_lines ls fun x hx => h x (List.mem_cons_of_mem _ hx)]
    rfl

theorem newline_rjust {c : List Char} {w : ℕ} (h : '\n' ∉ c) : '\n' ∉ rjust c w := by
  simp [rjust, List.mem_append, List.mem_replicate, h]

end Proofs.Table
