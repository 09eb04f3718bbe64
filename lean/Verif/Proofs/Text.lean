import Verif.Spec.Pipeline
import Mathlib.Data.List.Basic
import Mathlib.Data.List.Sort
import Mathlib.Tactic.IntervalCases
import Mathlib.Tactic.Ring
import Mathlib.Tactic.Linarith

/-!
# Helper lemmas: decimal text, lines, pair lines
-/

set_option linter.unusedSectionVars false
set_option linter.unusedVariables false
set_option linter.unusedSimpArgs false

namespace Proofs.Txt
open Model Spec

/-! ## Decimal numbers -/

theorem digitChar_toNat {d : ℕ} (h : d < 10) : (digitChar d).toNat = 48 + d := by
  interval_cases d <;> rfl

/-- A decimal digit. -/
def IsDigit (c : Char) : Prop := 48 ≤ c.toNat ∧ c.toNat ≤ 57

theorem digitChar_isDigit {d : ℕ} (h : d < 10) : IsDigit (digitChar d) := by
  unfold IsDigit; rw [digitChar_toNat h]; omega

theorem natAux_digits (f n : ℕ) : ∀ c ∈ natAux f n, IsDigit c := by
  induction f generalizing n with
  | zero => simp [natAux]
  | succ f ih =>
    intro c hc
    unfold natAux at hc
    split at hc
    · rw [List.mem_singleton] at hc; subst hc; exact digitChar_isDigit (by assumption)
    · rcases List.mem_append.1 hc with hc | hc
      · exact ih _ c hc
      · rw [List.mem_singleton] at hc; subst hc; exact digitChar_isDigit (Nat.mod_lt _ (by omega))

theorem natText_digits (n : ℕ) : ∀ c ∈ natText n, IsDigit c := natAux_digits _ _

theorem natAux_parse (f n : ℕ) (h : n < f) : (natAux f n).foldlM parseDigit 0 = some n := by
  induction f generalizing n with
  | zero => omega
  | succ f ih =>
    unfold natAux
    split
    · rename_i h10
      simp only [List.foldlM_cons, List.foldlM_nil, parseDigit, digitChar_toNat h10]
      rw [if_pos (by omega)]
      simp
    · rw [List.foldlM_append, ih (n / 10) (by omega)]
      have hm : n % 10 < 10 := Nat.mod_lt _ (by omega)
      simp only [Option.bind_eq_bind, Option.bind_some, List.foldlM_cons, List.foldlM_nil, parseDigit,
        digitChar_toNat hm]
      rw [if_pos (by omega)]
      simp only [Option.bind_some]
      show some _ = some _
      congr 1; omega

theorem natAux_ne (f n : ℕ) (h : 0 < f) : natAux f n ≠ [] := by
  cases f with
  | zero => omega
  | succ f => unfold natAux; split <;> simp

theorem natText_ne (n : ℕ) : natText n ≠ [] := natAux_ne _ _ (by omega)

theorem natText_parse (n : ℕ) : (natText n).foldlM parseDigit 0 = some n := natAux_parse _ _ (by omega)

theorem parse_natText {n : ℕ} (h : n < 2 ^ 64) : parseUsize (natText n) = some n := by
  have hd := natText_digits n
  have hn := natText_ne n
  have hp := natText_parse n
  unfold parseUsize
  cases ht : natText n with
  | nil => exact absurd ht hn
  | cons c cs =>
    have hc := hd c (by rw [ht]; exact List.mem_cons_self ..)
    rw [ht] at hp
    have h1 : stripPlus (c :: cs) = c :: cs := by
      unfold stripPlus
      split
      · rename_i r heq
        have := (List.cons.inj heq).1
        subst this
        exact absurd hc (by unfold IsDigit; decide)
      · rfl
    dsimp only
    rw [h1, if_neg (by simp), hp]
    exact if_pos h

theorem natText_inj {m n : ℕ} (h : natText m = natText n) : m = n := by
  have h1 := natText_parse m
  rw [h, natText_parse n] at h1
  exact (Option.some.inj h1).symm

/-- The characters of a printed integer. -/
def IsNum (c : Char) : Prop := c = '-' ∨ IsDigit c

theorem intText_num (z : ℤ) : ∀ c ∈ intText z, IsNum c := by
  intro c hc
  unfold intText at hc
  split at hc
  · rcases List.mem_cons.1 hc with rfl | hc
    · exact Or.inl rfl
    · exact Or.inr (natText_digits _ c hc)
  · exact Or.inr (natText_digits _ c hc)

theorem intText_ne (z : ℤ) : intText z ≠ [] := by
  unfold intText; split
  · simp
  · exact natText_ne _

theorem dash_not_digit : ¬ IsDigit '-' := by unfold IsDigit; decide

theorem intText_inj {y z : ℤ} (h : intText y = intText z) : y = z := by
  unfold intText at h
  split at h <;> split at h
  · have := natText_inj (List.cons.inj h).2; omega
  · have hd := natText_digits z.natAbs
    rw [← h] at hd
    exact absurd (hd '-' (List.mem_cons_self ..)) dash_not_digit
  · have hd := natText_digits y.natAbs
    rw [h] at hd
    exact absurd (hd '-' (List.mem_cons_self ..)) dash_not_digit
  · have := natText_inj h; omega

theorem num_ne {c : Char} (h : IsNum c) : c ≠ '_' ∧ c ≠ ':' ∧ c ≠ '\n' ∧ c ≠ '\r' ∧ c ≠ ' ' := by
  rcases h with rfl | h
  · decide
  · refine ⟨?_, ?_, ?_, ?_, ?_⟩ <;> rintro rfl <;> revert h <;> unfold IsDigit <;> decide

theorem digit_num {c : Char} (h : IsDigit c) : IsNum c := Or.inr h

/-- The text of a number other than zero does not begin with the digit zero. -/
theorem natAux_head (f n : ℕ) (h : n < f) (h0 : n ≠ 0) : (natAux f n).head? ≠ some '0' := by
  induction f generalizing n with
  | zero => omega
  | succ f ih =>
    unfold natAux
    split
    · rename_i h10
      have : 1 ≤ n := by omega
      interval_cases n <;> decide
    · have := ih (n / 10) (by omega) (by omega)
      have hne := natAux_ne f (n / 10) (by omega)
      cases hc : natAux f (n / 10) with
      | nil => exact absurd hc hne
      | cons c cs => rw [hc] at this; simpa using this

theorem intText_zero : intText 0 = ['0'] := rfl

theorem prefix_zero {z : ℤ} (h : intText 0 <+: intText z) : z = 0 := by
  rw [intText_zero] at h
  obtain ⟨r, hr⟩ := h
  by_contra hz
  unfold intText at hr
  split at hr
  · simp at hr
  · have := natAux_head (z.natAbs + 1) z.natAbs (by omega) (by omega)
    unfold natText at hr
    rw [← hr] at this
    simp at this

theorem zero_prefix {z : ℤ} (h : intText z <+: intText 0) : z = 0 := by
  rw [intText_zero] at h
  rcases List.prefix_cons_iff.1 h with h | ⟨t, h, ht⟩
  · exact absurd h (intText_ne z)
  · rw [List.prefix_nil] at ht
    subst ht
    exact intText_inj (h.trans intText_zero.symm)

/-! ## Separators -/

theorem splitFirst_none {sep : Text} {s : Text} {x : Char} (hx : x ∈ sep) (h : x ∉ s) :
    splitFirst sep s = (s, none) := by
  have hsep : sep ≠ [] := List.ne_nil_of_mem hx
  induction s with
  | nil => simp [splitFirst, hsep]
  | cons c cs ih =>
    unfold splitFirst
    have h1 : sep.isPrefixOf (c :: cs) = false := by
      rw [Bool.eq_false_iff]
      intro hp
      have := List.isPrefixOf_iff_prefix.1 hp
      exact h (this.subset hx)
    rw [h1]
    simp only [Bool.false_eq_true, if_false]
    rw [ih fun hm => h (List.mem_cons_of_mem _ hm)]

theorem splitFirst_under (s rest : Text) (h : '_' ∉ s) : splitFirst ['_'] (s ++ '_' :: rest) = (s, some rest) := by
  induction s with
  | nil => simp [splitFirst]
  | cons c cs ih =>
    have hc : c ≠ '_' := fun hc => h (by rw [hc]; exact List.mem_cons_self ..)
    rw [List.cons_append]
    unfold splitFirst
    have h1 : (['_'] : Text).isPrefixOf (c :: (cs ++ '_' :: rest)) = false := by
      simp [List.isPrefixOf, hc.symm]
    rw [h1]
    simp only [Bool.false_eq_true, if_false]
    rw [ih fun hm => h (List.mem_cons_of_mem _ hm)]

theorem splitFirst_sep (s rest : Text) (h : ':' ∉ s) :
    splitFirst ['_', ':', '_'] (s ++ '_' :: ':' :: '_' :: rest) = (s, some rest) := by
  induction s with
  | nil => simp [splitFirst]
  | cons c cs ih =>
    rw [List.cons_append]
    unfold splitFirst
    have h1 : (['_', ':', '_'] : Text).isPrefixOf (c :: (cs ++ '_' :: ':' :: '_' :: rest)) = false := by
      cases cs with
      | nil => simp [List.isPrefixOf]
      | cons e es =>
        have he : e ≠ ':' := fun he => h (by rw [he]; simp)
        simp [List.isPrefixOf, he.symm]
    rw [h1]
    simp only [Bool.false_eq_true, if_false]
    rw [ih fun hm => h (List.mem_cons_of_mem _ hm)]

/-! ## Keys and pair lines -/

theorem keyText_eq (v : ℤ) (vs : List ℤ) : keyText (v :: vs) = keyOf (v :: vs) ++ ['_'] := by
  induction vs generalizing v with
  | nil => simp [keyText, keyOf]
  | cons w ws ih =>
    have := ih w
    unfold keyText at this ⊢
    rw [List.flatMap_cons, this]
    simp [keyOf]

theorem lineText_eq (v : List ℤ) (i j : ℕ) :
    lineText v i j = keyOf v ++ '_' :: ':' :: '_' :: (natText i ++ '_' :: natText j) := by
  cases v with
  | nil => simp [lineText, keyText, keyOf]
  | cons v vs =>
    unfold lineText
    rw [keyText_eq]
    rw [if_neg (by simp)]
    simp

theorem keyOf_chars (v : List ℤ) : ∀ c ∈ keyOf v, IsNum c ∨ c = '_' := by
  match v with
  | [] => simp [keyOf]
  | [v] => intro c hc; exact Or.inl (intText_num v c hc)
  | v :: w :: vs =>
    intro c hc
    simp only [keyOf, List.mem_append, List.mem_cons] at hc
    rcases hc with hc | rfl | hc
    · exact Or.inl (intText_num v c hc)
    · exact Or.inr rfl
    · exact keyOf_chars (w :: vs) c hc

theorem colon_notin_key (v : List ℤ) : ':' ∉ keyOf v := by
  intro h
  rcases keyOf_chars v _ h with h | h
  · exact (num_ne h).2.1 rfl
  · exact absurd h (by decide)

theorem notin_nat (n : ℕ) : '_' ∉ natText n ∧ ':' ∉ natText n ∧ '\n' ∉ natText n ∧ '\r' ∉ natText n :=
  ⟨fun h => (num_ne (digit_num (natText_digits n _ h))).1 rfl, fun h => (num_ne (digit_num (natText_digits n _ h))).2.1 rfl,
    fun h => (num_ne (digit_num (natText_digits n _ h))).2.2.1 rfl,
    fun h => (num_ne (digit_num (natText_digits n _ h))).2.2.2.1 rfl⟩

theorem getLine_of {key : Text} (hk : ':' ∉ key) {i j : ℕ} (hi : i < 2 ^ 64) (hj : j < 2 ^ 64) :
    getLineFrom (key ++ '_' :: ':' :: '_' :: (natText i ++ '_' :: natText j)) = some (key, (i, j)) := by
  unfold getLineFrom
  simp only []
  rw [splitFirst_sep _ _ hk]
  simp only [Option.bind_some]
  have h : ':' ∉ natText i ++ '_' :: natText j := by
    simp only [List.mem_append, List.mem_cons, not_or]
    exact ⟨(notin_nat i).2.1, by decide, (notin_nat j).2.1⟩
  rw [splitFirst_none (sep := ['_', ':', '_']) (x := ':') (by simp) h]
  simp only []
  rw [splitFirst_under _ _ (notin_nat i).1]
  simp only [Option.bind_some]
  rw [parse_natText hi, splitFirst_none (x := '_') (by simp) (notin_nat j).1, parse_natText hj]
  rfl

theorem getLine_lineText (v : List ℤ) {i j : ℕ} (hi : i < 2 ^ 64) (hj : j < 2 ^ 64) :
    getLineFrom (lineText v i j) = some (keyOf v, (i, j)) := by
  rw [lineText_eq]; exact getLine_of (colon_notin_key v) hi hj

/-- Two texts followed by separators. -/
theorem append_sep {a b c d : Text} (ha : '_' ∉ a) (hb : '_' ∉ b) (h : a ++ '_' :: c = b ++ '_' :: d) :
    a = b ∧ c = d := by
  have h1 := splitFirst_under a c ha
  rw [h, splitFirst_under b d hb] at h1
  have := Prod.ext_iff.1 h1
  exact ⟨this.1.symm, (Option.some.inj this.2).symm⟩

theorem under_notin_int (z : ℤ) : '_' ∉ intText z := fun h => (num_ne (intText_num z _ h)).1 rfl

theorem keyOf_ne (v : ℤ) (vs : List ℤ) : keyOf (v :: vs) ≠ [] := by
  cases vs with
  | nil => exact intText_ne v
  | cons w ws => simp [keyOf]

theorem keyOf_inj : ∀ {u v : List ℤ}, keyOf u = keyOf v → u = v
  | [], [], _ => rfl
  | [], y :: ys, h => absurd h.symm (keyOf_ne y ys)
  | x :: xs, [], h => absurd h (keyOf_ne x xs)
  | [x], [y], h => by rw [intText_inj (y := x) (z := y) h]
  | [x], y :: z :: zs, h => by
    have : '_' ∈ keyOf [x] := by rw [h]; simp [keyOf]
    exact absurd this (under_notin_int x)
  | x :: z :: zs, [y], h => by
    have : '_' ∈ keyOf [y] := by rw [← h]; simp [keyOf]
    exact absurd this (under_notin_int y)
  | x :: a :: as, y :: b :: bs, h => by
    simp only [keyOf] at h
    obtain ⟨h1, h2⟩ := append_sep (under_notin_int x) (under_notin_int y) h
    rw [intText_inj h1, keyOf_inj h2]

/-- Keys of equal length, one a prefix of the other: all values but the last agree, and the last are in the prefix
relation. -/
theorem keyOf_prefix : ∀ {u v : List ℤ}, u.length = v.length → u ≠ [] → keyOf u <+: keyOf v →
    u.dropLast = v.dropLast ∧ intText (u.getLast?.getD 0) <+: intText (v.getLast?.getD 0)
  | [], _, _, h, _ => absurd rfl h
  | [x], [y], _, _, h => ⟨rfl, h⟩
  | [x], [], hl, _, _ => by simp at hl
  | [x], _ :: _ :: _, hl, _, _ => by simp at hl
  | _ :: _ :: _, [], hl, _, _ => by simp at hl
  | _ :: _ :: _, [_], hl, _, _ => by simp at hl
  | x :: a :: as, y :: b :: bs, hl, _, h => by
    obtain ⟨r, hr⟩ := h
    simp only [keyOf, List.append_assoc, List.cons_append] at hr
    obtain ⟨h1, h2⟩ := append_sep (under_notin_int x) (under_notin_int y) hr
    have ih := keyOf_prefix (u := a :: as) (v := b :: bs) (by simpa using hl) (by simp) ⟨r, h2⟩
    rw [intText_inj h1]
    constructor
    · rw [show (y :: a :: as).dropLast = y :: (a :: as).dropLast from rfl,
        show (y :: b :: bs).dropLast = y :: (b :: bs).dropLast from rfl, ih.1]
    · simpa using ih.2

/-! ## Order of texts -/

theorem textLt_irrefl (s : Text) : textLt s s = false := by
  induction s with
  | nil => rfl
  | cons c cs ih => unfold textLt; simp [ih]

theorem char_ext {x y : Char} (h1 : ¬ x.toNat < y.toNat) (h2 : ¬ y.toNat < x.toNat) : x = y :=
  Char.toNat_inj.1 (by omega)

theorem textLt_total {s t : Text} (h : s ≠ t) : textLt s t = true ∨ textLt t s = true := by
  induction s generalizing t with
  | nil => cases t with
    | nil => exact absurd rfl h
    | cons c cs => left; rfl
  | cons c cs ih => cases t with
    | nil => right; rfl
    | cons d ds =>
      unfold textLt
      by_cases h1 : c.toNat < d.toNat
      · left; simp [h1]
      · by_cases h2 : d.toNat < c.toNat
        · right; simp [h2]
        · have := char_ext h1 h2
          subst this
          simp only [lt_irrefl, if_false]
          exact ih fun hc => h (by rw [hc])

theorem textLt_trans {a b c : Text} (h1 : textLt a b = true) (h2 : textLt b c = true) : textLt a c = true := by
  induction a generalizing b c with
  | nil => cases b with
    | nil => exact absurd h1 (by simp [textLt])
    | cons x xs => cases c with
      | nil => exact absurd h2 (by simp [textLt])
      | cons y ys => rfl
  | cons x xs ih => cases b with
    | nil => exact absurd h1 (by simp [textLt])
    | cons y ys => cases c with
      | nil => exact absurd h2 (by simp [textLt])
      | cons z zs =>
        unfold textLt at h1 h2 ⊢
        split at h1
        · split at h2
          · rw [if_pos (by omega)]
          · split at h2
            · cases h2
            · rw [if_pos (by omega)]
        · split at h1
          · cases h1
          · split at h2
            · rw [if_pos (by omega)]
            · split at h2
              · cases h2
              · rw [if_neg (by omega), if_neg (by omega)]; exact ih h1 h2

theorem textLt_asymm {a b : Text} (h : textLt a b = true) : textLt b a = false := by
  rw [Bool.eq_false_iff]
  intro h2
  have := textLt_trans h h2
  rw [textLt_irrefl] at this
  cases this

theorem textLe_trans (a b c : Text) (h1 : textLe a b = true) (h2 : textLe b c = true) : textLe a c = true := by
  unfold textLe at *
  simp only [Bool.not_eq_true'] at *
  rw [Bool.eq_false_iff]
  intro h
  by_cases hab : a = b
  · subst hab; rw [h2] at h; cases h
  · rcases textLt_total hab with h3 | h3
    · have := textLt_trans h h3; rw [this] at h2; cases h2
    · rw [h3] at h1; cases h1

theorem textLe_total (a b : Text) : (textLe a b || textLe b a) = true := by
  unfold textLe
  cases h : textLt b a with
  | false => rfl
  | true => simp [textLt_asymm h]

theorem textLe_antisymm {a b : Text} (h1 : textLe a b = true) (h2 : textLe b a = true) : a = b := by
  by_contra h
  unfold textLe at h1 h2
  rcases textLt_total h with h3 | h3
  · rw [h3] at h2; cases h2
  · rw [h3] at h1; cases h1

/-- If neither text is a prefix of the other, what follows does not matter. -/
theorem textLt_append {s t : Text} (h1 : ¬ s <+: t) (h2 : ¬ t <+: s) (a b : Text) :
    textLt (s ++ a) (t ++ b) = textLt s t := by
  induction s generalizing t with
  | nil => exact absurd (List.nil_prefix) h1
  | cons c cs ih => cases t with
    | nil => exact absurd (List.nil_prefix) h2
    | cons d ds =>
      rw [List.cons_append, List.cons_append]
      unfold textLt
      split
      · rfl
      · split
        · rfl
        · rename_i g1 g2
          have := char_ext g1 g2
          subst this
          exact ih (fun h => h1 ((List.prefix_cons_inj c).2 h)) (fun h => h2 ((List.prefix_cons_inj c).2 h))

/-! ## Lines -/

theorem linesAux_cons (c : Char) (cs acc : Text) : linesAux (c :: cs) acc =
    if c = '\n' then (stripCr acc).reverse :: linesAux cs [] else linesAux cs (c :: acc) := rfl

theorem linesAux_line (l rest acc : Text) (h : '\n' ∉ l) (hr : '\r' ∉ l) (ha : '\r' ∉ acc) :
    linesAux (l ++ '\n' :: rest) acc = (acc.reverse ++ l) :: linesAux rest [] := by
  induction l generalizing acc with
  | nil =>
    simp only [List.nil_append, List.append_nil]
    rw [linesAux_cons, if_pos rfl]
    have : stripCr acc = acc := by
      unfold stripCr
      split
      · exact absurd (List.mem_cons_self ..) ha
      · rfl
    rw [this]
  | cons c cs ih =>
    rw [List.cons_append]
    have hc : c ≠ '\n' := fun hc => h (by rw [hc]; exact List.mem_cons_self ..)
    have hc' : c ≠ '\r' := fun hc => hr (by rw [hc]; exact List.mem_cons_self ..)
    rw [linesAux_cons, if_neg hc, ih (c :: acc) (fun hm => h (List.mem_cons_of_mem _ hm)) (fun hm => hr (List.mem_cons_of_mem _ hm))]
    · simp
    · simp only [List.mem_cons, not_or]; exact ⟨hc'.symm, ha⟩

theorem readLines_unlines (ls : List Text) (h : ∀ l ∈ ls, '\n' ∉ l ∧ '\r' ∉ l) : readLines (unlines ls) = ls := by
  unfold readLines
  induction ls with
  | nil => rfl
  | cons l ls ih =>
    have : unlines (l :: ls) = l ++ '\n' :: unlines ls := by simp [unlines]
    rw [this, linesAux_line _ _ _ (h l (List.mem_cons_self ..)).1 (h l (List.mem_cons_self ..)).2 (by simp)]
    rw [ih fun l hl => h l (List.mem_cons_of_mem _ hl)]
    rfl

theorem unlines_append (a b : List Text) : unlines (a ++ b) = unlines a ++ unlines b := by simp [unlines]

theorem lineText_clean (v : List ℤ) (i j : ℕ) : '\n' ∉ lineText v i j ∧ '\r' ∉ lineText v i j := by
  rw [lineText_eq]
  have hk : ∀ c ∈ keyOf v, c ≠ '\n' ∧ c ≠ '\r' := by
    intro c hc
    rcases keyOf_chars v c hc with h | rfl
    · exact ⟨(num_ne h).2.2.1, (num_ne h).2.2.2.1⟩
    · decide
  constructor <;> simp only [List.mem_append, List.mem_cons, not_or]
  · exact ⟨fun h => (hk _ h).1 rfl, by decide, by decide, by decide, (notin_nat i).2.2.1, by decide, (notin_nat j).2.2.1⟩
  · exact ⟨fun h => (hk _ h).2 rfl, by decide, by decide, by decide, (notin_nat i).2.2.2, by decide, (notin_nat j).2.2.2⟩

/-! ## Sorting -/

theorem mergeSort_perm (l : List Text) : (l.mergeSort textLe).Perm l := List.mergeSort_perm l _

theorem mergeSort_sorted (l : List Text) : (l.mergeSort textLe).Pairwise fun a b => textLe a b = true :=
  List.pairwise_mergeSort textLe_trans textLe_total l

theorem read_sortText (ls : List Text) (h : ∀ l ∈ ls, '\n' ∉ l ∧ '\r' ∉ l) :
    readLines (sortText (unlines ls)) = ls.mergeSort textLe := by
  unfold sortText
  rw [readLines_unlines ls h, readLines_unlines]
  intro l hl
  exact h l ((mergeSort_perm ls).mem_iff.1 hl)

/-! ## The buffered writer -/

/-- The state of the writer after a list of lines. -/
theorem writer_spec (ls : List Text) :
    let w := ls.foldl Writer.push { blocks := [], buffer := [], counter := 0 }
    w.counter = ls.length ∧ w.blocks.length = ls.length / 1000 ∧
      (∀ k ≤ w.blocks.length, (w.blocks.take k).flatten = unlines (ls.take (1000 * k))) ∧
      w.buffer = unlines (ls.drop (1000 * (ls.length / 1000))) := by
  induction ls using List.reverseRecOn with
  | nil => simp [unlines]
  | append_singleton ls l ih =>
    simp only [List.foldl_append, List.foldl_cons, List.foldl_nil] at ih ⊢
    generalize ls.foldl Writer.push { blocks := [], buffer := [], counter := 0 } = w at ih ⊢
    obtain ⟨h1, h2, h3, h4⟩ := ih
    unfold Writer.push
    simp only [List.length_append, List.length_cons, List.length_nil, Nat.zero_add]
    by_cases hc : (w.counter + 1) % 1000 = 0
    · rw [if_pos hc]
      rw [h1] at hc
      have e : (ls.length + 1) / 1000 = ls.length / 1000 + 1 := by omega
      have e2 : 1000 * (ls.length / 1000 + 1) = ls.length + 1 := by omega
      refine ⟨by simp [h1], by simp [h2, e], ?_, ?_⟩
      · intro k hk
        simp only [List.length_append, List.length_cons, List.length_nil, Nat.zero_add] at hk
        by_cases hk' : k ≤ w.blocks.length
        · rw [List.take_append_of_le_length hk', h3 k hk', List.take_append_of_le_length (by omega)]
        · have : k = w.blocks.length + 1 := by omega
          subst this
          rw [List.take_of_length_le (by simp), List.flatten_append, List.take_of_length_le (by simp; omega),
            unlines_append]
          have h5 := h3 _ le_rfl
          rw [List.take_of_length_le le_rfl] at h5
          rw [h5, h2, h4]
          simp only [List.flatten_cons, List.flatten_nil, List.append_nil]
          rw [← List.append_assoc, ← unlines_append, List.take_append_drop]
          simp [unlines]
      · rw [e, e2, List.drop_of_length_le (by simp)]; simp [unlines]
    · rw [if_neg hc]
      rw [h1] at hc
      have e : (ls.length + 1) / 1000 = ls.length / 1000 := by omega
      refine ⟨by simp [h1], by simp [h2, e], ?_, ?_⟩
      · intro k hk
        simp only at hk
        rw [h3 k hk, List.take_append_of_le_length (by omega)]
      · simp only []
        rw [e, List.drop_append_of_le_length (by omega), unlines_append, h4]
        simp [unlines]

theorem writeBlocks_flatten (ls : List Text) : (writeBlocks ls).flatten = unlines ls := by
  obtain ⟨h1, h2, h3, h4⟩ := writer_spec ls
  unfold writeBlocks
  simp only [List.flatten_append, List.flatten_cons, List.flatten_nil, List.append_nil]
  have h5 := h3 _ le_rfl
  rw [List.take_of_length_le le_rfl] at h5
  rw [h5, h2, h4, ← unlines_append, List.take_append_drop]

theorem writeBlocks_length (ls : List Text) : (writeBlocks ls).length = ls.length / 1000 + 1 := by
  obtain ⟨h1, h2, h3, h4⟩ := writer_spec ls
  unfold writeBlocks
  simp [h2]

theorem writeBlocks_take (ls : List Text) {k : ℕ} (hk : k < (writeBlocks ls).length) :
    ((writeBlocks ls).take k).flatten = unlines (ls.take (1000 * k)) := by
  obtain ⟨h1, h2, h3, h4⟩ := writer_spec ls
  rw [writeBlocks_length] at hk
  unfold writeBlocks
  dsimp only
  rw [List.take_append_of_le_length (by omega), h3 k (by omega)]

end Proofs.Txt
