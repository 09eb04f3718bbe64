import Verif.Spec.Numeral
import Verif.Proofs.Command

/-!
# Helper lemmas: decimal numerals
-/

namespace Proofs.Numerals
open Model Spec

theorem parseDigit_eq {acc : ℕ} {c : Char} {m : ℕ} :
    parseDigit acc c = some m ↔ ∃ d, d < 10 ∧ c = Char.ofNat (48 + d) ∧ m = acc * 10 + d := by
  unfold parseDigit
  constructor
  · intro h
    split at h
    · rename_i hc
      refine ⟨c.toNat - 48, by omega, ?_, (Option.some.inj h).symm⟩
      rw [show 48 + (c.toNat - 48) = c.toNat by omega, Char.ofNat_toNat]
    · cases h
  · rintro ⟨d, hd, rfl, rfl⟩
    have := Txt.digitChar_toNat hd
    unfold digitChar at this
    rw [this, if_pos (by omega)]
    congr 2
    omega

theorem foldl_digits : ∀ (s : Text) (acc n : ℕ), s.foldlM parseDigit acc = some n ↔
    ∃ ds : List ℕ, (∀ d ∈ ds, d < 10) ∧ s = ds.map (fun d => Char.ofNat (48 + d)) ∧
      n = acc * 10 ^ ds.length + Nat.ofDigits 10 ds.reverse
  | [], acc, n => by
    constructor
    · intro h
      refine ⟨[], by simp, rfl, ?_⟩
      have : acc = n := Option.some.inj h
      simp [this]
    · rintro ⟨ds, -, h, e⟩
      have : ds = [] := List.map_eq_nil_iff.1 h.symm
      subst this
      simp at e
      show some acc = some n
      rw [e]
  | c :: s, acc, n => by
    rw [List.foldlM_cons]
    have ofd : ∀ (d : ℕ) (ds : List ℕ), Nat.ofDigits 10 (d :: ds).reverse = d * 10 ^ ds.length + Nat.ofDigits 10 ds.reverse := by
      intro d ds
      rw [List.reverse_cons, Nat.ofDigits_append]
      simp [Nat.ofDigits_singleton]
      ring
    constructor
    · intro h
      obtain ⟨m, h1, h2⟩ := Option.bind_eq_some_iff.1 h
      obtain ⟨d, hd, rfl, rfl⟩ := parseDigit_eq.1 h1
      obtain ⟨ds, k1, k2, k3⟩ := (foldl_digits s _ n).1 h2
      refine ⟨d :: ds, by simpa using ⟨hd, k1⟩, by rw [k2]; rfl, ?_⟩
      rw [k3, ofd, List.length_cons]
      ring
    · rintro ⟨ds, k1, k2, k3⟩
      cases ds with
      | nil => cases k2
      | cons d ds =>
        simp only [List.map_cons, List.cons.injEq] at k2
        rw [ofd, List.length_cons] at k3
        refine Option.bind_eq_some_iff.2 ⟨acc * 10 + d, parseDigit_eq.2 ⟨d, k1 d (by simp), k2.1, rfl⟩, ?_⟩
        refine (foldl_digits s _ n).2 ⟨ds, fun x hx => k1 x (by simp [hx]), k2.2, ?_⟩
        rw [k3]
        ring

theorem parseDigits_iff {s : Text} {n : ℕ} : parseDigits s = some n ↔ Digits s n := by
  unfold parseDigits Digits
  split
  · rename_i h
    simp [h]
  · rename_i h
    rw [foldl_digits]
    simp [h]

/-- A digit text does not start with a sign. -/
theorem digits_head {s : Text} {n : ℕ} (h : Digits s n) (r : Text) : s ≠ '+' :: r ∧ s ≠ '-' :: r := by
  obtain ⟨-, ds, h1, h2, -⟩ := h
  have key : ∀ c : Char, (∀ d < 10, Char.ofNat (48 + d) ≠ c) → s ≠ c :: r := by
    intro c hc e
    rw [e] at h2
    cases ds with
    | nil => cases h2
    | cons d ds =>
      simp only [List.map_cons, List.cons.injEq] at h2
      exact hc d (h1 d (by simp)) h2.1.symm
  exact ⟨key '+' (by decide), key '-' (by decide)⟩

theorem stripPlus_iff {s : Text} {n : ℕ} : Digits (stripPlus s) n ↔ Unsigned s n := by
  unfold Unsigned stripPlus
  split
  · rename_i r
    constructor
    · exact fun h => .inr ⟨r, rfl, h⟩
    · rintro (h | ⟨r', h1, h2⟩)
      · exact absurd rfl (digits_head h r).1
      · cases h1; exact h2
  · rename_i hs
    constructor
    · exact .inl
    · rintro (h | ⟨r', h1, -⟩)
      · exact h
      · exact absurd h1 (hs r')

theorem bound_iff {α : Type} {s : Text} {P : ℕ → Prop} [DecidablePred P] {f : ℕ → α} {m : α} :
    ((parseDigits s).bind fun n => if P n then some (f n) else none) = some m ↔ ∃ n, Digits s n ∧ P n ∧ f n = m := by
  constructor
  · intro h
    obtain ⟨n, h1, h2⟩ := Option.bind_eq_some_iff.1 h
    split at h2
    · exact ⟨n, parseDigits_iff.1 h1, by assumption, Option.some.inj h2⟩
    · cases h2
  · rintro ⟨n, h1, h2, h3⟩
    rw [parseDigits_iff.2 h1, Option.bind_some, if_pos h2, h3]

theorem parseUsize_eq (s : Text) : parseUsize s = (parseDigits (stripPlus s)).bind fun n => if n < 2 ^ 64 then some n else none := by
  unfold parseUsize parseDigits
  dsimp only
  split <;> rfl

theorem usize_iff {s : Text} {n : ℕ} : parseUsize s = some n ↔ Unsigned s n ∧ n < 2 ^ 64 := by
  rw [parseUsize_eq, bound_iff]
  constructor
  · rintro ⟨m, h1, h2, rfl⟩
    exact ⟨stripPlus_iff.1 h1, h2⟩
  · rintro ⟨h1, h2⟩
    exact ⟨n, stripPlus_iff.2 h1, h2, rfl⟩

theorem u8_iff {s : Text} {n : ℕ} : parseU8 s = some n ↔ Unsigned s n ∧ n < 256 := by
  unfold parseU8
  rw [bound_iff]
  constructor
  · rintro ⟨m, h1, h2, rfl⟩
    exact ⟨stripPlus_iff.1 h1, h2⟩
  · rintro ⟨h1, h2⟩
    exact ⟨n, stripPlus_iff.2 h1, h2, rfl⟩

theorem unsigned_head {s : Text} {n : ℕ} (h : Unsigned s n) (r : Text) : s ≠ '-' :: r := by
  rcases h with h | ⟨r', rfl, -⟩
  · exact (digits_head h r).2
  · intro e; cases e

theorem isize_iff {s : Text} {z : ℤ} : parseIsize s = some z ↔ Numeral s z ∧ -2 ^ 63 ≤ z ∧ z < 2 ^ 63 := by
  unfold parseIsize
  split
  · rename_i r
    rw [bound_iff (P := fun n => n ≤ 2 ^ 63) (f := fun n : ℕ => -(n : ℤ))]
    constructor
    · rintro ⟨n, h1, h2, rfl⟩
      exact ⟨⟨n, .inr ⟨r, rfl, h1, rfl⟩⟩, by omega, by omega⟩
    · rintro ⟨⟨n, ⟨h1, -⟩ | ⟨r', h1, h2, rfl⟩⟩, h3, h4⟩
      · exact absurd rfl (unsigned_head h1 r)
      · cases h1
        exact ⟨n, h2, by omega, rfl⟩
  · rename_i hs
    rw [bound_iff (P := fun n => n < 2 ^ 63) (f := fun n : ℕ => (n : ℤ))]
    constructor
    · rintro ⟨n, h1, h2, rfl⟩
      exact ⟨⟨n, .inl ⟨stripPlus_iff.1 h1, rfl⟩⟩, by omega, by omega⟩
    · rintro ⟨⟨n, ⟨h1, rfl⟩ | ⟨r', h1, -⟩⟩, h3, h4⟩
      · exact ⟨n, stripPlus_iff.2 h1, by omega, rfl⟩
      · exact absurd h1 (hs r')

/-! ## Printing -/

theorem digit_char : ∀ d < 10, digitChar d = Nat.digitChar d := by decide

theorem natAux_toDigits : ∀ (f n : ℕ), n < f → natAux f n = Nat.toDigits 10 n
  | 0, n, h => by omega
  | f + 1, n, h => by
    unfold natAux
    split
    · rename_i h'
      rw [digit_char n h', Nat.toDigits_of_lt_base h']
    · have h10 : n % 10 < 10 := Nat.mod_lt _ (by norm_num)
      have e := Nat.toDigits_append_toDigits (b := 10) (n := n / 10) (d := n % 10) (by norm_num) (by omega) h10
      rw [Nat.div_add_mod, Nat.toDigits_of_lt_base h10] at e
      rw [natAux_toDigits f (n / 10) (by omega), digit_char _ h10, e]

theorem natText_eq (n : ℕ) : natText n = (toString n).toList := by
  have : (toString n).toList = Nat.toDigits 10 n := by
    show (Nat.repr n).toList = _
    simp [Nat.repr]
  rw [this]
  exact natAux_toDigits _ _ (by omega)

theorem intText_eq (z : ℤ) : intText z = (toString z).toList := by
  unfold intText
  cases z with
  | ofNat m =>
    rw [if_neg (by simp)]
    exact natText_eq m
  | negSucc m =>
    rw [if_pos (Int.negSucc_lt_zero m), natText_eq]
    show _ = ("-" ++ Nat.repr (m + 1)).toList
    simp

/-! ## Arguments -/

/-- A numeral is not one of the words of the command line. -/
theorem word {s : Text} {c : Char} {r : Text} (hs : (∃ n, Unsigned s n) ∨ ∃ r', s = '-' :: r')
    (hc : c ≠ '+' ∧ c ≠ '-' ∧ ∀ d < 10, Char.ofNat (48 + d) ≠ c) : s ≠ c :: r := by
  rintro rfl
  rcases hs with ⟨n, ⟨-, ds, h1, h2, -⟩ | ⟨r', h1, -⟩⟩ | ⟨r', h⟩
  · cases ds with
    | nil => cases h2
    | cons d ds =>
      simp only [List.map_cons, List.cons.injEq] at h2
      exact hc.2.2 d (h1 d (by simp)) h2.1.symm
  · exact hc.1 (List.cons.inj h1).1
  · exact hc.2.1 (List.cons.inj h).1

/-- Equal, or both numerals. -/
theorem same_cases {s t : Text} (h : SameArgument s t) :
    s = t ∨ (((∃ n, Unsigned s n) ∨ ∃ r', s = '-' :: r') ∧ ((∃ n, Unsigned t n) ∨ ∃ r', t = '-' :: r')) := by
  rcases h with h | ⟨n, h1, h2⟩ | ⟨r, r', n, h1, h2, -⟩
  · exact .inl h
  · exact .inr ⟨.inl ⟨n, h1⟩, .inl ⟨n, h2⟩⟩
  · exact .inr ⟨.inr ⟨r, h1⟩, .inr ⟨r', h2⟩⟩

theorem word_iff {s t : Text} (h : SameArgument s t) {c : Char} {r : Text}
    (hc : c ≠ '+' ∧ c ≠ '-' ∧ ∀ d < 10, Char.ofNat (48 + d) ≠ c) : s = c :: r ↔ t = c :: r := by
  rcases same_cases h with rfl | ⟨h1, h2⟩
  · rfl
  · exact ⟨fun e => absurd e (word h1 hc), fun e => absurd e (word h2 hc)⟩

theorem same_seqtype {s t : Text} (h : SameArgument s t) : strToSeqtype s = strToSeqtype t := by
  unfold strToSeqtype
  simp only [word_iff h (c := 'q') (by decide), word_iff h (c := 'w') (by decide), word_iff h (c := 'i') (by decide),
    word_iff h (c := 'e') (by decide)]

theorem same_match {s t : Text} (h : SameArgument s t) : strToMatchOption s = strToMatchOption t := by
  have e1 : "correlation".toList = 'c' :: "orrelation".toList := by decide
  have e2 : "psd".toList = 'p' :: "sd".toList := by decide
  unfold strToMatchOption
  rw [e1, e2]
  simp only [word_iff h (c := 'c') (by decide), word_iff h (c := 'p') (by decide)]

theorem same_pairing {s t : Text} (h : SameArgument s t) : strToRowsumPairing s = strToRowsumPairing t := by
  unfold strToRowsumPairing
  simp only [word_iff h (c := 'W') (by decide)]

theorem digits_fun {s : Text} {m n : ℕ} (h1 : Digits s m) (h2 : Digits s n) : m = n := by
  have := parseDigits_iff.2 h1
  rw [parseDigits_iff.2 h2] at this
  exact (Option.some.inj this).symm

theorem strip_of {s : Text} {n : ℕ} (h : Unsigned s n) : parseDigits (stripPlus s) = some n :=
  parseDigits_iff.2 (stripPlus_iff.2 h)

theorem strip_minus {r : Text} : parseDigits (stripPlus ('-' :: r)) = none := by
  rcases e : parseDigits (stripPlus ('-' :: r)) with - | n
  · rfl
  · exact absurd rfl (unsigned_head (stripPlus_iff.1 (parseDigits_iff.1 e)) r)

theorem same_strip {s t : Text} (h : SameArgument s t) : parseDigits (stripPlus s) = parseDigits (stripPlus t) := by
  rcases h with rfl | ⟨n, h1, h2⟩ | ⟨r, r', n, rfl, rfl, -⟩
  · rfl
  · rw [strip_of h1, strip_of h2]
  · rw [strip_minus, strip_minus]

theorem same_usize {s t : Text} (h : SameArgument s t) : parseUsize s = parseUsize t := by
  rw [parseUsize_eq, parseUsize_eq, same_strip h]

theorem same_u8 {s t : Text} (h : SameArgument s t) : parseU8 s = parseU8 t := by
  unfold parseU8
  rw [same_strip h]

theorem same_isize {s t : Text} (h : SameArgument s t) : parseIsize s = parseIsize t := by
  have key : ∀ z, parseIsize s = some z ↔ parseIsize t = some z := by
    intro z
    rw [isize_iff, isize_iff]
    refine and_congr_left fun _ => ?_
    have one : ∀ s t, SameArgument s t → Numeral s z → Numeral t z := by
      rintro s t (rfl | ⟨n, h1, h2⟩ | ⟨r, r', n, rfl, rfl, h1, h2⟩) h
      · exact h
      · obtain ⟨m, ⟨k1, k2⟩ | ⟨r, k1, -⟩⟩ := h
        · have := strip_of k1
          rw [strip_of h1] at this
          cases this
          exact ⟨n, .inl ⟨h2, k2⟩⟩
        · exact absurd k1 (unsigned_head h1 r)
      · obtain ⟨m, ⟨k1, k2⟩ | ⟨r'', k1, k2, k3⟩⟩ := h
        · exact absurd rfl (unsigned_head k1 r)
        · cases k1
          rw [digits_fun k2 h1] at k3
          exact ⟨n, .inr ⟨r', rfl, h2, k3⟩⟩
    refine ⟨one s t h, one t s ?_⟩
    rcases h with rfl | ⟨n, h1, h2⟩ | ⟨r, r', n, h1, h2, h3, h4⟩
    · exact .inl rfl
    · exact .inr (.inl ⟨n, h2, h1⟩)
    · exact .inr (.inr ⟨r', r, n, h2, h1, h4, h3⟩)
  exact Option.ext key

theorem same_quad {a b c d a' b' c' d' : Text} (ha : SameArgument a a') (hb : SameArgument b b') (hc : SameArgument c c')
    (hd : SameArgument d d') : parseQuad a b c d = parseQuad a' b' c' d' := by
  unfold parseQuad
  rw [same_isize ha, same_isize hb, same_isize hc, same_isize hd]

variable {F κ : Type} [DecidableEq κ]

/-- A command that is a numeral does nothing. -/
theorem main_numeral (env : Env F κ) (s : Store) {cmd : Text} (args : List Text)
    (h : (∃ n, Unsigned cmd n) ∨ ∃ r', cmd = '-' :: r') : mainRun env s (cmd :: args) = Run.pure () := by
  have w : ∀ t : Text, (∃ c r, t = c :: r ∧ c ≠ '+' ∧ c ≠ '-' ∧ ∀ d < 10, Char.ofNat (48 + d) ≠ c) → cmd ≠ t := by
    rintro t ⟨c, r, rfl, hc⟩
    exact word h hc
  have q0 : cmd ≠ "qhm-all".toList := w _ ⟨'q', "hm-all".toList, by decide, by decide⟩
  have q1 : cmd ≠ "amicable".toList := w _ ⟨'a', "micable".toList, by decide, by decide⟩
  have q2 : cmd ≠ "rowsums".toList := w _ ⟨'r', "owsums".toList, by decide, by decide⟩
  have q3 : cmd ≠ "join".toList := w _ ⟨'j', "oin".toList, by decide, by decide⟩
  have q4 : cmd ≠ "convert".toList := w _ ⟨'c', "onvert".toList, by decide, by decide⟩
  have q5 : cmd ≠ "pairs".toList := w _ ⟨'p', "airs".toList, by decide, by decide⟩
  have q6 : cmd ≠ "pairs_rowsum".toList := w _ ⟨'p', "airs_rowsum".toList, by decide, by decide⟩
  have q7 : cmd ≠ "create".toList := w _ ⟨'c', "reate".toList, by decide, by decide⟩
  have q8 : cmd ≠ "pair_single".toList := w _ ⟨'p', "air_single".toList, by decide, by decide⟩
  unfold mainRun
  dsimp only
  rw [if_neg q0, if_neg q1, if_neg q2, if_neg q3, if_neg q4, if_neg q5, if_neg q6, if_neg q7, if_neg q8]

theorem main_same (env : Env F κ) (s : Store) {args args' : List Text} (h : List.Forall₂ SameArgument args args') :
    mainRun env s args = mainRun env s args' := by
  cases h with
  | nil => rfl
  | @cons cmd cmd' l l' hc hl =>
    rcases same_cases hc with rfl | ⟨k1, k2⟩
    swap
    · rw [main_numeral env s l k1, main_numeral env s l' k2]
    clear hc
    have e1 : "hm".toList = 'h' :: "m".toList := by decide
    have e2 : "qhm".toList = 'q' :: "hm".toList := by decide
    unfold mainRun
    dsimp only
    rw [e1, e2]
    rcases hl with - | ⟨h1, hl⟩
    · rfl
    rcases hl with - | ⟨h2, hl⟩
    · simp only [same_usize h1]
    rcases hl with - | ⟨h3, hl⟩
    · simp only [same_seqtype h1, same_usize h2]
    rcases hl with - | ⟨h4, hl⟩
    · simp only [same_seqtype h2, same_usize h3, word_iff h1 (c := 'h') (by decide), word_iff h1 (c := 'q') (by decide)]
    rcases hl with - | ⟨h5, hl⟩
    · simp only [same_seqtype h1, same_usize h2, same_match h3, same_pairing h4]
    rcases hl with - | ⟨h6, hl⟩
    · rfl
    rcases hl with - | ⟨h7, hl⟩
    · rfl
    rcases hl with - | ⟨h8, hl⟩
    · simp only [same_seqtype h1, same_usize h2, same_quad h3 h4 h5 h6, same_pairing h7]
    rcases hl with - | ⟨h9, hl⟩
    · simp only [same_seqtype h1, same_usize h2, same_quad h3 h4 h5 h6, same_pairing h7, same_match h7, same_pairing h8]
    rcases hl with - | ⟨h10, hl⟩
    · simp only [same_seqtype h1, same_usize h2, same_quad h3 h4 h5 h6, same_pairing h7, same_match h7, same_pairing h8,
        same_u8 h9]
    · simp only [same_seqtype h1, same_usize h2, same_quad h3 h4 h5 h6, same_pairing h7]

end Proofs.Numerals
