import Verif.Model.Log
import Verif.Proofs.Text
import Mathlib.Algebra.Order.Field.Rat

/-!
# Helper lemmas: the patterns of `collect_results.py`
-/

set_option linter.unusedVariables false
set_option linter.unusedSimpArgs false

namespace Proofs.Log
open Model Spec

/-! ## Lines -/

theorem pyLines_cons {l b : Text} (h : '\n' ∉ l) : pyLines (l ++ '\n' :: b) = l :: pyLines b := by
  unfold pyLines
  rw [List.splitOnP_append_cons_of_forall_mem (by
    intro x hx
    simp only [decide_eq_false_iff_not]
    rintro rfl
    exact h hx) _ (by simp)]
  have hne : b.splitOnP (fun c => decide (c = '\n')) ≠ [] := List.splitOnP_ne_nil _ _
  dsimp only
  obtain ⟨x, xs, e⟩ := List.exists_cons_of_ne_nil hne
  rw [e, List.getLast?_cons_cons, List.dropLast_cons₂]
  split <;> rfl

theorem pyLines_nil : pyLines [] = [] := rfl

theorem pyLines_unlines (ls : List Text) (h : ∀ l ∈ ls, '\n' ∉ l) (b : Text) :
    pyLines (unlines ls ++ b) = ls ++ pyLines b := by
  induction ls with
  | nil => rfl
  | cons l ls ih =>
    have e : unlines (l :: ls) ++ b = l ++ '\n' :: (unlines ls ++ b) := by
      simp [unlines]
    rw [e, pyLines_cons (h l (List.mem_cons_self ..)), ih fun x hx => h x (List.mem_cons_of_mem _ hx), List.cons_append]

/-! ## What the lines of a text show -/

/-- The values found by the six patterns. -/
structure Found where
  q : List ℕ
  w : List ℕ
  g : List ℕ
  t : List ℚ
  r : List ℚ
  c : List ℚ

/-- Nothing. -/
def Found.nil : Found := ⟨[], [], [], [], [], []⟩

/-- One after the other. -/
def Found.add (a b : Found) : Found := ⟨a.q ++ b.q, a.w ++ b.w, a.g ++ b.g, a.t ++ b.t, a.r ++ b.r, a.c ++ b.c⟩

instance : Append Found := ⟨Found.add⟩

theorem Found.nil_append (a : Found) : Found.nil ++ a = a := rfl

theorem Found.append_nil (a : Found) : a ++ Found.nil = a := by
  show Found.add _ _ = _
  simp [Found.add, Found.nil]

theorem Found.append_def (a b : Found) : a ++ b = Found.add a b := rfl

def patQ : Text → Option ℕ := numAt "Found ".toList (" ".toList ++ "qts".toList ++ " after reducing to equivalence".toList)
def patW : Text → Option ℕ := numAt "Found ".toList (" ".toList ++ "wts".toList ++ " after reducing to equivalence".toList)
def patG : Text → Option ℕ := numAt "Generated ".toList " total pairs".toList
def patT : Text → Option ℚ := secsAt ": ".toList " seconds".toList
def patR : Text → Option ℚ := floatAt "Reducing to equivalence took ".toList " seconds".toList
def patC : Text → Option ℚ := floatAt "Converting to matrices up to Hadamard equivalence took ".toList " seconds".toList

/-- The values found in lines. -/
def found (ls : List Text) : Found :=
  ⟨ls.filterMap (search patQ), ls.filterMap (search patW), ls.filterMap (search patG), ls.filterMap (search patT),
    ls.filterMap (search patR), ls.filterMap (search patC)⟩

/-- A text of complete lines in which the patterns find the given values. -/
def Shows (t : Text) (L : Found) : Prop := ∃ ls, t = unlines ls ∧ (∀ l ∈ ls, '\n' ∉ l) ∧ found ls = L

theorem found_append (a b : List Text) : found (a ++ b) = found a ++ found b := by
  rw [Found.append_def]
  simp [found, Found.add, List.filterMap_append]

theorem Shows.nil : Shows [] .nil := ⟨[], rfl, by simp, rfl⟩

theorem Shows.append {a b : Text} {L M : Found} (h : Shows a L) (k : Shows b M) : Shows (a ++ b) (L ++ M) := by
  obtain ⟨la, rfl, h1, rfl⟩ := h
  obtain ⟨lb, rfl, h2, rfl⟩ := k
  refine ⟨la ++ lb, by simp [unlines], fun l hl => ?_, found_append _ _⟩
  rcases List.mem_append.1 hl with hl | hl
  · exact h1 l hl
  · exact h2 l hl

theorem Shows.append_quiet {a b : Text} {L : Found} (h : Shows a L) (k : Shows b .nil) : Shows (a ++ b) L := by
  have := h.append k
  rwa [Found.append_nil] at this

theorem Shows.quiet_append {a b : Text} {L : Found} (h : Shows a .nil) (k : Shows b L) : Shows (a ++ b) L := h.append k

/-- The table row of a log. -/
theorem Shows.scan {t : Text} {L : Found} (h : Shows t L) :
    scan patQ t = L.q ∧ scan patW t = L.w ∧ scan patG t = L.g ∧ scan patT t = L.t ∧ scan patR t = L.r ∧ scan patC t = L.c := by
  obtain ⟨ls, rfl, h1, rfl⟩ := h
  have e : pyLines (unlines ls) = ls := by
    have := pyLines_unlines ls h1 []
    rwa [List.append_nil, pyLines_nil, List.append_nil] at this
  unfold Model.scan
  rw [e]
  exact ⟨rfl, rfl, rfl, rfl, rfl, rfl⟩

theorem Shows.scan_append {t u : Text} {L : Found} (h : Shows t L) {α : Type} (m : Text → Option α) :
    Model.scan m (t ++ u) = Model.scan m t ++ Model.scan m u := by
  obtain ⟨ls, rfl, h1, rfl⟩ := h
  have e : pyLines (unlines ls) = ls := by
    have := pyLines_unlines ls h1 []
    rwa [List.append_nil, pyLines_nil, List.append_nil] at this
  unfold Model.scan
  rw [pyLines_unlines ls h1 u, e, List.filterMap_append]

/-! ## Lines without matches -/

theorem search_some {α : Type} {m : Text → Option α} {t : Text} {a : α} (h : search m t = some a) :
    ∃ u, u <:+ t ∧ m u = some a := by
  induction t with
  | nil => exact ⟨[], List.suffix_refl _, h⟩
  | cons c t ih =>
    unfold search at h
    split at h
    · rename_i b e
      cases h
      exact ⟨c :: t, List.suffix_refl _, e⟩
    · obtain ⟨u, h1, h2⟩ := ih h
      exact ⟨u, h1.trans (List.suffix_cons ..), h2⟩

theorem literal_some {p t r : Text} (h : literal p t = some r) : t = p ++ r := by
  unfold literal at h
  split at h
  · rename_i hp
    cases h
    obtain ⟨u, rfl⟩ := List.isPrefixOf_iff_prefix.1 hp
    simp
  · cases h

theorem digits_some {t : Text} {d : Text × Text} (h : digits t = some d) : t = d.1 ++ d.2 := by
  unfold digits at h
  split at h
  · cases h
  · cases h
    simp

theorem numAt_infix {p q t : Text} {k : ℕ} (h : numAt p q t = some k) : p <:+: t ∧ q <:+: t := by
  unfold numAt at h
  obtain ⟨r, h1, h⟩ := Option.bind_eq_some_iff.1 h
  obtain ⟨d, h2, h⟩ := Option.bind_eq_some_iff.1 h
  obtain ⟨u, h3, _⟩ := Option.map_eq_some_iff.1 h
  rw [literal_some h1, digits_some h2, literal_some h3]
  exact ⟨⟨[], _, by simp; rfl⟩, ⟨p ++ d.1, u, by simp⟩⟩

theorem secsAt_infix {p q t : Text} {k : ℚ} (h : secsAt p q t = some k) : p <:+: t ∧ q <:+: t := by
  unfold secsAt at h
  obtain ⟨r, h1, h⟩ := Option.bind_eq_some_iff.1 h
  obtain ⟨d, h2, h⟩ := Option.bind_eq_some_iff.1 h
  split at h
  · rename_i a b r' e
    split at h
    · obtain ⟨u, h3, _⟩ := Option.map_eq_some_iff.1 h
      rw [literal_some h1, digits_some h2, e, literal_some h3]
      exact ⟨⟨[], _, by simp; rfl⟩, ⟨p ++ d.1 ++ ['.', a, b], u, by simp⟩⟩
    · cases h
  · cases h

theorem floatAt_infix {p q t : Text} {k : ℚ} (h : floatAt p q t = some k) : p <:+: t ∧ q <:+: t := by
  unfold floatAt at h
  obtain ⟨r, h1, h⟩ := Option.bind_eq_some_iff.1 h
  obtain ⟨d, h2, h⟩ := Option.bind_eq_some_iff.1 h
  rw [literal_some h1, digits_some h2]
  split at h
  · rename_i f e
    obtain ⟨v, h4, h5⟩ := Option.bind_eq_some_iff.1 e
    obtain ⟨u, h3, _⟩ := Option.map_eq_some_iff.1 h
    rw [literal_some h4, digits_some h5, literal_some h3]
    exact ⟨⟨[], _, by simp; rfl⟩, ⟨p ++ d.1 ++ ".".toList ++ f.1, u, by simp⟩⟩
  · obtain ⟨u, h3, _⟩ := Option.map_eq_some_iff.1 h
    rw [literal_some h3]
    exact ⟨⟨[], _, by simp; rfl⟩, ⟨p ++ d.1, u, by simp⟩⟩

theorem search_infix {α : Type} {m : Text → Option α} {p q : Text} (hm : ∀ t a, m t = some a → p <:+: t ∧ q <:+: t) {t : Text}
    (h : ¬ (p <:+: t ∧ q <:+: t)) : search m t = none := by
  cases e : search m t with
  | none => rfl
  | some a =>
    obtain ⟨u, h1, h2⟩ := search_some e
    obtain ⟨h3, h4⟩ := hm u a h2
    exact absurd ⟨h3.trans h1.isInfix, h4.trans h1.isInfix⟩ h

/-! ## Lines with numbers in them -/

/-- The characters of numbers and of the names of the four sequences. -/
def isHole (c : Char) : Bool := c ∈ ['0', '1', '2', '3', '4', '5', '6', '7', '8', '9', '.', '-', 'W', 'X', 'Y', 'Z']

/-- Part of a line: fixed text, or a text of such characters. -/
inductive Piece
  | lit (t : Text)
  | hole (t : Text)

/-- The text. -/
def Piece.text : Piece → Text
  | lit t => t
  | hole t => t

/-- The texts that are not fixed. -/
def Piece.Ok : Piece → Prop
  | lit _ => True
  | hole t => t ≠ [] ∧ ∀ c ∈ t, isHole c = true

/-- The line. -/
def render (ps : List Piece) : Text := ps.flatMap Piece.text

/-- The fixed parts. -/
def segs : Text → List Piece → List Text
  | acc, [] => [acc]
  | acc, .lit t :: r => segs (acc ++ t) r
  | acc, .hole _ :: r => acc :: segs [] r

/-- Does a word occur? -/
def occurs (w t : Text) : Bool := t.tails.any fun u => w.isPrefixOf u

theorem occurs_of_infix {w t : Text} (h : w <:+: t) : occurs w t = true := by
  obtain ⟨a, b, rfl⟩ := h
  unfold occurs
  rw [List.any_eq_true]
  exact ⟨w ++ b, by rw [List.mem_tails, List.append_assoc]; exact List.suffix_append .., List.isPrefixOf_iff_prefix.2 (List.prefix_append ..)⟩

theorem infix_split {w a b : Text} {c : Char} (hc : c ∉ w) (h : w <:+: a ++ c :: b) : w <:+: a ∨ w <:+: b := by
  obtain ⟨x, y, e⟩ := h
  rw [List.append_assoc] at e
  rcases List.append_eq_append_iff.1 e with ⟨u, h1, h2⟩ | ⟨u, h1, h2⟩
  · -- a = x ++ u, w ++ y = u ++ c :: b
    rcases List.append_eq_append_iff.1 h2 with ⟨v, h3, h4⟩ | ⟨v, h3, h4⟩
    · left
      rw [h1, h3]
      exact ⟨x, v, by simp⟩
    · cases v with
      | nil =>
        left
        rw [List.append_nil] at h3
        rw [h1, ← h3]
        exact ⟨x, [], by simp⟩
      | cons d v =>
        rw [List.cons_append] at h4
        cases h4
        exact absurd (by rw [h3]; simp) hc
  · cases u with
    | nil =>
      rw [List.nil_append] at h2
      cases w with
      | nil => exact .inl ⟨[], a, rfl⟩
      | cons d w =>
        rw [List.cons_append] at h2
        cases h2
        exact absurd (List.mem_cons_self ..) hc
    | cons d u =>
      rw [List.cons_append] at h2
      cases h2
      right
      exact ⟨u, y, by simp⟩

theorem infix_hole {w y : Text} (hw : ∀ c ∈ w, isHole c = false) (hy : ∀ c ∈ y, isHole c = true) (hne : y ≠ []) :
    ∀ {a b : Text}, w <:+: a ++ (y ++ b) → w <:+: a ∨ w <:+: b := by
  induction y with
  | nil => exact absurd rfl hne
  | cons c y ih =>
    intro a b h
    have hc : c ∉ w := fun hm => by
      have h1 := hw c hm
      rw [hy c (List.mem_cons_self ..)] at h1
      cases h1
    rcases infix_split hc h with h | h
    · exact .inl h
    · by_cases hy' : y = []
      · subst hy'
        exact .inr h
      · rcases ih (fun c hc => hy c (List.mem_cons_of_mem _ hc)) hy' (a := []) h with h | h
        · have : w = [] := List.infix_nil.1 h
          exact .inl (by rw [this]; exact List.nil_infix)
        · exact .inr h

theorem infix_render {w : Text} (hw : ∀ c ∈ w, isHole c = false) (ps : List Piece) : ∀ (acc : Text), (∀ p ∈ ps, p.Ok) →
    w <:+: acc ++ render ps → ∃ t ∈ segs acc ps, w <:+: t := by
  induction ps with
  | nil =>
    intro acc _ h
    rw [show render [] = [] from rfl, List.append_nil] at h
    exact ⟨acc, List.mem_singleton.2 rfl, h⟩
  | cons p ps ih =>
    intro acc hok h
    have hok' : ∀ p ∈ ps, p.Ok := fun q hq => hok q (List.mem_cons_of_mem _ hq)
    cases p with
    | lit t =>
      rw [show render (.lit t :: ps) = t ++ render ps from rfl, ← List.append_assoc] at h
      exact ih _ hok' h
    | hole t =>
      obtain ⟨h1, h2⟩ : (Piece.hole t).Ok := hok _ (List.mem_cons_self ..)
      rw [show render (.hole t :: ps) = t ++ render ps from rfl] at h
      rcases infix_hole hw h2 h1 h with h | h
      · exact ⟨acc, List.mem_cons_self .., h⟩
      · obtain ⟨u, hu, hwu⟩ := ih [] hok' h
        exact ⟨u, List.mem_cons_of_mem _ hu, hwu⟩

/-- No match for a pattern with these two words. -/
def misses (ss : List Text) (p q : Text) : Bool := (ss.all fun t => !occurs p t) || (ss.all fun t => !occurs q t)

theorem search_misses {α : Type} {m : Text → Option α} {p q : Text} (hm : ∀ t a, m t = some a → p <:+: t ∧ q <:+: t)
    (hp : ∀ c ∈ p, isHole c = false) (hq : ∀ c ∈ q, isHole c = false) {ps : List Piece} (hok : ∀ p ∈ ps, p.Ok)
    (h : misses (segs [] ps) p q = true) : search m (render ps) = none := by
  refine search_infix hm fun ⟨h1, h2⟩ => ?_
  obtain ⟨t1, k1, k2⟩ := infix_render hp ps [] hok h1
  obtain ⟨t2, k3, k4⟩ := infix_render hq ps [] hok h2
  unfold misses at h
  rw [Bool.or_eq_true, List.all_eq_true, List.all_eq_true] at h
  rcases h with h | h
  · have := h t1 k1
    rw [occurs_of_infix k2] at this
    cases this
  · have := h t2 k3
    rw [occurs_of_infix k4] at this
    cases this

def missQ (ss : List Text) : Bool := misses ss "Found ".toList " qts after reducing to equivalence".toList
def missW (ss : List Text) : Bool := misses ss "Found ".toList " wts after reducing to equivalence".toList
def missG (ss : List Text) : Bool := misses ss "Generated ".toList " total pairs".toList
def missT (ss : List Text) : Bool := misses ss ": ".toList " seconds".toList
def missR (ss : List Text) : Bool := misses ss "Reducing to equivalence took ".toList " seconds".toList
def missC (ss : List Text) : Bool := misses ss "Converting to matrices up to Hadamard equivalence took ".toList " seconds".toList

/-- No newline in the fixed parts. -/
def oneLine (ss : List Text) : Bool := ss.all fun t => !decide ('\n' ∈ t)

theorem oneLine_render {ps : List Piece} (hok : ∀ p ∈ ps, p.Ok) (h : oneLine (segs [] ps) = true) : '\n' ∉ render ps := by
  intro hm
  obtain ⟨t, h1, h2⟩ := infix_render (w := ['\n']) (by decide) ps [] hok ((List.singleton_infix_iff _ _).2 hm)
  have := (List.all_eq_true.1 h) t h1
  simp only [Bool.not_eq_true', decide_eq_false_iff_not] at this
  exact this ((List.singleton_infix_iff _ _).1 h2)

/-- A line without matches. -/
theorem quiet_line (ps : List Piece) (hok : ∀ p ∈ ps, p.Ok)
    (h : (oneLine (segs [] ps) && missQ (segs [] ps) && missW (segs [] ps) && missG (segs [] ps) && missT (segs [] ps) &&
      missR (segs [] ps) && missC (segs [] ps)) = true) : Shows (render ps ++ ['\n']) .nil := by
  simp only [Bool.and_eq_true] at h
  obtain ⟨⟨⟨⟨⟨⟨h0, h1⟩, h2⟩, h3⟩, h4⟩, h5⟩, h6⟩ := h
  refine ⟨[render ps], by simp [unlines], fun l hl => ?_, ?_⟩
  · rw [List.mem_singleton.1 hl]
    exact oneLine_render hok h0
  · have e1 : search patQ (render ps) = none := search_misses (fun t a => numAt_infix) (by decide) (by decide) hok h1
    have e2 : search patW (render ps) = none := search_misses (fun t a => numAt_infix) (by decide) (by decide) hok h2
    have e3 : search patG (render ps) = none := search_misses (fun t a => numAt_infix) (by decide) (by decide) hok h3
    have e4 : search patT (render ps) = none := search_misses (fun t a => secsAt_infix) (by decide) (by decide) hok h4
    have e5 : search patR (render ps) = none := search_misses (fun t a => floatAt_infix) (by decide) (by decide) hok h5
    have e6 : search patC (render ps) = none := search_misses (fun t a => floatAt_infix) (by decide) (by decide) hok h6
    simp [found, Found.nil, e1, e2, e3, e4, e5, e6]

/-! ## Numbers -/

theorem isDigit_of {c : Char} (h : Txt.IsDigit c) : c.isDigit = true := by
  unfold Char.isDigit
  rw [Bool.and_eq_true, decide_eq_true_eq, decide_eq_true_eq]
  obtain ⟨h1, h2⟩ := h
  exact ⟨by rw [ge_iff_le, UInt32.le_iff_toNat_le]; exact h1, by rw [UInt32.le_iff_toNat_le]; exact h2⟩

theorem digitChar_digit {d : ℕ} (h : d < 10) : (digitChar d).isDigit = true := isDigit_of (Txt.digitChar_isDigit h)

theorem isHole_of_digit {c : Char} (h : Txt.IsDigit c) : isHole c = true := by
  obtain ⟨h1, h2⟩ := h
  have : c = Char.ofNat c.toNat := (Char.ofNat_toNat c).symm
  rw [this]
  interval_cases c.toNat <;> decide

/-- A text for a hole. -/
def IsHoleText (t : Text) : Prop := t ≠ [] ∧ ∀ c ∈ t, isHole c = true

theorem hole_nat (k : ℕ) : IsHoleText (natText k) := ⟨Txt.natText_ne k, fun c hc => isHole_of_digit (Txt.natText_digits k c hc)⟩

theorem hole_int (z : ℤ) : IsHoleText (intText z) := by
  refine ⟨Txt.intText_ne z, fun c hc => ?_⟩
  rcases Txt.intText_num z c hc with rfl | h
  · decide
  · exact isHole_of_digit h

theorem hole_secs (h : ℕ) : IsHoleText (secsText h) := by
  refine ⟨by unfold secsText; simp, fun c hc => ?_⟩
  unfold secsText at hc
  simp only [List.mem_append, List.mem_cons, List.not_mem_nil, or_false] at hc
  rcases hc with (hc | rfl) | rfl | rfl
  · exact (hole_nat _).2 c hc
  · decide
  · exact isHole_of_digit (Txt.digitChar_isDigit (Nat.mod_lt _ (by omega)))
  · exact isHole_of_digit (Txt.digitChar_isDigit (Nat.mod_lt _ (by omega)))

theorem hole_gap (l : List (Fin 10)) : IsHoleText (gapText l) := by
  unfold gapText
  split
  · exact ⟨by decide, by decide⟩
  · refine ⟨by simp, fun c hc => ?_⟩
    rcases List.mem_append.1 hc with hc | hc
    · exact (show ∀ c ∈ "0.".toList, isHole c = true by decide) c hc
    · obtain ⟨d, _, rfl⟩ := List.mem_map.1 hc
      exact isHole_of_digit (Txt.digitChar_isDigit d.2)

theorem hole_tag (t : Tag) : IsHoleText [t.toChar] := ⟨by simp, by cases t <;> decide⟩

theorem hole_tags (t u : Tag) : IsHoleText [t.toChar, u.toChar] := ⟨by simp, by cases t <;> cases u <;> decide⟩

theorem parse_foldl (t : Text) : ∀ acc n, t.foldlM parseDigit acc = some n →
    t.foldl (fun acc c => 10 * acc + (c.toNat - 48)) acc = n := by
  induction t with
  | nil =>
    intro acc n h
    simpa using h
  | cons c t ih =>
    intro acc n h
    rw [List.foldlM_cons] at h
    obtain ⟨m, h1, h2⟩ := Option.bind_eq_some_iff.1 h
    unfold parseDigit at h1
    split at h1
    · cases h1
      rw [List.foldl_cons]
      have := ih _ _ h2
      rwa [mul_comm] at this
    · cases h1

theorem intOf_nat (k : ℕ) : intOf (natText k) = k := parse_foldl _ _ _ (Txt.natText_parse k)

theorem intOf_append (a b : Text) : intOf (a ++ b) = b.foldl (fun acc c => 10 * acc + (c.toNat - 48)) (intOf a) := by
  unfold intOf
  rw [List.foldl_append]

theorem intOf_secs (h : ℕ) : intOf (natText (h / 100) ++ [digitChar (h / 10 % 10), digitChar (h % 10)]) = h := by
  rw [intOf_append, intOf_nat]
  simp only [List.foldl_cons, List.foldl_nil, Txt.digitChar_toNat (Nat.mod_lt _ (show 0 < 10 by omega))]
  omega

theorem digits_of {d r : Text} (hd : ∀ c ∈ d, c.isDigit = true) (hne : d ≠ []) (hr : ∀ c, r.head? = some c → c.isDigit = false) :
    digits (d ++ r) = some (d, r) := by
  have h1 : (d ++ r).takeWhile Char.isDigit = d := by
    rw [List.takeWhile_append_of_pos hd]
    cases r with
    | nil => simp
    | cons c r => rw [List.takeWhile_cons_of_neg (by rw [hr c rfl]; simp), List.append_nil]
  have h2 : (d ++ r).dropWhile Char.isDigit = r := by
    rw [List.dropWhile_append_of_pos hd]
    cases r with
    | nil => rfl
    | cons c r => rw [List.dropWhile_cons_of_neg (by rw [hr c rfl]; simp)]
  unfold digits
  rw [h1, h2, if_neg hne]

theorem digits_nat (k : ℕ) {r : Text} (hr : ∀ c, r.head? = some c → c.isDigit = false) :
    digits (natText k ++ r) = some (natText k, r) :=
  digits_of (fun c hc => isDigit_of (Txt.natText_digits k c hc)) (Txt.natText_ne k) hr

theorem literal_append (p r : Text) : literal p (p ++ r) = some r := by
  unfold literal
  rw [if_pos (List.isPrefixOf_iff_prefix.2 (List.prefix_append ..)), List.drop_left]

theorem numAt_nat (p q : Text) (k : ℕ) (r : Text) (hq : ∀ c, q.head? = some c → c.isDigit = false) (hne : q ≠ []) :
    numAt p q (p ++ (natText k ++ (q ++ r))) = some k := by
  unfold numAt
  rw [literal_append, Option.bind_some, digits_nat k (by
    intro c hc
    cases q with
    | nil => exact absurd rfl hne
    | cons a q => exact hq c hc), Option.bind_some]
  dsimp only
  rw [literal_append, Option.map_some, intOf_nat]

theorem secsAt_secs (p q : Text) (h : ℕ) (r : Text) : secsAt p q (p ++ (secsText h ++ (q ++ r))) = some ((h : ℚ) / 100) := by
  unfold secsAt secsText
  rw [literal_append, Option.bind_some, List.append_assoc, List.append_assoc, digits_nat _ (by
    intro c hc
    cases hc
    decide), Option.bind_some]
  dsimp only
  rw [show ['.'] ++ ([digitChar (h / 10 % 10), digitChar (h % 10)] ++ (q ++ r)) =
    '.' :: digitChar (h / 10 % 10) :: digitChar (h % 10) :: (q ++ r) from rfl]
  show (if ((digitChar (h / 10 % 10)).isDigit && (digitChar (h % 10)).isDigit) = true then
    Option.map (fun _ => (intOf (natText (h / 100) ++ [digitChar (h / 10 % 10), digitChar (h % 10)]) : ℚ) / 100) (literal q (q ++ r))
    else none) = _
  rw [digitChar_digit (Nat.mod_lt _ (by omega)), digitChar_digit (Nat.mod_lt _ (by omega)), Bool.and_self, if_pos rfl, literal_append,
    Option.map_some, intOf_secs]

theorem floatAt_secs (p q : Text) (h : ℕ) (r : Text) (hq : ∀ c, q.head? = some c → c.isDigit = false) (hne : q ≠ []) :
    floatAt p q (p ++ (secsText h ++ (q ++ r))) = some ((h : ℚ) / 100) := by
  unfold floatAt secsText
  rw [literal_append, Option.bind_some, List.append_assoc, List.append_assoc, digits_nat _ (by
    intro c hc
    cases hc
    decide), Option.bind_some]
  dsimp only
  rw [show ['.'] = ".".toList from rfl, literal_append, Option.bind_some, digits_of (d := [digitChar (h / 10 % 10), digitChar (h % 10)]) (by
    intro c hc
    simp only [List.mem_cons, List.not_mem_nil, or_false] at hc
    rcases hc with rfl | rfl
    · exact digitChar_digit (Nat.mod_lt _ (by omega))
    · exact digitChar_digit (Nat.mod_lt _ (by omega))) (by simp) (by
    intro c hc
    cases q with
    | nil => exact absurd rfl hne
    | cons a q => exact hq c hc)]
  dsimp only
  rw [literal_append, Option.map_some, intOf_secs]
  norm_num

theorem search_here {α : Type} {m : Text → Option α} {t : Text} {a : α} (h : m t = some a) : search m t = some a := by
  cases t with
  | nil => exact h
  | cons c t =>
    unfold search
    rw [h]

theorem secsAt_skip (p q : Text) (c : Char) (u : Text) : ∀ v : Text, c ∉ v →
    search (secsAt (c :: p) q) (v ++ u) = search (secsAt (c :: p) q) u := by
  intro v
  induction v with
  | nil => intro _; rfl
  | cons d v ih =>
    intro hc
    rw [List.cons_append]
    rw [search]
    have : secsAt (c :: p) q (d :: (v ++ u)) = none := by
      unfold secsAt literal
      rw [if_neg]
      · rfl
      · rw [List.isPrefixOf_cons_cons]
        simp only [Bool.and_eq_true, beq_iff_eq, not_and]
        rintro rfl
        exact absurd (List.mem_cons_self ..) hc
    rw [this]
    exact ih fun h => hc (List.mem_cons_of_mem _ h)

/-! ## Templates -/

/-- A line with holes. -/
def pieces : List (Option Text) → List Text → List Piece
  | [], _ => []
  | some t :: r, hs => .lit t :: pieces r hs
  | none :: r, [] => .lit [] :: pieces r []
  | none :: r, h :: hs => .hole h :: pieces r hs

/-- The line. -/
def fill (sh : List (Option Text)) (hs : List Text) : Text := render (pieces sh hs)

/-- Its fixed parts. -/
def parts : Text → List (Option Text) → List Text
  | acc, [] => [acc]
  | acc, some t :: r => parts (acc ++ t) r
  | acc, none :: r => acc :: parts [] r

theorem segs_pieces (sh : List (Option Text)) : ∀ acc hs, sh.count none = hs.length → segs acc (pieces sh hs) = parts acc sh := by
  induction sh with
  | nil => intros; rfl
  | cons a sh ih =>
    intro acc hs h
    cases a with
    | some t =>
      rw [List.count_cons_of_ne (by simp)] at h
      exact ih _ _ h
    | none =>
      rw [List.count_cons_self] at h
      cases hs with
      | nil => cases h
      | cons x hs =>
        simp only [pieces, segs, parts]
        rw [ih _ _ (by simpa using h)]

theorem ok_pieces (sh : List (Option Text)) : ∀ hs, (∀ h ∈ hs, IsHoleText h) → ∀ p ∈ pieces sh hs, p.Ok := by
  induction sh with
  | nil => intro hs _ p hp; cases hp
  | cons a sh ih =>
    intro hs h p hp
    cases a with
    | some t =>
      rcases List.mem_cons.1 hp with rfl | hp
      · trivial
      · exact ih hs h p hp
    | none =>
      cases hs with
      | nil =>
        rcases List.mem_cons.1 hp with rfl | hp
        · trivial
        · exact ih [] (by simp) p hp
      | cons x hs =>
        rcases List.mem_cons.1 hp with rfl | hp
        · exact h x (List.mem_cons_self ..)
        · exact ih hs (fun y hy => h y (List.mem_cons_of_mem _ hy)) p hp

/-- No match in a line of this form. -/
def quiet (sh : List (Option Text)) : Bool :=
  let ss := parts [] sh
  oneLine ss && missQ ss && missW ss && missG ss && missT ss && missR ss && missC ss

theorem quiet_fill (sh : List (Option Text)) (hs : List Text) (hc : sh.count none = hs.length) (h : ∀ t ∈ hs, IsHoleText t)
    (hq : quiet sh = true) {t : Text} (ht : t = fill sh hs) : Shows (t ++ ['\n']) .nil := by
  rw [ht]
  refine quiet_line _ (ok_pieces sh hs h) ?_
  rw [segs_pieces sh [] hs hc]
  exact hq


/-! ## The lines with matches -/

/-- What one line shows. -/
theorem shows_line {t : Text} (h : '\n' ∉ t) : Shows (t ++ ['\n']) (found [t]) := ⟨[t], by simp [unlines], by simpa using h, rfl⟩

theorem shows_empty : Shows ['\n'] .nil := by
  have := quiet_fill [some []] [] rfl (by simp) (by decide) (t := []) rfl
  simpa using this

theorem miss_fill {sh : List (Option Text)} {hs : List Text} (hc : sh.count none = hs.length) (h : ∀ t ∈ hs, IsHoleText t) {α : Type}
    {m : Text → Option α} {p q : Text} (hm : ∀ t a, m t = some a → p <:+: t ∧ q <:+: t)
    (hp : ∀ c ∈ p, isHole c = false) (hq : ∀ c ∈ q, isHole c = false)
    (hmiss : misses (parts [] sh) p q = true) : search m (fill sh hs) = none :=
  search_misses hm hp hq (ok_pieces sh hs h) (by rw [segs_pieces sh [] hs hc]; exact hmiss)

theorem line_fill {sh : List (Option Text)} {hs : List Text} (hc : sh.count none = hs.length) (h : ∀ t ∈ hs, IsHoleText t)
    (hl : oneLine (parts [] sh) = true) : '\n' ∉ fill sh hs :=
  oneLine_render (ok_pieces sh hs h) (by rw [segs_pieces sh [] hs hc]; exact hl)

/-- The lines of one form: the patterns that may match are given. -/
theorem shows_fill {sh : List (Option Text)} {hs : List Text} (hc : sh.count none = hs.length) (h : ∀ t ∈ hs, IsHoleText t)
    (hl : oneLine (parts [] sh) = true) {L : Found}
    (hq : missQ (parts [] sh) = true ∧ L.q = [] ∨ ∃ k, search patQ (fill sh hs) = some k ∧ L.q = [k])
    (hw : missW (parts [] sh) = true ∧ L.w = [] ∨ ∃ k, search patW (fill sh hs) = some k ∧ L.w = [k])
    (hg : missG (parts [] sh) = true ∧ L.g = [] ∨ ∃ k, search patG (fill sh hs) = some k ∧ L.g = [k])
    (ht : missT (parts [] sh) = true ∧ L.t = [] ∨ ∃ k, search patT (fill sh hs) = some k ∧ L.t = [k])
    (hr : missR (parts [] sh) = true ∧ L.r = [] ∨ ∃ k, search patR (fill sh hs) = some k ∧ L.r = [k])
    (hcc : missC (parts [] sh) = true ∧ L.c = [] ∨ ∃ k, search patC (fill sh hs) = some k ∧ L.c = [k])
    {t : Text} (e : t = fill sh hs) : Shows (t ++ ['\n']) L := by
  subst e
  have hk := shows_line (line_fill hc h hl)
  have : found [fill sh hs] = L := by
    have key : ∀ {α : Type} {m : Text → Option α} {l : List α},
        search m (fill sh hs) = none ∧ l = [] ∨ (∃ k, search m (fill sh hs) = some k ∧ l = [k]) → [fill sh hs].filterMap (search m) = l := by
      intro α m l h
      rcases h with ⟨h1, rfl⟩ | ⟨k, h1, rfl⟩ <;> simp [h1]
    cases L
    unfold found
    congr 1
    · exact key (hq.imp (fun ⟨a, b⟩ => ⟨miss_fill hc h (fun t a => numAt_infix) (by decide) (by decide) a, b⟩) id)
    · exact key (hw.imp (fun ⟨a, b⟩ => ⟨miss_fill hc h (fun t a => numAt_infix) (by decide) (by decide) a, b⟩) id)
    · exact key (hg.imp (fun ⟨a, b⟩ => ⟨miss_fill hc h (fun t a => numAt_infix) (by decide) (by decide) a, b⟩) id)
    · exact key (ht.imp (fun ⟨a, b⟩ => ⟨miss_fill hc h (fun t a => secsAt_infix) (by decide) (by decide) a, b⟩) id)
    · exact key (hr.imp (fun ⟨a, b⟩ => ⟨miss_fill hc h (fun t a => floatAt_infix) (by decide) (by decide) a, b⟩) id)
    · exact key (hcc.imp (fun ⟨a, b⟩ => ⟨miss_fill hc h (fun t a => floatAt_infix) (by decide) (by decide) a, b⟩) id)
  rwa [this] at hk

theorem fill_one (p q : Text) (x : Text) : fill [some p, none, some q] [x] = p ++ (x ++ q) := by
  simp [fill, pieces, render, Piece.text]

theorem shows_total (k : ℕ) : Shows ("Generated ".toList ++ natText k ++ " total pairs".toList ++ ['\n']) { Found.nil with g := [k] } := by
  refine shows_fill (sh := [some "Generated ".toList, none, some " total pairs".toList]) (hs := [natText k]) rfl
    (by simpa using hole_nat k) (by decide) (.inl ⟨by decide, rfl⟩) (.inl ⟨by decide, rfl⟩) (.inr ⟨k, ?_, rfl⟩) (.inl ⟨by decide, rfl⟩)
    (.inl ⟨by decide, rfl⟩) (.inl ⟨by decide, rfl⟩) (by rw [fill_one, List.append_assoc])
  rw [fill_one]
  have := numAt_nat "Generated ".toList " total pairs".toList k [] (by intro c hc; cases hc; decide) (by decide)
  rw [List.append_nil] at this
  exact search_here this

theorem shows_time {p q : Text} (h : ℕ) (hl : oneLine (parts [] [some (p ++ ": ".toList), none, some (" seconds".toList ++ q)]) = true)
    (hm : (missQ (parts [] [some (p ++ ": ".toList), none, some (" seconds".toList ++ q)]) &&
      missW (parts [] [some (p ++ ": ".toList), none, some (" seconds".toList ++ q)]) &&
      missG (parts [] [some (p ++ ": ".toList), none, some (" seconds".toList ++ q)]) &&
      missR (parts [] [some (p ++ ": ".toList), none, some (" seconds".toList ++ q)]) &&
      missC (parts [] [some (p ++ ": ".toList), none, some (" seconds".toList ++ q)])) = true) (hp : ':' ∉ p) :
    Shows (p ++ ": ".toList ++ secsText h ++ " seconds".toList ++ q ++ ['\n']) { Found.nil with t := [(h : ℚ) / 100] } := by
  simp only [Bool.and_eq_true] at hm
  obtain ⟨⟨⟨⟨h1, h2⟩, h3⟩, h4⟩, h5⟩ := hm
  refine shows_fill (sh := [some (p ++ ": ".toList), none, some (" seconds".toList ++ q)]) (hs := [secsText h]) rfl
    (by simpa using hole_secs h) hl (.inl ⟨h1, rfl⟩) (.inl ⟨h2, rfl⟩) (.inl ⟨h3, rfl⟩) (.inr ⟨(h : ℚ) / 100, ?_, rfl⟩)
    (.inl ⟨h4, rfl⟩) (.inl ⟨h5, rfl⟩) (by rw [fill_one]; simp only [List.append_assoc])
  rw [fill_one, List.append_assoc]
  refine (secsAt_skip [' '] " seconds".toList ':' _ p hp).trans ?_
  exact search_here (secsAt_secs ": ".toList " seconds".toList h q)

theorem shows_reduce (h : ℕ) :
    Shows ("Reducing to equivalence took ".toList ++ secsText h ++ " seconds.".toList ++ ['\n']) { Found.nil with r := [(h : ℚ) / 100] } := by
  refine shows_fill (sh := [some "Reducing to equivalence took ".toList, none, some " seconds.".toList]) (hs := [secsText h]) rfl
    (by simpa using hole_secs h) (by decide) (.inl ⟨by decide, rfl⟩) (.inl ⟨by decide, rfl⟩) (.inl ⟨by decide, rfl⟩) (.inl ⟨by decide, rfl⟩)
    (.inr ⟨(h : ℚ) / 100, ?_, rfl⟩) (.inl ⟨by decide, rfl⟩) (by rw [fill_one, List.append_assoc])
  rw [fill_one]
  exact search_here (floatAt_secs "Reducing to equivalence took ".toList " seconds".toList h ".".toList (by intro c hc; cases hc; decide) (by decide))

theorem shows_convert (h : ℕ) :
    Shows ("Converting to matrices up to Hadamard equivalence took ".toList ++ secsText h ++ " seconds".toList ++ ['\n'])
      { Found.nil with c := [(h : ℚ) / 100] } := by
  refine shows_fill (sh := [some "Converting to matrices up to Hadamard equivalence took ".toList, none, some " seconds".toList])
    (hs := [secsText h]) rfl
    (by simpa using hole_secs h) (by decide) (.inl ⟨by decide, rfl⟩) (.inl ⟨by decide, rfl⟩) (.inl ⟨by decide, rfl⟩) (.inl ⟨by decide, rfl⟩)
    (.inl ⟨by decide, rfl⟩) (.inr ⟨(h : ℚ) / 100, ?_, rfl⟩) (by rw [fill_one, List.append_assoc])
  rw [fill_one]
  have := floatAt_secs "Converting to matrices up to Hadamard equivalence took ".toList " seconds".toList h [] (by intro c hc; cases hc; decide) (by decide)
  rw [List.append_nil] at this
  exact search_here this

theorem shows_count_qts (k : ℕ) :
    Shows ("Found ".toList ++ natText k ++ " qts after reducing to equivalence".toList ++ ['\n']) { Found.nil with q := [k] } := by
  refine shows_fill (sh := [some "Found ".toList, none, some " qts after reducing to equivalence".toList]) (hs := [natText k]) rfl
    (by simpa using hole_nat k) (by decide) (.inr ⟨k, ?_, rfl⟩) (.inl ⟨by decide, rfl⟩) (.inl ⟨by decide, rfl⟩) (.inl ⟨by decide, rfl⟩)
    (.inl ⟨by decide, rfl⟩) (.inl ⟨by decide, rfl⟩) (by rw [fill_one, List.append_assoc])
  rw [fill_one]
  have := numAt_nat "Found ".toList " qts after reducing to equivalence".toList k [] (by intro c hc; cases hc; decide) (by decide)
  rw [List.append_nil] at this
  exact search_here this

theorem shows_count_wts (k : ℕ) :
    Shows ("Found ".toList ++ natText k ++ " wts after reducing to equivalence".toList ++ ['\n']) { Found.nil with w := [k] } := by
  refine shows_fill (sh := [some "Found ".toList, none, some " wts after reducing to equivalence".toList]) (hs := [natText k]) rfl
    (by simpa using hole_nat k) (by decide) (.inl ⟨by decide, rfl⟩) (.inr ⟨k, ?_, rfl⟩) (.inl ⟨by decide, rfl⟩) (.inl ⟨by decide, rfl⟩)
    (.inl ⟨by decide, rfl⟩) (.inl ⟨by decide, rfl⟩) (by rw [fill_one, List.append_assoc])
  rw [fill_one]
  have := numAt_nat "Found ".toList " wts after reducing to equivalence".toList k [] (by intro c hc; cases hc; decide) (by decide)
  rw [List.append_nil] at this
  exact search_here this

theorem shows_count_ws (k : ℕ) :
    Shows ("Found ".toList ++ natText k ++ " ws after reducing to equivalence".toList ++ ['\n']) .nil :=
  quiet_fill [some "Found ".toList, none, some " ws after reducing to equivalence".toList] [natText k] rfl
    (by simpa using hole_nat k) (by decide) (by rw [fill_one, List.append_assoc])

end Proofs.Log
