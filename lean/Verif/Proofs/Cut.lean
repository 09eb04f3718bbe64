import Verif.Model.Ragged
import Verif.Spec.Cut
import Verif.Proofs.Enumerate
import Verif.Proofs.Conversion

/-!
# Proofs: files that end in the middle of a line
-/

set_option linter.unusedSimpArgs false
set_option linter.unusedSectionVars false

namespace Proofs.Cut
open Model Spec Proofs Proofs.Conversion Proofs.Files Proofs.Enumerate

/-! ## Lines -/

theorem prefix_unlines (ls : List Text) (t : Text) (h : t <+: unlines ls) :
    ∃ k rest, k ≤ ls.length ∧ t = unlines (ls.take k) ++ rest ∧
      (rest = [] ∨ ∃ line, ls[k]? = some line ∧ rest <+: line) := by
  induction ls generalizing t with
  | nil =>
    have : t = [] := List.prefix_nil.1 h
    exact ⟨0, [], le_refl _, by simp [this, unlines], .inl rfl⟩
  | cons x xs ih =>
    have e : unlines (x :: xs) = x ++ ('\n' :: unlines xs) := by simp [unlines]
    rw [e] at h
    by_cases hl : t.length ≤ x.length
    · refine ⟨0, t, Nat.zero_le _, by simp [unlines], .inr ⟨x, rfl, ?_⟩⟩
      exact List.prefix_of_prefix_length_le h (List.prefix_append _ _) hl
    · have hx : x <+: t := List.prefix_of_prefix_length_le (List.prefix_append _ _) h (by omega)
      obtain ⟨u, rfl⟩ := hx
      rw [List.prefix_append_right_inj] at h
      cases u with
      | nil => simp at hl
      | cons c u =>
        rw [List.cons_prefix_cons] at h
        obtain ⟨rfl, h⟩ := h
        obtain ⟨k, rest, h1, h2, h3⟩ := ih u h
        refine ⟨k + 1, rest, by simpa using h1, ?_, by simpa using h3⟩
        rw [h2]
        simp [unlines]

theorem linesAux_rest (rest acc : Text) (h : '\n' ∉ rest) :
    linesAux rest acc = if acc.reverse ++ rest = [] then [] else [acc.reverse ++ rest] := by
  induction rest generalizing acc with
  | nil => by_cases ha : acc = [] <;> simp [linesAux, ha]
  | cons c cs ih =>
    rw [Txt.linesAux_cons, if_neg fun e => h (by simp [e]), ih _ fun hm => h (List.mem_cons_of_mem _ hm)]
    simp

theorem readLines_cut (ls : List Text) (rest : Text) (h : ∀ l ∈ ls, '\n' ∉ l ∧ '\r' ∉ l) (hr : '\n' ∉ rest) :
    readLines (unlines ls ++ rest) = ls ++ if rest = [] then [] else [rest] := by
  unfold readLines
  induction ls with
  | nil =>
    have := linesAux_rest rest [] hr
    rw [List.reverse_nil, List.nil_append] at this
    rw [List.nil_append, ← this]
    rfl
  | cons x xs ih =>
    have e : unlines (x :: xs) ++ rest = x ++ '\n' :: (unlines xs ++ rest) := by simp [unlines]
    obtain ⟨h1, h2⟩ := h x (List.mem_cons_self ..)
    rw [e, Txt.linesAux_line _ _ _ h1 h2 (by simp), ih fun l hl => h l (List.mem_cons_of_mem _ hl)]
    simp

/-- The lines of a file that was cut off. -/
theorem lines_prefix (ls : List Text) (t : Text) (hc : ∀ l ∈ ls, '\n' ∉ l ∧ '\r' ∉ l) (h : t <+: unlines ls) :
    ∃ k rest, k ≤ ls.length ∧ t = unlines (ls.take k) ++ rest ∧
      (rest = [] ∨ ∃ line, ls[k]? = some line ∧ rest <+: line) ∧
      readLines t = ls.take k ++ if rest = [] then [] else [rest] := by
  obtain ⟨k, rest, h1, h2, h3⟩ := prefix_unlines ls t h
  refine ⟨k, rest, h1, h2, h3, ?_⟩
  have hr : '\n' ∉ rest := by
    rcases h3 with rfl | ⟨line, e, hp⟩
    · simp
    · exact fun hm => (hc line (List.mem_of_getElem? e)).1 (hp.subset hm)
  rw [h2]
  exact readLines_cut _ _ (fun l hl => hc l (List.mem_of_mem_take hl)) hr

/-! ## Result files -/

theorem mapM_take {α β : Type} {f : α → Option β} {l : List α} {r : List β} (h : l.mapM f = some r) (m : ℕ) :
    (l.take m).mapM f = some (r.take m) := by
  rw [mapM_some_iff] at h ⊢
  exact List.forall₂_take m h

theorem read_take {line : Text} {q : QuadSeq} (h : (QS.fromStr line).bind QuadSeq.fromPqs = some q) (m : ℕ)
    (hm : m ≤ line.length) : (QS.fromStr (line.take m)).bind QuadSeq.fromPqs = some (firstEntries m q) := by
  obtain ⟨qs, h1, h2⟩ := Option.bind_eq_some_iff.1 h
  unfold QS.fromStr at h1 ⊢
  obtain ⟨vs, h3, rfl⟩ := Option.map_eq_some_iff.1 h1
  unfold QuadSeq.fromPqs at h2 ⊢
  obtain ⟨l, h4, rfl⟩ := Option.map_eq_some_iff.1 h2
  rw [mapM_take h3 m, Option.map_some, Option.bind_some]
  dsimp only at h4 ⊢
  rw [mapM_take h4 m, Option.map_some]
  simp only [QuadSeq.setAllValues, QuadSeq.new, firstEntries, List.map_take, List.length_take, Nat.min_eq_left hm]

theorem firstEntries_pm {n m : ℕ} {q : QuadSeq} (hq : PMQuad n q) (hm : m ≤ n) : PMQuad m (firstEntries m q) := by
  have key : ∀ {l}, PMSeq n l → PMSeq m (l.take m) := fun {l} h =>
    ⟨by rw [List.length_take, h.1]; omega, fun x hx => h.2 x (List.mem_of_mem_take hx)⟩
  exact ⟨rfl, key hq.a, key hq.b, key hq.c, key hq.d⟩

theorem firstEntries_all {n : ℕ} {q : QuadSeq} (hq : PMQuad n q) : firstEntries n q = q := by
  cases q with
  | mk size a b c d =>
    simp only [firstEntries, QuadSeq.mk.injEq]
    exact ⟨hq.size.symm, by rw [List.take_of_length_le]; exact hq.a.1.le, by rw [List.take_of_length_le]; exact hq.b.1.le,
      by rw [List.take_of_length_le]; exact hq.c.1.le, by rw [List.take_of_length_le]; exact hq.d.1.le⟩

/-- The lines of a result file that was cut off, and the sequences on them. -/
theorem cut_lines {n : ℕ} [NeZero n] {l : List QuadSeq} (hl : ∀ s ∈ l, PMQuad n s) {t t' : Text}
    (ht : resultText l = some t) (hp : t' <+: t) :
    ∃ k m, k ≤ l.length ∧ m ≤ n ∧ (m ≠ 0 → k < l.length) ∧ t'.length = k * (n + 1) + m ∧
      List.Forall₂ (fun line s => (QS.fromStr line).bind QuadSeq.fromPqs = some s) (readLines t')
        (l.take k ++ if m = 0 then [] else (l[k]?).toList.map (firstEntries m)) := by
  obtain ⟨ls, h1, h2, h3⟩ := resultText_lines hl
  rw [h1] at ht
  cases ht
  have hlen : ∀ x ∈ ls, x.length = n := by
    intro x hx
    obtain ⟨i, hi, rfl⟩ := List.getElem_of_mem hx
    have hi' : i < l.length := by rw [← h3.length_eq]; exact hi
    have := (parse_line (h3.get hi hi').1).2
    simp only [List.get_eq_getElem] at this
    rw [← this]
    exact (hl _ (List.getElem_mem hi')).size
  obtain ⟨k, rest, k1, k2, k3, k4⟩ := lines_prefix ls t' h2 hp
  have hm : rest.length ≤ n ∧ (rest.length ≠ 0 → k < l.length) := by
    rcases k3 with rfl | ⟨line, e, hpre⟩
    · simp
    · rw [← hlen line (List.mem_of_getElem? e)]
      refine ⟨hpre.length_le, fun _ => ?_⟩
      rw [← h3.length_eq]
      exact (List.getElem?_eq_some_iff.1 e).1
  have hk : (unlines (ls.take k)).length = k * (n + 1) := by
    have : ∀ (xs : List Text), (∀ x ∈ xs, x.length = n) → (unlines xs).length = xs.length * (n + 1) := by
      intro xs
      induction xs with
      | nil => intro _; simp [unlines]
      | cons x xs ih =>
        intro h
        have e : unlines (x :: xs) = x ++ ('\n' :: unlines xs) := by simp [unlines]
        rw [e, List.length_append, List.length_cons, ih fun y hy => h y (List.mem_cons_of_mem _ hy),
          h x (List.mem_cons_self ..), List.length_cons]
        ring
    rw [this _ fun x hx => hlen x (List.mem_of_mem_take hx), List.length_take, Nat.min_eq_left k1]
  refine ⟨k, rest.length, by rw [← h3.length_eq]; exact k1, hm.1, hm.2, by rw [k2, List.length_append, hk], ?_⟩
  rw [k4]
  have f1 : List.Forall₂ (fun line s => (QS.fromStr line).bind QuadSeq.fromPqs = some s) (ls.take k) (l.take k) :=
    List.forall₂_take k (h3.imp fun _ _ h => h.1)
  refine List.rel_append f1 ?_
  by_cases hr : rest = []
  · rw [if_pos hr, if_pos (by rw [hr]; rfl)]
    exact .nil
  · have hr' : rest.length ≠ 0 := fun e => hr (List.length_eq_zero_iff.1 e)
    rw [if_neg hr, if_neg hr']
    rcases k3 with e | ⟨line, e, hpre⟩
    · exact absurd e hr
    · have hk' := hm.2 hr'
      have hk'' : k < ls.length := by rw [h3.length_eq]; exact hk'
      rw [List.getElem?_eq_getElem hk']
      have e' : ls[k] = line := (List.getElem?_eq_some_iff.1 e).2
      have := (h3.get hk'' hk').1
      simp only [List.get_eq_getElem, e'] at this
      have := read_take this rest.length hpre.length_le
      rw [← List.prefix_iff_eq_take.1 hpre] at this
      exact .cons this .nil

/-! ## The test of a candidate -/

theorem allM_some {p : ℕ → Option Bool} {g : ℕ → Bool} : ∀ {l : List ℕ}, (∀ t ∈ l, p t = some (g t)) →
    Ragged.allM p l = some (l.all g) := by
  intro l
  induction l with
  | nil => intro _; rfl
  | cons t ts ih =>
    intro h
    rw [Ragged.allM, h t (List.mem_cons_self ..), Option.bind_some, ih fun u hu => h u (List.mem_cons_of_mem _ hu),
      List.all_cons]
    cases g t <;> rfl

theorem allM_true {p : ℕ → Option Bool} : ∀ {l : List ℕ}, Ragged.allM p l = some true → ∀ t ∈ l, p t = some true := by
  intro l
  induction l with
  | nil => intro _ t ht; cases ht
  | cons t ts ih =>
    intro h u hu
    rw [Ragged.allM, Option.bind_eq_some_iff] at h
    obtain ⟨b, h1, h2⟩ := h
    cases b with
    | false => cases h2
    | true =>
      rcases List.mem_cons.1 hu with rfl | hu
      · exact h1
      · exact ih h2 u hu

theorem andM_true {x y : Option Bool} (h : Ragged.andM x y = some true) : x = some true ∧ y = some true := by
  unfold Ragged.andM at h
  obtain ⟨b, h1, h2⟩ := Option.bind_eq_some_iff.1 h
  cases b with
  | false => cases h2
  | true => exact ⟨h1, h2⟩

theorem foldlM_mem {α β : Type} {f : β → α → Option β} : ∀ {l : List α} {b r : β}, l.foldlM f b = some r →
    ∀ i ∈ l, ∃ c d, f c i = some d := by
  intro l
  induction l with
  | nil => intro b r _ i hi; cases hi
  | cons x xs ih =>
    intro b r h i hi
    rw [List.foldlM_cons] at h
    simp only [Option.bind_eq_bind, Option.bind_eq_some_iff] at h
    obtain ⟨c, h1, h2⟩ := h
    rcases List.mem_cons.1 hi with rfl | hi
    · exact ⟨b, c, h1⟩
    · exact ih h2 i hi

theorem crossEq_len {x y : List ℤ} {t : ℕ} {b : Bool} (h : Ragged.crossEq x y t = some b) : x.length = y.length := by
  unfold Ragged.crossEq Ragged.crossCorrelation at h
  obtain ⟨u, h1, _⟩ := Option.bind_eq_some_iff.1 h
  split at h1
  · rename_i e; exact e.1
  · cases h1

theorem crossEq_some {x y : List ℤ} {t : ℕ} (h : x.length = y.length) (ht : t ≤ x.length) :
    Ragged.crossEq x y t = some (decide (Model.crossCorrelation x y t = Model.crossCorrelation y x t)) := by
  unfold Ragged.crossEq Ragged.crossCorrelation
  rw [if_pos ⟨h, ht⟩, if_pos ⟨h.symm, h ▸ ht⟩]
  rfl

theorem values_len {s : QuadSeq} {i : ℕ} {v : ℤ × ℤ × ℤ × ℤ} (h : Ragged.values s i = some v) :
    i < s.b.length ∧ i < s.c.length ∧ i < s.d.length := by
  unfold Ragged.values at h
  split at h
  · rename_i e; exact e.2
  · cases h

variable {n : ℕ} [NeZero n]

theorem values_pm {q : QuadSeq} (hq : PMQuad n q) {i : ℕ} (hi : i < n) : Ragged.values q i = some (q.values i) := by
  unfold Ragged.values
  rw [if_pos]
  rw [hq.a.1, hq.b.1, hq.c.1, hq.d.1]
  exact ⟨hi, hi, hi, hi⟩

theorem foldlM_congr {α β : Type} {f g : β → α → Option β} : ∀ {l : List α} {b : β}, (∀ i ∈ l, ∀ c, f c i = g c i) →
    l.foldlM f b = l.foldlM g b := by
  intro l
  induction l with
  | nil => intro b _; rfl
  | cons x xs ih =>
    intro b h
    rw [List.foldlM_cons, List.foldlM_cons, h x (List.mem_cons_self ..)]
    simp only [Option.bind_eq_bind]
    exact congrArg (Option.bind _) (funext fun c => ih fun i hi => h i (List.mem_cons_of_mem _ hi))

theorem toQs_pm {q : QuadSeq} (hq : PMQuad n q) : Ragged.toQs q = q.toQs := by
  unfold Ragged.toQs QuadSeq.toQs
  refine foldlM_congr fun i hi c => ?_
  rw [List.mem_range, hq.size] at hi
  rw [values_pm hq hi, Option.bind_some]

/-- With four sequences of the same length nothing panics but `to_qs`, as in the model without these panics. -/
theorem condition_agrees {ty : SeqType} {q : QuadSeq} (hq : PMQuad n q) :
    Ragged.joinCondition ty q = joinCondition ty q := by
  have hn := NeZero.ne n
  have hc : Ragged.isPeriodicComplementary q = some q.isPeriodicComplementary := by
    unfold Ragged.isPeriodicComplementary
    rw [if_neg (by rw [hq.size]; exact hn)]
  have la := hq.a.1
  have lb := hq.b.1
  have lc := hq.c.1
  have ld := hq.d.1
  cases ty
  case quaternionType => unfold Ragged.joinCondition joinCondition; rw [toQs_pm hq]
  case williamsonType =>
    have : Ragged.isAmicable q = some q.isAmicable := by
      unfold Ragged.isAmicable QuadSeq.isAmicable
      refine allM_some fun t ht => ?_
      have ht' : t ≤ n := by
        rw [List.mem_range'_1, hq.size] at ht
        omega
      rw [crossEq_some (by rw [la, lb]) (by omega), crossEq_some (by rw [la, lc]) (by omega),
        crossEq_some (by rw [la, ld]) (by omega), crossEq_some (by rw [lb, lc]) (by omega),
        crossEq_some (by rw [lb, ld]) (by omega), crossEq_some (by rw [lc, ld]) (by omega)]
      unfold Ragged.andM
      by_cases c1 : Model.crossCorrelation q.a q.b t = Model.crossCorrelation q.b q.a t <;> simp only [c1, decide_true,
        decide_false, Option.bind_some, if_true, Bool.false_eq_true, if_false, true_and, false_and]
      by_cases c2 : Model.crossCorrelation q.a q.c t = Model.crossCorrelation q.c q.a t <;> simp only [c2, decide_true,
        decide_false, Option.bind_some, if_true, Bool.false_eq_true, if_false, true_and, false_and]
      by_cases c3 : Model.crossCorrelation q.a q.d t = Model.crossCorrelation q.d q.a t <;> simp only [c3, decide_true,
        decide_false, Option.bind_some, if_true, Bool.false_eq_true, if_false, true_and, false_and]
      by_cases c4 : Model.crossCorrelation q.b q.c t = Model.crossCorrelation q.c q.b t <;> simp only [c4, decide_true,
        decide_false, Option.bind_some, if_true, Bool.false_eq_true, if_false, true_and, false_and]
      by_cases c5 : Model.crossCorrelation q.b q.d t = Model.crossCorrelation q.d q.b t <;> simp only [c5, decide_true,
        decide_false, Option.bind_some, if_true, Bool.false_eq_true, if_false, true_and, false_and]
    unfold Ragged.joinCondition joinCondition QuadSeq.verifyWts
    dsimp only
    rw [hc, this]
    unfold Ragged.andM
    cases q.isPeriodicComplementary <;> rfl
  case williamson =>
    have : Ragged.isSymmetric q = some q.isSymmetric := by
      unfold Ragged.isSymmetric QuadSeq.isSymmetric
      refine allM_some fun t ht => ?_
      rw [List.mem_range'_1, hq.size] at ht
      rw [hq.size, values_pm hq (by omega), values_pm hq (by omega)]
      rfl
    unfold Ragged.joinCondition joinCondition QuadSeq.verifyWs
    dsimp only
    rw [hc, this]
    unfold Ragged.andM
    cases q.isPeriodicComplementary <;> rfl
  all_goals rfl

/-- A candidate that is accepted has four sequences of the same length, if the first one is the longest and no sequence is
empty. -/
theorem accepted_len {ty : SeqType} {q : QuadSeq} (hs : q.size = n) (ha : q.a.length = n) (hb : q.b.length ≤ n)
    (hc : q.c.length ≤ n) (hd : q.d.length ≤ n) (hb0 : q.b ≠ []) (hc0 : q.c ≠ []) (hd0 : q.d ≠ [])
    (h : Ragged.joinCondition ty q = some true) : q.b.length = n ∧ q.c.length = n ∧ q.d.length = n := by
  have hn := NeZero.ne n
  have b1 := List.length_pos_iff.2 hb0
  have c1 := List.length_pos_iff.2 hc0
  have d1 := List.length_pos_iff.2 hd0
  by_cases h1 : n = 1
  · omega
  have fin : ∀ {i v}, n ≤ i + 1 → Ragged.values q i = some v → q.b.length = n ∧ q.c.length = n ∧ q.d.length = n := by
    intro i v hi hv
    obtain ⟨x, y, z⟩ := values_len hv
    omega
  cases ty
  case quaternionType =>
    obtain ⟨qs, h, _⟩ := Option.map_eq_some_iff.1 h
    unfold Ragged.toQs at h
    obtain ⟨c, d, e⟩ := foldlM_mem h (n - 1) (by rw [List.mem_range]; omega)
    obtain ⟨v, hv, _⟩ := Option.bind_eq_some_iff.1 e
    exact fin (by omega) hv
  case williamsonType =>
    obtain ⟨_, h⟩ := andM_true h
    unfold Ragged.isAmicable at h
    have := allM_true h 1 (by rw [List.mem_range'_1]; omega)
    obtain ⟨e1, this⟩ := andM_true this
    obtain ⟨e2, this⟩ := andM_true this
    obtain ⟨e3, _⟩ := andM_true this
    have := crossEq_len e1
    have := crossEq_len e2
    have := crossEq_len e3
    omega
  case williamson =>
    obtain ⟨_, h⟩ := andM_true h
    unfold Ragged.isSymmetric at h
    have := allM_true h 1 (by rw [List.mem_range'_1]; omega)
    obtain ⟨u, _, this⟩ := Option.bind_eq_some_iff.1 this
    obtain ⟨v, hv, _⟩ := Option.map_eq_some_iff.1 this
    exact fin (by omega) hv
  all_goals cases h

/-- The sequences read from a file of sequences of length `n` that was cut off. -/
theorem cut_list {t : Text} (h : CutList n t) {l : List (List ℤ)} (hl : fileToSequences t = some l) :
    ∀ x ∈ l, IsPM x ∧ x.length ≤ n ∧ x ≠ [] ∧ (WholeLines t → x.length = n) := by
  obtain ⟨ls, h1, h2⟩ := h
  have hn := NeZero.ne n
  have hc : ∀ l ∈ ls, '\n' ∉ l ∧ '\r' ∉ l := by
    intro l hl
    constructor <;> intro hm <;> rcases (h1 l hl).2 _ hm with e | e <;> revert e <;> decide
  obtain ⟨k, rest, k1, k2, k3, k4⟩ := lines_prefix ls t hc h2
  intro x hx
  obtain ⟨line, hline, e⟩ := mapM_mem hl x hx
  obtain ⟨p1, p2⟩ := stringToSeq_some e
  have hlen : line.length = x.length := by rw [p2]; simp [pmText]
  rw [k4, List.mem_append] at hline
  have hne : x.length ≠ 0 → x ≠ [] := fun h e => h (by simp [e])
  rcases hline with hm | hm
  · have := (h1 line (List.mem_of_mem_take hm)).1
    exact ⟨p1, by omega, hne (by omega), fun _ => by omega⟩
  · split at hm
    · cases hm
    · rename_i hr
      rw [List.mem_singleton] at hm
      subst hm
      rcases k3 with k3 | ⟨l0, e0, hp⟩
      · exact absurd k3 hr
      · have h3 := hp.length_le
        have h4 := (h1 l0 (List.mem_of_getElem? e0)).1
        have h5 := List.length_pos_iff.2 hr
        refine ⟨p1, by omega, hne (by omega), fun hw => ?_⟩
        exfalso
        rcases hw with hw | hw
        · rw [hw] at k2
          have := congrArg List.length k2
          rw [List.length_append] at this
          simp only [List.length_nil] at this
          omega
        · rw [k2, List.getLast?_append_of_ne_nil _ hr] at hw
          have : '\n' ∈ l0 := hp.subset (List.mem_of_getLast? hw)
          exact (hc l0 (List.mem_of_getElem? e0)).1 this

/-- The quadruples accepted in a directory. -/
theorem dir_accepted {ty : SeqType} {d : Dir} {r : List QuadSeq} (h : Ragged.joinDir ty d = some r) :
    ∀ q ∈ r, Ragged.joinCondition ty q = some true ∧ q.size = q.a.length ∧
      ∀ t, ∃ f ∈ d, f.1 = seqFileName t ∧ ∃ l, fileToSequences f.2 = some l ∧ q.sequence t ∈ l := by
  unfold Ragged.joinDir at h
  obtain ⟨tab, htab, h⟩ := Option.bind_eq_some_iff.1 h
  obtain ⟨⟨⟨f12, f34⟩, o⟩, ho, h⟩ := Option.bind_eq_some_iff.1 h
  dsimp only at h
  unfold Ragged.joinPairsFiles at h
  dsimp only at h
  obtain ⟨ms, hms, h⟩ := Option.bind_eq_some_iff.1 h
  obtain ⟨rs, hrs, rfl⟩ := Option.map_eq_some_iff.1 h
  intro q hq
  obtain ⟨l, hl, hq⟩ := List.mem_flatten.1 hq
  obtain ⟨m, hm, hlm⟩ := mapM_mem hrs l hl
  unfold Ragged.testMatch at hlm
  obtain ⟨q', hq', hlm⟩ := Option.bind_eq_some_iff.1 hlm
  obtain ⟨b, hb, rfl⟩ := Option.map_eq_some_iff.1 hlm
  cases b with
  | false => simp at hq
  | true =>
    simp only [if_true, List.mem_singleton] at hq
    subst hq
    obtain ⟨s, rfl, hs⟩ := getSequences_inv hq'
    refine ⟨hb, rfl, fun t => ?_⟩
    obtain ⟨i, hi, hg⟩ := aux_inv (hs t)
    rcases readFold_sound d _ tab htab t with e | ⟨f, hf, e1, e2⟩
    · rw [e] at hg
      cases t <;> simp [Files.get] at hg
    · exact ⟨f, hf, e1, _, e2, by rw [mkQuad_seq]; exact List.mem_of_getElem? hg⟩

theorem join_agrees {ty : SeqType} {d : Dir}
    (hlen : ∀ f ∈ d, ∀ t, f.1 = seqFileName t → ∀ l, fileToSequences f.2 = some l → ∀ x ∈ l, x.length = n) :
    Ragged.joinDir ty d = joinDir ty d := by
  unfold Ragged.joinDir joinDir
  cases htab : getSequencesFromDir d with
  | none => rfl
  | some tab =>
    rw [Option.bind_some, Option.bind_some]
    refine congrArg (Option.bind _) (funext fun o => ?_)
    unfold Ragged.joinPairsFiles joinPairsFiles
    dsimp only
    refine congrArg (Option.bind _) (funext fun ms => ?_)
    have : ∀ m, Ragged.testMatch ty tab o.2 m = testMatch ty tab o.2 m := by
      intro m
      unfold Ragged.testMatch testMatch
      cases hq : getSequences tab o.2 (m.1.1, m.1.2, m.2.1, m.2.2) with
      | none => rfl
      | some q =>
        rw [Option.bind_some, Option.bind_some]
        obtain ⟨s, rfl, hs⟩ := getSequences_inv hq
        rw [condition_agrees (n := n)]
        refine mkQuad_pm fun t => ?_
        obtain ⟨i, hi, hg⟩ := aux_inv (hs t)
        rcases readFold_sound d _ tab htab t with e | ⟨f, hf, e1, e2⟩
        · rw [e] at hg
          cases t <;> simp [Files.get] at hg
        · have hmem := List.mem_of_getElem? hg
          refine ⟨hlen f hf t e1 _ e2 _ hmem, ?_⟩
          obtain ⟨x, _, hx⟩ := mapM_mem e2 _ hmem
          exact (stringToSeq_some hx).1
    rw [funext this]

theorem join_cut {ty : SeqType} (hty : Supported ty) {d : Dir} {r : List QuadSeq}
    (hd : ∀ f ∈ d, ∀ t, f.1 = seqFileName t → CutList n f.2) (hw : ∀ f ∈ d, f.1 = seqFileName .W → WholeLines f.2)
    (h : Ragged.joinDir ty d = some r) : ∀ q ∈ r, OfType n ty q := by
  intro q hq
  obtain ⟨h1, h2, h3⟩ := dir_accepted h q hq
  have key : ∀ t, IsPM (q.sequence t) ∧ (q.sequence t).length ≤ n ∧ q.sequence t ≠ [] := by
    intro t
    obtain ⟨f, hf, e, l, hl, hm⟩ := h3 t
    obtain ⟨a, b, c, _⟩ := cut_list (hd f hf t e) hl _ hm
    exact ⟨a, b, c⟩
  have hwn : q.a.length = n := by
    obtain ⟨f, hf, e, l, hl, hm⟩ := h3 .W
    exact (cut_list (hd f hf .W e) hl _ hm).2.2.2 (hw f hf e)
  obtain ⟨l1, l2, l3⟩ := accepted_len (n := n) (h2.trans hwn) hwn (key .X).2.1 (key .Y).2.1 (key .Z).2.1 (key .X).2.2
    (key .Y).2.2 (key .Z).2.2 h1
  have hpm : PMQuad n q := ⟨h2.trans hwn, ⟨hwn, (key .W).1⟩, ⟨l1, (key .X).1⟩, ⟨l2, (key .Y).1⟩, ⟨l3, (key .Z).1⟩⟩
  rw [condition_agrees hpm] at h1
  obtain ⟨b, hb1, hb2⟩ := condition_pm hty hpm
  rw [h1] at hb1
  cases hb1
  exact hb2.1 rfl

/-- Four sequences of length one are of every type. -/
theorem ofType_one {ty : SeqType} (hty : Supported ty) {q : QuadSeq} (hq : PMQuad 1 q) : OfType 1 ty q := by
  have h0 : ∀ t : ZMod 1, t = 0 := fun t => Subsingleton.elim _ _
  have ham : ∀ x y : ZMod 1 → ℤ, Amicable x y := fun x y t => Finset.sum_congr rfl fun i _ => by
    rw [h0 (i - t), h0 i, mul_comm]
  have hc : Complementary (cyc 1 q.a) (cyc 1 q.b) (cyc 1 q.c) (cyc 1 q.d) := fun t ht => absurd (h0 t) ht
  rcases hty with rfl | rfl | rfl
  · refine ⟨hq, hc, fun t => ?_⟩
    rw [ham _ _ t, ham (cyc 1 q.d) _ t, ham (cyc 1 q.a) (cyc 1 q.c) t, ham (cyc 1 q.b) (cyc 1 q.d) t,
      ham (cyc 1 q.a) (cyc 1 q.d) t, ham (cyc 1 q.c) (cyc 1 q.b) t]
    simp
  · exact ⟨hq, hc, ham _ _, ham _ _, ham _ _, ham _ _, ham _ _, ham _ _⟩
  · have hs : ∀ x : ZMod 1 → ℤ, Symm x := fun x t => by rw [h0 (-t), h0 t]
    exact ⟨hq, hc, hs _, hs _, hs _, hs _⟩

/-- A candidate whose first sequence has length one is accepted, however long the other sequences are. -/
theorem accepted_one {ty : SeqType} (hty : Supported ty) {q : QuadSeq} (hs : q.size = 1) (ha : q.a.length = 1)
    (hp : IsPM q.a ∧ IsPM q.b ∧ IsPM q.c ∧ IsPM q.d) (hb0 : q.b ≠ []) (hc0 : q.c ≠ []) (hd0 : q.d ≠ []) :
    Ragged.joinCondition ty q = some true := by
  have b1 := List.length_pos_iff.2 hb0
  have c1 := List.length_pos_iff.2 hc0
  have d1 := List.length_pos_iff.2 hd0
  rcases hty with rfl | rfl | rfl
  · have hpm : PMQuad 1 (firstEntries 1 q) :=
      ⟨rfl, ⟨by simp [firstEntries, ha], fun x hx => hp.1 x (List.mem_of_mem_take hx)⟩,
        ⟨by simp [firstEntries]; omega, fun x hx => hp.2.1 x (List.mem_of_mem_take hx)⟩,
        ⟨by simp [firstEntries]; omega, fun x hx => hp.2.2.1 x (List.mem_of_mem_take hx)⟩,
        ⟨by simp [firstEntries]; omega, fun x hx => hp.2.2.2 x (List.mem_of_mem_take hx)⟩⟩
    have e : Ragged.toQs q = (firstEntries 1 q).toQs := by
      rw [← toQs_pm hpm]
      unfold Ragged.toQs
      rw [hs]
      refine foldlM_congr fun i hi c => ?_
      rw [List.mem_range] at hi
      obtain rfl : i = 0 := by omega
      have : Ragged.values q 0 = Ragged.values (firstEntries 1 q) 0 := by
        rw [values_pm hpm (by omega)]
        unfold Ragged.values
        rw [if_pos ⟨by omega, b1, c1, d1⟩]
        simp [QuadSeq.values, firstEntries, at0]
      rw [this]
    obtain ⟨b, hb1, hb2⟩ := condition_pm (n := 1) (ty := .quaternionType) (.inl rfl) hpm
    rw [hb2.2 (ofType_one (.inl rfl) hpm)] at hb1
    unfold Ragged.joinCondition
    dsimp only
    rw [e]
    exact hb1
  · unfold Ragged.joinCondition Ragged.isPeriodicComplementary Ragged.isAmicable QuadSeq.isPeriodicComplementary
    simp [hs, Ragged.andM, Ragged.allM]
  · unfold Ragged.joinCondition Ragged.isPeriodicComplementary Ragged.isSymmetric QuadSeq.isPeriodicComplementary
    simp [hs, Ragged.andM, Ragged.allM]

end Proofs.Cut
