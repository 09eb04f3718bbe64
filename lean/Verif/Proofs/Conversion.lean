import Verif.Proofs.HadEquiv
import Verif.Proofs.Text
import Verif.Props.Sequences

/-!
# The conversion commands
-/

set_option linter.unusedVariables false
set_option linter.unusedSectionVars false
set_option linter.unusedSimpArgs false

namespace Proofs.Conversion
open Model Spec Proofs.HadEquiv

/-! ## Lists -/

section Lists
variable {α κ : Type} [DecidableEq κ] (key : α → κ)

theorem uniqueBy_fold (l : List α) : ∀ (ks : List κ) (xs : List α), (∀ k, k ∈ ks ↔ ∃ x ∈ xs, key x = k) →
    xs.Pairwise (fun x y => key x ≠ key y) →
    ∃ s, s.Sublist l ∧ (l.foldl (fun (st : List κ × List α) x =>
        if key x ∈ st.1 then st else (key x :: st.1, st.2 ++ [x])) (ks, xs)).2 = xs ++ s ∧
      (xs ++ s).Pairwise (fun x y => key x ≠ key y) ∧ ∀ x ∈ l, ∃ y ∈ xs ++ s, key y = key x := by
  induction l with
  | nil => intro ks xs h1 h2; exact ⟨[], List.Sublist.refl _, by simp, by simpa using h2, by simp⟩
  | cons a l ih =>
    intro ks xs h1 h2
    rw [List.foldl_cons]
    by_cases ha : key a ∈ ks
    · dsimp only
      rw [if_pos ha]
      obtain ⟨s, k1, k2, k3, k4⟩ := ih ks xs h1 h2
      refine ⟨s, k1.cons _, k2, k3, ?_⟩
      intro x hx
      rcases List.mem_cons.1 hx with rfl | hx
      · obtain ⟨y, hy, e⟩ := (h1 _).1 ha
        exact ⟨y, List.mem_append_left _ hy, e⟩
      · exact k4 x hx
    · dsimp only
      rw [if_neg ha]
      have hne : ∀ x ∈ xs, key x ≠ key a := fun x hx e => ha ((h1 _).2 ⟨x, hx, e⟩)
      obtain ⟨s, k1, k2, k3, k4⟩ := ih (key a :: ks) (xs ++ [a]) (by
        intro k
        simp only [List.mem_cons, List.mem_append, List.not_mem_nil, or_false, h1]
        constructor
        · rintro (rfl | ⟨x, hx, e⟩)
          · exact ⟨a, .inr rfl, rfl⟩
          · exact ⟨x, .inl hx, e⟩
        · rintro ⟨x, hx | rfl, e⟩
          · exact .inr ⟨x, hx, e⟩
          · exact .inl e.symm) (by
        rw [List.pairwise_append]
        refine ⟨h2, by simp, ?_⟩
        intro x hx y hy
        rw [List.mem_singleton.1 hy]
        exact hne x hx)
      refine ⟨a :: s, k1.cons_cons _, by rw [k2]; simp, by simpa using k3, ?_⟩
      intro x hx
      rcases List.mem_cons.1 hx with rfl | hx
      · exact ⟨x, by simp, rfl⟩
      · obtain ⟨y, hy, e⟩ := k4 x hx
        exact ⟨y, by simpa using hy, e⟩

theorem uniqueBy_spec (l : List α) : (uniqueBy key l).Sublist l ∧
    (uniqueBy key l).Pairwise (fun x y => key x ≠ key y) ∧ ∀ x ∈ l, ∃ y ∈ uniqueBy key l, key y = key x := by
  obtain ⟨s, h1, h2, h3, h4⟩ := uniqueBy_fold key l [] [] (by simp) List.Pairwise.nil
  unfold uniqueBy
  rw [h2]
  simp only [List.nil_append] at *
  exact ⟨h1, h3, h4⟩

theorem mapInsert_keys (m : List (κ × α)) (kv : κ × α) (h : (m.map Prod.fst).Nodup) :
    ((mapInsert m kv).map Prod.fst).Nodup ∧ (∀ k, k ∈ (mapInsert m kv).map Prod.fst ↔ k ∈ m.map Prod.fst ∨ k = kv.1) ∧
      (∀ e ∈ mapInsert m kv, e ∈ m ∨ e = kv) := by
  unfold mapInsert
  split
  · rename_i hk
    have e : (m.map fun e => if e.1 = kv.1 then (e.1, kv.2) else e).map Prod.fst = m.map Prod.fst := by
      rw [List.map_map]
      apply List.map_congr_left
      intro x hx
      simp only [Function.comp]
      split <;> rfl
    rw [e]
    refine ⟨h, fun k => ⟨.inl, ?_⟩, ?_⟩
    · rintro (h | rfl)
      · exact h
      · exact hk
    · intro x hx
      obtain ⟨y, hy, rfl⟩ := List.mem_map.1 hx
      split
      · rename_i hh
        right
        rw [hh]
      · exact .inl hy
  · rename_i hk
    refine ⟨?_, ?_, ?_⟩
    · rw [List.map_append, List.nodup_append]
      refine ⟨h, by simp, ?_⟩
      intro a ha b hb
      rw [List.map_singleton, List.mem_singleton] at hb
      rintro rfl
      exact hk (hb ▸ ha)
    · intro k; simp
    · intro x hx; simpa using hx

theorem mapInsert_fold (l : List (κ × α)) : ∀ (m : List (κ × α)), (m.map Prod.fst).Nodup →
    ((l.foldl mapInsert m).map Prod.fst).Nodup ∧ (∀ e ∈ l.foldl mapInsert m, e ∈ m ∨ e ∈ l) ∧
      (∀ k, k ∈ (l.foldl mapInsert m).map Prod.fst ↔ k ∈ m.map Prod.fst ∨ k ∈ l.map Prod.fst) := by
  induction l with
  | nil => intro m h; exact ⟨h, fun e he => .inl he, by simp⟩
  | cons a l ih =>
    intro m h
    obtain ⟨h1, h2, h3⟩ := mapInsert_keys m a h
    obtain ⟨k1, k2, k3⟩ := ih _ h1
    rw [List.foldl_cons]
    refine ⟨k1, ?_, ?_⟩
    · intro e he
      rcases k2 e he with he | he
      · rcases h3 e he with he | rfl
        · exact .inl he
        · exact .inr (by simp)
      · exact .inr (List.mem_cons_of_mem _ he)
    · intro k
      rw [k3, h2, List.map_cons, List.mem_cons]
      tauto

/-- The values kept by a hash map keyed by `key`. -/
theorem mapValues_spec (l : List α) :
    let r := ((l.map fun x => (key x, x)).foldl mapInsert []).map Prod.snd
    (∀ x ∈ r, x ∈ l) ∧ r.Pairwise (fun x y => key x ≠ key y) ∧ ∀ x ∈ l, ∃ y ∈ r, key y = key x := by
  obtain ⟨h1, h2, h3⟩ := mapInsert_fold (l.map fun x => (key x, x)) [] (by simp)
  have hk : ∀ e ∈ (l.map fun x => (key x, x)).foldl mapInsert [], e.1 = key e.2 ∧ e.2 ∈ l := by
    intro e he
    rcases h2 e he with he | he
    · simp at he
    · obtain ⟨x, hx, rfl⟩ := List.mem_map.1 he
      exact ⟨rfl, hx⟩
  refine ⟨?_, ?_, ?_⟩
  · intro x hx
    obtain ⟨e, he, rfl⟩ := List.mem_map.1 hx
    exact (hk e he).2
  · rw [List.pairwise_map]
    have := List.pairwise_map.1 h1
    exact this.imp_of_mem fun {a b} ha hb hab => by rw [← (hk a ha).1, ← (hk b hb).1]; exact hab
  · intro x hx
    have : key x ∈ ((l.map fun x => (key x, x)).foldl mapInsert []).map Prod.fst := by
      rw [h3]
      right
      rw [List.map_map]
      exact List.mem_map.2 ⟨x, hx, rfl⟩
    obtain ⟨e, he, hek⟩ := List.mem_map.1 this
    exact ⟨e.2, List.mem_map.2 ⟨e, he, rfl⟩, by rw [← (hk e he).1, hek]⟩

end Lists

theorem mapM_some_iff {α β : Type} {f : α → Option β} {l : List α} {r : List β} :
    l.mapM f = some r ↔ List.Forall₂ (fun x y => f x = some y) l r := by
  induction l generalizing r with
  | nil =>
    simp only [List.mapM_nil, List.forall₂_nil_left_iff]
    exact ⟨fun h => by cases h; rfl, fun h => by rw [h]; rfl⟩
  | cons a l ih =>
    rw [List.mapM_cons]
    cases hf : f a with
    | none =>
      simp only [List.forall₂_cons_left_iff, hf]
      constructor
      · intro h; cases h
      · rintro ⟨_, _, h, _⟩; cases h
    | some b =>
      constructor
      · intro h
        cases hm : l.mapM f with
        | none => rw [hm] at h; cases h
        | some rs =>
          rw [hm] at h
          cases h
          exact List.Forall₂.cons hf (ih.1 hm)
      · intro h
        obtain ⟨y, ys, h1, h2, rfl⟩ := List.forall₂_cons_left_iff.1 h
        rw [hf] at h1
        cases h1
        rw [ih.2 h2]
        rfl

/-! ## Classes of matrices -/

theorem canon_iff {κ : Type} {canon : Graph → κ} (hc : ExactLabelling canon) {m1 m2 : HM} (h1 : HMHadamard m1)
    (h2 : HMHadamard m2) : canonHm canon m1 = canonHm canon m2 ↔ HMEquiv m1 m2 := by
  unfold canonHm
  rw [hc, Grph.graph_iso_iff m1 m2 h1.2 h2.2.1]

theorem classes_of_keys {κ : Type} {canon : Graph → κ} (hc : ExactLabelling canon) {mats r : List HM}
    (hm : ∀ m ∈ mats, HMHadamard m) (h1 : ∀ x ∈ r, x ∈ mats)
    (h2 : r.Pairwise (fun x y => canonHm canon x ≠ canonHm canon y))
    (h3 : ∀ x ∈ mats, ∃ y ∈ r, canonHm canon y = canonHm canon x) :
    r.Nodup ∧ r.Pairwise (fun x y => ¬ HMEquiv x y) ∧ ∀ m ∈ mats, ∃! y, y ∈ r ∧ HMEquiv m y := by
  refine ⟨h2.imp fun {a b} h e => h (by rw [e]), h2.imp_of_mem fun {a b} ha hb h e =>
    h ((canon_iff hc (hm a (h1 a ha)) (hm b (h1 b hb))).2 e), ?_⟩
  intro m hmm
  obtain ⟨y, hy, e⟩ := h3 m hmm
  have hmy := HadEquiv.HMEquiv.symm ((canon_iff hc (hm y (h1 y hy)) (hm m hmm)).1 e)
  refine ⟨y, ⟨hy, hmy⟩, ?_⟩
  rintro z ⟨hz, he⟩
  by_contra hne
  have : Std.Symm (fun x y : HM => canonHm canon x ≠ canonHm canon y) := ⟨fun a b h => h.symm⟩
  have := h2.forall hz hy hne
  exact this ((canon_iff hc (hm z (h1 z hz)) (hm y (h1 y hy))).2 (HadEquiv.HMEquiv.trans (HadEquiv.HMEquiv.symm he) hmy))

/-! ## Reading result files -/

theorem read_line {n : ℕ} [NeZero n] {s : QuadSeq} (hs : PMQuad n s) :
    ∃ t, s.toQs.bind QS.toStringRaw = some t ∧ ('\n' ∉ t ∧ '\r' ∉ t) ∧ (QS.fromStr t).bind QuadSeq.fromPqs = some s ∧
      ∃ q, s.toQs = some q ∧ QS.fromStr t = some q := by
  obtain ⟨q, h1, h2, h3, h4, h5⟩ := Props.C06_quad_roundtrip n s hs
  have hq24 : ∀ v ∈ q.values, v ∈ Q24 := fun v hv => by
    have := h4 v hv
    revert this
    have : ∀ v ∈ QPLUS, v ∈ Q24 := by decide +kernel
    exact this v
  obtain ⟨t, k1, k2⟩ := Props.C07_print_read q (h3.trans h2.symm) hq24
  have hsym : q.symmetry = none := by
    have := toQs_eq hs
    rw [h1] at this
    have e := Option.some.inj this
    rw [e]
  have hq : ({ q with symmetry := none } : QS) = q := by
    cases q
    simp only at hsym
    subst hsym
    rfl
  rw [hq] at k2
  refine ⟨t, by rw [h1]; exact k1, ?_, by rw [k2]; exact h5, q, h1, k2⟩
  have hc : ∀ c ∈ t, c ∈ Q24_STRING := by
    intro c hc
    by_contra hn
    have := (Props.C07_read_panics t).2 ⟨c, hc, hn⟩
    rw [this] at k2
    cases k2
  exact ⟨fun h => absurd (hc _ h) (by decide), fun h => absurd (hc _ h) (by decide)⟩

theorem parse_line {line : Text} {q : QuadSeq} (h : (QS.fromStr line).bind QuadSeq.fromPqs = some q) :
    PMQuad line.length q ∧ q.size = line.length := by
  cases hf : QS.fromStr line with
  | none => rw [hf] at h; cases h
  | some qs =>
    rw [hf, Option.bind_some] at h
    have hsz : qs.size = line.length ∧ qs.values.length = line.length ∧ qs.symmetry = none := by
      unfold QS.fromStr at hf
      cases hm : line.mapM QS.charToQuat with
      | none => rw [hm] at hf; cases hf
      | some vs =>
        rw [hm] at hf
        cases hf
        exact ⟨rfl, (mapM_some_iff.1 hm).length_eq.symm, rfl⟩
    have hp : ∀ v ∈ qs.values, v ∈ QPLUS := by
      intro v hv
      by_contra hn
      rw [(Props.C06_fromPqs_panics qs).2 ⟨v, hv, hn⟩] at h
      cases h
    obtain ⟨s, h1, h2, _⟩ := Props.C06_qs_roundtrip qs (hsz.2.1.trans hsz.1.symm) hp hsz.2.2
    rw [h1] at h
    cases h
    rw [← hsz.1]
    exact ⟨h2, h2.size⟩

theorem readCanonical_some {debug : Bool} {line : Text} {q : QuadSeq} (h : readCanonicalLine debug line = some q) :
    (QS.fromStr line).bind QuadSeq.fromPqs = some q ∧ (debug = true → nsCanonical q = some q) := by
  unfold readCanonicalLine at h
  obtain ⟨qs, h1, h⟩ := Option.bind_eq_some_iff.1 h
  obtain ⟨q', h2, h⟩ := Option.bind_eq_some_iff.1 h
  rw [h1, Option.bind_some]
  cases debug
  · simp only [Bool.false_eq_true, if_false] at h
    cases h
    exact ⟨h2, by simp⟩
  · simp only [if_true] at h
    obtain ⟨b, h3, h⟩ := Option.bind_eq_some_iff.1 h
    cases b
    · simp at h
    · simp only [if_true] at h
      cases h
      refine ⟨h2, fun _ => ?_⟩
      unfold isNsCanonical at h3
      obtain ⟨t, h4, h5⟩ := Option.map_eq_some_iff.1 h3
      rw [h4]
      simpa using h5

theorem readCanonical_of {debug : Bool} {line : Text} {q : QuadSeq} (h : (QS.fromStr line).bind QuadSeq.fromPqs = some q)
    (hc : debug = true → nsCanonical q = some q) : readCanonicalLine debug line = some q := by
  obtain ⟨qs, h1, h2⟩ := Option.bind_eq_some_iff.1 h
  unfold readCanonicalLine
  rw [h1, Option.bind_some, h2, Option.bind_some]
  cases debug
  · rfl
  · unfold isNsCanonical
    rw [hc rfl]
    simp

theorem resultText_lines {n : ℕ} [NeZero n] {l : List QuadSeq} (hl : ∀ s ∈ l, PMQuad n s) :
    ∃ ls, resultText l = some (unlines ls) ∧ (∀ x ∈ ls, '\n' ∉ x ∧ '\r' ∉ x) ∧
      List.Forall₂ (fun line s => (QS.fromStr line).bind QuadSeq.fromPqs = some s ∧ s.toQs = QS.fromStr line) ls l := by
  have key : ∃ ls : List Text, (l.mapM fun (q : QuadSeq) => q.toQs.bind QS.toStringRaw) = some ls ∧
      (∀ x ∈ ls, '\n' ∉ x ∧ '\r' ∉ x) ∧
      List.Forall₂ (fun line s => (QS.fromStr line).bind QuadSeq.fromPqs = some s ∧ s.toQs = QS.fromStr line) ls l := by
    induction l with
    | nil => exact ⟨[], rfl, by simp, .nil⟩
    | cons a l ih =>
      obtain ⟨ls, h1, h2, h3⟩ := ih fun s hs => hl s (List.mem_cons_of_mem _ hs)
      obtain ⟨t, k1, k2, k3, q, k4, k5⟩ := read_line (hl a (List.mem_cons_self ..))
      refine ⟨t :: ls, ?_, ?_, .cons ⟨k3, k4.trans k5.symm⟩ h3⟩
      · rw [List.mapM_cons, k1, h1]; rfl
      · intro x hx
        rcases List.mem_cons.1 hx with rfl | hx
        · exact k2
        · exact h2 x hx
  obtain ⟨ls, h1, h2, h3⟩ := key
  exact ⟨ls, by unfold resultText; rw [h1]; rfl, h2, h3⟩

theorem resultText_spec {n : ℕ} [NeZero n] {l : List QuadSeq} (hl : ∀ s ∈ l, PMQuad n s) :
    ∃ t, resultText l = some t ∧
      List.Forall₂ (fun line s => (QS.fromStr line).bind QuadSeq.fromPqs = some s ∧ s.toQs = QS.fromStr line)
        (readLines t) l := by
  obtain ⟨ls, h1, h2, h3⟩ := resultText_lines hl
  refine ⟨unlines ls, h1, ?_⟩
  rw [Txt.readLines_unlines ls h2]
  exact h3

end Proofs.Conversion
