import Verif.Proofs.Text

/-!
# Helper lemmas: the merge join
-/

set_option linter.unusedSectionVars false
set_option linter.unusedVariables false
set_option linter.unusedSimpArgs false

namespace Proofs.Join
open Model Spec Proofs.Txt

/-- Every line can be parsed. -/
def Parses (ls : List Text) : Prop := ∀ l ∈ ls, ∃ p, getLineFrom l = some p

/-- The bytewise order of lines. -/
def Sorted (ls : List Text) : Prop := ls.Pairwise fun a b => textLe a b = true

/-- No other key of the lines is a prefix of `K` or extends `K`. -/
def Isolated (K : Text) (ls : List Text) : Prop :=
  ∀ l ∈ ls, ∀ k p, getLineFrom l = some (k, p) → k = K ∨ (¬ K <+: k ∧ ¬ k <+: K)

theorem split_prefix (sep s : Text) : (splitFirst sep s).1 <+: s := by
  induction s with
  | nil => simp [splitFirst]
  | cons c cs ih =>
    unfold splitFirst
    split
    · exact List.nil_prefix
    · exact (List.prefix_cons_inj c).2 ih

theorem key_prefix {l k : Text} {p : ℕ × ℕ} (h : getLineFrom l = some (k, p)) : k <+: l := by
  unfold getLineFrom at h
  simp only [Option.bind_eq_some_iff, Option.map_eq_some_iff, Prod.mk.injEq] at h
  obtain ⟨_, _, _, _, _, _, _, _, h, _⟩ := h
  rw [← h]
  exact split_prefix _ _

theorem line_order {a b K k : Text} {p q : ℕ × ℕ} (ha : getLineFrom a = some (K, p)) (hb : getLineFrom b = some (k, q))
    (h1 : ¬ K <+: k) (h2 : ¬ k <+: K) : textLt a b = textLt K k ∧ textLt b a = textLt k K := by
  obtain ⟨r, hr⟩ := key_prefix ha
  obtain ⟨t, ht⟩ := key_prefix hb
  rw [← hr, ← ht]
  exact ⟨textLt_append h1 h2 _ _, textLt_append h2 h1 _ _⟩

theorem le_iff (a b : Text) : textLe a b = true ↔ textLt b a = false := by unfold textLe; simp

/-- A line between two lines with key `K` has key `K`. -/
theorem between {K : Text} {x h a : Text} {p q : ℕ × ℕ} (hx : getLineFrom x = some (K, p))
    (ha : getLineFrom a = some (K, q)) {k : Text} {r : ℕ × ℕ} (hh : getLineFrom h = some (k, r))
    (hi : k = K ∨ (¬ K <+: k ∧ ¬ k <+: K)) (h1 : textLe x h = true) (h2 : textLe h a = true) : k = K := by
  rcases hi with hi | ⟨i1, i2⟩
  · exact hi
  · by_contra hne
    rw [le_iff] at h1 h2
    rw [(line_order hx hh i1 i2).2] at h1
    rw [(line_order ha hh i1 i2).1] at h2
    rcases textLt_total hne with h | h
    · rw [h] at h1; cases h1
    · rw [h] at h2; cases h2

/-! ## Collecting a block -/

theorem collect_spec (key : Text) (ls : List Text) (h : Parses ls) :
    ∃ m pre rest, collectMatching key ls = some (m, rest) ∧ ls = pre ++ rest ∧
      (∀ l ∈ pre, ∃ p, getLineFrom l = some (key, p)) ∧
      (∀ p, p ∈ m ↔ ∃ l ∈ pre, getLineFrom l = some (key, p)) := by
  induction ls with
  | nil => exact ⟨[], [], [], rfl, rfl, by simp, by simp⟩
  | cons l ls ih =>
    obtain ⟨⟨k, p⟩, hp⟩ := h l (List.mem_cons_self ..)
    obtain ⟨m, pre, rest, h1, h2, h3, h4⟩ := ih fun x hx => h x (List.mem_cons_of_mem _ hx)
    unfold collectMatching
    rw [hp]
    simp only [Option.bind_some]
    by_cases hk : k = key
    · subst hk
      rw [if_pos rfl, h1]
      refine ⟨p :: m, l :: pre, rest, rfl, by rw [h2]; rfl, ?_, ?_⟩
      · intro x hx
        rcases List.mem_cons.1 hx with rfl | hx
        · exact ⟨p, hp⟩
        · exact h3 x hx
      · intro q
        rw [List.mem_cons, h4]
        constructor
        · rintro (rfl | ⟨x, hx, hq⟩)
          · exact ⟨l, List.mem_cons_self .., hp⟩
          · exact ⟨x, List.mem_cons_of_mem _ hx, hq⟩
        · rintro ⟨x, hx, hq⟩
          rcases List.mem_cons.1 hx with rfl | hx
          · rw [hp] at hq; left; exact (Prod.ext_iff.1 (Option.some.inj hq)).2.symm
          · right; exact ⟨x, hx, hq⟩
    · rw [if_neg hk]
      exact ⟨[], [], l :: ls, rfl, rfl, by simp, by simp⟩

/-- The block of an isolated key contains all lines with this key, if a line with this key stands before. -/
theorem collect_complete {K : Text} {x : Text} {p0 : ℕ × ℕ} (hx : getLineFrom x = some (K, p0)) (ls : List Text)
    (h : Parses ls) (hi : Isolated K ls) (hs : Sorted (x :: ls)) {a : Text} (ha : a ∈ ls) {p : ℕ × ℕ}
    (hp : getLineFrom a = some (K, p)) : ∃ m rest, collectMatching K ls = some (m, rest) ∧ p ∈ m := by
  induction ls with
  | nil => cases ha
  | cons l ls ih =>
    obtain ⟨⟨k, q⟩, hq⟩ := h l (List.mem_cons_self ..)
    have hpar : Parses ls := fun x hx => h x (List.mem_cons_of_mem _ hx)
    obtain ⟨m, pre, rest, h1, h2, h3, h4⟩ := collect_spec K ls hpar
    have hxl : textLe x l = true := (List.pairwise_cons.1 hs).1 l (List.mem_cons_self ..)
    have hs' : Sorted (x :: ls) := by
      have h5 := List.pairwise_cons.1 hs
      have h6 := List.pairwise_cons.1 h5.2
      exact List.pairwise_cons.2 ⟨fun b hb => h5.1 b (List.mem_cons_of_mem _ hb), h6.2⟩
    unfold collectMatching
    rw [hq]
    simp only [Option.bind_some]
    rcases List.mem_cons.1 ha with rfl | ha
    · rw [hq] at hp
      obtain ⟨rfl, rfl⟩ := Prod.ext_iff.1 (Option.some.inj hp)
      rw [if_pos rfl, h1]
      exact ⟨_, _, rfl, List.mem_cons_self ..⟩
    · have hla : textLe l a = true := (List.pairwise_cons.1 (List.pairwise_cons.1 hs).2).1 a ha
      have hk := between hx hp hq (hi l (List.mem_cons_self ..) k q hq) hxl hla
      obtain ⟨m', rest', e1, e2⟩ := ih hpar (fun y hy => hi y (List.mem_cons_of_mem _ hy)) hs' ha
      rw [if_pos hk, e1]
      exact ⟨_, _, rfl, List.mem_cons_of_mem _ e2⟩

/-! ## The loop -/

/-- On lines that can be parsed the loop ends normally, and it returns only combinations of lines with equal keys. -/
theorem loop_sound (fuel : ℕ) (l12 l34 : List Text) (h12 : Parses l12) (h34 : Parses l34)
    (hf : l12.length + l34.length < fuel) :
    ∃ r, joinLoop fuel l12 l34 = some r ∧ ∀ m ∈ r, ∃ k, ∃ a ∈ l12, ∃ b ∈ l34,
      getLineFrom a = some (k, m.1) ∧ getLineFrom b = some (k, m.2) := by
  induction fuel generalizing l12 l34 with
  | zero => omega
  | succ fuel ih =>
    cases l12 with
    | nil => exact ⟨[], rfl, by simp⟩
    | cons x xs =>
      cases l34 with
      | nil => exact ⟨[], rfl, by simp⟩
      | cons y ys =>
        obtain ⟨⟨k, p⟩, hp⟩ := h12 x (List.mem_cons_self ..)
        obtain ⟨⟨k', q⟩, hq⟩ := h34 y (List.mem_cons_self ..)
        have hxs : Parses xs := fun z hz => h12 z (List.mem_cons_of_mem _ hz)
        have hys : Parses ys := fun z hz => h34 z (List.mem_cons_of_mem _ hz)
        simp only [List.length_cons] at hf
        unfold joinLoop
        rw [hp, hq]
        simp only [Option.bind_some]
        by_cases hk : k = k'
        · subst hk
          rw [if_pos rfl]
          obtain ⟨m1, pre1, rest1, a1, a2, a3, a4⟩ := collect_spec k (x :: xs) h12
          obtain ⟨m2, pre2, rest2, b1, b2, b3, b4⟩ := collect_spec k (y :: ys) h34
          have hne : pre1 ≠ [] := by
            rintro rfl
            rw [List.nil_append] at a2
            unfold collectMatching at a1
            rw [hp] at a1
            simp only [Option.bind_some, if_true, Option.map_eq_some_iff] at a1
            obtain ⟨r, hr, e⟩ := a1
            have e1 : p :: r.1 = m1 := (Prod.ext_iff.1 e).1
            have := (a4 p).1 (by rw [← e1]; exact List.mem_cons_self ..)
            simp at this
          have l1 : rest1.length ≤ xs.length := by
            have := congrArg List.length a2
            have h0 : 0 < pre1.length := List.length_pos_iff.2 hne
            simp at this; omega
          have l2 : rest2.length ≤ ys.length + 1 := by
            have := congrArg List.length b2
            simp at this; omega
          have hr1 : Parses rest1 := fun z hz => h12 z (by rw [a2]; exact List.mem_append_right _ hz)
          have hr2 : Parses rest2 := fun z hz => h34 z (by rw [b2]; exact List.mem_append_right _ hz)
          obtain ⟨r, hr, hs⟩ := ih rest1 rest2 hr1 hr2 (by omega)
          rw [a1, b1]
          simp only [Option.bind_some]
          rw [hr]
          refine ⟨_, rfl, ?_⟩
          intro m hm
          rcases List.mem_append.1 hm with hm | hm
          · obtain ⟨u, hu, hm⟩ := List.mem_flatMap.1 hm
            obtain ⟨v, hv, rfl⟩ := List.mem_map.1 hm
            obtain ⟨a, ha, ha'⟩ := (a4 u).1 hu
            obtain ⟨b, hb, hb'⟩ := (b4 v).1 hv
            exact ⟨k, a, by rw [a2]; exact List.mem_append_left _ ha, b, by rw [b2]; exact List.mem_append_left _ hb,
              ha', hb'⟩
          · obtain ⟨k0, a, ha, b, hb, e⟩ := hs m hm
            exact ⟨k0, a, by rw [a2]; exact List.mem_append_right _ ha, b, by rw [b2]; exact List.mem_append_right _ hb, e⟩
        · rw [if_neg hk]
          split
          · obtain ⟨r, hr, hs⟩ := ih xs (y :: ys) hxs h34 (by simp only [List.length_cons]; omega)
            refine ⟨r, hr, fun m hm => ?_⟩
            obtain ⟨k0, a, ha, b, hb, e⟩ := hs m hm
            exact ⟨k0, a, List.mem_cons_of_mem _ ha, b, hb, e⟩
          · obtain ⟨r, hr, hs⟩ := ih (x :: xs) ys h12 hys (by simp only [List.length_cons]; omega)
            refine ⟨r, hr, fun m hm => ?_⟩
            obtain ⟨k0, a, ha, b, hb, e⟩ := hs m hm
            exact ⟨k0, a, ha, b, List.mem_cons_of_mem _ hb, e⟩

/-- On sorted lines the loop returns every combination of lines with an isolated key. -/
theorem loop_complete (K : Text) (fuel : ℕ) (l12 l34 : List Text) (h12 : Parses l12) (h34 : Parses l34)
    (s12 : Sorted l12) (s34 : Sorted l34) (i12 : Isolated K l12) (i34 : Isolated K l34)
    (hf : l12.length + l34.length < fuel) (r : List ((ℕ × ℕ) × (ℕ × ℕ))) (hr : joinLoop fuel l12 l34 = some r)
    {a b : Text} (ha : a ∈ l12) (hb : b ∈ l34) {p q : ℕ × ℕ} (hpa : getLineFrom a = some (K, p))
    (hqb : getLineFrom b = some (K, q)) : (p, q) ∈ r := by
  induction fuel generalizing l12 l34 r with
  | zero => omega
  | succ fuel ih =>
    cases l12 with
    | nil => cases ha
    | cons x xs =>
      cases l34 with
      | nil => cases hb
      | cons y ys =>
        obtain ⟨⟨k, p0⟩, hp⟩ := h12 x (List.mem_cons_self ..)
        obtain ⟨⟨k', q0⟩, hq⟩ := h34 y (List.mem_cons_self ..)
        have hxs : Parses xs := fun z hz => h12 z (List.mem_cons_of_mem _ hz)
        have hys : Parses ys := fun z hz => h34 z (List.mem_cons_of_mem _ hz)
        simp only [List.length_cons] at hf
        unfold joinLoop at hr
        rw [hp, hq] at hr
        simp only [Option.bind_some] at hr
        by_cases hk : k = k'
        · subst hk
          rw [if_pos rfl] at hr
          obtain ⟨m1, pre1, rest1, a1, a2, a3, a4⟩ := collect_spec k (x :: xs) h12
          obtain ⟨m2, pre2, rest2, b1, b2, b3, b4⟩ := collect_spec k (y :: ys) h34
          rw [a1, b1] at hr
          simp only [Option.bind_some, Option.map_eq_some_iff] at hr
          obtain ⟨more, hmore, rfl⟩ := hr
          rw [List.mem_append]
          by_cases hkK : k = K
          · subst hkK
            left
            have c1 : p ∈ m1 := by
              obtain ⟨m, rest, e1, e2⟩ := collect_complete (x := x) hp (x :: xs) h12 i12
                (List.pairwise_cons.2 ⟨fun z hz => by
                  rcases List.mem_cons.1 hz with rfl | hz
                  · rw [le_iff]; exact textLt_irrefl _
                  · exact (List.pairwise_cons.1 s12).1 z hz, s12⟩) ha hpa
              rw [a1] at e1
              have e3 : m1 = m := (Prod.ext_iff.1 (Option.some.inj e1)).1
              rw [e3]; exact e2
            have c2 : q ∈ m2 := by
              obtain ⟨m, rest, e1, e2⟩ := collect_complete (x := y) hq (y :: ys) h34 i34
                (List.pairwise_cons.2 ⟨fun z hz => by
                  rcases List.mem_cons.1 hz with rfl | hz
                  · rw [le_iff]; exact textLt_irrefl _
                  · exact (List.pairwise_cons.1 s34).1 z hz, s34⟩) hb hqb
              rw [b1] at e1
              have e3 : m2 = m := (Prod.ext_iff.1 (Option.some.inj e1)).1
              rw [e3]; exact e2
            exact List.mem_flatMap.2 ⟨p, c1, List.mem_map.2 ⟨q, c2, rfl⟩⟩
          · right
            have hne : pre1 ≠ [] := by
              rintro rfl
              rw [List.nil_append] at a2
              unfold collectMatching at a1
              rw [hp] at a1
              simp only [Option.bind_some, if_true, Option.map_eq_some_iff] at a1
              obtain ⟨r, hr, e⟩ := a1
              have e1 : p0 :: r.1 = m1 := (Prod.ext_iff.1 e).1
              have := (a4 p0).1 (by rw [← e1]; exact List.mem_cons_self ..)
              simp at this
            have l1 : rest1.length ≤ xs.length := by
              have := congrArg List.length a2
              have h0 : 0 < pre1.length := List.length_pos_iff.2 hne
              simp at this; omega
            have l2 : rest2.length ≤ ys.length + 1 := by
              have := congrArg List.length b2
              simp at this; omega
            have sub1 : ∀ z ∈ rest1, z ∈ x :: xs := fun z hz => by rw [a2]; exact List.mem_append_right _ hz
            have sub2 : ∀ z ∈ rest2, z ∈ y :: ys := fun z hz => by rw [b2]; exact List.mem_append_right _ hz
            refine ih rest1 rest2 (fun z hz => h12 z (sub1 z hz)) (fun z hz => h34 z (sub2 z hz)) ?_ ?_
              (fun z hz => i12 z (sub1 z hz)) (fun z hz => i34 z (sub2 z hz)) (by omega) more hmore ?_ ?_
            · unfold Sorted at s12; rw [a2] at s12; exact (List.pairwise_append.1 s12).2.1
            · unfold Sorted at s34; rw [b2] at s34; exact (List.pairwise_append.1 s34).2.1
            · rw [a2] at ha
              rcases List.mem_append.1 ha with ha | ha
              · obtain ⟨p', hp'⟩ := a3 a ha
                rw [hpa] at hp'
                exact absurd (Prod.ext_iff.1 (Option.some.inj hp')).1.symm hkK
              · exact ha
            · rw [b2] at hb
              rcases List.mem_append.1 hb with hb | hb
              · obtain ⟨p', hp'⟩ := b3 b hb
                rw [hqb] at hp'
                exact absurd (Prod.ext_iff.1 (Option.some.inj hp')).1.symm hkK
              · exact hb
        · rw [if_neg hk] at hr
          by_cases hlt : textLt k k' = true
          · rw [if_pos hlt] at hr
            refine ih xs (y :: ys) hxs h34 (List.pairwise_cons.1 s12).2 s34
              (fun z hz => i12 z (List.mem_cons_of_mem _ hz)) i34 (by simp only [List.length_cons]; omega) r hr ?_ hb
            rcases List.mem_cons.1 ha with rfl | ha
            · rw [hp] at hpa
              have e : k = K := (Prod.ext_iff.1 (Option.some.inj hpa)).1
              subst e
              rcases List.mem_cons.1 hb with rfl | hb'
              · rw [hq] at hqb
                exact absurd (Prod.ext_iff.1 (Option.some.inj hqb)).1.symm hk
              · have hle := (List.pairwise_cons.1 s34).1 b hb'
                rw [le_iff] at hle
                rcases i34 y (List.mem_cons_self ..) k' q0 hq with h | ⟨g1, g2⟩
                · exact absurd h.symm hk
                · rw [(line_order hqb hq g1 g2).1, hlt] at hle
                  cases hle
            · exact ha
          · have hgt : textLt k' k = true := by
              rcases textLt_total hk with h | h
              · exact absurd h hlt
              · exact h
            rw [if_neg hlt] at hr
            refine ih (x :: xs) ys h12 hys s12 (List.pairwise_cons.1 s34).2 i12
              (fun z hz => i34 z (List.mem_cons_of_mem _ hz)) (by simp only [List.length_cons]; omega) r hr ha ?_
            rcases List.mem_cons.1 hb with rfl | hb
            · rw [hq] at hqb
              have e : k' = K := (Prod.ext_iff.1 (Option.some.inj hqb)).1
              subst e
              rcases List.mem_cons.1 ha with rfl | ha'
              · rw [hp] at hpa
                exact absurd (Prod.ext_iff.1 (Option.some.inj hpa)).1 hk
              · have hle := (List.pairwise_cons.1 s12).1 a ha'
                rw [le_iff] at hle
                rcases i12 x (List.mem_cons_self ..) k p0 hp with h | ⟨g1, g2⟩
                · exact absurd h hk
                · rw [(line_order hpa hp g1 g2).1, hgt] at hle
                  cases hle
            · exact hb

end Proofs.Join
