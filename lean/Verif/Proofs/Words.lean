import Verif.Proofs.Rotation
import Verif.Proofs.Codec

/-!
# Equivalence of words over the alphabet is QT equivalence of quadruples
-/

set_option linter.unusedSectionVars false
set_option linter.unusedVariables false
set_option linter.unusedSimpArgs false

namespace Proofs.Letters
open Model Spec Proofs
open scoped Quaternion

variable {n : ℕ} [NeZero n]

theorem word_mem {f : Fam n} (hf : PMFam f) (i : ZMod n) : word f i ∈ Alphabet := by
  rw [mem_iff]
  intro t
  rw [co_word]
  rcases hf t i with h | h <;> rw [h] <;> simp

theorem exists_word {x : ZMod n → ℍ[ℚ]} (hx : ∀ i, x i ∈ Alphabet) : ∃ f : Fam n, PMFam f ∧ word f = x := by
  refine ⟨fun t i => if co (x i) t = 1 then 1 else -1, fun t i => ?_, ?_⟩
  · dsimp only; split <;> simp
  · funext i
    apply co_inj
    funext t
    rw [co_word]
    rcases (mem_iff _).1 (hx i) t with h | h
    · rw [if_pos h, h]; rfl
    · rw [if_neg (by rw [h]; norm_num), h]; rfl

theorem inner_axis (x : ℍ[ℚ]) (t : Tag) : inner4 x (axis t) = co x t / 2 := by rw [co_inner]; ring

theorem proj_sign (x e : ℍ[ℚ]) : inner4 x (-e) • -e = inner4 x e • e := by
  have : inner4 x (-e) = -inner4 x e := by
    unfold inner4
    rw [star_neg, mul_neg]
    exact Quaternion.re_neg _
  rw [this, neg_smul_neg]

theorem co_sub (x y : ℍ[ℚ]) (t : Tag) : co (x - y) t = co x t - co y t := by cases t <;> simp [co] <;> ring

/-- The half shift in coordinates. -/
theorem half_word {t₁ t₂ : Tag} (h : t₁ ≠ t₂) (f : Fam n) :
    word (halfAt (fun t => decide (t = t₁ ∨ t = t₂)) f) = fun i => word f i +
      inner4 (word f (i + (n / 2 : ℕ)) - word f i) (axis t₁) • axis t₁ +
      inner4 (word f (i + (n / 2 : ℕ)) - word f i) (axis t₂) • axis t₂ := by
  funext i
  apply co_inj
  funext s
  rw [co_add, co_add, co_smul, co_smul, inner_axis, inner_axis, co_axis, co_axis, co_sub, co_sub]
  simp only [co_word]
  unfold halfAt
  by_cases h1 : s = t₁
  · subst h1
    rw [if_pos rfl, if_neg h, if_pos (by simp)]
    ring
  · by_cases h2 : s = t₂
    · subst h2
      rw [if_pos rfl, if_neg h1, if_pos (by simp)]
      ring
    · rw [if_neg h1, if_neg h2, if_neg (by simp [h1, h2])]
      ring

theorem alt_word (f : Fam n) : word (altAll f) = fun i => (-1) ^ i.val * word f i := by
  funext i
  apply co_inj
  funext t
  rw [co_word]
  unfold altAll
  rcases Nat.even_or_odd i.val with h | h
  · rw [h.neg_one_pow, h.neg_one_pow, one_mul, one_mul, co_word]
  · rw [h.neg_one_pow, h.neg_one_pow, neg_one_mul, neg_one_mul, show -word f i = (-1 : ℚ) • word f i by simp, co_smul, co_word]
    push_cast
    ring

/-- A move of words is a chain of moves of families. -/
theorem move_word {f : Fam n} {y : ZMod n → ℍ[ℚ]} (h : WordMove (word f) y) : ∃ g, QTEquiv f g ∧ word g = y := by
  cases h with
  | shift o => exact ⟨shiftAll o f, .rel _ _ (.inl ⟨o⟩), rfl⟩
  | decimate u => exact ⟨autAll u f, .rel _ _ (.inr (.inl (.aut u))), rfl⟩
  | alternate h => exact ⟨altAll f, .rel _ _ (.inr (.inl (.alt h))), alt_word f⟩
  | rotate u v h =>
    obtain ⟨g, h1, h2⟩ := rot_ns h f
    exact ⟨g, h1.mono fun _ _ h => .inr (.inr (.inr h)), h2⟩
  | half h e₁ e₂ h₁ h₂ hne hne' =>
    obtain ⟨t₁, h₁⟩ := (outer_iff _).1 h₁
    obtain ⟨t₂, h₂⟩ := (outer_iff _).1 h₂
    have ht : t₁ ≠ t₂ := by
      rintro rfl
      rcases h₁ with rfl | rfl <;> rcases h₂ with rfl | rfl
      · exact hne rfl
      · exact hne' (neg_neg _).symm
      · exact hne' rfl
      · exact hne rfl
    refine ⟨_, .rel _ _ (.inr (.inr (.inl (.two h t₁ t₂ ht)))), ?_⟩
    rw [half_word ht]
    funext i
    rcases h₁ with rfl | rfl <;> rcases h₂ with rfl | rfl <;> simp only [proj_sign]

theorem pm_qtmove {f g : Fam n} (hf : PMFam f) (h : QTMove f g) : PMFam g := by
  rcases h with h | h | h | h
  · obtain ⟨o⟩ := h; exact fun t i => hf _ _
  · cases h with
    | alt h => exact pm_altAll hf
    | aut u => exact fun t i => hf _ _
  · cases h with
    | two h => exact pm_halfAt hf _
    | four h => exact pm_halfAt hf _
  · obtain ⟨t₀, t₁, t₂, h⟩ := h
    exact pm_swapFam (pm_negAt hf _) _ _

theorem pm_qtequiv {f g : Fam n} (hf : PMFam f) (h : QTEquiv f g) : PMFam g := by
  unfold QTEquiv at h
  rw [eqvGen_pres pres_QT] at h
  induction h with
  | refl => exact hf
  | tail _ h ih => exact pm_qtmove ih h

/-- One negate-and-swap operation is a rotation of the alphabet. -/
theorem ns_letter (t₀ : Tag) {t₁ t₂ : Tag} (h12 : t₁ ≠ t₂) (f : Fam n) :
    ∃ u v : ℍ[ℚ], (∀ a ∈ Alphabet, u * a * v ∈ Alphabet) ∧
      word (swapFam t₁ t₂ (negAt t₀ f)) = fun i => u * word f i * v := by
  refine ⟨(axis t₁ - axis t₂) * star (axis t₀), star (axis t₀) * ((1 / 2 : ℚ) • (axis t₁ - axis t₂)), fun a ha => ?_, ?_⟩
  · rw [← lw_co a, ← lw_ns t₀ h12, mem_iff, co_lw]
    rw [mem_iff] at ha
    intro t
    split
    · rcases ha (Equiv.swap t₁ t₂ t) with h | h <;> rw [h] <;> simp
    · exact ha _
  · funext i
    rw [word, word, ← lw_ns t₀ h12]
    congr 1
    funext t
    unfold swapFam negAt
    split <;> simp

/-- A move of families is a move of words. -/
theorem word_move {f g : Fam n} (h : QTMove f g) : WordMove (word f) (word g) := by
  rcases h with h | h | h | h
  · obtain ⟨o⟩ := h; exact .shift o
  · cases h with
    | alt h => rw [alt_word]; exact .alternate h
    | aut u => exact .decimate u
  · cases h with
    | two h t₁ t₂ h12 =>
      rw [half_word h12]
      refine .half h _ _ ((outer_iff _).2 ⟨t₁, .inl rfl⟩) ((outer_iff _).2 ⟨t₂, .inl rfl⟩) ?_ ?_
      · intro e
        exact axis_sub_ne h12 (sub_eq_zero.2 e)
      · intro e
        have := congrArg (fun x => co x t₁) e
        rw [show -axis t₂ = (-1 : ℚ) • axis t₂ by simp] at this
        simp only [co_smul, co_axis, if_pos, if_neg h12] at this
        norm_num at this
    | four h => exact .shift ((n / 2 : ℕ) : ZMod n)
  · obtain ⟨t₀, t₁, t₂, h12⟩ := h
    obtain ⟨u, v, h, e⟩ := ns_letter t₀ h12 f
    rw [e]
    exact .rotate u v h

theorem ns_rot_letters {f g : Fam n} (h : NSEquiv f g) :
    ∃ u v : ℍ[ℚ], (∀ a ∈ Alphabet, u * a * v ∈ Alphabet) ∧ word g = fun i => u * word f i * v := by
  unfold NSEquiv at h
  rw [eqvGen_pres pres_NS] at h
  induction h with
  | refl => exact ⟨1, 1, fun a ha => by simpa using ha, by simp⟩
  | tail _ h ih =>
    obtain ⟨u, v, h1, e1⟩ := ih
    obtain ⟨t₀, t₁, t₂, h12⟩ := h
    obtain ⟨u', v', h2, e2⟩ := ns_letter (n := n) t₀ h12 _
    have e : ∀ a, u' * u * a * (v * v') = u' * (u * a * v) * v' := fun a => by simp only [mul_assoc]
    refine ⟨u' * u, v * v', fun a ha => ?_, ?_⟩
    · rw [e]; exact h2 _ (h1 a ha)
    · rw [e2, e1]; funext i; exact (e _).symm

/-- What is equivalent to a word is a word, or nothing happened. -/
theorem equiv_word {x y : ZMod n → ℍ[ℚ]} (h : WordEquiv x y) :
    x = y ∨ ∃ f g, PMFam f ∧ word f = x ∧ word g = y ∧ QTEquiv f g := by
  induction h with
  | rel x y h =>
    obtain ⟨hx, h⟩ := h
    obtain ⟨f, hf, rfl⟩ := exists_word hx
    obtain ⟨g, h1, h2⟩ := move_word h
    exact .inr ⟨f, g, hf, rfl, h2, h1⟩
  | refl x => exact .inl rfl
  | symm x y _ ih =>
    rcases ih with rfl | ⟨f, g, hf, h1, h2, h3⟩
    · exact .inl rfl
    · exact .inr ⟨g, f, pm_qtequiv hf h3, h2, h1, .symm _ _ h3⟩
  | trans x y z _ _ ih1 ih2 =>
    rcases ih1 with rfl | ⟨f, g, hf, h1, h2, h3⟩
    · exact ih2
    · rcases ih2 with rfl | ⟨f', g', hf', h1', h2', h3'⟩
      · exact .inr ⟨f, g, hf, h1, h2, h3⟩
      · cases word_inj (h2.trans h1'.symm)
        exact .inr ⟨f, g', hf, h1, h2', .trans _ _ _ h3 h3'⟩

/-- Equivalence of words is QT equivalence. -/
theorem equiv_iff {f g : Fam n} (hf : PMFam f) (hg : PMFam g) : WordEquiv (word f) (word g) ↔ QTEquiv f g := by
  constructor
  · intro h
    rcases equiv_word h with h | ⟨f', g', _, h1, h2, h3⟩
    · rw [word_inj h]; exact .refl _
    · rw [← word_inj h1, ← word_inj h2]; exact h3
  · intro h
    unfold QTEquiv at h
    rw [eqvGen_pres pres_QT] at h
    have : ∀ g, Relation.ReflTransGen QTMove f g → PMFam g ∧ WordEquiv (word f) (word g) := by
      intro g h
      induction h with
      | refl => exact ⟨hf, .refl _⟩
      | tail _ h ih => exact ⟨pm_qtmove ih.1 h, .trans _ _ _ ih.2 (.rel _ _ ⟨word_mem ih.1, word_move h⟩)⟩
    exact (this g h).2

/-- The words of QT sequences are the perfect words. -/
theorem perfect_word {q : QuadSeq} (hq : PMQuad n q) : PerfectWord (word (fam n q)) ↔ IsQTS n q := by
  unfold PerfectWord IsQTS
  have e : word (fam n q) = fun x => toH (linQuat (cyc n q.a x, cyc n q.b x, cyc n q.c x, cyc n q.d x)) := by
    funext i
    ext <;> simp only [word, lw_c, toH, linQuat, fam] <;> push_cast <;> rfl
  rw [e, perfect_iff]
  constructor
  · exact fun h => ⟨hq, h.2⟩
  · intro h
    refine ⟨fun i => ?_, h.2⟩
    have := word_mem (pmfam_fam hq) i
    rw [e] at this
    exact this

/-- Every word over the alphabet comes from a quadruple. -/
theorem exists_quad {x : ZMod n → ℍ[ℚ]} (hx : ∀ i, x i ∈ Alphabet) : ∃ q, PMQuad n q ∧ word (fam n q) = x := by
  obtain ⟨f, hf, rfl⟩ := exists_word hx
  exact ⟨ofFam n f, pmquad_ofFam hf, by rw [fam_ofFam]⟩

/-- Letters of the code and of the README. -/
theorem letter_eq {c : Char} {v : Quat} (h : QS.charToQuat c = some v) (hv : v ∈ QPLUS) : readmeLetter c = some (toH v) := by
  have hc : c ∈ Q24_STRING := by
    by_contra hc
    unfold QS.charToQuat at h
    rw [firstIndex_none hc] at h
    cases h
  have key : ∀ c ∈ Q24_STRING, c ∈ ['+', '-', 'i', 'I', 'j', 'J', 'k', 'K', 'q', 'Q', 'x', 'X', 'y', 'Y', 'z', 'Z'] ∨
      ∀ v, QS.charToQuat c = some v → v ∉ QPLUS := by
    have k2 : ∀ c ∈ ['s', 'S', 'u', 'U', 'v', 'V', 'w', 'W'], ∀ v ∈ QS.charToQuat c, v ∉ QPLUS := by decide +kernel
    intro c hc
    by_cases h : c ∈ ['s', 'S', 'u', 'U', 'v', 'V', 'w', 'W']
    · exact .inr fun v hv => k2 c h v hv
    · left
      simp only [Q24_STRING, List.mem_cons, List.not_mem_nil, or_false] at hc h ⊢
      tauto
  rcases key c hc with hk | hk
  · have tab : ['+', '-', 'i', 'I', 'j', 'J', 'k', 'K', 'q', 'Q', 'x', 'X', 'y', 'Y', 'z', 'Z'].map QS.charToQuat =
        [⟨1, 0, 0, 0⟩, ⟨-1, 0, 0, 0⟩, ⟨0, 1, 0, 0⟩, ⟨0, -1, 0, 0⟩, ⟨0, 0, 1, 0⟩, ⟨0, 0, -1, 0⟩, ⟨0, 0, 0, 1⟩, ⟨0, 0, 0, -1⟩,
          ⟨1 / 2, 1 / 2, 1 / 2, 1 / 2⟩, ⟨-1 / 2, -1 / 2, -1 / 2, -1 / 2⟩, ⟨-1 / 2, 1 / 2, 1 / 2, -1 / 2⟩,
          ⟨1 / 2, -1 / 2, -1 / 2, 1 / 2⟩, ⟨-1 / 2, -1 / 2, 1 / 2, 1 / 2⟩, ⟨1 / 2, 1 / 2, -1 / 2, -1 / 2⟩,
          ⟨-1 / 2, 1 / 2, -1 / 2, 1 / 2⟩, (⟨1 / 2, -1 / 2, 1 / 2, -1 / 2⟩ : Quat)].map some := by decide +kernel
    simp only [List.map_cons, List.map_nil, List.cons.injEq, and_true] at tab
    obtain ⟨e1, e2, e3, e4, e5, e6, e7, e8, e9, e10, e11, e12, e13, e14, e15, e16⟩ := tab
    simp only [List.mem_cons, List.not_mem_nil, or_false] at hk
    have tc : ∀ a b c d : ℚ, (toH ⟨a, b, c, d⟩).re = a ∧ (toH ⟨a, b, c, d⟩).imI = b ∧ (toH ⟨a, b, c, d⟩).imJ = c ∧
      (toH ⟨a, b, c, d⟩).imK = d := fun _ _ _ _ => ⟨rfl, rfl, rfl, rfl⟩
    rcases hk with rfl | rfl | rfl | rfl | rfl | rfl | rfl | rfl | rfl | rfl | rfl | rfl | rfl | rfl | rfl | rfl
    all_goals first
      | rw [e1] at h | rw [e2] at h | rw [e3] at h | rw [e4] at h | rw [e5] at h | rw [e6] at h | rw [e7] at h
      | rw [e8] at h | rw [e9] at h | rw [e10] at h | rw [e11] at h | rw [e12] at h | rw [e13] at h | rw [e14] at h
      | rw [e15] at h | rw [e16] at h
    all_goals
      cases h
      refine congrArg some ?_
      ext <;> simp [tc, qi_c, qj_c, qk_c, qq_c] <;> norm_num
  · exact absurd hv (hk v h)

theorem mapM_get {α β : Type} {f : α → Option β} {l : List α} {m : List β} (h : l.mapM f = some m) :
    l.length = m.length ∧ ∀ i (hi : i < m.length), (l[i]?).bind f = some m[i] := by
  induction l generalizing m with
  | nil =>
    cases h
    exact ⟨rfl, fun i hi => absurd hi (by simp)⟩
  | cons a l ih =>
    rw [List.mapM_cons] at h
    cases ha : f a with
    | none => rw [ha] at h; cases h
    | some b =>
      cases hl : l.mapM f with
      | none => rw [ha, hl] at h; cases h
      | some m' =>
        rw [ha, hl] at h
        cases h
        obtain ⟨h1, h2⟩ := ih hl
        refine ⟨by simp [h1], fun i hi => ?_⟩
        cases i with
        | zero => simpa using ha
        | succ i => simpa using h2 i (by simpa using hi)

/-- A line that is read as the quadruple `q` writes the word of `q`. -/
theorem writes_of {line : List Char} {q : QuadSeq} (hq : PMQuad n q)
    (h : (QS.fromStr line).bind QuadSeq.fromPqs = some q) : Writes line (word (fam n q)) := by
  obtain ⟨p, hp, hq'⟩ := Option.bind_eq_some_iff.1 h
  obtain ⟨vals, hv, rfl⟩ := Option.map_eq_some_iff.1 hp
  obtain ⟨hl, hget⟩ := mapM_get hv
  have hplus : ∀ v ∈ vals, v ∈ QPLUS := by
    by_contra hc
    push Not at hc
    rw [fromPqs_none.2 hc] at hq'
    cases hq'
  obtain ⟨q', h1, h2, h3⟩ := toQs_fromPqs (q := { size := line.length, values := vals, symmetry := none }) hl.symm hplus
  rw [hq'] at h1
  cases h1
  have hn : line.length = n := h2.size.symm.trans hq.size
  refine ⟨hn, fun i => ?_⟩
  have hi : i.val < vals.length := by rw [← hl, hn]; exact ZMod.val_lt i
  obtain ⟨c, hc, hcv⟩ := Option.bind_eq_some_iff.1 (hget i.val hi)
  rw [hc, Option.bind_some, letter_eq hcv (hplus _ (List.getElem_mem hi))]
  congr 1
  have e := toQs_eq hq
  rw [h3] at e
  have ev := congrArg QS.values (Option.some.inj e)
  dsimp only at ev
  have : vals[i.val] = linQuat (q.values i.val) := by
    simp only [ev, List.getElem_map, List.getElem_range]
  rw [this]
  ext <;> simp only [word, lw_c, toH, linQuat, fam, QuadSeq.values, cyc, at0] <;> push_cast <;> rfl

end Proofs.Letters
