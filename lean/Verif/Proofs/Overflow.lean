import Verif.Proofs.Fast
import Mathlib.Algebra.BigOperators.Group.Finset.Basic
import Mathlib.Algebra.BigOperators.Group.List.Basic

/-!
# Class generation on arbitrary 8-bit entries, and the label overflow at length 32
-/

set_option linter.unusedSectionVars false
set_option linter.unusedVariables false

namespace Proofs
open Model Spec

/-! ## Shapes are kept for any set of entries closed under 8-bit negation -/

/-- Size, lengths and alphabet of a quadruple. -/
structure Shaped (n : ℕ) (V : Set ℤ) (s : QuadSeq) : Prop where
  size : s.size = n
  seq : ∀ t, (s.sequence t).length = n ∧ ∀ x ∈ s.sequence t, x ∈ V

variable {n : ℕ} {V : Set ℤ}

/-- A list transformation that keeps length and alphabet. -/
def KeepsL (n : ℕ) (V : Set ℤ) (F : List ℤ → List ℤ) : Prop :=
  ∀ l, l.length = n → (∀ x ∈ l, x ∈ V) → (F l).length = n ∧ ∀ x ∈ F l, x ∈ V

theorem keeps_tab {g : List ℤ → ℕ → ℕ} (hg : ∀ l i, i < n → g l i < n) :
    KeepsL n V fun l => tab n fun i => at0 l (g l i) := by
  intro l hl hV
  refine ⟨tab_length _ _, fun x hx => ?_⟩
  rw [mem_tab] at hx
  obtain ⟨i, hi, rfl⟩ := hx
  exact hV _ (at0_mem (by rw [hl]; exact hg l i hi))

theorem keeps_negated (hneg : ∀ x ∈ V, neg8 x ∈ V) : KeepsL n V negated := by
  intro l hl hV
  refine ⟨by rw [negated_length, hl], fun x hx => ?_⟩
  unfold negated at hx
  rw [mem_tab] at hx
  obtain ⟨i, hi, rfl⟩ := hx
  exact hneg _ (hV _ (at0_mem hi))

theorem keeps_alt (hneg : ∀ x ∈ V, neg8 x ∈ V) : KeepsL n V fun l => altNegated l 2 := by
  intro l hl hV
  refine ⟨by simp only [altNegated, tab_length, hl], fun x hx => ?_⟩
  simp only [altNegated] at hx
  rw [mem_tab] at hx
  obtain ⟨i, hi, rfl⟩ := hx
  split
  · exact hneg _ (hV _ (at0_mem hi))
  · exact hV _ (at0_mem hi)

theorem keeps_shift (h0 : 0 < n) (o : ℕ) : KeepsL n V fun l => shiftBy n l o :=
  keeps_tab (g := fun _ i => (i + o) % n) fun _ _ _ => Nat.mod_lt _ h0

theorem keeps_permute (h0 : 0 < n) (k : ℕ) : KeepsL n V fun l => permute l k := by
  intro l hl hV
  simp only [permute, hl]
  exact keeps_tab (g := fun _ i => i * k % n) (fun _ _ _ => Nat.mod_lt _ h0) l hl hV

theorem shaped_set {s : QuadSeq} (hs : Shaped n V s) {l : List ℤ} (h : l.length = n ∧ ∀ x ∈ l, x ∈ V) (t : Tag) :
    Shaped n V (s.setSequence l t) :=
  ⟨by rw [size_setSequence, hs.size], fun t' => by
    rw [seq_setSequence]; split
    · exact h
    · exact hs.seq t'⟩

theorem shaped_swap {s : QuadSeq} (hs : Shaped n V s) (c : Tag × Tag) : Shaped n V (swapTags s c) :=
  shaped_set (shaped_set hs (hs.seq _) _) (hs.seq _) _

theorem shaped_map {s : QuadSeq} (hs : Shaped n V s) {F : List ℤ → List ℤ} (hF : KeepsL n V F) :
    Shaped n V (mapAll s F) :=
  ⟨hs.size, fun t => by rw [mapAll_seq]; exact hF _ (hs.seq t).1 (hs.seq t).2⟩

theorem shaped_all {m : ℕ} {a b c d : List ℤ} (hm : m = n)
    (ha : a.length = n ∧ ∀ x ∈ a, x ∈ V) (hb : b.length = n ∧ ∀ x ∈ b, x ∈ V)
    (hc : c.length = n ∧ ∀ x ∈ c, x ∈ V) (hd : d.length = n ∧ ∀ x ∈ d, x ∈ V) :
    Shaped n V ((QuadSeq.new m).setAllValues a b c d) :=
  ⟨hm, fun t => by cases t <;> assumption⟩

theorem shaped_op (h0 : 0 < n) (hneg : ∀ x ∈ V, neg8 x ∈ V) {op : Op} (hop : op ∈ allOps) {s t : QuadSeq}
    (hs : Shaped n V s) (ht : t ∈ op s) : Shaped n V t := by
  have hN : ∀ t, (negated (s.sequence t)).length = n ∧ ∀ x ∈ negated (s.sequence t), x ∈ V :=
    fun t => keeps_negated hneg _ (hs.seq t).1 (hs.seq t).2
  have hS : ∀ t o, (shiftBy n (s.sequence t) o).length = n ∧ ∀ x ∈ shiftBy n (s.sequence t) o, x ∈ V :=
    fun t o => keeps_shift h0 o _ (hs.seq t).1 (hs.seq t).2
  have hH : ∀ {s : QuadSeq}, Shaped n V s → ∀ t, Shaped n V (halfShiftTag s t) := by
    intro s hs t
    refine shaped_set hs ?_ t
    rw [hs.size]
    exact keeps_shift h0 _ _ (hs.seq t).1 (hs.seq t).2
  simp only [allOps, List.mem_cons, List.not_mem_nil, or_false] at hop
  rcases hop with rfl | rfl | rfl | rfl | rfl | rfl | rfl | rfl | rfl | rfl | rfl | rfl | rfl | rfl
  · simp only [equivalentNegateSwap, List.mem_cons, List.mem_flatMap, List.mem_map] at ht
    rcases ht with rfl | ⟨c, _, t₀, _, rfl⟩
    · exact hs
    · exact shaped_swap (shaped_set hs (hN _) _) _
  · simp only [equivalentReorder, List.mem_cons, List.mem_map] at ht
    rcases ht with rfl | ⟨c, _, rfl⟩
    · exact hs
    · exact shaped_swap hs _
  · simp only [equivalentDoubleReorder, List.mem_cons, List.mem_flatMap, List.mem_map] at ht
    rcases ht with rfl | ⟨c, _, c', _, rfl⟩
    · exact hs
    · split
      · exact shaped_swap (shaped_swap hs _) _
      · exact hs
  · unfold equivalentUniformHalfShift at ht
    split at ht
    · rw [List.mem_singleton] at ht; exact ht ▸ hs
    · simp only [List.mem_cons, List.mem_map] at ht
      rcases ht with rfl | ⟨c, _, rfl⟩
      · exact hs
      · exact hH hs _
  · simp only [equivalentUniformShift, List.mem_cons, List.mem_map] at ht
    rcases ht with rfl | ⟨o, _, rfl⟩
    · exact hs
    · rw [hs.size]; exact shaped_map hs (keeps_shift h0 o)
  · unfold equivalentDualHalfShift at ht
    split at ht
    · rw [List.mem_singleton] at ht; exact ht ▸ hs
    · simp only [List.mem_cons, List.mem_append, List.mem_map, List.not_mem_nil, or_false] at ht
      rcases ht with rfl | ⟨c, _, rfl⟩ | rfl
      · exact hs
      · exact hH (hH hs _) _
      · simp only [tags, List.foldl, hs.size]
        exact shaped_set (shaped_set (shaped_set (shaped_set hs (hS _ _) _) (hS _ _) _) (hS _ _) _) (hS _ _) _
  · unfold equivalentSingleHalfShift at ht
    split at ht
    · rw [List.mem_singleton] at ht; exact ht ▸ hs
    · simp only [List.mem_cons, List.mem_map] at ht
      rcases ht with rfl | ⟨c, _, rfl⟩
      · exact hs
      · exact hH hs _
  · simp only [equivalentReverse, List.mem_cons, List.not_mem_nil, or_false] at ht
    rcases ht with rfl | rfl
    · exact hs
    · rw [hs.size]
      exact shaped_map hs (keeps_tab (g := fun _ i => n - 1 - i) fun _ i hi => by omega)
  · simp only [equivalentNegate, List.mem_cons, List.mem_map] at ht
    rcases ht with rfl | ⟨c, _, rfl⟩
    · exact hs
    · refine shaped_all hs.size ?_ ?_ ?_ ?_ <;> split
      · exact hN .W
      · exact hs.seq .W
      · exact hN .X
      · exact hs.seq .X
      · exact hN .Y
      · exact hs.seq .Y
      · exact hN .Z
      · exact hs.seq .Z
  · simp only [equivalentDoubleNegate, List.mem_cons, List.mem_map] at ht
    rcases ht with rfl | ⟨c, _, rfl⟩
    · exact hs
    · refine shaped_all hs.size ?_ ?_ ?_ ?_ <;> split
      · exact hN .W
      · exact hs.seq .W
      · exact hN .X
      · exact hs.seq .X
      · exact hN .Y
      · exact hs.seq .Y
      · exact hN .Z
      · exact hs.seq .Z
  · simp only [equivalentAlternatedNegation, List.mem_cons, List.not_mem_nil, or_false] at ht
    rcases ht with rfl | rfl
    · exact hs
    · exact shaped_map hs (keeps_alt hneg)
  · unfold equivalentEvenAlternatedNegation at ht
    split at ht
    · rw [List.mem_singleton] at ht; exact ht ▸ hs
    · simp only [List.mem_cons, List.not_mem_nil, or_false] at ht
      rcases ht with rfl | rfl
      · exact hs
      · exact shaped_map hs (keeps_alt hneg)
  · simp only [equivalentAutomorphism, List.mem_cons, List.mem_map] at ht
    rcases ht with rfl | ⟨k, _, rfl⟩
    · exact hs
    · exact shaped_map hs (keeps_permute h0 k)
  · simp only [equivalentDisjointSwaps, List.mem_cons, List.not_mem_nil, or_false] at ht
    rcases ht with rfl | rfl | rfl | rfl
    · exact hs
    all_goals exact shaped_swap (shaped_swap hs _) _

theorem shaped_reach (h0 : 0 < n) (hneg : ∀ x ∈ V, neg8 x ∈ V) {ops : List Op} (hops : ∀ op ∈ ops, op ∈ allOps)
    {s t : QuadSeq} (hs : Shaped n V s) (h : Reach ops s t) : Shaped n V t := by
  induction h with
  | refl => exact hs
  | tail _ h ih =>
    obtain ⟨op, h1, h2⟩ := h
    exact shaped_op h0 hneg (hops op h1) ih h2

theorem shaped_univ {V : List ℤ} {s : QuadSeq} (hs : Shaped n {x | x ∈ V} s) : s ∈ quadUniv V n := by
  have h : ∀ t, s.sequence t ∈ allLists V n := by
    intro t
    have := mem_allLists (V := V) (hs.seq t).2
    rwa [(hs.seq t).1] at this
  simp only [quadUniv, List.mem_flatMap, List.mem_map]
  refine ⟨s.a, h .W, s.b, h .X, s.c, h .Y, s.d, h .Z, ?_⟩
  have := hs.size
  cases s; simp only at this; subst this; rfl

theorem neg8_neg8 {x : ℤ} (h1 : -128 ≤ x) (h2 : x ≤ 127) : neg8 (neg8 x) = x := by
  by_cases h : x = -128
  · subst h; decide
  · rw [neg8_bd (x := x) (by omega) h2, neg8_bd (by omega) (by omega)]; omega

theorem neg8_range {x : ℤ} (h1 : -128 ≤ x) (h2 : x ≤ 127) : -128 ≤ neg8 x ∧ neg8 x ≤ 127 := by
  by_cases h : x = -128
  · subst h; decide
  · rw [neg8_bd (x := x) (by omega) h2]; omega

/-- Class generation terminates with the reachable quadruples for all 8-bit entries. -/
theorem generateEquivalenceClass_i8 (h0 : 0 < n) {ops : List Op} (hops : ∀ op ∈ ops, op ∈ allOps)
    {s : QuadSeq} (hs : Shaped n {x | -128 ≤ x ∧ x ≤ 127} s) :
    ∃ c, generateEquivalenceClass ops s = some c ∧ c.Nodup ∧ ∀ t, t ∈ c ↔ Reach ops s t := by
  set V : List ℤ := flat s ++ (flat s).map neg8 with hV
  have hseq : ∀ t, ∀ x ∈ s.sequence t, x ∈ flat s := by
    intro t x h
    unfold flat
    simp only [List.mem_append]
    cases t
    · exact .inl (.inl (.inl h))
    · exact .inl (.inl (.inr h))
    · exact .inl (.inr h)
    · exact .inr h
  have hflat : ∀ x ∈ flat s, -128 ≤ x ∧ x ≤ 127 := by
    intro x hx
    unfold flat at hx
    simp only [List.mem_append] at hx
    rcases hx with ((h | h) | h) | h
    · exact (hs.seq .W).2 x h
    · exact (hs.seq .X).2 x h
    · exact (hs.seq .Y).2 x h
    · exact (hs.seq .Z).2 x h
  have hVlen : V.length = 8 * n := by
    have h1 := (hs.seq .W).1
    have h2 := (hs.seq .X).1
    have h3 := (hs.seq .Y).1
    have h4 := (hs.seq .Z).1
    simp only [QuadSeq.sequence] at h1 h2 h3 h4
    rw [hV]; simp only [flat, List.length_append, List.length_map, h1, h2, h3, h4]; ring
  have hneg : ∀ x ∈ {x | x ∈ V}, neg8 x ∈ {x | x ∈ V} := by
    intro x (hx : x ∈ V)
    change neg8 x ∈ V
    rw [hV, List.mem_append, List.mem_map] at hx ⊢
    rcases hx with h | ⟨y, h, rfl⟩
    · exact .inr ⟨x, h, rfl⟩
    · left; rwa [neg8_neg8 (hflat y h).1 (hflat y h).2]
  have hsV : Shaped n {x | x ∈ V} s :=
    ⟨hs.size, fun t => ⟨(hs.seq t).1, fun x hx => List.mem_append_left _ (hseq t x hx)⟩⟩
  unfold generateEquivalenceClass
  refine classLoop_spec (U := quadUniv V n) ?_ _ _ (List.nodup_singleton s) ?_ (List.mem_singleton_self s) ?_
  · intro t ht
    exact shaped_univ (shaped_reach h0 hneg hops hsV ht)
  · intro t ht; rw [List.mem_singleton] at ht; subst ht; exact .refl
  · rw [univ_length, hVlen, classFuel, hs.size, List.length_singleton]
    have : (8 * n) ^ (4 * n) ≤ (8 * n + 1) ^ (4 * n) := Nat.pow_le_pow_left (by omega) _
    omega

/-! ## The product of all entries is invariant for even length -/

section prod
variable {n : ℕ} [NeZero n]

/-- Product of all entries. -/
def prodF (f : Fam n) : ℤ := (∏ i, f .W i) * (∏ i, f .X i) * (∏ i, f .Y i) * ∏ i, f .Z i

theorem prodF_congr {f g : Fam n} (h : ∀ t, ∏ i, f t i = ∏ i, g t i) : prodF f = prodF g := by
  unfold prodF; rw [h, h, h, h]

theorem prodF_neg (hn : Even n) (t₀ : Tag) (f : Fam n) : prodF (negAt t₀ f) = prodF f := by
  refine prodF_congr fun t => ?_
  unfold negAt
  by_cases h : t = t₀
  · simp only [h, if_true]
    rw [Finset.prod_neg, Finset.card_univ, ZMod.card, hn.neg_one_pow, one_mul]
  · simp only [h, if_false]

theorem prodF_swap (t₁ t₂ : Tag) (f : Fam n) : prodF (swapFam t₁ t₂ f) = prodF f := by
  unfold prodF swapFam
  cases t₁ <;> cases t₂ <;> simp only [Equiv.swap_apply_def, reduceCtorEq, if_true, if_false] <;> ring

theorem prodF_shift (o : ZMod n) (f : Fam n) : prodF (shiftAll o f) = prodF f :=
  prodF_congr fun t => Fintype.prod_equiv (Equiv.addRight o) _ _ fun i => rfl

theorem prodF_aut (u : (ZMod n)ˣ) (f : Fam n) : prodF (autAll u f) = prodF f :=
  prodF_congr fun t => Fintype.prod_equiv (Units.mulLeft u) _ _ fun i => rfl

theorem prodF_half (p : Tag → Bool) (f : Fam n) : prodF (halfAt p f) = prodF f :=
  prodF_congr fun t => by
    rw [halfAt_eq]
    exact Fintype.prod_equiv (Equiv.addRight _) _ _ fun i => rfl

theorem prodF_rev (f : Fam n) : prodF (fun t i => f t (-i - 1)) = prodF f :=
  prodF_congr fun t => Fintype.prod_equiv ((Equiv.neg _).trans (Equiv.addRight (-1))) _ _ fun i => by
    simp [sub_eq_add_neg]

theorem prodF_alt (f : Fam n) : prodF (altAll f) = prodF f := by
  unfold prodF altAll
  simp only [Finset.prod_mul_distrib]
  have : ∏ i : ZMod n, ((-1 : ℤ)) ^ i.val = 1 ∨ ∏ i : ZMod n, ((-1 : ℤ)) ^ i.val = -1 := by
    rw [Finset.prod_pow_eq_pow_sum]; exact neg_one_pow_eq_or ℤ _
  rcases this with h | h <;> rw [h] <;> ring

/-- Relations that keep the product. -/
theorem prod_step (hn : Even n) (hn' : n ≤ 100) {ops : List Op} (hops : ∀ op ∈ ops, op ∈ allOps) {s t : QuadSeq}
    (hs : Wf n s) (h : Step ops s t) : prodF (fam n t) = prodF (fam n s) := by
  obtain ⟨op, hop, ht⟩ := h
  have hop := hops op hop
  simp only [allOps, List.mem_cons, List.not_mem_nil, or_false] at hop
  rcases hop with rfl | rfl | rfl | rfl | rfl | rfl | rfl | rfl | rfl | rfl | rfl | rfl | rfl | rfl
  · rcases (negateSwap_is s hs t).1 ht with rfl | ⟨g, hg, rfl⟩
    · rfl
    · obtain ⟨_, _, _, _⟩ := hg; rw [fam_ofFam, prodF_swap, prodF_neg hn]
  · rcases (reorder_is s hs t).1 ht with rfl | ⟨g, ⟨_, _, _, rfl⟩, rfl⟩
    · rfl
    · rw [fam_ofFam, prodF_swap]
  · rcases (doubleReorder_is s hs t).1 ht with rfl | ⟨g, ⟨_, _, _, _, _, _, rfl⟩, rfl⟩
    · rfl
    · rw [fam_ofFam, prodF_swap, prodF_swap]
  · rcases (uniformHalfShift_is s hs t).1 ht with rfl | ⟨g, ⟨_, _⟩, rfl⟩
    · rfl
    · rw [fam_ofFam, prodF_half]
  · rcases (uniformShift_is s hs t).1 ht with rfl | ⟨g, ⟨_⟩, rfl⟩
    · rfl
    · rw [fam_ofFam, prodF_shift]
  · rcases (dualHalfShift_is s hs t).1 ht with rfl | ⟨g, hg, rfl⟩
    · rfl
    · rw [fam_ofFam]
      cases hg
      · rw [prodF_half]
      · rw [prodF_half]
  · rcases (singleHalfShift_is s hs t).1 ht with rfl | ⟨g, ⟨_, _⟩, rfl⟩
    · rfl
    · rw [fam_ofFam, prodF_half]
  · rcases (reverse_is s hs t).1 ht with rfl | ⟨g, rfl, rfl⟩
    · rfl
    · rw [fam_ofFam, prodF_rev]
  · rcases (negate_is s hs t).1 ht with rfl | ⟨g, ⟨_, rfl⟩, rfl⟩
    · rfl
    · rw [fam_ofFam, prodF_neg hn]
  · rcases (doubleNegate_is s hs t).1 ht with rfl | ⟨g, ⟨_, _, _, rfl⟩, rfl⟩
    · rfl
    · rw [fam_ofFam, prodF_neg hn, prodF_neg hn]
  · rcases (alternatedNegation_is s hs t).1 ht with rfl | ⟨g, rfl, rfl⟩
    · rfl
    · rw [fam_ofFam, prodF_alt]
  · rcases (evenAlternatedNegation_is s hs t).1 ht with rfl | ⟨g, ⟨_, rfl⟩, rfl⟩
    · rfl
    · rw [fam_ofFam, prodF_alt]
  · rcases (automorphism_is hn' s hs t).1 ht with rfl | ⟨g, ⟨_, rfl⟩, rfl⟩
    · rfl
    · rw [fam_ofFam, prodF_aut]
  · rcases (disjointSwaps_is s hs t).1 ht with rfl | ⟨g, rfl | rfl | rfl, rfl⟩
    · rfl
    all_goals rw [fam_ofFam, prodF_swap, prodF_swap]

theorem prod_reach (hn : Even n) (hn' : n ≤ 100) {ops : List Op} (hops : ∀ op ∈ ops, op ∈ allOps) {s t : QuadSeq}
    (hs : Wf n s) (h : Reach ops s t) : prodF (fam n t) = prodF (fam n s) := by
  have hg : ∀ op ∈ ops, GoodOp n op := fun op h => good_all hn' op (hops op h)
  induction h with
  | refl => rfl
  | tail h1 h2 ih => rw [prod_step hn hn' hops (reach_wf hg hs h1) h2, ih]

end prod

/-! ## Length 32 -/

theorem labelTag32 : labelTag 32 (-128) = 3 := by decide +kernel
theorem labelIdx32 : labelIdx 32 (-128) = 31 := by decide +kernel

/-- All 8-bit labels except 0. -/
theorem label32_all : ∀ k : Fin 256, (k : ℕ) ≠ 128 → labelTag 32 ((k : ℤ) - 128) < 4 := by decide +kernel

theorem labelTag32_lt {e : ℤ} (h1 : -128 ≤ e) (h2 : e ≤ 127) (h0 : e ≠ 0) : labelTag 32 e < 4 := by
  have := label32_all ⟨(e + 128).toNat, by omega⟩ (by simp only; omega)
  simp only at this
  rwa [show (((e + 128).toNat : ℕ) : ℤ) - 128 = e by omega] at this

theorem labelSeq32_ent : ∀ t, ∀ x ∈ (labelSeq 32).sequence t, x ≠ 0 ∧ -128 ≤ x ∧ x ≤ 127 := by
  intro t
  cases t <;> decide +kernel

theorem labelSeq32_shaped : Shaped 32 {x | x ≠ 0 ∧ -128 ≤ x ∧ x ≤ 127} (labelSeq 32) :=
  ⟨rfl, fun t => ⟨by cases t <;> decide, labelSeq32_ent t⟩⟩

/-- The quadruple with the last entry of the last sequence negated. -/
def flipLast (s : QuadSeq) : QuadSeq := { s with d := s.d.set 31 (-at0 s.d 31) }

/-- The label at position `i` of sequence `k` for length 32. -/
theorem label32_at : ∀ k : Fin 4, ∀ i : Fin 32, ¬ ((k : ℕ) = 3 ∧ (i : ℕ) = 31) →
    0 < at0 ((labelSeq 32).sequence (tagNo k)) i ∧
    labelTag 32 (at0 ((labelSeq 32).sequence (tagNo k)) i) = k ∧
    labelIdx 32 (at0 ((labelSeq 32).sequence (tagNo k)) i) = i := by decide +kernel

theorem label32_last : at0 ((labelSeq 32).sequence .Z) 31 = -128 := by decide +kernel

/-- The value `generate_equivalence_class_fast` computes for a label at length 32. -/
def val32 (s : QuadSeq) (e : ℤ) : ℤ :=
  if e < 0 then neg8 (at0 (s.sequence (tagNo (labelTag 32 e))) (labelIdx 32 e))
  else at0 (s.sequence (tagNo (labelTag 32 e))) (labelIdx 32 e)

theorem applyLabel32 {s : QuadSeq} (hs : Wf 32 s) {e : ℤ} (h : e ≠ 0 ∧ -128 ≤ e ∧ e ≤ 127) :
    applyLabel s e = some (val32 s e) := by
  unfold applyLabel
  rw [hs.size, tagMatch s (labelTag32_lt h.2.1 h.2.2 h.1)]
  rfl

theorem applySymmetry32 {s g : QuadSeq} (hs : Wf 32 s) (hg : Shaped 32 {x | x ≠ 0 ∧ -128 ≤ x ∧ x ≤ 127} g) :
    applySymmetry s g = some ⟨32, g.a.map (val32 s), g.b.map (val32 s), g.c.map (val32 s), g.d.map (val32 s)⟩ := by
  unfold applySymmetry
  have h1 := (hg.seq .W).1
  have h2 := (hg.seq .X).1
  have h3 := (hg.seq .Y).1
  have h4 := (hg.seq .Z).1
  simp only [QuadSeq.sequence] at h1 h2 h3 h4
  rw [mapM_some (g := val32 s), Option.map_some]
  · refine congrArg some ?_
    simp only [List.map_append, hs.size]
    congr 1
    · rw [List.append_assoc, List.append_assoc, List.take_left' (by simp [h1])]
    · rw [List.append_assoc, List.append_assoc, List.drop_left' (by simp [h1]), List.take_left' (by simp [h2])]
    · rw [List.append_assoc, List.drop_left' (by simp [h1, h2]), List.take_left' (by simp [h3])]
    · rw [List.drop_left' (by simp [h1, h2, h3]), List.take_of_length_le (by simp [h4])]
  · intro x hx
    refine applyLabel32 hs ?_
    simp only [List.mem_append] at hx
    rcases hx with ((h | h) | h) | h
    · exact (hg.seq .W).2 x h
    · exact (hg.seq .X).2 x h
    · exact (hg.seq .Y).2 x h
    · exact (hg.seq .Z).2 x h

theorem at0_map {l : List ℤ} (f : ℤ → ℤ) {i : ℕ} (h : i < l.length) : at0 (l.map f) i = f (at0 l i) := by
  unfold at0
  rw [List.getD_eq_getElem _ _ (by rwa [List.length_map]), List.getElem_map, List.getD_eq_getElem _ _ h]

theorem val32_label {s : QuadSeq} {k i : ℕ} (hk : k < 4) (hi : i < 32) (h : ¬ (k = 3 ∧ i = 31)) :
    val32 s (at0 ((labelSeq 32).sequence (tagNo k)) i) = at0 (s.sequence (tagNo k)) i := by
  obtain ⟨h1, h2, h3⟩ := label32_at ⟨k, hk⟩ ⟨i, hi⟩ h
  simp only at h1 h2 h3
  unfold val32
  rw [if_neg (by omega), h2, h3]

theorem applySymmetry32_id {s : QuadSeq} (hs : Wf 32 s) : applySymmetry s (labelSeq 32) = some (flipLast s) := by
  rw [applySymmetry32 hs labelSeq32_shaped]
  refine congrArg some ?_
  have key : ∀ k < 4, k ≠ 3 → ((labelSeq 32).sequence (tagNo k)).map (val32 s) = s.sequence (tagNo k) := by
    intro k hk hk3
    have hl := (labelSeq32_shaped.seq (tagNo k)).1
    refine list_ext_at0 (by rw [List.length_map, hl, hs.len]) fun i hi => ?_
    rw [List.length_map] at hi
    rw [at0_map _ hi, val32_label hk (by omega) (by omega)]
  have k0 := key 0 (by omega) (by omega)
  have k1 := key 1 (by omega) (by omega)
  have k2 := key 2 (by omega) (by omega)
  simp only [tagNo, QuadSeq.sequence] at k0 k1 k2
  unfold flipLast
  have k3 : (labelSeq 32).d.map (val32 s) = s.d.set 31 (-at0 s.d 31) := by
    have hl := (labelSeq32_shaped.seq .Z).1
    have hd := hs.len .Z
    simp only [QuadSeq.sequence] at hl hd
    refine list_ext_at0 (by rw [List.length_map, hl, List.length_set, hd]) fun i hi => ?_
    rw [List.length_map] at hi
    rw [at0_map _ hi]
    by_cases h31 : i = 31
    · subst h31
      have := label32_last
      simp only [QuadSeq.sequence] at this
      rw [this]
      unfold val32
      rw [if_pos (by omega), labelTag32, labelIdx32]
      have hb := hs.bd .Z _ (at0_mem (i := 31) (by rw [hs.len]; omega))
      simp only [tagNo]
      rw [neg8_bd hb.1 hb.2]
      simp only [QuadSeq.sequence]
      unfold at0
      rw [List.getD_eq_getElem (l := List.set _ _ _) _ (by rw [List.length_set]; omega), List.getElem_set_self]
    · have := val32_label (s := s) (k := 3) (i := i) (by omega) (by omega) (by omega)
      simp only [tagNo, QuadSeq.sequence] at this
      rw [this]
      unfold at0
      rw [List.getD_eq_getElem (l := List.set _ _ _) _ (by rw [List.length_set]; omega),
        List.getElem_set_ne (by omega), List.getD_eq_getElem]
  rw [k0, k1, k2, k3, ← hs.size]

theorem flipLast_prod {s : QuadSeq} (hs : PMQuad 32 s) : prodF (fam 32 (flipLast s)) = -prodF (fam 32 s) := by
  have hd := (PMQuad.wf hs).len .Z
  simp only [QuadSeq.sequence] at hd
  have key : ∏ i : ZMod 32, fam 32 (flipLast s) .Z i = -∏ i : ZMod 32, fam 32 s .Z i := by
    rw [← Finset.mul_prod_erase Finset.univ _ (Finset.mem_univ (31 : ZMod 32)),
      ← Finset.mul_prod_erase Finset.univ (fun i => fam 32 s .Z i) (Finset.mem_univ (31 : ZMod 32)), ← neg_mul]
    congr 1
    · change at0 (s.d.set 31 (-at0 s.d 31)) 31 = -at0 s.d 31
      unfold at0
      rw [List.getD_eq_getElem (l := List.set _ _ _) _ (by rw [List.length_set]; omega), List.getElem_set_self]
    · refine Finset.prod_congr rfl fun i hi => ?_
      have hne : i ≠ 31 := (Finset.mem_erase.1 hi).1
      have hlt : i.val < 32 := ZMod.val_lt i
      have hv : i.val ≠ 31 := fun h => hne (ZMod.val_injective 32 (h.trans rfl))
      change at0 (s.d.set 31 (-at0 s.d 31)) i.val = at0 s.d i.val
      unfold at0
      rw [List.getD_eq_getElem (l := List.set _ _ _) _ (by rw [List.length_set]; omega),
        List.getElem_set_ne (by omega)]
      exact (List.getD_eq_getElem s.d 0 (by omega)).symm
  unfold prodF
  rw [key]
  change (∏ i, fam 32 s .W i) * (∏ i, fam 32 s .X i) * (∏ i, fam 32 s .Y i) * _ = _
  ring

theorem prodF_ne {n : ℕ} [NeZero n] {f : Fam n} (h : PMFam f) : prodF f ≠ 0 := by
  have : ∀ t, ∏ i, f t i ≠ 0 := fun t => Finset.prod_ne_zero_iff.2 fun i _ => by
    rcases h t i with h | h <;> rw [h] <;> decide
  exact mul_ne_zero (mul_ne_zero (mul_ne_zero (this _) (this _)) (this _)) (this _)

/-- At length 32 the symbolic class of every ±1 quadruple contains a quadruple outside its class. -/
theorem fast32 {ops : List Op} (hops : ∀ op ∈ ops, op ∈ allOps) {s : QuadSeq} (hs : PMQuad 32 s) :
    ∃ G c, generateSymmetryGroup 32 ops = some G ∧ generateEquivalenceClassFast s G = some c ∧
      flipLast s ∈ c ∧ ¬ Reach ops s (flipLast s) := by
  have hL : Shaped 32 {x | -128 ≤ x ∧ x ≤ 127} (labelSeq 32) :=
    ⟨rfl, fun t => ⟨(labelSeq32_shaped.seq t).1, fun x hx => ((labelSeq32_shaped.seq t).2 x hx).2⟩⟩
  obtain ⟨G, hG, _, hGm⟩ := generateEquivalenceClass_i8 (by omega) hops hL
  have hw := PMQuad.wf hs
  have hsym : ∀ g ∈ G, applySymmetry s g =
      some ⟨32, g.a.map (val32 s), g.b.map (val32 s), g.c.map (val32 s), g.d.map (val32 s)⟩ := by
    intro g hg
    refine applySymmetry32 hw (shaped_reach (by omega) ?_ hops labelSeq32_shaped ((hGm g).1 hg))
    rintro x ⟨h0, h1, h2⟩
    have := neg8_range h1 h2
    refine ⟨fun h => h0 ?_, this⟩
    have h' := neg8_neg8 h1 h2
    rw [h] at h'; rw [← h']; decide
  refine ⟨G, _, hG, by unfold generateEquivalenceClassFast; rw [mapM_some_mem G hsym, Option.map_some], ?_, ?_⟩
  · rw [List.mem_dedup, List.mem_map]
    refine ⟨labelSeq 32, (hGm _).2 .refl, ?_⟩
    have h1 := hsym _ ((hGm _).2 .refl)
    rw [applySymmetry32_id hw] at h1
    exact (Option.some.inj h1).symm
  · intro h
    have h1 := prod_reach (n := 32) (by decide) (by omega) hops hw h
    rw [flipLast_prod hs] at h1
    have := prodF_ne (pmfam_fam hs)
    omega

end Proofs
