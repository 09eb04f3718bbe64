import Verif.Proofs.Reps

/-!
# Class-based reductions and the expansion of Williamson-type classes
-/

set_option linter.unusedSectionVars false
set_option linter.unusedVariables false
set_option linter.unusedSimpArgs false

namespace Proofs
open Model Spec

theorem foldlM_some {α β : Type} {f : β → α → Option β} {f' : β → α → β} {l : List α}
    (h : ∀ a ∈ l, ∀ b, f b a = some (f' b a)) (b : β) : l.foldlM f b = some (l.foldl f' b) := by
  induction l generalizing b with
  | nil => rfl
  | cons a l ih =>
    rw [List.foldlM_cons, h a List.mem_cons_self, List.foldl_cons]
    exact ih (fun a ha => h a (List.mem_cons_of_mem _ ha)) _

section
variable {n : ℕ} [NeZero n]

/-- Data produced by the symbolic class of every ±1 quadruple of length `n`. -/
theorem fast_data (hn : n ≤ 31) {ops : List Op} (hops : ∀ op ∈ ops, op ∈ allOps) :
    ∃ (G : List QuadSeq) (C : QuadSeq → List QuadSeq) (μ : QuadSeq → QuadSeq), generateSymmetryGroup n ops = some G ∧
      ∀ s, PMQuad n s → generateEquivalenceClassFast s G = some (C s) ∧ (C s).Nodup ∧ (∀ t, t ∈ C s ↔ Reach ops s t) ∧
        findMinimum (C s) = some (μ s) ∧ IsLeastQ (Reach ops s) (μ s) := by
  obtain ⟨G, hG⟩ := group_exists (n := n) hn hops
  have hg : ∀ op ∈ ops, GoodOp n op := fun op h => good_all (by omega) op (hops op h)
  refine ⟨G, fun s => (generateEquivalenceClassFast s G).getD [],
    fun s => (findMinimum ((generateEquivalenceClassFast s G).getD [])).getD s, hG, fun s hs => ?_⟩
  obtain ⟨G', c, h1, h2, h3, h4⟩ := fast_spec hn hg (PMQuad.wf hs)
  rw [hG] at h1; cases h1
  have hsc : s ∈ c := (h4 s).2 .refl
  obtain ⟨m, e, hm⟩ := findMinimum_spec (n := n) (l := c) (by
      intro h; rw [h] at hsc; exact absurd hsc (List.not_mem_nil))
    (fun t ht => pm_len (reach_pm (by omega) hops hs ((h4 t).1 ht)))
  simp only [h2, Option.getD_some, e]
  exact ⟨trivial, h3, h4, trivial, (h4 m).1 hm.1, fun t ht => hm.2 t ((h4 t).2 ht)⟩

theorem reach_uniform (hn : n ≤ 31) {ops : List Op} (hops : ∀ op ∈ ops, op ∈ allOps) {s : QuadSeq} (hs : PMQuad n s) :
    Uniform n (Reach ops s) := fun t h =>
  have := reach_pm (by omega) hops hs h
  ⟨this.size, pm_len this⟩

theorem par_spec (hn : n ≤ 31) {ops : List Op} (hops : ∀ op ∈ ops, op ∈ allOps) {l : List QuadSeq} (hne : l ≠ [])
    (hl : ∀ s ∈ l, PMQuad n s) :
    ∃ r, reduceToEquivalencePar l ops = some r ∧ r.Nodup ∧ ∀ x, x ∈ r ↔ ∃ s ∈ l, IsLeastQ (Reach ops s) x := by
  obtain ⟨G, C, μ, hG, H⟩ := fast_data (n := n) hn hops
  cases l with
  | nil => exact absurd rfl hne
  | cons s0 l =>
    have h0 : s0.size = n := (hl s0 List.mem_cons_self).size
    refine ⟨unique ((s0 :: l).map μ), ?_, (unique_spec _).1, fun x => ?_⟩
    · unfold reduceToEquivalencePar
      simp only [h0, hG, Option.bind_some]
      rw [foldlM_some (f' := fun res s => if μ s ∈ res then res else res ++ [μ s])]
      · unfold unique; rw [List.foldl_map]
      · intro s hs b
        obtain ⟨h1, _, _, h4, _⟩ := H s (hl s hs)
        rw [h1]; simp only [Option.bind_some, h4, Option.map_some]
    · rw [(unique_spec _).2, List.mem_map]
      constructor
      · rintro ⟨s, hs, rfl⟩
        exact ⟨s, hs, (H s (hl s hs)).2.2.2.2⟩
      · rintro ⟨s, hs, h⟩
        exact ⟨s, hs, IsLeastQ.unique (reach_uniform hn hops (hl s hs)) (H s (hl s hs)).2.2.2.2 h⟩

/-- The classes collected so far. -/
structure Coll (n : ℕ) (ops : List Op) (C : QuadSeq → List QuadSeq) (seen : QuadSeq → Prop) (cl : List (List QuadSeq)) :
    Prop where
  from_seen : ∀ c ∈ cl, ∃ s, seen s ∧ PMQuad n s ∧ c = C s
  covers : ∀ s, seen s → ∃ c ∈ cl, s ∈ c
  disj : cl.Pairwise fun c d => ∀ x ∈ c, x ∉ d

theorem collect_spec (hn : n ≤ 31) {ops : List Op} (hops : ∀ op ∈ ops, op ∈ allOps) {G : List QuadSeq} {C : QuadSeq → List QuadSeq}
    (H : ∀ s, PMQuad n s → generateEquivalenceClassFast s G = some (C s) ∧ ∀ t, t ∈ C s ↔ Reach ops s t)
    (l : List QuadSeq) (hl : ∀ s ∈ l, PMQuad n s) (seen : QuadSeq → Prop) (cl : List (List QuadSeq)) (hc : Coll n ops C seen cl) :
    ∃ r, l.foldlM (fun classes s =>
      if classes.any fun c => decide (s ∈ c) then some classes
      else (generateEquivalenceClassFast s G).map fun c => classes ++ [c]) cl = some r ∧
      Coll n ops C (fun s => seen s ∨ s ∈ l) r := by
  have hg : ∀ op ∈ ops, GoodOp n op := fun op h => good_all (by omega) op (hops op h)
  induction l generalizing seen cl with
  | nil => exact ⟨cl, rfl, by simpa using hc⟩
  | cons s l ih =>
    have hs := hl s List.mem_cons_self
    have hl' := fun t ht => hl t (List.mem_cons_of_mem s ht)
    obtain ⟨h1, h2⟩ := H s hs
    have key : ∃ cl', (if cl.any fun c => decide (s ∈ c) then some cl
        else (generateEquivalenceClassFast s G).map fun c => cl ++ [c]) = some cl' ∧
        Coll n ops C (fun t => seen t ∨ t = s) cl' := by
      by_cases hany : cl.any fun c => decide (s ∈ c)
      · refine ⟨cl, by rw [if_pos hany], fun c h => ?_, ?_, hc.disj⟩
        · obtain ⟨u, a, b⟩ := hc.from_seen c h; exact ⟨u, .inl a, b⟩
        · rintro t (h | rfl)
          · exact hc.covers t h
          · obtain ⟨c, h, h'⟩ := List.any_eq_true.1 hany
            exact ⟨c, h, of_decide_eq_true h'⟩
      · refine ⟨cl ++ [C s], by rw [if_neg hany, h1]; rfl, fun c h => ?_, ?_, ?_⟩
        · rcases List.mem_append.1 h with h | h
          · obtain ⟨u, a, b⟩ := hc.from_seen c h; exact ⟨u, .inl a, b⟩
          · rw [List.mem_singleton] at h; exact ⟨s, .inr rfl, hs, h⟩
        · rintro t (h | rfl)
          · obtain ⟨c, h, h'⟩ := hc.covers t h
            exact ⟨c, List.mem_append_left _ h, h'⟩
          · exact ⟨C t, List.mem_append_right _ (List.mem_singleton_self _), (h2 t).2 .refl⟩
        · rw [List.pairwise_append]
          refine ⟨hc.disj, List.pairwise_singleton _ _, ?_⟩
          intro c hcc d hd x hx hx'
          rw [List.mem_singleton] at hd; subst hd
          obtain ⟨u, _, hu, rfl⟩ := hc.from_seen c hcc
          apply hany
          rw [List.any_eq_true]
          refine ⟨_, hcc, decide_eq_true ?_⟩
          rw [(H u hu).2] at hx ⊢
          exact reach_trans hx (reach_symm hg (PMQuad.wf hs) ((h2 x).1 hx'))
    obtain ⟨cl', e, hcl'⟩ := key
    obtain ⟨r, e', hr⟩ := ih hl' _ cl' hcl'
    refine ⟨r, ?_, ?_⟩
    · rw [List.foldlM_cons, e]; exact e'
    · have : (fun t => seen t ∨ t ∈ s :: l) = fun t => (seen t ∨ t = s) ∨ t ∈ l := by
        funext t; rw [List.mem_cons, or_assoc]
      rw [this]; exact hr

theorem classes_spec (hn : n ≤ 31) {ops : List Op} (hops : ∀ op ∈ ops, op ∈ allOps) {l : List QuadSeq} (hne : l ≠ [])
    (hl : ∀ s ∈ l, PMQuad n s) :
    ∃ r, reduceToEquivalence l ops = some r ∧ r.Nodup ∧ ∀ x, x ∈ r ↔ ∃ s ∈ l, IsLeastQ (Reach ops s) x := by
  have hg : ∀ op ∈ ops, GoodOp n op := fun op h => good_all (by omega) op (hops op h)
  obtain ⟨G, C, μ, hG, H⟩ := fast_data (n := n) hn hops
  obtain ⟨cl, e, hcl⟩ := collect_spec hn hops (G := G) (C := C) (fun s hs => ⟨(H s hs).1, (H s hs).2.2.1⟩) l hl
    (fun _ => False) [] ⟨by simp, by simp, List.Pairwise.nil⟩
  simp only [false_or] at hcl
  have hmin : ∀ c ∈ cl, ∃ s ∈ l, PMQuad n s ∧ c = C s ∧ findMinimum c = some (μ s) := by
    intro c hc
    obtain ⟨s, h1, h2, rfl⟩ := hcl.from_seen c hc
    exact ⟨s, h1, h2, rfl, (H s h2).2.2.2.1⟩
  set ν : List QuadSeq → QuadSeq := fun c => (findMinimum c).getD (QuadSeq.new 0) with hν
  have hν' : ∀ c ∈ cl, findMinimum c = some (ν c) := by
    intro c hc
    obtain ⟨s, _, _, _, h⟩ := hmin c hc
    rw [hν]; simp only [h, Option.getD_some]
  have hmem : ∀ c ∈ cl, ν c ∈ c := by
    intro c hc
    obtain ⟨s, _, h2, h3, h⟩ := hmin c hc
    have : ν c = μ s := by rw [hν]; simp only [h, Option.getD_some]
    rw [this, h3, (H s h2).2.2.1]
    exact (H s h2).2.2.2.2.1
  refine ⟨cl.map ν, ?_, ?_, fun x => ?_⟩
  · cases l with
    | nil => exact absurd rfl hne
    | cons s0 l =>
      have h0 : s0.size = n := (hl s0 List.mem_cons_self).size
      unfold reduceToEquivalence
      simp only [h0, hG, Option.bind_some]
      have e' : collectClasses G (s0 :: l) = some cl := e
      rw [e', Option.bind_some]
      exact mapM_some hν'
  · unfold List.Nodup
    rw [List.pairwise_map]
    refine hcl.disj.imp_of_mem ?_
    intro c d hc hd hcd heq
    exact hcd _ (hmem c hc) (heq ▸ hmem d hd)
  · rw [List.mem_map]
    constructor
    · rintro ⟨c, hc, rfl⟩
      obtain ⟨s, h1, h2, h3, h⟩ := hmin c hc
      have : ν c = μ s := by rw [hν]; simp only [h, Option.getD_some]
      exact ⟨s, h1, by rw [this]; exact (H s h2).2.2.2.2⟩
    · rintro ⟨s, hs, h⟩
      obtain ⟨c, hc, hsc⟩ := hcl.covers s hs
      refine ⟨c, hc, ?_⟩
      obtain ⟨u, h1, h2, h3, h4⟩ := hmin c hc
      have e1 : ν c = μ u := by rw [hν]; simp only [h4, Option.getD_some]
      rw [e1]
      rw [h3, (H u h2).2.2.1] at hsc
      refine IsLeastQ.unique (reach_uniform hn hops h2) (H u h2).2.2.2.2 ⟨reach_trans hsc h.1, fun t ht => h.2 t ?_⟩
      exact reach_trans (reach_symm hg (PMQuad.wf h2) hsc) ht

/-! ## The set-difference reduction -/

theorem filter_fold {l : List QuadSeq} (P : QuadSeq → QuadSeq → Bool) (res : List QuadSeq) (e : QuadSeq) :
    e ∈ l.foldl (fun res s => res.filter (P s)) res ↔ e ∈ res ∧ ∀ s ∈ l, P s e = true := by
  induction l generalizing res with
  | nil => simp
  | cons s l ih =>
    rw [List.foldl_cons, ih, List.mem_filter, List.forall_mem_cons, and_assoc]

theorem setDif_spec (hn : n ≤ 31) {ops : List Op} (hops : ∀ op ∈ ops, op ∈ allOps) {l : List QuadSeq} (hne : l ≠ [])
    (hl : ∀ s ∈ l, PMQuad n s) :
    ∃ r, reduceToEquivalenceSetDif l ops = some r ∧
      ∀ e, e ∈ r ↔ e ∈ l ∧ ∀ s ∈ l, Reach ops s e → e = s := by
  obtain ⟨G, C, μ, hG, H⟩ := fast_data (n := n) hn hops
  cases l with
  | nil => exact absurd rfl hne
  | cons s0 l =>
    have h0 : s0.size = n := (hl s0 List.mem_cons_self).size
    refine ⟨(s0 :: l).foldl (fun res s => res.filter fun e => e ∉ (C s).filter fun x => x ≠ s) (s0 :: l).dedup, ?_,
      fun e => ?_⟩
    · unfold reduceToEquivalenceSetDif
      simp only [h0, hG, Option.bind_some]
      refine foldlM_some (fun s hs b => ?_) _
      rw [(H s (hl s hs)).1, Option.map_some]
    · rw [filter_fold (P := fun s e => decide (e ∉ (C s).filter fun x => x ≠ s)), List.mem_dedup]
      refine and_congr_right fun _ => forall₂_congr fun s hs => ?_
      rw [decide_eq_true_iff, List.mem_filter, (H s (hl s hs)).2.2.1, decide_eq_true_iff]
      tauto

/-! ## Cosets of the QT group in the Williamson-type group -/

theorem qt_refl (f : Fam n) : QTEquiv f f := .refl _
theorem qt_symm {f g : Fam n} (h : QTEquiv f g) : QTEquiv g f := .symm _ _ h
theorem qt_trans {f g h : Fam n} (h1 : QTEquiv f g) (h2 : QTEquiv g h) : QTEquiv f h := .trans _ _ _ h1 h2
theorem qt_ns {f g : Fam n} (h : NSMove f g) : QTEquiv f g := .rel _ _ (.inr (.inr (.inr h)))
theorem qt_move {f g : Fam n} (h : QTMove f g) : QTEquiv f g := .rel _ _ h

theorem swap_neg (t₀ t₁ t₂ : Tag) (f : Fam n) :
    swapFam t₁ t₂ (negAt t₀ f) = negAt (Equiv.swap t₁ t₂ t₀) (swapFam t₁ t₂ f) := by
  funext t i
  unfold swapFam negAt
  simp only [Equiv.swap_apply_eq_iff]

/-- A negation and a swap are the same modulo QT moves. -/
theorem neg_qt_swap (f : Fam n) (t₀ t₁ t₂ : Tag) (h : t₁ ≠ t₂) : QTEquiv (negAt t₀ f) (swapFam t₁ t₂ f) := by
  have := qt_ns (.mk (f := negAt t₀ f) t₀ t₁ t₂ h)
  rwa [negAt_negAt] at this

theorem neg_qt_neg (f : Fam n) (t₀ t₁ : Tag) : QTEquiv (negAt t₀ f) (negAt t₁ f) :=
  qt_trans (neg_qt_swap f t₀ .W .X (by decide)) (qt_symm (neg_qt_swap f t₁ .W .X (by decide)))

/-- Negating the first sequence. -/
def negW (f : Fam n) : Fam n := negAt .W f

/-- Half shift of the first sequence. -/
def halfW (f : Fam n) : Fam n := halfAt (fun t => decide (t = .W)) f

theorem negW_move {f g : Fam n} (h : QTMove f g) : QTEquiv (negW f) (negW g) := by
  rcases h with h | h | h | h
  · cases h with
    | mk o => exact qt_move (.inl (by have := ShiftMove.mk (f := negW f) o; exact this))
  · refine qt_move (.inr (.inl ?_))
    cases h with
    | alt he => have := BaseMove.alt (f := negW f) he; rwa [negW, neg_alt] at this
    | aut u => have := BaseMove.aut (f := negW f) u; exact this
  · refine qt_move (.inr (.inr (.inl ?_)))
    cases h with
    | two he a b hab => have := DualMove.two (f := negW f) he a b hab; rwa [negW, neg_half] at this
    | four he => have := DualMove.four (f := negW f) he; rwa [negW, neg_half] at this
  · cases h with
    | mk t₀ t₁ t₂ h12 =>
      have h1 : negW (swapFam t₁ t₂ (negAt t₀ f)) = swapFam t₁ t₂ (negAt (Equiv.swap t₁ t₂ .W) (negAt t₀ f)) := by
        rw [swap_neg (Equiv.swap t₁ t₂ .W), Equiv.swap_apply_self]; rfl
      have h2 : negAt (Equiv.swap t₁ t₂ .W) (negAt t₀ f) = negAt t₀ (negAt (Equiv.swap t₁ t₂ .W) f) := by
        funext t i; unfold negAt; split_ifs <;> rfl
      rw [h1, h2]
      exact qt_trans (neg_qt_neg f _ _) (qt_ns (.mk _ _ _ h12))

theorem negW_qt {f g : Fam n} (h : QTEquiv f g) : QTEquiv (negW f) (negW g) := by
  induction h with
  | rel x y h => exact negW_move h
  | refl x => exact .refl _
  | symm x y _ ih => exact .symm _ _ ih
  | trans x y z _ _ h1 h2 => exact .trans _ _ _ h1 h2

theorem half_unit (he : Even n) (u : (ZMod n)ˣ) : (u : ZMod n) * ((n / 2 : ℕ) : ZMod n) = ((n / 2 : ℕ) : ZMod n) := by
  obtain ⟨m, hm⟩ := he
  have hm2 : n / 2 = m := by omega
  rw [hm2]
  have hu : (u : ZMod n) = (((u : ZMod n).val : ℕ) : ZMod n) := (ZMod.natCast_zmod_val _).symm
  have hodd : (u : ZMod n).val % 2 = 1 := by
    by_contra hc
    have h2 : 2 ∣ (u : ZMod n).val := Nat.dvd_of_mod_eq_zero (by omega)
    have hco := ZMod.val_coe_unit_coprime u
    have : 2 ∣ Nat.gcd (u : ZMod n).val n := Nat.dvd_gcd h2 ⟨m, by omega⟩
    rw [hco] at this
    omega
  rw [hu]
  obtain ⟨q, hq⟩ : ∃ q, (u : ZMod n).val = 2 * q + 1 := ⟨(u : ZMod n).val / 2, by omega⟩
  rw [hq]
  have : (((2 * q + 1 : ℕ) : ZMod n)) * ((m : ℕ) : ZMod n) = ((n * q + m : ℕ) : ZMod n) := by
    rw [← Nat.cast_mul]; congr 1; subst hm; ring
  rw [this]
  push_cast
  simp

theorem alt_half_sign (he : Even n) (i : ZMod n) :
    (-1 : ℤ) ^ (i + ((n / 2 : ℕ) : ZMod n)).val = (-1) ^ (n / 2) * (-1) ^ i.val := by
  obtain ⟨m, hm⟩ := he
  have hm2 : n / 2 = m := by omega
  rw [hm2]
  have hpos := Nat.pos_of_neZero n
  have hv : (i + ((m : ℕ) : ZMod n)).val = (i.val + m) % n := by
    rw [ZMod.val_add, ZMod.val_natCast, Nat.add_mod_mod]
  rw [hv, ← pow_add, add_comm m]
  conv_rhs => rw [← Nat.div_add_mod (i.val + m) n, pow_add, pow_mul]
  have : (-1 : ℤ) ^ n = 1 := by rw [hm]; exact Even.neg_one_pow ⟨m, rfl⟩
  rw [this, one_pow, one_mul]

theorem half_half_comm (p q : Tag → Bool) (f : Fam n) : halfAt p (halfAt q f) = halfAt q (halfAt p f) := by
  funext t i; unfold halfAt; split_ifs <;> rfl

theorem halfAt_pair (he : Even n) (f : Fam n) (a b : Tag) (hab : a ≠ b) :
    halfAt (fun t => decide (t = a ∨ t = b)) f = halfAt (fun t => decide (t = a)) (halfAt (fun t => decide (t = b)) f) := by
  funext t i
  unfold halfAt
  by_cases h1 : t = a <;> by_cases h2 : t = b
  · exact absurd (h1.symm.trans h2) hab
  · subst h1; simp [hab]
  · subst h2; simp [Ne.symm hab]
  · simp [h1, h2]

/-- Single half shifts are the same modulo QT moves. -/
theorem half_qt_half (he : Even n) (f : Fam n) (a b : Tag) :
    QTEquiv (halfAt (fun t => decide (t = a)) f) (halfAt (fun t => decide (t = b)) f) := by
  by_cases hab : a = b
  · subst hab; exact .refl _
  · have h1 := qt_move (.inr (.inr (.inl (DualMove.two (f := halfAt (fun t => decide (t = a)) f) he b a (Ne.symm hab)))))
    rw [halfAt_pair he _ b a (Ne.symm hab), halfAt_halfAt he] at h1
    exact h1

/-- Half shift of `W` normalises the QT moves up to a negation. -/
theorem halfW_move (he : Even n) {f g : Fam n} (h : QTMove f g) :
    QTEquiv (halfW f) (halfW g) ∨ QTEquiv (negW (halfW f)) (halfW g) := by
  rcases h with h | h | h | h
  · left
    cases h with
    | mk o =>
      have := ShiftMove.mk (f := halfW f) o
      have e : shiftAll o (halfW f) = halfW (shiftAll o f) := by
        funext t i; unfold shiftAll halfW halfAt; simp only; split_ifs
        · congr 1; ring
        · rfl
      rw [e] at this
      exact qt_move (.inl this)
  · cases h with
    | alt he' =>
      have h1 := qt_move (.inr (.inl (BaseMove.alt (f := halfW f) he')))
      rcases Nat.even_or_odd (n / 2) with h2 | h2
      · left
        have e : altAll (halfW f) = halfW (altAll f) := by
          funext t i; unfold altAll halfW halfAt; simp only; split_ifs
          · rw [alt_half_sign he, h2.neg_one_pow, one_mul]
          · rfl
        rwa [e] at h1
      · right
        have e : negW (altAll (halfW f)) = halfW (altAll f) := by
          funext t i; unfold negW negAt altAll halfW halfAt; simp only [decide_eq_true_eq]; split_ifs
          · rw [alt_half_sign he, h2.neg_one_pow]; ring
          · rfl
        rw [← e]
        exact negW_qt h1
    | aut u =>
      left
      have := BaseMove.aut (f := halfW f) u
      have e : autAll u (halfW f) = halfW (autAll u f) := by
        funext t i; unfold autAll halfW halfAt; simp only; split_ifs
        · congr 1; rw [mul_add, half_unit he]
        · rfl
      rw [e] at this
      exact qt_move (.inr (.inl this))
  · left
    refine qt_move (.inr (.inr (.inl ?_)))
    cases h with
    | two he' a b hab =>
      have := DualMove.two (f := halfW f) he' a b hab
      rwa [halfW, half_half_comm] at this
    | four he' =>
      have := DualMove.four (f := halfW f) he'
      rwa [halfW, half_half_comm] at this
  · left
    cases h with
    | mk t₀ t₁ t₂ h12 =>
      have h1 : halfW (swapFam t₁ t₂ (negAt t₀ f)) =
          swapFam t₁ t₂ (negAt t₀ (halfAt (fun t => decide (t = Equiv.swap t₁ t₂ .W)) f)) := by
        unfold halfW
        rw [swap_half, neg_half]
        congr 2
        congr 1
        funext t
        refine decide_eq_decide.2 ?_
        constructor
        · intro h; rw [← h, Equiv.swap_apply_self]
        · intro h; rw [h, Equiv.swap_apply_self]
      rw [h1]
      exact qt_trans (half_qt_half he f .W _) (qt_ns (.mk _ _ _ h12))

theorem negW_negW (f : Fam n) : negW (negW f) = f := negAt_negAt _ f

theorem halfW_qt (he : Even n) {f g : Fam n} (h : QTEquiv f g) :
    QTEquiv (halfW f) (halfW g) ∨ QTEquiv (negW (halfW f)) (halfW g) := by
  induction h with
  | rel x y h => exact halfW_move he h
  | refl x => exact .inl (.refl _)
  | symm x y _ ih =>
    rcases ih with ih | ih
    · exact .inl (.symm _ _ ih)
    · right
      have := negW_qt ih
      rw [negW_negW] at this
      exact .symm _ _ this
  | trans x y z _ _ h1 h2 =>
    rcases h1 with h1 | h1 <;> rcases h2 with h2 | h2
    · exact .inl (.trans _ _ _ h1 h2)
    · exact .inr (.trans _ _ _ (negW_qt h1) h2)
    · exact .inr (.trans _ _ _ h1 h2)
    · left
      have := negW_qt h1
      rw [negW_negW] at this
      exact .trans _ _ _ this h2

theorem halfW_halfW (he : Even n) (f : Fam n) : halfW (halfW f) = f := halfAt_halfAt he _ f
theorem halfW_negW (f : Fam n) : halfW (negW f) = negW (halfW f) := neg_half _ _ _

/-- The four coset representatives. -/
def Coset (f g : Fam n) : Prop :=
  QTEquiv f g ∨ QTEquiv (negW f) g ∨ Even n ∧ (QTEquiv (halfW f) g ∨ QTEquiv (negW (halfW f)) g)

theorem coset_qt {f g h : Fam n} (h1 : Coset f g) (h2 : QTEquiv g h) : Coset f h := by
  rcases h1 with h1 | h1 | ⟨he, h1 | h1⟩
  · exact .inl (qt_trans h1 h2)
  · exact .inr (.inl (qt_trans h1 h2))
  · exact .inr (.inr ⟨he, .inl (qt_trans h1 h2)⟩)
  · exact .inr (.inr ⟨he, .inr (qt_trans h1 h2)⟩)

theorem coset_negW {f g : Fam n} (h1 : Coset f g) : Coset f (negW g) := by
  rcases h1 with h1 | h1 | ⟨he, h1 | h1⟩ <;> have := negW_qt h1
  · exact .inr (.inl this)
  · rw [negW_negW] at this; exact .inl this
  · exact .inr (.inr ⟨he, .inr this⟩)
  · rw [negW_negW] at this; exact .inr (.inr ⟨he, .inl this⟩)

theorem coset_halfW (he : Even n) {f g : Fam n} (h1 : Coset f g) : Coset f (halfW g) := by
  rcases h1 with h1 | h1 | ⟨_, h1 | h1⟩ <;> have := halfW_qt he h1
  · rcases this with h | h
    · exact .inr (.inr ⟨he, .inl h⟩)
    · exact .inr (.inr ⟨he, .inr h⟩)
  · rw [halfW_negW, negW_negW] at this
    rcases this with h | h
    · exact .inr (.inr ⟨he, .inr h⟩)
    · exact .inr (.inr ⟨he, .inl h⟩)
  · rw [halfW_halfW he] at this
    rcases this with h | h
    · exact .inl h
    · exact .inr (.inl h)
  · rw [halfW_negW, halfW_halfW he, negW_negW] at this
    rcases this with h | h
    · exact .inr (.inl h)
    · exact .inl h

theorem wt_coset {f g : Fam n} (h : WTEquiv f g) : Coset f g := by
  unfold WTEquiv at h
  rw [eqvGen_pres pres_WT] at h
  induction h with
  | refl => exact .inl (.refl _)
  | tail _ h2 ih =>
    rcases h2 with h2 | h2 | h2 | h2
    · exact coset_qt ih (qt_move (.inl h2))
    · exact coset_qt ih (qt_move (.inr (.inl h2)))
    · cases h2 with
      | mk he t₁ => exact coset_qt (coset_halfW he ih) (half_qt_half he _ _ _)
    · cases h2 with
      | neg t₀ => exact coset_qt (coset_negW ih) (neg_qt_neg _ _ _)
      | swap t₁ t₂ h12 => exact coset_qt (coset_negW ih) (neg_qt_swap _ _ _ _ h12)

end

end Proofs
