import Verif.Proofs.Overflow
import Verif.Proofs.Print
import Verif.Model.Checked

/-!
# Checked 8-bit arithmetic agrees with the wrapping arithmetic on entries between -127 and 127
-/

set_option linter.unusedSectionVars false
set_option linter.unusedVariables false
set_option linter.unusedSimpArgs false

namespace Proofs.Check
open Model Spec Proofs

/-! ## Operations -/

/-- Entries on which negation does not overflow. -/
def B : Set ℤ := {x | -127 ≤ x ∧ x ≤ 127}

theorem neg_B : ∀ x ∈ B, neg8 x ∈ B := by
  rintro x ⟨h1, h2⟩
  rw [neg8_bd h1 h2]
  exact ⟨by omega, by omega⟩

theorem ck8_some {x : ℤ} (h1 : -128 ≤ x) (h2 : x ≤ 127) : Checked.ck8 x = some x := if_pos ⟨h1, h2⟩

theorem neg_eq {x : ℤ} (h : x ∈ B) : Checked.neg8 x = some (neg8 x) := by
  rw [neg8_bd h.1 h.2]
  exact ck8_some (by have := h.2; omega) (by have := h.1; omega)

theorem mul_pm {x y : ℤ} (hx : x = 1 ∨ x = -1) (hy : y = 1 ∨ y = -1) : Checked.mul8 x y = some (mul8 x y) := by
  rcases hx with rfl | rfl <;> rcases hy with rfl | rfl <;> decide

theorem tab_some {n : ℕ} {f : ℕ → Option ℤ} {g : ℕ → ℤ} (h : ∀ i < n, f i = some (g i)) :
    Checked.tab n f = some (tab n g) :=
  Print.mapM_some fun i hi => h i (List.mem_range.1 hi)

theorem negated_eq {l : List ℤ} (h : ∀ x ∈ l, x ∈ B) : Checked.negated l = some (negated l) :=
  tab_some fun i hi => neg_eq (h _ (at0_mem hi))

theorem alt_eq {l : List ℤ} (h : ∀ x ∈ l, x ∈ B) (f : ℕ) : Checked.altNegated l f = some (altNegated l f) := by
  refine tab_some fun i hi => ?_
  split
  · exact neg_eq (h _ (at0_mem hi))
  · rfl

variable {n : ℕ}

theorem mapAll_eq {s : QuadSeq} {f : List ℤ → Option (List ℤ)} {g : List ℤ → List ℤ}
    (h : ∀ t, f (s.sequence t) = some (g (s.sequence t))) : Checked.mapAll s f = some (mapAll s g) := by
  have ha := h .W
  have hb := h .X
  have hc := h .Y
  have hd := h .Z
  simp only [QuadSeq.sequence] at ha hb hc hd
  simp only [Checked.mapAll, ha, hb, hc, hd, Option.bind_some, Option.map_some, mapAll]

theorem negateAt_eq {s : QuadSeq} (hs : Shaped n B s) (t : Tag) :
    Checked.negateAt s t = some (s.setSequence (negated (s.sequence t)) t) := by
  unfold Checked.negateAt
  rw [negated_eq (hs.seq t).2, Option.map_some]

theorem negateIf_eq {s : QuadSeq} (hs : Shaped n B s) (t : Tag) (p : Prop) [Decidable p] :
    Checked.negateIf p (s.sequence t) = some (if p then negated (s.sequence t) else s.sequence t) := by
  unfold Checked.negateIf
  by_cases h : p
  · simp only [h, decide_true, if_true]; exact negated_eq (hs.seq t).2
  · simp only [h, decide_false, if_false, Bool.false_eq_true]

/-- A checked operation agrees with an operation on entries between -127 and 127. -/
def Agrees (n : ℕ) (op' : Checked.Op) (op : Op) : Prop := ∀ s, Shaped n B s → op' s = some (op s)

theorem agrees_lift (op : Op) : Agrees n (Checked.lift op) op := fun _ _ => rfl

theorem agrees_negateSwap : Agrees n Checked.equivalentNegateSwap equivalentNegateSwap := by
  intro s hs
  unfold Checked.equivalentNegateSwap equivalentNegateSwap
  rw [Print.mapM_some (g := fun p => swapTags (s.setSequence (negated (s.sequence p.2)) p.2) p.1)
    (fun p _ => by rw [negateAt_eq hs, Option.map_some])]
  simp only [Option.map_some, List.map_flatMap, List.map_map]
  rfl

theorem agrees_negate : Agrees n Checked.equivalentNegate equivalentNegate := by
  intro s hs
  unfold Checked.equivalentNegate equivalentNegate
  have h := fun t p (i : Decidable p) => @negateIf_eq n s hs t p i
  have ha := fun p i => h .W p i
  have hb := fun p i => h .X p i
  have hc := fun p i => h .Y p i
  have hd := fun p i => h .Z p i
  simp only [QuadSeq.sequence] at ha hb hc hd
  rw [Print.mapM_some (fun t _ => by
    rw [ha, Option.bind_some, hb, Option.bind_some, hc, Option.bind_some, hd, Option.map_some])]
  rfl

theorem agrees_doubleNegate : Agrees n Checked.equivalentDoubleNegate equivalentDoubleNegate := by
  intro s hs
  unfold Checked.equivalentDoubleNegate equivalentDoubleNegate
  have h := fun t p (i : Decidable p) => @negateIf_eq n s hs t p i
  have ha := fun p i => h .W p i
  have hb := fun p i => h .X p i
  have hc := fun p i => h .Y p i
  have hd := fun p i => h .Z p i
  simp only [QuadSeq.sequence] at ha hb hc hd
  rw [Print.mapM_some (fun t _ => by
    rw [ha, Option.bind_some, hb, Option.bind_some, hc, Option.bind_some, hd, Option.map_some])]
  rfl

theorem agrees_alt : Agrees n Checked.equivalentAlternatedNegation equivalentAlternatedNegation := by
  intro s hs
  unfold Checked.equivalentAlternatedNegation equivalentAlternatedNegation
  rw [mapAll_eq (g := fun l => altNegated l 2) fun t => alt_eq (hs.seq t).2 2]
  rfl

theorem agrees_evenAlt : Agrees n Checked.equivalentEvenAlternatedNegation equivalentEvenAlternatedNegation := by
  intro s hs
  unfold Checked.equivalentEvenAlternatedNegation equivalentEvenAlternatedNegation
  split
  · rfl
  · rw [mapAll_eq (g := fun l => altNegated l 2) fun t => alt_eq (hs.seq t).2 2]
    rfl

theorem agrees_aut (hn : n ≤ 100) : Agrees n Checked.equivalentAutomorphism equivalentAutomorphism := by
  intro s hs
  unfold Checked.equivalentAutomorphism
  rw [if_pos (by rw [hs.size]; exact hn)]

theorem agrees_equivalences (hn : n ≤ 100) (ty : SeqType) :
    List.Forall₂ (Agrees n) (Checked.equivalences ty) (equivalences ty) := by
  cases ty <;> simp only [Checked.equivalences, equivalences, List.forall₂_cons, List.forall₂_nil_left_iff, agrees_lift, agrees_evenAlt,
    agrees_aut hn, agrees_negateSwap, agrees_negate, and_self]

theorem agrees_canonicalOps (hn : n ≤ 100) (ty : SeqType) :
    List.Forall₂ (Agrees n) (Checked.canonicalOps ty) (canonicalOps ty) := by
  cases ty <;> simp only [Checked.canonicalOps, canonicalOps, List.forall₂_cons, List.forall₂_nil_left_iff, agrees_lift, agrees_evenAlt,
    agrees_aut hn, and_self]

/-! ## Classes -/

theorem mapM_agrees {ops' : List Checked.Op} {ops : List Op} (h : List.Forall₂ (Agrees n) ops' ops) {s : QuadSeq}
    (hs : Shaped n B s) : (ops'.mapM fun (f : Checked.Op) => f s) = some (ops.map fun f => f s) := by
  induction h with
  | nil => rfl
  | cons h _ ih =>
    simp only [List.mapM_cons, h s hs, ih]
    rfl

theorem classNew_eq {ops' : List Checked.Op} {ops : List Op} (h : List.Forall₂ (Agrees n) ops' ops) {cls : List QuadSeq}
    (hc : ∀ s ∈ cls, Shaped n B s) : Checked.classNew ops' cls = some (classNew ops cls) := by
  unfold Checked.classNew classNew
  rw [Print.mapM_some fun s hs => mapM_agrees h (hc s hs), Option.map_some]
  simp only [List.flatMap_def, List.map_map]
  rfl

theorem classLoop_eq (h0 : 0 < n) {ops' : List Checked.Op} {ops : List Op} (h : List.Forall₂ (Agrees n) ops' ops)
    (hops : ∀ op ∈ ops, op ∈ allOps) : ∀ (fuel : ℕ) (cls : List QuadSeq), (∀ s ∈ cls, Shaped n B s) →
      Checked.classLoop ops' fuel cls = classLoop ops fuel cls
  | 0, _, _ => rfl
  | fuel + 1, cls, hc => by
    unfold Checked.classLoop classLoop
    rw [classNew_eq h hc, Option.bind_some]
    split
    · rfl
    · refine classLoop_eq h0 h hops fuel _ fun s hs => ?_
      rcases List.mem_append.1 hs with hs | hs
      · exact hc s hs
      · simp only [classNew, List.mem_dedup, List.mem_filter, List.mem_flatMap] at hs
        obtain ⟨⟨r, hr, op, hop, hs⟩, _⟩ := hs
        exact shaped_op h0 neg_B (hops op hop) (hc r hr) hs

theorem class_eq (h0 : 0 < n) {ops' : List Checked.Op} {ops : List Op} (h : List.Forall₂ (Agrees n) ops' ops)
    (hops : ∀ op ∈ ops, op ∈ allOps) {s : QuadSeq} (hs : Shaped n B s) :
    Checked.generateEquivalenceClass ops' s = generateEquivalenceClass ops s :=
  classLoop_eq h0 h hops _ _ fun t ht => by rw [List.mem_singleton] at ht; subst ht; exact hs

theorem wf_shaped {s : QuadSeq} (hs : Wf n s) : Shaped n B s := ⟨hs.size, fun t => ⟨hs.len t, hs.bd t⟩⟩

theorem shaped_wf {s : QuadSeq} (hs : Shaped n B s) : Wf n s := ⟨hs.size, fun t => (hs.seq t).1, fun t => (hs.seq t).2⟩

theorem group_eq [NeZero n] (hn : n ≤ 31) {ops' : List Checked.Op} {ops : List Op} (h : List.Forall₂ (Agrees n) ops' ops)
    (hops : ∀ op ∈ ops, op ∈ allOps) : Checked.generateSymmetryGroup n ops' = generateSymmetryGroup n ops :=
  class_eq (NeZero.pos n) h hops (wf_shaped (labelSeq_wf hn))

/-! ## Symbolic classes -/

theorem label_eq [NeZero n] (hn : n ≤ 31) {s : QuadSeq} (hs : Wf n s) {e : ℤ} (he : e ∈ LabelSet n) :
    Checked.applyLabel s e = applyLabel s e := by
  obtain ⟨he0, he1, he2⟩ := he
  have h0 := NeZero.pos n
  obtain ⟨m, hm1, hm2, hm⟩ : ∃ m : ℕ, 1 ≤ m ∧ m ≤ 4 * n ∧ (e = m ∨ e = -m) := by
    refine ⟨e.natAbs, ?_, ?_, ?_⟩ <;> omega
  have habs : Checked.abs8 e = some (m : ℤ) := by
    unfold Checked.abs8
    split
    · unfold Checked.neg8
      rw [ck8_some (by omega) (by omega)]
      congr 1; omega
    · congr 1; omega
  have habs' : abs8 e = (m : ℤ) := by
    unfold abs8
    have : (if e < 0 then -e else e) = (m : ℤ) := by split <;> omega
    rw [this, wrap8_id (by omega) (by omega)]
  set i := (m - 1) % n with hi
  have hin : i < n := Nat.mod_lt _ h0
  have him : i ≤ m - 1 := Nat.mod_le _ _
  have hr : labelRem n e = i := by
    rw [labelRem, habs', asUsize_nat m (by omega), show m + (2 ^ 64 - 1) = (m - 1) + 2 ^ 64 by omega, Nat.add_mod_right,
      Nat.mod_eq_of_lt (a := m - 1) (by omega)]
  have ht : Checked.labelTag n e = some (labelTag n e) := by
    unfold Checked.labelTag labelTag Checked.sub8 Checked.predUsize
    rw [habs, Option.bind_some, ck8_some (by omega) (by omega), Option.bind_some, asUsize_nat m (by omega), if_neg (by omega),
      Option.bind_some, ← hi, hr, habs', wrap8_id (x := (m : ℤ) - 1) (by omega) (by omega),
      wrap8_id (x := (i : ℤ)) (by omega) (by omega), ck8_some (by omega) (by omega), Option.map_some, wrap8_id (by omega) (by omega)]
  have hx : Checked.labelIdx n e = some (labelIdx n e) := by
    unfold Checked.labelIdx labelIdx Checked.sub8
    rw [habs, Option.bind_some, ck8_some (by omega) (by omega), Option.map_some, habs', wrap8_id (by omega) (by omega)]
  have hd : labelIdx n e < n := Nat.mod_lt _ h0
  unfold Checked.applyLabel applyLabel
  rw [hs.size, ht, Option.bind_some, hx]
  cases hsub : labelSub s (labelTag n e) with
  | none => rfl
  | some l =>
    simp only [Option.bind_some, Option.map_some]
    have hl : ∃ t, l = s.sequence t := by
      revert hsub
      generalize labelTag n e = k
      intro hsub
      rcases k with _ | _ | _ | _ | k
      · exact ⟨.W, by cases hsub; rfl⟩
      · exact ⟨.X, by cases hsub; rfl⟩
      · exact ⟨.Y, by cases hsub; rfl⟩
      · exact ⟨.Z, by cases hsub; rfl⟩
      · cases hsub
    obtain ⟨t, rfl⟩ := hl
    split
    · exact neg_eq (hs.bd t _ (at0_mem (by rw [hs.len]; exact hd)))
    · rfl

theorem mapM_congr {α β : Type} {f g : α → Option β} {l : List α} (h : ∀ x ∈ l, f x = g x) : l.mapM f = l.mapM g := by
  induction l with
  | nil => rfl
  | cons x xs ih =>
    rw [List.mapM_cons, List.mapM_cons, h x List.mem_cons_self, ih fun y hy => h y (List.mem_cons_of_mem _ hy)]

theorem symmetry_eq [NeZero n] (hn : n ≤ 31) {s g : QuadSeq} (hs : Wf n s) (hg : Shaped n (LabelSet n) g) :
    Checked.applySymmetry s g = applySymmetry s g := by
  unfold Checked.applySymmetry applySymmetry
  rw [mapM_congr fun e he => label_eq hn hs ?_]
  simp only [List.mem_append] at he
  rcases he with ((h | h) | h) | h
  · exact (hg.seq .W).2 e h
  · exact (hg.seq .X).2 e h
  · exact (hg.seq .Y).2 e h
  · exact (hg.seq .Z).2 e h

theorem neg_label {m : ℕ} (hm : m ≤ 31) : ∀ x ∈ LabelSet m, neg8 x ∈ LabelSet m := by
  rintro x ⟨h1, h2, h3⟩
  rw [neg8_bd (by omega) (by omega)]
  exact ⟨by omega, by omega, by omega⟩

theorem label_shaped [NeZero n] (hn : n ≤ 31) : Shaped n (LabelSet n) (labelSeq n) :=
  ⟨rfl, fun t => ⟨(labelSeq_wf hn).len t, mem_seq_iff (labelSeq_wf hn) (labelSeq_ent hn) t⟩⟩

theorem fast_eq [NeZero n] (hn : n ≤ 31) {ops : List Op} (hops : ∀ op ∈ ops, op ∈ allOps) {G : List QuadSeq}
    (hG : generateSymmetryGroup n ops = some G) {s : QuadSeq} (hs : Wf n s) :
    Checked.generateEquivalenceClassFast s G = generateEquivalenceClassFast s G := by
  unfold Checked.generateEquivalenceClassFast generateEquivalenceClassFast
  obtain ⟨G', h1, _, h2⟩ := generateEquivalenceClass_spec (n := n) (fun op h => good_all (by omega) op (hops op h)) (labelSeq_wf hn)
  have h1 : generateSymmetryGroup n ops = some G' := h1
  rw [hG] at h1
  cases h1
  rw [mapM_congr fun g hg => symmetry_eq hn hs (shaped_reach (NeZero.pos n) (neg_label hn) hops (label_shaped hn) ((h2 g).1 hg))]

/-! ## Canonical forms -/

theorem shaped_negateAt {s : QuadSeq} (hs : Shaped n B s) (t : Tag) : Shaped n B (s.setSequence (negated (s.sequence t)) t) :=
  shaped_set hs (keeps_negated neg_B _ (hs.seq t).1 (hs.seq t).2) t

theorem sn_eq {s : QuadSeq} (hs : Shaped n B s) : Checked.snSsCanonical s = some (snSsCanonical s) := by
  have key : ∀ (l : List Tag) (r : QuadSeq), Shaped n B r →
      l.foldlM (fun r t => if at0 (r.sequence t) 0 ≠ -1 then Checked.negateAt r t else some r) r =
        some (l.foldl (fun r t => if at0 (r.sequence t) 0 ≠ -1 then r.setSequence (negated (r.sequence t)) t else r) r) := by
    intro l
    induction l with
    | nil => intro r _; rfl
    | cons t l ih =>
      intro r hr
      rw [List.foldlM_cons, List.foldl_cons]
      by_cases h : at0 (r.sequence t) 0 ≠ -1
      · rw [if_pos h, if_pos h, negateAt_eq hr]
        exact ih _ (shaped_negateAt hr t)
      · rw [if_neg h, if_neg h]
        exact ih _ hr
  unfold Checked.snSsCanonical snSsCanonical Checked.snNormalize snNormalize
  rw [key _ _ hs]
  rfl

theorem nsNormalize_eq : ∀ (fuel : ℕ) {s : QuadSeq}, Shaped n B s →
    Checked.nsNormalize fuel s = nsNormalize fuel s ∧ ∀ r, nsNormalize fuel s = some r → Shaped n B r
  | 0, s, _ => ⟨rfl, fun r h => by cases h⟩
  | fuel + 1, s, hs => by
    unfold Checked.nsNormalize nsNormalize
    cases tags.find? fun t => decide (at0 (s.sequence t) 0 ≠ -1) with
    | some t =>
      dsimp only
      rw [negateAt_eq hs, Option.bind_some]
      exact nsNormalize_eq fuel (shaped_swap (shaped_negateAt hs t) _)
    | none => exact ⟨rfl, fun r h => by cases h; exact hs⟩

theorem shaped_ite {p : Prop} [Decidable p] {s t : QuadSeq} (hs : Shaped n B s) (ht : Shaped n B t) :
    Shaped n B (if p then s else t) := by split <;> assumption

theorem nsSort_eq {c : QuadSeq} (hc : Shaped n B c) : Checked.nsSort c = some (nsSort c) := by
  unfold Checked.nsSort nsSort
  dsimp only
  set c1 := if minTag c .W [.X, .Y, .Z] ≠ .W then swapTags (swapTags c (.W, minTag c .W [.X, .Y, .Z])) (.Y, .Z) else c with h1
  have hc1 : Shaped n B c1 := shaped_ite (shaped_swap (shaped_swap hc _) _) hc
  clear_value c1
  set c2 := if minTag c1 .X [.Y, .Z] ≠ .X then swapTags (swapTags c1 (.X, minTag c1 .X [.Y, .Z])) (.Y, .Z) else c1 with h2
  have hc2 : Shaped n B c2 := shaped_ite (shaped_swap (shaped_swap hc1 _) _) hc1
  clear_value c2
  have e : (if seqLessThan c2.d c2.c then (Checked.negateAt c2 .Y).map fun r => swapTags r (.Y, .Z) else some c2) =
      some (if seqLessThan c2.d c2.c then swapTags (c2.setSequence (negated c2.c) .Y) (.Y, .Z) else c2) := by
    split
    · rw [negateAt_eq hc2, Option.map_some]; rfl
    · rfl
  rw [e, Option.bind_some]
  set c3 := if seqLessThan c2.d c2.c then swapTags (c2.setSequence (negated c2.c) .Y) (.Y, .Z) else c2 with h3
  have hc3 : Shaped n B c3 := shaped_ite (shaped_swap (shaped_negateAt hc2 .Y) _) hc2
  clear_value c3
  split
  · rw [negateAt_eq hc3]; rfl
  · rfl

theorem ns_eq {s : QuadSeq} (hs : Shaped n B s) : Checked.nsCanonical s = nsCanonical s := by
  unfold Checked.nsCanonical nsCanonical
  obtain ⟨h1, h2⟩ := nsNormalize_eq 5 hs
  rw [h1]
  cases h : nsNormalize 5 s with
  | none => rfl
  | some r => rw [Option.bind_some, Option.map_some, nsSort_eq (h2 r h)]

theorem qt_eq [NeZero n] (hn : n ≤ 31) {ops : List Op} (hops : ∀ op ∈ ops, op ∈ allOps) {G : List QuadSeq}
    (hG : generateSymmetryGroup n ops = some G) {s : QuadSeq} (hs : Wf n s) (ty : SeqType) :
    Checked.qtCanonical s G ty = qtCanonical s G ty := by
  obtain ⟨G', c, h1, h2, _, h3⟩ := fast_spec hn (fun op h => good_all (by omega) op (hops op h)) hs
  rw [hG] at h1
  cases h1
  have hw : ∀ t ∈ c, Shaped n B t := fun t ht =>
    shaped_reach (NeZero.pos n) neg_B hops (wf_shaped hs) ((h3 t).1 ht)
  have hsn : c.mapM Checked.snSsCanonical = some (c.map snSsCanonical) := Print.mapM_some fun t ht => sn_eq (hw t ht)
  unfold Checked.qtCanonical qtCanonical
  rw [fast_eq hn hops hG hs, h2]
  cases ty <;> simp only [Option.bind_some, hsn, mapM_congr fun t ht => ns_eq (hw t ht)]

theorem reduce_eq [NeZero n] (hn : n ≤ 31) {l : List QuadSeq} (hl : ∀ s ∈ l, Wf n s) (ty : SeqType) :
    Checked.reduceToCanonicalReps l ty = reduceToCanonicalReps l ty := by
  unfold Checked.reduceToCanonicalReps reduceToCanonicalReps
  cases l with
  | nil => rfl
  | cons s0 l =>
    dsimp only
    rw [(hl s0 List.mem_cons_self).size, group_eq hn (agrees_canonicalOps (by omega) ty) (canonicalOps_sub ty)]
    cases hG : generateSymmetryGroup n (canonicalOps ty) with
    | none => rfl
    | some G =>
      rw [Option.bind_some, Option.bind_some, mapM_congr fun s hs => qt_eq hn (canonicalOps_sub ty) hG (hl s hs) ty]

/-! ## Lengths from 32 on -/

theorem classLoop_sub {ops : List Checked.Op} {s : QuadSeq} : ∀ (fuel : ℕ) (cls c : List QuadSeq), s ∈ cls →
    Checked.classLoop ops fuel cls = some c → s ∈ c
  | 0, _, _, _, h => by cases h
  | fuel + 1, cls, c, hs, h => by
    unfold Checked.classLoop at h
    cases hnew : Checked.classNew ops cls with
    | none => rw [hnew] at h; cases h
    | some new =>
      rw [hnew, Option.bind_some] at h
      split at h
      · cases h; exact hs
      · exact classLoop_sub fuel _ c (List.mem_append_left _ hs) h

/-- Label 128 does not fit, and its conversion `as i8` is -128. -/
theorem label128 {m : ℕ} (hm : 32 ≤ m) : ∃ t, (-128 : ℤ) ∈ (labelSeq m).sequence t := by
  have key : ∀ k, k * m ≤ 127 → 127 < k * m + m → (-128 : ℤ) ∈ tab m fun i => wrap8 ((i + k * m + 1 : ℕ) : ℤ) := by
    intro k h1 h2
    rw [mem_tab]
    refine ⟨127 - k * m, by omega, ?_⟩
    rw [show 127 - k * m + k * m + 1 = 128 by omega]
    decide
  by_cases h1 : 127 < m
  · exact ⟨.W, by simpa [labelSeq, QuadSeq.setAllValues, QuadSeq.sequence] using key 0 (by omega) (by omega)⟩
  by_cases h2 : 127 < 2 * m
  · exact ⟨.X, by simpa [labelSeq, QuadSeq.setAllValues, QuadSeq.sequence] using key 1 (by omega) (by omega)⟩
  by_cases h3 : 127 < 3 * m
  · exact ⟨.Y, by simpa [labelSeq, QuadSeq.setAllValues, QuadSeq.sequence] using key 2 (by omega) (by omega)⟩
  · exact ⟨.Z, by simpa [labelSeq, QuadSeq.setAllValues, QuadSeq.sequence] using key 3 (by omega) (by omega)⟩

theorem mapM_none {α β : Type} {f : α → Option β} {x : α} {l : List α} (hx : x ∈ l) (h : f x = none) : l.mapM f = none := by
  induction l with
  | nil => cases hx
  | cons y l ih =>
    rw [List.mapM_cons]
    rcases List.mem_cons.1 hx with rfl | hx
    · rw [h]; rfl
    · rw [ih hx]
      cases f y <;> rfl

theorem symmetry_none {m : ℕ} (hm : 32 ≤ m) (s : QuadSeq) : Checked.applySymmetry s (labelSeq m) = none := by
  obtain ⟨t, ht⟩ := label128 hm
  have h : Checked.applyLabel s (-128) = none := by
    have : Checked.labelTag s.size (-128) = none := rfl
    unfold Checked.applyLabel
    rw [this]; rfl
  unfold Checked.applySymmetry
  rw [mapM_none (x := -128) ?_ h]
  · rfl
  · simp only [List.mem_append]
    cases t
    · exact .inl (.inl (.inl ht))
    · exact .inl (.inl (.inr ht))
    · exact .inl (.inr ht)
    · exact .inr ht

theorem fast_none {m : ℕ} (hm : 32 ≤ m) {ops : List Checked.Op} {G : List QuadSeq}
    (hG : Checked.generateSymmetryGroup m ops = some G) (s : QuadSeq) : Checked.generateEquivalenceClassFast s G = none := by
  have hL : labelSeq m ∈ G := classLoop_sub _ _ _ (List.mem_singleton_self _) hG
  unfold Checked.generateEquivalenceClassFast
  rw [mapM_none hL (symmetry_none hm s)]
  rfl

theorem reduce_none {s0 : QuadSeq} (h : 32 ≤ s0.size) (l : List QuadSeq) (ty : SeqType) :
    Checked.reduceToCanonicalReps (s0 :: l) ty = none := by
  unfold Checked.reduceToCanonicalReps
  dsimp only
  cases hG : Checked.generateSymmetryGroup s0.size (Checked.canonicalOps ty) with
  | none => rfl
  | some G =>
    rw [Option.bind_some]
    have : Checked.qtCanonical s0 G ty = none := by
      unfold Checked.qtCanonical
      cases ty <;> simp only [fast_none h hG, Option.bind_none]
    rw [mapM_none (f := fun s => Checked.qtCanonical s G ty) List.mem_cons_self this]
    rfl

end Proofs.Check
