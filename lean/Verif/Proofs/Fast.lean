import Verif.Proofs.ClassGen
import Verif.Proofs.Convert

/-!
# Reachability and equivalence; the symbolic equivalence class
-/

set_option linter.unusedSectionVars false
set_option linter.unusedVariables false

namespace Proofs
open Model Spec

variable {n : ℕ} [NeZero n]

/-! ## Equivalence closure -/

theorem eqvGen_iff {α : Type*} {R : α → α → Prop} (hs : ∀ a b, R a b → R b a) (a b : α) :
    Relation.EqvGen R a b ↔ Relation.ReflTransGen R a b := by
  constructor
  · intro h
    induction h with
    | rel x y h => exact .single h
    | refl x => exact .refl
    | symm x y _ ih =>
      clear * - hs ih
      induction ih with
      | refl => exact .refl
      | tail _ h ih => exact Relation.ReflTransGen.head (hs _ _ h) ih
    | trans x y z _ _ h1 h2 => exact h1.trans h2
  · intro h
    induction h with
    | refl => exact .refl _
    | tail _ h ih => exact .trans _ _ _ ih (.rel _ _ h)

theorem eqvGen_pres {R : Fam n → Fam n → Prop} (h : Pres R) (f g : Fam n) :
    Relation.EqvGen R f g ↔ Relation.ReflTransGen R f g := eqvGen_iff (fun _ _ => pres_symm h) f g

theorem rtg_bd {R : Fam n → Fam n → Prop} (h : Pres R) {f g : Fam n} (hf : Bd f)
    (H : Relation.ReflTransGen R f g) : Bd g := by
  induction H with
  | refl => exact hf
  | tail _ h' ih => exact pres_bd h ih h'

theorem reach_iff {ops : List Op} {M : Fam n → Fam n → Prop} (hM : Pres M)
    (H : ∀ s, Wf n s → ∀ t, Step ops s t ↔ t = s ∨ ∃ g, M (fam n s) g ∧ t = ofFam n g) {s : QuadSeq} (hs : Wf n s)
    (t : QuadSeq) : Reach ops s t ↔ Wf n t ∧ Relation.EqvGen M (fam n s) (fam n t) := by
  rw [eqvGen_pres hM]
  constructor
  · intro h
    induction h with
    | refl => exact ⟨hs, .refl⟩
    | tail _ h ih =>
      rcases (H _ ih.1 _).1 h with rfl | ⟨g, h', rfl⟩
      · exact ih
      · rw [fam_ofFam]; exact ⟨wf_ofFam (pres_bd hM (bd_fam ih.1) h'), ih.2.tail h'⟩
  · rintro ⟨ht, h⟩
    have key : ∀ g, Relation.ReflTransGen M (fam n s) g → Reach ops s (ofFam n g) := by
      intro g hg
      induction hg with
      | refl => rw [ofFam_fam hs]; exact .refl
      | tail h1 h2 ih =>
        refine ih.tail ((H _ (wf_ofFam (rtg_bd hM (bd_fam hs) h1)) _).2 (.inr ⟨_, ?_, rfl⟩))
        rwa [fam_ofFam]
    have := key _ h
    rwa [ofFam_fam ht] at this

theorem reach_type (hn : n ≤ 100) (ty : SeqType) {s : QuadSeq} (hs : Wf n s) (t : QuadSeq) :
    Reach (equivalences ty) s t ↔ Wf n t ∧ TypeEquiv ty (fam n s) (fam n t) := by
  have triv : Reach [] s t ↔ Wf n t ∧ fam n s = fam n t := by
    constructor
    · intro h
      induction h with
      | refl => exact ⟨hs, rfl⟩
      | tail _ h _ => obtain ⟨_, h, _⟩ := h; exact absurd h (List.not_mem_nil)
    · rintro ⟨ht, h⟩; rw [fam_inj hs ht h]; exact .refl
  cases ty
  · exact reach_iff pres_WS (fun s hs t => step_ws hn hs t) hs t
  · exact reach_iff pres_WT (fun s hs t => step_wt hn hs t) hs t
  · exact reach_iff pres_QT (fun s hs t => step_qt hn hs t) hs t
  all_goals exact triv

/-! ## Labels -/

/-- The value a label stands for. -/
def phi (n : ℕ) (s : QuadSeq) (x : ℤ) : ℤ :=
  if 0 < x then at0 (flat s) (x.toNat - 1) else if x < 0 then -at0 (flat s) ((-x).toNat - 1) else 0

theorem phi_odd (s : QuadSeq) : OddFn (phi n s) := by
  intro x
  unfold phi
  rcases lt_trichotomy x 0 with h | h | h
  · rw [if_pos (by omega), if_neg (by omega), if_pos h, neg_neg]
  · subst h; simp
  · rw [if_neg (by omega), if_pos (by omega), if_pos h, neg_neg]

theorem flat_length {s : QuadSeq} (hs : Wf n s) : (flat s).length = 4 * n := by
  have h1 := hs.len .W
  have h2 := hs.len .X
  have h3 := hs.len .Y
  have h4 := hs.len .Z
  simp only [QuadSeq.sequence] at h1 h2 h3 h4
  simp only [flat, List.length_append, h1, h2, h3, h4]; ring

theorem at0_append_left {l m : List ℤ} {i : ℕ} (h : i < l.length) : at0 (l ++ m) i = at0 l i := by
  unfold at0; simp [List.getD_eq_getElem?_getD, List.getElem?_append_left h]

theorem at0_append_right {l m : List ℤ} {i : ℕ} (h : l.length ≤ i) : at0 (l ++ m) i = at0 m (i - l.length) := by
  unfold at0; simp [List.getD_eq_getElem?_getD, List.getElem?_append_right h]

/-- The sequence number `k` of a quadruple. -/
def tagNo : ℕ → Tag
  | 0 => .W
  | 1 => .X
  | 2 => .Y
  | _ => .Z

theorem at0_flat {s : QuadSeq} (hs : Wf n s) {k i : ℕ} (hk : k < 4) (hi : i < n) :
    at0 (flat s) (k * n + i) = at0 (s.sequence (tagNo k)) i := by
  have h1 := hs.len .W
  have h2 := hs.len .X
  have h3 := hs.len .Y
  have h4 := hs.len .Z
  simp only [QuadSeq.sequence] at h1 h2 h3 h4
  unfold flat
  have : k = 0 ∨ k = 1 ∨ k = 2 ∨ k = 3 := by omega
  rcases this with rfl | rfl | rfl | rfl
  · rw [at0_append_left (by simp [h1, h2, h3]; omega), at0_append_left (by simp [h1, h2]; omega),
      at0_append_left (by omega)]; simp [tagNo, QuadSeq.sequence]
  · rw [at0_append_left (by simp [h1, h2, h3]; omega), at0_append_left (by simp [h1, h2]; omega),
      at0_append_right (by omega), h1]; simp [tagNo, QuadSeq.sequence]
  · rw [at0_append_left (by simp [h1, h2, h3]; omega), at0_append_right (by simp [h1, h2]; omega)]
    simp only [List.length_append, h1, h2, tagNo, QuadSeq.sequence]
    congr 1; omega
  · rw [at0_append_right (by simp [h1, h2, h3]; omega)]
    simp only [List.length_append, h1, h2, h3, tagNo, QuadSeq.sequence]
    congr 1; omega

theorem wrap8_id {x : ℤ} (h1 : -128 ≤ x) (h2 : x ≤ 127) : wrap8 x = x := by
  unfold wrap8; rw [Int.bmod_eq_of_le] <;> omega

theorem asUsize_nat (m : ℕ) (h : m < 2 ^ 64) : asUsize (m : ℤ) = m := by
  unfold asUsize
  rw [Int.emod_eq_of_lt (by omega) (by exact_mod_cast h)]; simp

/-- Labels of length-`n` quadruples. -/
def LabelSet (n : ℕ) : Set ℤ := {x | x ≠ 0 ∧ -(4 * n : ℤ) ≤ x ∧ x ≤ 4 * n}

theorem tagMatch (s : QuadSeq) {k : ℕ} (hk : k < 4) : labelSub s k = some (s.sequence (tagNo k)) := by
  have : k = 0 ∨ k = 1 ∨ k = 2 ∨ k = 3 := by omega
  rcases this with rfl | rfl | rfl | rfl <;> rfl

theorem applyLabel_eq (hn : n ≤ 31) {s : QuadSeq} (hs : Wf n s) {e : ℤ} (he : e ∈ LabelSet n) :
    applyLabel s e = some (phi n s e) := by
  obtain ⟨he0, he1, he2⟩ := he
  have h0 := npos (n := n)
  -- the absolute value as a natural number
  obtain ⟨m, hm1, hm2, hm⟩ : ∃ m : ℕ, 1 ≤ m ∧ m ≤ 4 * n ∧ (e = m ∨ e = -m) := by
    refine ⟨e.natAbs, ?_, ?_, ?_⟩ <;> omega
  have habs : abs8 e = (m : ℤ) := by
    unfold abs8
    have : (if e < 0 then -e else e) = (m : ℤ) := by split <;> omega
    rw [this, wrap8_id (by omega) (by omega)]
  set k := (m - 1) / n with hk
  set i := (m - 1) % n with hi
  have hki : m - 1 = k * n + i := by rw [hk, hi]; exact (Nat.div_add_mod' _ _).symm
  have hin : i < n := Nat.mod_lt _ h0
  have hk4 : k < 4 := by
    rw [hk, Nat.div_lt_iff_lt_mul h0]; omega
  have hkn : k * n ≤ 124 := by omega
  have hr : labelRem n e = i := by
    rw [labelRem, habs, asUsize_nat m (by omega), show m + (2 ^ 64 - 1) = (m - 1) + 2 ^ 64 by omega, Nat.add_mod_right,
      Nat.mod_eq_of_lt (a := m - 1) (by omega)]
  have ht : labelTag n e = k := by
    rw [labelTag, hr, habs, wrap8_id (x := (m : ℤ) - 1) (by omega) (by omega), wrap8_id (x := (i : ℤ)) (by omega) (by omega),
      show (m : ℤ) - 1 - i = ((k * n : ℕ) : ℤ) by omega, wrap8_id (by omega) (by omega),
      asUsize_nat _ (by omega), Nat.mul_div_cancel _ h0]
  have hsq : labelIdx n e = i := by
    rw [labelIdx, habs, wrap8_id (x := (m : ℤ) - 1) (by omega) (by omega), show (m : ℤ) - 1 = ((m - 1 : ℕ) : ℤ) by omega,
      asUsize_nat _ (by omega)]
  unfold applyLabel
  rw [hs.size, ht, hsq]
  rw [tagMatch s hk4, Option.map_some]
  refine congrArg some ?_
  have hv := hs.bd (tagNo k) _ (at0_mem (i := i) (by rw [hs.len]; exact hin))
  rw [neg8_bd hv.1 hv.2, ← at0_flat hs hk4 hin, ← hki]
  unfold phi
  rcases hm with rfl | rfl
  · rw [if_neg (by omega), if_pos (by omega)]; simp
  · rw [if_pos (by omega), if_neg (by omega), if_pos (by omega)]; simp

theorem seq_map_of_fam {g : QuadSeq} (hg : Wf n g) (φ : ℤ → ℤ) (t : Tag) :
    (ofFam n (fmap φ (fam n g))).sequence t = (g.sequence t).map φ := by
  rw [ofFam_seq]
  refine List.ext_getElem (by rw [tab_length, List.length_map, hg.len]) fun i h1 h2 => ?_
  rw [tab_length] at h1
  simp only [tab, List.getElem_map, List.getElem_range, fmap, fam_apply]
  rw [cyc_natCast_lt _ h1]
  unfold at0
  rw [List.getD_eq_getElem _ _ (by rw [hg.len]; exact h1)]

theorem mem_seq_iff {g : QuadSeq} (hg : Wf n g) {V : Set ℤ} (h : Ent V (fam n g)) (t : Tag) :
    ∀ x ∈ g.sequence t, x ∈ V := by
  intro x hx
  obtain ⟨i, hi, rfl⟩ := List.getElem_of_mem hx
  rw [hg.len] at hi
  have := h t (i : ZMod n)
  rw [fam_apply, cyc_natCast_lt _ hi] at this
  unfold at0 at this
  rwa [List.getD_eq_getElem _ _ (by rw [hg.len]; exact hi)] at this

theorem applySymmetry_eq (hn : n ≤ 31) {s g : QuadSeq} (hs : Wf n s) (hg : Wf n g)
    (hl : Ent (LabelSet n) (fam n g)) :
    applySymmetry s g = some (ofFam n (fmap (phi n s) (fam n g))) := by
  unfold applySymmetry
  have h1 := hg.len .W
  have h2 := hg.len .X
  have h3 := hg.len .Y
  have h4 := hg.len .Z
  simp only [QuadSeq.sequence] at h1 h2 h3 h4
  rw [mapM_some (g := phi n s), Option.map_some]
  · congr 1
    refine quad_ext hs.size fun t => ?_
    rw [seq_map_of_fam hg]
    simp only [List.map_append, hs.size]
    cases t
    · simp only [QuadSeq.sequence]
      rw [List.append_assoc, List.append_assoc, List.take_left' (by simp [h1])]
    · simp only [QuadSeq.sequence]
      rw [List.append_assoc, List.append_assoc, List.drop_left' (by simp [h1]), List.take_left' (by simp [h2])]
    · simp only [QuadSeq.sequence]
      rw [List.append_assoc, List.drop_left' (by simp [h1, h2]; omega), List.take_left' (by simp [h3])]
    · simp only [QuadSeq.sequence]
      rw [List.drop_left' (by simp [h1, h2, h3]; omega), List.take_of_length_le (by simp [h4])]
  · intro x hx
    refine applyLabel_eq hn hs ?_
    simp only [List.mem_append] at hx
    rcases hx with ((h | h) | h) | h
    · exact mem_seq_iff hg hl .W x h
    · exact mem_seq_iff hg hl .X x h
    · exact mem_seq_iff hg hl .Y x h
    · exact mem_seq_iff hg hl .Z x h

theorem labelSeq_seq (hn : n ≤ 31) (k : ℕ) (hk : k < 4) :
    (labelSeq n).sequence (tagNo k) = tab n fun i => ((k * n + i + 1 : ℕ) : ℤ) := by
  have : k = 0 ∨ k = 1 ∨ k = 2 ∨ k = 3 := by omega
  rcases this with rfl | rfl | rfl | rfl <;>
  · simp only [labelSeq, QuadSeq.setAllValues, tagNo, QuadSeq.sequence]
    refine list_ext_at0 (by rw [tab_length, tab_length]) fun i hi => ?_
    rw [tab_length] at hi
    rw [at0_tab _ hi, at0_tab _ hi, wrap8_id (by omega) (by omega)]
    congr 1; omega

theorem tagNo_surj (t : Tag) : ∃ k < 4, tagNo k = t := by
  cases t
  · exact ⟨0, by omega, rfl⟩
  · exact ⟨1, by omega, rfl⟩
  · exact ⟨2, by omega, rfl⟩
  · exact ⟨3, by omega, rfl⟩

theorem labelSeq_wf (hn : n ≤ 31) : Wf n (labelSeq n) := by
  refine ⟨rfl, fun t => ?_, fun t x hx => ?_⟩
  · obtain ⟨k, hk, rfl⟩ := tagNo_surj t
    rw [labelSeq_seq hn k hk, tab_length]
  · obtain ⟨k, hk, rfl⟩ := tagNo_surj t
    rw [labelSeq_seq hn k hk, mem_tab] at hx
    obtain ⟨i, hi, rfl⟩ := hx
    have : k * n ≤ 3 * n := Nat.mul_le_mul_right _ (by omega)
    omega

theorem labelSeq_fam (hn : n ≤ 31) (k : ℕ) (hk : k < 4) (i : ZMod n) :
    fam n (labelSeq n) (tagNo k) i = ((k * n + i.val + 1 : ℕ) : ℤ) := by
  rw [fam_apply, labelSeq_seq hn k hk, cyc_tab]

theorem labelSeq_ent (hn : n ≤ 31) : Ent (LabelSet n) (fam n (labelSeq n)) := by
  intro t i
  obtain ⟨k, hk, rfl⟩ := tagNo_surj t
  rw [labelSeq_fam hn k hk]
  have : k * n ≤ 3 * n := Nat.mul_le_mul_right _ (by omega)
  have := ZMod.val_lt i
  refine ⟨?_, ?_, ?_⟩ <;> push_cast <;> omega

theorem phi_label (hn : n ≤ 31) {s : QuadSeq} (hs : Wf n s) : fmap (phi n s) (fam n (labelSeq n)) = fam n s := by
  funext t i
  obtain ⟨k, hk, rfl⟩ := tagNo_surj t
  have hi := ZMod.val_lt i
  unfold fmap
  rw [labelSeq_fam hn k hk]
  unfold phi
  rw [if_pos (by omega), show ((k * n + i.val + 1 : ℕ) : ℤ).toNat - 1 = k * n + i.val by omega, at0_flat hs hk hi,
    fam_apply]
  rfl

theorem mapM_some_mem {α β : Type} {f : α → Option β} {g : α → β} (l : List α) (h : ∀ x ∈ l, f x = some (g x)) :
    l.mapM f = some (l.map g) := mapM_some h

/-- The symbolic class is the set of reachable quadruples. -/
theorem fast_spec (hn : n ≤ 31) {ops : List Op} (hg : ∀ op ∈ ops, GoodOp n op) {s : QuadSeq} (hs : Wf n s) :
    ∃ G c, generateSymmetryGroup n ops = some G ∧ generateEquivalenceClassFast s G = some c ∧ c.Nodup ∧
      ∀ t, t ∈ c ↔ Reach ops s t := by
  have hL := labelSeq_wf hn (n := n)
  obtain ⟨G, hG, _, hGm⟩ := generateEquivalenceClass_spec hg hL
  have hsym : ∀ g ∈ G, applySymmetry s g = some (ofFam n (fmap (phi n s) (fam n g))) := by
    intro g hgG
    have hr := (hGm g).1 hgG
    refine applySymmetry_eq hn hs (reach_wf hg hL hr) (reach_ent hg ?_ hL (labelSeq_ent hn) hr)
    rintro x ⟨h1, h2, h3⟩
    exact ⟨by omega, by omega, by omega⟩
  refine ⟨G, _, hG, by unfold generateEquivalenceClassFast; rw [mapM_some_mem G hsym, Option.map_some],
    List.nodup_dedup _, fun t => ?_⟩
  rw [List.mem_dedup, List.mem_map]
  obtain ⟨R, hR, H⟩ := step_good hg
  constructor
  · rintro ⟨g, hgG, rfl⟩
    have hr := (hGm g).1 hgG
    clear hgG
    induction hr with
    | refl => rw [phi_label hn hs, ofFam_fam hs]; exact .refl
    | tail h1 h2 ih =>
      have hw := reach_wf hg hL h1
      refine ih.tail ?_
      have hb : Bd (fmap (phi n s) (fam n _)) := bd_fam (n := n) hs |> fun _ => by
        have := reach_wf hg hs ih
        have h := bd_fam this
        rwa [fam_ofFam] at h
      rcases (H _ hw _).1 h2 with ⟨hne, rfl⟩ | ⟨g', h', rfl⟩
      · exact (H _ (wf_ofFam hb) _).2 (.inl ⟨hne, rfl⟩)
      · refine (H _ (wf_ofFam hb) _).2 (.inr ⟨_, ?_, rfl⟩)
        rw [fam_ofFam, fam_ofFam]
        exact pres_fmap hR (phi_odd s) h'
  · intro hr
    induction hr with
    | refl => exact ⟨labelSeq n, (hGm _).2 .refl, by rw [phi_label hn hs, ofFam_fam hs]⟩
    | tail h1 h2 ih =>
      obtain ⟨g, hgG, rfl⟩ := ih
      have hw := reach_wf hg hs h1
      have hr := (hGm g).1 hgG
      have hwg := reach_wf hg hL hr
      rcases (H _ hw _).1 h2 with ⟨hne, rfl⟩ | ⟨g', h', rfl⟩
      · exact ⟨g, hgG, rfl⟩
      · rw [fam_ofFam] at h'
        obtain ⟨k, hk, rfl⟩ := pres_lift hR (phi_odd s) h'
        refine ⟨ofFam n k, (hGm _).2 (hr.tail ((H _ hwg _).2 (.inr ⟨k, hk, rfl⟩))), by rw [fam_ofFam]⟩

end Proofs
