import Verif.Proofs.Perfect
import Mathlib.Tactic.FieldSimp
import Mathlib.Algebra.BigOperators.Field
import Mathlib.Tactic.FinCases
import Mathlib.Tactic.NormNum

/-!
# Conversion between quadruples and quaternion sequences; QT verification versus perfection
-/

set_option linter.unusedSectionVars false

namespace Proofs
open Model Spec
open scoped Quaternion

/-- The linear formula behind the 16-entry table. -/
def linQuat (v : ℤ × ℤ × ℤ × ℤ) : Quat :=
  ⟨(-v.1 - v.2.1 - v.2.2.1 - v.2.2.2 : ℤ) / 4, (v.1 - v.2.1 - v.2.2.1 + v.2.2.2 : ℤ) / 4,
   (v.1 + v.2.1 - v.2.2.1 - v.2.2.2 : ℤ) / 4, (v.1 - v.2.1 + v.2.2.1 - v.2.2.2 : ℤ) / 4⟩

theorem pm4_iff_mem (v : ℤ × ℤ × ℤ × ℤ) : PM4 v ↔ v ∈ QUADRUPLETS := by
  obtain ⟨a, b, c, d⟩ := v
  constructor
  · rintro ⟨h1, h2, h3, h4⟩
    simp only at h1 h2 h3 h4
    rcases h1 with rfl | rfl <;> rcases h2 with rfl | rfl <;> rcases h3 with rfl | rfl <;>
      rcases h4 with rfl | rfl <;> decide
  · intro h
    have : ∀ v ∈ QUADRUPLETS, ((v.1 = 1 ∨ v.1 = -1) ∧ (v.2.1 = 1 ∨ v.2.1 = -1) ∧
        (v.2.2.1 = 1 ∨ v.2.2.1 = -1) ∧ (v.2.2.2 = 1 ∨ v.2.2.2 = -1)) := by decide
    exact this _ h

theorem table_lin : ∀ v ∈ QUADRUPLETS, QuadSeq.quadToQuat v = some (linQuat v) := by decide +kernel
theorem table_inv : ∀ v ∈ QUADRUPLETS, quaternionToQuad (linQuat v) = some v := by decide +kernel
theorem table_mem : ∀ v ∈ QUADRUPLETS, linQuat v ∈ QPLUS := by decide +kernel
theorem table_inv' : ∀ q ∈ QPLUS, ∃ v ∈ QUADRUPLETS, quaternionToQuad q = some v ∧ linQuat v = q := by
  decide +kernel
theorem table_none : ∀ q ∈ Q24, q ∉ QPLUS → quaternionToQuad q = none := by decide +kernel
theorem qplus_sub : ∀ q ∈ QPLUS, q ∈ Q24 := by decide +kernel

theorem firstIndex_none {α : Type} [DecidableEq α] {l : List α} {x : α} (h : x ∉ l) :
    firstIndex l x = none := by
  unfold firstIndex; rw [if_neg]; rwa [List.idxOf_lt_length_iff]

theorem quaternionToQuad_none {q : Quat} (h : q ∉ QPLUS) : quaternionToQuad q = none := by
  by_cases h' : q ∈ Q24
  · exact table_none q h' h
  · unfold quaternionToQuad; rw [firstIndex_none h']; rfl

theorem quadToQuat_none {v : ℤ × ℤ × ℤ × ℤ} (h : ¬ PM4 v) : QuadSeq.quadToQuat v = none := by
  unfold QuadSeq.quadToQuat
  split
  case h_17 => rfl
  all_goals exact absurd ((pm4_iff_mem _).2 (by decide)) h

theorem mapM_some {α β : Type} {f : α → Option β} {g : α → β} {l : List α}
    (h : ∀ x ∈ l, f x = some (g x)) : l.mapM f = some (l.map g) := by
  induction l with
  | nil => rfl
  | cons x xs ih =>
    rw [List.mapM_cons, h x (by simp), ih fun y hy => h y (by simp [hy])]
    rfl

theorem mapM_eq_none {α β : Type} {f : α → Option β} {l : List α} :
    l.mapM f = none ↔ ∃ x ∈ l, f x = none := by
  induction l with
  | nil => simp
  | cons x xs ih =>
    rw [List.mapM_cons]
    cases hx : f x with
    | none => simp [hx]
    | some y =>
      cases hxs : xs.mapM f with
      | none => simp [hx, ← ih, hxs]
      | some ys =>
        have : ¬ ∃ x ∈ xs, f x = none := by rw [← ih, hxs]; simp
        simp [hx]
        push Not at this
        exact this

theorem setValue_none {q : QS} (h : q.symmetry = none) (v : Quat) {i : ℕ} (hi : i < q.values.length) :
    q.setValue v i = some { q with values := q.values.set i v } := by
  unfold QS.setValue
  simp [hi, h]

theorem set_append_replicate {α : Type} (l : List α) (x y : α) (k : ℕ) :
    (l ++ List.replicate (k + 1) x).set l.length y = (l ++ [y]) ++ List.replicate k x := by
  induction l with
  | nil => simp [List.replicate_succ]
  | cons z zs ih => simp [ih]

/-- Writing the entries one by one builds the mapped list. -/
theorem fold_setValue (n : ℕ) (g : ℕ → Option Quat) (f : ℕ → Quat) (m : ℕ) (hm : m ≤ n)
    (hg : ∀ i < m, g i = some (f i)) :
    (List.range m).foldlM (fun qs i => (g i).bind fun q => QS.setValue qs q i) (QS.new n none) =
      some { size := n, values := (List.range m).map f ++ List.replicate (n - m) Q1, symmetry := none } := by
  induction m with
  | zero => simp [QS.new]
  | succ m ih =>
    rw [List.range_succ, List.foldlM_append, ih (by omega) fun i hi => hg i (by omega)]
    simp only [Option.bind_eq_bind, Option.bind_some, List.foldlM_cons, List.foldlM_nil, hg m (by omega)]
    rw [setValue_none rfl _ (by simp; omega)]
    simp only [Option.bind_some]
    congr 2
    have := set_append_replicate ((List.range m).map f) Q1 (f m) (n - (m + 1))
    rw [show n - (m + 1) + 1 = n - m by omega] at this
    simpa using this

theorem fold_setValue_none (n : ℕ) (g : ℕ → Option Quat) (m : ℕ) (hm : m ≤ n)
    (hg : ∃ i < m, g i = none) :
    (List.range m).foldlM (fun qs i => (g i).bind fun q => QS.setValue qs q i) (QS.new n none) = none := by
  induction m with
  | zero => obtain ⟨i, hi, _⟩ := hg; omega
  | succ m ih =>
    rw [List.range_succ, List.foldlM_append]
    by_cases h : ∃ i < m, g i = none
    · rw [ih (by omega) h]; rfl
    · have h' : ∀ i < m, g i = some ((g i).getD Q0) := by
        intro i hi
        cases hgi : g i with
        | none => exact absurd ⟨i, hi, hgi⟩ h
        | some v => rfl
      rw [fold_setValue n g (fun i => (g i).getD Q0) m (by omega) h']
      obtain ⟨i, hi, hgi⟩ := hg
      have : i = m := by
        by_contra hne; exact h ⟨i, by omega, hgi⟩
      subst this
      simp [hgi]

variable {n : ℕ}

theorem values_pm4 {s : QuadSeq} (h : PMQuad n s) {i : ℕ} (hi : i < n) : PM4 (s.values i) :=
  ⟨at0_pm h.a.2 (by rw [h.a.1]; exact hi), at0_pm h.b.2 (by rw [h.b.1]; exact hi),
   at0_pm h.c.2 (by rw [h.c.1]; exact hi), at0_pm h.d.2 (by rw [h.d.1]; exact hi)⟩

theorem toQs_eq {s : QuadSeq} (h : PMQuad n s) :
    s.toQs = some { size := n, values := (List.range n).map (fun i => linQuat (s.values i)), symmetry := none } := by
  unfold QuadSeq.toQs
  rw [h.size, fold_setValue n (fun i => QuadSeq.quadToQuat (s.values i)) (fun i => linQuat (s.values i)) n le_rfl]
  · simp
  · intro i hi
    exact table_lin _ ((pm4_iff_mem _).1 (values_pm4 h hi))

theorem map_range_at0 {l : List ℤ} (h : l.length = n) : (List.range n).map (fun i => at0 l i) = l := by
  apply List.ext_getElem
  · simp [h]
  · intro i h1 h2
    simp [at0, h2]

theorem fromPqs_toQs {s : QuadSeq} (h : PMQuad n s) :
    QuadSeq.fromPqs { size := n, values := (List.range n).map (fun i => linQuat (s.values i)), symmetry := none } = some s := by
  unfold QuadSeq.fromPqs
  have : ((List.range n).map fun i => linQuat (s.values i)).mapM quaternionToQuad =
      some ((List.range n).map fun i => s.values i) := by
    rw [List.mapM_map, mapM_some (g := fun i => s.values i)]
    intro i hi
    exact table_inv _ ((pm4_iff_mem _).1 (values_pm4 h (List.mem_range.1 hi)))
  simp only [this, Option.map_some, List.map_map]
  unfold QuadSeq.setAllValues QuadSeq.new
  congr 1
  cases s with
  | mk size a b c d =>
    have h1 := h.size
    have h2 := map_range_at0 h.a.1
    have h3 := map_range_at0 h.b.1
    have h4 := map_range_at0 h.c.1
    have h5 := map_range_at0 h.d.1
    simp only at h1 h2 h3 h4 h5
    simp only [QuadSeq.mk.injEq]
    exact ⟨h1.symm, h2, h3, h4, h5⟩

/-- The quadruple of values assigned to an allowed quaternion. -/
def quadOf (q : Quat) : ℤ × ℤ × ℤ × ℤ := (quaternionToQuad q).getD (0, 0, 0, 0)

theorem quadOf_spec {q : Quat} (h : q ∈ QPLUS) :
    quaternionToQuad q = some (quadOf q) ∧ PM4 (quadOf q) ∧ linQuat (quadOf q) = q := by
  obtain ⟨v, hv, h1, h2⟩ := table_inv' q h
  unfold quadOf
  rw [h1]
  exact ⟨rfl, (pm4_iff_mem _).2 hv, h2⟩

theorem fromPqs_eq {q : QS} (hp : ∀ v ∈ q.values, v ∈ QPLUS) :
    QuadSeq.fromPqs q = some
      { size := q.size, a := q.values.map fun v => (quadOf v).1, b := q.values.map fun v => (quadOf v).2.1,
        c := q.values.map fun v => (quadOf v).2.2.1, d := q.values.map fun v => (quadOf v).2.2.2 } := by
  unfold QuadSeq.fromPqs
  rw [mapM_some (g := quadOf) fun v hv => (quadOf_spec (hp v hv)).1]
  simp [QuadSeq.setAllValues, QuadSeq.new, List.map_map, Function.comp_def]

theorem toQs_fromPqs {q : QS} (hl : q.values.length = q.size) (hp : ∀ v ∈ q.values, v ∈ QPLUS) :
    ∃ s, QuadSeq.fromPqs q = some s ∧ PMQuad q.size s ∧ s.toQs = some { q with symmetry := none } := by
  refine ⟨_, fromPqs_eq hp, ?_, ?_⟩
  · have hs := fun v hv => (quadOf_spec (hp v hv)).2.1
    refine ⟨rfl, ⟨by simp [hl], ?_⟩, ⟨by simp [hl], ?_⟩, ⟨by simp [hl], ?_⟩, ⟨by simp [hl], ?_⟩⟩ <;>
      intro x hx <;> obtain ⟨v, hv, rfl⟩ := List.mem_map.1 hx
    · exact (hs v hv).1
    · exact (hs v hv).2.1
    · exact (hs v hv).2.2.1
    · exact (hs v hv).2.2.2
  · rw [toQs_eq (n := q.size)]
    · congr 2
      apply List.ext_getElem
      · simp [hl]
      · intro i h1 h2
        simp only [List.getElem_map, List.getElem_range, QuadSeq.values, at0, List.getD_eq_getElem?_getD,
          List.getElem?_map, List.getElem?_eq_getElem h2, Option.map_some, Option.getD_some]
        exact (quadOf_spec (hp _ (List.getElem_mem h2))).2.2
    · have hs := fun v hv => (quadOf_spec (hp v hv)).2.1
      refine ⟨rfl, ⟨by simp [hl], ?_⟩, ⟨by simp [hl], ?_⟩, ⟨by simp [hl], ?_⟩, ⟨by simp [hl], ?_⟩⟩ <;>
        intro x hx <;> obtain ⟨v, hv, rfl⟩ := List.mem_map.1 hx
      · exact (hs v hv).1
      · exact (hs v hv).2.1
      · exact (hs v hv).2.2.1
      · exact (hs v hv).2.2.2

theorem fromPqs_none {q : QS} : QuadSeq.fromPqs q = none ↔ ∃ v ∈ q.values, v ∉ QPLUS := by
  unfold QuadSeq.fromPqs
  rw [Option.map_eq_none_iff, mapM_eq_none]
  refine exists_congr fun v => and_congr_right fun _ => ?_
  constructor
  · intro h hv
    rw [(quadOf_spec hv).1] at h; simp at h
  · exact quaternionToQuad_none

/-! ### Components of the autocorrelation -/

variable [NeZero n]

theorem qcyc_toQs (s : QuadSeq) (x : ZMod n) :
    qcyc n ((List.range n).map fun i => linQuat (s.values i)) x =
      toH (linQuat (cyc n s.a x, cyc n s.b x, cyc n s.c x, cyc n s.d x)) := by
  unfold qcyc
  congr 1
  rw [List.getD_eq_getElem _ _ (by simp [ZMod.val_lt])]
  simp [QuadSeq.values, cyc, at0]

theorem asym_eq_sum (x y : ZMod n → ℤ) (t : ZMod n) :
    Amicable.asym x y t = ∑ i, (y i * x (i + t) - x i * y (i + t)) := by
  unfold Amicable.asym
  rw [Amicable.ccf_neg y x t, Amicable.ccf_neg x y t]
  unfold ccf
  rw [← Finset.sum_sub_distrib]
  simp

theorem qpaf_quad (a b c d : ZMod n → ℤ) (t : ZMod n) :
    qpaf (fun x => toH (linQuat (a x, b x, c x, d x))) t =
      toH ⟨((paf a t + paf b t + paf c t + paf d t : ℤ) : ℚ) / 4,
           ((Amicable.asym a c t - Amicable.asym b d t : ℤ) : ℚ) / 4,
           ((Amicable.asym a d t - Amicable.asym c b t : ℤ) : ℚ) / 4,
           ((Amicable.asym a b t - Amicable.asym d c t : ℤ) : ℚ) / 4⟩ := by
  have key : ∀ i, toH (linQuat (a i, b i, c i, d i)) * star (toH (linQuat (a (i+t), b (i+t), c (i+t), d (i+t)))) =
     toH ⟨((a i * a (i+t) + b i * b (i+t) + c i * c (i+t) + d i * d (i+t) : ℤ) : ℚ) / 4,
          (((c i * a (i+t) - a i * c (i+t)) - (d i * b (i+t) - b i * d (i+t)) : ℤ) : ℚ) / 4,
          (((d i * a (i+t) - a i * d (i+t)) - (b i * c (i+t) - c i * b (i+t)) : ℤ) : ℚ) / 4,
          (((b i * a (i+t) - a i * b (i+t)) - (c i * d (i+t) - d i * c (i+t)) : ℤ) : ℚ) / 4⟩ := by
    intro i
    rw [← toH_conj, ← toH_mul, toH_inj]
    generalize a i = a1; generalize b i = b1; generalize c i = c1; generalize d i = d1
    generalize a (i+t) = a2; generalize b (i+t) = b2; generalize c (i+t) = c2; generalize d (i+t) = d2
    have ext : ∀ p q : Quat, p.w = q.w → p.x = q.x → p.y = q.y → p.z = q.z → p = q := by
      rintro ⟨⟩ ⟨⟩ h1 h2 h3 h4; simp_all
    apply ext <;> simp only [mul_w, mul_x, mul_y, mul_z, linQuat, Quat.conj] <;> push_cast <;> ring
  unfold qpaf
  rw [Finset.sum_congr rfl fun i _ => key i]
  have hsum : ∀ f g h k : ZMod n → ℚ, ∑ i, toH ⟨f i, g i, h i, k i⟩ = toH ⟨∑ i, f i, ∑ i, g i, ∑ i, h i, ∑ i, k i⟩ := by
    intro f g h k
    have gen : ∀ S : Finset (ZMod n), ∑ i ∈ S, toH ⟨f i, g i, h i, k i⟩ =
        toH ⟨∑ i ∈ S, f i, ∑ i ∈ S, g i, ∑ i ∈ S, h i, ∑ i ∈ S, k i⟩ := by
      intro S
      induction S using Finset.induction_on with
      | empty => simp only [Finset.sum_empty]; exact toH_Q0.symm
      | insert x S hx ih =>
        rw [Finset.sum_insert hx, ih, Finset.sum_insert hx, Finset.sum_insert hx, Finset.sum_insert hx,
          Finset.sum_insert hx, ← toH_add]
        rfl
    exact gen _
  rw [hsum]
  simp only [← Finset.sum_div, asym_eq_sum, paf, ← Int.cast_sum, Finset.sum_add_distrib, Finset.sum_sub_distrib]

theorem perfect_iff (a b c d : ZMod n → ℤ) :
    Perfect (fun x => toH (linQuat (a x, b x, c x, d x))) ↔ Complementary a b c d ∧ QTCross a b c d := by
  unfold Perfect
  have h0 : ∀ t, qpaf (fun x => toH (linQuat (a x, b x, c x, d x))) t = 0 ↔
      paf a t + paf b t + paf c t + paf d t = 0 ∧ Amicable.asym a c t - Amicable.asym b d t = 0 ∧
      Amicable.asym a d t - Amicable.asym c b t = 0 ∧ Amicable.asym a b t - Amicable.asym d c t = 0 := by
    intro t
    rw [qpaf_quad, ← toH_Q0, toH_inj]
    unfold Q0
    rw [Quat.mk.injEq]
    simp only [div_eq_zero_iff, OfNat.ofNat_ne_zero, or_false, Int.cast_eq_zero]
  simp only [h0]
  constructor
  · intro H
    refine ⟨fun t ht => (H t ht).1, fun t => ?_⟩
    by_cases ht : t = 0
    · subst ht
      have := amicable_zero a b; have := amicable_zero a c; have := amicable_zero a d
      have := amicable_zero b c; have := amicable_zero b d; have := amicable_zero c d
      omega
    · have := H t ht
      simp only [Amicable.asym] at this
      omega
  · rintro ⟨H1, H2⟩ t ht
    have := H1 t ht; have := H2 t
    simp only [Amicable.asym]
    omega

end Proofs
