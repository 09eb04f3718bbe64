import Verif.Props.Equivalence
import Verif.Proofs.Reduce

/-!
# Properties C13 - C21: representatives and reductions
-/

namespace Props
open Model Spec Proofs

/-! ## C13: the order and minima -/

/-- C13. On quadruples whose sequences have one common length, `will_less_than` is the lexicographic order of the
written-out entries. -/
theorem C13_lexicographic (n : ℕ) (s t : QuadSeq) (hs : ∀ tg, (s.sequence tg).length = n)
    (ht : ∀ tg, (t.sequence tg).length = n) : willLessThan s t = true ↔ flat s < flat t := willLessThan_iff hs ht

/-- C13. It is a strict total order on quadruples of one length. -/
theorem C13_strict_total (n : ℕ) :
    (∀ s, (∀ tg, (s.sequence tg).length = n) → willLessThan s s = false) ∧
    (∀ s t u, (∀ tg, (s.sequence tg).length = n) → (∀ tg, (t.sequence tg).length = n) →
      (∀ tg, (u.sequence tg).length = n) → willLessThan s t = true → willLessThan t u = true →
        willLessThan s u = true) ∧
    (∀ s t, s.size = t.size → (∀ tg, (s.sequence tg).length = n) → (∀ tg, (t.sequence tg).length = n) →
      willLessThan s t = true ∨ s = t ∨ willLessThan t s = true) := by
  refine ⟨fun s hs => ?_, fun s t u hs ht hu h1 h2 => ?_, fun s t hsz hs ht => ?_⟩
  · rw [Bool.eq_false_iff, Ne, willLessThan_iff hs hs]; exact lt_irrefl _
  · rw [willLessThan_iff hs ht] at h1
    rw [willLessThan_iff ht hu] at h2
    rw [willLessThan_iff hs hu]; exact h1.trans h2
  · rw [willLessThan_iff hs ht, willLessThan_iff ht hs]
    rcases lt_trichotomy (flat s) (flat t) with h | h | h
    · exact .inl h
    · exact .inr (.inl (flat_inj hs ht hsz h))
    · exact .inr (.inr h)

/-- C13. The minimum of a non-empty class belongs to it, is least, and depends only on the set of members: any two
lists with the same members (any hash iteration order) give the same minimum, with both selection loops. -/
theorem C13_minimum_order_independent (n : ℕ) (l l' : List QuadSeq) (hne : l ≠ [])
    (hl : ∀ t ∈ l, t.size = n ∧ ∀ tg, (t.sequence tg).length = n) (hperm : ∀ t, t ∈ l ↔ t ∈ l') :
    ∃ m, findMinimum l = some m ∧ findMinimum l' = some m ∧ minBy l = some m ∧ minBy l' = some m ∧ m ∈ l ∧
      (∀ t ∈ l, flat m ≤ flat t) ∧ (∀ s ∈ l, minFrom s l' = m) := by
  have hne' : l' ≠ [] := by
    rintro rfl
    obtain ⟨x, hx⟩ := List.exists_mem_of_ne_nil l hne
    exact absurd ((hperm x).1 hx) (List.not_mem_nil)
  have hl' : ∀ t ∈ l', t.size = n ∧ ∀ tg, (t.sequence tg).length = n := fun t ht => hl t ((hperm t).2 ht)
  obtain ⟨m, h1, h2⟩ := findMinimum_spec (n := n) hne fun t ht => (hl t ht).2
  obtain ⟨m', k1, k2⟩ := findMinimum_spec (n := n) hne' fun t ht => (hl' t ht).2
  have hU : Uniform n (· ∈ l) := hl
  have hmm : m = m' := IsLeastQ.unique hU h2 ⟨(hperm m').2 k2.1, fun t ht => k2.2 t ((hperm t).1 ht)⟩
  subst hmm
  refine ⟨m, h1, k1, by rw [← findMinimum_eq]; exact h1, by rw [← findMinimum_eq]; exact k1, h2.1, h2.2, ?_⟩
  intro s hs
  obtain ⟨a1, a2, a3⟩ := minFrom_spec (n := n) s l' (hl s hs).2 fun t ht => (hl' t ht).2
  have hmem : minFrom s l' ∈ l := by
    rcases a1 with h | h
    · rw [h]; exact hs
    · exact (hperm _).2 h
  exact IsLeastQ.unique hU ⟨hmem, fun t ht => a3 t ((hperm t).1 ht)⟩ h2

/-- C13. The representative chosen by `generate_canonical_representative` is the least member of the class. -/
theorem C13_representative (n : ℕ) [NeZero n] (hn : n ≤ 100) (ty : SeqType) (s : QuadSeq) (hs : PMQuad n s) :
    ∃ r, generateCanonicalRepresentative s ty = some r ∧ (PMQuad n r ∧ TypeEquiv ty (fam n s) (fam n r)) ∧
      ∀ t, PMQuad n t → TypeEquiv ty (fam n s) (fam n t) → flat r ≤ flat t := by
  obtain ⟨c, h1, _, h3⟩ := C11_class_eq n hn ty s hs
  have hsc : s ∈ c := (h3 s).2 ⟨hs, (typeEquiv_equivalence n ty).refl _⟩
  obtain ⟨a1, a2, a3⟩ := minFrom_spec (n := n) s c (pm_len hs) fun t ht => pm_len ((h3 t).1 ht).1
  refine ⟨minFrom s c, by unfold generateCanonicalRepresentative; rw [h1]; rfl, ?_, fun t ht h =>
    a3 t ((h3 t).2 ⟨ht, h⟩)⟩
  rw [← h3]
  rcases a1 with h | h
  · rw [h]; exact hsc
  · exact h

example : willLessThan { exQTS5 with a := [-1, 1, 1, 1, 1] } { exQTS5 with a := [1, -1, 1, 1, 1] } = true := by decide
/-- A quadruple below `exWS3`. -/
def exBelow3 : QuadSeq := { exWS3 with a := [-1, -1, -1], b := [-1, -1, -1] }

example : findMinimum [exWS3, exBelow3, exWS3] = some exBelow3 ∧ exBelow3 ≠ exWS3 := by decide

/-! ## C14: negate-swap canonical form -/

/-- C14. `ns_canonical` terminates, stays in the negate-swap orbit, returns its least element, is idempotent. -/
theorem C14_ns_canonical (n : ℕ) [NeZero n] (s : QuadSeq) (hs : PMQuad n s) :
    ∃ r, nsCanonical s = some r ∧ PMQuad n r ∧ NSEquiv (fam n s) (fam n r) ∧
      (∀ t, PMQuad n t → NSEquiv (fam n s) (fam n t) → flat r ≤ flat t) ∧ nsCanonical r = some r := by
  obtain ⟨r, h1, h2, h3⟩ := nsCanonical_spec hs
  have hmin : ∀ t, PMQuad n t → NSEquiv (fam n s) (fam n t) → flat r ≤ flat t := fun t ht h =>
    nsform_min h2.1 h3 ⟨ht, .trans _ _ _ (.symm _ _ h2.2) h⟩
  refine ⟨r, h1, h2.1, h2.2, hmin, ?_⟩
  obtain ⟨r', k1, k2, k3⟩ := nsCanonical_spec h2.1
  rw [k1]
  refine congrArg some (flat_inj (pm_len k2.1) (pm_len h2.1) (k2.1.size.trans h2.1.size.symm) (le_antisymm ?_ ?_))
  · exact nsform_min k2.1 k3 ⟨h2.1, .symm _ _ k2.2⟩
  · exact hmin r' k2.1 (.trans _ _ _ h2.2 k2.2)

/-- C14. The form is a complete invariant of the orbit. -/
theorem C14_ns_complete (n : ℕ) [NeZero n] (s t : QuadSeq) (hs : PMQuad n s) (ht : PMQuad n t) :
    nsCanonical s = nsCanonical t ↔ NSEquiv (fam n s) (fam n t) := by
  obtain ⟨r, h1, h2, h3⟩ := nsCanonical_spec hs
  obtain ⟨r', k1, k2, k3⟩ := nsCanonical_spec ht
  rw [h1, k1, Option.some_inj]
  constructor
  · rintro rfl
    exact .trans _ _ _ h2.2 (.symm _ _ k2.2)
  · intro h
    refine flat_inj (pm_len h2.1) (pm_len k2.1) (h2.1.size.trans k2.1.size.symm) (le_antisymm ?_ ?_)
    · exact nsform_min h2.1 h3 ⟨k2.1, .trans _ _ _ (.symm _ _ h2.2) (.trans _ _ _ h k2.2)⟩
    · exact nsform_min k2.1 k3 ⟨h2.1, .trans _ _ _ (.symm _ _ k2.2) (.trans _ _ _ (.symm _ _ h) h2.2)⟩

/-- C14. The orbit is the one generated by the operation `equivalent_negate_swap` of the code. -/
theorem C14_orbit_is_operation (n : ℕ) [NeZero n] (s t : QuadSeq) (hs : PMQuad n s) :
    (PMQuad n t ∧ NSEquiv (fam n s) (fam n t)) ↔
      Relation.ReflTransGen (fun x y => y ∈ equivalentNegateSwap x) s t := by
  have hstep : ∀ s, Wf n s → ∀ t, Step [equivalentNegateSwap] s t ↔ t = s ∨ ∃ g, NSMove (fam n s) g ∧ t = ofFam n g := by
    intro s hs t
    simp only [Step, List.mem_cons, List.not_mem_nil, or_false, exists_eq_left, negateSwap_is s hs t]
  have e : (fun x y => y ∈ equivalentNegateSwap x) = Step [equivalentNegateSwap] := by
    funext x y; simp [Step]
  rw [e]
  have h := reach_iff pres_NS hstep (PMQuad.wf hs) t
  constructor
  · exact fun k => h.2 ⟨PMQuad.wf k.1, k.2⟩
  · intro k
    obtain ⟨k1, k2⟩ := h.1 k
    exact ⟨pmquad_iff.2 ⟨k1, (ns_sperm (pmfam_fam hs) k2).1⟩, k2⟩

example : PMQuad 5 exQTS5 ∧ ∃ r, nsCanonical exQTS5 = some r ∧ r ≠ exQTS5 := ⟨exQTS5_pm, _, rfl, by decide⟩

/-! ## C15: canonical form under negations and swaps -/

/-- C15. `sn_ss_canonical` returns the least element of the orbit under negations and swaps, and is idempotent. -/
theorem C15_sn_canonical (n : ℕ) [NeZero n] (s : QuadSeq) (hs : PMQuad n s) :
    PMQuad n (snSsCanonical s) ∧ SNEquiv (fam n s) (fam n (snSsCanonical s)) ∧
      (∀ t, PMQuad n t → SNEquiv (fam n s) (fam n t) → flat (snSsCanonical s) ≤ flat t) ∧
      snSsCanonical (snSsCanonical s) = snSsCanonical s := by
  obtain ⟨h2, h3⟩ := snSs_spec hs
  have hmin : ∀ t, PMQuad n t → SNEquiv (fam n s) (fam n t) → flat (snSsCanonical s) ≤ flat t := fun t ht h =>
    snform_min h2.1 h3 ⟨ht, .trans _ _ _ (.symm _ _ h2.2) h⟩
  refine ⟨h2.1, h2.2, hmin, ?_⟩
  obtain ⟨k2, k3⟩ := snSs_spec h2.1
  refine flat_inj (pm_len k2.1) (pm_len h2.1) (k2.1.size.trans h2.1.size.symm) (le_antisymm ?_ ?_)
  · exact snform_min k2.1 k3 ⟨h2.1, .symm _ _ k2.2⟩
  · exact hmin _ k2.1 (.trans _ _ _ h2.2 k2.2)

/-- C15. The form is a complete invariant of the orbit. -/
theorem C15_sn_complete (n : ℕ) [NeZero n] (s t : QuadSeq) (hs : PMQuad n s) (ht : PMQuad n t) :
    snSsCanonical s = snSsCanonical t ↔ SNEquiv (fam n s) (fam n t) := by
  obtain ⟨h2, h3⟩ := snSs_spec hs
  obtain ⟨k2, k3⟩ := snSs_spec ht
  constructor
  · intro h
    rw [← h] at k2
    exact .trans _ _ _ h2.2 (.symm _ _ k2.2)
  · intro h
    refine flat_inj (pm_len h2.1) (pm_len k2.1) (h2.1.size.trans k2.1.size.symm) (le_antisymm ?_ ?_)
    · exact snform_min h2.1 h3 ⟨k2.1, .trans _ _ _ (.symm _ _ h2.2) (.trans _ _ _ h k2.2)⟩
    · exact snform_min k2.1 k3 ⟨h2.1, .trans _ _ _ (.symm _ _ k2.2) (.trans _ _ _ (.symm _ _ h) h2.2)⟩

/-- C15. The orbit is the one generated by the operations `equivalent_negate` and `equivalent_reorder`. -/
theorem C15_orbit_is_operations (n : ℕ) [NeZero n] (s t : QuadSeq) (hs : PMQuad n s) :
    (PMQuad n t ∧ SNEquiv (fam n s) (fam n t)) ↔
      Relation.ReflTransGen (fun x y => y ∈ equivalentNegate x ∨ y ∈ equivalentReorder x) s t := by
  have hstep : ∀ s, Wf n s → ∀ t, Step [equivalentNegate, equivalentReorder] s t ↔
      t = s ∨ ∃ g, SNMove (fam n s) g ∧ t = ofFam n g := by
    intro s hs t
    simp only [Step, List.mem_cons, List.not_mem_nil, or_false, exists_eq_or_imp, exists_eq_left, negate_is s hs t,
      reorder_is s hs t]
    constructor
    · rintro ((h | ⟨g, ⟨t₀, h⟩, e⟩) | (h | ⟨g, ⟨t₁, t₂, h12, h⟩, e⟩))
      · exact .inl h
      · exact .inr ⟨g, h ▸ .neg t₀, e⟩
      · exact .inl h
      · exact .inr ⟨g, h ▸ .swap t₁ t₂ h12, e⟩
    · rintro (h | ⟨g, h, e⟩)
      · exact .inl (.inl h)
      · cases h with
        | neg t₀ => exact .inl (.inr ⟨_, ⟨t₀, rfl⟩, e⟩)
        | swap t₁ t₂ h12 => exact .inr (.inr ⟨_, ⟨t₁, t₂, h12, rfl⟩, e⟩)
  have e : (fun x y => y ∈ equivalentNegate x ∨ y ∈ equivalentReorder x) = Step [equivalentNegate, equivalentReorder] := by
    funext x y; simp [Step]
  rw [e]
  have h := reach_iff pres_SN hstep (PMQuad.wf hs) t
  constructor
  · exact fun k => h.2 ⟨PMQuad.wf k.1, k.2⟩
  · intro k
    obtain ⟨k1, k2⟩ := h.1 k
    exact ⟨pmquad_iff.2 ⟨k1, (sn_sperm (pmfam_fam hs) k2).1⟩, k2⟩

example : PMQuad 5 exQTS5 ∧ snSsCanonical exQTS5 ≠ exQTS5 := ⟨exQTS5_pm, by decide⟩

/-! ## C16: canonical representatives of the full classes -/

/-- C16, quaternion type: `qt_canonical` with the symbolic group used by the program returns the least element of
the full QT class. -/
theorem C16_qts (n : ℕ) [NeZero n] (hn : n ≤ 31) (s : QuadSeq) (hs : PMQuad n s) :
    ∃ G r, generateSymmetryGroup n (canonicalOps .quaternionType) = some G ∧
      qtCanonical s G .quaternionType = some r ∧ PMQuad n r ∧ QTEquiv (fam n s) (fam n r) ∧
      ∀ t, PMQuad n t → QTEquiv (fam n s) (fam n t) → flat r ≤ flat t := by
  obtain ⟨G, hG⟩ := group_exists (n := n) hn (canonicalOps_sub .quaternionType)
  obtain ⟨r, h1, h2, h3⟩ := qtCanonical_qt hn hs hG
  exact ⟨G, r, hG, h1, h2.1, h2.2, fun t ht h => h3 t ⟨ht, h⟩⟩

/-- C16, Williamson type. -/
theorem C16_wts (n : ℕ) [NeZero n] (hn : n ≤ 31) (s : QuadSeq) (hs : PMQuad n s) :
    ∃ G r, generateSymmetryGroup n (canonicalOps .williamsonType) = some G ∧
      qtCanonical s G .williamsonType = some r ∧ PMQuad n r ∧ WTEquiv (fam n s) (fam n r) ∧
      ∀ t, PMQuad n t → WTEquiv (fam n s) (fam n t) → flat r ≤ flat t := by
  obtain ⟨G, hG⟩ := group_exists (n := n) hn (canonicalOps_sub .williamsonType)
  obtain ⟨r, h1, h2, h3⟩ := qtCanonical_wt hn (.inl rfl) hs hG
  exact ⟨G, r, hG, h1, h2.1, h2.2, fun t ht h => h3 t ⟨ht, h⟩⟩

/-- C16. Two quadruples have the same representative exactly when they are equivalent. -/
theorem C16_complete (n : ℕ) [NeZero n] (hn : n ≤ 31) (ty : SeqType) (hty : ty = .quaternionType ∨ ty = .williamsonType)
    (s t : QuadSeq) (hs : PMQuad n s) (ht : PMQuad n t) :
    ∃ G r r', generateSymmetryGroup n (canonicalOps ty) = some G ∧ qtCanonical s G ty = some r ∧
      qtCanonical t G ty = some r' ∧ (r = r' ↔ TypeEquiv ty (fam n s) (fam n t)) := by
  have hc : CanType ty := by rcases hty with h | h <;> simp [CanType, h]
  have he : (CanEquiv ty : Fam n → Fam n → Prop) = TypeEquiv ty := by rcases hty with rfl | rfl <;> rfl
  obtain ⟨G, hG⟩ := group_exists (n := n) hn (canonicalOps_sub ty)
  obtain ⟨r, h1, h2⟩ := qtCanonical_spec hn hc hs hG
  obtain ⟨r', k1, k2⟩ := qtCanonical_spec hn hc ht hG
  refine ⟨G, r, r', hG, h1, k1, ?_⟩
  rw [← he]
  exact rep_eq_iff (canEquiv_equiv ty) hs ht h2 k2

/-- C16. The fast representative is the one of `generate_canonical_representative`. -/
theorem C16_agrees (n : ℕ) [NeZero n] (hn : n ≤ 31) (ty : SeqType) (hty : ty = .quaternionType ∨ ty = .williamsonType)
    (s : QuadSeq) (hs : PMQuad n s) :
    ∃ G, generateSymmetryGroup n (canonicalOps ty) = some G ∧ qtCanonical s G ty = generateCanonicalRepresentative s ty := by
  have hc : CanType ty := by rcases hty with h | h <;> simp [CanType, h]
  have he : (CanEquiv ty : Fam n → Fam n → Prop) = TypeEquiv ty := by rcases hty with rfl | rfl <;> rfl
  obtain ⟨G, hG⟩ := group_exists (n := n) hn (canonicalOps_sub ty)
  obtain ⟨r, h1, h2⟩ := qtCanonical_spec hn hc hs hG
  obtain ⟨r', k1, k2, k3⟩ := C13_representative n (by omega) ty s hs
  refine ⟨G, hG, ?_⟩
  rw [h1, k1]
  rw [he] at h2
  exact congrArg some (IsLeastQ.unique (cls_uniform _ s) h2 ⟨k2, fun t ht => k3 t ht.1 ht.2⟩)

/-- C16. A QT representative passes the check `is_ns_canonical` of the conversion to matrices. -/
theorem C16_rep_is_ns_canonical (n : ℕ) [NeZero n] (hn : n ≤ 31) (s : QuadSeq) (hs : PMQuad n s) :
    ∃ G r, generateSymmetryGroup n (canonicalOps .quaternionType) = some G ∧
      qtCanonical s G .quaternionType = some r ∧ nsCanonical r = some r := by
  obtain ⟨G, r, hG, h1, h2, h3, h4⟩ := C16_qts n hn s hs
  refine ⟨G, r, hG, h1, ?_⟩
  obtain ⟨q, k1, k2, k3, k4, _⟩ := C14_ns_canonical n r h2
  rw [k1]
  refine congrArg some (flat_inj (pm_len k2) (pm_len h2) (k2.size.trans h2.size.symm) (le_antisymm (k4 r h2 (.refl _)) ?_))
  exact h4 q k2 (.trans _ _ _ h3 (ns_qt k3))

example : (reduceToCanonicalReps [exWS3] .quaternionType).isSome = true := by decide +kernel

/-! ## C17: reduction to representatives and `equiv` -/

/-- C17. The reduction of a non-empty list returns without repetition exactly the least elements of the classes met
by the list. -/
theorem C17_reduce (n : ℕ) [NeZero n] (hn : n ≤ 31) (ty : SeqType) (hty : ty = .quaternionType ∨ ty = .williamsonType)
    (l : List QuadSeq) (hne : l ≠ []) (hl : ∀ s ∈ l, PMQuad n s) :
    ∃ r, reduceToCanonicalReps l ty = some r ∧ r.Nodup ∧
      (∀ x ∈ r, PMQuad n x ∧ ∃ s ∈ l, TypeEquiv ty (fam n s) (fam n x)) ∧
      (∀ s ∈ l, ∃ x ∈ r, TypeEquiv ty (fam n s) (fam n x) ∧
        ∀ y ∈ r, TypeEquiv ty (fam n s) (fam n y) → y = x) ∧
      (∀ x ∈ r, ∀ t, PMQuad n t → TypeEquiv ty (fam n x) (fam n t) → flat x ≤ flat t) := by
  have hc : CanType ty := by rcases hty with h | h <;> simp [CanType, h]
  have he : (CanEquiv ty : Fam n → Fam n → Prop) = TypeEquiv ty := by rcases hty with rfl | rfl <;> rfl
  have hE := typeEquiv_equivalence n ty
  obtain ⟨r, h1, h2, h3⟩ := reduce_spec hn hc hne hl
  rw [he] at h3
  refine ⟨r, h1, h2, fun x hx => ?_, fun s hs => ?_, fun x hx t ht h => ?_⟩
  · obtain ⟨s, hs, h⟩ := (h3 x).1 hx
    exact ⟨h.1.1, s, hs, h.1.2⟩
  · obtain ⟨G, hG⟩ := group_exists (n := n) hn (canonicalOps_sub ty)
    obtain ⟨x, _, hx⟩ := qtCanonical_spec hn hc (hl s hs) hG
    rw [he] at hx
    refine ⟨x, (h3 x).2 ⟨s, hs, hx⟩, hx.1.2, fun y hy hsy => ?_⟩
    obtain ⟨t, ht, h⟩ := (h3 y).1 hy
    exact (rep_eq_iff hE (hl t ht) (hl s hs) h hx).2 (hE.trans h.1.2 (hE.symm hsy))
  · obtain ⟨s, hs, h'⟩ := (h3 x).1 hx
    exact h'.2 t ⟨ht, hE.trans h'.1.2 h⟩

theorem length_one_iff {l : List QuadSeq} (h : l.Nodup) {x y : QuadSeq} (hm : ∀ z, z ∈ l ↔ z = x ∨ z = y) :
    l.length = 1 ↔ x = y := by
  constructor
  · intro h1
    obtain ⟨z, rfl⟩ := List.length_eq_one_iff.1 h1
    have h2 := (hm x).2 (.inl rfl)
    have h3 := (hm y).2 (.inr rfl)
    rw [List.mem_singleton] at h2 h3
    rw [h2, h3]
  · rintro rfl
    have : l.Perm [x] := (List.perm_ext_iff_of_nodup h (List.nodup_singleton x)).2 (by intro z; rw [hm]; simp)
    rw [this.length_eq]; rfl

/-- C17. `equiv` decides QT equivalence of QT sequences and Williamson-type equivalence of Williamson-type
sequences. -/
theorem C17_equiv (n : ℕ) [NeZero n] (hn : n ≤ 31) (ty : SeqType) (hty : ty = .quaternionType ∨ ty = .williamsonType)
    (s t : QuadSeq) (hs : IsWTS n s) (ht : IsWTS n t) :
    ∃ b, equiv s t ty = some b ∧ (b = true ↔ TypeEquiv ty (fam n s) (fam n t)) := by
  have hc : CanType ty := by rcases hty with h | h <;> simp [CanType, h]
  have hE := typeEquiv_equivalence n ty
  have he : (CanEquiv ty : Fam n → Fam n → Prop) = TypeEquiv ty := by rcases hty with rfl | rfl <;> rfl
  have key : ∀ c1 c2, PMQuad n c1 → PMQuad n c2 → TypeEquiv ty (fam n s) (fam n c1) → TypeEquiv ty (fam n t) (fam n c2) →
      ∃ b, (reduceToCanonicalReps [c1, c2] ty).map (fun r => decide (r.length = 1)) = some b ∧
        (b = true ↔ TypeEquiv ty (fam n s) (fam n t)) := by
    intro c1 c2 h1 h2 e1 e2
    obtain ⟨r, k1, k2, k3⟩ := reduce_spec hn hc (l := [c1, c2]) (by simp) (by
      intro x hx; simp only [List.mem_cons, List.not_mem_nil, or_false] at hx; rcases hx with rfl | rfl <;> assumption)
    obtain ⟨G, hG⟩ := group_exists (n := n) hn (canonicalOps_sub ty)
    obtain ⟨x, _, hx⟩ := qtCanonical_spec hn hc h1 hG
    obtain ⟨y, _, hy⟩ := qtCanonical_spec hn hc h2 hG
    have hm : ∀ z, z ∈ r ↔ z = x ∨ z = y := by
      intro z
      rw [k3]
      simp only [List.mem_cons, List.not_mem_nil, or_false, exists_eq_or_imp, exists_eq_left]
      refine or_congr ⟨fun h => ?_, fun h => h ▸ hx⟩ ⟨fun h => ?_, fun h => h ▸ hy⟩
      · exact IsLeastQ.unique (cls_uniform _ _) h hx
      · exact IsLeastQ.unique (cls_uniform _ _) h hy
    refine ⟨decide (r.length = 1), by rw [k1]; rfl, ?_⟩
    rw [decide_eq_true_iff, length_one_iff k2 hm, rep_eq_iff (canEquiv_equiv ty) h1 h2 hx hy, he]
    exact ⟨fun h => hE.trans e1 (hE.trans h (hE.symm e2)), fun h => hE.trans (hE.symm e1) (hE.trans h e2)⟩
  rcases hty with rfl | rfl
  · have v1 := (C08_verify_qts n s hs.1).2 ((C04_isQTS_iff_isWTS n s).2 hs)
    have v2 := (C08_verify_qts n t ht.1).2 ((C04_isQTS_iff_isWTS n t).2 ht)
    obtain ⟨c1, a1, a2, a3, _⟩ := C14_ns_canonical n s hs.1
    obtain ⟨c2, b1, b2, b3, _⟩ := C14_ns_canonical n t ht.1
    obtain ⟨b, k1, k2⟩ := key c1 c2 a2 b2 (ns_qt a3) (ns_qt b3)
    refine ⟨b, ?_, k2⟩
    unfold equiv
    rw [if_pos ⟨v1, v2⟩]
    simp only [a1, b1, Option.bind_some]
    exact k1
  · have v1 := (C08_verify_wts n s hs.1).2 hs
    have v2 := (C08_verify_wts n t ht.1).2 ht
    obtain ⟨a2, a3, _⟩ := C15_sn_canonical n s hs.1
    obtain ⟨b2, b3, _⟩ := C15_sn_canonical n t ht.1
    obtain ⟨b, k1, k2⟩ := key _ _ a2 b2 (sn_wt a3) (sn_wt b3)
    refine ⟨b, ?_, k2⟩
    unfold equiv
    rw [if_pos ⟨v1, v2⟩]
    exact k1

/-- C17. The empty list is not reduced: the program indexes `sequences[0]` and panics. -/
theorem C17_empty (ty : SeqType) : reduceToCanonicalReps [] ty = none := rfl

theorem isWTS_of_isWS {n : ℕ} [NeZero n] {s : QuadSeq} (h : IsWS n s) : IsWTS n s := by
  obtain ⟨h0, hc, ha, hb, hc', hd⟩ := h
  exact ⟨h0, hc, amicable_of_symm ha hb, amicable_of_symm ha hc', amicable_of_symm ha hd,
      amicable_of_symm hb hc', amicable_of_symm hb hd, amicable_of_symm hc' hd⟩

/-- Two QT-equivalent sequences (a cyclic shift) are reduced to one; run in the model. -/
example : (reduceToCanonicalReps [exWS3, mapAll exWS3 fun l => shiftBy 3 l 1] .quaternionType).map List.length = some 1 ∧
    mapAll exWS3 (fun l => shiftBy 3 l 1) ≠ exWS3 := by decide +kernel
example : IsWTS 3 exWS3 ∧ equiv exWS3 (mapAll exWS3 fun l => shiftBy 3 l 1) .williamsonType = some true :=
  ⟨isWTS_of_isWS exWS3_isWS, by decide +kernel⟩

/-! ## C18: reduction of Williamson sequences -/

/-- C18 is false: the Williamson sequence `exWS3` of length 3 is reduced to a quadruple that is not Williamson, and
`verify` rejects it. -/
theorem C18_reduction_leaves_ws :
    IsWS 3 exWS3 ∧ ∃ r x, reduceToCanonicalReps [exWS3] .williamson = some r ∧ x ∈ r ∧ ¬ IsWS 3 x ∧
      x.verify .williamson = false := by
  refine ⟨exWS3_isWS, [{ size := 3, a := [-1, -1, -1], b := [-1, -1, 1], c := [-1, -1, 1], d := [-1, -1, 1] }], _,
    by decide +kernel, List.mem_singleton_self _, fun h => ?_, by decide⟩
  have := (C08_verify_ws 3 _ h.1).2 h
  revert this
  decide

/-- C18, what does hold: the reduction of Williamson sequences returns Williamson-type sequences, one for every
Williamson-type class met by the list. Missing for the full property: symmetry of the outputs, which fails. -/
theorem C18_reduction_partial (n : ℕ) [NeZero n] (hn : n ≤ 31) (l : List QuadSeq) (hne : l ≠ []) (hl : ∀ s ∈ l, IsWS n s) :
    ∃ r, reduceToCanonicalReps l .williamson = some r ∧ r.Nodup ∧ (∀ x ∈ r, IsWTS n x) ∧
      (∀ s ∈ l, ∃ x ∈ r, WTEquiv (fam n s) (fam n x)) ∧ (∀ x ∈ r, ∃ s ∈ l, WTEquiv (fam n s) (fam n x)) := by
  obtain ⟨r, h1, h2, h3⟩ := reduce_spec hn (ty := .williamson) (by simp [CanType]) hne fun s hs => (hl s hs).1
  refine ⟨r, h1, h2, fun x hx => ?_, fun s hs => ?_, fun x hx => ?_⟩
  · obtain ⟨s, hs, h⟩ := (h3 x).1 hx
    have hv := (isWTS_iff.1 (isWTS_of_isWS (hl s hs))).2
    refine isWTS_iff.2 ⟨PMQuad.wf h.1.1, ?_⟩
    have h' : WTEquiv (fam n s) (fam n x) := h.1.2
    unfold WTEquiv at h'
    rw [eqvGen_pres pres_WT] at h'
    exact h'.rec hv fun _ h ih => valid_WTMove h ih
  · obtain ⟨G, hG⟩ := group_exists (n := n) hn (canonicalOps_sub .williamson)
    obtain ⟨x, _, hx⟩ := qtCanonical_spec hn (ty := .williamson) (by simp [CanType]) (hl s hs).1 hG
    exact ⟨x, (h3 x).2 ⟨s, hs, hx⟩, hx.1.2⟩
  · obtain ⟨s, hs, h⟩ := (h3 x).1 hx
    exact ⟨s, hs, h.1.2⟩

example : [exWS3] ≠ [] ∧ ∀ s ∈ [exWS3], IsWS 3 s := ⟨by simp, by simpa using exWS3_isWS⟩

/-! ## C19: class-based reductions -/

/-- C19. For every list of the equivalence operations both reductions return without repetition exactly the least
members of the classes met by the input. -/
theorem C19_reductions (n : ℕ) [NeZero n] (hn : n ≤ 31) (ops : List Op) (hops : ∀ op ∈ ops, op ∈ allOps)
    (l : List QuadSeq) (hne : l ≠ []) (hl : ∀ s ∈ l, PMQuad n s) :
    ∃ r r', reduceToEquivalence l ops = some r ∧ reduceToEquivalencePar l ops = some r' ∧ r.Nodup ∧ r'.Nodup ∧
      (∀ x, x ∈ r ↔ x ∈ r') ∧
      ∀ x, x ∈ r ↔ ∃ s ∈ l, Relation.ReflTransGen (fun x y => ∃ op ∈ ops, y ∈ op x) s x ∧
        ∀ t, Relation.ReflTransGen (fun x y => ∃ op ∈ ops, y ∈ op x) s t → flat x ≤ flat t := by
  obtain ⟨r, h1, h2, h3⟩ := classes_spec hn hops hne hl
  obtain ⟨r', k1, k2, k3⟩ := par_spec hn hops hne hl
  exact ⟨r, r', h1, k1, h2, k2, fun x => by rw [h3, k3], h3⟩

/-- C19. With the operations of a type: exactly one output for each class met, equivalent to the inputs of it. -/
theorem C19_one_per_class (n : ℕ) [NeZero n] (hn : n ≤ 31) (ty : SeqType) (l : List QuadSeq) (hne : l ≠ [])
    (hl : ∀ s ∈ l, PMQuad n s) :
    ∃ r, reduceToEquivalence l (equivalences ty) = some r ∧
      (∀ x ∈ r, PMQuad n x ∧ ∃ s ∈ l, TypeEquiv ty (fam n s) (fam n x)) ∧
      (∀ s ∈ l, ∃ x ∈ r, TypeEquiv ty (fam n s) (fam n x) ∧ ∀ y ∈ r, TypeEquiv ty (fam n s) (fam n y) → y = x) := by
  obtain ⟨r, h1, h2, h3⟩ := classes_spec hn (equivalences_sub ty) hne hl
  have hE := typeEquiv_equivalence n ty
  have hn' : n ≤ 100 := by omega
  have hcls : ∀ s, PMQuad n s → ∀ x, IsLeastQ (Reach (equivalences ty) s) x ↔ IsLeastQ (Cls n (TypeEquiv ty) s) x := by
    intro s hs x
    have : Reach (equivalences ty) s = Cls n (TypeEquiv ty) s := by
      funext t
      refine propext ⟨fun h => ⟨reach_pm hn' (equivalences_sub ty) hs h, ((reach_type hn' ty (PMQuad.wf hs) t).1 h).2⟩,
        fun h => (reach_type hn' ty (PMQuad.wf hs) t).2 ⟨PMQuad.wf h.1, h.2⟩⟩
    rw [this]
  refine ⟨r, h1, fun x hx => ?_, fun s hs => ?_⟩
  · obtain ⟨s, hs, h⟩ := (h3 x).1 hx
    rw [hcls s (hl s hs)] at h
    exact ⟨h.1.1, s, hs, h.1.2⟩
  · obtain ⟨G, C, μ, _, H⟩ := fast_data (n := n) hn (equivalences_sub ty)
    have hx := (H s (hl s hs)).2.2.2.2
    refine ⟨μ s, (h3 _).2 ⟨s, hs, hx⟩, ?_, fun y hy hsy => ?_⟩
    · exact ((hcls s (hl s hs) _).1 hx).1.2
    · obtain ⟨t, ht, h⟩ := (h3 y).1 hy
      rw [hcls t (hl t ht)] at h
      rw [hcls s (hl s hs)] at hx
      exact (rep_eq_iff hE (hl t ht) (hl s hs) h hx).2 (hE.trans h.1.2 (hE.symm hsy))

example : (reduceToEquivalence [exWS3, mapAll exWS3 fun l => shiftBy 3 l 1] [equivalentUniformShift]).map List.length =
    some 1 := by decide +kernel

/-! ## C20: the set-difference reduction -/

/-- C20 is false: whenever the list contains two distinct members of one class, the reduction keeps no member of
that class at all. -/
theorem C20_loses_class (n : ℕ) [NeZero n] (hn : n ≤ 31) (ops : List Op) (hops : ∀ op ∈ ops, op ∈ allOps)
    (l : List QuadSeq) (hl : ∀ s ∈ l, PMQuad n s) (s t : QuadSeq) (hs : s ∈ l) (ht : t ∈ l) (hst : s ≠ t)
    (hr : Relation.ReflTransGen (fun x y => ∃ op ∈ ops, y ∈ op x) s t) :
    ∃ r, reduceToEquivalenceSetDif l ops = some r ∧
      ∀ e, Relation.ReflTransGen (fun x y => ∃ op ∈ ops, y ∈ op x) s e → e ∉ r := by
  obtain ⟨r, h1, h2⟩ := setDif_spec hn hops (List.ne_nil_of_mem hs) hl
  have hg : ∀ op ∈ ops, GoodOp n op := fun op h => good_all (by omega) op (hops op h)
  refine ⟨r, h1, fun e he hmem => ?_⟩
  obtain ⟨hel, hall⟩ := (h2 e).1 hmem
  have e1 := hall s hs he
  have e2 := hall t ht (reach_trans (reach_symm hg (PMQuad.wf (hl s hs)) hr) he)
  exact hst (e1.symm.trans e2)

/-- C20, a concrete loss: two shifts of one sequence are reduced to the empty list. -/
theorem C20_counterexample :
    reduceToEquivalenceSetDif [exWS3, mapAll exWS3 fun l => shiftBy 3 l 1] (equivalences .quaternionType) = some [] := by
  have hr : Relation.ReflTransGen (fun x y => ∃ op ∈ equivalences .quaternionType, y ∈ op x) exWS3
      (mapAll exWS3 fun l => shiftBy 3 l 1) :=
    .single ⟨equivalentUniformShift, by simp [equivalences], by decide⟩
  have hpm : ∀ s ∈ [exWS3, mapAll exWS3 fun l => shiftBy 3 l 1], PMQuad 3 s := by decide
  obtain ⟨r, h1, h2⟩ := setDif_spec (n := 3) (by omega) (equivalences_sub .quaternionType)
    (l := [exWS3, mapAll exWS3 fun l => shiftBy 3 l 1]) (by simp) hpm
  obtain ⟨r', k1, k2⟩ := C20_loses_class 3 (by omega) (equivalences .quaternionType) (equivalences_sub _) _ hpm exWS3
    (mapAll exWS3 fun l => shiftBy 3 l 1) (by simp) (by simp) (by decide) hr
  rw [h1] at k1; cases k1
  rw [h1]
  refine congrArg some (List.eq_nil_iff_forall_not_mem.2 fun e he => ?_)
  have hmem := ((h2 e).1 he).1
  simp only [List.mem_cons, List.not_mem_nil, or_false] at hmem
  rcases hmem with rfl | rfl
  · exact k2 _ .refl he
  · exact k2 _ hr he

/-- C20, what does hold: exactly the members with no other equivalent member in the list are kept; so a class is
represented if the list contains only one member of it. Missing for the full property: lists with several distinct
members of a class, where it fails. -/
theorem C20_setDif_partial (n : ℕ) [NeZero n] (hn : n ≤ 31) (ops : List Op) (hops : ∀ op ∈ ops, op ∈ allOps)
    (l : List QuadSeq) (hne : l ≠ []) (hl : ∀ s ∈ l, PMQuad n s) :
    ∃ r, reduceToEquivalenceSetDif l ops = some r ∧
      ∀ e, e ∈ r ↔ e ∈ l ∧ ∀ s ∈ l, Relation.ReflTransGen (fun x y => ∃ op ∈ ops, y ∈ op x) s e → e = s :=
  setDif_spec hn hops hne hl

/-! ## C21: expansion of Williamson-type classes -/

theorem halfShift_fam {n : ℕ} [NeZero n] {q : QuadSeq} (hq : PMQuad n q) :
    q.setSequence (halfShift q.a) .W = halfShiftTag q .W := by
  unfold halfShiftTag halfShift shiftBy
  have : q.a.length = n := hq.a.1
  rw [hq.size, this]
  rfl

/-- The four variants, as families. -/
theorem expand_variants {n : ℕ} [NeZero n] {q : QuadSeq} (hq : PMQuad n q) :
    fam n (q.setSequence (negated q.a) .W) = negW (fam n q) ∧
    fam n (q.setSequence (halfShift q.a) .W) = halfW (fam n q) ∧
    fam n (q.setSequence (negated (halfShift q.a)) .W) = negW (halfW (fam n q)) ∧
    PMQuad n (q.setSequence (negated q.a) .W) ∧ PMQuad n (q.setSequence (halfShift q.a) .W) ∧
    PMQuad n (q.setSequence (negated (halfShift q.a)) .W) := by
  have h1 := fam_neg hq .W
  have h2 : fam n (q.setSequence (halfShift q.a) .W) = halfW (fam n q) := by
    rw [halfShift_fam hq, halfShiftTag_eq (PMQuad.wf hq), fam_ofFam]; rfl
  have p2 : PMQuad n (q.setSequence (halfShift q.a) .W) := by
    rw [halfShift_fam hq, halfShiftTag_eq (PMQuad.wf hq)]
    have hp := pm_halfAt (pmfam_fam hq) fun t => decide (t = .W)
    exact pmquad_iff.2 ⟨wf_ofFam hp.bd, by rw [fam_ofFam]; exact hp⟩
  have h3 := fam_neg p2 .W
  have e3 : (q.setSequence (halfShift q.a) .W).setSequence
      (negated ((q.setSequence (halfShift q.a) .W).sequence .W)) .W = q.setSequence (negated (halfShift q.a)) .W := rfl
  rw [e3, h2] at h3
  exact ⟨h1, h2, h3, pm_neg hq .W, p2, by rw [← e3]; exact pm_neg p2 .W⟩

/-- The expanded list meets every QT class in the Williamson-type class of a member of the list. -/
theorem expansion_member {n : ℕ} [NeZero n] {l : List QuadSeq} (hl : ∀ q ∈ l, PMQuad n q) {q t : QuadSeq} (hq : q ∈ l)
    (h : WTEquiv (fam n q) (fam n t)) : ∃ q ∈ expandWts n l, QTEquiv (fam n q) (fam n t) := by
  obtain ⟨v1, v2, v3, _⟩ := expand_variants (hl q hq)
  rcases wt_coset h with h | h | ⟨he, h | h⟩
  · exact ⟨q, List.mem_append_left _ hq, h⟩
  · refine ⟨_, List.mem_append_right _ (List.mem_flatMap.2 ⟨q, hq, List.mem_cons_self⟩), ?_⟩
    rw [v1]; exact h
  · refine ⟨q.setSequence (halfShift q.a) .W, List.mem_append_right _ (List.mem_flatMap.2 ⟨q, hq,
      List.mem_cons_of_mem _ ?_⟩), by rw [v2]; exact h⟩
    rw [if_pos (Nat.even_iff.1 he)]; simp
  · refine ⟨q.setSequence (negated (halfShift q.a)) .W, List.mem_append_right _ (List.mem_flatMap.2 ⟨q, hq,
      List.mem_cons_of_mem _ ?_⟩), by rw [v3]; exact h⟩
    rw [if_pos (Nat.even_iff.1 he)]; simp

/-- C21. If a list meets every Williamson-type class of Williamson-type sequences of length `n`, the expanded list
meets every QT class of them. -/
theorem C21_expansion (n : ℕ) [NeZero n] (l : List QuadSeq) (hl : ∀ q ∈ l, PMQuad n q)
    (hrep : ∀ t, IsWTS n t → ∃ q ∈ l, WTEquiv (fam n q) (fam n t)) :
    ∀ t, IsWTS n t → ∃ q ∈ expandWts n l, QTEquiv (fam n q) (fam n t) := by
  intro t ht
  obtain ⟨q, hq, h⟩ := hrep t ht
  exact expansion_member hl hq h

/-- C21. The expansion is sound: everything added is Williamson-type and equivalent to its origin. -/
theorem C21_sound (n : ℕ) [NeZero n] (l : List QuadSeq) (hl : ∀ q ∈ l, IsWTS n q) :
    ∀ q ∈ expandWts n l, IsWTS n q ∧ ∃ p ∈ l, WTEquiv (fam n p) (fam n q) := by
  intro q hq
  rcases List.mem_append.1 hq with h | h
  · exact ⟨hl q h, q, h, .refl _⟩
  · obtain ⟨p, hp, h⟩ := List.mem_flatMap.1 h
    obtain ⟨v1, v2, v3, p1, p2, p3⟩ := expand_variants (hl p hp).1
    have hv := (isWTS_iff.1 (hl p hp)).2
    have m1 : WTEquiv (fam n p) (negW (fam n p)) := .rel _ _ (.inr (.inr (.inr (.neg _))))
    rcases List.mem_cons.1 h with rfl | h
    · exact ⟨isWTS_iff.2 ⟨PMQuad.wf p1, by rw [v1]; exact valid_negAt hv _⟩, p, hp, by rw [v1]; exact m1⟩
    · split at h
      · next he =>
        have he' : Even n := Nat.even_iff.2 he
        have m2 : WTEquiv (fam n p) (halfW (fam n p)) := .rel _ _ (.inr (.inr (.inl (.mk he' _))))
        have m3 : WTEquiv (halfW (fam n p)) (negW (halfW (fam n p))) := .rel _ _ (.inr (.inr (.inr (.neg _))))
        simp only [List.mem_cons, List.not_mem_nil, or_false] at h
        rcases h with rfl | rfl
        · exact ⟨isWTS_iff.2 ⟨PMQuad.wf p2, by rw [v2]; exact valid_halfAt he' hv _⟩, p, hp, by rw [v2]; exact m2⟩
        · refine ⟨isWTS_iff.2 ⟨PMQuad.wf p3, ?_⟩, p, hp, ?_⟩
          · rw [v3]; exact valid_negAt (valid_halfAt he' hv _) _
          · rw [v3]; exact .trans _ _ _ m2 m3
      · exact absurd h (List.not_mem_nil)

/-- C21. Together with the reduction: from one representative of every Williamson-type class the program obtains
exactly one representative of every QT class of Williamson-type sequences. -/
theorem C21_pipeline (n : ℕ) [NeZero n] (hn : n ≤ 31) (l : List QuadSeq) (hne : l ≠ []) (hl : ∀ q ∈ l, IsWTS n q)
    (hrep : ∀ t, IsWTS n t → ∃ q ∈ l, WTEquiv (fam n q) (fam n t)) :
    ∃ r, reduceToCanonicalReps (expandWts n l) .quaternionType = some r ∧ r.Nodup ∧
      ∀ t, IsWTS n t → ∃ x ∈ r, QTEquiv (fam n t) (fam n x) ∧ ∀ y ∈ r, QTEquiv (fam n t) (fam n y) → y = x := by
  have hpm : ∀ q ∈ expandWts n l, PMQuad n q := fun q hq => (C21_sound n l hl q hq).1.1
  obtain ⟨r, h1, h2, _, h4, _⟩ := C17_reduce n hn .quaternionType (.inl rfl) (expandWts n l) (by
    obtain ⟨x, hx⟩ := List.exists_mem_of_ne_nil l hne
    exact List.ne_nil_of_mem (List.mem_append_left _ hx)) hpm
  refine ⟨r, h1, h2, fun t ht => ?_⟩
  obtain ⟨q, hq, hqt⟩ := C21_expansion n l (fun q hq => (hl q hq).1) hrep t ht
  obtain ⟨x, hx, hqx, huniq⟩ := h4 q hq
  exact ⟨x, hx, .trans _ _ _ (.symm _ _ hqt) hqx, fun y hy hty => huniq y hy (.trans _ _ _ hqt hty)⟩

/-- The hypotheses are met for every length, e.g. by the list of all ±1 quadruples; the expansion is not trivial. -/
example (n : ℕ) [NeZero n] : (∀ t, IsWTS n t → ∃ q ∈ quadUniv [1, -1] n, WTEquiv (fam n q) (fam n t)) :=
  fun t ht => ⟨t, mem_quadUniv (PMQuad.wf ht.1) (fun tg i => by
    rcases pmfam_fam ht.1 tg i with h | h <;> simp [h]), .refl _⟩
example : IsWTS 3 exWS3 ∧ (expandWts 3 [exWS3]).length = 2 ∧ (expandWts 4 [exQTS4]).length = 4 :=
  ⟨isWTS_of_isWS exWS3_isWS, by decide, by decide⟩

end Props
