import Verif.Model.Single
import Verif.Props.Float32
import Verif.Proofs.Rho

/-!
# Single precision in the searches, the join and the conversions
-/

namespace Proofs.Single
open Model Spec Proofs

variable {rd : ℚ → ℚ}

/-! ## Folds -/

theorem foldlM_congr {α β : Type} (Inv : β → Prop) {f' f : β → α → Option β} {l : List α} {b : β} (hb : Inv b)
    (h : ∀ b, Inv b → ∀ x ∈ l, f' b x = f b x ∧ ∀ c, f b x = some c → Inv c) :
    l.foldlM f' b = l.foldlM f b ∧ ∀ c, l.foldlM f b = some c → Inv c := by
  induction l generalizing b with
  | nil => exact ⟨rfl, fun c hc => by simp at hc; exact hc ▸ hb⟩
  | cons x l ih =>
    obtain ⟨h1, h2⟩ := h b hb x List.mem_cons_self
    rw [List.foldlM_cons, List.foldlM_cons, h1]
    cases e : f b x with
    | none => exact ⟨rfl, fun c hc => by simp at hc⟩
    | some c => exact ih (h2 c e) (fun b hb y hy => h b hb y (List.mem_cons_of_mem _ hy))

theorem foldl_congr {α β : Type} (Inv : β → Prop) {f' f : β → α → β} {l : List α} {b : β} (hb : Inv b)
    (h : ∀ b, Inv b → ∀ x ∈ l, f' b x = f b x ∧ Inv (f b x)) : l.foldl f' b = l.foldl f b ∧ Inv (l.foldl f b) := by
  induction l generalizing b with
  | nil => exact ⟨rfl, hb⟩
  | cons x l ih =>
    obtain ⟨h1, h2⟩ := h b hb x List.mem_cons_self
    rw [List.foldl_cons, List.foldl_cons, h1]
    exact ih h2 (fun b hb y hy => h b hb y (List.mem_cons_of_mem _ hy))

theorem mapM_congr {α β : Type} {f' f : α → Option β} {l : List α} (h : ∀ x ∈ l, f' x = f x) : l.mapM f' = l.mapM f := by
  induction l with
  | nil => rfl
  | cons x l ih =>
    rw [List.mapM_cons, List.mapM_cons, h x List.mem_cons_self, ih fun y hy => h y (List.mem_cons_of_mem _ hy)]

/-! ## Tables -/

theorem qplus_eq (h : ExactRounding rd) : F32.qplus rd = QPLUS := by
  have : F32.qplus rd = (F32.q24 rd).take 16 := rfl
  rw [this, Props.C57_table h]; rfl

theorem quadToQuat_eq (h : ExactRounding rd) : F32.quadToQuat rd = QuadSeq.quadToQuat := by
  funext v
  unfold F32.quadToQuat QuadSeq.quadToQuat
  rw [qplus_eq h]
  rfl

theorem qplus_q24 : ∀ p ∈ QPLUS, p ∈ Q24 := by decide +kernel

theorem quadToQuat_mem {v : ℤ × ℤ × ℤ × ℤ} {p : Quat} (h : QuadSeq.quadToQuat v = some p) : p ∈ Q24 := by
  apply qplus_q24
  unfold QuadSeq.quadToQuat at h
  split at h <;> first | exact List.mem_of_getElem? h | simp at h

theorem toStringRaw_eq (h : ExactRounding rd) : F32.toStringRaw rd = QS.toStringRaw := by
  funext q
  unfold F32.toStringRaw QS.toStringRaw F32.quaternionToString quaternionToString
  rw [Props.C57_table h]

theorem fromStr_eq (h : ExactRounding rd) : F32.fromStr rd = QS.fromStr := by
  funext q
  unfold F32.fromStr QS.fromStr F32.charToQuat QS.charToQuat
  rw [Props.C57_table h]

theorem fromPqs_eq (h : ExactRounding rd) : F32.fromPqs rd = QuadSeq.fromPqs := by
  funext q
  unfold F32.fromPqs QuadSeq.fromPqs F32.quaternionToQuad quaternionToQuad
  rw [Props.C57_table h]

theorem qhmToString_eq (h : ExactRounding rd) : F32.qhmToString rd = QHM.toString := by
  funext q
  unfold F32.qhmToString QHM.toString F32.quaternionToString quaternionToString
  rw [Props.C57_table h]

/-! ## Sequences over the alphabet -/

/-- A sequence over the alphabet with as many entries as its size. -/
def Over (q : QS) : Prop := q.values.length = q.size ∧ ∀ x ∈ q.values, x ∈ Q24

theorem neg24 : ∀ p ∈ Q24, -p ∈ Q24 := by decide +kernel

theorem set24 {l : List Quat} (hl : ∀ x ∈ l, x ∈ Q24) (i : ℕ) {v : Quat} (hv : v ∈ Q24) : ∀ x ∈ l.set i v, x ∈ Q24 := by
  intro x hx
  rcases List.mem_or_eq_of_mem_set hx with h | rfl
  · exact hl x h
  · exact hv

theorem over_new (n : ℕ) (s : Option Symmetry) : Over (QS.new n s) :=
  ⟨List.length_replicate .., fun x hx => by
    rw [List.eq_of_mem_replicate hx]; decide +kernel⟩

theorem setValue_eq (h : ExactRounding rd) (q : QS) {v : Quat} (hv : v ∈ Q24) (i : ℕ) :
    F32.setValue rd q v i = q.setValue v i := by
  unfold F32.setValue QS.setValue
  rw [(F32.smul_exact h hv i).1, (F32.smul_exact h hv (i / 2)).1]
  rfl

theorem setValue_over (q : QS) (hq : Over q) {v : Quat} (hv : v ∈ Q24) (i : ℕ) {r : QS} (hr : q.setValue v i = some r) :
    Over r ∧ r.size = q.size ∧ r.symmetry = q.symmetry := by
  have rid : ExactRounding (fun x : ℚ => x) := fun _ _ => rfl
  have s1 := (F32.smul_exact rid hv i).2
  have s2 := (F32.smul_exact rid hv (i / 2)).2
  have a := set24 hq.2 i hv
  unfold QS.setValue at hr
  split at hr
  · dsimp only at hr
    split at hr
    all_goals first | (split at hr; swap; · simp at hr) | skip
    all_goals
      simp only [Option.some.injEq] at hr
      subst hr
      refine ⟨⟨by simp [hq.1], ?_⟩, rfl, by simp_all⟩
      first
        | exact set24 a _ hv
        | exact set24 a _ s1
        | exact set24 a _ s2
        | exact set24 a _ (neg24 v hv)
        | exact a
  · simp at hr

theorem toQs_eq (h : ExactRounding rd) : F32.toQs rd = QuadSeq.toQs := by
  funext s
  refine (foldlM_congr (fun _ => True) trivial fun qs _ i _ => ⟨?_, fun _ _ => trivial⟩).1
  rw [quadToQuat_eq h]
  cases e : QuadSeq.quadToQuat (s.values i) with
  | none => rfl
  | some p => exact setValue_eq h qs (quadToQuat_mem e) i

theorem toQs_over {s : QuadSeq} {q : QS} (h : s.toQs = some q) : Over q ∧ q.size = s.size := by
  refine (foldlM_congr (f' := fun qs i => (QuadSeq.quadToQuat (s.values i)).bind fun q => qs.setValue q i)
    (fun q => Over q ∧ q.size = s.size) (b := QS.new s.size none) ⟨over_new .., rfl⟩
    fun qs hqs i _ => ⟨rfl, fun c hc => ?_⟩).2 q h
  cases e : QuadSeq.quadToQuat (s.values i) with
  | none => rw [e] at hc; simp at hc
  | some p =>
    rw [e] at hc
    obtain ⟨a, b, -⟩ := setValue_over qs hqs.1 (quadToQuat_mem e) i hc
    exact ⟨a, b.trans hqs.2⟩

theorem isPerfect_eq (h : ExactRounding rd) (q : QS) (hq : Over q) (hn : q.size ≤ 2 ^ 23) :
    F32.isPerfect rd q = q.isPerfect := by
  unfold F32.isPerfect QS.isPerfect
  simp only [F32.paf_exact h q hq.1 hq.2 hn]

theorem isOddPerfect_eq (h : ExactRounding rd) (q : QS) (hq : Over q) (hn : q.size ≤ 2 ^ 23) :
    F32.isOddPerfect rd q = q.isOddPerfect := by
  unfold F32.isOddPerfect QS.isOddPerfect
  simp only [F32.odd_exact h q hq.1 hq.2 hn]

theorem fromStr_over {t : List Char} {q : QS} (h : QS.fromStr t = some q) : Over q := by
  unfold QS.fromStr at h
  rw [Option.map_eq_some_iff] at h
  obtain ⟨vs, hvs, rfl⟩ := h
  have key : ∀ (t : List Char) (vs : List Quat), t.mapM QS.charToQuat = some vs → vs.length = t.length ∧ ∀ x ∈ vs, x ∈ Q24 := by
    intro t
    induction t with
    | nil => intro vs h; simp at h; subst h; simp
    | cons c t ih =>
      intro vs h
      rw [List.mapM_cons] at h
      cases e : QS.charToQuat c with
      | none => rw [e] at h; simp at h
      | some p =>
        cases e2 : t.mapM QS.charToQuat with
        | none => rw [e, e2] at h; simp at h
        | some ps =>
          rw [e, e2] at h
          simp at h
          subst h
          obtain ⟨a, b⟩ := ih ps e2
          refine ⟨by simp [a], fun x hx => ?_⟩
          rcases List.mem_cons.1 hx with rfl | hx
          · unfold QS.charToQuat at e
            rw [Option.bind_eq_some_iff] at e
            obtain ⟨i, -, hi⟩ := e
            exact List.mem_of_getElem? hi
          · exact b x hx
  exact key t vs hvs

theorem product_eq (h : ExactRounding rd) (a b : QS) (ha : Over a) (hb : Over b) :
    F32.sequenceProduct rd a b = sequenceProduct a b := by
  unfold F32.sequenceProduct sequenceProduct
  refine (foldlM_congr (fun _ => True) trivial fun qs _ ij hij => ⟨?_, fun _ _ => trivial⟩).1
  unfold iprod at hij
  simp only [List.mem_flatMap, List.mem_map, List.mem_range] at hij
  obtain ⟨i, hi, j, hj, rfl⟩ := hij
  have h1 := F32.val24 ha.1 ha.2 (Nat.mod_lt (i * b.size + j) (by omega : 0 < a.size))
  have h2 := F32.val24 hb.1 hb.2 (Nat.mod_lt (i * b.size + j) (by omega : 0 < b.size))
  dsimp only
  rw [F32.mul_exact h (F32.comp24 h1) (F32.comp24 h2)]
  exact setValue_eq h qs (QHad.q24_mul _ h1 _ h2) _

/-! ## Searches -/

theorem naiveRec_eq (h : ExactRounding rd) (fuel : ℕ) : ∀ (q : QS) (index : ℕ) (out : Found), Over q → q.size ≤ 2 ^ 23 →
    F32.naiveRec rd fuel q index out = naiveRec fuel q index out ∧
      ∀ r, naiveRec fuel q index out = some r → Over r.1 ∧ r.1.size = q.size := by
  induction fuel with
  | zero =>
    intro q index out hq hn
    unfold F32.naiveRec naiveRec
    rw [isPerfect_eq h q hq hn, toStringRaw_eq h]
    refine ⟨rfl, fun r hr => ?_⟩
    split at hr
    · split at hr
      · rw [Option.map_eq_some_iff] at hr; obtain ⟨_, _, rfl⟩ := hr; exact ⟨hq, rfl⟩
      · simp at hr; subst hr; exact ⟨hq, rfl⟩
    · simp at hr
  | succ fuel ih =>
    intro q index out hq hn
    unfold F32.naiveRec naiveRec
    rw [isPerfect_eq h q hq hn, toStringRaw_eq h]
    split
    · refine ⟨rfl, fun r hr => ?_⟩
      split at hr
      · rw [Option.map_eq_some_iff] at hr; obtain ⟨_, _, rfl⟩ := hr; exact ⟨hq, rfl⟩
      · simp at hr; subst hr; exact ⟨hq, rfl⟩
    · dsimp only
      rw [qplus_eq h]
      refine foldlM_congr (fun st : QS × Found => Over st.1 ∧ st.1.size = q.size) ⟨hq, rfl⟩ fun st hst v hv => ?_
      have hv24 := qplus_q24 v hv
      rw [setValue_eq h st.1 hv24]
      cases e : st.1.setValue v index with
      | none => exact ⟨rfl, fun c hc => by simp at hc⟩
      | some q' =>
        obtain ⟨o1, o2, -⟩ := setValue_over st.1 hst.1 hv24 index e
        obtain ⟨i1, i2⟩ := ih q' (index + 1) st.2 o1 (by rw [o2, hst.2]; exact hn)
        exact ⟨i1, fun c hc => ⟨(i2 c hc).1, by rw [(i2 c hc).2, o2, hst.2]⟩⟩

theorem optimRec_iff (h : ExactRounding rd) (alphabet : List Quat) (ha : ∀ v ∈ alphabet, v ∈ Q24) (fuel : ℕ) :
    ∀ (q : QS) (index : ℕ) (out : Found), Over q → q.size ≤ 2 ^ 23 →
      (F32.optimRec rd alphabet fuel q index out ↔ optimRec alphabet fuel q index out) := by
  induction fuel with
  | zero =>
    intro q index out hq hn
    unfold F32.optimRec optimRec
    rw [isPerfect_eq h q hq hn, toStringRaw_eq h]
  | succ fuel ih =>
    intro q index out hq hn
    unfold F32.optimRec optimRec
    rw [isPerfect_eq h q hq hn, toStringRaw_eq h]
    split
    · exact Iff.rfl
    · dsimp only
      have key : ∀ v ∈ alphabet, ∀ o : Found,
          ((∃ q', F32.setValue rd q v index = some q' ∧ F32.optimRec rd alphabet fuel q' (index + 1) o) ↔
            ∃ q', q.setValue v index = some q' ∧ optimRec alphabet fuel q' (index + 1) o) := by
        intro v hv o
        rw [setValue_eq h q (ha v hv)]
        refine exists_congr fun q' => and_congr_right fun e => ?_
        obtain ⟨o1, o2, -⟩ := setValue_over q hq (ha v hv) index e
        exact ih q' (index + 1) o o1 (by rw [o2]; exact hn)
      refine exists_congr fun outs => and_congr_left fun _ => ?_
      have : ∀ l : List Quat, (∀ v ∈ l, v ∈ alphabet) → ∀ outs : List Found,
          (List.Forall₂ (fun value o => ∃ q', F32.setValue rd q value index = some q' ∧
            F32.optimRec rd alphabet fuel q' (index + 1) o) l outs ↔
          List.Forall₂ (fun value o => ∃ q', q.setValue value index = some q' ∧
            optimRec alphabet fuel q' (index + 1) o) l outs) := by
        intro l
        induction l with
        | nil => intro _ outs; simp
        | cons v l ih2 =>
          intro hl outs
          cases outs with
          | nil => simp
          | cons o outs =>
            rw [List.forall₂_cons, List.forall₂_cons, key v (hl v List.mem_cons_self) o,
              ih2 (fun w hw => hl w (List.mem_cons_of_mem _ hw)) outs]
      exact this alphabet (fun v hv => hv) outs

theorem perfectQs (h : ExactRounding rd) {s : QuadSeq} (hn : s.size ≤ 2 ^ 23) {q : QS} (hq : s.toQs = some q) :
    F32.isPerfect rd q = q.isPerfect := by
  obtain ⟨a, b⟩ := toQs_over hq
  exact isPerfect_eq h q a (by rw [b]; exact hn)

theorem uniqueRec_eq (h : ExactRounding rd) (fuel : ℕ) : ∀ (w : QuadSeq) (index : ℕ) (out : List QuadSeq),
    w.size ≤ 2 ^ 23 → F32.uniqueRec rd fuel w index out = uniqueRec fuel w index out ∧
      ∀ r, uniqueRec fuel w index out = some r → r.1.size = w.size := by
  have leaf : ∀ (w : QuadSeq) (out : List QuadSeq), w.size ≤ 2 ^ 23 →
      (w.toQs.map fun q => if F32.isPerfect rd q then (w, out ++ [w]) else (w, out)) =
        (w.toQs.map fun q => if q.isPerfect then (w, out ++ [w]) else (w, out)) ∧
      ∀ r, (w.toQs.map fun q => if q.isPerfect then (w, out ++ [w]) else (w, out)) = some r → r.1.size = w.size := by
    intro w out hn
    cases e : w.toQs with
    | none => exact ⟨rfl, fun r hr => by simp at hr⟩
    | some q =>
      refine ⟨by rw [Option.map_some, Option.map_some, perfectQs h hn e], fun r hr => ?_⟩
      rw [Option.map_some, Option.some.injEq] at hr
      subst hr
      split <;> rfl
  induction fuel with
  | zero =>
    intro w index out hn
    unfold F32.uniqueRec uniqueRec
    rw [toQs_eq h, (leaf w out hn).1]
    refine ⟨rfl, fun r hr => ?_⟩
    split at hr
    · exact (leaf w out hn).2 r hr
    · simp at hr
  | succ fuel ih =>
    intro w index out hn
    unfold F32.uniqueRec uniqueRec
    rw [toQs_eq h, (leaf w out hn).1]
    split
    · exact ⟨rfl, (leaf w out hn).2⟩
    · dsimp only
      refine foldlM_congr (fun st : QuadSeq × List QuadSeq => st.1.size = w.size) rfl fun st hst v _ => ?_
      have e : (st.1.setSequenceValue v index).size = w.size := hst
      obtain ⟨a, b⟩ := ih (st.1.setSequenceValue v index) (index + 1) st.2 (by rw [e]; exact hn)
      exact ⟨a, fun c hc => (b c hc).trans e⟩

theorem williamsonRec_eq (h : ExactRounding rd) (condition : QuadSeq → Bool) (fuel : ℕ) : ∀ (w : QuadSeq) (index : ℕ),
    w.size ≤ 2 ^ 23 → F32.williamsonRec rd condition fuel w index = williamsonRec condition fuel w index := by
  have leaf : ∀ w : QuadSeq, w.size ≤ 2 ^ 23 →
      (w.toQs.bind fun q => if F32.isPerfect rd q then q.toStringRaw.map fun s => (([s], 1) : Found) else some ([], 0)) =
        (w.toQs.bind fun q => if q.isPerfect then q.toStringRaw.map fun s => ([s], 1) else some ([], 0)) := by
    intro w hn
    cases e : w.toQs with
    | none => rfl
    | some q => rw [Option.bind_some, Option.bind_some, perfectQs h hn e]
  induction fuel with
  | zero =>
    intro w index hn
    unfold F32.williamsonRec williamsonRec
    rw [toQs_eq h, toStringRaw_eq h, leaf w hn]
  | succ fuel ih =>
    intro w index hn
    unfold F32.williamsonRec williamsonRec
    rw [toQs_eq h, toStringRaw_eq h, leaf w hn]
    split
    · rfl
    · dsimp only
      congr 1
      funext acc v
      rw [ih _ _ (by exact hn)]

/-! ## The join -/

theorem joinCondition_eq (h : ExactRounding rd) (ty : SeqType) (q : QuadSeq) (hn : q.size ≤ 2 ^ 23) :
    F32.joinCondition rd ty q = joinCondition ty q := by
  cases ty <;> try rfl
  unfold F32.joinCondition joinCondition
  rw [toQs_eq h]
  cases e : q.toQs with
  | none => rfl
  | some p => simp only [Option.map_some, perfectQs h hn e]

/-- Every stored sequence has at most `2^23` entries. -/
def Short (tab : SeqTable) : Prop :=
  ∀ l, l ∈ tab.w ∨ l ∈ tab.x ∨ l ∈ tab.y ∨ l ∈ tab.z → l.length ≤ 2 ^ 23

theorem mapM_mem {α β : Type} {f : α → Option β} {l : List α} {r : List β} (h : l.mapM f = some r) {y : β} (hy : y ∈ r) :
    ∃ x ∈ l, f x = some y := by
  induction l generalizing r with
  | nil => simp at h; subst h; simp at hy
  | cons x l ih =>
    rw [List.mapM_cons] at h
    cases e : f x with
    | none => rw [e] at h; simp at h
    | some v =>
      cases e2 : l.mapM f with
      | none => rw [e, e2] at h; simp at h
      | some vs =>
        rw [e, e2] at h
        simp at h
        subst h
        rcases List.mem_cons.1 hy with rfl | hy
        · exact ⟨x, List.mem_cons_self, e⟩
        · obtain ⟨z, hz, hz2⟩ := ih e2 hy
          exact ⟨z, List.mem_cons_of_mem _ hz, hz2⟩

theorem mapM_length {α β : Type} {f : α → Option β} {l : List α} {r : List β} (h : l.mapM f = some r) :
    r.length = l.length := by
  induction l generalizing r with
  | nil => simp at h; subst h; rfl
  | cons x l ih =>
    rw [List.mapM_cons] at h
    cases e : f x with
    | none => rw [e] at h; simp at h
    | some v =>
      cases e2 : l.mapM f with
      | none => rw [e, e2] at h; simp at h
      | some vs => rw [e, e2] at h; simp at h; subst h; simp [ih e2]

theorem table_short {d : Dir} (hd : ∀ f ∈ d, ∀ l ∈ readLines f.2, l.length ≤ 2 ^ 23) {tab : SeqTable}
    (h : getSequencesFromDir d = some tab) : Short tab := by
  have file : ∀ f ∈ d, ∀ l, fileToSequences f.2 = some l → ∀ s ∈ l, s.length ≤ 2 ^ 23 := by
    intro f hf l hl s hs
    obtain ⟨t, ht, e⟩ := mapM_mem hl hs
    rw [mapM_length e]
    exact hd f hf t ht
  refine (foldlM_congr (f' := _) Short (b := { w := [], x := [], y := [], z := [] }) (by simp [Short])
    fun tab ht f hf => ⟨rfl, fun c hc => ?_⟩).2 tab h
  have key := file f hf
  split at hc
  · split at hc
    · obtain ⟨l, hl, rfl⟩ := Option.map_eq_some_iff.1 hc
      rintro s (hs | hs | hs | hs)
      · exact key l hl s hs
      · exact ht s (Or.inr (Or.inl hs))
      · exact ht s (Or.inr (Or.inr (Or.inl hs)))
      · exact ht s (Or.inr (Or.inr (Or.inr hs)))
    · split at hc
      · obtain ⟨l, hl, rfl⟩ := Option.map_eq_some_iff.1 hc
        rintro s (hs | hs | hs | hs)
        · exact ht s (Or.inl hs)
        · exact key l hl s hs
        · exact ht s (Or.inr (Or.inr (Or.inl hs)))
        · exact ht s (Or.inr (Or.inr (Or.inr hs)))
      · split at hc
        · obtain ⟨l, hl, rfl⟩ := Option.map_eq_some_iff.1 hc
          rintro s (hs | hs | hs | hs)
          · exact ht s (Or.inl hs)
          · exact ht s (Or.inr (Or.inl hs))
          · exact key l hl s hs
          · exact ht s (Or.inr (Or.inr (Or.inr hs)))
        · split at hc
          · obtain ⟨l, hl, rfl⟩ := Option.map_eq_some_iff.1 hc
            rintro s (hs | hs | hs | hs)
            · exact ht s (Or.inl hs)
            · exact ht s (Or.inr (Or.inl hs))
            · exact ht s (Or.inr (Or.inr (Or.inl hs)))
            · exact key l hl s hs
          · simp at hc
  · simp only [Option.some.injEq] at hc; subst hc; exact ht

theorem getSequences_size {tab : SeqTable} (h : Short tab) {order : TagOrder} {ix : ℕ × ℕ × ℕ × ℕ} {q : QuadSeq}
    (hq : getSequences tab order ix = some q) : q.size ≤ 2 ^ 23 := by
  unfold getSequences at hq
  obtain ⟨w, hw, hq⟩ := Option.bind_eq_some_iff.1 hq
  obtain ⟨x, -, hq⟩ := Option.bind_eq_some_iff.1 hq
  obtain ⟨y, -, hq⟩ := Option.bind_eq_some_iff.1 hq
  obtain ⟨z, -, rfl⟩ := Option.map_eq_some_iff.1 hq
  change w.length ≤ _
  unfold getSequenceAux at hw
  obtain ⟨i, -, hi⟩ := Option.bind_eq_some_iff.1 hw
  exact h w (Or.inl (List.mem_of_getElem? hi))

theorem joinPairsFiles_eq (h : ExactRounding rd) (ty : SeqType) (files : Text × Text) (order : TagOrder) {tab : SeqTable}
    (ht : Short tab) : F32.joinPairsFiles rd ty files order tab = joinPairsFiles ty files order tab := by
  unfold F32.joinPairsFiles joinPairsFiles
  dsimp only
  congr 1
  funext ms
  congr 1
  refine mapM_congr fun m _ => ?_
  unfold F32.testMatch testMatch
  cases e : getSequences tab order (m.1.1, m.1.2, m.2.1, m.2.2) with
  | none => rfl
  | some q => simp only [Option.bind_some, joinCondition_eq h ty q (getSequences_size ht e)]

theorem joinDir_eq (h : ExactRounding rd) (ty : SeqType) (d : Dir)
    (hd : ∀ f ∈ d, ∀ l ∈ readLines f.2, l.length ≤ 2 ^ 23) : F32.joinDir rd ty d = joinDir ty d := by
  unfold F32.joinDir joinDir
  cases e : getSequencesFromDir d with
  | none => rfl
  | some tab =>
    simp only [Option.bind_some]
    congr 1
    funext o
    exact joinPairsFiles_eq h ty o.1 o.2 (table_short hd e)

theorem joinPairs_eq (h : ExactRounding rd) (ty : SeqType) (dirs : List (Text × Dir))
    (hd : ∀ e ∈ dirs, ∀ f ∈ e.2, ∀ l ∈ readLines f.2, l.length ≤ 2 ^ 23) :
    F32.joinPairs rd ty dirs = joinPairs ty dirs := by
  unfold F32.joinPairs joinPairs F32.joinAll joinAll
  rw [mapM_congr fun e he => joinDir_eq h ty e.2 (hd e he)]

/-! ## Matrices -/

/-- Every entry satisfies `P`. -/
def AllM {α : Type} (P : α → Prop) (m : List (List α)) : Prop := ∀ r ∈ m, ∀ x ∈ r, P x

theorem allM_get2 {α : Type} {P : α → Prop} {m : List (List α)} (hm : AllM P m) {d : α} (hd : P d) (i j : ℕ) :
    P (get2 d m i j) := by
  unfold get2
  by_cases hi : i < m.length
  · rw [List.getD_eq_getElem _ _ hi]
    by_cases hj : j < m[i].length
    · rw [List.getD_eq_getElem _ _ hj]; exact hm _ (List.getElem_mem hi) _ (List.getElem_mem hj)
    · rw [List.getD_eq_default _ _ (by omega)]; exact hd
  · have e : m.getD i [] = [] := List.getD_eq_default _ _ (by omega)
    rw [e]
    exact hd

theorem allM_set2 {α : Type} {P : α → Prop} {m : List (List α)} (hm : AllM P m) (i j : ℕ) {v : α} (hv : P v) :
    AllM P (set2 m i j v) := by
  intro r hr x hx
  rcases List.mem_or_eq_of_mem_set hr with h | rfl
  · exact hm r h x hx
  · rcases List.mem_or_eq_of_mem_set hx with h | rfl
    · by_cases hi : i < m.length
      · rw [List.getD_eq_getElem _ _ hi] at h; exact hm _ (List.getElem_mem hi) x h
      · rw [List.getD_eq_default _ _ (by omega)] at h; simp at h
    · exact hv

theorem allM_replicate {α : Type} {P : α → Prop} (a b : ℕ) {v : α} (hv : P v) :
    AllM P (List.replicate a (List.replicate b v)) := by
  intro r hr x hx
  rw [List.eq_of_mem_replicate hr] at hx
  rw [List.eq_of_mem_replicate hx]
  exact hv

theorem allM_map {α : Type} {P : α → Prop} (l l' : List ℕ) (f : ℕ → ℕ → α) (hf : ∀ i ∈ l, ∀ j ∈ l', P (f i j)) :
    AllM P (l.map fun i => l'.map fun j => f i j) := by
  intro r hr x hx
  obtain ⟨i, hi, rfl⟩ := List.mem_map.1 hr
  obtain ⟨j, hj, rfl⟩ := List.mem_map.1 hx
  exact hf i hi j hj

theorem loop2_congr {α : Type} (Inv : List (List α) → Prop) {n : ℕ}
    {f' f : List (List α) → ℕ → ℕ → List (List α)} {m : List (List α)} (hm : Inv m)
    (h : ∀ m, Inv m → ∀ i < n, ∀ j < n, f' m i j = f m i j ∧ Inv (f m i j)) :
    loop2 n f' m = loop2 n f m ∧ Inv (loop2 n f m) :=
  foldl_congr Inv hm fun m hm i hi => foldl_congr Inv hm fun m hm j hj =>
    h m hm i (List.mem_range.1 hi) j (List.mem_range.1 hj)

/-- The alphabet and zero. -/
def Q25 (p : Quat) : Prop := p ∈ Q0 :: Q24

theorem q25_mul : ∀ p ∈ Q0 :: Q24, ∀ q ∈ Q0 :: Q24, p * q ∈ Q0 :: Q24 := by decide +kernel
theorem q25_conj : ∀ p ∈ Q0 :: Q24, p.conj ∈ Q0 :: Q24 := by decide +kernel

theorem comp25 {p : Quat} (h : Q25 p) : F32.CompQ p := by
  rcases List.mem_cons.1 h with rfl | h
  · have : F32.Comp 0 := ⟨0, by norm_num, by norm_num⟩
    exact ⟨this, this, this, this⟩
  · exact F32.comp24 h

theorem zero25 : Q25 Q0 := List.mem_cons_self

theorem mul25 (h : ExactRounding rd) {p q : Quat} (hp : Q25 p) (hq : Q25 q) : F32.mul rd p q = p * q ∧ Q25 (p * q) :=
  ⟨F32.mul_exact h (comp25 hp) (comp25 hq), q25_mul p hp q hq⟩

theorem dephase_eq (h : ExactRounding rd) (m : QHM) (hm : AllM Q25 m.matrix) :
    F32.dephase rd m = m.dephase ∧ AllM Q25 m.dephase.matrix := by
  obtain ⟨a1, a2⟩ := loop2_congr (AllM Q25) (n := m.size)
    (f' := fun x col invRow => set2 x (m.size - 1 - invRow) col
      (F32.mul rd (get2 Q0 x (m.size - 1 - invRow) col) (get2 Q0 x 0 col).conj))
    (f := fun x col invRow => set2 x (m.size - 1 - invRow) col
      (get2 Q0 x (m.size - 1 - invRow) col * (get2 Q0 x 0 col).conj)) hm fun x hx i _ j _ => by
    obtain ⟨e, hq⟩ := mul25 h (allM_get2 hx zero25 (m.size - 1 - j) i) (q25_conj _ (allM_get2 hx zero25 0 i))
    exact ⟨by rw [e], allM_set2 hx _ _ hq⟩
  obtain ⟨b1, b2⟩ := loop2_congr (AllM Q25) (n := m.size)
    (f' := fun x row invCol => set2 x row (m.size - 1 - invCol)
      (F32.mul rd (get2 Q0 x row 0).conj (get2 Q0 x row (m.size - 1 - invCol))))
    (f := fun x row invCol => set2 x row (m.size - 1 - invCol)
      ((get2 Q0 x row 0).conj * get2 Q0 x row (m.size - 1 - invCol))) a2 fun x hx i _ j _ => by
    obtain ⟨e, hq⟩ := mul25 h (q25_conj _ (allM_get2 hx zero25 i 0)) (allM_get2 hx zero25 i (m.size - 1 - j))
    exact ⟨by rw [e], allM_set2 hx _ _ hq⟩
  refine ⟨?_, b2⟩
  unfold F32.dephase QHM.dephase
  dsimp only
  rw [a1, b1]

theorem dephased_eq (h : ExactRounding rd) (m : QHM) (hm : AllM Q25 m.matrix) :
    F32.dephased rd m = m.dephased ∧ AllM Q25 m.dephased.matrix := by
  obtain ⟨a1, a2⟩ := loop2_congr (AllM Q25) (n := m.size)
    (f' := fun x col invRow => set2 x (m.size - 1 - invRow) col
      (F32.mul rd (get2 Q0 m.matrix (m.size - 1 - invRow) col) (get2 Q0 m.matrix 0 col).conj))
    (f := fun x col invRow => set2 x (m.size - 1 - invRow) col
      (get2 Q0 m.matrix (m.size - 1 - invRow) col * (get2 Q0 m.matrix 0 col).conj))
    (allM_replicate m.size m.size zero25) fun x hx i _ j _ => by
    obtain ⟨e, hq⟩ := mul25 h (allM_get2 hm zero25 (m.size - 1 - j) i) (q25_conj _ (allM_get2 hm zero25 0 i))
    exact ⟨by rw [e], allM_set2 hx _ _ hq⟩
  obtain ⟨b1, b2⟩ := loop2_congr (AllM Q25) (n := m.size)
    (f' := fun x row invCol => set2 x row (m.size - 1 - invCol)
      (F32.mul rd (get2 Q0 x row 0).conj (get2 Q0 x row (m.size - 1 - invCol))))
    (f := fun x row invCol => set2 x row (m.size - 1 - invCol)
      ((get2 Q0 x row 0).conj * get2 Q0 x row (m.size - 1 - invCol))) a2 fun x hx i _ j _ => by
    obtain ⟨e, hq⟩ := mul25 h (q25_conj _ (allM_get2 hx zero25 i 0)) (allM_get2 hx zero25 i (m.size - 1 - j))
    exact ⟨by rw [e], allM_set2 hx _ _ hq⟩
  refine ⟨?_, b2⟩
  unfold F32.dephased QHM.dephased
  dsimp only
  rw [a1, b1]

theorem commuting_eq (h : ExactRounding rd) (m : QHM) (hm : AllM Q25 m.matrix) :
    F32.containsNonCommutingElements rd m = m.containsNonCommutingElements := by
  unfold F32.containsNonCommutingElements QHM.containsNonCommutingElements
  dsimp only
  congr 1
  refine (foldl_congr (fun u : Option (List Quat) => ∀ l, u = some l → ∀ x ∈ l, Q25 x) (by simp) fun u hu x hx => ?_).1
  obtain ⟨i, -, hx⟩ := List.mem_flatMap.1 hx
  obtain ⟨j, -, rfl⟩ := List.mem_map.1 hx
  have hq : Q25 (m.get i j) := allM_get2 hm zero25 i j
  generalize m.get i j = v at hq
  cases u with
  | none => exact ⟨rfl, fun l hl => by simp [QHM.nonCommutingStep] at hl⟩
  | some u =>
    have hu := hu u rfl
    have e : (u.any fun elm => F32.mul rd v elm ≠ F32.mul rd elm v) = u.any fun elm => v * elm ≠ elm * v := by
      rw [Bool.eq_iff_iff, List.any_eq_true, List.any_eq_true]
      refine exists_congr fun y => and_congr_right fun hy => ?_
      rw [(mul25 h hq (hu y hy)).1, (mul25 h (hu y hy) hq).1]
    unfold F32.nonCommutingStep QHM.nonCommutingStep
    simp only [Option.bind_some]
    rw [e]
    refine ⟨rfl, fun l hl => ?_⟩
    split at hl
    · simp only [Option.some.injEq] at hl; subst hl; exact hu
    · split at hl
      · simp at hl
      · simp only [Option.some.injEq] at hl
        subst hl
        intro x hx
        rcases List.mem_append.1 hx with hx | hx
        · exact hu x hx
        · rw [List.mem_singleton.1 hx]; exact hq

theorem fromPqs_all {q : QS} (hq : Over q) : AllM Q25 (QHM.fromPqs q).matrix := by
  refine allM_map (List.range q.size) (List.range q.size) (fun row col => q.values.getD ((col + q.size - row) % q.size) Q0)
    fun i _ j _ => ?_
  by_cases hi : (j + q.size - i) % q.size < q.values.length
  · rw [List.getD_eq_getElem _ _ hi]
    exact List.mem_cons_of_mem _ (hq.2 _ (List.getElem_mem hi))
  · rw [List.getD_eq_default _ _ (by omega)]; exact zero25

theorem convertLine_eq (h : ExactRounding rd) : F32.convertLine rd = convertLine := by
  funext line
  unfold F32.convertLine convertLine
  rw [fromStr_eq h, qhmToString_eq h]
  cases e : QS.fromStr line with
  | none => simp only [Option.bind_none, Option.map_none]
  | some q =>
    have ha := fromPqs_all (fromStr_over e)
    simp only [Option.bind_some, (dephase_eq h _ ha).1, commuting_eq h _ (dephase_eq h _ ha).2]

theorem qhmWriteAll_eq (h : ExactRounding rd) (order : List QuadSeq → List QuadSeq) (ty : SeqType) (t : Text) :
    F32.qhmWriteAll rd order ty t = qhmWriteAll order ty t := by
  unfold F32.qhmWriteAll qhmWriteAll
  rw [fromStr_eq h, fromPqs_eq h, qhmToString_eq h, toQs_eq h]
  refine congrArg (Option.bind _) (funext fun qts => congrArg (Option.bind _) (funext fun equ =>
    congrArg (Option.map _) (mapM_congr fun s _ => ?_)))
  cases e : s.toQs with
  | none => simp only [Option.bind_none, Option.map_none]
  | some q => simp only [Option.bind_some, (dephased_eq h _ (fromPqs_all (toQs_over e).1)).1]

end Proofs.Single
