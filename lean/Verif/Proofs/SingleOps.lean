import Verif.Proofs.Single

/-!
# Single precision in the operators
-/

namespace Proofs.Single
open Model Spec Proofs Proofs.Loops Proofs.Rho

variable {rd : ℚ → ℚ}

/-- Both parts are among `0`, `±1/2` and `±1`. -/
def CC (c : Cx) : Prop := F32.Comp c.re ∧ F32.Comp c.im

theorem comp0 : F32.Comp 0 := ⟨0, by norm_num, by norm_num⟩

theorem comp_neg {x : ℚ} (h : F32.Comp x) : F32.Comp (-x) := by
  obtain ⟨k, hk, rfl⟩ := h
  exact ⟨-k, by rw [abs_neg]; exact hk, by push_cast; ring⟩

theorem comp1 : F32.Comp 1 := ⟨2, by norm_num, by norm_num⟩

theorem rd_comp (h : ExactRounding rd) {x : ℚ} (hx : F32.Comp x) : rd x = x := by
  obtain ⟨k, hk, e⟩ := hx
  exact F32.rd_half h k (by omega) e

theorem cc_zero : CC Cx.zero := ⟨comp0, comp0⟩

theorem cmul_exact (h : ExactRounding rd) {a b : Cx} (ha : CC a) (hb : CC b) : F32.cmul rd a b = a * b := by
  have m := F32.four (rd := rd) h (F32.prod_quarter ha.1 hb.1) (F32.prod_quarter ha.2 hb.2)
    (F32.prod_quarter comp0 comp0) (F32.prod_quarter comp0 comp0)
  have m' := F32.four (rd := rd) h (F32.prod_quarter ha.1 hb.2) (F32.prod_quarter ha.2 hb.1)
    (F32.prod_quarter comp0 comp0) (F32.prod_quarter comp0 comp0)
  unfold F32.cmul
  rw [m.1, m.2.1, m.2.2.2.2.2.1, m'.1, m'.2.1, m'.2.2.2.2.1]
  rfl

theorem tensor_eq (h : ExactRounding rd) (o o' : Operator) (ho : AllM CC o.values) (ho' : AllM CC o'.values) :
    F32.tensor rd o o' = o.tensor o' := by
  unfold F32.tensor Operator.tensor
  dsimp only
  congr 1
  refine (foldl_congr (fun _ => True) trivial fun m _ t _ => ⟨?_, trivial⟩).1
  rw [cmul_exact h (a := o.get t.1.1 t.1.2) (b := o'.get t.2.1 t.2.2) (allM_get2 ho cc_zero _ _) (allM_get2 ho' cc_zero _ _)]

theorem tensor_all (o o' : Operator) (h : ∀ i j p q, CC (o.get i j * o'.get p q)) : AllM CC (o.tensor o').values :=
  (foldl_congr (f' := _) (AllM CC) (allM_replicate _ _ cc_zero) fun _ hm t _ =>
    ⟨rfl, allM_set2 hm _ _ (h t.1.1 t.1.2 t.2.1 t.2.2)⟩).2

theorem quatOp_eq (h : ExactRounding rd) {q : Quat} (hq : F32.CompQ q) :
    F32.quaternionToOperator rd q = quaternionToOperator q ∧ AllM CC (quaternionToOperator q).values := by
  obtain ⟨hw, hx, hy, hz⟩ := hq
  have r0 : rd 0 = 0 := rd_comp h comp0
  have rw' := rd_comp h hw
  have rx := rd_comp h hx
  have ry := rd_comp h hy
  have rz := rd_comp h hz
  have ry2 := rd_comp h (comp_neg hy)
  have rz2 := rd_comp h (comp_neg hz)
  have e : quaternionToOperator q = makeOperator ⟨q.w, q.z⟩ ⟨-q.y, q.x⟩ ⟨q.y, q.x⟩ ⟨q.w, -q.z⟩ := by
    have a1 : ∀ a b : Cx, a + b = ⟨a.re + b.re, a.im + b.im⟩ := fun _ _ => rfl
    have a2 : ∀ a b : Cx, a * b = ⟨a.re * b.re - a.im * b.im, a.re * b.im + a.im * b.re⟩ := fun _ _ => rfl
    simp [quaternionToOperator, makeOperator, Operator.add, Operator.smul, OP1, OPX, OPY, OPZ, List.range_succ, Operator.get,
      get2, a1, a2]
  refine ⟨?_, ?_⟩
  · rw [e]
    simp [F32.quaternionToOperator, makeOperator, F32.opAdd, F32.opSmul, F32.cadd, F32.cmul, OP1, OPX, OPY, OPZ,
      List.range_succ, Operator.get, get2, r0, rw', rx, ry, rz, ry2, rz2]
  · rw [e]
    intro r hr x hx'
    simp only [makeOperator, List.mem_cons, List.not_mem_nil, or_false] at hr
    rcases hr with rfl | rfl <;> simp only [List.mem_cons, List.not_mem_nil, or_false] at hx' <;>
      rcases hx' with rfl | rfl
    · exact ⟨hw, hz⟩
    · exact ⟨comp_neg hy, hx⟩
    · exact ⟨hy, hx⟩
    · exact ⟨hw, comp_neg hz⟩

theorem zero_mul' (c : Cx) : Cx.zero * c = Cx.zero := by
  change Cx.mul _ _ = _
  simp [Cx.mul, Cx.zero]
theorem mul_zero' (c : Cx) : c * Cx.zero = Cx.zero := by
  change Cx.mul _ _ = _
  simp [Cx.mul, Cx.zero]
theorem mul_one' (c : Cx) : c * (⟨1, 0⟩ : Cx) = c := by
  change Cx.mul _ _ = _
  simp [Cx.mul]
theorem one_mul' (c : Cx) : (⟨1, 0⟩ : Cx) * c = c := by
  change Cx.mul _ _ = _
  simp [Cx.mul]
theorem add_zero' (c : Cx) : c + Cx.zero = c := by
  change Cx.add _ _ = _
  simp [Cx.add, Cx.zero]
theorem zero_add' (c : Cx) : Cx.zero + c = c := by
  change Cx.add _ _ = _
  simp [Cx.add, Cx.zero]

/-- The entries of the elementary matrices. -/
theorem basis_01 (n j k : ℕ) : AllM (fun c => c = Cx.zero ∨ c = ⟨1, 0⟩) (computationalBasis n j k).values :=
  allM_set2 (P := fun c : Cx => c = Cx.zero ∨ c = ⟨1, 0⟩) (allM_replicate n n (Or.inl rfl)) j k (Or.inr rfl)

theorem basis_all (n j k : ℕ) : AllM CC (computationalBasis n j k).values := fun r hr x hx => by
  rcases basis_01 n j k r hr x hx with rfl | rfl
  · exact cc_zero
  · exact ⟨comp1, comp0⟩

theorem basis_val {n j k : ℕ} (hj : j < n) (hk : k < n) (i l : ℕ) (hi : i < n) (hl : l < n) :
    (computationalBasis n j k).get i l = if i = j ∧ l = k then ⟨1, 0⟩ else Cx.zero := by
  unfold computationalBasis Operator.get
  simp only
  rw [get2_set2 (shape_replicate n Cx.zero) hj hk, get2_replicate n Cx.zero Cx.zero hi hl]

theorem tensor_basis (o : Operator) (ho : AllM CC o.values) (n j k : ℕ) :
    AllM CC (o.tensor (computationalBasis n j k)).values := by
  refine tensor_all _ _ fun i l p q => ?_
  have hb := allM_get2 (d := Cx.zero) (basis_01 n j k) (Or.inl rfl) p q
  change CC (_ * get2 Cx.zero _ p q)
  rcases hb with hb | hb <;> rw [hb]
  · rw [mul_zero']; exact cc_zero
  · rw [mul_one']; exact allM_get2 ho cc_zero _ _

theorem basis_tensor (o : Operator) (ho : AllM CC o.values) (n j k : ℕ) :
    AllM CC ((computationalBasis n j k).tensor o).values := by
  refine tensor_all _ _ fun i l p q => ?_
  have hb := allM_get2 (d := Cx.zero) (basis_01 n j k) (Or.inl rfl) i l
  change CC (get2 Cx.zero _ i l * _)
  rcases hb with hb | hb <;> rw [hb]
  · rw [zero_mul']; exact cc_zero
  · rw [one_mul']; exact allM_get2 ho cc_zero _ _

theorem cadd_exact (h : ExactRounding rd) {a b : Cx} (ha : CC a) (hb : CC b) (h0 : a = Cx.zero ∨ b = Cx.zero) :
    F32.cadd rd a b = a + b ∧ CC (a + b) := by
  rcases h0 with rfl | rfl
  · rw [zero_add']
    refine ⟨?_, hb⟩
    simp [F32.cadd, Cx.zero, rd_comp h hb.1, rd_comp h hb.2]
  · rw [add_zero']
    refine ⟨?_, ha⟩
    simp [F32.cadd, Cx.zero, rd_comp h ha.1, rd_comp h ha.2]

/-- A sum of operators whose nonzero entries are at different places. -/
theorem opsum_exact (h : ExactRounding rd) {ι : Type} (N : ℕ) (L : List ι) (f' f : ι → Operator)
    (hf : ∀ x ∈ L, f' x = f x ∧ AllM CC (f x).values)
    (hd : L.Pairwise fun x y => ∀ i j, i < N → j < N → (f x).get i j = Cx.zero ∨ (f y).get i j = Cx.zero)
    (o : Operator) (ho : AllM CC o.values) (hs : o.size = N)
    (hd0 : ∀ x ∈ L, ∀ i j, i < N → j < N → o.get i j = Cx.zero ∨ (f x).get i j = Cx.zero) :
    L.foldl (fun acc x => F32.opAdd rd acc (f' x)) o = L.foldl (fun acc x => acc.add (f x)) o ∧
      AllM CC (L.foldl (fun acc x => acc.add (f x)) o).values := by
  induction L generalizing o with
  | nil => exact ⟨rfl, ho⟩
  | cons x L ih =>
    rw [List.pairwise_cons] at hd
    obtain ⟨e, hx⟩ := hf x List.mem_cons_self
    have key : ∀ i j, i < N → j < N →
        F32.cadd rd (o.get i j) ((f x).get i j) = o.get i j + (f x).get i j ∧ CC (o.get i j + (f x).get i j) :=
      fun i j hi hj => cadd_exact h (allM_get2 ho cc_zero _ _) (allM_get2 hx cc_zero _ _)
        (hd0 x List.mem_cons_self i j hi hj)
    have e1 : F32.opAdd rd o (f' x) = o.add (f x) := by
      rw [e]
      unfold F32.opAdd Operator.add
      congr 1
      refine List.map_congr_left fun i hi => List.map_congr_left fun j hj => ?_
      rw [List.mem_range, hs] at hi hj
      exact (key i j hi hj).1
    have a1 : AllM CC (o.add (f x)).values := by
      refine allM_map (List.range o.size) (List.range o.size) (fun i j => o.get i j + (f x).get i j) fun i hi j hj => ?_
      rw [List.mem_range, hs] at hi hj
      exact (key i j hi hj).2
    rw [List.foldl_cons, List.foldl_cons, e1]
    refine ih (fun y hy => hf y (List.mem_cons_of_mem _ hy)) hd.2 _ a1 hs fun y hy i j hi hj => ?_
    rw [add_get o (f x) (by rw [hs]; exact hi) (by rw [hs]; exact hj)]
    rcases hd.1 y hy i j hi hj with h1 | h1
    · rcases hd0 y (List.mem_cons_of_mem _ hy) i j hi hj with h2 | h2
      · left; rw [h1, h2, add_zero']
      · right; exact h2
    · right; exact h1

theorem empty_all (n : ℕ) : AllM CC (Operator.empty n).values := allM_replicate _ _ cc_zero

theorem qb_eq (h : ExactRounding rd) (m : QHM) (hm : AllM Q25 m.matrix) (b : ℕ) :
    F32.qb rd m b = MUM.qb m b ∧ AllM CC (MUM.qb m b).values := by
  unfold F32.qb MUM.qb
  refine opsum_exact h (m.size * 2) (iprod m.size m.size) _ _ (fun jk _ => ?_) ?_ _ (empty_all _) rfl fun x _ i j hi hj => ?_
  · obtain ⟨e, hq⟩ := mul25 h (allM_get2 hm zero25 b jk.1) (q25_conj _ (allM_get2 hm zero25 b jk.2))
    obtain ⟨e2, ha⟩ := quatOp_eq h (comp25 hq)
    change F32.tensor rd (F32.quaternionToOperator rd (F32.mul rd (get2 Q0 m.matrix b jk.1) (get2 Q0 m.matrix b jk.2).conj))
      _ = _ ∧ _
    rw [e, e2]
    exact ⟨tensor_eq h _ _ ha (basis_all _ _ _), tensor_basis _ ha _ _ _⟩
  · refine List.Pairwise.imp_of_mem (fun {x y} hx hy hxy i j hi hj => ?_) (nodup_iprod m.size m.size)
    rw [mem_iprod] at hx hy
    have hn : 0 < m.size := by omega
    have hi' : i / m.size < 2 := (Nat.div_lt_iff_lt_mul hn).2 (by omega)
    have hj' : j / m.size < 2 := (Nat.div_lt_iff_lt_mul hn).2 (by omega)
    have ei : i / m.size * m.size + i % m.size = i := Nat.div_add_mod' i m.size
    have ej : j / m.size * m.size + j % m.size = j := Nat.div_add_mod' j m.size
    have hi2 := Nat.mod_lt i hn
    have hj2 := Nat.mod_lt j hn
    have t : ∀ (q : Quat) (z : ℕ × ℕ), z.1 < m.size ∧ z.2 < m.size → ¬ (i % m.size = z.1 ∧ j % m.size = z.2) →
        ((quaternionToOperator q).tensor (computationalBasis m.size z.1 z.2)).get i j = Cx.zero := by
      intro q z hz hne
      have := (tensor_spec (quaternionToOperator q) (computationalBasis m.size z.1 z.2)).2.2 (i / m.size) (j / m.size)
        (i % m.size) (j % m.size) hi' hj' hi2 hj2
      change Operator.get _ (i / m.size * m.size + i % m.size) (j / m.size * m.size + j % m.size) = _ at this
      rw [ei, ej] at this
      rw [this, basis_val hz.1 hz.2 _ _ hi2 hj2, if_neg hne, mul_zero']
    by_cases hc : i % m.size = x.1 ∧ j % m.size = x.2
    · right
      exact t _ y hy fun hc' => hxy (Prod.ext (hc.1.symm.trans hc'.1) (hc.2.symm.trans hc'.2))
    · left
      exact t _ x hx hc
  · left
    exact get2_replicate _ _ _ hi hj

theorem mum_eq (h : ExactRounding rd) (m : QHM) (hm : AllM Q25 m.matrix) :
    F32.mumFromQhm rd m = MUM.fromQhm m ∧ ∀ o ∈ (MUM.fromQhm m).sequence, AllM CC o.values := by
  refine ⟨?_, fun o ho => ?_⟩
  · unfold F32.mumFromQhm MUM.fromQhm
    congr 1
    exact List.map_congr_left fun b _ => (qb_eq h m hm b).1
  · obtain ⟨b, -, rfl⟩ := List.mem_map.1 ho
    exact (qb_eq h m hm b).2

theorem hmuo_eq (h : ExactRounding rd) (m : QHM) (hm : AllM Q25 m.matrix) :
    F32.hmuoFromQhm rd m = HMUO.fromQhm m ∧ AllM CC (HMUO.fromQhm m).operator.values := by
  have key := opsum_exact h (2 * m.size) (iprod m.size m.size)
    (fun jk => F32.tensor rd (computationalBasis m.size jk.1 jk.2) (F32.quaternionToOperator rd (m.get jk.1 jk.2).conj))
    (fun jk => (computationalBasis m.size jk.1 jk.2).tensor (quaternionToOperator (m.get jk.1 jk.2).conj))
    (fun jk _ => ?_) ?_ (Operator.empty (2 * m.size)) (empty_all _) rfl fun x _ i j hi hj => ?_
  · unfold F32.hmuoFromQhm HMUO.fromQhm
    exact ⟨by rw [key.1], key.2⟩
  · obtain ⟨e2, ha⟩ := quatOp_eq h (comp25 (q25_conj _ (allM_get2 hm zero25 jk.1 jk.2)))
    change F32.tensor rd _ (F32.quaternionToOperator rd (get2 Q0 m.matrix jk.1 jk.2).conj) = _ ∧ _
    rw [e2]
    exact ⟨tensor_eq h _ _ (basis_all _ _ _) ha, basis_tensor _ ha _ _ _⟩
  · refine List.Pairwise.imp_of_mem (fun {x y} hx hy hxy i j hi hj => ?_) (nodup_iprod m.size m.size)
    rw [mem_iprod] at hx hy
    have hi' : i / 2 < m.size := by omega
    have hj' : j / 2 < m.size := by omega
    have ei : i / 2 * 2 + i % 2 = i := Nat.div_add_mod' i 2
    have ej : j / 2 * 2 + j % 2 = j := Nat.div_add_mod' j 2
    have t : ∀ (q : Quat) (z : ℕ × ℕ), z.1 < m.size ∧ z.2 < m.size → ¬ (i / 2 = z.1 ∧ j / 2 = z.2) →
        ((computationalBasis m.size z.1 z.2).tensor (quaternionToOperator q)).get i j = Cx.zero := by
      intro q z hz hne
      have := (tensor_spec (computationalBasis m.size z.1 z.2) (quaternionToOperator q)).2.2 (i / 2) (j / 2)
        (i % 2) (j % 2) hi' hj' (Nat.mod_lt _ (by norm_num)) (Nat.mod_lt _ (by norm_num))
      change Operator.get _ (i / 2 * 2 + i % 2) (j / 2 * 2 + j % 2) = _ at this
      rw [ei, ej] at this
      rw [this, basis_val hz.1 hz.2 _ _ hi' hj', if_neg hne, zero_mul']
    by_cases hc : i / 2 = x.1 ∧ j / 2 = x.2
    · right
      exact t _ y hy fun hc' => hxy (Prod.ext (hc.1.symm.trans hc'.1) (hc.2.symm.trans hc'.2))
    · left
      exact t _ x hx hc
  · left
    exact get2_replicate _ _ _ hi hj

theorem mumProduct_eq (h : ExactRounding rd) (a b : MUM) (ha : ∀ o ∈ a.sequence, AllM CC o.values)
    (hb : ∀ o ∈ b.sequence, AllM CC o.values) : F32.mumProduct rd a b = mumProduct a b := by
  have g : ∀ (l : List Operator), (∀ o ∈ l, AllM CC o.values) → ∀ i, AllM CC (l.getD i (Operator.empty 0)).values := by
    intro l hl i
    by_cases hi : i < l.length
    · rw [List.getD_eq_getElem _ _ hi]; exact hl _ (List.getElem_mem hi)
    · rw [List.getD_eq_default _ _ (by omega)]; exact empty_all 0
  unfold F32.mumProduct mumProduct
  dsimp only
  congr 1
  exact List.map_congr_left fun ij _ => tensor_eq h _ _ (g _ ha _) (g _ hb _)

end Proofs.Single
