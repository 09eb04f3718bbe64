import Verif.Proofs.Loops
import Verif.Proofs.Perfect
import Verif.Proofs.Codec
import Verif.Spec.Matrix

/-!
# Helper lemmas: quaternionic Hadamard matrices
-/

set_option linter.unusedSectionVars false
set_option linter.unusedVariables false
set_option linter.unusedSimpArgs false

namespace Proofs.QHad
open Model Spec Proofs Proofs.Loops
open scoped Matrix Quaternion

/-! ## The alphabet -/

theorem q24_mul : ∀ p ∈ Q24, ∀ q ∈ Q24, p * q ∈ Q24 := by decide +kernel
theorem q24_conj : ∀ p ∈ Q24, p.conj ∈ Q24 := by decide +kernel
theorem q24_unit : ∀ p ∈ Q24, p * p.conj = Q1 ∧ p.conj * p = Q1 := by decide +kernel

theorem toH_Q1 : toH Q1 = 1 := by apply Quaternion.ext <;> rfl

theorem q24_star {p : Quat} (h : p ∈ Q24) : toH p * star (toH p) = 1 ∧ star (toH p) * toH p = 1 := by
  obtain ⟨h1, h2⟩ := q24_unit p h
  rw [← toH_conj, ← toH_mul, ← toH_mul, h1, h2, toH_Q1]
  exact ⟨rfl, rfl⟩

/-- A half-integer. -/
def Half (x : ℚ) : Prop := ∃ k : ℤ, 2 * x = k

instance (x : ℚ) : Decidable (Half x) :=
  decidable_of_iff ((2 * x).den = 1) ⟨fun h => ⟨(2 * x).num, by rw [Rat.den_eq_one_iff] at h; exact h.symm⟩,
    fun ⟨k, h⟩ => by rw [h]; rfl⟩

/-- All components are half-integers. -/
def HalfQ (q : ℍ[ℚ]) : Prop := Half q.re ∧ Half q.imI ∧ Half q.imJ ∧ Half q.imK

theorem Half.add {x y : ℚ} : Half x → Half y → Half (x + y) := by
  rintro ⟨a, ha⟩ ⟨b, hb⟩
  exact ⟨a + b, by push_cast; linarith⟩

theorem q24_half {p : Quat} (h : p ∈ Q24) : HalfQ (toH p) := by
  have : ∀ p ∈ Q24, Half p.w ∧ Half p.x ∧ Half p.y ∧ Half p.z := by decide +kernel
  exact this p h

theorem half_sum {ι : Type*} (s : Finset ι) (f : ι → ℍ[ℚ]) (h : ∀ i ∈ s, HalfQ (f i)) : HalfQ (∑ i ∈ s, f i) := by
  refine Finset.sum_induction f HalfQ ?_ ?_ h
  · rintro a b ⟨a1, a2, a3, a4⟩ ⟨b1, b2, b3, b4⟩
    refine ⟨?_, ?_, ?_, ?_⟩ <;> simp only [Quaternion.re_add, Quaternion.imI_add, Quaternion.imJ_add, Quaternion.imK_add]
    · exact a1.add b1
    · exact a2.add b2
    · exact a3.add b3
    · exact a4.add b4
  · exact ⟨⟨0, by simp⟩, ⟨0, by simp⟩, ⟨0, by simp⟩, ⟨0, by simp⟩⟩

theorem small_half {x : ℚ} (h : Half x) : QHM.small x = true ↔ x = 0 := by
  unfold QHM.small QHM.f32Tolerance
  rw [decide_eq_true_eq]
  constructor
  · rintro ⟨h1, h2⟩
    obtain ⟨k, hk⟩ := h
    have h3 : (k : ℚ) < 1 := by rw [← hk]; norm_num at h2 ⊢; linarith
    have h4 : (-1 : ℚ) < k := by rw [← hk]; norm_num at h1 ⊢; linarith
    have h5 : k < 1 := by exact_mod_cast h3
    have h6 : -1 < k := by exact_mod_cast h4
    have : k = 0 := by omega
    rw [this] at hk
    simpa using hk
  · rintro rfl
    norm_num

/-! ## Verification -/

/-- Every entry is in the alphabet. -/
def In24 (n : ℕ) (m : List (List Quat)) : Prop := ∀ i j, i < n → j < n → get2 Q0 m i j ∈ Q24

theorem inner_eq (n : ℕ) (r1 r2 : List Quat) : toH (QHM.innerProduct n r1 r2) =
    ∑ k ∈ Finset.range n, toH (r1.getD k Q0) * star (toH (r2.getD k Q0)) := by
  unfold QHM.innerProduct
  rw [foldl_range_quat]
  simp only [toH_mul, toH_conj]

theorem qmat_mul (n : ℕ) (m : List (List Quat)) (i j : Fin n) : (qmat n m * (qmat n m)ᴴ) i j =
    ∑ k ∈ Finset.range n, toH (get2 Q0 m i k) * star (toH (get2 Q0 m j k)) := by
  rw [Matrix.mul_apply, ← Fin.sum_univ_eq_sum_range (fun k => toH (get2 Q0 m i k) * star (toH (get2 Q0 m j k)))]
  rfl

theorem qmat_iff (n : ℕ) (m : List (List Quat)) :
    qmat n m * (qmat n m)ᴴ = (n : ℚ) • (1 : Matrix (Fin n) (Fin n) ℍ[ℚ]) ↔
      ∀ i j, i < n → j < n → ∑ k ∈ Finset.range n, toH (get2 Q0 m i k) * star (toH (get2 Q0 m j k)) =
        if i = j then (n : ℍ[ℚ]) else 0 := by
  have e : ∀ i j : Fin n, ((n : ℚ) • (1 : Matrix (Fin n) (Fin n) ℍ[ℚ])) i j = if (i : ℕ) = j then (n : ℍ[ℚ]) else 0 := by
    intro i j
    rw [Matrix.smul_apply, Matrix.one_apply]
    by_cases h : i = j
    · subst h
      rw [if_pos rfl, if_pos rfl, ← Nat.cast_smul_eq_nsmul ℚ n (1 : ℍ[ℚ]) |>.symm]
      simp
    · rw [if_neg h, if_neg (fun h' => h (Fin.ext h')), smul_zero]
  constructor
  · intro h i j hi hj
    have := congrFun (congrFun h ⟨i, hi⟩) ⟨j, hj⟩
    rw [qmat_mul, e] at this
    exact this
  · intro h
    funext i j
    rw [qmat_mul, e, h i j i.2 j.2]

theorem row_half {n : ℕ} {m : List (List Quat)} (h : In24 n m) {i j : ℕ} (hi : i < n) (hj : j < n) :
    HalfQ (∑ k ∈ Finset.range n, toH (get2 Q0 m i k) * star (toH (get2 Q0 m j k))) := by
  refine half_sum _ _ fun k hk => ?_
  have hk := Finset.mem_range.1 hk
  rw [← toH_conj, ← toH_mul]
  exact q24_half (q24_mul _ (h i k hi hk) _ (q24_conj _ (h j k hj hk)))

theorem quat_eq_iff (q : ℍ[ℚ]) (r : ℚ) : q = (r : ℍ[ℚ]) ↔ q.re - r = 0 ∧ q.imI = 0 ∧ q.imJ = 0 ∧ q.imK = 0 := by
  rw [Quaternion.ext_iff, sub_eq_zero]
  simp

theorem verify_iff {m : QHM} (h : In24 m.size m.matrix) : m.verify = true ↔
    qmat m.size m.matrix * (qmat m.size m.matrix)ᴴ = (m.size : ℚ) • (1 : Matrix (Fin m.size) (Fin m.size) ℍ[ℚ]) := by
  rw [qmat_iff]
  unfold QHM.verify
  simp only [List.all_eq_true, List.mem_range, Bool.and_eq_true]
  constructor
  · intro H i j hi hj
    obtain ⟨h1, ⟨h2, h3⟩, h4⟩ := H i hi j hj
    obtain ⟨g1, g2, g3, g4⟩ := row_half h hi hj
    have e := inner_eq m.size (m.row i) (m.row j)
    change _ = ∑ k ∈ Finset.range m.size, toH (get2 Q0 m.matrix i k) * star (toH (get2 Q0 m.matrix j k)) at e
    rw [← e] at g1 g2 g3 g4 ⊢
    have h2' := (small_half g2).1 h2
    have h3' := (small_half g3).1 h3
    have h4' := (small_half g4).1 h4
    split at h1
    · next hij =>
      rw [if_pos hij, show ((m.size : ℕ) : ℍ[ℚ]) = ((m.size : ℚ) : ℍ[ℚ]) by simp, quat_eq_iff]
      refine ⟨(small_half ?_).1 h1, h2', h3', h4'⟩
      obtain ⟨k, hk⟩ := g1
      refine ⟨k - 2 * m.size, ?_⟩
      push_cast; linarith
    · next hij =>
      rw [if_neg hij, show (0 : ℍ[ℚ]) = ((0 : ℚ) : ℍ[ℚ]) by simp, quat_eq_iff]
      exact ⟨by rw [sub_zero]; exact (small_half g1).1 h1, h2', h3', h4'⟩
  · intro H i hi j hj
    have := H i j hi hj
    have e := inner_eq m.size (m.row i) (m.row j)
    change _ = ∑ k ∈ Finset.range m.size, toH (get2 Q0 m.matrix i k) * star (toH (get2 Q0 m.matrix j k)) at e
    rw [this] at e
    have zero : QHM.small 0 = true := by decide +kernel
    split
    · next hij =>
      rw [if_pos hij, show ((m.size : ℕ) : ℍ[ℚ]) = ((m.size : ℚ) : ℍ[ℚ]) by simp, quat_eq_iff] at e
      obtain ⟨e1, e2, e3, e4⟩ := e
      rw [toH_re] at e1; rw [toH_imI] at e2; rw [toH_imJ] at e3; rw [toH_imK] at e4
      rw [e1, e2, e3, e4]
      exact ⟨zero, ⟨zero, zero⟩, zero⟩
    · next hij =>
      rw [if_neg hij, show (0 : ℍ[ℚ]) = ((0 : ℚ) : ℍ[ℚ]) by simp, quat_eq_iff] at e
      obtain ⟨e1, e2, e3, e4⟩ := e
      rw [toH_re, sub_zero] at e1; rw [toH_imI] at e2; rw [toH_imJ] at e3; rw [toH_imK] at e4
      rw [e1, e2, e3, e4]
      exact ⟨zero, ⟨zero, zero⟩, zero⟩

/-! ## The circulant matrix -/

theorem fromPqs_get {n : ℕ} [NeZero n] {q : QS} (hs : q.size = n) {r c : ℕ} (hr : r < n) (hc : c < n) :
    toH (get2 Q0 (QHM.fromPqs q).matrix r c) = qcyc n q.values ((c : ZMod n) - r) := by
  unfold QHM.fromPqs
  simp only [hs]
  rw [get2_map n _ Q0 hr hc]
  have : ((c : ZMod n) - r) = ((c + n - r : ℕ) : ZMod n) := by
    rw [Nat.cast_sub (by omega)]; simp
  rw [this, qcyc_natCast]

theorem fromPqs_in24 {n : ℕ} [NeZero n] {q : QS} (hs : q.size = n) (hl : q.values.length = n) (hq : ∀ x ∈ q.values, x ∈ Q24) :
    In24 n (QHM.fromPqs q).matrix := by
  intro i j hi hj
  unfold QHM.fromPqs
  simp only [hs]
  rw [get2_map n _ Q0 hi hj, List.getD_eq_getElem _ _ (by rw [hl]; exact Nat.mod_lt _ npos)]
  exact hq _ (List.getElem_mem _)

theorem fromPqs_gram {n : ℕ} [NeZero n] {q : QS} (hs : q.size = n) {i j : ℕ} (hi : i < n) (hj : j < n) :
    ∑ k ∈ Finset.range n, toH (get2 Q0 (QHM.fromPqs q).matrix i k) * star (toH (get2 Q0 (QHM.fromPqs q).matrix j k)) =
      qpaf (qcyc n q.values) ((i : ZMod n) - j) := by
  rw [Finset.sum_congr rfl fun k hk => by
    rw [fromPqs_get hs hi (Finset.mem_range.1 hk), fromPqs_get hs hj (Finset.mem_range.1 hk)]]
  rw [sum_range_zmod n (fun k => qcyc n q.values ((k : ZMod n) - i) * star (qcyc n q.values ((k : ZMod n) - j)))]
  unfold qpaf
  refine Fintype.sum_equiv (Equiv.subRight (i : ZMod n)) _ _ fun k => ?_
  simp only [Equiv.subRight_apply, ZMod.natCast_val, ZMod.cast_id', id_eq]
  congr 3
  ring

theorem fromPqs_perfect {n : ℕ} [NeZero n] {q : QS} (hs : q.size = n) (hl : q.values.length = n)
    (hq : ∀ x ∈ q.values, x ∈ Q24) :
    (∀ i j, i < n → j < n → ∑ k ∈ Finset.range n, toH (get2 Q0 (QHM.fromPqs q).matrix i k) *
      star (toH (get2 Q0 (QHM.fromPqs q).matrix j k)) = if i = j then (n : ℍ[ℚ]) else 0) ↔
      Perfect (qcyc n q.values) := by
  constructor
  · intro H t ht
    have := H t.val 0 (ZMod.val_lt t) npos
    rw [fromPqs_gram hs (ZMod.val_lt t) npos, if_neg (by rwa [Ne, ZMod.val_eq_zero] at *)] at this
    simpa using this
  · intro H i j hi hj
    rw [fromPqs_gram hs hi hj]
    by_cases hij : i = j
    · subst hij
      rw [if_pos rfl, sub_self]
      unfold qpaf
      have : ∀ x : ZMod n, qcyc n q.values x * star (qcyc n q.values (x + 0)) = 1 := by
        intro x
        rw [add_zero]
        unfold qcyc
        rw [List.getD_eq_getElem _ _ (by rw [hl]; exact ZMod.val_lt x)]
        exact (q24_star (hq _ (List.getElem_mem _))).1
      rw [Finset.sum_congr rfl fun x _ => this x]
      simp
    · rw [if_neg hij]
      refine H _ fun h => hij ?_
      rw [sub_eq_zero] at h
      have := congrArg ZMod.val h
      rwa [val_natCast_lt hi, val_natCast_lt hj] at this

/-! ## Normalisation -/

/-- The entry after normalisation. -/
def deph (m : List (List Quat)) (r c : ℕ) : Quat :=
  (get2 Q0 m r 0 * (get2 Q0 m 0 0).conj).conj * (get2 Q0 m r c * (get2 Q0 m 0 c).conj)

theorem dephase_spec {m : QHM} (hs : Shape m.size m.matrix) :
    m.dephase.size = m.size ∧ Shape m.size m.dephase.matrix ∧ ∀ r c, r < m.size → c < m.size →
      get2 Q0 m.dephase.matrix r c = deph m.matrix r c := by
  set n := m.size with hn
  unfold QHM.dephase
  simp only [← hn]
  obtain ⟨s1, g1⟩ := loop2_two Q0 n (fun p => (n - 1 - p.2, p.1)) (fun p => (0, p.1)) (fun x y => x * y.conj)
    m.matrix hs (fun p h1 h2 => ⟨by simp only; omega, h1⟩)
    (fun p q hp1 hp2 hq1 hq2 h => by
      simp only [ne_eq, Prod.mk.injEq, not_and]
      constructor <;> omega)
  obtain ⟨s2, g2⟩ := loop2_two Q0 n (fun p => (p.1, n - 1 - p.2)) (fun p => (p.1, 0)) (fun x y => y.conj * x)
    _ s1 (fun p h1 h2 => ⟨h1, by simp only; omega⟩)
    (fun p q hp1 hp2 hq1 hq2 h => by
      simp only [ne_eq, Prod.mk.injEq, not_and]
      constructor <;> omega)
  simp only at g1 g2 s1 s2
  refine ⟨trivial, s2, fun r c hr hc => ?_⟩
  have v1 : ∀ r c, r < n → c < n → get2 Q0 (loop2 n (fun m i j => set2 m (n - 1 - j) i
      (get2 Q0 m (n - 1 - j) i * (get2 Q0 m 0 i).conj)) m.matrix) r c = get2 Q0 m.matrix r c * (get2 Q0 m.matrix 0 c).conj := by
    intro r c hr hc
    have := g1 c (n - 1 - r) hc (by omega)
    rw [show n - 1 - (n - 1 - r) = r by omega] at this
    exact this
  have := g2 r (n - 1 - c) hr (by omega)
  rw [show n - 1 - (n - 1 - c) = c by omega] at this
  rw [this, v1 r c hr hc, v1 r 0 hr (by omega)]
  rfl

theorem dephased_spec (m : QHM) :
    m.dephased.size = m.size ∧ Shape m.size m.dephased.matrix ∧ ∀ r c, r < m.size → c < m.size →
      get2 Q0 m.dephased.matrix r c = deph m.matrix r c := by
  set n := m.size with hn
  unfold QHM.dephased
  simp only [← hn]
  obtain ⟨s1, g1, -⟩ := loop2_const Q0 n n (fun p => (n - 1 - p.2, p.1))
    (fun p => get2 Q0 m.matrix (n - 1 - p.2) p.1 * (get2 Q0 m.matrix 0 p.1).conj)
    _ (shape_replicate n Q0) (fun p h1 h2 => ⟨by simp only; omega, h1⟩)
    (fun p q hp1 hp2 hq1 hq2 h => by simp only [ne_eq, Prod.mk.injEq, not_and]; omega)
  obtain ⟨s2, g2⟩ := loop2_two Q0 n (fun p => (p.1, n - 1 - p.2)) (fun p => (p.1, 0)) (fun x y => y.conj * x)
    _ s1 (fun p h1 h2 => ⟨h1, by simp only; omega⟩)
    (fun p q hp1 hp2 hq1 hq2 h => by
      simp only [ne_eq, Prod.mk.injEq, not_and]
      constructor <;> omega)
  simp only at g1 g2 s1 s2
  refine ⟨trivial, s2, fun r c hr hc => ?_⟩
  have v1 : ∀ r c, r < n → c < n → get2 Q0 (loop2 n (fun new i j => set2 new (n - 1 - j) i
      (get2 Q0 m.matrix (n - 1 - j) i * (get2 Q0 m.matrix 0 i).conj)) (List.replicate n (List.replicate n Q0))) r c =
        get2 Q0 m.matrix r c * (get2 Q0 m.matrix 0 c).conj := by
    intro r c hr hc
    have := g1 c (n - 1 - r) hc (by omega)
    rw [show n - 1 - (n - 1 - r) = r by omega] at this
    exact this
  have := g2 r (n - 1 - c) hr (by omega)
  rw [show n - 1 - (n - 1 - c) = c by omega] at this
  rw [this, v1 r c hr hc, v1 r 0 hr (by omega)]
  rfl

theorem deph_in24 {n : ℕ} {m : List (List Quat)} (h : In24 n m) {r c : ℕ} (hr : r < n) (hc : c < n) : deph m r c ∈ Q24 := by
  have h0 : 0 < n := by omega
  exact q24_mul _ (q24_conj _ (q24_mul _ (h r 0 hr h0) _ (q24_conj _ (h 0 0 h0 h0)))) _
    (q24_mul _ (h r c hr hc) _ (q24_conj _ (h 0 c h0 hc)))

theorem conj_Q1 : Q1.conj = Q1 := by decide +kernel
theorem Q1_mul : Q1 * Q1 = Q1 := by decide +kernel

theorem deph_row {n : ℕ} {m : List (List Quat)} (h : In24 n m) {c : ℕ} (hc : c < n) : deph m 0 c = Q1 := by
  have h0 : 0 < n := by omega
  unfold deph
  rw [(q24_unit _ (h 0 0 h0 h0)).1, (q24_unit _ (h 0 c h0 hc)).1, conj_Q1, Q1_mul]

theorem deph_col {n : ℕ} {m : List (List Quat)} (h : In24 n m) {r : ℕ} (hr : r < n) : deph m r 0 = Q1 := by
  have h0 : 0 < n := by omega
  unfold deph
  exact (q24_unit _ (q24_mul _ (h r 0 hr h0) _ (q24_conj _ (h 0 0 h0 h0)))).2

/-- Unit factors on rows (left) and columns (right) do not change `M M* = n I`. -/
theorem gram_units {n : ℕ} {m m' : List (List Quat)} (d e : ℕ → ℍ[ℚ]) (hd : ∀ i < n, d i * star (d i) = 1)
    (he : ∀ i < n, e i * star (e i) = 1)
    (hg : ∀ r c, r < n → c < n → toH (get2 Q0 m' r c) = d r * (toH (get2 Q0 m r c) * e c))
    (h : ∀ i j, i < n → j < n → ∑ k ∈ Finset.range n, toH (get2 Q0 m i k) * star (toH (get2 Q0 m j k)) =
        if i = j then (n : ℍ[ℚ]) else 0) :
    ∀ i j, i < n → j < n → ∑ k ∈ Finset.range n, toH (get2 Q0 m' i k) * star (toH (get2 Q0 m' j k)) =
        if i = j then (n : ℍ[ℚ]) else 0 := by
  intro i j hi hj
  have : ∀ k ∈ Finset.range n, toH (get2 Q0 m' i k) * star (toH (get2 Q0 m' j k)) =
      d i * (toH (get2 Q0 m i k) * star (toH (get2 Q0 m j k))) * star (d j) := by
    intro k hk
    have hk := Finset.mem_range.1 hk
    rw [hg i k hi hk, hg j k hj hk]
    simp only [star_mul]
    calc _ = d i * (toH (get2 Q0 m i k) * (e k * star (e k)) * star (toH (get2 Q0 m j k))) * star (d j) := by
          simp only [mul_assoc]
      _ = _ := by rw [he k hk, mul_one]
  rw [Finset.sum_congr rfl this, ← Finset.sum_mul, ← Finset.mul_sum, h i j hi hj]
  by_cases hij : i = j
  · subst hij
    rw [if_pos rfl, (Nat.cast_commute n (d i)).eq.symm, mul_assoc, hd i hi, mul_one]
  · rw [if_neg hij, mul_zero, zero_mul]

theorem deph_gram {n : ℕ} {m m' : List (List Quat)} (h24 : In24 n m)
    (hg : ∀ r c, r < n → c < n → get2 Q0 m' r c = deph m r c)
    (h : ∀ i j, i < n → j < n → ∑ k ∈ Finset.range n, toH (get2 Q0 m i k) * star (toH (get2 Q0 m j k)) =
        if i = j then (n : ℍ[ℚ]) else 0) :
    ∀ i j, i < n → j < n → ∑ k ∈ Finset.range n, toH (get2 Q0 m' i k) * star (toH (get2 Q0 m' j k)) =
        if i = j then (n : ℍ[ℚ]) else 0 := by
  refine gram_units (fun r => toH (get2 Q0 m r 0 * (get2 Q0 m 0 0).conj).conj) (fun c => toH (get2 Q0 m 0 c).conj)
    ?_ ?_ ?_ h
  · intro i hi
    have h0 : 0 < n := by omega
    exact (q24_star (q24_conj _ (q24_mul _ (h24 i 0 hi h0) _ (q24_conj _ (h24 0 0 h0 h0))))).1
  · intro i hi
    have h0 : 0 < n := by omega
    exact (q24_star (q24_conj _ (h24 0 i h0 hi))).1
  · intro r c hr hc
    rw [hg r c hr hc]
    unfold deph
    simp only [toH_mul]

/-! ## Commutation -/

theorem fold_none (L : List Quat) : L.foldl QHM.nonCommutingStep none = none := by
  induction L with
  | nil => rfl
  | cons x xs ih => exact ih

theorem nonCommuting_iff (L u : List Quat) (hu : ∀ a ∈ u, ∀ b ∈ u, a * b = b * a) :
    L.foldl QHM.nonCommutingStep (some u) = none ↔ ∃ a ∈ u ++ L, ∃ b ∈ u ++ L, a * b ≠ b * a := by
  induction L generalizing u with
  | nil =>
    simp only [List.foldl_nil, List.append_nil, reduceCtorEq, false_iff]
    rintro ⟨a, ha, b, hb, h⟩
    exact h (hu a ha b hb)
  | cons x xs ih =>
    simp only [List.foldl_cons]
    unfold QHM.nonCommutingStep
    simp only [Option.bind_some]
    by_cases hx : u.contains x = true
    · rw [if_pos hx]
      change xs.foldl QHM.nonCommutingStep (some u) = none ↔ _
      rw [ih u hu]
      have hx' : x ∈ u := by simpa using hx
      have : ∀ a, a ∈ u ++ x :: xs ↔ a ∈ u ++ xs := by
        intro a
        simp only [List.mem_append, List.mem_cons]
        constructor
        · rintro (h | rfl | h)
          · exact .inl h
          · exact .inl hx'
          · exact .inr h
        · rintro (h | h)
          · exact .inl h
          · exact .inr (.inr h)
      simp only [this]
    · rw [if_neg hx]
      by_cases hc : (u.any fun elm => x * elm ≠ elm * x) = true
      · rw [if_pos hc]
        change xs.foldl QHM.nonCommutingStep none = none ↔ _
        rw [fold_none]
        simp only [true_iff]
        obtain ⟨e, he, h⟩ := List.any_eq_true.1 hc
        exact ⟨x, by simp, e, by simp [he], by simpa using h⟩
      · rw [if_neg hc]
        change xs.foldl QHM.nonCommutingStep (some (u ++ [x])) = none ↔ _
        have hc' : ∀ e ∈ u, x * e = e * x := by
          intro e he
          by_contra h
          exact hc (List.any_eq_true.2 ⟨e, he, by simpa using h⟩)
        rw [ih (u ++ [x])]
        · simp [List.append_assoc]
        · intro a ha b hb
          simp only [List.mem_append, List.mem_singleton] at ha hb
          rcases ha with ha | rfl <;> rcases hb with hb | rfl
          · exact hu a ha b hb
          · exact (hc' a ha).symm
          · exact hc' b hb
          · rfl

theorem contains_iff (m : QHM) : m.containsNonCommutingElements = true ↔
    ∃ i j k l, 1 ≤ i ∧ i < m.size ∧ 1 ≤ j ∧ j < m.size ∧ 1 ≤ k ∧ k < m.size ∧ 1 ≤ l ∧ l < m.size ∧
      m.get i j * m.get k l ≠ m.get k l * m.get i j := by
  unfold QHM.containsNonCommutingElements
  simp only [Option.isNone_iff_eq_none]
  rw [nonCommuting_iff _ [] (by simp)]
  have hm : ∀ a, a ∈ ((List.range' 1 (m.size - 1)).flatMap fun i => (List.range' 1 (m.size - 1)).map fun j => m.get i j) ↔
      ∃ i j, 1 ≤ i ∧ i < m.size ∧ 1 ≤ j ∧ j < m.size ∧ m.get i j = a := by
    intro a
    simp only [List.mem_flatMap, List.mem_map, List.mem_range'_1]
    constructor
    · rintro ⟨i, hi, j, hj, rfl⟩
      exact ⟨i, j, by omega, by omega, by omega, by omega, rfl⟩
    · rintro ⟨i, j, h1, h2, h3, h4, rfl⟩
      exact ⟨i, by omega, j, by omega, rfl⟩
  simp only [List.nil_append, hm]
  constructor
  · rintro ⟨a, ⟨i, j, h1, h2, h3, h4, rfl⟩, b, ⟨k, l, h5, h6, h7, h8, rfl⟩, h⟩
    exact ⟨i, j, k, l, h1, h2, h3, h4, h5, h6, h7, h8, h⟩
  · rintro ⟨i, j, k, l, h1, h2, h3, h4, h5, h6, h7, h8, h⟩
    exact ⟨_, ⟨i, j, h1, h2, h3, h4, rfl⟩, _, ⟨k, l, h5, h6, h7, h8, rfl⟩, h⟩

/-! ## Printing -/

theorem mapM_isSome {α β : Type} {f : α → Option β} (l : List α) (h : ∀ x ∈ l, (f x).isSome) : (l.mapM f).isSome := by
  induction l with
  | nil => rfl
  | cons x xs ih =>
    rw [List.mapM_cons]
    obtain ⟨y, hy⟩ := Option.isSome_iff_exists.1 (h x (by simp))
    obtain ⟨ys, hys⟩ := Option.isSome_iff_exists.1 (ih fun z hz => h z (by simp [hz]))
    rw [hy, hys]
    rfl

theorem toString_isSome {m : QHM} (h : In24 m.size m.matrix) : m.toString.isSome := by
  unfold QHM.toString
  rw [Option.isSome_map]
  refine mapM_isSome _ fun row hrow => ?_
  rw [Option.isSome_map]
  refine mapM_isSome _ fun col hcol => ?_
  rw [Option.isSome_map]
  obtain ⟨c, _, hc, _⟩ := q24_char _ (h row col (List.mem_range.1 hrow) (List.mem_range.1 hcol))
  change (quaternionToString (get2 Q0 m.matrix row col)).isSome = true
  rw [hc]
  rfl

end Proofs.QHad
