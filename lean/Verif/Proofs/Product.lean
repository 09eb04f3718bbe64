import Verif.Proofs.Mub
import Mathlib.Data.ZMod.Basic
import Mathlib.RingTheory.ZMod

/-!
# Helper lemmas: products of sequences and of measurement sets
-/

set_option linter.unusedSectionVars false
set_option linter.unusedVariables false
set_option linter.unusedSimpArgs false

namespace Proofs.Product
open Model Spec Proofs Proofs.Loops Proofs.Rho
open scoped Matrix Quaternion

theorem iprod_succ (p q : ℕ) : iprod (p + 1) q = iprod p q ++ (List.range q).map fun j => (p, j) := by
  unfold iprod
  rw [List.range_succ, List.flatMap_append]
  simp

theorem iprod_map (p q : ℕ) : (iprod p q).map (fun ij => ij.1 * q + ij.2) = List.range (p * q) := by
  induction p with
  | zero => simp [iprod]
  | succ p ih =>
    rw [iprod_succ, List.map_append, ih, Nat.succ_mul, List.range_add, List.map_map]
    rfl

theorem foldl_set_range {α : Type} (g : ℕ → α) (l : List α) (k : ℕ) (hk : k ≤ l.length) :
    (List.range k).foldl (fun v i => v.set i (g i)) l = (List.range k).map g ++ l.drop k := by
  induction k with
  | zero => simp
  | succ k ih =>
    rw [List.range_succ, List.foldl_append, ih (by omega), List.map_append]
    simp only [List.foldl_cons, List.foldl_nil, List.map_cons, List.map_nil]
    rw [List.set_append_right _ _ (by simp)]
    simp only [List.length_map, List.length_range, Nat.sub_self, List.append_assoc]
    congr 1
    rw [List.drop_eq_getElem_cons (by omega)]
    rfl

theorem foldlM_set (L : List ℕ) (g : ℕ → Quat) (r : QS) (hr : r.symmetry = none) (hL : ∀ i ∈ L, i < r.values.length) :
    L.foldlM (fun result index => result.setValue (g index) index) r =
      some { r with values := L.foldl (fun v i => v.set i (g i)) r.values } := by
  induction L generalizing r with
  | nil => rfl
  | cons x xs ih =>
    have hx : x < r.values.length := hL x (by simp)
    have : r.setValue (g x) x = some { r with values := r.values.set x (g x) } := by
      unfold QS.setValue
      rw [if_pos hx, hr]
    rw [List.foldlM_cons, this]
    change xs.foldlM _ { r with values := r.values.set x (g x) } = _
    exact ih { r with values := r.values.set x (g x) } hr (fun i hi => by simpa using hL i (by simp [hi]))

theorem sequenceProduct_eq (x y : QS) : sequenceProduct x y = some
    { size := x.size * y.size
      values := (List.range (x.size * y.size)).map fun i => x.val (i % x.size) * y.val (i % y.size)
      symmetry := none } := by
  unfold sequenceProduct
  simp only
  have h := foldlM_set ((iprod x.size y.size).map fun ij => ij.1 * y.size + ij.2)
    (fun i => x.val (i % x.size) * y.val (i % y.size)) (QS.new (x.size * y.size) none) rfl
    (by rw [iprod_map]; intro i hi; simpa [QS.new] using List.mem_range.1 hi)
  rw [List.foldlM_map] at h
  rw [h, iprod_map, foldl_set_range _ _ _ (by simp [QS.new])]
  simp [QS.new]

theorem mumProduct_eq (A B : MUM) : (mumProduct A B).sequence =
    (List.range (A.sequence.length * B.sequence.length)).map fun i =>
      (A.sequence.getD (i % A.sequence.length) (Operator.empty 0)).tensor
        (B.sequence.getD (i % B.sequence.length) (Operator.empty 0)) := by
  unfold mumProduct
  simp only
  rw [← iprod_map, List.map_map]
  rfl

/-! ## Perfect products -/

section
variable {p q : ℕ} [NeZero p] [NeZero q] (hpq : p.Coprime q)

include hpq in
theorem crt_val [NeZero (p * q)] (i : ZMod (p * q)) :
    ZMod.chineseRemainder hpq i = ((i.val : ZMod p), (i.val : ZMod q)) := by
  conv_lhs => rw [← ZMod.natCast_zmod_val i]
  rw [map_natCast]
  rfl

include hpq in
theorem qpaf_product [NeZero (p * q)] (x : ZMod p → ℍ[ℚ]) (y : ZMod q → ℍ[ℚ]) (t : ZMod (p * q)) :
    qpaf (fun i : ZMod (p * q) => x (ZMod.chineseRemainder hpq i).1 * y (ZMod.chineseRemainder hpq i).2) t =
      ∑ a, x a * qpaf y (ZMod.chineseRemainder hpq t).2 * star (x (a + (ZMod.chineseRemainder hpq t).1)) := by
  unfold qpaf
  have e := Fintype.sum_equiv (ZMod.chineseRemainder hpq).toEquiv
    (fun i => x (ZMod.chineseRemainder hpq i).1 * y (ZMod.chineseRemainder hpq i).2 *
      star (x (ZMod.chineseRemainder hpq (i + t)).1 * y (ZMod.chineseRemainder hpq (i + t)).2))
    (fun ab : ZMod p × ZMod q => x ab.1 * y ab.2 * star (x (ab.1 + (ZMod.chineseRemainder hpq t).1) *
      y (ab.2 + (ZMod.chineseRemainder hpq t).2)))
    (fun i => by rw [map_add]; rfl)
  rw [e, Fintype.sum_prod_type]
  refine Finset.sum_congr rfl fun a _ => ?_
  rw [Finset.mul_sum, Finset.sum_mul]
  refine Finset.sum_congr rfl fun b _ => ?_
  simp only [star_mul, mul_assoc]

include hpq in
theorem perfect_product [NeZero (p * q)] {x : ZMod p → ℍ[ℚ]} {y : ZMod q → ℍ[ℚ]} (hx : Perfect x) (hy : Perfect y)
    (uy : ∀ b, y b * star (y b) = 1) :
    Perfect (fun i : ZMod (p * q) => x (ZMod.chineseRemainder hpq i).1 * y (ZMod.chineseRemainder hpq i).2) := by
  intro t ht
  rw [qpaf_product hpq]
  by_cases h2 : (ZMod.chineseRemainder hpq t).2 = 0
  · have h1 : (ZMod.chineseRemainder hpq t).1 ≠ 0 := by
      intro h1
      apply ht
      have : ZMod.chineseRemainder hpq t = 0 := Prod.ext h1 h2
      rwa [EmbeddingLike.map_eq_zero_iff] at this
    have hq0 : qpaf y 0 = (q : ℍ[ℚ]) := by
      unfold qpaf
      rw [Finset.sum_congr rfl fun b _ => by rw [add_zero, uy b]]
      simp
    rw [h2, hq0]
    have := hx _ h1
    unfold qpaf at this
    rw [Finset.sum_congr rfl fun a _ => by rw [(Nat.cast_commute q (x a)).eq.symm, mul_assoc], ← Finset.mul_sum, this,
      mul_zero]
  · rw [hy _ h2]
    simp

end

theorem qcyc_product {p q : ℕ} [NeZero p] [NeZero q] [NeZero (p * q)] (hpq : p.Coprime q) {x y z : QS} (hx : x.size = p)
    (hy : y.size = q) (hz : sequenceProduct x y = some z) : qcyc (p * q) z.values = fun i : ZMod (p * q) =>
      qcyc p x.values (ZMod.chineseRemainder hpq i).1 * qcyc q y.values (ZMod.chineseRemainder hpq i).2 := by
  rw [sequenceProduct_eq] at hz
  have hz := (Option.some.inj hz).symm
  funext i
  rw [crt_val, qcyc_natCast, qcyc_natCast, ← toH_mul]
  unfold qcyc
  rw [hz]
  simp only [hx, hy]
  rw [List.getD_eq_getElem _ _ (by simpa using ZMod.val_lt i), List.getElem_map, List.getElem_range]
  rfl

/-! ## Products of measurement sets -/

/-- Remainders modulo two coprime numbers. -/
noncomputable def crt {p q : ℕ} (h : p.Coprime q) (hp : 0 < p) (hq : 0 < q) : Fin (p * q) ≃ Fin p × Fin q :=
  Equiv.ofBijective (fun i => (⟨i % p, Nat.mod_lt _ hp⟩, ⟨i % q, Nat.mod_lt _ hq⟩))
    ((Fintype.bijective_iff_injective_and_card _).2 ⟨fun x y hxy => by
      obtain ⟨h1, h2⟩ := Prod.mk.inj hxy
      have h1 : (x : ℕ) % p = y % p := congrArg Fin.val h1
      have h2 : (x : ℕ) % q = y % q := congrArg Fin.val h2
      have : (x : ℕ) ≡ y [MOD p * q] := (Nat.modEq_and_modEq_iff_modEq_mul h).1 ⟨h1, h2⟩
      exact Fin.ext (Nat.ModEq.eq_of_lt_of_lt this x.2 y.2), by simp⟩)

/-- The Kronecker product with indices flattened as in the code. -/
noncomputable def kr {a b : ℕ} (A : Matrix (Fin a) (Fin a) ℂ) (B : Matrix (Fin b) (Fin b) ℂ) :
    Matrix (Fin (a * b)) (Fin (a * b)) ℂ :=
  (Matrix.kroneckerMap (· * ·) A B).submatrix (mixEquiv a b).symm (mixEquiv a b).symm

theorem cmat_tensor (o o' : Operator) {a b : ℕ} (ha : o.size = a) (hb : o'.size = b) :
    cmat (a * b) (o.tensor o').values = kr (cmat a o.values) (cmat b o'.values) := by
  subst ha hb
  unfold kr
  rw [← tensor_cmat, Matrix.submatrix_submatrix]
  simp

section
variable {a b : ℕ}

theorem kr_mul (A A' : Matrix (Fin a) (Fin a) ℂ) (B B' : Matrix (Fin b) (Fin b) ℂ) :
    kr A B * kr A' B' = kr (A * A') (B * B') := by
  unfold kr
  rw [Matrix.submatrix_mul_equiv, ← Matrix.mul_kronecker_mul]

theorem kr_star (A : Matrix (Fin a) (Fin a) ℂ) (B : Matrix (Fin b) (Fin b) ℂ) : (kr A B)ᴴ = kr Aᴴ Bᴴ := by
  unfold kr
  rw [Matrix.conjTranspose_submatrix, Matrix.conjTranspose_kronecker]

theorem kr_smul (s t : ℂ) (A : Matrix (Fin a) (Fin a) ℂ) (B : Matrix (Fin b) (Fin b) ℂ) :
    kr (s • A) (t • B) = (s * t) • kr A B := by
  unfold kr
  funext x y
  simp only [Matrix.submatrix_apply, Matrix.smul_apply, smul_eq_mul, Matrix.kroneckerMap_apply]
  ring

theorem kr_zero_left (B : Matrix (Fin b) (Fin b) ℂ) : kr (0 : Matrix (Fin a) (Fin a) ℂ) B = 0 := by
  unfold kr
  rw [show Matrix.kroneckerMap (· * ·) (0 : Matrix (Fin a) (Fin a) ℂ) B = 0 from Matrix.zero_kronecker _]; rfl

theorem kr_zero_right (A : Matrix (Fin a) (Fin a) ℂ) : kr A (0 : Matrix (Fin b) (Fin b) ℂ) = 0 := by
  unfold kr
  rw [show Matrix.kroneckerMap (· * ·) A (0 : Matrix (Fin b) (Fin b) ℂ) = 0 from Matrix.kronecker_zero _]; rfl

theorem kr_one : kr (1 : Matrix (Fin a) (Fin a) ℂ) (1 : Matrix (Fin b) (Fin b) ℂ) = 1 := by
  unfold kr
  rw [show Matrix.kroneckerMap (· * ·) (1 : Matrix (Fin a) (Fin a) ℂ) (1 : Matrix (Fin b) (Fin b) ℂ) = 1 from
    Matrix.one_kronecker_one]
  exact Matrix.submatrix_one_equiv _

theorem kr_sum {ι κ : Type*} [Fintype ι] [Fintype κ] (A : ι → Matrix (Fin a) (Fin a) ℂ) (B : κ → Matrix (Fin b) (Fin b) ℂ) :
    ∑ x : ι × κ, kr (A x.1) (B x.2) = kr (∑ i, A i) (∑ j, B j) := by
  funext x y
  rw [Matrix.sum_apply, Fintype.sum_prod_type]
  unfold kr
  simp only [Matrix.submatrix_apply, Matrix.kroneckerMap_apply, Matrix.sum_apply, Finset.sum_mul_sum]

theorem measurement_product {p q : ℕ} (h : p.Coprime q) (hp : 0 < p) (hq : 0 < q) {A : Fin p → Matrix (Fin a) (Fin a) ℂ}
    {B : Fin q → Matrix (Fin b) (Fin b) ℂ} {s t s' t' : ℂ} (hA : Measurement A s t) (hB : Measurement B s' t') :
    Measurement (fun i : Fin (p * q) => kr (A (crt h hp hq i).1) (B (crt h hp hq i).2)) (s * s') (t * t') := by
  obtain ⟨a1, a2, a3⟩ := hA
  obtain ⟨b1, b2, b3⟩ := hB
  refine ⟨fun i => by rw [kr_star, a1, b1], fun i j => ?_, ?_⟩
  · rw [kr_mul, a2, b2]
    by_cases hij : i = j
    · subst hij
      rw [if_pos rfl, if_pos rfl, if_pos rfl, kr_smul]
    · rw [if_neg hij]
      by_cases h1 : (crt h hp hq i).1 = (crt h hp hq j).1
      · have h2 : (crt h hp hq i).2 ≠ (crt h hp hq j).2 := fun h2 => hij ((crt h hp hq).injective (Prod.ext h1 h2))
        rw [if_neg h2, kr_zero_right]
      · rw [if_neg h1, kr_zero_left]
  · rw [Fintype.sum_equiv (crt h hp hq) _ (fun x => kr (A x.1) (B x.2)) fun _ => rfl, kr_sum, a3, b3, kr_smul, kr_one]

end

end Proofs.Product
