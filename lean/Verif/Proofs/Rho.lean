import Verif.Spec.Operator
import Verif.Proofs.Perfect
import Verif.Proofs.Loops
import Mathlib.LinearAlgebra.Matrix.NonsingularInverse
import Mathlib.LinearAlgebra.Matrix.Kronecker

/-!
# Helper lemmas: quaternions as 2 x 2 complex matrices
-/

set_option linter.unusedSectionVars false
set_option linter.unusedVariables false
set_option linter.unusedSimpArgs false

namespace Proofs.Rho
open Model Spec Proofs Proofs.Loops
open scoped Matrix Quaternion

/-- The complex matrix of a quaternion. -/
noncomputable def rho (q : ℍ[ℚ]) : Matrix (Fin 2) (Fin 2) ℂ := fun i j =>
  match i, j with
  | 0, 0 => ⟨q.re, q.imK⟩
  | 0, 1 => ⟨-q.imJ, q.imI⟩
  | 1, 0 => ⟨q.imJ, q.imI⟩
  | 1, 1 => ⟨q.re, -q.imK⟩

theorem fin2 {P : Fin 2 → Prop} (h0 : P 0) (h1 : P 1) : ∀ i, P i := by
  intro i
  match i with
  | 0 => exact h0
  | 1 => exact h1

theorem mat2 {A B : Matrix (Fin 2) (Fin 2) ℂ} (h00 : A 0 0 = B 0 0) (h01 : A 0 1 = B 0 1) (h10 : A 1 0 = B 1 0)
    (h11 : A 1 1 = B 1 1) : A = B := by
  funext i j
  revert i j
  exact fin2 (fin2 h00 h01) (fin2 h10 h11)

theorem rho_mul (p q : ℍ[ℚ]) : rho (p * q) = rho p * rho q := by
  apply mat2 <;> rw [Matrix.mul_apply, Fin.sum_univ_two] <;> apply Complex.ext <;>
    simp [rho, Complex.mul_re, Complex.mul_im] <;> ring

theorem rho_add (p q : ℍ[ℚ]) : rho (p + q) = rho p + rho q := by
  apply mat2 <;> rw [Matrix.add_apply] <;> apply Complex.ext <;> simp [rho] <;> ring

theorem rho_one : rho 1 = 1 := by
  apply mat2 <;> rw [Matrix.one_apply] <;> apply Complex.ext <;> simp [rho]

theorem rho_zero : rho 0 = 0 := by
  apply mat2 <;> rw [Matrix.zero_apply] <;> apply Complex.ext <;> simp [rho]

theorem rho_star (p : ℍ[ℚ]) : rho (star p) = (rho p)ᴴ := by
  apply mat2 <;> rw [Matrix.conjTranspose_apply] <;> apply Complex.ext <;> simp [rho]

theorem rho_inj {p q : ℍ[ℚ]} (h : rho p = rho q) : p = q := by
  have h1 := congrFun (congrFun h 0) 0
  have h2 := congrFun (congrFun h 1) 0
  have e1 := congrArg Complex.re h1
  have e2 := congrArg Complex.im h1
  have e3 := congrArg Complex.re h2
  have e4 := congrArg Complex.im h2
  simp only [rho, Rat.cast_inj] at e1 e2 e3 e4
  exact Quaternion.ext_iff.2 ⟨e1, e4, e3, e2⟩

/-- As a ring homomorphism. -/
noncomputable def rhoHom : ℍ[ℚ] →+* Matrix (Fin 2) (Fin 2) ℂ where
  toFun := rho
  map_mul' := rho_mul
  map_add' := rho_add
  map_one' := rho_one
  map_zero' := rho_zero

instance : IsStablyFiniteRing ℍ[ℚ] := IsStablyFiniteRing.of_injective rhoHom fun _ _ h => rho_inj h

theorem rho_sum {ι : Type*} (s : Finset ι) (f : ι → ℍ[ℚ]) : rho (∑ i ∈ s, f i) = ∑ i ∈ s, rho (f i) :=
  map_sum rhoHom f s

theorem rho_natCast (n : ℕ) : rho (n : ℍ[ℚ]) = (n : Matrix (Fin 2) (Fin 2) ℂ) := map_natCast rhoHom n

/-! ## Operators of the code -/

theorem toC_zero : toC Cx.zero = 0 := by apply Complex.ext <;> simp [toC, Cx.zero]
theorem toC_add (a b : Cx) : toC (a + b) = toC a + toC b := by
  apply Complex.ext <;> simp [toC] <;> exact_mod_cast rfl
theorem toC_mul (a b : Cx) : toC (a * b) = toC a * toC b := by
  apply Complex.ext <;> simp [toC, Complex.mul_re, Complex.mul_im]
  · exact_mod_cast rfl
  · exact_mod_cast rfl
theorem toC_conj (a : Cx) : toC a.conj = star (toC a) := by
  apply Complex.ext <;> simp [toC, Cx.conj]

theorem cmat_apply (N : ℕ) (m : List (List Cx)) (i j : Fin N) : cmat N m i j = toC (get2 Cx.zero m i j) := rfl

theorem smul_get (o : Operator) (c : Cx) {i j : ℕ} (hi : i < o.size) (hj : j < o.size) :
    (o.smul c).get i j = o.get i j * c := get2_map o.size _ _ hi hj

theorem add_get (o o' : Operator) {i j : ℕ} (hi : i < o.size) (hj : j < o.size) :
    (o.add o').get i j = o.get i j + o'.get i j := get2_map o.size _ _ hi hj

theorem op_size (q : Quat) : (quaternionToOperator q).size = 2 := rfl

theorem op_sized (q : Quat) : OpSized (quaternionToOperator q) := shape_map 2 _

theorem op_get (q : Quat) (i j : Fin 2) : toC ((quaternionToOperator q).get i j) = rho (toH q) i j := by
  unfold quaternionToOperator
  rw [add_get _ _ i.2 j.2, add_get _ _ i.2 j.2, add_get _ _ i.2 j.2, smul_get _ _ i.2 j.2, smul_get _ _ i.2 j.2,
    smul_get _ _ i.2 j.2, smul_get _ _ i.2 j.2]
  simp only [toC_add, toC_mul]
  revert i j
  refine fin2 (fin2 ?_ ?_) (fin2 ?_ ?_) <;>
    apply Complex.ext <;>
    simp [rho, toC, Operator.get, OP1, OPX, OPY, OPZ, makeOperator, get2, Complex.mul_re, Complex.mul_im]

theorem op_cmat (q : Quat) : cmat 2 (quaternionToOperator q).values = rho (toH q) := by
  funext i j; exact op_get q i j

theorem conjT_sized (o : Operator) : OpSized o.conjugateTranspose := shape_map o.size _

theorem conjT_cmat (o : Operator) : cmat o.size o.conjugateTranspose.values = (cmat o.size o.values)ᴴ := by
  funext i j
  rw [Matrix.conjTranspose_apply, cmat_apply, cmat_apply, ← toC_conj]
  exact congrArg toC (get2_map o.size _ _ i.2 j.2)

theorem add_cmat (o o' : Operator) : cmat o.size (o.add o').values = cmat o.size o.values + cmat o.size o'.values := by
  funext i j
  rw [Matrix.add_apply, cmat_apply, cmat_apply, cmat_apply, ← toC_add]
  exact congrArg toC (get2_map o.size _ _ i.2 j.2)

/-! ## Tensor products -/

theorem mem_iprod {a b : ℕ} {p : ℕ × ℕ} : p ∈ iprod a b ↔ p.1 < a ∧ p.2 < b := by
  obtain ⟨i, j⟩ := p
  simp [iprod]

theorem nodup_iprod (a b : ℕ) : (iprod a b).Nodup := by
  unfold iprod
  rw [List.nodup_flatMap]
  refine ⟨fun i _ => List.Nodup.map (fun x y h => (Prod.mk.inj h).2) List.nodup_range, ?_⟩
  refine List.Pairwise.imp_of_mem (fun {x y} _ _ hxy => ?_) (List.nodup_range (n := a))
  intro p hp hq
  obtain ⟨_, _, rfl⟩ := List.mem_map.1 hp
  obtain ⟨_, _, h⟩ := List.mem_map.1 hq
  exact hxy (Prod.mk.inj h).1.symm

theorem split_lt {a k i p : ℕ} (hi : i < a) (hp : p < k) : i * k + p < a * k := by
  calc i * k + p < i * k + k := by omega
    _ = (i + 1) * k := by ring
    _ ≤ a * k := Nat.mul_le_mul_right k hi

theorem split_inj {k i p i' p' : ℕ} (hp : p < k) (hp' : p' < k) (h : i * k + p = i' * k + p') : i = i' ∧ p = p' := by
  have h1 := congrArg (· / k) h
  have h2 := congrArg (· % k) h
  simp only [mul_comm _ k] at h1 h2
  rw [Nat.mul_add_div (by omega), Nat.mul_add_div (by omega), Nat.div_eq_of_lt hp, Nat.div_eq_of_lt hp'] at h1
  rw [Nat.mul_add_mod, Nat.mul_add_mod, Nat.mod_eq_of_lt hp, Nat.mod_eq_of_lt hp'] at h2
  exact ⟨by omega, h2⟩

theorem tensor_spec (o o' : Operator) : (o.tensor o').size = o.size * o'.size ∧ OpSized (o.tensor o') ∧
    ∀ i j p q, i < o.size → j < o.size → p < o'.size → q < o'.size →
      (o.tensor o').get (i * o'.size + p) (j * o'.size + q) = o.get i j * o'.get p q := by
  have key := loop_spec (α := Cx) Cx.zero (o.size * o'.size)
    (fun t : (ℕ × ℕ) × (ℕ × ℕ) => (t.1.1 * o'.size + t.2.1, t.1.2 * o'.size + t.2.2))
    (fun _ t => o.get t.1.1 t.1.2 * o'.get t.2.1 t.2.2) (fun t => o.get t.1.1 t.1.2 * o'.get t.2.1 t.2.2)
    _ (shape_replicate (o.size * o'.size) Cx.zero)
    ((iprod o.size o.size).flatMap fun ij => (iprod o'.size o'.size).map fun pq => (ij, pq))
    ?_ ?_ ?_
  · obtain ⟨h1, h2, _⟩ := key
    refine ⟨rfl, h1, fun i j p q hi hj hp hq => ?_⟩
    refine h2 ((i, j), (p, q)) ?_
    rw [List.mem_flatMap]
    exact ⟨(i, j), mem_iprod.2 ⟨hi, hj⟩, List.mem_map.2 ⟨(p, q), mem_iprod.2 ⟨hp, hq⟩, rfl⟩⟩
  · intro t ht
    obtain ⟨ij, h1, h2⟩ := List.mem_flatMap.1 ht
    obtain ⟨pq, h3, rfl⟩ := List.mem_map.1 h2
    rw [mem_iprod] at h1 h3
    exact ⟨split_lt h1.1 h3.1, split_lt h1.2 h3.2⟩
  · have hnd : ((iprod o.size o.size).flatMap fun ij => (iprod o'.size o'.size).map fun pq => (ij, pq)).Nodup := by
      rw [List.nodup_flatMap]
      refine ⟨fun i _ => List.Nodup.map (fun x y h => (Prod.mk.inj h).2) (nodup_iprod _ _), ?_⟩
      refine List.Pairwise.imp_of_mem (fun {x y} _ _ hxy => ?_) (nodup_iprod o.size o.size)
      intro p hp hq
      obtain ⟨_, _, rfl⟩ := List.mem_map.1 hp
      obtain ⟨_, _, h⟩ := List.mem_map.1 hq
      exact hxy (Prod.mk.inj h).1.symm
    refine List.Pairwise.imp_of_mem (fun {x y} hx hy hxy h => ?_) hnd
    obtain ⟨ij, h1, h2⟩ := List.mem_flatMap.1 hx
    obtain ⟨pq, h3, rfl⟩ := List.mem_map.1 h2
    obtain ⟨ij', h1', h2'⟩ := List.mem_flatMap.1 hy
    obtain ⟨pq', h3', rfl⟩ := List.mem_map.1 h2'
    rw [mem_iprod] at h1 h3 h1' h3'
    obtain ⟨e1, e2⟩ := Prod.mk.inj h
    obtain ⟨a1, a2⟩ := split_inj h3.1 h3'.1 e1
    obtain ⟨a3, a4⟩ := split_inj h3.2 h3'.2 e2
    exact hxy (Prod.ext (Prod.ext a1 a3) (Prod.ext a2 a4))
  · intros; rfl

/-- The index `i * k + p`. -/
def mix {a k : ℕ} (x : Fin a × Fin k) : Fin (a * k) := ⟨x.1 * k + x.2, split_lt x.1.2 x.2.2⟩

/-- `mix` as an equivalence. -/
noncomputable def mixEquiv (a k : ℕ) : Fin a × Fin k ≃ Fin (a * k) :=
  Equiv.ofBijective mix ((Fintype.bijective_iff_injective_and_card _).2
    ⟨fun x y h => by
      obtain ⟨h1, h2⟩ := split_inj x.2.2 y.2.2 (congrArg Fin.val h)
      exact Prod.ext (Fin.ext h1) (Fin.ext h2), by simp⟩)

theorem mixEquiv_apply {a k : ℕ} (x : Fin a × Fin k) : mixEquiv a k x = mix x := rfl

/-- The tensor product of the code is the Kronecker product. -/
theorem tensor_cmat (o o' : Operator) : (cmat (o.size * o'.size) (o.tensor o').values).submatrix
    (mixEquiv o.size o'.size) (mixEquiv o.size o'.size) =
      Matrix.kroneckerMap (· * ·) (cmat o.size o.values) (cmat o'.size o'.values) := by
  funext x y
  obtain ⟨x1, x2⟩ := x
  obtain ⟨y1, y2⟩ := y
  change _ = cmat o.size o.values x1 y1 * cmat o'.size o'.values x2 y2
  rw [Matrix.submatrix_apply, cmat_apply, cmat_apply, cmat_apply, ← toC_mul]
  exact congrArg toC ((tensor_spec o o').2.2 _ _ _ _ x1.2 y1.2 x2.2 y2.2)

/-! ## Sums of operators -/

theorem foldl_add_spec {ι : Type} (L : List ι) (f : ι → Operator) (o : Operator) :
    (L.foldl (fun acc x => acc.add (f x)) o).size = o.size ∧
      (OpSized o → OpSized (L.foldl (fun acc x => acc.add (f x)) o)) ∧
      ∀ i j, i < o.size → j < o.size → toC ((L.foldl (fun acc x => acc.add (f x)) o).get i j) =
        toC (o.get i j) + (L.map fun x => toC ((f x).get i j)).sum := by
  induction L generalizing o with
  | nil => exact ⟨rfl, id, fun i j _ _ => by simp⟩
  | cons x xs ih =>
    obtain ⟨h1, h2, h3⟩ := ih (o.add (f x))
    refine ⟨h1, fun _ => h2 (shape_map o.size _), fun i j hi hj => ?_⟩
    rw [List.foldl_cons, h3 i j hi hj, add_get o (f x) hi hj, toC_add, List.map_cons, List.sum_cons, add_assoc]

theorem basis_get {n j k : ℕ} (hj : j < n) (hk : k < n) (i l : ℕ) (hi : i < n) (hl : l < n) :
    toC ((computationalBasis n j k).get i l) = if i = j ∧ l = k then 1 else 0 := by
  unfold computationalBasis Operator.get
  simp only
  rw [get2_set2 (shape_replicate n Cx.zero) hj hk]
  split
  · apply Complex.ext <;> simp [toC]
  · rw [get2_replicate n Cx.zero Cx.zero hi hl, toC_zero]

theorem sum_single (n : ℕ) (f : ℕ × ℕ → ℂ) {j k : ℕ} (hj : j < n) (hk : k < n)
    (h : ∀ x ∈ iprod n n, x ≠ (j, k) → f x = 0) : ((iprod n n).map f).sum = f (j, k) := by
  rw [← List.sum_toFinset f (nodup_iprod n n)]
  refine Finset.sum_eq_single (j, k) (fun x hx hne => h x (List.mem_toFinset.1 hx) hne) fun hn => ?_
  exact absurd (List.mem_toFinset.2 (mem_iprod.2 ⟨hj, hk⟩)) hn

theorem empty_get (n : ℕ) {i j : ℕ} (hi : i < n) (hj : j < n) : toC ((Operator.empty n).get i j) = 0 := by
  unfold Operator.get Operator.empty
  rw [get2_replicate n Cx.zero Cx.zero hi hj, toC_zero]

theorem hmuo_spec (m : QHM) : (HMUO.fromQhm m).operator.size = 2 * m.size ∧ OpSized (HMUO.fromQhm m).operator ∧
    ∀ (j k : Fin m.size) (p q : Fin 2),
      cmat (m.size * 2) (HMUO.fromQhm m).operator.values (mix (j, p)) (mix (k, q)) = rho (star (toH (m.get j k))) p q := by
  obtain ⟨h1, h2, h3⟩ := foldl_add_spec (iprod m.size m.size) (fun jk => (computationalBasis m.size jk.1 jk.2).tensor
    (quaternionToOperator (m.get jk.1 jk.2).conj)) (Operator.empty (2 * m.size))
  refine ⟨h1, h2 (shape_replicate _ _), fun j k p q => ?_⟩
  have b1 : (j : ℕ) * 2 + p < 2 * m.size := by have := j.2; have := p.2; omega
  have b2 : (k : ℕ) * 2 + q < 2 * m.size := by have := k.2; have := q.2; omega
  have ht : ∀ x ∈ iprod m.size m.size, toC (((computationalBasis m.size x.1 x.2).tensor
      (quaternionToOperator (m.get x.1 x.2).conj)).get (j * 2 + p) (k * 2 + q)) =
      (if (j : ℕ) = x.1 ∧ (k : ℕ) = x.2 then 1 else 0) * rho (toH (m.get x.1 x.2).conj) p q := by
    intro x hx
    rw [mem_iprod] at hx
    have := (tensor_spec (computationalBasis m.size x.1 x.2) (quaternionToOperator (m.get x.1 x.2).conj)).2.2 j k p q
      j.2 k.2 p.2 q.2
    change Operator.get _ (j * 2 + p) (k * 2 + q) = _ at this
    rw [this, toC_mul, basis_get hx.1 hx.2 _ _ j.2 k.2, op_get]
  refine (h3 _ _ b1 b2).trans ?_
  rw [empty_get _ b1 b2, zero_add, List.map_congr_left ht, sum_single m.size _ j.2 k.2]
  · simp only [and_self, if_true, one_mul, toH_conj]
  · intro x _ hne
    rw [if_neg (fun h => hne (Prod.ext h.1.symm h.2.symm)), zero_mul]

theorem qb_spec (m : QHM) (b : ℕ) : (MUM.qb m b).size = m.size * 2 ∧ OpSized (MUM.qb m b) ∧
    ∀ (j k : Fin m.size) (p q : Fin 2), cmat (2 * m.size) (MUM.qb m b).values (mix (p, j)) (mix (q, k)) =
      rho (toH (m.get b j) * star (toH (m.get b k))) p q := by
  obtain ⟨h1, h2, h3⟩ := foldl_add_spec (iprod m.size m.size) (fun jk =>
    (quaternionToOperator (m.get b jk.1 * (m.get b jk.2).conj)).tensor (computationalBasis m.size jk.1 jk.2))
    (Operator.empty (m.size * 2))
  refine ⟨h1, h2 (shape_replicate _ _), fun j k p q => ?_⟩
  have b1 : (p : ℕ) * m.size + j < m.size * 2 := by rw [mul_comm m.size]; exact split_lt p.2 j.2
  have b2 : (q : ℕ) * m.size + k < m.size * 2 := by rw [mul_comm m.size]; exact split_lt q.2 k.2
  have ht : ∀ x ∈ iprod m.size m.size, toC (((quaternionToOperator (m.get b x.1 * (m.get b x.2).conj)).tensor
      (computationalBasis m.size x.1 x.2)).get (p * m.size + j) (q * m.size + k)) =
      rho (toH (m.get b x.1 * (m.get b x.2).conj)) p q * (if (j : ℕ) = x.1 ∧ (k : ℕ) = x.2 then 1 else 0) := by
    intro x hx
    rw [mem_iprod] at hx
    have := (tensor_spec (quaternionToOperator (m.get b x.1 * (m.get b x.2).conj)) (computationalBasis m.size x.1 x.2)).2.2
      p q j k p.2 q.2 j.2 k.2
    change Operator.get _ (p * m.size + j) (q * m.size + k) = _ at this
    rw [this, toC_mul, basis_get hx.1 hx.2 _ _ j.2 k.2, op_get]
  refine (h3 _ _ b1 b2).trans ?_
  rw [empty_get _ b1 b2, zero_add, List.map_congr_left ht, sum_single m.size _ j.2 k.2]
  · simp only [and_self, if_true, mul_one, toH_conj, toH_mul]
  · intro x _ hne
    rw [if_neg (fun h => hne (Prod.ext h.1.symm h.2.symm)), mul_zero]

end Proofs.Rho
