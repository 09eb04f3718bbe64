import Verif.Proofs.Product
import Verif.Props.Matrices

/-!
# Properties C42 - C45 and C63: products of sequences, operators of quaternionic Hadamard matrices
-/

namespace Props
open Model Spec Proofs Proofs.Loops Proofs.Rho
open scoped Quaternion Matrix

/-! ## C42: products of perfect sequences -/

/-- C42. -/
theorem C42_product_perfect (p q : ℕ) [NeZero p] [NeZero q] [NeZero (p * q)] (hpq : p.Coprime q) (x y : QS)
    (hx : x.size = p) (hy : y.size = q) (lx : x.values.length = p) (ly : y.values.length = q)
    (ax : ∀ v ∈ x.values, v ∈ Q24) (ay : ∀ v ∈ y.values, v ∈ Q24)
    (px : Perfect (qcyc p x.values)) (py : Perfect (qcyc q y.values)) :
    ∃ z, sequenceProduct x y = some z ∧ z.size = p * q ∧ z.values.length = p * q ∧ (∀ v ∈ z.values, v ∈ Q24) ∧
      Perfect (qcyc (p * q) z.values) ∧ z.isPerfect = true := by
  have h := Product.sequenceProduct_eq x y
  refine ⟨_, h, by rw [hx, hy], by simp [hx, hy], ?_, ?_⟩
  · intro v hv
    obtain ⟨i, _, rfl⟩ := List.mem_map.1 hv
    refine QHad.q24_mul _ (ax _ ?_) _ (ay _ ?_)
    · unfold QS.val
      rw [List.getD_eq_getElem _ _ (by rw [hx, lx]; exact Nat.mod_lt _ npos)]
      exact List.getElem_mem _
    · unfold QS.val
      rw [List.getD_eq_getElem _ _ (by rw [hy, ly]; exact Nat.mod_lt _ npos)]
      exact List.getElem_mem _
  · have hz := Product.qcyc_product hpq hx hy h
    have := Product.perfect_product hpq px py (fun b => by
      unfold qcyc
      rw [List.getD_eq_getElem _ _ (by rw [ly]; exact ZMod.val_lt b)]
      exact (QHad.q24_star (ay _ (List.getElem_mem _))).1)
    rw [← hz] at this
    refine ⟨this, ?_⟩
    rw [C01_isPerfect_iff (p * q) _ (by simp [hx, hy]) (by simp [hx, hy])]
    exact this

/-- C42. The entries of the product, for any two sequences. -/
theorem C42_product_entries (x y : QS) : ∃ z, sequenceProduct x y = some z ∧ z.size = x.size * y.size ∧
    z.values.length = x.size * y.size ∧
    ∀ i < x.size * y.size, toH (z.val i) = toH (x.val (i % x.size)) * toH (y.val (i % y.size)) := by
  refine ⟨_, Product.sequenceProduct_eq x y, rfl, by simp, fun i hi => ?_⟩
  rw [← toH_mul]
  unfold QS.val
  rw [List.getD_eq_getElem _ _ (by simpa using hi), List.getElem_map, List.getElem_range]

/-- A perfect sequence of length 3. -/
def exQS3 : QS := { size := 3, values := [Q1, Q1, -QQ], symmetry := none }
/-- A perfect sequence of length 4. -/
def exQS4 : QS := { size := 4, values := [Q1, QQ * -QJ, -QI, -QQ], symmetry := none }

example : exQS3.isPerfect = true ∧ exQS4.isPerfect = true ∧ (∀ v ∈ exQS3.values ++ exQS4.values, v ∈ Q24) ∧
    Nat.Coprime 3 4 ∧ (sequenceProduct exQS3 exQS4).map QS.isPerfect = some true := by decide +kernel

/-- Without coprime lengths the product of perfect sequences need not be perfect. -/
theorem C42_not_coprime : exQS3.isPerfect = true ∧ (sequenceProduct exQS3 exQS3).map QS.isPerfect = some false := by
  decide +kernel

/-! ## C43: the operator representation -/

/-- C43. -/
theorem C43_representation (p q : Quat) :
    cmat 2 (quaternionToOperator (p + q)).values =
      cmat 2 (quaternionToOperator p).values + cmat 2 (quaternionToOperator q).values ∧
    cmat 2 (quaternionToOperator (p * q)).values =
      cmat 2 (quaternionToOperator p).values * cmat 2 (quaternionToOperator q).values ∧
    cmat 2 (quaternionToOperator p.conj).values = (cmat 2 (quaternionToOperator p).values)ᴴ ∧
    cmat 2 (quaternionToOperator Q1).values = 1 ∧
    (quaternionToOperator p = quaternionToOperator q → p = q) := by
  refine ⟨?_, ?_, ?_, ?_, fun h => ?_⟩
  · rw [op_cmat, op_cmat, op_cmat, toH_add, rho_add]
  · rw [op_cmat, op_cmat, op_cmat, toH_mul, rho_mul]
  · rw [op_cmat, op_cmat, toH_conj, rho_star]
  · rw [op_cmat, QHad.toH_Q1, rho_one]
  · have h := congrArg (fun o => cmat 2 (Operator.values o)) h
    simp only [op_cmat] at h
    exact toH_inj.1 (rho_inj h)

/-- C43. The three basis quaternions go to `i` times the Pauli matrices (up to the sign of the second). -/
theorem C43_entries (q : Quat) : (quaternionToOperator q).size = 2 ∧ (quaternionToOperator q).values =
    [[⟨q.w, q.z⟩, ⟨-q.y, q.x⟩], [⟨q.y, q.x⟩, ⟨q.w, -q.z⟩]] := by
  refine ⟨rfl, ?_⟩
  refine shape_ext (n := 2) (op_sized q) (by constructor <;> simp) Cx.zero fun i j hi hj => ?_
  have inj : ∀ {a b : Cx}, toC a = toC b → a = b := by
    intro a b h
    have h1 := congrArg Complex.re h
    have h2 := congrArg Complex.im h
    simp only [toC, Rat.cast_inj] at h1 h2
    cases a; cases b; simp_all
  apply inj
  rw [show get2 Cx.zero (quaternionToOperator q).values i j = (quaternionToOperator q).get i j from rfl,
    op_get q ⟨i, hi⟩ ⟨j, hj⟩]
  interval_cases i <;> interval_cases j <;> apply Complex.ext <;> simp [rho, toC, get2]

/-- C43. Conjugate transposition of any operator. -/
theorem C43_conjugateTranspose (o : Operator) : o.conjugateTranspose.size = o.size ∧ OpSized o.conjugateTranspose ∧
    cmat o.size o.conjugateTranspose.values = (cmat o.size o.values)ᴴ :=
  ⟨rfl, conjT_sized o, conjT_cmat o⟩

example : quaternionToOperator (QI * QJ) = quaternionToOperator QK ∧
    quaternionToOperator (QJ * QI) ≠ quaternionToOperator QK := by decide +kernel

/-! ## C44: measurement operators and Hadamard operators -/

/-- C44, what holds for every matrix with unit entries, and exactly when the rest holds (`_partial`: the full claim, for
every quaternionic Hadamard matrix, is false, see `C44_fails`). The operators are self-adjoint and projections up to the
factor `n`; the Hadamard operator satisfies `H H* = n I`, the operators are mutually orthogonal, and they add up to `n I`,
each exactly when the *transposed* matrix is quaternionic Hadamard. -/
theorem C44_operators_partial (m : QHM) (hu : ∀ i j, qmat m.size m.matrix i j * star (qmat m.size m.matrix i j) = 1) :
    (MUM.fromQhm m).sequence.length = m.size ∧
    (∀ b < m.size, (mumMat (MUM.fromQhm m) (2 * m.size) b)ᴴ = mumMat (MUM.fromQhm m) (2 * m.size) b ∧
      mumMat (MUM.fromQhm m) (2 * m.size) b * mumMat (MUM.fromQhm m) (2 * m.size) b =
        (m.size : ℂ) • mumMat (MUM.fromQhm m) (2 * m.size) b) ∧
    (cmat (m.size * 2) (HMUO.fromQhm m).operator.values * (cmat (m.size * 2) (HMUO.fromQhm m).operator.values)ᴴ =
      (m.size : ℂ) • 1 ↔ IsQHadamard (qmat m.size m.matrix)ᵀ) ∧
    ((∀ b b', b < m.size → b' < m.size → b ≠ b' →
      mumMat (MUM.fromQhm m) (2 * m.size) b * mumMat (MUM.fromQhm m) (2 * m.size) b' = 0) ↔
        IsQHadamard (qmat m.size m.matrix)ᵀ) ∧
    (∑ b : Fin m.size, mumMat (MUM.fromQhm m) (2 * m.size) b = (m.size : ℂ) • 1 ↔ IsQHadamard (qmat m.size m.matrix)ᵀ) ∧
    (Measurement (fun b : Fin m.size => mumMat (MUM.fromQhm m) (2 * m.size) b) m.size m.size ↔
      IsQHadamard (qmat m.size m.matrix)ᵀ) := by
  have hq : ∀ b < m.size, mumMat (MUM.fromQhm m) (2 * m.size) b = Mub.qbm m b := by
    intro b hb
    unfold mumMat MUM.fromQhm Mub.qbm
    rw [List.getD_eq_getElem _ _ (by simpa using hb), List.getElem_map, List.getElem_range]
  have hT : IsQHadamard (qmat m.size m.matrix)ᵀ ↔
      (qmat m.size m.matrix)ᵀᴴ * (qmat m.size m.matrix)ᵀ = (m.size : ℚ) • 1 := by
    rw [Mub.gramT_iff]
    exact ⟨fun h => h.2, fun h => ⟨fun i j => hu j i, h⟩⟩
  have hsum : ∑ b : Fin m.size, mumMat (MUM.fromQhm m) (2 * m.size) b = (m.size : ℂ) • 1 ↔
      IsQHadamard (qmat m.size m.matrix)ᵀ := by
    rw [hT, Mub.gramT_iff, ← Mub.total_iff, Finset.sum_congr rfl fun (b : Fin m.size) _ => hq b b.2]
  have horth : (∀ b b', b < m.size → b' < m.size → b ≠ b' →
      mumMat (MUM.fromQhm m) (2 * m.size) b * mumMat (MUM.fromQhm m) (2 * m.size) b' = 0) ↔
        IsQHadamard (qmat m.size m.matrix)ᵀ := by
    rw [hT, ← Mub.orth_iff m hu]
    constructor
    · intro h b b' hb
      rw [← hq b b.2, ← hq b' b'.2]
      exact h b b' b.2 b'.2 (fun h => hb (Fin.ext h))
    · intro h b b' hb hb' hne
      rw [hq b hb, hq b' hb']
      exact h ⟨b, hb⟩ ⟨b', hb'⟩ (fun h => hne (congrArg Fin.val h))
  have hsq : ∀ b < m.size, (mumMat (MUM.fromQhm m) (2 * m.size) b)ᴴ = mumMat (MUM.fromQhm m) (2 * m.size) b ∧
      mumMat (MUM.fromQhm m) (2 * m.size) b * mumMat (MUM.fromQhm m) (2 * m.size) b =
        (m.size : ℂ) • mumMat (MUM.fromQhm m) (2 * m.size) b := by
    intro b hb
    rw [hq b hb]
    exact ⟨Mub.qbm_herm m ⟨b, hb⟩, Mub.qbm_sq m hu ⟨b, hb⟩⟩
  refine ⟨by simp [MUM.fromQhm], hsq, by rw [hT]; exact Mub.hmuo_iff m, horth, hsum, fun h => hsum.1 h.2.2, fun h => ?_⟩
  refine ⟨fun b => (hsq b b.2).1, fun b b' => ?_, hsum.2 h⟩
  by_cases hb : b = b'
  · subst hb; rw [if_pos rfl]; exact (hsq b b.2).2
  · rw [if_neg hb]; exact horth.2 h b b' b.2 b'.2 (fun h => hb (Fin.ext h))

/-- C44 for the circulant matrix of a perfect sequence: all claims hold. -/
theorem C44_circulant_partial (n : ℕ) [NeZero n] (q : QS) (hs : q.size = n) (hl : q.values.length = n)
    (hq : ∀ x ∈ q.values, x ∈ Q24) (hp : Perfect (qcyc n q.values)) :
    cmat (n * 2) (HMUO.fromQhm (QHM.fromPqs q)).operator.values *
      (cmat (n * 2) (HMUO.fromQhm (QHM.fromPqs q)).operator.values)ᴴ = (n : ℂ) • 1 ∧
    Measurement (fun b : Fin n => mumMat (MUM.fromQhm (QHM.fromPqs q)) (2 * n) b) n n := by
  obtain ⟨h1, h2, h3, -, -⟩ := C39_fromPqs n q hs hl hq
  have hH := h3.2 hp
  have hT := Mub.circ_hadamard hs hH
  subst hs
  obtain ⟨-, -, g1, -, -, g2⟩ := C44_operators_partial (QHM.fromPqs q) (fun i j => hH.1 i j)
  exact ⟨g1.2 hT, g2.2 hT⟩

/-- C44 is false in general: the dephased matrix of the perfect sequence `+YIQ` (named in a comment of `test_product.rs`) is
a quaternionic Hadamard matrix and passes verification, but its Hadamard operator does not satisfy `H H* = n I`, its
measurement operators are not mutually orthogonal, and they do not add up to `n I`. -/
theorem C44_fails : exQS4.isPerfect = true ∧ (QHM.fromPqs exQS4).dephased.verify = true ∧
    IsQHadamard (qmat 4 (QHM.fromPqs exQS4).dephased.matrix) ∧
    cmat (4 * 2) (HMUO.fromQhm (QHM.fromPqs exQS4).dephased).operator.values *
      (cmat (4 * 2) (HMUO.fromQhm (QHM.fromPqs exQS4).dephased).operator.values)ᴴ ≠ ((4 : ℕ) : ℂ) • 1 ∧
    ¬ (∀ b b', b < 4 → b' < 4 → b ≠ b' → mumMat (MUM.fromQhm (QHM.fromPqs exQS4).dephased) (2 * 4) b *
      mumMat (MUM.fromQhm (QHM.fromPqs exQS4).dephased) (2 * 4) b' = 0) ∧
    ∑ b : Fin 4, mumMat (MUM.fromQhm (QHM.fromPqs exQS4).dephased) (2 * 4) b ≠ ((4 : ℕ) : ℂ) • 1 := by
  have h24 : ∀ i < 4, ∀ j < 4, (QHM.fromPqs exQS4).dephased.get i j ∈ Q24 := by decide +kernel
  have hv : (QHM.fromPqs exQS4).dephased.verify = true := by decide +kernel
  have hH := (C39_verify_iff (QHM.fromPqs exQS4).dephased fun i j hi hj => h24 i hi j hj).1 hv
  obtain ⟨-, -, g1, g2, g3, -⟩ := C44_operators_partial (QHM.fromPqs exQS4).dephased hH.1
  have hnot : ¬ IsQHadamard (qmat (QHM.fromPqs exQS4).dephased.size (QHM.fromPqs exQS4).dephased.matrix)ᵀ := by
    rintro ⟨_, h⟩
    have h : (qmat 4 (QHM.fromPqs exQS4).dephased.matrix)ᵀ * (qmat 4 (QHM.fromPqs exQS4).dephased.matrix)ᵀᴴ =
      ((4 : ℕ) : ℚ) • 1 := h
    have h := congrFun (congrFun h 1) 2
    rw [Mub.colT_apply, Mub.smul_one_apply, if_neg (by decide), Fin.sum_univ_four] at h
    simp only [qmat, ← toH_conj, ← toH_mul, ← toH_add] at h
    rw [← toH_Q0, toH_inj] at h
    revert h
    decide +kernel
  exact ⟨by decide +kernel, hv, hH, fun h => hnot (g1.1 h), fun h => hnot (g2.1 h), fun h => hnot (g3.1 h)⟩

example : exQS4.size = 4 ∧ exQS4.values.length = 4 ∧ (∀ x ∈ exQS4.values, x ∈ Q24) ∧ exQS4.isPerfect = true := by
  decide +kernel

/-! ## C45: recorded sizes -/

/-- C45 is false: the tensor product of Hadamard operators records the sum of the sizes. -/
theorem C45_tensor_size_wrong :
    ((HMUO.fromQhm (QHM.new 1)).tensor (HMUO.fromQhm (QHM.new 2))).matrixSize = 6 ∧
      ((HMUO.fromQhm (QHM.new 1)).tensor (HMUO.fromQhm (QHM.new 2))).operator.size = 8 := by decide +kernel

/-- C45, what holds (`_partial`: the full claim fails for `HMUO::tensor`): sizes are recorded correctly by every other
constructor, and by the tensor product of Hadamard operators exactly when both sizes are 2 or both are 0. -/
theorem C45_sizes_partial :
    (∀ m : QHM, MumSized (MUM.fromQhm m) ∧ (MUM.fromQhm m).matrixSize = 2 * m.size) ∧
    (∀ L N : ℕ, MumSized (MUM.empty L N)) ∧
    (∀ A B : MUM, MumSized A → MumSized B → MumSized (mumProduct A B)) ∧
    (∀ m : QHM, (HMUO.fromQhm m).operator.size = (HMUO.fromQhm m).matrixSize ∧ OpSized (HMUO.fromQhm m).operator) ∧
    (∀ N : ℕ, (HMUO.empty N).operator.size = (HMUO.empty N).matrixSize ∧ OpSized (HMUO.empty N).operator) ∧
    (∀ a b : HMUO, a.operator.size = a.matrixSize → b.operator.size = b.matrixSize →
      OpSized (a.tensor b).operator ∧ (a.tensor b).operator.size = a.matrixSize * b.matrixSize ∧
      ((a.tensor b).operator.size = (a.tensor b).matrixSize ↔
        a.matrixSize = 2 ∧ b.matrixSize = 2 ∨ a.matrixSize = 0 ∧ b.matrixSize = 0)) := by
  refine ⟨fun m => ⟨fun o ho => ?_, mul_comm _ _⟩, fun L N o ho => ?_, fun A B hA hB o ho => ?_, fun m => ?_, fun N => ?_,
    fun a b ha hb => ?_⟩
  · obtain ⟨b, _, rfl⟩ := List.mem_map.1 ho
    exact ⟨(qb_spec m b).1, (qb_spec m b).2.1⟩
  · rw [List.eq_of_mem_replicate ho]
    exact ⟨rfl, shape_replicate N _⟩
  · rw [Product.mumProduct_eq] at ho
    obtain ⟨i, hi, rfl⟩ := List.mem_map.1 ho
    have hi := List.mem_range.1 hi
    have h0 : 0 < A.sequence.length ∧ 0 < B.sequence.length := by
      constructor <;> refine Nat.pos_of_ne_zero fun h => ?_ <;> rw [h] at hi <;> simp at hi
    have hA' := hA (A.sequence.getD (i % A.sequence.length) (Operator.empty 0)) (by
      rw [List.getD_eq_getElem _ _ (Nat.mod_lt _ h0.1)]; exact List.getElem_mem _)
    have hB' := hB (B.sequence.getD (i % B.sequence.length) (Operator.empty 0)) (by
      rw [List.getD_eq_getElem _ _ (Nat.mod_lt _ h0.2)]; exact List.getElem_mem _)
    have ht := tensor_spec (A.sequence.getD (i % A.sequence.length) (Operator.empty 0))
      (B.sequence.getD (i % B.sequence.length) (Operator.empty 0))
    refine ⟨?_, ht.2.1⟩
    rw [ht.1, hA'.1, hB'.1]
    rfl
  · exact ⟨(hmuo_spec m).1, (hmuo_spec m).2.1⟩
  · exact ⟨rfl, shape_replicate N _⟩
  · have ht := tensor_spec a.operator b.operator
    refine ⟨ht.2.1, by rw [← ha, ← hb]; exact ht.1, ?_⟩
    change a.operator.size * b.operator.size = a.matrixSize + b.matrixSize ↔ _
    rw [ha, hb]
    constructor
    · intro h
      generalize a.matrixSize = x at h ⊢
      generalize b.matrixSize = y at h ⊢
      rcases Nat.lt_or_ge x 3 with hx | hx
      · interval_cases x <;> omega
      · rcases Nat.lt_or_ge y 2 with hy | hy
        · interval_cases y <;> omega
        · exfalso
          have := Nat.mul_le_mul hx hy
          nlinarith
    · rintro (⟨h1, h2⟩ | ⟨h1, h2⟩) <;> rw [h1, h2]

example : (MUM.fromQhm (QHM.fromPqs exQS3)).matrixSize = 6 ∧ (MUM.fromQhm (QHM.fromPqs exQS3)).sequence.length = 3 := by
  decide +kernel

/-! ## C63: products of measurement sets -/

/-- C63. The product of two complete orthogonal families with coprime lengths is a complete orthogonal family. -/
theorem C63_mum_product (p q a b : ℕ) (h : p.Coprime q) (hp : 0 < p) (hq : 0 < q) (A B : MUM)
    (lA : A.sequence.length = p) (lB : B.sequence.length = q) (sA : MumSized A) (sB : MumSized B)
    (mA : A.matrixSize = a) (mB : B.matrixSize = b) (s t s' t' : ℂ)
    (hA : Measurement (fun i : Fin p => mumMat A a i) s t) (hB : Measurement (fun i : Fin q => mumMat B b i) s' t') :
    (mumProduct A B).sequence.length = p * q ∧ (mumProduct A B).matrixSize = a * b ∧
      Measurement (fun i : Fin (p * q) => mumMat (mumProduct A B) (a * b) i) (s * s') (t * t') := by
  have hl : (mumProduct A B).sequence.length = p * q := by rw [Product.mumProduct_eq]; simp [lA, lB]
  refine ⟨hl, by rw [← mA, ← mB]; rfl, ?_⟩
  have e : (fun i : Fin (p * q) => mumMat (mumProduct A B) (a * b) i) = fun i : Fin (p * q) =>
      Product.kr (mumMat A a (Product.crt h hp hq i).1) (mumMat B b (Product.crt h hp hq i).2) := by
    funext i
    unfold mumMat
    rw [List.getD_eq_getElem _ _ (by rw [hl]; exact i.2)]
    simp only [Product.mumProduct_eq, List.getElem_map, List.getElem_range, lA, lB]
    refine Product.cmat_tensor _ _ ?_ ?_
    · rw [← mA]
      refine (sA _ ?_).1
      rw [List.getD_eq_getElem _ _ (by rw [lA]; exact Nat.mod_lt _ hp)]
      exact List.getElem_mem _
    · rw [← mB]
      refine (sB _ ?_).1
      rw [List.getD_eq_getElem _ _ (by rw [lB]; exact Nat.mod_lt _ hq)]
      exact List.getElem_mem _
  rw [e]
  exact Product.measurement_product (A := fun i : Fin p => mumMat A a i) (B := fun i : Fin q => mumMat B b i) h hp hq hA hB

/-- C63 for circulant matrices of two perfect sequences of coprime lengths. -/
theorem C63_circulant (p q : ℕ) [NeZero p] [NeZero q] (h : p.Coprime q) (x y : QS) (hx : x.size = p) (hy : y.size = q)
    (lx : x.values.length = p) (ly : y.values.length = q) (ax : ∀ v ∈ x.values, v ∈ Q24) (ay : ∀ v ∈ y.values, v ∈ Q24)
    (px : Perfect (qcyc p x.values)) (py : Perfect (qcyc q y.values)) :
    Measurement (fun i : Fin (p * q) => mumMat (mumProduct (MUM.fromQhm (QHM.fromPqs x)) (MUM.fromQhm (QHM.fromPqs y)))
      (2 * p * (2 * q)) i) (p * q) (p * q) := by
  have sx := (C45_sizes_partial.1 (QHM.fromPqs x))
  have sy := (C45_sizes_partial.1 (QHM.fromPqs y))
  have e1 : (QHM.fromPqs x).size = p := hx
  have e2 : (QHM.fromPqs y).size = q := hy
  have hA := (C44_circulant_partial p x hx lx ax px).2
  have hB := (C44_circulant_partial q y hy ly ay py).2
  have l1 : (MUM.fromQhm (QHM.fromPqs x)).sequence.length = p := by simp [MUM.fromQhm, e1]
  have l2 : (MUM.fromQhm (QHM.fromPqs y)).sequence.length = q := by simp [MUM.fromQhm, e2]
  have m1 : (MUM.fromQhm (QHM.fromPqs x)).matrixSize = 2 * p := by rw [sx.2, e1]
  have m2 : (MUM.fromQhm (QHM.fromPqs y)).matrixSize = 2 * q := by rw [sy.2, e2]
  have := C63_mum_product p q (2 * p) (2 * q) h npos npos (MUM.fromQhm (QHM.fromPqs x)) (MUM.fromQhm (QHM.fromPqs y)) l1 l2
    sx.1 sy.1 m1 m2 p p q q hA hB
  exact this.2.2

example : exQS3.size = 3 ∧ exQS4.size = 4 ∧ exQS3.values.length = 3 ∧ exQS3.isPerfect = true ∧ exQS4.isPerfect = true ∧
    Nat.Coprime 3 4 ∧ (∀ v ∈ exQS3.values ++ exQS4.values, v ∈ Q24) := by decide +kernel

end Props
