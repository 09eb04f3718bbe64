import Mathlib.Tactic.Ring
import Mathlib.Tactic.Linarith
import Mathlib.Algebra.BigOperators.Fin
import Mathlib.Algebra.BigOperators.Ring.Finset
import Mathlib.LinearAlgebra.Matrix.NonsingularInverse
import Mathlib.LinearAlgebra.Matrix.SemiringInverse
import Mathlib.Data.Rat.Cast.CharZero
import Verif.Spec.Graph
import Verif.Proofs.Dephase

/-!
# The graph of a Hadamard matrix determines its equivalence class
-/

set_option linter.unusedVariables false
set_option linter.unusedSectionVars false
set_option linter.unusedSimpArgs false

namespace Proofs.Grph
open Model Spec
open scoped Matrix

variable {n : ℕ}

/-- Vertices: column?, negated?, index. -/
abbrev V (n : ℕ) := Bool × Bool × Fin n

/-- The node of a vertex. -/
def enc : V n → ℕ
  | (k, s, i) => (if k then 2 * n else 0) + (if s then n else 0) + i

theorem enc_lt (v : V n) : enc v < 4 * n := by
  obtain ⟨k, s, i⟩ := v
  have := i.2
  cases k <;> cases s <;> simp [enc] <;> omega

theorem enc_inj {u v : V n} (h : enc u = enc v) : u = v := by
  obtain ⟨k, s, i⟩ := u
  obtain ⟨l, t, j⟩ := v
  have := i.2
  have := j.2
  cases k <;> cases s <;> cases l <;> cases t <;> simp [enc, Fin.ext_iff] at * <;> omega

theorem enc_surj {u : ℕ} (h : u < 4 * n) : ∃ v : V n, enc v = u := by
  by_cases h1 : u < n
  · exact ⟨(false, false, ⟨u, h1⟩), by simp [enc]⟩
  · by_cases h2 : u < 2 * n
    · exact ⟨(false, true, ⟨u - n, by omega⟩), by simp [enc]; omega⟩
    · by_cases h3 : u < 3 * n
      · exact ⟨(true, false, ⟨u - 2 * n, by omega⟩), by simp [enc]; omega⟩
      · exact ⟨(true, true, ⟨u - 3 * n, by omega⟩), by simp [enc]; omega⟩

/-- Vertices as nodes. -/
noncomputable def encEquiv (n : ℕ) : V n ≃ Fin (4 * n) :=
  Equiv.ofBijective (fun v => ⟨enc v, enc_lt v⟩)
    ⟨fun u v h => enc_inj (by simpa using h), fun u => let ⟨v, hv⟩ := enc_surj u.2; ⟨v, Fin.ext hv⟩⟩

theorem encEquiv_val (v : V n) : (encEquiv n v : ℕ) = enc v := rfl

/-- Adjacency of vertices. -/
def adj (H : Matrix (Fin n) (Fin n) ℤ) : V n → V n → Prop
  | (false, s, i), (false, t, j) => s = t ∧ i = j
  | (false, s, i), (true, t, j) => H i j = 1 ↔ s = t
  | (true, s, j), (false, t, i) => H i j = 1 ↔ s = t
  | (true, _, _), (true, _, _) => False

theorem mem_edges (m : HM) (u v : ℕ) : (u, v) ∈ (graphFromHm m).edges ↔
    (u = v ∧ u < 2 * m.size) ∨ ∃ i < m.size, ∃ j < m.size,
      (m.get i j = 1 ∧ ((u = i ∧ v = 2 * m.size + j) ∨ (u = m.size + i ∧ v = 3 * m.size + j))) ∨
      (m.get i j ≠ 1 ∧ ((u = i ∧ v = 3 * m.size + j) ∨ (u = m.size + i ∧ v = 2 * m.size + j))) := by
  unfold graphFromHm
  dsimp only
  rw [List.mem_append]
  apply or_congr
  · simp only [List.mem_flatMap, List.mem_range]
    constructor
    · rintro ⟨i, hi, h⟩
      split at h
      · simp only [List.mem_singleton, Prod.mk.injEq] at h
        omega
      · simp at h
    · rintro ⟨rfl, h⟩
      exact ⟨u, by omega, by simp [h]⟩
  · simp only [List.mem_flatMap, List.mem_range]
    apply exists_congr; intro i
    apply and_congr_right; intro hi
    apply exists_congr; intro j
    apply and_congr_right; intro hj
    split
    · rename_i h; simp [h]
    · rename_i h; simp [h]

theorem adj_iff (m : HM) (u v : V m.size) :
    Graph.Adj (graphFromHm m) (enc u) (enc v) ↔ adj (zmat m.size m.matrix) u v := by
  have key : ∀ (s t : Bool) (i j : Fin m.size),
      ((enc (false, s, i), enc (true, t, j)) ∈ (graphFromHm m).edges ↔ (zmat m.size m.matrix i j = 1 ↔ s = t)) := by
    intro s t i j
    have hz : zmat m.size m.matrix i j = m.get i j := rfl
    rw [mem_edges, hz]
    have hi := i.2
    have hj := j.2
    constructor
    · rintro (h | ⟨i', hi', j', hj', h⟩)
      · cases s <;> cases t <;> simp [enc] at h <;> omega
      · have hij : i' = i ∧ j' = j := by
          cases s <;> cases t <;> simp [enc] at h <;> omega
        obtain ⟨rfl, rfl⟩ := hij
        cases s <;> cases t <;> simp [enc] at h ⊢ <;> omega
    · intro h
      right
      refine ⟨i, hi, j, hj, ?_⟩
      cases s <;> cases t <;> simp [enc] at h ⊢ <;> omega
  have key' : ∀ (s t : Bool) (i j : Fin m.size),
      (enc (true, t, j), enc (false, s, i)) ∉ (graphFromHm m).edges := by
    intro s t i j h
    have hi := i.2
    have hj := j.2
    rw [mem_edges] at h
    rcases h with h | ⟨i', hi', j', hj', h⟩ <;> cases s <;> cases t <;> simp [enc] at h <;> omega
  have rr : ∀ (s t : Bool) (i j : Fin m.size),
      (enc (false, s, i), enc (false, t, j)) ∈ (graphFromHm m).edges ↔ s = t ∧ i = j := by
    intro s t i j
    have hi := i.2
    have hj := j.2
    rw [mem_edges]
    constructor
    · rintro (h | ⟨i', hi', j', hj', h⟩)
      · have := enc_inj h.1
        simpa using this
      · cases s <;> cases t <;> simp [enc] at h <;> omega
    · rintro ⟨rfl, rfl⟩
      left
      refine ⟨rfl, ?_⟩
      cases s <;> simp [enc] <;> omega
  have cc : ∀ (s t : Bool) (i j : Fin m.size),
      (enc (true, s, i), enc (true, t, j)) ∉ (graphFromHm m).edges := by
    intro s t i j h
    have hi := i.2
    have hj := j.2
    rw [mem_edges] at h
    rcases h with h | ⟨i', hi', j', hj', h⟩ <;> cases s <;> cases t <;> simp [enc] at h <;> omega
  obtain ⟨k, s, i⟩ := u
  obtain ⟨l, t, j⟩ := v
  unfold Graph.Adj
  cases k <;> cases l
  · rw [rr, rr]; simp only [adj]
    constructor
    · rintro (h | h)
      · exact h
      · exact ⟨h.1.symm, h.2.symm⟩
    · exact Or.inl
  · rw [key]; simp only [adj, key', or_false]
  · rw [key]; simp only [adj, key', false_or, eq_comm]
  · simp only [adj, cc, or_self]

/-- Isomorphism in terms of vertices. -/
theorem iso_iff (m1 m2 : HM) (hs : m1.size = m2.size) :
    Graph.Iso (graphFromHm m1) (graphFromHm m2) ↔
      ∃ f : V m1.size ≃ V m1.size, ∀ u v, adj (zmat m1.size m1.matrix) u v ↔ adj (zmat m1.size m2.matrix) (f u) (f v) := by
  obtain ⟨n1, l1⟩ := m1
  obtain ⟨n2, l2⟩ := m2
  dsimp only at hs ⊢
  subst hs
  constructor
  · rintro ⟨f', hf'⟩
    let f : Fin (4 * n1) ≃ Fin (4 * n1) := f'
    have hf : ∀ u v : Fin (4 * n1), Graph.Adj (graphFromHm ⟨n1, l1⟩) u v ↔ Graph.Adj (graphFromHm ⟨n1, l2⟩) (f u) (f v) :=
      hf'
    clear_value f
    refine ⟨((encEquiv n1).trans f).trans (encEquiv n1).symm, fun u v => ?_⟩
    have h1 := adj_iff ⟨n1, l1⟩ u v
    have h2 := adj_iff ⟨n1, l2⟩ ((((encEquiv n1).trans f).trans (encEquiv n1).symm) u)
      ((((encEquiv n1).trans f).trans (encEquiv n1).symm) v)
    rw [← h1, ← h2]
    have h3 := hf (encEquiv n1 u) (encEquiv n1 v)
    rw [encEquiv_val, encEquiv_val] at h3
    have e : ∀ w : V n1, enc ((((encEquiv n1).trans f).trans (encEquiv n1).symm) w) = (f (encEquiv n1 w) : ℕ) := by
      intro w
      rw [← encEquiv_val]
      simp
    rw [e, e]
    exact h3
  · rintro ⟨f, hf⟩
    change ∃ f : Fin (4 * n1) ≃ Fin (4 * n1), ∀ u v : Fin (4 * n1),
      Graph.Adj (graphFromHm ⟨n1, l1⟩) u v ↔ Graph.Adj (graphFromHm ⟨n1, l2⟩) (f u) (f v)
    refine ⟨((encEquiv n1).symm.trans f).trans (encEquiv n1), fun u v => ?_⟩
    obtain ⟨u, rfl⟩ := (encEquiv n1).surjective u
    obtain ⟨v, rfl⟩ := (encEquiv n1).surjective v
    have h1 := adj_iff ⟨n1, l1⟩ u v
    have h2 := adj_iff ⟨n1, l2⟩ (f u) (f v)
    have h3 := hf u v
    rw [← h1, ← h2] at h3
    simp only [Equiv.trans_apply, Equiv.symm_apply_apply]
    exact h3

/-- The sign of a Boolean. -/
def sg : Bool → ℤ
  | false => 1
  | true => -1

theorem sg_pm (s : Bool) : sg s = 1 ∨ sg s = -1 := by cases s <;> simp [sg]

theorem exists_sg {x : ℤ} (h : x = 1 ∨ x = -1) : ∃ s, sg s = x := by
  rcases h with rfl | rfl
  · exact ⟨false, rfl⟩
  · exact ⟨true, rfl⟩

/-- Equivalent matrices have isomorphic graphs. -/
theorem iso_of_equiv {H K : Matrix (Fin n) (Fin n) ℤ} (hH : PMMat H) (h : HEquiv H K) :
    ∃ f : V n ≃ V n, ∀ u v, adj H u v ↔ adj K (f u) (f v) := by
  obtain ⟨σ, τ, a, b, ha, hb, hK⟩ := h
  choose s hs using fun i => exists_sg (ha i)
  choose t ht using fun i => exists_sg (hb i)
  let F : V n → V n := fun v => match v with
    | (false, x, i) => (false, xor x (s i), σ i)
    | (true, x, j) => (true, xor x (t j), τ j)
  have hinj : Function.Injective F := by
    rintro ⟨k, x, i⟩ ⟨l, y, j⟩ h
    cases k <;> cases l <;> simp only [F, Prod.mk.injEq, Bool.false_eq_true, false_and, EmbeddingLike.apply_eq_iff_eq,
      true_and, reduceCtorEq] at h ⊢
    all_goals
      obtain ⟨h1, rfl⟩ := h
      simp only [and_true]
      simpa using h1
  have hbij := (Finite.injective_iff_bijective).1 hinj
  refine ⟨Equiv.ofBijective F hbij, ?_⟩
  have key : ∀ x y i j, (K (σ i) (τ j) = 1 ↔ xor x (s i) = xor y (t j)) ↔ (H i j = 1 ↔ x = y) := by
    intro x y i j
    rw [hK, ← hs, ← ht]
    rcases hH i j with h | h <;> rw [h] <;> generalize s i = p <;> generalize t j = q <;>
      cases x <;> cases y <;> cases p <;> cases q <;> simp [sg]
  rintro ⟨k, x, i⟩ ⟨l, y, j⟩
  simp only [Equiv.ofBijective_apply]
  cases k <;> cases l <;> simp only [F, adj]
  · constructor
    · rintro ⟨rfl, rfl⟩; exact ⟨rfl, rfl⟩
    · rintro ⟨h1, h2⟩
      obtain rfl := σ.injective h2
      exact ⟨by simpa using h1, rfl⟩
  · exact (key x y i j).symm
  · rw [eq_comm (a := xor x (t i)), key y x j i, eq_comm (a := y)]

/-- Columns of a Hadamard matrix are orthogonal. -/
theorem hadamard_cols {H : Matrix (Fin n) (Fin n) ℤ} (h : IsHadamard H) :
    Hᵀ * H = (n : ℤ) • (1 : Matrix (Fin n) (Fin n) ℤ) := by
  rcases Nat.eq_zero_or_pos n with rfl | hn
  · ext i; exact i.elim0
  have hq : (n : ℚ) ≠ 0 := by positivity
  let A : Matrix (Fin n) (Fin n) ℚ := H.map (Int.castRingHom ℚ)
  have h1 : A * Aᵀ = (n : ℚ) • (1 : Matrix (Fin n) (Fin n) ℚ) := by
    have := congrArg (fun M : Matrix (Fin n) (Fin n) ℤ => M.map (Int.castRingHom ℚ)) h.2
    simp only [Matrix.map_mul, ← Matrix.transpose_map] at this
    rw [show A * Aᵀ = _ from this]
    ext i j
    rw [Matrix.map_apply, Matrix.smul_apply, Matrix.smul_apply, Matrix.one_apply, Matrix.one_apply]
    split <;> simp
  have h2 : A * ((n : ℚ)⁻¹ • Aᵀ) = 1 := by rw [Matrix.mul_smul, h1, smul_smul, inv_mul_cancel₀ hq, one_smul]
  have h3 := mul_eq_one_comm.1 h2
  have h4 : Aᵀ * A = (n : ℚ) • (1 : Matrix (Fin n) (Fin n) ℚ) := by
    rw [← h3, Matrix.smul_mul, smul_smul, mul_inv_cancel₀ hq, one_smul]
  ext i j
  have h5 := congrFun (congrFun h4 i) j
  simp only [Matrix.mul_apply, Matrix.transpose_apply, Matrix.smul_apply, Matrix.one_apply, smul_eq_mul] at h5 ⊢
  have h6 : ((∑ k, H k i * H k j : ℤ) : ℚ) = ((n * if i = j then 1 else 0 : ℤ) : ℚ) := by
    push_cast
    rw [← show (∑ k, A k i * A k j) = ∑ k, (H k i : ℚ) * (H k j : ℚ) from rfl, h5]
  exact_mod_cast h6

/-- Two rows that agree up to sign are the same row. -/
theorem rows_distinct {H : Matrix (Fin n) (Fin n) ℤ} (hp : PMMat H)
    (h : H * Hᵀ = (n : ℤ) • (1 : Matrix (Fin n) (Fin n) ℤ)) {i i' : Fin n} {c : ℤ} (hc : c = 1 ∨ c = -1)
    (he : ∀ j, H i j = c * H i' j) : i = i' := by
  by_contra hne
  have h1 := congrFun (congrFun h i) i'
  simp only [Matrix.mul_apply, Matrix.transpose_apply, Matrix.smul_apply, Matrix.one_apply, if_neg hne, smul_zero] at h1
  have h2 : ∀ j, H i j * H i' j = c := by
    intro j
    rw [he, mul_assoc, Dephase.pm_sq (hp i' j), mul_one]
  simp only [h2, Finset.sum_const, Finset.card_univ, Fintype.card_fin, nsmul_eq_mul] at h1
  have hn : 0 < n := i.pos
  rcases hc with rfl | rfl <;> simp at h1 <;> omega

/-- Isomorphic graphs come from equivalent matrices. -/
theorem equiv_of_iso {H K : Matrix (Fin n) (Fin n) ℤ} (hH : IsHadamard H) (hK : PMMat K)
    (h : ∃ f : V n ≃ V n, ∀ u v, adj H u v ↔ adj K (f u) (f v)) : HEquiv H K := by
  obtain ⟨f, hf⟩ := h
  have loop : ∀ (M : Matrix (Fin n) (Fin n) ℤ) (v : V n), adj M v v ↔ v.1 = false := by
    rintro M ⟨k, s, i⟩
    cases k <;> simp [adj]
  have hk : ∀ v : V n, (f v).1 = v.1 := by
    intro v
    have := hf v v
    rw [loop, loop] at this
    cases h1 : v.1 <;> cases h2 : (f v).1 <;> simp_all
  have hcase : ∀ i j, K (f (false, false, i)).2.2 (f (true, false, j)).2.2 =
      sg (f (false, false, i)).2.1 * sg (f (true, false, j)).2.1 * H i j := by
    intro i j
    have h1 := hf (false, false, i) (true, false, j)
    have h2 := hk (false, false, i)
    have h3 := hk (true, false, j)
    have h4 := hH.1 i j
    clear hk hf
    generalize f (false, false, i) = u at *
    generalize f (true, false, j) = v at *
    obtain ⟨k, s, i'⟩ := u
    obtain ⟨l, t, j'⟩ := v
    dsimp only at h2 h3
    subst h2 h3
    simp only [adj, iff_true] at h1
    dsimp only
    have h5 := hK i' j'
    clear hK hH
    generalize H i j = x at *
    generalize K i' j' = y at *
    rcases h4 with rfl | rfl <;> rcases h5 with rfl | rfl <;> cases s <;> cases t <;> simp [sg] at h1 ⊢
  have hσ : Function.Injective fun i => (f (false, false, i)).2.2 := by
    intro i i' he
    dsimp only at he
    have hc : sg (f (false, false, i)).2.1 * sg (f (false, false, i')).2.1 = 1 ∨
        sg (f (false, false, i)).2.1 * sg (f (false, false, i')).2.1 = -1 := Dephase.pm_mul (sg_pm _) (sg_pm _)
    refine rows_distinct hH.1 hH.2 hc fun j => ?_
    have h1 := hcase i j
    have h2 := hcase i' j
    rw [he, h2] at h1
    generalize sg (f (false, false, i)).2.1 = x at *
    have hx := sg_pm (f (false, false, i')).2.1
    have hy := sg_pm (f (true, false, j)).2.1
    generalize sg (f (false, false, i')).2.1 = y at *
    generalize sg (f (true, false, j)).2.1 = z at *
    rcases hx with rfl | rfl <;> rcases hy with rfl | rfl <;> rcases hc with hc | hc <;>
      (first
        | (have hx : x = 1 := by linarith
           subst hx; linarith)
        | (have hx : x = -1 := by linarith
           subst hx; linarith))
  have hτ : Function.Injective fun j => (f (true, false, j)).2.2 := by
    intro j j' he
    dsimp only at he
    have hc : sg (f (true, false, j)).2.1 * sg (f (true, false, j')).2.1 = 1 ∨
        sg (f (true, false, j)).2.1 * sg (f (true, false, j')).2.1 = -1 := Dephase.pm_mul (sg_pm _) (sg_pm _)
    refine rows_distinct (H := Hᵀ) (fun i j => hH.1 j i) (by rw [Matrix.transpose_transpose]; exact hadamard_cols hH)
      hc fun i => ?_
    simp only [Matrix.transpose_apply]
    have h1 := hcase i j
    have h2 := hcase i j'
    rw [he, h2] at h1
    generalize sg (f (true, false, j)).2.1 = x at *
    have hx := sg_pm (f (true, false, j')).2.1
    have hy := sg_pm (f (false, false, i)).2.1
    generalize sg (f (true, false, j')).2.1 = y at *
    generalize sg (f (false, false, i)).2.1 = z at *
    rcases hx with rfl | rfl <;> rcases hy with rfl | rfl <;> rcases hc with hc | hc <;>
      (first
        | (have hx : x = 1 := by linarith
           subst hx; linarith)
        | (have hx : x = -1 := by linarith
           subst hx; linarith))
  exact ⟨Equiv.ofBijective _ (Finite.injective_iff_bijective.1 hσ), Equiv.ofBijective _ (Finite.injective_iff_bijective.1 hτ),
    fun i => sg (f (false, false, i)).2.1, fun j => sg (f (true, false, j)).2.1, fun i => sg_pm _, fun j => sg_pm _,
    hcase⟩

theorem graph_iso_iff (m1 m2 : HM) (h1 : IsHadamard (zmat m1.size m1.matrix)) (h2 : PMMat (zmat m2.size m2.matrix)) :
    Graph.Iso (graphFromHm m1) (graphFromHm m2) ↔ HMEquiv m1 m2 := by
  constructor
  · intro h
    have hs : m1.size = m2.size := by
      obtain ⟨f, -⟩ := h
      have := Fintype.card_congr (show Fin (4 * m1.size) ≃ Fin (4 * m2.size) from f)
      rw [Fintype.card_fin, Fintype.card_fin] at this
      omega
    refine ⟨hs, equiv_of_iso h1 (by rw [hs]; exact h2) ((iso_iff m1 m2 hs).1 h)⟩
  · rintro ⟨hs, h⟩
    exact (iso_iff m1 m2 hs).2 (iso_of_equiv h1.1 h)

end Proofs.Grph
