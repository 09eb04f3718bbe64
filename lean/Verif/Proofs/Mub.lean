import Verif.Proofs.Rho
import Verif.Proofs.QHad

/-!
# Helper lemmas: measurement operators and Hadamard operators of a quaternionic matrix
-/

set_option linter.unusedSectionVars false
set_option linter.unusedVariables false
set_option linter.unusedSimpArgs false

namespace Proofs.Mub
open Model Spec Proofs Proofs.Loops Proofs.Rho
open scoped Matrix Quaternion

variable {n : ℕ}

theorem sum_mix {a k : ℕ} (f : Fin (a * k) → ℂ) : ∑ x, f x = ∑ i : Fin a, ∑ p : Fin k, f (mix (i, p)) := by
  rw [← Fintype.sum_prod_type' fun i p => f (mix (i, p))]
  exact (Fintype.sum_equiv (mixEquiv a k) (fun x => f (mix x)) f fun _ => rfl).symm

theorem sum_mix' {a k : ℕ} (f : Fin (a * k) → ℂ) : ∑ x, f x = ∑ p : Fin k, ∑ i : Fin a, f (mix (i, p)) := by
  rw [sum_mix, Finset.sum_comm]

theorem mix_surj {a k : ℕ} (x : Fin (a * k)) : ∃ i p, mix (i, p) = x := by
  obtain ⟨y, hy⟩ := (mixEquiv a k).surjective x
  exact ⟨y.1, y.2, hy⟩

theorem mix_inj {a k : ℕ} {x y : Fin a × Fin k} : mix x = mix y ↔ x = y := (mixEquiv a k).injective.eq_iff

/-- Scalar multiples of the identity: left and right inverses agree. -/
theorem scalar_comm {A B : Matrix (Fin n) (Fin n) ℍ[ℚ]} (h : A * B = (n : ℚ) • 1) : B * A = (n : ℚ) • 1 := by
  rcases Nat.eq_zero_or_pos n with rfl | hn
  · exact Matrix.ext fun i => i.elim0
  have hn' : (n : ℚ) ≠ 0 := by exact_mod_cast hn.ne'
  have h1 : ((n : ℚ)⁻¹ • A) * B = 1 := by
    rw [Matrix.smul_mul, h, smul_smul, inv_mul_cancel₀ hn', one_smul]
  have h2 : B * ((n : ℚ)⁻¹ • A) = 1 := mul_eq_one_symm h1
  rw [Matrix.mul_smul] at h2
  rw [← h2, smul_smul, mul_inv_cancel₀ hn', one_smul]

theorem smul_one_apply (i j : Fin n) : ((n : ℚ) • (1 : Matrix (Fin n) (Fin n) ℍ[ℚ])) i j = if i = j then (n : ℍ[ℚ]) else 0 := by
  rw [Matrix.smul_apply, Matrix.one_apply]
  split
  · rw [← Nat.cast_smul_eq_nsmul ℚ n (1 : ℍ[ℚ]) |>.symm]; simp
  · rw [smul_zero]

theorem gramT_apply (M : Matrix (Fin n) (Fin n) ℍ[ℚ]) (j j' : Fin n) :
    ((Mᵀ)ᴴ * Mᵀ) j j' = ∑ k, star (M j k) * M j' k := by
  rw [Matrix.mul_apply]; rfl

theorem colT_apply (M : Matrix (Fin n) (Fin n) ℍ[ℚ]) (j k : Fin n) :
    (Mᵀ * (Mᵀ)ᴴ) j k = ∑ b, M b j * star (M b k) := by
  rw [Matrix.mul_apply]; rfl

theorem rho_ite (P : Prop) [Decidable P] (p q : Fin 2) :
    rho (if P then (n : ℍ[ℚ]) else 0) p q = if P ∧ p = q then (n : ℂ) else 0 := by
  by_cases h : P
  · rw [if_pos h, rho_natCast]
    by_cases hpq : p = q
    · subst hpq; rw [if_pos ⟨h, rfl⟩]
      rw [← Matrix.diagonal_natCast', Matrix.diagonal_apply_eq]; rfl
    · rw [if_neg (fun x => hpq x.2), ← Matrix.diagonal_natCast', Matrix.diagonal_apply_ne _ hpq]
  · rw [if_neg h, rho_zero, if_neg (fun x => h x.1)]; rfl

theorem qmat_get (m : QHM) (i j : Fin m.size) : toH (m.get i j) = qmat m.size m.matrix i j := rfl

/-! ## The Hadamard operator -/

theorem hmuo_gram (m : QHM) (j j' : Fin m.size) (p p' : Fin 2) :
    (cmat (m.size * 2) (HMUO.fromQhm m).operator.values * (cmat (m.size * 2) (HMUO.fromQhm m).operator.values)ᴴ)
      (mix (j, p)) (mix (j', p')) = rho (((qmat m.size m.matrix)ᵀᴴ * (qmat m.size m.matrix)ᵀ) j j') p p' := by
  obtain ⟨-, -, h⟩ := hmuo_spec m
  rw [Matrix.mul_apply, sum_mix, gramT_apply, rho_sum, Matrix.sum_apply]
  refine Finset.sum_congr rfl fun k _ => ?_
  rw [rho_mul, Matrix.mul_apply]
  refine Finset.sum_congr rfl fun q _ => ?_
  rw [Matrix.conjTranspose_apply, h, h, ← Matrix.conjTranspose_apply, ← rho_star, star_star]
  rfl

theorem hmuo_iff (m : QHM) :
    cmat (m.size * 2) (HMUO.fromQhm m).operator.values * (cmat (m.size * 2) (HMUO.fromQhm m).operator.values)ᴴ =
      (m.size : ℂ) • 1 ↔
    (qmat m.size m.matrix)ᵀᴴ * (qmat m.size m.matrix)ᵀ = (m.size : ℚ) • 1 := by
  constructor
  · intro h
    funext j j'
    apply rho_inj
    funext p p'
    rw [← hmuo_gram, h, smul_one_apply, rho_ite, Matrix.smul_apply, Matrix.one_apply]
    simp only [mix_inj, Prod.mk.injEq, smul_eq_mul, mul_ite, mul_one, mul_zero]
  · intro h
    funext x y
    obtain ⟨j, p, rfl⟩ := mix_surj x
    obtain ⟨j', p', rfl⟩ := mix_surj y
    rw [hmuo_gram, h, smul_one_apply, rho_ite, Matrix.smul_apply, Matrix.one_apply]
    simp only [mix_inj, Prod.mk.injEq, smul_eq_mul, mul_ite, mul_one, mul_zero]

/-! ## The measurement operators -/

/-- The matrix of `q_b`. -/
noncomputable def qbm (m : QHM) (b : ℕ) : Matrix (Fin (2 * m.size)) (Fin (2 * m.size)) ℂ := cmat (2 * m.size) (MUM.qb m b).values

theorem qbm_apply (m : QHM) (b : Fin m.size) (j k : Fin m.size) (p q : Fin 2) :
    qbm m b (mix (p, j)) (mix (q, k)) = rho (qmat m.size m.matrix b j * star (qmat m.size m.matrix b k)) p q :=
  (qb_spec m b).2.2 j k p q

theorem qbm_ext {N : ℕ} {A B : Matrix (Fin (2 * N)) (Fin (2 * N)) ℂ}
    (h : ∀ p j q k, A (mix (p, j)) (mix (q, k)) = B (mix (p, j)) (mix (q, k))) : A = B := by
  funext x y
  obtain ⟨p, j, rfl⟩ := mix_surj x
  obtain ⟨q, k, rfl⟩ := mix_surj y
  exact h p j q k

theorem qbm_herm (m : QHM) (b : Fin m.size) : (qbm m b)ᴴ = qbm m b := by
  refine qbm_ext fun p j q k => ?_
  rw [Matrix.conjTranspose_apply, qbm_apply, qbm_apply, ← Matrix.conjTranspose_apply, ← rho_star, star_mul, star_star]

theorem qbm_mul (m : QHM) (b b' : Fin m.size) (j k : Fin m.size) (p q : Fin 2) :
    (qbm m b * qbm m b') (mix (p, j)) (mix (q, k)) = rho (qmat m.size m.matrix b j *
      ((qmat m.size m.matrix)ᵀᴴ * (qmat m.size m.matrix)ᵀ) b b' * star (qmat m.size m.matrix b' k)) p q := by
  rw [Matrix.mul_apply, sum_mix', gramT_apply, Finset.mul_sum, Finset.sum_mul, rho_sum, Matrix.sum_apply]
  refine Finset.sum_congr rfl fun l _ => ?_
  have e : qmat m.size m.matrix b j * (star (qmat m.size m.matrix b l) * qmat m.size m.matrix b' l) *
      star (qmat m.size m.matrix b' k) = (qmat m.size m.matrix b j * star (qmat m.size m.matrix b l)) *
      (qmat m.size m.matrix b' l * star (qmat m.size m.matrix b' k)) := by simp only [mul_assoc]
  rw [e, rho_mul, Matrix.mul_apply]
  refine Finset.sum_congr rfl fun r _ => ?_
  rw [qbm_apply, qbm_apply]

/-- All entries are units. -/
def Units (M : Matrix (Fin n) (Fin n) ℍ[ℚ]) : Prop := ∀ i j, M i j * star (M i j) = 1

theorem unit_comm {x : ℍ[ℚ]} (h : x * star x = 1) : star x * x = 1 := mul_eq_one_symm h

theorem gramT_diag {M : Matrix (Fin n) (Fin n) ℍ[ℚ]} (h : Units M) (b : Fin n) : ((Mᵀ)ᴴ * Mᵀ) b b = n := by
  rw [gramT_apply, Finset.sum_congr rfl fun k _ => unit_comm (h b k)]
  simp

theorem natCast_rho (x : ℍ[ℚ]) (p q : Fin 2) : rho ((n : ℍ[ℚ]) * x) p q = (n : ℂ) * rho x p q := by
  rw [rho_mul, rho_natCast, ← Matrix.diagonal_natCast', Matrix.diagonal_mul]; rfl

theorem qbm_sq (m : QHM) (h : Units (qmat m.size m.matrix)) (b : Fin m.size) : qbm m b * qbm m b = (m.size : ℂ) • qbm m b := by
  refine qbm_ext fun p j q k => ?_
  rw [qbm_mul, gramT_diag h, Matrix.smul_apply, qbm_apply, smul_eq_mul, (Nat.cast_commute m.size _).eq.symm, mul_assoc,
    natCast_rho]

theorem orth_iff (m : QHM) (h : Units (qmat m.size m.matrix)) :
    (∀ b b' : Fin m.size, b ≠ b' → qbm m b * qbm m b' = 0) ↔
      (qmat m.size m.matrix)ᵀᴴ * (qmat m.size m.matrix)ᵀ = (m.size : ℚ) • 1 := by
  constructor
  · intro H
    funext b b'
    rw [smul_one_apply]
    by_cases hb : b = b'
    · subst hb; rw [if_pos rfl, gramT_diag h]
    · rw [if_neg hb]
      have e : rho (qmat m.size m.matrix b b * ((qmat m.size m.matrix)ᵀᴴ * (qmat m.size m.matrix)ᵀ) b b' *
          star (qmat m.size m.matrix b' b)) = 0 := by
        funext p q
        rw [← qbm_mul, H b b' hb]; rfl
      have e' := rho_inj (e.trans rho_zero.symm)
      have h1 := congrArg (fun x => star (qmat m.size m.matrix b b) * x * qmat m.size m.matrix b' b) e'
      simp only [mul_zero, zero_mul] at h1
      rw [show star (qmat m.size m.matrix b b) * (qmat m.size m.matrix b b *
          ((qmat m.size m.matrix)ᵀᴴ * (qmat m.size m.matrix)ᵀ) b b' * star (qmat m.size m.matrix b' b)) *
          qmat m.size m.matrix b' b = (star (qmat m.size m.matrix b b) * qmat m.size m.matrix b b) *
          ((qmat m.size m.matrix)ᵀᴴ * (qmat m.size m.matrix)ᵀ) b b' *
          (star (qmat m.size m.matrix b' b) * qmat m.size m.matrix b' b) by simp only [mul_assoc],
        unit_comm (h b b), unit_comm (h b' b), one_mul, mul_one] at h1
      exact h1
  · intro H b b' hb
    refine qbm_ext fun p j q k => ?_
    rw [qbm_mul, H, smul_one_apply, if_neg hb, mul_zero, zero_mul, rho_zero]; rfl

theorem total_apply (m : QHM) (j k : Fin m.size) (p q : Fin 2) : (∑ b : Fin m.size, qbm m b) (mix (p, j)) (mix (q, k)) =
    rho (((qmat m.size m.matrix)ᵀ * (qmat m.size m.matrix)ᵀᴴ) j k) p q := by
  rw [Matrix.sum_apply, colT_apply, rho_sum, Matrix.sum_apply]
  exact Finset.sum_congr rfl fun b _ => qbm_apply m b j k p q

theorem total_iff (m : QHM) : ∑ b : Fin m.size, qbm m b = (m.size : ℂ) • 1 ↔
    (qmat m.size m.matrix)ᵀ * (qmat m.size m.matrix)ᵀᴴ = (m.size : ℚ) • 1 := by
  constructor
  · intro h
    funext j j'
    apply rho_inj
    funext p p'
    rw [← total_apply, h, smul_one_apply, rho_ite, Matrix.smul_apply, Matrix.one_apply]
    simp only [mix_inj, Prod.mk.injEq, smul_eq_mul, mul_ite, mul_one, mul_zero, and_comm]
  · intro h
    refine qbm_ext fun p j q k => ?_
    rw [total_apply, h, smul_one_apply, rho_ite, Matrix.smul_apply, Matrix.one_apply]
    simp only [mix_inj, Prod.mk.injEq, smul_eq_mul, mul_ite, mul_one, mul_zero, and_comm]

theorem gramT_iff (M : Matrix (Fin n) (Fin n) ℍ[ℚ]) : (Mᵀ)ᴴ * Mᵀ = (n : ℚ) • 1 ↔ Mᵀ * (Mᵀ)ᴴ = (n : ℚ) • 1 :=
  ⟨scalar_comm, scalar_comm⟩

/-! ## Circulant matrices -/

theorem neg_cast [NeZero n] (i : Fin n) : (((-i : Fin n) : ℕ) : ZMod n) = -((i : ℕ) : ZMod n) := by
  have : ((-i : Fin n) : ℕ) = (n - i) % n := by rw [Fin.neg_def]
  rw [this, ZMod.natCast_mod, Nat.cast_sub i.2.le]
  simp

theorem circ_transpose [NeZero n] {q : QS} (hs : q.size = n) : (qmat n (QHM.fromPqs q).matrix)ᵀ =
    (qmat n (QHM.fromPqs q).matrix).submatrix (Equiv.neg (Fin n)) (Equiv.neg (Fin n)) := by
  funext i j
  rw [Matrix.transpose_apply, Matrix.submatrix_apply]
  change toH (get2 Q0 (QHM.fromPqs q).matrix j i) = toH (get2 Q0 (QHM.fromPqs q).matrix (-i : Fin n) (-j : Fin n))
  rw [QHad.fromPqs_get hs j.2 i.2, QHad.fromPqs_get hs (-i : Fin n).2 (-j : Fin n).2, neg_cast, neg_cast]
  congr 1
  ring

theorem circ_hadamard [NeZero n] {q : QS} (hs : q.size = n) (h : IsQHadamard (qmat n (QHM.fromPqs q).matrix)) :
    IsQHadamard (qmat n (QHM.fromPqs q).matrix)ᵀ := by
  refine ⟨fun i j => h.1 j i, ?_⟩
  rw [circ_transpose hs, Matrix.conjTranspose_submatrix, Matrix.submatrix_mul_equiv, h.2]
  funext i j
  rw [Matrix.submatrix_apply, smul_one_apply, smul_one_apply]
  simp only [EmbeddingLike.apply_eq_iff_eq]

end Proofs.Mub
