import Verif.Spec.Quaternion
import Verif.Proofs.Basic
import Mathlib.Algebra.Star.BigOperators

/-!
# The perfection tests
-/

set_option linter.unusedSectionVars false

namespace Proofs
open Model Spec
open scoped Quaternion

theorem toH_add (p q : Quat) : toH (p + q) = toH p + toH q := by
  apply Quaternion.ext <;> rfl

theorem toH_neg (p : Quat) : toH (-p) = - toH p := by
  apply Quaternion.ext <;> rfl

@[simp] theorem toH_re (p : Quat) : (toH p).re = p.w := rfl
@[simp] theorem toH_imI (p : Quat) : (toH p).imI = p.x := rfl
@[simp] theorem toH_imJ (p : Quat) : (toH p).imJ = p.y := rfl
@[simp] theorem toH_imK (p : Quat) : (toH p).imK = p.z := rfl

theorem mul_w (p q : Quat) : (p * q).w = p.w * q.w - p.x * q.x - p.y * q.y - p.z * q.z := rfl
theorem mul_x (p q : Quat) : (p * q).x = p.w * q.x + p.x * q.w + p.y * q.z - p.z * q.y := rfl
theorem mul_y (p q : Quat) : (p * q).y = p.w * q.y + p.y * q.w + p.z * q.x - p.x * q.z := rfl
theorem mul_z (p q : Quat) : (p * q).z = p.w * q.z + p.z * q.w + p.x * q.y - p.y * q.x := rfl

theorem toH_mul (p q : Quat) : toH (p * q) = toH p * toH q := by
  apply Quaternion.ext
  · simp [mul_w]
  · simp [mul_x]
  · simp [mul_y]; ring
  · simp [mul_z]; ring

theorem toH_conj (p : Quat) : toH p.conj = star (toH p) := by
  apply Quaternion.ext <;> simp [Quat.conj]

theorem toH_smul (p : Quat) (r : ℚ) : toH (p.smul r) = r • toH p := by
  apply Quaternion.ext <;> simp [Quat.smul, mul_comm]

theorem toH_Q0 : toH Q0 = 0 := by apply Quaternion.ext <;> rfl

theorem toH_inj {p q : Quat} : toH p = toH q ↔ p = q := by
  constructor
  · intro h
    have h1 := congrArg QuaternionAlgebra.re h
    have h2 := congrArg QuaternionAlgebra.imI h
    have h3 := congrArg QuaternionAlgebra.imJ h
    have h4 := congrArg QuaternionAlgebra.imK h
    cases p; cases q; simp only [toH] at h1 h2 h3 h4; simp [h1, h2, h3, h4]
  · rintro rfl; rfl

theorem foldl_quat (l : List ℕ) (f : ℕ → Quat) (z : Quat) :
    toH (l.foldl (fun acc i => acc + f i) z) = toH z + (l.map fun i => toH (f i)).sum := by
  induction l generalizing z with
  | nil => simp
  | cons x xs ih => simp [ih, toH_add, add_assoc]

theorem foldl_range_quat (n : ℕ) (f : ℕ → Quat) :
    toH ((List.range n).foldl (fun acc i => acc + f i) Q0) = ∑ i ∈ Finset.range n, toH (f i) := by
  rw [foldl_quat, toH_Q0, zero_add]
  induction n with
  | zero => simp
  | succ n ih => rw [List.range_succ, List.map_append, List.sum_append, ih, Finset.sum_range_succ]; simp

variable {n : ℕ} [NeZero n]

theorem qcyc_natCast (l : List Quat) (i : ℕ) : qcyc n l (i : ZMod n) = toH (l.getD (i % n) Q0) := by
  unfold qcyc; rw [ZMod.val_natCast]

theorem toH_paf (q : QS) (h : q.size = n) (t : ℕ) :
    toH (q.periodicAutocorrelation t) = qpaf (qcyc n q.values) (t : ZMod n) := by
  unfold QS.periodicAutocorrelation qpaf
  rw [foldl_range_quat, h, sum_range_zmod]
  refine Finset.sum_congr rfl fun x _ => ?_
  rw [toH_mul, toH_conj]
  congr 2
  rw [show x + (t : ZMod n) = ((x.val + t : ℕ) : ZMod n) by simp, qcyc_natCast]
  rfl

theorem qpaf_neg (x : ZMod n → ℍ[ℚ]) (t : ZMod n) : qpaf x (-t) = star (qpaf x t) := by
  unfold qpaf
  rw [star_sum]
  refine Fintype.sum_equiv (Equiv.subRight t) _ _ fun i => ?_
  simp [sub_eq_add_neg]

/-- Half-range reasoning shared by both tests. -/
theorem half_range {P : ℕ → Prop} (n : ℕ) (hn : n ≠ 1) (hsym : ∀ t, 1 ≤ t → t < n → P (n - t) → P t) :
    (∀ t, 1 ≤ t → t ≤ (n + 1) / 2 → P t) ↔ ∀ t, 1 ≤ t → t < n → P t := by
  constructor
  · intro H t h1 h2
    by_cases hh : t ≤ (n + 1) / 2
    · exact H t h1 hh
    · exact hsym t h1 h2 (H (n - t) (by omega) (by omega))
  · intro H t h1 h2
    exact H t h1 (by omega)

theorem isPerfect_iff (q : QS) (h : q.size = n) : q.isPerfect = true ↔ Perfect (qcyc n q.values) := by
  unfold QS.isPerfect Perfect
  rw [← forall_pos_lt_iff]
  split
  · next h1 =>
    simp only [true_iff]
    intro t h2 h3; omega
  · next h1 =>
    rw [h] at h1
    rw [List.all_eq_true]
    simp only [List.mem_range'_1, decide_eq_true_eq]
    rw [← half_range (P := fun t => qpaf (qcyc n q.values) (t : ZMod n) = 0) n h1]
    · refine forall_congr' fun t => ?_
      rw [← toH_inj, toH_paf q h, toH_Q0, h]
      constructor
      · intro H a b; exact H ⟨a, by omega⟩
      · rintro H ⟨a, b⟩; exact H a (by omega)
    · intro t h2 h3 h4
      have : ((n - t : ℕ) : ZMod n) = -(t : ZMod n) := by rw [Nat.cast_sub h3.le]; simp
      rw [this, qpaf_neg] at h4
      exact star_eq_zero.1 h4

/-! ### Odd perfection -/

theorem negacyc_add (l : List Quat) (i : ℕ) : negacyc n l (i + n) = - negacyc n l i := by
  unfold negacyc
  rw [Nat.add_div_right _ npos, Nat.add_mod_right, pow_succ]; simp

theorem negone_pow_comm (k : ℕ) (a : ℍ[ℚ]) : a * (-1) ^ k = (-1) ^ k * a := by
  rcases neg_one_pow_eq_or ℍ[ℚ] k with h | h <;> rw [h] <;> simp

theorem toH_oddPaf (q : QS) (h : q.size = n) (t : ℕ) :
    toH (q.oddPeriodicAutocorrelation t) = oddPaf n q.values t := by
  unfold QS.oddPeriodicAutocorrelation oddPaf
  rw [foldl_range_quat, h]
  refine Finset.sum_congr rfl fun i hi => ?_
  have hi := Finset.mem_range.1 hi
  rw [toH_smul, toH_mul, toH_conj]
  unfold negacyc QS.sgn QS.val
  rw [Nat.div_eq_of_lt hi, Nat.mod_eq_of_lt hi, pow_zero, one_mul, star_mul, star_pow, star_neg,
    star_one]
  rcases Nat.even_or_odd ((i + t) / n) with he | ho
  · simp [he.neg_one_pow]
  · simp [ho.neg_one_pow]

/-- A function with period `n` has the same sum over any `n` consecutive arguments. -/
theorem sum_shift {M : Type*} [AddCommMonoid M] (g : ℕ → M) (hg : ∀ i, g (i + n) = g i) (k : ℕ) :
    ∑ i ∈ Finset.range n, g (i + k) = ∑ i ∈ Finset.range n, g i := by
  have hm : ∀ i, g (i % n) = g i := by
    intro i
    conv_rhs => rw [← Nat.mod_add_div i n]
    generalize i / n = m
    induction m with
    | zero => simp
    | succ m ih => rw [Nat.mul_succ, ← add_assoc, hg, ih]
  rw [sum_range_zmod, sum_range_zmod]
  refine Fintype.sum_equiv (Equiv.addRight (k : ZMod n)) _ _ fun x => ?_
  rw [← hm (x.val + k)]
  congr 1
  rw [← ZMod.val_natCast]
  simp

theorem oddPaf_sym (l : List Quat) {t : ℕ} (ht : t ≤ n) : oddPaf n l (n - t) = - star (oddPaf n l t) := by
  have h1 := sum_shift (n := n) (fun i => negacyc n l (i + t) * star (negacyc n l i))
    (by intro i; rw [show i + n + t = i + t + n by ring, negacyc_add, negacyc_add]; simp) (n - t)
  unfold oddPaf
  rw [star_sum]
  simp only [star_mul, star_star]
  rw [← h1, ← Finset.sum_neg_distrib]
  refine Finset.sum_congr rfl fun i _ => ?_
  rw [show i + (n - t) + t = i + n by omega, negacyc_add]
  simp

theorem isOddPerfect_iff (q : QS) (h : q.size = n) : q.isOddPerfect = true ↔ OddPerfect n q.values := by
  unfold QS.isOddPerfect OddPerfect
  split
  · next h1 =>
    simp only [true_iff]
    intro t h2 h3; omega
  · next h1 =>
    rw [h] at h1
    rw [List.all_eq_true]
    simp only [List.mem_range'_1, decide_eq_true_eq]
    rw [← half_range (P := fun t => oddPaf n q.values t = 0) n h1]
    · refine forall_congr' fun t => ?_
      rw [← toH_inj, toH_oddPaf q h, toH_Q0, h]
      constructor
      · intro H a b; exact H ⟨a, by omega⟩
      · rintro H ⟨a, b⟩; exact H a (by omega)
    · intro t h2 h3 h4
      rw [oddPaf_sym _ h3.le] at h4
      exact star_eq_zero.1 (neg_eq_zero.1 h4)

end Proofs
