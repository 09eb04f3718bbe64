import Verif.Spec.Float32
import Verif.Model.Float32
import Verif.Proofs.QHad
import Mathlib.Tactic.Linarith
import Mathlib.Tactic.FieldSimp
import Mathlib.Tactic.Ring
import Mathlib.Tactic.NormNum
import Mathlib.Tactic.Positivity
import Mathlib.Data.List.GetD
import Mathlib.Algebra.Ring.Commute

/-!
# Single-precision arithmetic is exact on the alphabet
-/

namespace Proofs.F32
open Model Spec Proofs

/-- Multiples of `1`, `1/2` or `1/4` with a numerator up to `2^24`. -/
theorem rep_frac {x : ℚ} (j : ℕ) (hj : j ≤ 2) (k : ℤ) (hx : x = k / 2 ^ j) (hk : |k| ≤ 2 ^ 24) : Representable x := by
  by_cases h : |k| = 2 ^ 24
  · have h2 : k = 2 ^ 24 ∨ k = -2 ^ 24 := by
      rcases abs_eq (by norm_num : (0 : ℤ) ≤ 2 ^ 24) |>.1 h with h | h
      · left; exact h
      · right; exact h
    have e : (2 : ℚ) ^ (1 - (j : ℤ)) = 2 / 2 ^ j := by rw [zpow_sub₀ (by norm_num), zpow_one, zpow_natCast]
    rcases h2 with rfl | rfl
    · exact ⟨2 ^ 23, 1 - j, by norm_num, by omega, by omega, by rw [e, hx]; push_cast; ring⟩
    · exact ⟨-2 ^ 23, 1 - j, by norm_num, by omega, by omega, by rw [e, hx]; push_cast; ring⟩
  · exact ⟨k, -(j : ℤ), lt_of_le_of_ne hk h, by omega, by omega, by rw [zpow_neg, zpow_natCast, hx]; ring⟩

variable {rd : ℚ → ℚ}

theorem rd_quarter (h : ExactRounding rd) (k : ℤ) (hk : |k| ≤ 2 ^ 24) {x : ℚ} (hx : x = k / 4) : rd x = x :=
  h x (rep_frac 2 le_rfl k (by rw [hx]; norm_num) hk)

theorem rd_half (h : ExactRounding rd) (k : ℤ) (hk : |k| ≤ 2 ^ 24) {x : ℚ} (hx : x = k / 2) : rd x = x :=
  h x (rep_frac 1 (by omega) k (by rw [hx]; norm_num) hk)

/-- Components of elements of the alphabet. -/
def Comp (x : ℚ) : Prop := ∃ k : ℤ, |k| ≤ 2 ∧ x = k / 2

def CompQ (p : Quat) : Prop := Comp p.w ∧ Comp p.x ∧ Comp p.y ∧ Comp p.z

theorem comp_of_table {x : ℚ} (h : x = 0 ∨ x = 1 ∨ x = -1 ∨ x = 1 / 2 ∨ x = -1 / 2) : Comp x := by
  rcases h with rfl | rfl | rfl | rfl | rfl
  · exact ⟨0, by norm_num, by norm_num⟩
  · exact ⟨2, by norm_num, by norm_num⟩
  · exact ⟨-2, by norm_num, by norm_num⟩
  · exact ⟨1, by norm_num, by norm_num⟩
  · exact ⟨-1, by norm_num, by norm_num⟩

theorem table : ∀ p ∈ Q24, ∀ x ∈ [p.w, p.x, p.y, p.z], x = 0 ∨ x = 1 ∨ x = -1 ∨ x = 1 / 2 ∨ x = -1 / 2 := by
  decide +kernel

theorem comp24 {p : Quat} (h : p ∈ Q24) : CompQ p :=
  ⟨comp_of_table (table p h _ (by simp)), comp_of_table (table p h _ (by simp)), comp_of_table (table p h _ (by simp)),
    comp_of_table (table p h _ (by simp))⟩

theorem prod_quarter {x y : ℚ} (hx : Comp x) (hy : Comp y) : ∃ k : ℤ, |k| ≤ 4 ∧ x * y = k / 4 := by
  obtain ⟨a, ha, rfl⟩ := hx
  obtain ⟨b, hb, rfl⟩ := hy
  refine ⟨a * b, ?_, by push_cast; ring⟩
  rw [abs_mul]
  calc |a| * |b| ≤ 2 * 2 := mul_le_mul ha hb (abs_nonneg b) (by norm_num)
    _ = 4 := by norm_num

theorem four (h : ExactRounding rd) {a b c d : ℚ}
    (ha : ∃ k : ℤ, |k| ≤ 4 ∧ a = k / 4) (hb : ∃ k : ℤ, |k| ≤ 4 ∧ b = k / 4)
    (hc : ∃ k : ℤ, |k| ≤ 4 ∧ c = k / 4) (hd : ∃ k : ℤ, |k| ≤ 4 ∧ d = k / 4) :
    rd a = a ∧ rd b = b ∧ rd c = c ∧ rd d = d ∧ rd (a + b) = a + b ∧ rd (a - b) = a - b ∧
      rd (a + b + c) = a + b + c ∧ rd (a - b - c) = a - b - c ∧ rd (a + b + c - d) = a + b + c - d ∧
      rd (a - b - c - d) = a - b - c - d := by
  obtain ⟨a, ha, rfl⟩ := ha
  obtain ⟨b, hb, rfl⟩ := hb
  obtain ⟨c, hc, rfl⟩ := hc
  obtain ⟨d, hd, rfl⟩ := hd
  rw [abs_le] at ha hb hc hd
  have key : ∀ k : ℤ, -16 ≤ k → k ≤ 16 → ∀ x : ℚ, x = k / 4 → rd x = x := fun k h1 h2 x hx =>
    rd_quarter h k (by rw [abs_le]; constructor <;> omega) hx
  refine ⟨key a (by omega) (by omega) _ rfl, key b (by omega) (by omega) _ rfl, key c (by omega) (by omega) _ rfl,
    key d (by omega) (by omega) _ rfl, key (a + b) (by omega) (by omega) _ (by push_cast; ring),
    key (a - b) (by omega) (by omega) _ (by push_cast; ring), key (a + b + c) (by omega) (by omega) _ (by push_cast; ring),
    key (a - b - c) (by omega) (by omega) _ (by push_cast; ring),
    key (a + b + c - d) (by omega) (by omega) _ (by push_cast; ring),
    key (a - b - c - d) (by omega) (by omega) _ (by push_cast; ring)⟩

theorem mul_exact (h : ExactRounding rd) {p q : Quat} (hp : CompQ p) (hq : CompQ q) : F32.mul rd p q = p * q := by
  obtain ⟨p1, p2, p3, p4⟩ := hp
  obtain ⟨q1, q2, q3, q4⟩ := hq
  have m : ∀ {a b c d e f g k : ℚ}, Comp a → Comp b → Comp c → Comp d → Comp e → Comp f → Comp g → Comp k → _ :=
    fun ha hb hc hd he hf hg hk => four (rd := rd) h (prod_quarter ha hb)
      (prod_quarter hc hd) (prod_quarter he hf) (prod_quarter hg hk)
  change _ = Quat.mul p q
  unfold F32.mul F32.dot3m Quat.mul
  congr 1
  · obtain ⟨a, b, c, d, e, f, g, i, j, k⟩ := m p1 q1 p2 q2 p3 q3 p4 q4
    rw [a, b, c, d, f, i, k]
  · obtain ⟨a, b, c, d, e, f, g, i, j, k⟩ := m p1 q2 p2 q1 p3 q4 p4 q3
    rw [a, b, c, d, e, g, j]
  · obtain ⟨a, b, c, d, e, f, g, i, j, k⟩ := m p1 q3 p3 q1 p4 q2 p2 q4
    rw [a, b, c, d, e, g, j]
  · obtain ⟨a, b, c, d, e, f, g, i, j, k⟩ := m p1 q4 p4 q1 p2 q3 p3 q2
    rw [a, b, c, d, e, g, j]

/-- Components that are multiples of `1/2` bounded by `m`. -/
def BoundQ (m : ℤ) (p : Quat) : Prop :=
  ∀ x ∈ [p.w, p.x, p.y, p.z], ∃ k : ℤ, |k| ≤ 2 * m ∧ x = k / 2

theorem bound24 {p : Quat} (h : p ∈ Q24) : BoundQ 1 p := by
  intro x hx
  obtain ⟨k, hk, e⟩ := comp_of_table (table p h x hx)
  exact ⟨k, by omega, e⟩

theorem add_exact (h : ExactRounding rd) {m : ℤ} (hm : m + 1 ≤ 2 ^ 23) {p q : Quat} (hp : BoundQ m p) (hq : BoundQ 1 q) :
    F32.add rd p q = p + q ∧ BoundQ (m + 1) (p + q) := by
  have key : ∀ x y : ℚ, (∃ k : ℤ, |k| ≤ 2 * m ∧ x = k / 2) → (∃ k : ℤ, |k| ≤ 2 * 1 ∧ y = k / 2) →
      rd (x + y) = x + y ∧ ∃ k : ℤ, |k| ≤ 2 * (m + 1) ∧ x + y = k / 2 := by
    rintro x y ⟨k, hk, rfl⟩ ⟨l, hl, rfl⟩
    have : |k + l| ≤ 2 * (m + 1) := (abs_add_le k l).trans (by omega)
    exact ⟨rd_half h (k + l) (by omega) (by push_cast; ring), k + l, this, by push_cast; ring⟩
  have k1 := key p.w q.w (hp _ (by simp)) (hq _ (by simp))
  have k2 := key p.x q.x (hp _ (by simp)) (hq _ (by simp))
  have k3 := key p.y q.y (hp _ (by simp)) (hq _ (by simp))
  have k4 := key p.z q.z (hp _ (by simp)) (hq _ (by simp))
  constructor
  · unfold F32.add
    rw [k1.1, k2.1, k3.1, k4.1]; rfl
  · intro x hx
    simp only [List.mem_cons, List.not_mem_nil, or_false] at hx
    rcases hx with rfl | rfl | rfl | rfl
    · exact k1.2
    · exact k2.2
    · exact k3.2
    · exact k4.2

/-- A running sum of elements of the alphabet. -/
theorem sum_exact (h : ExactRounding rd) (n : ℕ) (hn : n ≤ 2 ^ 23) (f g : ℕ → Quat) (hf : ∀ i < n, f i ∈ Q24 ∧ g i = f i) :
    (List.range n).foldl (fun acc i => F32.add rd acc (g i)) Q0 = (List.range n).foldl (fun acc i => acc + f i) Q0 ∧
      BoundQ n ((List.range n).foldl (fun acc i => acc + f i) Q0) := by
  induction n with
  | zero => exact ⟨rfl, fun x hx => ⟨0, by simp, by fin_cases hx <;> simp [Q0]⟩⟩
  | succ n ih =>
    obtain ⟨e, b⟩ := ih (by omega) (fun i hi => hf i (by omega))
    rw [List.range_succ, List.foldl_append, List.foldl_append, e]
    simp only [List.foldl_cons, List.foldl_nil]
    obtain ⟨f1, f2⟩ := hf n (by omega)
    rw [f2]
    have := add_exact h (m := n) (by omega) b (bound24 f1)
    push_cast
    exact this

theorem sgn_cases (e : ℕ) : QS.sgn e = 1 ∨ QS.sgn e = -1 := by
  unfold QS.sgn
  exact neg_one_pow_eq_or ℚ e

theorem smul24 : ∀ p ∈ Q24, p.smul 1 ∈ Q24 ∧ p.smul (-1) ∈ Q24 := by decide +kernel

theorem smul_exact (h : ExactRounding rd) {p : Quat} (hp : p ∈ Q24) (e : ℕ) :
    F32.smul rd p (QS.sgn e) = p.smul (QS.sgn e) ∧ p.smul (QS.sgn e) ∈ Q24 := by
  have hm : p.smul (QS.sgn e) ∈ Q24 := by
    rcases sgn_cases e with h1 | h1 <;> rw [h1]
    · exact (smul24 p hp).1
    · exact (smul24 p hp).2
  have key : ∀ x ∈ [(p.smul (QS.sgn e)).w, (p.smul (QS.sgn e)).x, (p.smul (QS.sgn e)).y, (p.smul (QS.sgn e)).z],
      rd x = x := by
    intro x hx
    obtain ⟨k, hk, e⟩ := bound24 hm x hx
    exact rd_half h k (by omega) e
  refine ⟨?_, hm⟩
  have k1 := key (p.smul (QS.sgn e)).w (by simp)
  have k2 := key (p.smul (QS.sgn e)).x (by simp)
  have k3 := key (p.smul (QS.sgn e)).y (by simp)
  have k4 := key (p.smul (QS.sgn e)).z (by simp)
  unfold Quat.smul at k1 k2 k3 k4 ⊢
  unfold F32.smul
  dsimp only at k1 k2 k3 k4
  rw [k1, k2, k3, k4]

theorem val24 {q : QS} (hl : q.values.length = q.size) (h24 : ∀ x ∈ q.values, x ∈ Q24) {i : ℕ} (hi : i < q.size) :
    q.val i ∈ Q24 := by
  unfold QS.val
  rw [List.getD_eq_getElem _ _ (by omega)]
  exact h24 _ (List.getElem_mem _)

theorem mul24 (h : ExactRounding rd) {p q : Quat} (hp : p ∈ Q24) (hq : q ∈ Q24) :
    F32.mul rd p q.conj = p * q.conj ∧ p * q.conj ∈ Q24 :=
  ⟨mul_exact h (comp24 hp) (comp24 (QHad.q24_conj q hq)), QHad.q24_mul p hp _ (QHad.q24_conj q hq)⟩

theorem paf_exact (h : ExactRounding rd) (q : QS) (hl : q.values.length = q.size) (h24 : ∀ x ∈ q.values, x ∈ Q24)
    (hn : q.size ≤ 2 ^ 23) (t : ℕ) : F32.periodicAutocorrelation rd q t = q.periodicAutocorrelation t := by
  refine (sum_exact h q.size hn _ _ fun i hi => ?_).1
  have := mul24 h (val24 hl h24 hi) (val24 hl h24 (Nat.mod_lt (i + t) (by omega : 0 < q.size)))
  exact ⟨this.2, this.1⟩

theorem odd_exact (h : ExactRounding rd) (q : QS) (hl : q.values.length = q.size) (h24 : ∀ x ∈ q.values, x ∈ Q24)
    (hn : q.size ≤ 2 ^ 23) (t : ℕ) : F32.oddPeriodicAutocorrelation rd q t = q.oddPeriodicAutocorrelation t := by
  refine (sum_exact h q.size hn _ _ fun i hi => ?_).1
  obtain ⟨e, m⟩ := mul24 h (val24 hl h24 hi) (val24 hl h24 (Nat.mod_lt (i + t) (by omega : 0 < q.size)))
  rw [e]
  have := smul_exact h m ((i + t) / q.size)
  exact ⟨this.2, this.1⟩

theorem inner_exact (h : ExactRounding rd) (n : ℕ) (hn : n ≤ 2 ^ 23) (r1 r2 : List Quat)
    (h1 : ∀ i < n, r1.getD i Q0 ∈ Q24) (h2 : ∀ i < n, r2.getD i Q0 ∈ Q24) :
    F32.innerProduct rd n r1 r2 = QHM.innerProduct n r1 r2 ∧ BoundQ n (QHM.innerProduct n r1 r2) := by
  refine sum_exact h n hn _ _ fun i hi => ?_
  have := mul24 h (h1 i hi) (h2 i hi)
  exact ⟨this.2, this.1⟩

theorem verify_exact (h : ExactRounding rd) (m : QHM) (h24 : ∀ i j, i < m.size → j < m.size → m.get i j ∈ Q24)
    (hn : m.size ≤ 2 ^ 22) : F32.qhmVerify rd m = m.verify := by
  unfold F32.qhmVerify QHM.verify
  rw [Bool.eq_iff_iff]
  simp only [List.all_eq_true, List.mem_range]
  refine forall₂_congr fun i hi => forall₂_congr fun j hj => ?_
  obtain ⟨e, b⟩ := inner_exact h m.size (by omega) (m.row i) (m.row j) (fun k hk => h24 i k hi hk)
    (fun k hk => h24 j k hj hk)
  rw [e]
  obtain ⟨k, hk, ek⟩ := b _ (List.mem_cons_self)
  have hnn : rd (m.size : ℚ) = m.size := rd_half h (2 * m.size) (by rw [abs_le]; constructor <;> omega) (by push_cast; ring)
  have hs : rd ((QHM.innerProduct m.size (m.row i) (m.row j)).w - m.size) =
      (QHM.innerProduct m.size (m.row i) (m.row j)).w - m.size := by
    rw [abs_le] at hk
    exact rd_half h (k - 2 * m.size) (by rw [abs_le]; constructor <;> omega) (by rw [ek]; push_cast; ring)
  rw [hnn, hs]

theorem not_rep : ¬ Representable (2 ^ 24 + 1 : ℚ) := by
  rintro ⟨m, e, hm, -, -, h⟩
  rw [abs_lt] at hm
  rcases le_or_gt e 0 with he | he
  · obtain ⟨j, rfl⟩ : ∃ j : ℕ, e = -(j : ℤ) := ⟨e.natAbs, by omega⟩
    rw [zpow_neg, zpow_natCast, ← div_eq_mul_inv, eq_div_iff (by positivity)] at h
    have h' : ((2 ^ 24 + 1) * 2 ^ j : ℤ) = m := by exact_mod_cast h
    have : (1 : ℤ) ≤ 2 ^ j := one_le_pow₀ (by norm_num)
    nlinarith
  · obtain ⟨j, rfl⟩ : ∃ j : ℕ, e = (j : ℤ) + 1 := ⟨(e - 1).natAbs, by omega⟩
    rw [zpow_add₀ (by norm_num), zpow_natCast, zpow_one] at h
    have h' : (2 ^ 24 + 1 : ℤ) = m * (2 ^ j * 2) := by exact_mod_cast h
    have : (2 ^ 24 + 1 : ℤ) = 2 * (m * 2 ^ j) := by rw [h']; ring
    omega

end Proofs.F32
