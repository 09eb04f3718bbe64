import Verif.Spec.Equations
import Verif.Proofs.Basic
import Mathlib.Tactic.Ring
import Mathlib.Tactic.Linarith
import Mathlib.Algebra.BigOperators.Intervals

/-!
# Solver equations
-/

set_option linter.unusedSectionVars false
set_option linter.unusedVariables false
set_option linter.unusedSimpArgs false

namespace Proofs.Eqs
open Model Spec Proofs

/-- Sum over a list of natural numbers. -/
theorem sum_range_list {f : ℕ → ℤ} (n : ℕ) : ((List.range n).map f).sum = ∑ k ∈ Finset.range n, f k := by
  induction n with
  | zero => simp
  | succ n ih => rw [List.range_succ, List.map_append, List.sum_append, ih, Finset.sum_range_succ]; simp

theorem range'_one (n : ℕ) : List.range' 1 n = (List.range n).map fun k => k + 1 := by
  rw [List.range_eq_range', List.range'_eq_map_range]
  rw [List.range'_eq_map_range]
  simp [Nat.add_comm]

/-! ### Linear equations -/

theorem zip_sum (ρ : ℕ → ℤ) (cs : List ℤ) (i : ℕ) :
    ((((cs.zipIdx i).filter fun (c : ℤ × ℕ) => c.1 ≠ 0).map fun (c : ℤ × ℕ) => ((c.1, [c.2]) : ℤ × List ℕ)).map
      fun t => t.1 * (t.2.map ρ).prod).sum = ∑ k ∈ Finset.range cs.length, at0 cs k * ρ (k + i) := by
  induction cs generalizing i with
  | nil => simp
  | cons c cs ih =>
    rw [List.length_cons, Finset.sum_range_succ', List.zipIdx_cons]
    have e : ∑ k ∈ Finset.range cs.length, at0 (c :: cs) (k + 1) * ρ (k + 1 + i) =
        ∑ k ∈ Finset.range cs.length, at0 cs k * ρ (k + (i + 1)) := by
      refine Finset.sum_congr rfl fun k _ => ?_
      rw [show k + 1 + i = k + (i + 1) by omega]; rfl
    rw [e, ← ih (i + 1)]
    by_cases h : c = 0
    · rw [List.filter_cons_of_neg (by simp [h])]
      simp [h, at0]
    · rw [List.filter_cons_of_pos (by simp [h])]
      simp only [List.map_cons, List.sum_cons, List.map_nil, List.prod_cons, List.prod_nil, mul_one, at0, Nat.zero_add,
        List.getD_cons_zero]
      exact add_comm _ _

theorem zip_nil (cs : List ℤ) (i : ℕ) : (((cs.zipIdx i).filter fun (c : ℤ × ℕ) => c.1 ≠ 0).map
    fun (c : ℤ × ℕ) => ((c.1, [c.2]) : ℤ × List ℕ)) = [] ↔ ∀ c ∈ cs, c = 0 := by
  rw [List.map_eq_nil_iff, List.filter_eq_nil_iff]
  constructor
  · intro h c hc
    obtain ⟨k, hk, rfl⟩ := List.mem_iff_getElem.1 hc
    have := h (cs[k], i + k) (by rw [List.mk_mem_zipIdx_iff_le_and_getElem?_sub]; simp [hk])
    simpa using this
  · rintro h ⟨c, k⟩ hc
    have := List.fst_mem_of_mem_zipIdx hc
    simp [h c this]

theorem linear_holds (ρ : ℕ → ℤ) (cs : List ℤ) (r : ℤ) (h0 : (∀ c ∈ cs, c = 0) → r = 0) :
    (∀ e ∈ linearEquation cs r, Holds ρ e) ↔ ∑ k ∈ Finset.range cs.length, at0 cs k * ρ (k + 1) = r := by
  unfold linearEquation
  dsimp only
  split
  · rename_i h
    have h := (zip_nil cs 1).1 h
    rw [h0 h]
    simp only [List.not_mem_nil, false_implies, implies_true, true_iff]
    refine Finset.sum_eq_zero fun k hk => ?_
    rw [Finset.mem_range] at hk
    have : at0 cs k = 0 := by
      unfold at0; rw [List.getD_eq_getElem _ _ hk]; exact h _ (List.getElem_mem _)
    rw [this, zero_mul]
  · simp only [List.mem_singleton, forall_eq]
    unfold Holds
    dsimp only
    rw [zip_sum]

theorem linear_linear {cs : List ℤ} {r : ℤ} {e : Equation} (h : e ∈ linearEquation cs r) : Linear e := by
  unfold linearEquation at h
  dsimp only at h
  split at h
  · simp at h
  · rw [List.mem_singleton] at h
    subst h
    intro t ht
    obtain ⟨c, _, rfl⟩ := List.mem_map.1 ht
    rfl

theorem two_blocks (n : ℕ) (f g : ℕ → ℤ) (ρ : ℕ → ℤ) :
    ∑ k ∈ Finset.range ((List.range n).map f ++ (List.range n).map g).length,
      at0 ((List.range n).map f ++ (List.range n).map g) k * ρ (k + 1) =
    ∑ k ∈ Finset.range n, f k * ρ (k + 1) + ∑ k ∈ Finset.range n, g k * ρ (n + k + 1) := by
  rw [List.length_append, List.length_map, List.length_map, List.length_range, Finset.sum_range_add]
  congr 1
  · refine Finset.sum_congr rfl fun k hk => ?_
    rw [Finset.mem_range] at hk
    unfold at0
    rw [List.getD_append _ _ _ _ (by simpa using hk), List.getD_eq_getElem _ _ (by simpa using hk)]
    simp
  · refine Finset.sum_congr rfl fun k hk => ?_
    rw [Finset.mem_range] at hk
    unfold at0
    rw [List.getD_append_right _ _ _ _ (by simp), List.getD_eq_getElem _ _ (by simpa using hk)]
    simp

variable {n : ℕ} [NeZero n]

/-- The difference of the two cross-correlations. -/
def dif (x y : ZMod n → ℤ) (t : ZMod n) : ℤ := ccf x y t - ccf y x t

theorem ccf_shift (x y : ZMod n → ℤ) (t : ZMod n) : ccf x y t = ∑ k, x (k + t) * y k := by
  unfold ccf
  rw [← Equiv.sum_comp (Equiv.addRight t)]
  refine Finset.sum_congr rfl fun k _ => ?_
  simp

/-- The sign of an operator. -/
def opSign : OpType → ℤ
  | .leftMinus => -1
  | .rightMinus => 1
  | _ => 0

theorem op_sum {s u : List ℤ} {op : OpType} (hop : op = .leftMinus ∨ op = .rightMinus) {t : ℕ} (ht : t ≤ n) :
    ∑ k ∈ Finset.range n, opCoefficient op s k t n * at0 u k = opSign op * dif (cyc n s) (cyc n u) (t : ZMod n) := by
  rw [sum_range_zmod]
  have e1 : ∀ k : ZMod n, at0 s ((k.val + t) % n) = cyc n s (k + t) := fun k => by
    rw [← cyc_natCast]; simp
  have e2 : ∀ k : ZMod n, at0 s ((k.val + n - t) % n) = cyc n s (k - t) := fun k => by
    rw [← cyc_natCast, Nat.cast_sub (by omega)]; simp
  have e3 : ∀ k : ZMod n, at0 u k.val = cyc n u k := fun k => rfl
  unfold dif
  rw [ccf_shift (cyc n s)]
  unfold ccf
  rw [← Finset.sum_sub_distrib, Finset.mul_sum]
  refine Finset.sum_congr rfl fun k _ => ?_
  rcases hop with rfl | rfl <;> simp only [opCoefficient, e1, e2, e3, opSign] <;> ring

theorem op_even {s : List ℤ} (hs : PMSeq n s) {op : OpType} (k t : ℕ) : 2 * Int.tdiv (opCoefficient op s k t n) 2 = opCoefficient op s k t n := by
  have h1 := at0_pm hs.2 (i := (k + n - t) % n) (by rw [hs.1]; exact Nat.mod_lt _ npos)
  have h2 := at0_pm hs.2 (i := (k + t) % n) (by rw [hs.1]; exact Nat.mod_lt _ npos)
  cases op <;> simp only [opCoefficient] <;> rcases h1 with h1 | h1 <;> rcases h2 with h2 | h2 <;> rw [h1, h2] <;> decide

/-- The linear cross-correlation equations. -/
theorem cross_iff {s1 s2 u v : List ℤ} (h1 : PMSeq n s1) (h2 : PMSeq n s2) {ρ : ℕ → ℤ} (hρ : Encodes ρ n u v)
    {op1 op2 : OpType} (ho1 : op1 = .leftMinus ∨ op1 = .rightMinus) (ho2 : op2 = .leftMinus ∨ op2 = .rightMinus) :
    (∀ e ∈ equationsCrosscorrelation s1 op1 s2 op2 .plus, Holds ρ e) ↔ ∀ t : ZMod n,
      opSign op1 * dif (cyc n s1) (cyc n u) t + opSign op2 * dif (cyc n s2) (cyc n v) t = 0 := by
  rw [← forall_lt_iff]
  unfold equationsCrosscorrelation
  simp only [List.mem_flatMap, List.mem_range, h1.1]
  have key : ∀ t < n, ((∀ e ∈ linearEquation (crossCoefficients s1 op1 s2 op2 .plus t)
      ((crossCoefficients s1 op1 s2 op2 .plus t).map fun v => Int.tdiv v 2).sum, Holds ρ e) ↔
      opSign op1 * dif (cyc n s1) (cyc n u) (t : ZMod n) + opSign op2 * dif (cyc n s2) (cyc n v) (t : ZMod n) = 0) := by
    intro t ht
    rw [linear_holds]
    · unfold crossCoefficients
      dsimp only
      rw [h1.1, two_blocks, List.map_append, List.sum_append, List.map_map, List.map_map, sum_range_list, sum_range_list,
        ← op_sum ho1 (by omega), ← op_sum ho2 (by omega)]
      have q1 : 2 * ∑ k ∈ Finset.range n, opCoefficient op1 s1 k t n * ρ (k + 1) =
          ∑ k ∈ Finset.range n, opCoefficient op1 s1 k t n * at0 u k + 2 * ∑ k ∈ Finset.range n,
            ((fun v => Int.tdiv v 2) ∘ fun k => opCoefficient op1 s1 k t n) k := by
        rw [Finset.mul_sum, Finset.mul_sum, ← Finset.sum_add_distrib]
        refine Finset.sum_congr rfl fun k hk => ?_
        rw [Finset.mem_range] at hk
        have := (hρ k hk).1
        rw [Function.comp_apply, op_even h1 k t]
        unfold at0
        rw [← this]; ring
      have q2 : 2 * ∑ k ∈ Finset.range n, opCoefficient op2 s2 k t n * ρ (n + k + 1) =
          ∑ k ∈ Finset.range n, opCoefficient op2 s2 k t n * at0 v k + 2 * ∑ k ∈ Finset.range n,
            ((fun v => Int.tdiv v 2) ∘ fun k => opCoefficient op2 s2 k t n) k := by
        rw [Finset.mul_sum, Finset.mul_sum, ← Finset.sum_add_distrib]
        refine Finset.sum_congr rfl fun k hk => ?_
        rw [Finset.mem_range] at hk
        have := (hρ k hk).2
        rw [Function.comp_apply, op_even h2 k t]
        unfold at0
        rw [← this]; ring
      constructor <;> intro h <;> linarith
    · intro h0
      refine List.sum_eq_zero fun x hx => ?_
      obtain ⟨c, hc, rfl⟩ := List.mem_map.1 hx
      rw [h0 c hc]; rfl
  constructor
  · intro h t ht
    exact (key t ht).1 fun e he => h e ⟨t, ht, he⟩
  · rintro h e ⟨t, ht, he⟩
    exact (key t ht).2 (h t ht) e he

/-- The row-sum equations. -/
theorem rowsum_iff {u v : List ℤ} (hu : u.length = n) (hv : v.length = n) {ρ : ℕ → ℤ} (hρ : Encodes ρ n u v) (r1 r2 : ℤ) :
    (∀ e ∈ equationsRowsum n r1 r2, Holds ρ e) ↔ u.sum = r1 ∧ v.sum = r2 := by
  have hn : 0 < n := npos
  have hsum : ∀ l : List ℤ, l.length = n → l.sum = ∑ k ∈ Finset.range n, at0 l k := by
    intro l hl
    rw [← sum_range_list]
    congr 1
    refine List.ext_getElem (by simp [hl]) fun i h1 h2 => ?_
    simp [at0, List.getElem?_eq_getElem h1]
  have r0 : ∀ c : ℤ, List.replicate n c = (List.range n).map fun _ => c := by intro c; simp
  unfold equationsRowsum
  simp only [List.mem_append, or_imp, forall_and]
  rw [linear_holds, linear_holds, r0, r0, two_blocks, two_blocks, hsum u hu, hsum v hv]
  · have q1 : ∑ k ∈ Finset.range n, 2 * ρ (k + 1) = ∑ k ∈ Finset.range n, at0 u k + n := by
      have : ∑ k ∈ Finset.range n, 2 * ρ (k + 1) = ∑ k ∈ Finset.range n, (at0 u k + 1) :=
        Finset.sum_congr rfl fun k hk => by
          have := (hρ k (Finset.mem_range.1 hk)).1
          unfold at0; linarith
      rw [this, Finset.sum_add_distrib]; simp
    have q2 : ∑ k ∈ Finset.range n, 2 * ρ (n + k + 1) = ∑ k ∈ Finset.range n, at0 v k + n := by
      have : ∑ k ∈ Finset.range n, 2 * ρ (n + k + 1) = ∑ k ∈ Finset.range n, (at0 v k + 1) :=
        Finset.sum_congr rfl fun k hk => by
          have := (hρ k (Finset.mem_range.1 hk)).2
          unfold at0; linarith
      rw [this, Finset.sum_add_distrib]; simp
    rw [q1, q2]
    simp
  · intro h
    exact absurd (h 2 (by simp; omega)) (by decide)
  · intro h
    exact absurd (h 2 (by simp; omega)) (by decide)

/-! ### Quadratic equations -/

theorem flat_sum {f : ℕ → List (ℤ × List ℕ)} (ρ : ℕ → ℤ) (n : ℕ) :
    (((List.range' 1 n).flatMap f).map fun t => t.1 * (t.2.map ρ).prod).sum =
      ∑ k ∈ Finset.range n, ((f (k + 1)).map fun t => t.1 * (t.2.map ρ).prod).sum := by
  rw [range'_one, List.flatMap_map, List.map_flatMap]
  generalize hg : (fun k => (f (k + 1)).map fun t => t.1 * (t.2.map ρ).prod) = g
  have : ∀ n, ((List.range n).flatMap g).sum = ∑ k ∈ Finset.range n, (g k).sum := by
    intro n
    induction n with
    | zero => simp
    | succ n ih => rw [List.range_succ, List.flatMap_append, List.sum_append, ih, Finset.sum_range_succ]; simp
  rw [this, ← hg]

/-- The ±1 value of a variable. -/
def pm (ρ : ℕ → ℤ) (i : ℕ) : ℤ := 2 * ρ i - 1

variable {u v : List ℤ} {ρ : ℕ → ℤ}

theorem pm1 (hρ : Encodes ρ n u v) {k : ℕ} (hk : k < n) : pm ρ (k + 1) = at0 u k := (hρ k hk).1
theorem pm2 (hρ : Encodes ρ n u v) {k : ℕ} (hk : k < n) : pm ρ (k + 1 + n) = at0 v k := by
  rw [show k + 1 + n = n + k + 1 by omega]; exact (hρ k hk).2

theorem mod_cases {k o : ℕ} (hk : k < n) (h1 : 1 ≤ o) (h2 : o < n) :
    (k = n - 1 - o ∧ (k + 1 + o) % n = 0 ∧ (k + o) % n = n - 1) ∨
    (k ≠ n - 1 - o ∧ (k + 1 + o) % n = (k + o) % n + 1 ∧ (k + o) % n + 1 < n) := by
  by_cases h : k = n - 1 - o
  · left
    refine ⟨h, ?_, ?_⟩
    · rw [show k + 1 + o = n by omega, Nat.mod_self]
    · rw [show k + o = n - 1 by omega, Nat.mod_eq_of_lt (by omega)]
  · right
    refine ⟨h, ?_⟩
    by_cases hlt : k + o < n
    · rw [Nat.mod_eq_of_lt hlt, Nat.mod_eq_of_lt (by omega)]; omega
    · have e1 : (k + o) % n = k + o - n := by
        rw [Nat.mod_eq_sub_mod (by omega), Nat.mod_eq_of_lt (by omega)]
      have e2 : (k + 1 + o) % n = k + 1 + o - n := by
        rw [Nat.mod_eq_sub_mod (by omega), Nat.mod_eq_of_lt (by omega)]
      omega

theorem pm_io (hρ : Encodes ρ n u v) {k o : ℕ} (hk : k < n) (h1 : 1 ≤ o) (h2 : o < n) :
    pm ρ ((k + 1 + o) % n) = at0 u ((k + o) % n) + (if k = n - 1 - o then pm ρ 0 - at0 u (n - 1) else 0) := by
  rcases mod_cases hk h1 h2 with ⟨a, b, c⟩ | ⟨a, b, c⟩
  · rw [b, c, if_pos a]; ring
  · rw [b, if_neg a, pm1 hρ (by omega)]; ring

theorem pm_io' (hρ : Encodes ρ n u v) {k o : ℕ} (hk : k < n) (h1 : 1 ≤ o) (h2 : o < n) :
    pm ρ ((k + 1 + o) % n + n) = at0 v ((k + o) % n) + (if k = n - 1 - o then at0 u (n - 1) - at0 v (n - 1) else 0) := by
  rcases mod_cases hk h1 h2 with ⟨a, b, c⟩ | ⟨a, b, c⟩
  · have : pm ρ (0 + n) = at0 u (n - 1) := by
      rw [← pm1 hρ (k := n - 1) (by omega)]; congr 1; omega
    rw [b, c, if_pos a, this]; ring
  · rw [b, if_neg a, pm2 hρ (by omega)]; ring

/-- Sum with one exceptional index. -/
theorem sum_exc (f g : ℕ → ℤ) (c : ℤ) {j : ℕ} (hj : j < n) :
    ∑ k ∈ Finset.range n, f k * (g k + if k = j then c else 0) = ∑ k ∈ Finset.range n, f k * g k + f j * c := by
  simp only [mul_add, Finset.sum_add_distrib, mul_ite, mul_zero]
  rw [Finset.sum_ite_eq' , if_pos (Finset.mem_range.2 hj)]

theorem shift_sum (x y : List ℤ) (o : ℕ) :
    ∑ k ∈ Finset.range n, at0 x k * at0 y ((k + o) % n) = ccf (cyc n y) (cyc n x) (o : ZMod n) := by
  rw [sum_range_zmod, ccf_shift]
  refine Finset.sum_congr rfl fun k _ => ?_
  rw [← cyc_natCast, mul_comm]
  simp
  left; rfl

theorem paf_ccf (x : ZMod n → ℤ) (t : ZMod n) : ccf x x t = paf x t := by
  rw [ccf_shift]; unfold paf
  exact Finset.sum_congr rfl fun k _ => mul_comm _ _

/-- The autocorrelation equations. -/
theorem auto_iff {s1 s2 : List ℤ} (h1 : PMSeq n s1) (h2 : PMSeq n s2) (hρ : Encodes ρ n u v) {o : ℕ} (ho1 : 1 ≤ o) (ho2 : o < n) :
    Holds ρ (autocorrelationEquation n o (-(periodicAutocorrelation s1 o + periodicAutocorrelation s2 o))) ↔
      paf (cyc n s1) o + paf (cyc n s2) o + paf (cyc n u) o + paf (cyc n v) o +
        at0 u (n - 1 - o) * (pm ρ 0 - at0 u (n - 1)) + at0 v (n - 1 - o) * (at0 u (n - 1) - at0 v (n - 1)) = 0 := by
  unfold Holds autocorrelationEquation
  dsimp only
  rw [flat_sum, paf_eq h1, paf_eq h2]
  have e : ∀ k ∈ Finset.range n, (((fun index =>
      [((4 : ℤ), [index, (index + o) % n]), (-2, [index]), (-2, [(index + o) % n]), (4, [index + n, (index + o) % n + n]),
        (-2, [index + n]), (-2, [(index + o) % n + n])]) (k + 1)).map fun t => t.1 * (t.2.map ρ).prod).sum =
      at0 u k * (at0 u ((k + o) % n) + (if k = n - 1 - o then pm ρ 0 - at0 u (n - 1) else 0)) +
      at0 v k * (at0 v ((k + o) % n) + (if k = n - 1 - o then at0 u (n - 1) - at0 v (n - 1) else 0)) - 2 := by
    intro k hk
    rw [Finset.mem_range] at hk
    rw [← pm_io hρ hk ho1 ho2, ← pm_io' hρ hk ho1 ho2, ← pm1 hρ hk, ← pm2 hρ hk]
    simp only [List.map_cons, List.map_nil, List.sum_cons, List.sum_nil, List.prod_cons, List.prod_nil, pm]
    ring
  rw [Finset.sum_congr rfl e, Finset.sum_sub_distrib, Finset.sum_add_distrib, sum_exc _ _ _ (by omega),
    sum_exc _ _ _ (by omega), shift_sum, shift_sum, paf_ccf, paf_ccf]
  simp only [Finset.sum_const, Finset.card_range, nsmul_eq_mul]
  constructor <;> intro h <;> linarith

/-- The quadratic cross-correlation equations, with the right side that the code computes. -/
theorem gen_iff (hρ : Encodes ρ n u v) {o : ℕ} (ho1 : 1 ≤ o) (ho2 : o < n) {op : OpType}
    (hop : op = .leftMinus ∨ op = .rightMinus) {r : ℤ} (hr : r = 0) :
    Holds ρ { terms := (List.range' 1 n).flatMap fun index => generator op index o n, rhs := r } ↔
      dif (cyc n v) (cyc n u) o + at0 u (n - 1 - o) * (at0 u (n - 1) - at0 v (n - 1)) -
        at0 v (n - 1 - o) * (pm ρ 0 - at0 u (n - 1)) = 0 := by
  subst hr
  unfold Holds
  dsimp only
  rw [flat_sum]
  have key : ∑ k ∈ Finset.range n, (at0 u k * (at0 v ((k + o) % n) + (if k = n - 1 - o then at0 u (n - 1) - at0 v (n - 1) else 0)) -
      at0 v k * (at0 u ((k + o) % n) + (if k = n - 1 - o then pm ρ 0 - at0 u (n - 1) else 0))) =
      dif (cyc n v) (cyc n u) o + at0 u (n - 1 - o) * (at0 u (n - 1) - at0 v (n - 1)) -
        at0 v (n - 1 - o) * (pm ρ 0 - at0 u (n - 1)) := by
    rw [Finset.sum_sub_distrib, sum_exc _ _ _ (by omega), sum_exc _ _ _ (by omega), shift_sum, shift_sum]
    unfold dif; ring
  rcases hop with rfl | rfl
  · rw [← key]
    rw [Finset.sum_congr rfl]
    intro k hk
    rw [Finset.mem_range] at hk
    rw [← pm_io hρ hk ho1 ho2, ← pm_io' hρ hk ho1 ho2, ← pm1 hρ hk, ← pm2 hρ hk]
    simp only [generator, List.map_cons, List.map_nil, List.sum_cons, List.sum_nil, List.prod_cons, List.prod_nil, pm]
    ring
  · rw [← key, ← neg_eq_zero (a := ∑ k ∈ Finset.range n, (at0 u k * _ - _)), ← Finset.sum_neg_distrib]
    rw [Finset.sum_congr rfl]
    intro k hk
    rw [Finset.mem_range] at hk
    rw [← pm_io hρ hk ho1 ho2, ← pm_io' hρ hk ho1 ho2, ← pm1 hρ hk, ← pm2 hρ hk]
    simp only [generator, List.map_cons, List.map_nil, List.sum_cons, List.sum_nil, List.prod_cons, List.prod_nil, pm]
    ring

/-- All quadratic cross-correlation equations. -/
theorem nonlin_iff {s1 s2 : List ℤ} (h1 : PMSeq n s1) (hρ : Encodes ρ n u v) {op op' : OpType}
    (ho : op = .leftMinus ∨ op = .rightMinus) (ho' : op' = .leftMinus ∨ op' = .rightMinus) :
    (∀ e ∈ equationsNonlinear s1 s2 op op' .plus, Holds ρ e) ↔ ∀ o, 1 ≤ o → o < n →
      dif (cyc n v) (cyc n u) o + at0 u (n - 1 - o) * (at0 u (n - 1) - at0 v (n - 1)) -
        at0 v (n - 1 - o) * (pm ρ 0 - at0 u (n - 1)) = 0 := by
  have hn : 0 < n := npos
  unfold equationsNonlinear
  simp only [List.forall_mem_map, List.mem_range'_1, h1.1]
  rcases ho with rfl | rfl
  all_goals
    dsimp only
    constructor
    · intro h o a b
      exact (gen_iff hρ a b ho' (by simp [opMinus])).1 (h o ⟨a, by omega⟩)
    · rintro h o ⟨a, b⟩
      exact (gen_iff hρ a (by omega) ho' (by simp [opMinus])).2 (h o a (by omega))

/-- All autocorrelation equations. -/
theorem autos_iff {s1 s2 : List ℤ} (h1 : PMSeq n s1) (h2 : PMSeq n s2) (hρ : Encodes ρ n u v) :
    (∀ e ∈ equationsAutocorrelation s1 s2, Holds ρ e) ↔ ∀ o, 1 ≤ o → o < n →
      paf (cyc n s1) (o : ZMod n) + paf (cyc n s2) o + paf (cyc n u) o + paf (cyc n v) o +
        at0 u (n - 1 - o) * (pm ρ 0 - at0 u (n - 1)) + at0 v (n - 1 - o) * (at0 u (n - 1) - at0 v (n - 1)) = 0 := by
  have hn : 0 < n := npos
  unfold equationsAutocorrelation
  simp only [List.forall_mem_map, List.mem_range'_1, h1.1]
  constructor
  · intro h o a b
    exact (auto_iff h1 h2 hρ a b).1 (h o ⟨a, by omega⟩)
  · rintro h o ⟨a, b⟩
    exact (auto_iff h1 h2 hρ a (by omega)).2 (h o a (by omega))

theorem nonlin_not_linear {s1 s2 : List ℤ} (h1 : PMSeq n s1) {op op' : OpType} {e : Equation}
    (he : e ∈ equationsNonlinear s1 s2 op op' .plus) : ¬ Linear e := by
  unfold equationsNonlinear at he
  obtain ⟨o, ho, rfl⟩ := List.mem_map.1 he
  rw [List.mem_range'_1] at ho
  intro h
  have m : 1 ∈ List.range' 1 n := List.mem_range'_1.2 ⟨le_rfl, by have := npos (n := n); omega⟩
  have hm : ∀ t ∈ generator op' 1 o n, t.2.length = 1 := fun t ht => h t (by
    rw [h1.1]; exact List.mem_flatMap.2 ⟨1, m, ht⟩)
  cases op' <;> simp [generator] at hm

theorem autos_not_linear {s1 s2 : List ℤ} (h1 : PMSeq n s1) {e : Equation} (he : e ∈ equationsAutocorrelation s1 s2) :
    ¬ Linear e := by
  unfold equationsAutocorrelation at he
  obtain ⟨o, ho, rfl⟩ := List.mem_map.1 he
  intro h
  exact absurd (h (4, [1, (1 + o) % n]) (by
    rw [h1.1]
    exact List.mem_flatMap.2 ⟨1, List.mem_range'_1.2 ⟨le_rfl, by have := npos (n := n); omega⟩, by simp⟩)) (by simp)

/-- For complementary sequences with an amicable unknown pair, the quadratic equations say that the last entries of the
unknown sequences and the value of `x0` agree. -/
theorem quad_iff {s1 s2 : List ℤ} (h1 : PMSeq n s1) (h2 : PMSeq n s2) (hu : PMSeq n u) (hv : PMSeq n v) (hn : 2 ≤ n)
    (hρ : Encodes ρ n u v) {op op' : OpType} (ho : op = .leftMinus ∨ op = .rightMinus)
    (ho' : op' = .leftMinus ∨ op' = .rightMinus) (h0 : pm ρ 0 = 1 ∨ pm ρ 0 = -1)
    (hc : ∀ o : ℕ, 1 ≤ o → o < n →
      paf (cyc n s1) (o : ZMod n) + paf (cyc n s2) o + paf (cyc n u) o + paf (cyc n v) o = 0)
    (ha : ∀ t, dif (cyc n v) (cyc n u) t = 0) :
    ((∀ e ∈ equationsNonlinear s1 s2 op op' .plus, Holds ρ e) ∧ ∀ e ∈ equationsAutocorrelation s1 s2, Holds ρ e) ↔
      at0 u (n - 1) = at0 v (n - 1) ∧ pm ρ 0 = at0 u (n - 1) := by
  rw [nonlin_iff h1 hρ ho ho', autos_iff h1 h2 hρ]
  constructor
  · rintro ⟨a, b⟩
    have a := a 1 le_rfl (by omega)
    have b := b 1 le_rfl (by omega)
    rw [ha] at a
    rw [hc 1 le_rfl (by omega)] at b
    have p1 := at0_pm hu.2 (i := n - 1) (by rw [hu.1]; omega)
    have p2 := at0_pm hv.2 (i := n - 1) (by rw [hv.1]; omega)
    have p3 := at0_pm hu.2 (i := n - 1 - 1) (by rw [hu.1]; omega)
    have p4 := at0_pm hv.2 (i := n - 1 - 1) (by rw [hv.1]; omega)
    generalize at0 u (n - 1) = x1 at *
    generalize at0 v (n - 1) = x2 at *
    generalize at0 u (n - 1 - 1) = x3 at *
    generalize at0 v (n - 1 - 1) = x4 at *
    generalize pm ρ 0 = x5 at *
    rcases p1 with rfl | rfl <;> rcases p2 with rfl | rfl <;> rcases p3 with rfl | rfl <;> rcases p4 with rfl | rfl <;>
      rcases h0 with rfl | rfl <;> revert a b <;> norm_num
  · rintro ⟨a, b⟩
    constructor
    · intro o o1 o2
      rw [ha, b, a]; ring
    · intro o o1 o2
      rw [hc o o1 o2, b, a]; ring

end Proofs.Eqs
