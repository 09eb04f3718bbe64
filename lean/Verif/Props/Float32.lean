import Verif.Proofs.Float32
import Verif.Props.Matrices
import Verif.Props.Sequences

/-!
# Property C57: single-precision arithmetic is exact on the alphabet
-/

namespace Props
open Model Spec Proofs
open scoped Quaternion

/-- Round to nearest is exact on representable numbers, so the theorems below apply to it. -/
theorem C57_nearest {rd : ℚ → ℚ} (h : RoundNearest rd) : ExactRounding rd := by
  intro x hr
  have hx : |x| ≤ (2 ^ 24 - 1) * 2 ^ 104 := by
    obtain ⟨m, e, hm, -, he, rfl⟩ := hr
    have h1 : |(m : ℚ)| ≤ 2 ^ 24 - 1 := by
      have : |m| ≤ 2 ^ 24 - 1 := by omega
      exact_mod_cast this
    have h2 : (2 : ℚ) ^ e ≤ 2 ^ 104 := by
      have := zpow_le_zpow_right₀ (by norm_num : (1 : ℚ) ≤ 2) he
      exact_mod_cast this
    rw [abs_mul, abs_of_pos (zpow_pos (by norm_num : (0 : ℚ) < 2) e)]
    exact mul_le_mul h1 h2 (zpow_pos (by norm_num : (0 : ℚ) < 2) e).le (by norm_num)
  have := (h x hx).2 x hr
  rw [sub_self, abs_zero] at this
  exact sub_eq_zero.1 (abs_eq_zero.1 (le_antisymm this (abs_nonneg _)))

/-- C57. The 24 quaternions computed by the program are the exact ones. -/
theorem C57_table {rd : ℚ → ℚ} (h : ExactRounding rd) : F32.q24 rd = Q24 := by
  have c : ∀ p ∈ [QQ, QSc, QI, QJ, QK, -QI, -QJ, -QK], p ∈ Q24 := by decide +kernel
  have m : ∀ p ∈ [QQ, QSc], ∀ q ∈ [QI, QJ, QK, -QI, -QJ, -QK], F32.mul rd p q = p * q := by
    intro p hp q hq
    refine F32.mul_exact h (F32.comp24 (c p ?_)) (F32.comp24 (c q ?_))
    · simp only [List.mem_cons, List.not_mem_nil, or_false] at hp ⊢; tauto
    · simp only [List.mem_cons, List.not_mem_nil, or_false] at hq ⊢; tauto
  have s : ∀ p ∈ [QQ, QSc], F32.smul rd p (-1) = p.smul (-1) := by
    intro p hp
    have := (F32.smul_exact h (c p (by simp only [List.mem_cons, List.not_mem_nil, or_false] at hp ⊢; tauto)) 1).1
    simpa [QS.sgn] using this
  unfold F32.q24 Q24
  rw [s QQ (by simp), s QSc (by simp), m QQ (by simp) QI (by simp), m QQ (by simp) QJ (by simp),
    m QQ (by simp) QK (by simp), m QQ (by simp) (-QI) (by simp), m QQ (by simp) (-QJ) (by simp),
    m QQ (by simp) (-QK) (by simp), m QSc (by simp) QI (by simp), m QSc (by simp) QJ (by simp),
    m QSc (by simp) QK (by simp), m QSc (by simp) (-QI) (by simp), m QSc (by simp) (-QJ) (by simp),
    m QSc (by simp) (-QK) (by simp)]

/-- C57. Autocorrelations of sequences over the alphabet are computed exactly up to length `2^23`. -/
theorem C57_autocorrelation (n : ℕ) [NeZero n] (hn : n ≤ 2 ^ 23) {rd : ℚ → ℚ} (h : ExactRounding rd) (q : QS)
    (hs : q.size = n) (hl : q.values.length = n) (h24 : ∀ x ∈ q.values, x ∈ Q24) (t : ℕ) :
    toH (F32.periodicAutocorrelation rd q t) = qpaf (qcyc n q.values) (t : ZMod n) := by
  rw [F32.paf_exact h q (by omega) h24 (by omega)]
  exact toH_paf q hs t

/-- C57 for the odd autocorrelation. -/
theorem C57_odd_autocorrelation (n : ℕ) [NeZero n] (hn : n ≤ 2 ^ 23) {rd : ℚ → ℚ} (h : ExactRounding rd) (q : QS)
    (hs : q.size = n) (hl : q.values.length = n) (h24 : ∀ x ∈ q.values, x ∈ Q24) (t : ℕ) :
    toH (F32.oddPeriodicAutocorrelation rd q t) = oddPaf n q.values t := by
  rw [F32.odd_exact h q (by omega) h24 (by omega)]
  exact toH_oddPaf q hs t

/-- C57. The comparisons with zero in single precision decide perfection exactly. -/
theorem C57_perfect (n : ℕ) [NeZero n] (hn : n ≤ 2 ^ 23) {rd : ℚ → ℚ} (h : ExactRounding rd) (q : QS)
    (hs : q.size = n) (hl : q.values.length = n) (h24 : ∀ x ∈ q.values, x ∈ Q24) :
    (F32.isPerfect rd q = true ↔ Perfect (qcyc n q.values)) ∧
      (F32.isOddPerfect rd q = true ↔ OddPerfect n q.values) := by
  have e1 : F32.isPerfect rd q = q.isPerfect := by
    unfold F32.isPerfect QS.isPerfect
    simp only [F32.paf_exact h q (by omega) h24 (by omega)]
  have e2 : F32.isOddPerfect rd q = q.isOddPerfect := by
    unfold F32.isOddPerfect QS.isOddPerfect
    simp only [F32.odd_exact h q (by omega) h24 (by omega)]
  rw [e1, e2]
  exact ⟨C01_isPerfect_iff n q hs hl, C02_isOddPerfect_iff n q hs hl⟩

/-- C57. Verification of quaternionic matrices in single precision decides `M M* = n I`. -/
theorem C57_verify {rd : ℚ → ℚ} (h : ExactRounding rd) (m : QHM) (hn : m.size ≤ 2 ^ 22)
    (h24 : ∀ i j, i < m.size → j < m.size → m.get i j ∈ Q24) :
    F32.qhmVerify rd m = true ↔ IsQHadamard (qmat m.size m.matrix) := by
  rw [F32.verify_exact h m h24 hn]
  exact C39_verify_iff m h24

/-- A rounding that is not the identity. -/
noncomputable def exRounding (x : ℚ) : ℚ := by
  classical exact if Representable x then x else 0

theorem exRounding_exact : ExactRounding exRounding := fun _ h => if_pos h

example : exRounding (2 ^ 24 + 1) = 0 := if_neg F32.not_rep

example : F32.isPerfect exRounding { size := 5, values := [Q1, Q1, QI, QQ.smul (-1), QI], symmetry := none } = true := by
  refine ((C57_perfect 5 (by norm_num) exRounding_exact _ rfl rfl (by decide +kernel)).1).2 ?_
  exact (C01_isPerfect_iff 5 _ rfl rfl).1 (by decide +kernel)

example : F32.qhmVerify exRounding (QHM.fromPqs { size := 5, values := [Q1, Q1, QI, QQ.smul (-1), QI], symmetry := none }) =
    true := by
  have h24 : ∀ i < 5, ∀ j < 5, (QHM.fromPqs
      { size := 5, values := [Q1, Q1, QI, QQ.smul (-1), QI], symmetry := none }).get i j ∈ Q24 := by decide +kernel
  rw [F32.verify_exact exRounding_exact _ (fun i j hi hj => h24 i hi j hj) (by decide +kernel)]
  decide +kernel

/-- C57. A bound is needed: on the constant sequence of a length that is not a single-precision number, no rounding into
single precision gives the exact autocorrelation. -/
theorem C57_limit (n : ℕ) [NeZero n] (hn : ¬ Representable n) {rd : ℚ → ℚ} (h : ∀ x, Representable (rd x)) (t : ℕ) :
    toH (F32.periodicAutocorrelation rd { size := n, values := List.replicate n Q1, symmetry := none } t)
      ≠ qpaf (qcyc n (List.replicate n Q1)) (t : ZMod n) := by
  intro H
  have hr : ∀ i : ZMod n, qcyc n (List.replicate n Q1) i = 1 := by
    intro i
    unfold qcyc
    rw [List.getD_eq_getElem _ _ (by rw [List.length_replicate]; exact ZMod.val_lt i), List.getElem_replicate]
    exact QHad.toH_Q1
  have e : qpaf (qcyc n (List.replicate n Q1)) (t : ZMod n) = ((n : ℕ) : ℍ[ℚ]) := by
    unfold qpaf
    simp only [hr, star_one, mul_one, Finset.sum_const, Finset.card_univ, ZMod.card, nsmul_eq_mul]
  rw [e] at H
  have w : (F32.periodicAutocorrelation rd
      { size := n, values := List.replicate n Q1, symmetry := none } t).w = n := by
    have := congrArg (fun z : ℍ[ℚ] => z.re) H
    simpa [toH] using this
  apply hn
  rw [← w]
  obtain ⟨k, rfl⟩ : ∃ k, n = k + 1 := ⟨n - 1, by have := NeZero.ne n; omega⟩
  unfold F32.periodicAutocorrelation
  dsimp only
  rw [List.range_succ, List.foldl_append]
  simp only [List.foldl_cons, List.foldl_nil]
  exact h _

/-- The hypotheses of `C57_limit` are met at length `2^24 + 1`, by a rounding that the theorems above also cover. -/
example : ¬ Representable ((2 ^ 24 + 1 : ℕ) : ℚ) ∧ ExactRounding exRounding ∧ ∀ x, Representable (exRounding x) := by
  refine ⟨by have := F32.not_rep; norm_num at this ⊢; exact this, exRounding_exact, fun x => ?_⟩
  unfold exRounding
  split
  · assumption
  · exact ⟨0, 0, by norm_num, by norm_num, by norm_num, by norm_num⟩

end Props
