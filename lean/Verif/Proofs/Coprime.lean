import Verif.Proofs.Family

/-!
# The coprimality test, the table, and the automorphism operation
-/

set_option linter.unusedSectionVars false
set_option linter.unusedVariables false

namespace Proofs
open Model Spec

theorem coprimeLoop_eq (fuel a b : ℕ) (h : b < fuel) : coprimeLoop fuel a b = Nat.gcd a b := by
  induction fuel generalizing a b with
  | zero => omega
  | succ fuel ih =>
    unfold coprimeLoop
    split
    · next hb =>
      have hlt : a % b < b := Nat.mod_lt _ (by omega)
      rw [ih b (a % b) (by omega), Nat.gcd_comm a b, Nat.gcd_rec b a, Nat.gcd_comm]
    · next hb =>
      have : b = 0 := by omega
      subst this; simp

theorem coprime_iff (a b : ℕ) : coprime a b = true ↔ Nat.gcd a b = 1 := by
  unfold coprime
  split
  next x y h =>
  split at h <;> simp only [Prod.mk.injEq] at h <;> obtain ⟨rfl, rfl⟩ := h
  · rw [decide_eq_true_iff, coprimeLoop_eq _ _ _ (by omega), Nat.gcd_comm]
  · rw [decide_eq_true_iff, coprimeLoop_eq _ _ _ (by omega)]

theorem COPRIMES_length : COPRIMES.length = 101 := by simp [COPRIMES]

theorem COPRIMES_row {m : ℕ} (h1 : 1 ≤ m) (h2 : m ≤ 100) :
    COPRIMES.getD m [] = (List.range' 1 m).filter fun j => coprime m j := by
  obtain ⟨k, rfl⟩ : ∃ k, m = k + 1 := ⟨m - 1, by omega⟩
  have : k < 100 := by omega
  simp [COPRIMES, List.getD_eq_getElem?_getD, this, Nat.add_comm]

theorem mem_COPRIMES {m : ℕ} (h1 : 1 ≤ m) (h2 : m ≤ 100) (k : ℕ) :
    k ∈ COPRIMES.getD m [] ↔ 1 ≤ k ∧ k ≤ m ∧ Nat.gcd m k = 1 := by
  rw [COPRIMES_row h1 h2, List.mem_filter, List.mem_range'_1, coprime_iff]
  omega

theorem COPRIMES_sorted {m : ℕ} (h1 : 1 ≤ m) (h2 : m ≤ 100) : (COPRIMES.getD m []).Pairwise (· < ·) := by
  rw [COPRIMES_row h1 h2]
  exact (List.pairwise_lt_range' (s := 1) (n := m) (step := 1)).filter _

variable {n : ℕ} [NeZero n]

theorem automorphism_is (hn : n ≤ 100) : OpIs n equivalentAutomorphism fun f g => ∃ u, g = autAll u f := by
  intro s hs t
  have h0 := npos (n := n)
  have key : ∀ (k : ℕ) (u : (ZMod n)ˣ), (u : ZMod n) = (k : ZMod n) →
      mapAll s (fun l => permute l k) = ofFam n (autAll u (fam n s)) := by
    intro k u hu
    refine mapAll_eq hs (fun t => by rw [permute, tab_length, hs.len]) fun t i => ?_
    rw [cyc_permute (hs.len t), autAll, fam_apply, hu]
  unfold equivalentAutomorphism
  rw [List.mem_cons, List.mem_map, hs.size]
  refine or_congr Iff.rfl ⟨?_, ?_⟩
  · rintro ⟨k, hk, rfl⟩
    rw [mem_COPRIMES h0 hn] at hk
    exact ⟨_, ⟨ZMod.unitOfCoprime k (Nat.coprime_iff_gcd_eq_one.2 hk.2.2).symm, rfl⟩,
      key k _ (ZMod.coe_unitOfCoprime _ _)⟩
  · rintro ⟨g, ⟨u, rfl⟩, rfl⟩
    by_cases h1 : n = 1
    · refine ⟨1, (mem_COPRIMES h0 hn 1).2 (by simp; omega), key 1 u ?_⟩
      have : Subsingleton (ZMod n) := by subst h1; infer_instance
      exact Subsingleton.elim _ _
    · refine ⟨(u : ZMod n).val, (mem_COPRIMES h0 hn _).2 ⟨?_, (ZMod.val_lt _).le, ?_⟩, key _ u (by simp)⟩
      · have : Nontrivial (ZMod n) := ZMod.nontrivial_iff.2 h1
        have : (u : ZMod n).val ≠ 0 := by rw [Ne, ZMod.val_eq_zero]; exact u.ne_zero
        omega
      · rw [Nat.gcd_comm]; exact ZMod.val_coe_unit_coprime u

end Proofs
