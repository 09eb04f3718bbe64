import Verif.Spec.Perturbed
import Verif.Proofs.Gap
import Verif.Proofs.Prime

/-!
# Helper lemmas: arithmetics that satisfy the error model
-/

set_option linter.unusedSectionVars false
set_option linter.unusedVariables false
set_option linter.unusedSimpArgs false

namespace Proofs.Perturbed
open Model Spec Proofs Proofs.Fourier Proofs.Rounding Complex

variable {n : ℕ} [NeZero n]

theorem perturbed_dft (δ : ℝ) {x : List ℤ} (hx : x.length = n) :
    dftSequence (perturbedFl δ) x = (List.range (n / 2 + 1)).map fun k => ((dft n x k).re + δ, (dft n x k).im) := by
  have := exact_dft hx
  unfold dftSequence at this ⊢
  change (exactFl.r2c (x.map fun v => exactFl.ofInt v)).map _ = _
  rw [this, List.map_map]
  rfl

theorem self_err {e : ℝ} (he : 0 ≤ e) (a b : ℝ) : |a - a| ≤ e * (|b| + 1) := by
  rw [sub_self, abs_zero]; positivity

theorem perturbed_model {δ e B : ℝ} (h0 : 0 ≤ δ) (he : δ ≤ e) :
    FloatModel (perturbedFl δ) id (fun _ => True) n B e where
  ofInt z _ := ⟨trivial, rfl⟩
  lit a b _ _ := ⟨trivial, by simp [perturbedFl, exactFl]; linarith⟩
  add x y _ _ _ _ := ⟨trivial, self_err (h0.trans he) _ _⟩
  sub x y _ _ _ _ := ⟨trivial, self_err (h0.trans he) _ _⟩
  mul x y _ _ _ := ⟨trivial, self_err (h0.trans he) _ _⟩
  div x y _ _ _ _ := ⟨trivial, self_err (h0.trans he) _ _⟩
  neg x _ := ⟨trivial, rfl⟩
  abs x _ := ⟨trivial, rfl⟩
  gt x y _ _ := by simp [perturbedFl, exactFl]
  round x _ _ := Gap.round_dist x
  r2c x hx := by
    have hd : (perturbedFl δ).r2c (x.map fun v => (perturbedFl δ).ofInt v) = _ := perturbed_dft δ hx.1
    rw [hd]
    refine ⟨by simp, fun k hk z hz => ⟨trivial, trivial, ?_⟩⟩
    rw [List.getElem?_map, List.getElem?_range (by omega)] at hz
    obtain rfl := Option.some.inj hz
    simp only [id]
    constructor
    · rw [add_sub_cancel_left, abs_of_nonneg h0]; exact he
    · rw [sub_self, abs_zero]; linarith
  c2r_length X := by simp [perturbedFl, exactFl]
  c2r X _ _ t ht y hy := by
    refine ⟨trivial, ?_⟩
    simp only [perturbedFl, exactFl, List.getElem?_map] at hy
    rw [List.getElem?_range ht] at hy
    obtain rfl := Option.some.inj hy
    simp only [id, Prod.mk.eta, List.map_id']
    rw [sub_self, abs_zero]
    refine mul_nonneg (h0.trans he) (add_nonneg (List.sum_nonneg fun a ha => ?_) zero_le_one)
    obtain ⟨z, _, rfl⟩ := List.mem_map.1 ha
    positivity

theorem exact_eq : perturbedFl 0 = exactFl := by
  unfold perturbedFl
  simp only [add_zero, Prod.mk.eta, List.map_id']

theorem exact_model {e B : ℝ} (he : 0 ≤ e) : FloatModel exactFl id (fun _ => True) n B e := by
  rw [← exact_eq]; exact perturbed_model le_rfl he

/-- The pair `([1, -1], [1, -1])` is rejected. -/
theorem perturbed_rejects {δ : ℝ} (h : 0 < δ) :
    boundExceeded (perturbedFl δ) ((dftSequence (perturbedFl δ) [1, -1]).map (perturbedFl δ).normSqr)
      ((dftSequence (perturbedFl δ) [1, -1]).map (perturbedFl δ).normSqr)
      ((perturbedFl δ).mul ((perturbedFl δ).lit 4 1) ((perturbedFl δ).ofInt (2 : ℕ))) = true := by
  have hu : ∀ m : ℤ, unit 2 m = ψ (n := 2) (m : ZMod 2) := unit_eq
  have hs : (∑ t : ZMod 2, ψ (n := 2) t) = 0 := by
    have := orthogonality (n := 2) 1
    simpa using this
  have e0 : ψ (n := 2) 0 = 1 := AddChar.map_zero_eq_one _
  have e1 : ψ (n := 2) 1 = -1 := by
    have hu2 : (Finset.univ : Finset (ZMod 2)) = {0, 1} := rfl
    rw [hu2, Finset.sum_insert (by decide), Finset.sum_singleton, e0] at hs
    linear_combination hs
  have hd : dft 2 [1, -1] 1 = 2 := by
    unfold dft
    rw [Finset.sum_range_succ, Finset.sum_range_succ, Finset.sum_range_zero, hu, hu]
    have n1 : ((-((1 * 1 : ℕ) : ℤ) : ℤ) : ZMod 2) = 1 := by decide
    have n0 : ((-((0 * 1 : ℕ) : ℤ) : ℤ) : ZMod 2) = 0 := by decide
    rw [n1, n0, e0, e1]
    norm_num
  rw [perturbed_dft (n := 2) δ rfl]
  unfold boundExceeded
  simp only [Nat.reduceDiv, Nat.reduceAdd, List.range_succ, List.range_zero, List.nil_append, List.cons_append,
    List.map_cons, List.map_nil, List.zip_cons_cons, List.zip_nil_right, List.drop_succ_cons, List.drop_zero,
    List.any_cons, List.any_nil, Bool.or_false, hd]
  simp [Fl.normSqr, perturbedFl, exactFl]
  nlinarith

end Proofs.Perturbed
