import Verif.Spec.Letters
import Verif.Proofs.Convert
import Verif.Proofs.Rowsum

/-!
# Perfect sequences over the sixteen letters: coordinates, rotations and the link with quadruples
-/

set_option linter.unusedSectionVars false
set_option linter.unusedVariables false
set_option linter.unusedSimpArgs false
set_option linter.unusedTactic false

namespace Proofs.Letters
open Model Spec Proofs
open scoped Quaternion

/-! ## Coordinates -/

/-! ## Components -/

theorem qi_c : qi.re = 0 ∧ qi.imI = 1 ∧ qi.imJ = 0 ∧ qi.imK = 0 := ⟨rfl, rfl, rfl, rfl⟩
theorem qj_c : qj.re = 0 ∧ qj.imI = 0 ∧ qj.imJ = 1 ∧ qj.imK = 0 := ⟨rfl, rfl, rfl, rfl⟩
theorem qk_c : qk.re = 0 ∧ qk.imI = 0 ∧ qk.imJ = 0 ∧ qk.imK = 1 := ⟨rfl, rfl, rfl, rfl⟩
theorem qq_c : qq.re = 1 / 2 ∧ qq.imI = 1 / 2 ∧ qq.imJ = 1 / 2 ∧ qq.imK = 1 / 2 := ⟨rfl, rfl, rfl, rfl⟩

/-- The outer unit of a tag. -/
def axis : Tag → ℍ[ℚ]
  | .W => ⟨-1 / 2, 1 / 2, 1 / 2, 1 / 2⟩
  | .X => ⟨-1 / 2, -1 / 2, 1 / 2, -1 / 2⟩
  | .Y => ⟨-1 / 2, -1 / 2, -1 / 2, 1 / 2⟩
  | .Z => ⟨-1 / 2, 1 / 2, -1 / 2, -1 / 2⟩

theorem axis_c : ((axis .W).re = -1 / 2 ∧ (axis .W).imI = 1 / 2 ∧ (axis .W).imJ = 1 / 2 ∧ (axis .W).imK = 1 / 2) ∧
    ((axis .X).re = -1 / 2 ∧ (axis .X).imI = -1 / 2 ∧ (axis .X).imJ = 1 / 2 ∧ (axis .X).imK = -1 / 2) ∧
    ((axis .Y).re = -1 / 2 ∧ (axis .Y).imI = -1 / 2 ∧ (axis .Y).imJ = -1 / 2 ∧ (axis .Y).imK = 1 / 2) ∧
    ((axis .Z).re = -1 / 2 ∧ (axis .Z).imI = 1 / 2 ∧ (axis .Z).imJ = -1 / 2 ∧ (axis .Z).imK = -1 / 2) :=
  ⟨⟨rfl, rfl, rfl, rfl⟩, ⟨rfl, rfl, rfl, rfl⟩, ⟨rfl, rfl, rfl, rfl⟩, ⟨rfl, rfl, rfl, rfl⟩⟩

/-- The quaternion with given coordinates. -/
def lw (v : Tag → ℚ) : ℍ[ℚ] :=
  ⟨(-v .W - v .X - v .Y - v .Z) / 4, (v .W - v .X - v .Y + v .Z) / 4, (v .W + v .X - v .Y - v .Z) / 4,
    (v .W - v .X + v .Y - v .Z) / 4⟩

theorem lw_c (v : Tag → ℚ) : (lw v).re = (-v .W - v .X - v .Y - v .Z) / 4 ∧ (lw v).imI = (v .W - v .X - v .Y + v .Z) / 4 ∧
    (lw v).imJ = (v .W + v .X - v .Y - v .Z) / 4 ∧ (lw v).imK = (v .W - v .X + v .Y - v .Z) / 4 := ⟨rfl, rfl, rfl, rfl⟩

/-- The coordinates of a quaternion. -/
def co (x : ℍ[ℚ]) : Tag → ℚ
  | .W => -x.re + x.imI + x.imJ + x.imK
  | .X => -x.re - x.imI + x.imJ - x.imK
  | .Y => -x.re - x.imI - x.imJ + x.imK
  | .Z => -x.re + x.imI - x.imJ - x.imK

theorem co_lw (v : Tag → ℚ) : co (lw v) = v := by
  funext t; cases t <;> simp only [co, lw] <;> ring

theorem lw_co (x : ℍ[ℚ]) : lw (co x) = x := by
  ext <;> simp only [co, lw] <;> ring

theorem lw_inj {v w : Tag → ℚ} (h : lw v = lw w) : v = w := by rw [← co_lw v, h, co_lw]

theorem co_inj {x y : ℍ[ℚ]} (h : co x = co y) : x = y := by rw [← lw_co x, h, lw_co]

theorem mem_iff (a : ℍ[ℚ]) : a ∈ Alphabet ↔ ∀ t, co a t = 1 ∨ co a t = -1 := by
  constructor
  · rintro ⟨c, hc⟩
    unfold readmeLetter at hc
    split at hc <;> first | (cases hc; intro t; cases t <;> simp [co, qi_c, qj_c, qk_c, qq_c] <;> norm_num) | cases hc
  · intro h
    have key : ∀ w x y z : ℚ, (w = 1 ∨ w = -1) → (x = 1 ∨ x = -1) → (y = 1 ∨ y = -1) → (z = 1 ∨ z = -1) →
        ∃ c, readmeLetter c = some (⟨(-w - x - y - z) / 4, (w - x - y + z) / 4, (w + x - y - z) / 4, (w - x + y - z) / 4⟩ : ℍ[ℚ]) := by
      intro w x y z hw hx hy hz
      have hq : ∀ c ∈ ['+', '-', 'i', 'I', 'j', 'J', 'k', 'K', 'q', 'Q', 'x', 'X', 'y', 'Y', 'z', 'Z'], True := fun _ _ => trivial
      rcases hw with rfl | rfl <;> rcases hx with rfl | rfl <;> rcases hy with rfl | rfl <;> rcases hz with rfl | rfl
      all_goals first
        | refine ⟨'+', congrArg some ?_⟩; ext <;> simp [qi_c, qj_c, qk_c, qq_c] <;> norm_num; done
        | refine ⟨'-', congrArg some ?_⟩; ext <;> simp [qi_c, qj_c, qk_c, qq_c] <;> norm_num; done
        | refine ⟨'i', congrArg some ?_⟩; ext <;> simp [qi_c, qj_c, qk_c, qq_c] <;> norm_num; done
        | refine ⟨'j', congrArg some ?_⟩; ext <;> simp [qi_c, qj_c, qk_c, qq_c] <;> norm_num; done
        | refine ⟨'k', congrArg some ?_⟩; ext <;> simp [qi_c, qj_c, qk_c, qq_c] <;> norm_num; done
        | refine ⟨'I', congrArg some ?_⟩; ext <;> simp [qi_c, qj_c, qk_c, qq_c] <;> norm_num; done
        | refine ⟨'J', congrArg some ?_⟩; ext <;> simp [qi_c, qj_c, qk_c, qq_c] <;> norm_num; done
        | refine ⟨'K', congrArg some ?_⟩; ext <;> simp [qi_c, qj_c, qk_c, qq_c] <;> norm_num; done
        | refine ⟨'q', congrArg some ?_⟩; ext <;> simp [qi_c, qj_c, qk_c, qq_c] <;> norm_num; done
        | refine ⟨'x', congrArg some ?_⟩; ext <;> simp [qi_c, qj_c, qk_c, qq_c] <;> norm_num; done
        | refine ⟨'y', congrArg some ?_⟩; ext <;> simp [qi_c, qj_c, qk_c, qq_c] <;> norm_num; done
        | refine ⟨'z', congrArg some ?_⟩; ext <;> simp [qi_c, qj_c, qk_c, qq_c] <;> norm_num; done
        | refine ⟨'Q', congrArg some ?_⟩; ext <;> simp [qi_c, qj_c, qk_c, qq_c] <;> norm_num; done
        | refine ⟨'X', congrArg some ?_⟩; ext <;> simp [qi_c, qj_c, qk_c, qq_c] <;> norm_num; done
        | refine ⟨'Y', congrArg some ?_⟩; ext <;> simp [qi_c, qj_c, qk_c, qq_c] <;> norm_num; done
        | refine ⟨'Z', congrArg some ?_⟩; ext <;> simp [qi_c, qj_c, qk_c, qq_c] <;> norm_num; done
    obtain ⟨c, hc⟩ := key _ _ _ _ (h .W) (h .X) (h .Y) (h .Z)
    exact ⟨c, by rw [hc, ← lw_co a, co_lw]; rfl⟩

/-- Coordinates are inner products with the outer units. -/
theorem co_inner (x : ℍ[ℚ]) (t : Tag) : co x t = 2 * inner4 x (axis t) := by
  unfold inner4
  cases t <;> simp [co, axis_c] <;> ring_nf

theorem co_axis (t u : Tag) : co (axis t) u = if u = t then 2 else 0 := by
  cases t <;> cases u <;> simp [co, axis_c] <;> norm_num

/-- The outer units are, up to sign, the axes. -/
theorem outer_iff (e : ℍ[ℚ]) : OuterUnit e ↔ ∃ t, e = axis t ∨ e = -axis t := by
  unfold OuterUnit
  simp only [List.forall_mem_cons, List.not_mem_nil, false_imp_iff, implies_true, and_true]
  constructor
  · rintro ⟨⟨h0, h1, h2, h3⟩, hn⟩
    rw [mem_iff] at hn
    rcases h0 with h0 | h0 <;> rcases h1 with h1 | h1 <;> rcases h2 with h2 | h2 <;> rcases h3 with h3 | h3
    all_goals first
      | (exfalso; refine hn fun t => ?_; cases t <;> simp only [co, h0, h1, h2, h3] <;> norm_num; done)
      | (refine ⟨.W, .inl ?_⟩; ext <;> simp only [axis_c, h0, h1, h2, h3]; done)
      | (refine ⟨.X, .inl ?_⟩; ext <;> simp only [axis_c, h0, h1, h2, h3]; done)
      | (refine ⟨.Y, .inl ?_⟩; ext <;> simp only [axis_c, h0, h1, h2, h3]; done)
      | (refine ⟨.Z, .inl ?_⟩; ext <;> simp only [axis_c, h0, h1, h2, h3]; done)
      | (refine ⟨.W, .inr ?_⟩; ext <;> simp [axis_c, h0, h1, h2, h3] <;> norm_num; done)
      | (refine ⟨.X, .inr ?_⟩; ext <;> simp [axis_c, h0, h1, h2, h3] <;> norm_num; done)
      | (refine ⟨.Y, .inr ?_⟩; ext <;> simp [axis_c, h0, h1, h2, h3] <;> norm_num; done)
      | (refine ⟨.Z, .inr ?_⟩; ext <;> simp [axis_c, h0, h1, h2, h3] <;> norm_num; done)
  · have hc : ∀ t u, co (-axis t) u = -co (axis t) u := by
      intro t u; cases u <;> simp [co] <;> ring
    have hn : ∀ t, axis t ∉ Alphabet ∧ -axis t ∉ Alphabet := by
      intro t
      constructor <;> rw [mem_iff] <;> intro h <;> have := h t
      · rw [co_axis, if_pos rfl] at this
        norm_num at this
      · rw [hc, co_axis, if_pos rfl] at this
        norm_num at this
    rintro ⟨t, rfl | rfl⟩
    · refine ⟨?_, (hn t).1⟩
      cases t <;> simp [axis_c]
    · refine ⟨?_, (hn t).2⟩
      cases t <;> simp [axis_c] <;> norm_num

end Proofs.Letters
