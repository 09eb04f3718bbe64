import Verif.Proofs.DoubleEval
import Verif.Props.Sequences

/-!
# Property C76 in double precision
-/

namespace Props
open Model Spec Proofs

/-- A Williamson-type quadruple of length 8. -/
def quad8 : QuadSeq := ⟨8, [-1, -1, 1, 1, 1, 1, -1, -1], [-1, -1, 1, -1, -1, -1, 1, -1],
  [-1, -1, 1, -1, -1, -1, 1, -1], [1, -1, 1, -1, -1, 1, -1, 1]⟩

theorem quad8_pm : PMQuad 8 quad8 := ⟨rfl, by decide, by decide, by decide, by decide⟩

theorem quad8_wts : IsWTS 8 quad8 := (C08_verify_wts 8 _ quad8_pm).1 (by decide +kernel)

/-- C76 is false in double precision, with every rule for ties: at length 8 the filter discards a pair of a
Williamson-type quadruple. The power spectra of the pair add up to exactly 32 at frequency 1, and the computed sum is
larger. -/
theorem C76_double_fails (rd : ℝ → ℝ) (h : NearestDouble rd) :
    ¬ FilterSafe (doubleFl rd) 8 ∧
      filteredCouplesPsds (doubleFl rd) [quad8.a] [quad8.d]
        ((doubleFl rd).mul ((doubleFl rd).lit 4 1) ((doubleFl rd).ofInt (8 : ℕ))) = [] ∧
      IsWTS 8 quad8 := by
  have hr := DoubleEval.discards h quad8_pm.a quad8_pm.d
    (U := (DoubleEval.psdS quad8.a).getD []) (V := (DoubleEval.psdS quad8.d).getD [])
    (W := (DoubleEval.opS (· + ·) ((DoubleEval.psdS quad8.a).getD []) ((DoubleEval.psdS quad8.d).getD [])).getD [])
    (by decide +kernel) (by decide +kernel) (by decide +kernel) (by decide +kernel)
  refine ⟨fun hF => ?_, ?_, quad8_wts⟩
  · have := hF _ quad8_pm quad8_wts.2.1 .W .Z (by decide)
    exact absurd (hr.symm.trans this) (by decide)
  · unfold filteredCouplesPsds pairData
    simp only [List.zipIdx_cons, List.zipIdx_nil, List.flatMap_cons, List.flatMap_nil, List.filterMap_cons,
      List.filterMap_nil, hr, if_true, List.append_nil]

/-- A rounding as in `C76_double_fails` exists. -/
example : ∃ rd, NearestDouble rd := Binary64.exists_nearest

end Props
