import Verif.Spec.Rounding

/-!
# Specification: an arithmetic with a small error in the forward transform
-/

namespace Spec
open Model

/-- Exact arithmetic, except that the real parts of the forward transform are too large by `δ`. -/
noncomputable def perturbedFl (δ : ℝ) : Fl ℝ :=
  { exactFl with r2c := fun l => (exactFl.r2c l).map fun z => (z.1 + δ, z.2) }

end Spec
