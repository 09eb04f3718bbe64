import Verif.Spec.Linear

/-!
# Specification: the fast transform by factors of the length

The algorithm of Cooley and Tukey with any factors: the transform of length `p m` from `p` transforms of length `m`, of
every `p`-th entry each. It is one of the computations that a transform library may use.
-/

namespace Spec
open Model

/-- A sum of complex numbers, the first `m + 1` of a sequence, from left to right. -/
def csum (t : ℕ → Lin × Lin) : ℕ → Lin × Lin
  | 0 => t 0
  | m + 1 => (.add (csum t m).1 (t (m + 1)).1, .add (csum t m).2 (t (m + 1)).2)

section
variable (rd : ℝ → ℝ)

/-- Multiplication of a complex number by a stored number `exp (i θ)`. -/
noncomputable def twist (θ : ℝ) (z : Lin × Lin) : Lin × Lin :=
  (.sub (.scale (Real.cos θ) (rd (Real.cos θ)) z.1) (.scale (Real.sin θ) (rd (Real.sin θ)) z.2),
   .add (.scale (Real.cos θ) (rd (Real.cos θ)) z.2) (.scale (Real.sin θ) (rd (Real.sin θ)) z.1))

/-- The angle `2 π m / n`. -/
noncomputable def turnAngle (n : ℕ) (m : ℤ) : ℝ := 2 * Real.pi * m / n

/-- The fast transform with the given factors at frequency `k`; `sg` is the sign in the exponent. -/
noncomputable def fast (sg : ℤ) : List ℕ → (ℕ → Lin × Lin) → ℕ → Lin × Lin
  | [], x, _ => x 0
  | p :: fs, x, k =>
    csum (fun r => twist rd (turnAngle (p * fs.prod) (sg * (r * k : ℕ)))
      (fast sg fs (fun j => x (j * p + r)) (k % fs.prod))) (p - 1)

/-- The library that uses the fast transform with factors `fs n` at length `n`. -/
noncomputable def fastLib (fs : ℕ → List ℕ) : Library where
  fwd n k := fast rd (-1) (fs n) (fun j => (.input j, .scale 0 0 (.input j))) k
  bwd n t := (fast rd 1 (fs n) (fun k => if k ≤ n / 2 then (.input (2 * k), .input (2 * k + 1))
    else (.input (2 * (n - k)), .neg (.input (2 * (n - k) + 1)))) t).1

end

end Spec
