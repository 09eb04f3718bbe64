import Verif.Spec.Fourier
import Verif.Spec.Pipeline

/-!
# Specification: arithmetic that is good enough for a matching option
-/

namespace Spec
open Model

/-- All power-spectrum keys computed for sequences of length `n` are those of exact arithmetic. (`C75_keys` shows that
every arithmetic with small enough rounding errors is of this kind.) -/
def ExactSpectrumKeys {F : Type} (A : Fl F) (n : ℕ) : Prop :=
  ∀ x y, PMSeq n x → PMSeq n y → ∀ ty, Supported ty → ∀ side tags, (crossSign tags).isSome → ∀ i j b d b' d',
    pairData A b (x, i) (y, j) = some d → pairData exactFl b' (x, i) (y, j) = some d' →
      pairKey A ty side .psd tags n d = pairKey exactFl ty side .psd tags n d'

/-- The real number that an entry of a key from power spectra rounds. -/
noncomputable def keyValue (n : ℕ) (side : Side) (x y : List ℤ) (k : ℕ) : ℝ :=
  match side with
  | .left => psd n x k + psd n y k
  | .right => 4 * n - (psd n x k + psd n y k)

/-- The power-spectrum keys computed for sequences of length `n` are good enough for the search: those of pairs of
Williamson-type quadruples (what is searched for) are the exact ones, and those of other pairs are, at the entries of the
power spectra, at most slightly further from the real value than rounding makes them. (`C91_keys` gives an explicit
precision that suffices.) -/
structure SpectrumKeys {F : Type} (A : Fl F) (n : ℕ) [NeZero n] : Prop where
  solution : ∀ q, IsWTS n q → ∀ t1 t2, t1 ≠ t2 → ∀ ty, Supported ty → ∀ side tags, (crossSign tags).isSome →
    ∀ i j b d b' d', pairData A b (q.sequence t1, i) (q.sequence t2, j) = some d →
      pairData exactFl b' (q.sequence t1, i) (q.sequence t2, j) = some d' →
        pairKey A ty side .psd tags n d = pairKey exactFl ty side .psd tags n d'
  others : ∀ x y, PMSeq n x → PMSeq n y → ∀ ty, Supported ty → ∀ side tags, (crossSign tags).isSome →
    ∀ i j b d, pairData A b (x, i) (y, j) = some d →
      ∃ o, pairKey A ty side .psd tags n d = some o ∧ ∀ u, o = some u →
        u.length = (if ty = .quaternionType then n / 2 + n / 2 else n / 2) ∧
          ∀ k < n / 2, ∃ z, u[k]? = some z ∧ |keyValue n side x y (k + 1) - z| ≤ 1 / 2 + 1 / (2 * n)

/-- The arithmetic is within the error bounds needed for the matching option `mo` at length `n`: the filter discards no
pair of a complementary quadruple, and the keys are accurate. -/
structure Numerics {F : Type} (A : Fl F) (val : F → ℝ) (n : ℕ) [NeZero n] (mo : MatchOption) : Prop where
  filter : FilterSafe A n
  correlation : mo = .correlation → Accurate A val n
  psd : mo = .psd → SpectrumKeys A n

/-- What the keys of the two pairs of a pairing express beyond complementarity. -/
def KeyCondition {n : ℕ} [NeZero n] (ty : SeqType) (pr : Option Pairing) (f : Fam n) : Prop :=
  match ty with
  | .quaternionType => PairCross pr f
  | .williamsonType => Amicable (f (pairingTags pr).1.1) (f (pairingTags pr).1.2) ∧
      Amicable (f (pairingTags pr).2.1) (f (pairingTags pr).2.2)
  | _ => True

/-- The condition that the definition of QT sequences has for the two pairs of a pairing. -/
def DefinedCross {n : ℕ} [NeZero n] (pr : Option Pairing) (f : Fam n) : Prop :=
  match pr with
  | some .WX => ∀ t, ccf (f .W) (f .X) t - ccf (f .X) (f .W) t = ccf (f .Z) (f .Y) t - ccf (f .Y) (f .Z) t
  | some .WY => ∀ t, ccf (f .W) (f .Y) t - ccf (f .Y) (f .W) t = ccf (f .X) (f .Z) t - ccf (f .Z) (f .X) t
  | _ => ∀ t, ccf (f .W) (f .Z) t - ccf (f .Z) (f .W) t = ccf (f .Y) (f .X) t - ccf (f .X) (f .Y) t

end Spec
