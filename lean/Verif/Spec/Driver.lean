import Verif.Model.Driver
import Verif.Spec.Program
import Verif.Spec.Graph
import Verif.Spec.Pipeline
import Verif.Spec.Fourier

/-!
# Specification: what the driver leaves behind

`T` is the name of the type and `N` the text of the length, so the files are those of `results/pairs/T/find_N`.
-/

namespace Spec
open Model

/-- The file has one line for every quadruple of the list, and reading the line gives back the quadruple. -/
def SeqsStored (s : Store) (T N name : Text) (r : List QuadSeq) : Prop :=
  ∃ t, readTop s T N name = some t ∧
    List.Forall₂ (fun line q => (QS.fromStr line).bind QuadSeq.fromPqs = some q) (readLines t) r

/-- The matching option that the flags of the driver choose: power spectra unless `-c` is given. -/
def flagMatching (flags : List Flag) : MatchOption := if .c ∈ flags then .correlation else .psd

/-- The sign of an entry. -/
def signChar (v : ℤ) : Char := if v = 1 then '+' else '-'

/-- The file has the four sequences of every quadruple of the list as rows of signs. -/
def QuadsStored (s : Store) (T N name : Text) (r : List QuadSeq) : Prop :=
  readTop s T N name = some (r.flatMap fun q => "[\n".toList ++
    ([q.a, q.b, q.c, q.d].flatMap fun l => "  [".toList ++ l.map signChar ++ "]\n".toList) ++ "]\n".toList)

/-- `result.qhm` has one quaternionic Hadamard matrix for every quadruple, with first row and column 1. -/
def QhmStored (n : ℕ) [NeZero n] (s : Store) (T N : Text) (r : List QuadSeq) : Prop :=
  ∃ mats ps, readTop s T N "result.qhm".toList = some (unlines ps) ∧
    List.Forall₂ (fun q m => (∃ p, q.toQs = some p ∧ Normalised n (qcyc n p.values) m) ∧ IsQHadamard (qmat n m.matrix)) r
      mats ∧
    List.Forall₂ (fun (m : QHM) p => m.toString = some p) mats ps

/-- `result.mat` has exactly one matrix of every class of Hadamard matrices that come from quadruples with the
property. -/
def MatsStored (s : Store) (T N : Text) (Q : QuadSeq → Prop) : Prop :=
  ∃ out ts, readTop s T N "result.mat".toList = some (unlines ts) ∧
    List.Forall₂ (fun (m : HM) t => m.toStringMagma = some t) out ts ∧
    (∀ m ∈ out, HMHadamard m ∧ ∃ q, Q q ∧ HM.fromWilliamson q .quaternionType = some m) ∧
    out.Pairwise (fun x y => ¬ HMEquiv x y) ∧
    ∀ q, Q q → ∀ m, HM.fromWilliamson q .quaternionType = some m → ∃! y, y ∈ out ∧ HMEquiv m y

/-- The pairs of sequences of length `n` with the given row sums whose power spectra do not exceed `4 n` in total, at
every frequency other than 0. -/
def PairSet (n : ℕ) (r1 r2 : ℤ) : Set (List ℤ × List ℤ) :=
  {p | PMSeq n p.1 ∧ PMSeq n p.2 ∧ p.1.sum = r1 ∧ p.2.sum = r2 ∧
    ∀ k, 0 < k → k < n → psd n p.1 k + psd n p.2 k ≤ 4 * n}

end Spec
