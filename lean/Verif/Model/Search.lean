import Verif.Model.FindUnique

/-!
# Model: the exhaustive searches, `find/find_naive.rs`, `find/find_optim.rs`, `find/find_unique.rs`,
`find/find_williamson.rs`

The recursions are bounded by a fuel argument, the number of positions still to be assigned; `none` is a panic. The lines
printed on standard output are part of the result.
-/

namespace Model

/-- The lines printed and the counter. -/
abbrev Found := List (List Char) × Nat

/-! ## `find_naive.rs` -/

/-- `find_recursive`, `find_naive.rs:14-30`: the mutated sequence and the mutated counter are returned; the sequence is
not restored on the way back. -/
def naiveRec : Nat → QS → Nat → Found → Option (QS × Found)
  | fuel, q, index, out =>
    if index ≥ q.searchSize then
      if q.isPerfect then q.toStringRaw.map fun s => (q, out.1 ++ [s], out.2 + 1) else some (q, out)
    else
      match fuel with
      | 0 => none
      | fuel + 1 => QPLUS.foldlM (fun (st : QS × Found) value =>
          (st.1.setValue value index).bind fun q' => naiveRec fuel q' (index + 1) st.2) (q, out)

/-- `find`, `find_naive.rs:5-12`. -/
def findNaive (size : Nat) (symmetry : Option Symmetry) : Option Found :=
  (naiveRec size (QS.new size symmetry) 1 ([], 0)).map Prod.snd

/-! ## `find_optim.rs` -/

/-- The sums a parallel iterator may compute with `fold(|| 0, +)` followed by `reduce(|| 0, +)`: the items are split
anywhere into consecutive segments, each segment is added up from zero, and the partial sums are added in any bracketing,
with the neutral element inserted anywhere. -/
inductive ParSum : List Nat → Nat → Prop
  | segment (l : List Nat) : ParSum l (l.foldl (fun a b => a + b) 0)
  | join {l1 l2 : List Nat} {a b : Nat} : ParSum l1 a → ParSum l2 b → ParSum (l1 ++ l2) (a + b)

/-- The possible outcomes of `find_recursive` and `find_recursive_q24`, `find_optim.rs:14-32` and `41-58`, over an
alphabet: the lines are printed in any order. -/
def optimRec (alphabet : List Quat) : Nat → QS → Nat → Found → Prop
  | fuel, q, index, out =>
    if index ≥ q.searchSize then
      if q.isPerfect then ∃ s, q.toStringRaw = some s ∧ out = ([s], 1) else out = ([], 0)
    else
      match fuel with
      | 0 => False
      | fuel + 1 => ∃ outs : List Found,
          List.Forall₂ (fun value o => ∃ q', q.setValue value index = some q' ∧ optimRec alphabet fuel q' (index + 1) o)
            alphabet outs ∧ out.1.Perm (outs.map Prod.fst).flatten ∧ ParSum (outs.map Prod.snd) out.2

/-- The possible outcomes of `find`, `find_optim.rs:8-12`. -/
def findOptim (size : Nat) (symmetry : Option Symmetry) : Found → Prop := optimRec QPLUS size (QS.new size symmetry) 1

/-- The possible outcomes of `find_q24`, `find_optim.rs:35-39`. -/
def findOptimQ24 (size : Nat) (symmetry : Option Symmetry) : Found → Prop := optimRec Q24 size (QS.new size symmetry) 1

/-! ## `find_unique.rs` -/

/-- `find_recursive`, `find_unique.rs:104-119`. -/
def uniqueRec : Nat → QuadSeq → Nat → List QuadSeq → Option (QuadSeq × List QuadSeq)
  | fuel, will, index, out =>
    if index ≥ will.size then
      will.toQs.map fun q => if q.isPerfect then (will, out ++ [will]) else (will, out)
    else
      match fuel with
      | 0 => none
      | fuel + 1 => QUADRUPLETS.foldlM (fun (st : QuadSeq × List QuadSeq) value =>
          uniqueRec fuel (st.1.setSequenceValue value index) (index + 1) st.2) (will, out)

/-- `find_aux`, `find_unique.rs:94-102`. -/
def findAux (size : Nat) : Option (List QuadSeq) := (uniqueRec size (QuadSeq.new size) 0 []).map Prod.snd

/-- The classes collected by `find`, `find_unique.rs:62-76`. -/
def findClasses (sequences : List QuadSeq) : Option (List (List QuadSeq)) :=
  sequences.foldlM (fun classes s =>
    if classes.any fun c => decide (s ∈ c) then some classes
    else (generateEquivalenceClass (equivalences .quaternionType) s).map fun c => classes ++ [c]) []

/-- `find`, `find_unique.rs:56-91`. `none` is a panic: the assertion that all members of the classes are perfect. -/
def findUnique (size : Nat) : Option (List Char) :=
  (findAux size).bind fun sequences => (findClasses sequences).bind fun classes =>
    (classes.mapM fun (c : List QuadSeq) => c.mapM fun (e : QuadSeq) => e.toQs.bind fun q => if q.isPerfect then q.toStringRaw else none).bind
      fun _ =>
        (classes.mapM findMinimum).bind fun mins =>
          (mins.mapM fun (w : QuadSeq) => w.toQs.bind QS.toStringRaw).map fun ls =>
            ls.foldl (fun s t => s ++ t ++ ['\n']) []

/-! ## `find_williamson.rs` -/

/-- `find_recursive`, `find_williamson.rs:12-38`. -/
def williamsonRec (condition : QuadSeq → Bool) : Nat → QuadSeq → Nat → Option Found
  | fuel, will, index =>
    if index ≥ will.size then
      if condition will then will.toQs.bind fun q =>
        if q.isPerfect then q.toStringRaw.map fun s => ([s], 1) else some ([], 0)
      else some ([], 0)
    else
      match fuel with
      | 0 => none
      | fuel + 1 => QUADRUPLETS.foldlM (fun (acc : Found) value =>
          (williamsonRec condition fuel (will.setSequenceValue value index) (index + 1)).map fun r =>
            (acc.1 ++ r.1, acc.2 + r.2)) ([], 0)

/-- `find`, `find_williamson.rs:6-10`. -/
def findWilliamson (size : Nat) (condition : QuadSeq → Bool) : Option Found :=
  williamsonRec condition size (QuadSeq.new size) 1

end Model
