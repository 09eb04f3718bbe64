import Verif.Model.Equivalence

/-!
# Model: `find/find_unique.rs`, and `equiv` of `sequences/equivalence.rs`
-/

namespace Model

/-- `find_minimum`, `find_unique.rs:36-52`; `none` is the panic on an empty class. -/
def findMinimum (cls : List QuadSeq) : Option QuadSeq :=
  cls.foldl (fun mini e =>
    match mini with
    | some best => if willLessThan e best then some e else some best
    | none => some e) none

/-- `reduce_to_equivalence_set_dif` (Algorithm 6), `find_unique.rs:123-139`. -/
def reduceToEquivalenceSetDif (sequences : List QuadSeq) (ops : List Op) : Option (List QuadSeq) :=
  match sequences with
  | [] => none
  | s0 :: _ =>
    (generateSymmetryGroup s0.size ops).bind fun g =>
      sequences.foldlM (fun res s =>
        (generateEquivalenceClassFast s g).map fun cls =>
          res.filter fun e => e ∉ cls.filter fun x => x ≠ s) sequences.dedup

/-- `reduce_to_equivalence_par` (Algorithm 7), `find_unique.rs:142-157`. -/
def reduceToEquivalencePar (sequences : List QuadSeq) (ops : List Op) : Option (List QuadSeq) :=
  match sequences with
  | [] => none
  | s0 :: _ =>
    (generateSymmetryGroup s0.size ops).bind fun g =>
      sequences.foldlM (fun res s =>
        (generateEquivalenceClassFast s g).bind fun cls =>
          (findMinimum cls).map fun m => if m ∈ res then res else res ++ [m]) []

/-- The classes collected by `reduce_to_equivalence`, `find_unique.rs:163-178`. -/
def collectClasses (g : List QuadSeq) (sequences : List QuadSeq) : Option (List (List QuadSeq)) :=
  sequences.foldlM (fun classes s =>
    if classes.any fun c => decide (s ∈ c) then some classes
    else (generateEquivalenceClassFast s g).map fun c => classes ++ [c]) []

/-- `reduce_to_equivalence`, `find_unique.rs:160-187`. -/
def reduceToEquivalence (sequences : List QuadSeq) (ops : List Op) : Option (List QuadSeq) :=
  match sequences with
  | [] => none
  | s0 :: _ =>
    (generateSymmetryGroup s0.size ops).bind fun g =>
      (collectClasses g sequences).bind fun classes => classes.mapM findMinimum

/-- The operation lists used by `reduce_to_canonical_reps`, `find_unique.rs:191-195`. -/
def canonicalOps : SeqType → List Op
  | .quaternionType => [equivalentAutomorphism, equivalentEvenAlternatedNegation, equivalentUniformShift,
      equivalentDualHalfShift]
  | _ => [equivalentAutomorphism, equivalentEvenAlternatedNegation, equivalentUniformShift,
      equivalentUniformHalfShift]

/-- `Itertools::unique`: keeps the first occurrence of every element, in order. -/
def unique {α : Type} [DecidableEq α] (l : List α) : List α :=
  l.foldl (fun acc x => if x ∈ acc then acc else acc ++ [x]) []

/-- `reduce_to_canonical_reps`, `find_unique.rs:189-198`. `none` on an empty list: `sequences[0]` panics. -/
def reduceToCanonicalReps (sequences : List QuadSeq) (ty : SeqType) : Option (List QuadSeq) :=
  match sequences with
  | [] => none
  | s0 :: _ =>
    (generateSymmetryGroup s0.size (canonicalOps ty)).bind fun g =>
      (sequences.mapM fun s => qtCanonical s g ty).map unique

/-- `equiv`, `equivalence.rs:123-142`. `none` is a panic (a failed assertion). -/
def equiv (s t : QuadSeq) (ty : SeqType) : Option Bool :=
  if s.verify ty ∧ t.verify ty then
    match ty with
    | .quaternionType =>
      (nsCanonical s).bind fun c1 => (nsCanonical t).bind fun c2 =>
        (reduceToCanonicalReps [c1, c2] ty).map fun r => decide (r.length = 1)
    | .williamsonType | .williamson =>
      (reduceToCanonicalReps [snSsCanonical s, snSsCanonical t] ty).map fun r => decide (r.length = 1)
    | _ => some false
  else none

/-- The expansion of Williamson-type representatives before the QT reduction, `main.rs:126-147`. -/
def expandWts (i : Nat) (result : List QuadSeq) : List QuadSeq :=
  result ++ result.flatMap fun q =>
    q.setSequence (negated q.a) .W ::
      (if i % 2 = 0 then
        [q.setSequence (halfShift q.a) .W, q.setSequence (negated (halfShift q.a)) .W]
       else [])

end Model
