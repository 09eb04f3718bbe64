import Verif.Model.Search
import Verif.Model.FindWrite

/-!
# Model: the search functions of `main.rs`, and the unused `equals` and `contains` of `find_unique.rs`

None of them is called by the command line. The time printed is left out; a report is the lines printed by the search and the
number of sequences in the message.
-/

namespace Model

/-- `find_pqs_of_type`, `main.rs:28-43`: the possible reports; `none` is the early return. -/
def findPqsOfType (i : Nat) (symmetry : Option Symmetry) (report : Option Found) : Prop :=
  match symmetry with
  | none | some .I => ∃ o, findOptim i symmetry o ∧ report = some o
  | _ => if i % 2 = 1 then report = none else ∃ o, findOptim i symmetry o ∧ report = some o

/-- `find_pqs`, `main.rs:22-26`: the reports for the lengths 1 to 17. -/
def findPqs (symmetry : Option Symmetry) (reports : List (Option Found)) : Prop :=
  List.Forall₂ (fun i r => findPqsOfType i symmetry r) (List.range' 1 17) reports

/-- `find_williamson_of_size`, `main.rs:52-59`. -/
def findWilliamsonOfSize (i : Nat) : Option Found :=
  findWilliamson i fun w => w.isSymmetric && w.isPeriodicComplementary

/-- `find_williamson`, `main.rs:46-50`: the lengths 1 to 14. -/
def findWilliamsonSizes : Option (List Found) := (List.range' 1 14).mapM findWilliamsonOfSize

/-- `find_williamson_type_of_size`, `main.rs:67-74`. -/
def findWilliamsonTypeOfSize (i : Nat) : Option Found :=
  findWilliamson i fun w => w.isAmicable && w.isPeriodicComplementary

/-- `find_williamson_type`, `main.rs:61-65`. -/
def findWilliamsonTypeSizes : Option (List Found) := (List.range' 1 14).mapM findWilliamsonTypeOfSize

/-- `find_unique_williamson_type_of_size`, `main.rs:77-91`: the name of the file and its contents. -/
def findUniqueWilliamsonTypeOfSize (i : Nat) : Option (List Char × List Char) :=
  (findUnique i).map fun t => ("./results/sequences/unique_wts/".toList ++ natText i ++ ".seq".toList, t)

/-- The loop of `equals`, `find_unique.rs:12-19`; an index beyond the second sequence panics. -/
def equalsLoop (seq2 : List Int) : Nat → List Int → Option Bool
  | _, [] => some true
  | index, x :: rest => seq2[index]?.bind fun y => if x ≠ y then some false else equalsLoop seq2 (index + 1) rest

/-- `equals`, `find_unique.rs:12-19`. -/
def equals (seq1 seq2 : List Int) : Option Bool := equalsLoop seq2 0 seq1

/-- `contains`, `find_unique.rs:23-32`. -/
def contains : List QuadSeq → QuadSeq → Option Bool
  | [], _ => some false
  | elm :: set, seq =>
    (equals seq.a elm.a).bind fun a =>
      (if a then
        (equals seq.b elm.b).bind fun b =>
          if b then (equals seq.c elm.c).bind fun c => if c then equals seq.d elm.d else some false else some false
      else some false).bind fun e => if e then some true else contains set seq

end Model
