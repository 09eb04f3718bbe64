import Verif.Model.Equations
import Verif.Model.Matching

/-!
# Model: `find` of `find/find_with_rowsum.rs`, the equation files for a solver

The result is the list of files written, in order; a later write to the same path replaces the earlier one
(`File::create` truncates). Printing is omitted.
-/

namespace Model

/-- `generate_comment`, `find_with_rowsum.rs:39-43`; `none` is the panic of `sequence_to_string`. -/
def generateComment (seq1 : List Int) (tag1 : Tag) (seq2 : List Int) (tag2 : Tag) (rs : Quad) : Option Text :=
  (sequenceToString seq1).bind fun t1 => (sequenceToString seq2).map fun t2 =>
    "* ".toList ++ [tag1.toChar] ++ ": ".toList ++ t1 ++ "\n* ".toList ++ [tag2.toChar] ++ ": ".toList ++ t2 ++ "\n".toList ++
      ("* rowsum: (".toList ++ intText rs.1 ++ ",".toList ++ intText rs.2.1 ++ ",".toList ++ intText rs.2.2.1 ++ ",".toList ++
        intText rs.2.2.2 ++ ")".toList)

/-- The directory of a row sum, `find_with_rowsum.rs:66`. -/
def solverDir (p : Nat) (rs : Quad) : Text :=
  let best := getTwoBest rs
  "results/equations/".toList ++ "qts".toList ++ "/find_".toList ++ natText p ++ "/rowsum_".toList ++ intText best.1.1 ++
    "-".toList ++ intText best.2.1 ++ "_at_".toList ++ natText best.1.2 ++ "-".toList ++ natText best.2.2

/-- The path of a file, `find_with_rowsum.rs:75`. -/
def solverPath (p : Nat) (rs : Quad) (count : Nat) : Text :=
  solverDir p rs ++ "/num_".toList ++ natText count ++ ".opb".toList

/-- The content written for a pair, `find_with_rowsum.rs:80-90`: `some none` if there are no equations to write. -/
def solverContent (ty : SeqType) (rs : Quad) (tags : Tag × Tag) (c : List Int × List Int) : Option (Option Text) :=
  (generateEquations c.1 tags.1 c.2 tags.2 ty rs).bind fun equations =>
    if equations ≠ [] then
      (generateComment c.1 tags.1 c.2 tags.2 rs).map fun comment => some (comment ++ equations)
    else some none

/-- The body of the loop of `find`, `find_with_rowsum.rs:61-97`; `none` is a panic. -/
def solverFiles {F : Type} (A : Fl F) (p : Nat) (ty : SeqType) (rs : Quad) : Option (List (Text × Text)) :=
  let best := getTwoBest rs
  (indexToTag best.1.2).bind fun tag1 => (indexToTag best.2.2).bind fun tag2 =>
    let sequences1 := generateSequencesWithRowsum best.1.1 p
    let sequences2 := generateSequencesWithRowsum best.2.1 p
    let bound := A.mul (A.lit 4 1) (A.ofInt p)
    let couples := (filteredDft A sequences1 bound).flatMap fun s1 => (filteredDft A sequences2 bound).map fun s2 => (s1, s2)
    (couples.mapM fun c => solverContent ty rs (tag1, tag2) c).map fun contents =>
      (contents.filterMap id).zipIdx.map fun c => (solverPath p rs c.2, c.1)

/-- `find`, `find_with_rowsum.rs:48-100`; `none` is a panic (only quaternion-type is supported). -/
def findWithRowsum {F : Type} (A : Fl F) (p : Nat) (ty : SeqType) : Option (List (Text × Text)) :=
  (generateRowsums p ty).bind fun rowsums =>
    match ty with
    | .quaternionType => (rowsums.mapM fun rs => solverFiles A p ty rs).map fun l => l.flatten
    | _ => none

/-- The content of a file after a list of writes. -/
def fileAfter (writes : List (Text × Text)) (path : Text) : Option Text :=
  ((writes.filter fun w => w.1 = path).getLast?).map fun w => w.2

end Model
