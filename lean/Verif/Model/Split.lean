import Verif.Model.FindWrite

/-!
# Model: the pair stage in two processes
-/

namespace Model

/-- `write_pair_single`, `find_write.rs:265-282`: one of the two processes, for all generated row sums. -/
def writePairSingle {F : Type} (A : Fl F) (p : Nat) (ty : SeqType) (mo : MatchOption) (pairing : Option Pairing)
    (pair : Nat) : Option (List (Text × Dir)) :=
  (generateRowsums p ty).bind fun rowsums =>
    rowsums.mapM fun rs => (writePairSingleRowsum A ty rs p mo pairing pair).map fun d => (rowsumDirName rs, d)

/-- The directories after both processes have run: every directory contains the files of both. The theorem
`C62_distinct_files` shows that no file is written twice. -/
def bothProcesses (w1 w2 : List (Text × Dir)) : List (Text × Dir) :=
  w1.zipWith (fun a b => (a.1, a.2 ++ b.2)) w2

end Model
