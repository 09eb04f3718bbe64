import Verif.Model.Program

/-!
# Model: the shell scripts

The scripts work on the same store. The log file `result.log` is not part of the store. The program has been compiled.
The type and the length are words without blanks, slashes or pattern characters.
-/

namespace Model

/-- The name created when a directory has no `*.pair` file. -/
def unmatchedName : Text := "*.pair.sorted".toList

/-- `sortpairs.sh:44-60` on one directory: every `*.pair` file is sorted and then removed. If there is none, the pattern is
used literally, and the redirection creates the output file before `sort` fails. (The script is run by `/bin/sh`,
`sortpairs.sh:1`: a shell following POSIX expands no pattern in a redirection unless it is interactive.) -/
def sortDirSh (d : Dir) : Dir :=
  let pairs := d.filter fun f => pairSuffix.isSuffixOf f.1
  if pairs = [] then putFile d unmatchedName []
  else pairs.foldl (fun d f => (putFile d (f.1 ++ sortedSuffix) (sortText f.2)).filter fun g => g.1 ≠ f.1) d

/-- `tee` into the log file succeeds if the directory exists. -/
def teeStatus (s : Store) (ty n : Text) : Bool := (s ty n).isSome

/-- `sortpairs.sh`: the new store, and the exit status of its last command, `sortpairs.sh:66`, which is that of `tee`. -/
def sortPairsSh (s : Store) (ty n : Text) : Store × Bool :=
  (fun a b => if (a, b) = (ty, n) then (s a b).map fun d => { d with dirs := d.dirs.map fun e => (e.1, sortDirSh e.2) }
    else s a b, teeStatus s ty n)

/-- The prefix `rowsum_`. -/
def rowsumPrefix : Text := "rowsum_".toList

/-- `pair_file_cleanup.sh`, `pair_file_cleanup.sh:20-27`, for a length written in decimal without sign or leading zeros
(bash reads a leading zero as octal, which is not modelled). -/
def cleanupSh (s : Store) (ty n : Text) : Store := fun a b =>
  if (a, b) = (ty, n) then (s a b).map fun d => { d with dirs := d.dirs.filter fun e => !rowsumPrefix.isPrefixOf e.1 }
  else s a b

/-- The flags recognised by `getopts "chsdp:"`, `driver.sh:45`; for any other flag `getopts` reports an error and sets
the variable to a question mark. -/
inductive Flag
  | c | h | s | d
  | p (arg : Text)
  | other
  deriving DecidableEq

/-- The variables set by the flags, `driver.sh:39-42`. -/
structure Options where
  pairing : Text
  slurm : Bool
  hadamard : Bool
  matchOption : Text

/-- `driver.sh:39-42`. -/
def Options.default : Options := { pairing := "WZ".toList, slurm := false, hadamard := false, matchOption := "psd".toList }

/-- One turn of the loop over the flags, `driver.sh:45-67`. The last pattern, `/?`, matches a slash followed by one
character, so it does not match the question mark set by `getopts`. -/
def driverFlag (ty n : Text) (st : Options × Store) (f : Flag) : Options × Store :=
  match f with
  | .s => ({ st.1 with slurm := true }, st.2)
  | .h => ({ st.1 with hadamard := true }, st.2)
  | .d => (st.1, cleanupSh st.2 ty n)
  | .p arg => ({ st.1 with pairing := arg }, st.2)
  | .c => ({ st.1 with matchOption := "correlation".toList }, st.2)
  | .other => st

/-- Are there `rowsum_*` directories, `driver.sh:70-75`? -/
def hasRowsumDirs (s : Store) (ty n : Text) : Bool :=
  match s ty n with
  | none => false
  | some d => d.dirs.any fun e => rowsumPrefix.isPrefixOf e.1

/-- `mkdir -p $foldername`, `driver.sh:87-90`. -/
def mkdirFind (s : Store) (ty n : Text) : Store := fun a b =>
  if (a, b) = (ty, n) then some ((s a b).getD { files := [], dirs := [] }) else s a b

/-- `./target/release/rust ... | tee $filename`: the status of a pipeline is the status of its last command. -/
def piped {F κ : Type} [DecidableEq κ] (env : Env F κ) (s : Store) (ty n : Text) (args : List Text) : Store × Bool :=
  ((runProgram env s args).1, teeStatus (runProgram env s args).1 ty n)

/-- The words of an unquoted variable: it is split at blanks and empty words are dropped. (Patterns match no file.) -/
def shellWords (t : Text) : List Text := (t.splitOnP fun c => c ∈ [' ', '\t', '\n']).filter fun w => w ≠ []

/-- `driver.sh:95-142`: the stages; the result is the new store and the exit status. -/
def driverStages {F κ : Type} [DecidableEq κ] (env : Env F κ) (ty n : Text) (o : Options) (s : Store) : Store × Nat :=
  let (s, ok) := piped env s ty n (["pairs".toList, ty, n, o.matchOption] ++ shellWords o.pairing)
  if ¬ ok then (s, 1)
  else
    let (s, ok) := sortPairsSh s ty n
    if ¬ ok then (s, 1)
    else
      let (s, ok) := piped env s ty n ["join".toList, ty, n]
      if ¬ ok then (s, 1)
      else
        let s := if o.hadamard then (piped env s ty n ["convert".toList, "hm".toList, ty, n]).1 else s
        let s := (piped env s ty n ["convert".toList, "qhm".toList, ty, n]).1
        (s, 0)

/-- `driver.sh` with a type, a length and flags, `driver.sh:28-142`. -/
def driverSh {F κ : Type} [DecidableEq κ] (env : Env F κ) (ty n : Text) (flags : List Flag) (s : Store) : Store × Nat :=
  if ty = [] ∨ n = [] then (s, 1)
  else
    let (o, s) := flags.foldl (driverFlag ty n) (.default, s)
    if hasRowsumDirs s ty n then (s, 1) else driverStages env ty n o (mkdirFind s ty n)

/-! ## The stages one by one -/

/-- One turn of the loop over the flags in `pairs.sh:34-53`; `-h` is not a flag of this script. -/
def pairsFlag (ty n : Text) (st : Options × Store) (f : Flag) : Options × Store :=
  match f with
  | .s => ({ st.1 with slurm := true }, st.2)
  | .d => (st.1, cleanupSh st.2 ty n)
  | .p arg => ({ st.1 with pairing := arg }, st.2)
  | .c => ({ st.1 with matchOption := "correlation".toList }, st.2)
  | .h => st
  | .other => st

/-- `pairs.sh` with a type, a length and flags, `pairs.sh:14-84`; the last command is an `echo`. -/
def pairsSh {F κ : Type} [DecidableEq κ] (env : Env F κ) (ty n : Text) (flags : List Flag) (s : Store) : Store × Nat :=
  if ty = [] ∨ n = [] then (s, 1)
  else
    let (o, s) := flags.foldl (pairsFlag ty n) (.default, s)
    if hasRowsumDirs s ty n then (s, 1)
    else ((runProgram env (mkdirFind s ty n) (["pairs".toList, ty, n, o.matchOption] ++ shellWords o.pairing)).1, 0)

/-- `join_pairs.sh:21`: without the directory of the log file the redirection fails and the program is not run. -/
def joinPairsSh {F κ : Type} [DecidableEq κ] (env : Env F κ) (ty n : Text) (s : Store) : Store :=
  if (s ty n).isSome then (runProgram env s ["join".toList, ty, n]).1 else s

/-- `convert_hm.sh:17`. -/
def convertHmSh {F κ : Type} [DecidableEq κ] (env : Env F κ) (ty n : Text) (s : Store) : Store :=
  (runProgram env s ["convert".toList, "hm".toList, ty, n]).1

/-- `convert_qhm.sh:17`. -/
def convertQhmSh {F κ : Type} [DecidableEq κ] (env : Env F κ) (ty n : Text) (s : Store) : Store :=
  (runProgram env s ["convert".toList, "qhm".toList, ty, n]).1

/-- `wc -l`: the number of newlines. -/
def wcLines (t : Text) : Nat := t.count '\n'

/-- `countpairs.sh:13-33`: the lines of all `*.sorted` files. -/
def countPairsSh (s : Store) (ty n : Text) : Nat :=
  match s ty n with
  | none => 0
  | some d => (d.dirs.map fun e => ((e.2.filter fun f => sortedSuffix.isSuffixOf f.1).map fun f => wcLines f.2).sum).sum

end Model
