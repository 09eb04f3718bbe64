import Verif.Model.Driver

/-!
# Model: the scripts with the flag `-s`

With this flag the program is not compiled, and `sortpairs.sh` passes the unquoted variable `SLURM_TMPDIR` to `sort`. Only the
driver and `sortpairs.sh` are modelled; `pairs.sh -s` differs from `pairs.sh` only where the program is missing.
-/

namespace Model

/-- What the scripts depend on with the flag `-s`. -/
structure Batch where
  /-- the value of `SLURM_TMPDIR`, empty if it is not set -/
  tmpdir : Text
  /-- what `sort` finds on the standard input, if it reads it, when it is called for a file of a directory -/
  stdin : Text → Text → Text
  /-- is there a compiled program? -/
  built : Bool

/-- The files created while sorting are written to the directory named by the first word after `-T`, `sortpairs.sh:49`; they
are not modelled, and `sort` does not look at the directory unless it needs them. The words after the first are the files to
sort. If `SLURM_TMPDIR` is empty the file to be sorted is taken for the directory, and `sort` reads the standard input. Further
words of `SLURM_TMPDIR` are taken for files; they do not exist, and `sort` fails, which is `none`. -/
def sortCommand (b : Batch) (dir : Text) (f : Text × Text) : Option Text :=
  match shellWords b.tmpdir with
  | [] => some (sortText (b.stdin dir f.1))
  | [_] => some (sortText f.2)
  | _ :: _ :: _ => none

/-- One turn of the loop over the files, `sortpairs.sh:44-60`: the redirection empties the output file before `sort` is
started; the file is removed if `sort` succeeds. -/
def sortFileBatch (b : Batch) (dir : Text) (d : Dir) (f : Text × Text) : Dir :=
  match sortCommand b dir f with
  | some t => (putFile d (f.1 ++ sortedSuffix) t).filter fun g => g.1 ≠ f.1
  | none => putFile d (f.1 ++ sortedSuffix) []

/-- `sortpairs.sh:40-61` on one directory. If there is no `*.pair` file the pattern is used literally: as a file that does not
exist, or as the name of the directory for temporary files. -/
def sortDirBatch (b : Batch) (dir : Text) (d : Dir) : Dir :=
  let pairs := d.filter fun f => pairSuffix.isSuffixOf f.1
  if pairs = [] then
    putFile d unmatchedName (if shellWords b.tmpdir = [] then sortText (b.stdin dir ("*".toList ++ pairSuffix)) else [])
  else pairs.foldl (sortFileBatch b dir) d

/-- `sortpairs.sh ty n -s`. -/
def sortPairsBatch (b : Batch) (s : Store) (ty n : Text) : Store × Bool :=
  (fun a c => if (a, c) = (ty, n) then
      (s a c).map fun d => { d with dirs := d.dirs.map fun e => (e.1, sortDirBatch b e.1 e.2) }
    else s a c, teeStatus s ty n)

/-- `./target/release/rust ... | tee $filename`; without a program only the log is written. -/
def pipedBatch {F κ : Type} [DecidableEq κ] (b : Batch) (env : Env F κ) (s : Store) (ty n : Text) (args : List Text) :
    Store × Bool :=
  if b.built then piped env s ty n args else (s, teeStatus s ty n)

/-- `driver.sh:95-142` with the flag `-s`. -/
def driverStagesBatch {F κ : Type} [DecidableEq κ] (b : Batch) (env : Env F κ) (ty n : Text) (o : Options) (s : Store) :
    Store × Nat :=
  let (s, ok) := pipedBatch b env s ty n (["pairs".toList, ty, n, o.matchOption] ++ shellWords o.pairing)
  if ¬ ok then (s, 1)
  else
    let (s, ok) := sortPairsBatch b s ty n
    if ¬ ok then (s, 1)
    else
      let (s, ok) := pipedBatch b env s ty n ["join".toList, ty, n]
      if ¬ ok then (s, 1)
      else
        let s := if o.hadamard then (pipedBatch b env s ty n ["convert".toList, "hm".toList, ty, n]).1 else s
        let s := (pipedBatch b env s ty n ["convert".toList, "qhm".toList, ty, n]).1
        (s, 0)

/-- `driver.sh:28-142`. A missing program is reported, `driver.sh:81-83`, but the script goes on. -/
def driverBatch {F κ : Type} [DecidableEq κ] (b : Batch) (env : Env F κ) (ty n : Text) (flags : List Flag) (s : Store) :
    Store × Nat :=
  if ty = [] ∨ n = [] then (s, 1)
  else
    let (o, s) := flags.foldl (driverFlag ty n) (.default, s)
    if hasRowsumDirs s ty n then (s, 1)
    else if o.slurm then driverStagesBatch b env ty n o (mkdirFind s ty n)
    else driverStages env ty n o (mkdirFind s ty n)

end Model
