import Verif.Model.Graph
import Verif.Model.Split

/-!
# Model: the command line of `main.rs` over a store of result files

`results/pairs` is a tree: type name, then the text after `find_`, then plain files and `rowsum_*` directories. A command
reads the store when it starts and then performs a list of writes, possibly ending in a panic. Output on the terminal is
omitted, except for the counts returned by the pair stage. I/O errors other than a missing directory or file do not occur.
-/

namespace Model

/-! ## The store -/

/-- The contents of one directory `results/pairs/<type>/find_<n>`. -/
structure FindDir where
  files : Dir
  dirs : List (Text × Dir)

/-- `results/pairs`, by the name of the type and the text after `find_`. -/
abbrev Store := Text → Text → Option FindDir

/-- `File::create` followed by `write`: an existing file is replaced. -/
def putFile (d : Dir) (name content : Text) : Dir :=
  if name ∈ d.map Prod.fst then d.map fun f => if f.1 = name then (name, content) else f else d ++ [(name, content)]

/-- One change of the store. -/
inductive Write
  /-- `fs::create_dir_all("results/pairs/<ty>/find_<n>/<dir>")` -/
  | mkdir (ty n dir : Text)
  /-- writing a file in such a directory -/
  | put (ty n dir name content : Text)
  /-- writing a file in `results/pairs/<ty>/find_<n>` -/
  | putTop (ty n name content : Text)
  deriving DecidableEq

/-- The directory changed. -/
def Write.path : Write → Text × Text
  | .mkdir ty n _ => (ty, n)
  | .put ty n _ _ _ => (ty, n)
  | .putTop ty n _ _ => (ty, n)

/-- The effect on the directory changed. -/
def Write.act (o : Write) (d : Option FindDir) : Option FindDir :=
  match o with
  | .mkdir _ _ dir =>
    let d := d.getD { files := [], dirs := [] }
    some (if dir ∈ d.dirs.map Prod.fst then d else { d with dirs := d.dirs ++ [(dir, [])] })
  | .put _ _ dir name content =>
    d.map fun d => { d with dirs := d.dirs.map fun e => if e.1 = dir then (e.1, putFile e.2 name content) else e }
  | .putTop _ _ name content => d.map fun d => { d with files := putFile d.files name content }

/-- The effect on the store. -/
def Write.apply (s : Store) (o : Write) : Store := fun ty n => if (ty, n) = o.path then o.act (s ty n) else s ty n

/-- A list of writes. -/
def applyOps (s : Store) (ops : List Write) : Store := ops.foldl Write.apply s

/-! ## Runs -/

/-- The writes performed and the result; `none` is a panic. -/
structure Run (α : Type) where
  ops : List Write
  result : Option α

namespace Run

def pure {α : Type} (a : α) : Run α := ⟨[], some a⟩

def bind {α β : Type} (r : Run α) (f : α → Run β) : Run β :=
  match r.result with
  | none => ⟨r.ops, none⟩
  | some a => ⟨r.ops ++ (f a).ops, (f a).result⟩

instance : Monad Run where
  pure := pure
  bind := bind

/-- One write. -/
def op (o : Write) : Run Unit := ⟨[o], some ()⟩

/-- A value, or a panic. -/
def ofOption {α : Type} (a : Option α) : Run α := ⟨[], a⟩

/-- The loop `for x in l { counter += f(x) }`. -/
def sum {α : Type} (f : α → Run Nat) : List α → Run Nat
  | [] => pure 0
  | x :: l => bind (f x) fun a => bind (sum f l) fun b => pure (a + b)

end Run

/-! ## The pair stage -/

/-- Creating a file and writing its text. The file exists, empty, while the text is computed. (Partial contents left by
a panic are not modelled.) -/
def writeFile (ty n dir name : Text) (content : Option Text) : Run Unit := do
  Run.op (.put ty n dir name [])
  let text ← Run.ofOption content
  Run.op (.put ty n dir name text)

/-- `write_seq_pairs`, `find_write.rs:128-251`: the file and the number of pairs written. -/
def writeSeqPairsRun {F : Type} (A : Fl F) (folder n dir : Text) (seqs1 seqs2 : List (List Int)) (tags : Tag × Tag)
    (ty : SeqType) (rs : Quad) (p : Nat) (side : Side) (mo : MatchOption) : Run Nat := do
  Run.ofOption (if verifyRowsums seqs1 seqs2 tags rs then some () else none)
  Run.op (.put folder n dir (pairFileName tags.1 tags.2) [])
  let lines ← Run.ofOption (pairLines A seqs1 seqs2 tags ty p side mo)
  Run.op (.put folder n dir (pairFileName tags.1 tags.2) (writeBlocks lines).flatten)
  return lines.length

/-- `write_pairs_rowsum`, `find_write.rs:402-473`. -/
def writePairsRowsumRun {F : Type} (A : Fl F) (folder : Text) (rs : Quad) (p : Nat) (mo : MatchOption)
    (pairing : Option Pairing) : Run Nat := do
  let n := natText p
  let dir := rowsumDirName rs
  Run.op (.mkdir folder n dir)
  let ty ← Run.ofOption (strToSeqtype folder)
  let sq := fun t => rowsumSequences ty (tagRowsum rs t) p
  writeFile folder n dir (seqFileName .W) (sequencesText (sq .W))
  writeFile folder n dir (seqFileName .X) (sequencesText (sq .X))
  writeFile folder n dir (seqFileName .Y) (sequencesText (sq .Y))
  writeFile folder n dir (seqFileName .Z) (sequencesText (sq .Z))
  let t := pairingTags pairing
  let c12 ← writeSeqPairsRun A folder n dir (sq t.1.1) (sq t.1.2) t.1 ty rs p .left mo
  let c34 ← writeSeqPairsRun A folder n dir (sq t.2.1) (sq t.2.2) t.2 ty rs p .right mo
  return c12 + c34

/-- `write_pairs`, `find_write.rs:377-400`; the result is the total printed. -/
def writePairsRun {F : Type} (A : Fl F) (p : Nat) (ty : SeqType) (mo : MatchOption) (pairing : Option Pairing) :
    Run Nat := do
  let rowsums ← Run.ofOption (generateRowsums p ty)
  Run.sum (fun rs => writePairsRowsumRun A ty.toText rs p mo pairing) rowsums

/-- `write_pair_single_rowsum`, `find_write.rs:284-340`. -/
def writePairSingleRowsumRun {F : Type} (A : Fl F) (folder : Text) (rs : Quad) (p : Nat) (mo : MatchOption)
    (pairing : Option Pairing) (pair : Nat) : Run Nat := do
  let n := natText p
  let dir := rowsumDirName rs
  Run.op (.mkdir folder n dir)
  let ty ← Run.ofOption (strToSeqtype folder)
  match getIndices pairing pair with
  | none => return 0
  | some t =>
    let sq := fun t => rowsumSequences ty (tagRowsum rs t) p
    writeFile folder n dir (seqFileName t.1) (sequencesText (sq t.1))
    writeFile folder n dir (seqFileName t.2) (sequencesText (sq t.2))
    writeSeqPairsRun A folder n dir (sq t.1) (sq t.2) t ty rs p (if pair = 1 then .left else .right) mo

/-- `create_rowsum_dirs`, `find_write.rs:342-375`. -/
def createRowsumDirsRun (folder : Text) (p : Nat) (rs : Quad) (pairing : Option Pairing) : Run Unit := do
  let n := natText p
  let dir := rowsumDirName rs
  Run.op (.mkdir folder n dir)
  let names ← Run.ofOption (createRowsumDirs rs pairing)
  ⟨names.map fun name => .put folder n dir name [], some ()⟩

/-! ## The other commands -/

/-- What the program takes from its environment: the floating-point arithmetic, the graph labelling of the external
library, the iteration orders of the hash collections, the listing orders of directories and whether debug assertions
are enabled. -/
structure Env (F κ : Type) where
  A : Fl F
  canon : Graph → κ
  hmOrder : List HM → List HM
  qsOrder : List QuadSeq → List QuadSeq
  lsDirs : List (Text × Dir) → List (Text × Dir)
  lsFiles : Dir → Dir
  debug : Bool

/-- `read_lines`: the text of a file in `find_<n>`, if it exists. -/
def readTop (s : Store) (ty n name : Text) : Option Text :=
  (s ty n).bind fun d => (d.files.find? fun f => f.1 = name).map Prod.snd

/-- Creating a file in `find_<n>`, which must exist, and writing its text. -/
def writeTop (s : Store) (ty n name : Text) (content : Option Text) : Run Unit := do
  Run.ofOption ((s ty n).map fun _ => ())
  Run.op (.putTop ty n name [])
  let text ← Run.ofOption content
  Run.op (.putTop ty n name text)

/-- `write_rowsums`, `find_write.rs:16-29`. -/
def writeRowsumsRun (s : Store) (p : Nat) (ty : SeqType) : Run Unit :=
  writeTop s ty.toText (natText p) "rowsums.quad".toList (rowsumsText p ty)

/-- The directories read by `join_pairs`, `find_write.rs:498-504`. -/
def listedDirs {F κ : Type} (env : Env F κ) (d : FindDir) : List (Text × Dir) :=
  (env.lsDirs d.dirs).map fun e => (e.1, env.lsFiles e.2)

/-- `QuadSeq::to_string`, `williamson.rs:336-352`; `none` is a panic. -/
def QuadSeq.toText (q : QuadSeq) : Option Text :=
  (([q.a, q.b, q.c, q.d].mapM fun seq => ((List.range q.size).mapM fun i => (seq[i]?).bind pmToChar)).map fun l =>
    "[\n".toList ++ (l.flatMap fun s => "  [".toList ++ s ++ "]\n".toList) ++ "]".toList)

/-- The contents of `result.qseq` and `result-qts.qseq`, `main.rs:119` and `main.rs:164`. -/
def qseqText (l : List QuadSeq) : Option Text := (l.mapM QuadSeq.toText).map unlines

/-- The two files written for a list of sequences, `main.rs:106-122` and `main.rs:157-167`. -/
def writeResultRun (ty n : Text) (seqName qseqName : Text) (l : List QuadSeq) : Run Unit := do
  Run.op (.putTop ty n seqName [])
  Run.op (.putTop ty n qseqName [])
  let seqText ← Run.ofOption (resultText l)
  let qseq ← Run.ofOption (qseqText l)
  Run.op (.putTop ty n seqName seqText)
  Run.op (.putTop ty n qseqName qseq)

/-- `find_write_quad_seq`, `main.rs:92-169`. -/
def joinRun {F κ : Type} (env : Env F κ) (s : Store) (ty : SeqType) (p : Nat) : Run Unit := do
  let n := natText p
  let d ← Run.ofOption (s ty.toText n)
  let matched ← Run.ofOption (joinAll ty (listedDirs env d))
  -- the assertion of `find_write.rs:517`
  Run.ofOption (if env.debug && !matched.all hasSortedRowsums then none else some ())
  let result ← Run.ofOption (joinPairs ty (listedDirs env d))
  -- the assertion of `main.rs:99`
  Run.ofOption (if env.debug && ty = .quaternionType && !result.all QuadSeq.verifyQts then none else some ())
  writeResultRun ty.toText n "result.seq".toList "result.qseq".toList result
  match ty with
  | .williamsonType =>
    let reduced ← Run.ofOption (reduceToCanonicalReps (expandWts p result) .quaternionType)
    writeResultRun ty.toText n "result-qts.seq".toList "result-qts.qseq".toList reduced
  | _ => return

/-- `convert hm`, `main.rs:386-392`, and `hadamard_equivalence_from_file`, `matrix_equivalence.rs:72-122`. -/
def convertHmRun {F κ : Type} [DecidableEq κ] (env : Env F κ) (s : Store) (ty : SeqType) (p : Nat) : Run Unit := do
  let name := match ty with
    | .williamsonType => "result-qts.seq".toList
    | _ => "result.seq".toList
  let t ← Run.ofOption (readTop s ty.toText (natText p) name)
  let text ← Run.ofOption (hadamardEquivalenceFromFile env.canon env.hmOrder env.debug ty t)
  Run.op (.putTop ty.toText (natText p) "result.mat".toList text)

/-- `convert_qs_to_matrices`, `main.rs:178-209`: nothing happens if the file does not exist. -/
def convertQhmRun (s : Store) (ty : SeqType) (p : Nat) : Run Unit :=
  match readTop s ty.toText (natText p) "result.seq".toList with
  | none => Run.pure ()
  | some t => do
    Run.op (.putTop ty.toText (natText p) "result.qhm".toList [])
    let r ← Run.ofOption (convertQsToMatrices t)
    Run.op (.putTop ty.toText (natText p) "result.qhm".toList r.1)

/-- `qhm_write_all`, `main.rs:212-238`. -/
def qhmAllRun {F κ : Type} (env : Env F κ) (s : Store) (ty : SeqType) (p : Nat) : Run Unit := do
  let t ← Run.ofOption (readTop s ty.toText (natText p) "result.seq".toList)
  let text ← Run.ofOption (qhmWriteAll env.qsOrder ty t)
  Run.op (.putTop ty.toText (natText p) "qhm_all.mat".toList text)

/-- `verify_qts_eq_wts`, `main.rs:268-289`. -/
def amicableRun (s : Store) (p : Nat) : Run Unit := do
  let t ← Run.ofOption (readTop s "qts".toList (natText p) "result.seq".toList)
  Run.ofOption (verifyQtsEqWts t)

/-! ## The command line -/

/-- `str_to_match_option`, `main.rs:300-306`; `none` is the panic. -/
def strToMatchOption (t : Text) : Option MatchOption :=
  if t = "correlation".toList then some .correlation else if t = "psd".toList then some .psd else none

/-- The digits of a number, at least one. -/
def parseDigits (s : Text) : Option Nat := if s = [] then none else s.foldlM parseDigit 0

/-- `str::parse::<isize>`: an optional sign, at least one digit, no overflow. -/
def parseIsize : Text → Option Int
  | '-' :: r => (parseDigits r).bind fun n => if n ≤ 2 ^ 63 then some (-n) else none
  | s => (parseDigits (stripPlus s)).bind fun n => if n < 2 ^ 63 then some n else none

/-- `str::parse::<u8>`. -/
def parseU8 (s : Text) : Option Nat := (parseDigits (stripPlus s)).bind fun n => if n < 256 then some n else none

/-- Four row sums. -/
def parseQuad (a b c d : Text) : Option Quad :=
  (parseIsize a).bind fun a => (parseIsize b).bind fun b => (parseIsize c).bind fun c => (parseIsize d).map fun d =>
    (a, b, c, d)

/-- `main`, `main.rs:335-453`, on the arguments after the program name. -/
def mainRun {F κ : Type} [DecidableEq κ] (env : Env F κ) (s : Store) : List Text → Run Unit
  | [] => Run.pure ()
  | cmd :: args =>
    if cmd = "qhm-all".toList then
      match args with
      | [ty, p] => do
        let ty ← Run.ofOption (strToSeqtype ty)
        let p ← Run.ofOption (parseUsize p)
        qhmAllRun env s ty p
      | _ => Run.ofOption none
    else if cmd = "amicable".toList then
      match args with
      | [p] => do
        let p ← Run.ofOption (parseUsize p)
        amicableRun s p
      | _ => Run.ofOption none
    else if cmd = "rowsums".toList then
      match args with
      | [ty, p] => do
        let ty ← Run.ofOption (strToSeqtype ty)
        let p ← Run.ofOption (parseUsize p)
        writeRowsumsRun s p ty
      | _ => Run.ofOption none
    else if cmd = "join".toList then
      match args with
      | [ty, p] => do
        let ty ← Run.ofOption (strToSeqtype ty)
        let p ← Run.ofOption (parseUsize p)
        joinRun env s ty p
      | _ => Run.ofOption none
    else if cmd = "convert".toList then
      match args with
      | [kind, ty, p] => do
        let ty ← Run.ofOption (strToSeqtype ty)
        let p ← Run.ofOption (parseUsize p)
        if kind = "hm".toList then convertHmRun env s ty p
        else if kind = "qhm".toList then convertQhmRun s ty p
        else Run.ofOption none
      | _ => Run.ofOption none
    else if cmd = "pairs".toList then
      match args with
      | [ty, p, mo, pairing] => do
        let ty ← Run.ofOption (strToSeqtype ty)
        let p ← Run.ofOption (parseUsize p)
        let mo ← Run.ofOption (strToMatchOption mo)
        let _ ← writePairsRun env.A p ty mo (strToRowsumPairing pairing)
      | _ => Run.ofOption none
    else if cmd = "pairs_rowsum".toList then
      match args with
      | [ty, p, a, b, c, d, mo, pairing] => do
        let ty ← Run.ofOption (strToSeqtype ty)
        let p ← Run.ofOption (parseUsize p)
        let rs ← Run.ofOption (parseQuad a b c d)
        let mo ← Run.ofOption (strToMatchOption mo)
        let _ ← writePairsRowsumRun env.A ty.toText rs p mo (strToRowsumPairing pairing)
      | _ => Run.ofOption none
    else if cmd = "create".toList then
      match args with
      | ty :: p :: a :: b :: c :: d :: pairing :: _ => do
        let ty ← Run.ofOption (strToSeqtype ty)
        let p ← Run.ofOption (parseUsize p)
        let rs ← Run.ofOption (parseQuad a b c d)
        createRowsumDirsRun ty.toText p rs (strToRowsumPairing pairing)
      | _ => Run.ofOption none
    else if cmd = "pair_single".toList then
      match args with
      | [ty, p, a, b, c, d, mo, pairing, pair] => do
        let ty ← Run.ofOption (strToSeqtype ty)
        let p ← Run.ofOption (parseUsize p)
        let rs ← Run.ofOption (parseQuad a b c d)
        let mo ← Run.ofOption (strToMatchOption mo)
        let pair ← Run.ofOption (parseU8 pair)
        let _ ← writePairSingleRowsumRun env.A ty.toText rs p mo (strToRowsumPairing pairing) pair
      | _ => Run.ofOption none
    else Run.pure ()

/-- Running the program: the new store and whether it ended normally. -/
def runProgram {F κ : Type} [DecidableEq κ] (env : Env F κ) (s : Store) (args : List Text) : Store × Bool :=
  (applyOps s (mainRun env s args).ops, (mainRun env s args).result.isSome)

end Model
