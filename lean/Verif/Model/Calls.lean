import Verif.Model.Program

/-!
# Model: the calls of `File::create` and `File::write`

The commands of `main.rs` once more, with every call of `File::write` separate. The code calls `write`, not `write_all`, and
does not look at the number returned: `write` may transfer only the beginning of its buffer (the file system is nearly full,
or the buffer is longer than the system transfers in one call). `expect` panics on an error only.
`Model/Program` has the same commands for a system that transfers everything. Texts are ASCII, so characters are bytes.
-/

namespace Model

/-- A file of the store: in a directory of `find_<n>`, or in `find_<n>` itself. -/
structure FileName where
  ty : Text
  n : Text
  dir : Option Text
  name : Text
  deriving DecidableEq

/-- One system call. -/
inductive SysCall
  /-- `fs::create_dir_all` -/
  | mkdir (ty n dir : Text)
  /-- `File::create`: an existing file is emptied -/
  | create (f : FileName)
  /-- `f.write(block)` -/
  | write (f : FileName) (block : Text)
  deriving DecidableEq

namespace Calls

/-- Appending to a file of a directory. -/
def appendFile (d : Dir) (name block : Text) : Dir := d.map fun f => if f.1 = name then (f.1, f.2 ++ block) else f

/-- The effect of transferring a block. -/
def append (s : Store) (f : FileName) (block : Text) : Store := fun ty n =>
  if (ty, n) = (f.ty, f.n) then
    (s ty n).map fun d =>
      match f.dir with
      | some dir => { d with dirs := d.dirs.map fun e => if e.1 = dir then (e.1, appendFile e.2 f.name block) else e }
      | none => { d with files := appendFile d.files f.name block }
  else s ty n

/-- The effect of `File::create`. -/
def create (s : Store) (f : FileName) : Store :=
  match f.dir with
  | some dir => Write.apply s (.put f.ty f.n dir f.name [])
  | none => Write.apply s (.putTop f.ty f.n f.name [])

/-- A command: its calls and its result; `none` is a panic for another reason than a failing call. -/
structure Cmd (α : Type) where
  calls : List SysCall
  result : Option α

namespace Cmd

def pure {α : Type} (a : α) : Cmd α := ⟨[], some a⟩

def bind {α β : Type} (r : Cmd α) (f : α → Cmd β) : Cmd β :=
  match r.result with
  | none => ⟨r.calls, none⟩
  | some a => ⟨r.calls ++ (f a).calls, (f a).result⟩

instance : Monad Cmd where
  pure := pure
  bind := bind

/-- One call. -/
def call (c : SysCall) : Cmd Unit := ⟨[c], some ()⟩

/-- A value, or a panic. -/
def ofOption {α : Type} (a : Option α) : Cmd α := ⟨[], a⟩

/-- `for x in l { f(x) }` -/
def each {α : Type} (f : α → Cmd Unit) : List α → Cmd Unit
  | [] => pure ()
  | x :: l => bind (f x) fun _ => each f l

/-- `for x in l { counter += f(x) }` -/
def sum {α : Type} (f : α → Cmd Nat) : List α → Cmd Nat
  | [] => pure 0
  | x :: l => bind (f x) fun a => bind (sum f l) fun b => pure (a + b)

end Cmd

/-! ## The pair stage -/

/-- `write_sequences`, `find_write.rs:85-94`: one call per line. -/
def writeSequences (ty n dir : Text) (tag : Tag) (seqs : List (List Int)) : Cmd Unit := do
  let f : FileName := ⟨ty, n, some dir, seqFileName tag⟩
  Cmd.call (.create f)
  Cmd.each (fun seq => do
    let line ← Cmd.ofOption (sequenceToString seq)
    Cmd.call (.write f (line ++ ['\n']))) seqs

/-- `write_seq_pairs`, `find_write.rs:128-251`: one call per 1000 lines and one after the loop. (The lines are computed before
the first call; their computation panics for the type at the first pair or not at all.) -/
def writeSeqPairs {F : Type} (A : Fl F) (folder n dir : Text) (seqs1 seqs2 : List (List Int)) (tags : Tag × Tag)
    (ty : SeqType) (rs : Quad) (p : Nat) (side : Side) (mo : MatchOption) : Cmd Nat := do
  Cmd.ofOption (if verifyRowsums seqs1 seqs2 tags rs then some () else none)
  let f : FileName := ⟨folder, n, some dir, pairFileName tags.1 tags.2⟩
  Cmd.call (.create f)
  let lines ← Cmd.ofOption (pairLines A seqs1 seqs2 tags ty p side mo)
  Cmd.each (fun block => Cmd.call (.write f block)) (writeBlocks lines)
  return lines.length

/-- `write_pairs_rowsum`, `find_write.rs:402-473`. -/
def writePairsRowsum {F : Type} (A : Fl F) (folder : Text) (rs : Quad) (p : Nat) (mo : MatchOption)
    (pairing : Option Pairing) : Cmd Nat := do
  let n := natText p
  let dir := rowsumDirName rs
  Cmd.call (.mkdir folder n dir)
  let ty ← Cmd.ofOption (strToSeqtype folder)
  let sq := fun t => rowsumSequences ty (tagRowsum rs t) p
  writeSequences folder n dir .W (sq .W)
  writeSequences folder n dir .X (sq .X)
  writeSequences folder n dir .Y (sq .Y)
  writeSequences folder n dir .Z (sq .Z)
  let t := pairingTags pairing
  let c12 ← writeSeqPairs A folder n dir (sq t.1.1) (sq t.1.2) t.1 ty rs p .left mo
  let c34 ← writeSeqPairs A folder n dir (sq t.2.1) (sq t.2.2) t.2 ty rs p .right mo
  return c12 + c34

/-- `write_pairs`, `find_write.rs:377-400`. -/
def writePairs {F : Type} (A : Fl F) (p : Nat) (ty : SeqType) (mo : MatchOption) (pairing : Option Pairing) : Cmd Nat := do
  let rowsums ← Cmd.ofOption (generateRowsums p ty)
  Cmd.sum (fun rs => writePairsRowsum A ty.toText rs p mo pairing) rowsums

/-- `write_pair_single_rowsum`, `find_write.rs:284-340`. -/
def writePairSingleRowsum {F : Type} (A : Fl F) (folder : Text) (rs : Quad) (p : Nat) (mo : MatchOption)
    (pairing : Option Pairing) (pair : Nat) : Cmd Nat := do
  let n := natText p
  let dir := rowsumDirName rs
  Cmd.call (.mkdir folder n dir)
  let ty ← Cmd.ofOption (strToSeqtype folder)
  match getIndices pairing pair with
  | none => return 0
  | some t =>
    let sq := fun t => rowsumSequences ty (tagRowsum rs t) p
    writeSequences folder n dir t.1 (sq t.1)
    writeSequences folder n dir t.2 (sq t.2)
    writeSeqPairs A folder n dir (sq t.1) (sq t.2) t ty rs p (if pair = 1 then .left else .right) mo

/-- `create_rowsum_dirs`, `find_write.rs:342-375`. -/
def createRowsumDirs (folder : Text) (p : Nat) (rs : Quad) (pairing : Option Pairing) : Cmd Unit := do
  let n := natText p
  let dir := rowsumDirName rs
  Cmd.call (.mkdir folder n dir)
  let names ← Cmd.ofOption (Model.createRowsumDirs rs pairing)
  ⟨names.map fun name => .create ⟨folder, n, some dir, name⟩, some ()⟩

/-! ## The other commands -/

/-- `write_rowsums`, `find_write.rs:16-29`: one call. -/
def writeRowsums (s : Store) (p : Nat) (ty : SeqType) : Cmd Unit := do
  let f : FileName := ⟨ty.toText, natText p, none, "rowsums.quad".toList⟩
  Cmd.ofOption ((s f.ty f.n).map fun _ => ())
  Cmd.call (.create f)
  let text ← Cmd.ofOption (rowsumsText p ty)
  Cmd.call (.write f text)

/-- The two files written for a list of sequences, `main.rs:106-122` and `main.rs:157-167`: one call each. -/
def writeResult (ty n : Text) (seqName qseqName : Text) (l : List QuadSeq) : Cmd Unit := do
  Cmd.call (.create ⟨ty, n, none, seqName⟩)
  Cmd.call (.create ⟨ty, n, none, qseqName⟩)
  let seqText ← Cmd.ofOption (resultText l)
  let qseq ← Cmd.ofOption (qseqText l)
  Cmd.call (.write ⟨ty, n, none, seqName⟩ seqText)
  Cmd.call (.write ⟨ty, n, none, qseqName⟩ qseq)

/-- `find_write_quad_seq`, `main.rs:92-169`. -/
def join {F κ : Type} (env : Env F κ) (s : Store) (ty : SeqType) (p : Nat) : Cmd Unit := do
  let n := natText p
  let d ← Cmd.ofOption (s ty.toText n)
  let matched ← Cmd.ofOption (joinAll ty (listedDirs env d))
  -- the assertion of `find_write.rs:517`
  Cmd.ofOption (if env.debug && !matched.all hasSortedRowsums then none else some ())
  let result ← Cmd.ofOption (joinPairs ty (listedDirs env d))
  -- the assertion of `main.rs:99`
  Cmd.ofOption (if env.debug && ty = .quaternionType && !result.all QuadSeq.verifyQts then none else some ())
  writeResult ty.toText n "result.seq".toList "result.qseq".toList result
  match ty with
  | .williamsonType =>
    let reduced ← Cmd.ofOption (reduceToCanonicalReps (expandWts p result) .quaternionType)
    writeResult ty.toText n "result-qts.seq".toList "result-qts.qseq".toList reduced
  | _ => return

/-- `convert hm`, `main.rs:386-392`, and `hadamard_equivalence_from_file`, `matrix_equivalence.rs:72-122`: one call. -/
def convertHm {F κ : Type} [DecidableEq κ] (env : Env F κ) (s : Store) (ty : SeqType) (p : Nat) : Cmd Unit := do
  let name := match ty with
    | .williamsonType => "result-qts.seq".toList
    | _ => "result.seq".toList
  let t ← Cmd.ofOption (readTop s ty.toText (natText p) name)
  let text ← Cmd.ofOption (hadamardEquivalenceFromFile env.canon env.hmOrder env.debug ty t)
  Cmd.call (.create ⟨ty.toText, natText p, none, "result.mat".toList⟩)
  Cmd.call (.write ⟨ty.toText, natText p, none, "result.mat".toList⟩ text)

/-- `convert_qs_to_matrices`, `main.rs:178-209`: one call. -/
def convertQhm (s : Store) (ty : SeqType) (p : Nat) : Cmd Unit :=
  match readTop s ty.toText (natText p) "result.seq".toList with
  | none => Cmd.pure ()
  | some t => do
    Cmd.call (.create ⟨ty.toText, natText p, none, "result.qhm".toList⟩)
    let r ← Cmd.ofOption (convertQsToMatrices t)
    Cmd.call (.write ⟨ty.toText, natText p, none, "result.qhm".toList⟩ r.1)

/-- The texts of the matrices of `qhm_write_all`, `main.rs:226-237`. -/
def qhmAllBlocks (order : List QuadSeq → List QuadSeq) (ty : SeqType) (t : Text) : Option (List Text) :=
  ((readLines t).mapM fun line => (QS.fromStr line).bind QuadSeq.fromPqs).bind fun qts =>
    (generateEquivalentQuadSeqs qts ty).bind fun equ =>
      (order equ).mapM fun (seq : QuadSeq) => seq.toQs.bind fun qs => (QHM.fromPqs qs).dephased.toString.map fun s =>
        s ++ ['\n', '\n']

/-- `qhm_write_all`, `main.rs:212-238`: one call per matrix. (The texts are computed before the file is created.) -/
def qhmAll {F κ : Type} (env : Env F κ) (s : Store) (ty : SeqType) (p : Nat) : Cmd Unit := do
  let t ← Cmd.ofOption (readTop s ty.toText (natText p) "result.seq".toList)
  let blocks ← Cmd.ofOption (qhmAllBlocks env.qsOrder ty t)
  Cmd.call (.create ⟨ty.toText, natText p, none, "qhm_all.mat".toList⟩)
  Cmd.each (fun block => Cmd.call (.write ⟨ty.toText, natText p, none, "qhm_all.mat".toList⟩ block)) blocks

/-- `verify_qts_eq_wts`, `main.rs:268-289`: no file is written. -/
def amicable (s : Store) (p : Nat) : Cmd Unit := do
  let t ← Cmd.ofOption (readTop s "qts".toList (natText p) "result.seq".toList)
  Cmd.ofOption (verifyQtsEqWts t)

/-- `main`, `main.rs:335-453`, on the arguments after the program name. -/
def main {F κ : Type} [DecidableEq κ] (env : Env F κ) (s : Store) : List Text → Cmd Unit
  | [] => Cmd.pure ()
  | cmd :: args =>
    if cmd = "qhm-all".toList then
      match args with
      | [ty, p] => do
        let ty ← Cmd.ofOption (strToSeqtype ty)
        let p ← Cmd.ofOption (parseUsize p)
        qhmAll env s ty p
      | _ => Cmd.ofOption none
    else if cmd = "amicable".toList then
      match args with
      | [p] => do
        let p ← Cmd.ofOption (parseUsize p)
        amicable s p
      | _ => Cmd.ofOption none
    else if cmd = "rowsums".toList then
      match args with
      | [ty, p] => do
        let ty ← Cmd.ofOption (strToSeqtype ty)
        let p ← Cmd.ofOption (parseUsize p)
        writeRowsums s p ty
      | _ => Cmd.ofOption none
    else if cmd = "join".toList then
      match args with
      | [ty, p] => do
        let ty ← Cmd.ofOption (strToSeqtype ty)
        let p ← Cmd.ofOption (parseUsize p)
        join env s ty p
      | _ => Cmd.ofOption none
    else if cmd = "convert".toList then
      match args with
      | [kind, ty, p] => do
        let ty ← Cmd.ofOption (strToSeqtype ty)
        let p ← Cmd.ofOption (parseUsize p)
        if kind = "hm".toList then convertHm env s ty p
        else if kind = "qhm".toList then convertQhm s ty p
        else Cmd.ofOption none
      | _ => Cmd.ofOption none
    else if cmd = "pairs".toList then
      match args with
      | [ty, p, mo, pairing] => do
        let ty ← Cmd.ofOption (strToSeqtype ty)
        let p ← Cmd.ofOption (parseUsize p)
        let mo ← Cmd.ofOption (strToMatchOption mo)
        let _ ← writePairs env.A p ty mo (strToRowsumPairing pairing)
      | _ => Cmd.ofOption none
    else if cmd = "pairs_rowsum".toList then
      match args with
      | [ty, p, a, b, c, d, mo, pairing] => do
        let ty ← Cmd.ofOption (strToSeqtype ty)
        let p ← Cmd.ofOption (parseUsize p)
        let rs ← Cmd.ofOption (parseQuad a b c d)
        let mo ← Cmd.ofOption (strToMatchOption mo)
        let _ ← writePairsRowsum env.A ty.toText rs p mo (strToRowsumPairing pairing)
      | _ => Cmd.ofOption none
    else if cmd = "create".toList then
      match args with
      | ty :: p :: a :: b :: c :: d :: pairing :: _ => do
        let ty ← Cmd.ofOption (strToSeqtype ty)
        let p ← Cmd.ofOption (parseUsize p)
        let rs ← Cmd.ofOption (parseQuad a b c d)
        createRowsumDirs ty.toText p rs (strToRowsumPairing pairing)
      | _ => Cmd.ofOption none
    else if cmd = "pair_single".toList then
      match args with
      | [ty, p, a, b, c, d, mo, pairing, pair] => do
        let ty ← Cmd.ofOption (strToSeqtype ty)
        let p ← Cmd.ofOption (parseUsize p)
        let rs ← Cmd.ofOption (parseQuad a b c d)
        let mo ← Cmd.ofOption (strToMatchOption mo)
        let pair ← Cmd.ofOption (parseU8 pair)
        let _ ← writePairSingleRowsum env.A ty.toText rs p mo (strToRowsumPairing pairing) pair
      | _ => Cmd.ofOption none
    else Cmd.pure ()

/-! ## The system -/

/-- How the system answers `write`: given the number of bytes transferred for the process before and the length of the block,
the number of bytes transferred, or an error. -/
abbrev Device := Nat → Nat → Option Nat

/-- The calls one after the other, `u` bytes having been transferred before: the store, and whether no call failed. `write`
is followed by `expect`, which panics on an error and drops the number returned. -/
def perform (dev : Device) : Nat → Store → List SysCall → Store × Bool
  | _, s, [] => (s, true)
  | u, s, .mkdir ty n dir :: cs => perform dev u (Write.apply s (.mkdir ty n dir)) cs
  | u, s, .create f :: cs => perform dev u (create s f) cs
  | u, s, .write f b :: cs =>
    match dev u b.length with
    | none => (s, false)
    | some k => perform dev (u + (b.take k).length) (append s f (b.take k)) cs

/-- Running the program on a device: the new store and whether it ended normally. -/
def run {F κ : Type} [DecidableEq κ] (dev : Device) (env : Env F κ) (s : Store) (args : List Text) : Store × Bool :=
  let c := main env s args
  let r := perform dev 0 s c.calls
  (r.1, r.2 && c.result.isSome)

/-- A file system with room for `r` more bytes (`write(2)`: a block that does not fit is written as far as it fits; without any
room the call fails). -/
def room (r : Nat) : Device := fun u len => if len = 0 then some 0 else if r ≤ u then none else some (min len (r - u))

/-- A system that transfers at most `m` bytes in one call (Linux: `0x7ffff000`, `write(2)`). -/
def limit (m : Nat) : Device := fun _ len => some (min len m)

end Calls
end Model
