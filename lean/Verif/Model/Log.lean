import Verif.Model.Driver

/-!
# Model: the printed lines, the log file `result.log` and the table of `collect_results.py`

The lines printed on standard output by the commands that the scripts run: `pairs`, `join`, `convert hm`, `convert qhm`. Panics
end the output (their messages go to standard error). All times are parameters, in hundredths of seconds, printed
with two decimals. The log of `find_<n>` is kept beside the store: `none` if there is none.
-/

namespace Model

/-! ## Output -/

/-- The text printed and the result; `none` is a panic. -/
structure Out (α : Type) where
  text : Text
  result : Option α

namespace Out

def pure {α : Type} (a : α) : Out α := ⟨[], some a⟩

def bind {α β : Type} (r : Out α) (f : α → Out β) : Out β :=
  match r.result with
  | none => ⟨r.text, none⟩
  | some a => ⟨r.text ++ (f a).text, (f a).result⟩

instance : Monad Out where
  pure := pure
  bind := bind

/-- `print!`. -/
def print (t : Text) : Out Unit := ⟨t, some ()⟩

/-- `println!`. -/
def say (t : Text) : Out Unit := ⟨t ++ ['\n'], some ()⟩

/-- A value, or a panic. -/
def ofOption {α : Type} (a : Option α) : Out α := ⟨[], a⟩

/-- A loop that adds up counts. -/
def sum {α : Type} (f : α → Out Nat) : List α → Out Nat
  | [] => pure 0
  | x :: l => bind (f x) fun a => bind (sum f l) fun b => pure (a + b)

/-- A loop that concatenates lists. -/
def concat {α β : Type} (f : α → Out (List β)) : List α → Out (List β)
  | [] => pure []
  | x :: l => bind (f x) fun a => bind (concat f l) fun b => pure (a ++ b)

/-- A loop. -/
def each {α : Type} (f : α → Out Unit) : List α → Out Unit
  | [] => pure ()
  | x :: l => bind (f x) fun _ => each f l

end Out

/-- What the printed lines depend on besides the files: the times, in hundredths of seconds, and the distances printed in
warnings, as the decimals after `0.` (`find_write.rs:241-246`), if a warning is printed. -/
structure Terminal where
  seqsTime : Quad → Nat
  pairsTime : Quad → Nat
  totalTime : Nat
  matchTime : Nat
  reduceTime : Nat
  reduceQtTime : Nat
  sortTime : Nat
  hmTime : Nat
  qhmTime : Nat
  wholeTime : Nat
  joinSeconds : Nat
  pairsSeconds : Nat
  psdGap : Quad → Tag × Tag → Option (List (Fin 10))
  cpsdGap : Quad → Tag × Tag → Option (List (Fin 10))
  panicText : Text

/-- `{:.2}` of a time. -/
def secsText (h : Nat) : Text := natText (h / 100) ++ ['.'] ++ [digitChar (h / 10 % 10), digitChar (h % 10)]

/-- `{}` of a float between 0 and 1. -/
def gapText (l : List (Fin 10)) : Text :=
  if l = [] then "0".toList else "0.".toList ++ l.map fun (d : Fin 10) => digitChar d.val

/-- `{:?}` of four row sums. -/
def quadDebug (q : Quad) : Text :=
  "(".toList ++ intText q.1 ++ ", ".toList ++ intText q.2.1 ++ ", ".toList ++ intText q.2.2.1 ++ ", ".toList ++
    intText q.2.2.2 ++ ")".toList

/-- `{:?}` of a file name (the names that occur need no escapes). -/
def nameDebug (t : Text) : Text := "\"".toList ++ t ++ "\"".toList

/-! ## The pair stage -/

/-- The warning of `find_write.rs:241-246`. -/
def warningOut (t : Tag × Tag) (kind : Text) (gap : Option (List (Fin 10))) : Out Unit :=
  match gap with
  | none => Out.pure ()
  | some l => Out.say ("WARNING (pair ".toList ++ [t.1.toChar, t.2.toChar] ++ "): ".toList ++ kind ++
      " values approximate half-integer with error as small as ".toList ++ gapText l)

/-- `write_seq_pairs`, `find_write.rs:128-251`. -/
def writeSeqPairsOut {F : Type} (A : Fl F) (tm : Terminal) (seqs1 seqs2 : List (List Int)) (t : Tag × Tag) (ty : SeqType)
    (rs : Quad) (p : Nat) (side : Side) (mo : MatchOption) : Out Nat := do
  Out.ofOption (if verifyRowsums seqs1 seqs2 t rs then some () else none)
  let lines ← Out.ofOption (pairLines A seqs1 seqs2 t ty p side mo)
  Out.say ("Generated ".toList ++ natText lines.length ++ " pairs for pairing ".toList ++ [t.1.toChar, t.2.toChar])
  warningOut t "PSD".toList (tm.psdGap rs t)
  warningOut t "CPSD".toList (tm.cpsdGap rs t)
  return lines.length

/-- `find_write.rs:424-446`: one list of sequences. -/
def foundSequences (k : Nat) (r : Int) : Out Unit :=
  Out.say ("Found ".toList ++ natText k ++ " sequences with rowsum ".toList ++ intText r)

/-- `write_pairs_rowsum`, `find_write.rs:402-473`. -/
def writePairsRowsumOut {F : Type} (A : Fl F) (tm : Terminal) (ty : SeqType) (rs : Quad) (p : Nat) (mo : MatchOption)
    (pairing : Option Pairing) : Out Nat := do
  let sq := fun t => rowsumSequences ty (tagRowsum rs t) p
  foundSequences (sq .W).length (tagRowsum rs .W)
  foundSequences (sq .X).length (tagRowsum rs .X)
  foundSequences (sq .Y).length (tagRowsum rs .Y)
  foundSequences (sq .Z).length (tagRowsum rs .Z)
  let _ ← Out.ofOption (sequencesText (sq .W))
  let _ ← Out.ofOption (sequencesText (sq .X))
  let _ ← Out.ofOption (sequencesText (sq .Y))
  let _ ← Out.ofOption (sequencesText (sq .Z))
  Out.say ("Generating all sequences with rowsums ".toList ++ quadDebug rs ++ " took ".toList ++ secsText (tm.seqsTime rs) ++
    " seconds".toList)
  let t := pairingTags pairing
  let c12 ← writeSeqPairsOut A tm (sq t.1.1) (sq t.1.2) t.1 ty rs p .left mo
  let c34 ← writeSeqPairsOut A tm (sq t.2.1) (sq t.2.2) t.2 ty rs p .right mo
  Out.say ("Generating .pair files for both pairs took ".toList ++ secsText (tm.pairsTime rs) ++ " seconds\n".toList)
  return c12 + c34

/-- `write_pairs`, `find_write.rs:377-400`. -/
def writePairsOut {F : Type} (A : Fl F) (tm : Terminal) (p : Nat) (ty : SeqType) (mo : MatchOption)
    (pairing : Option Pairing) : Out Unit := do
  Out.say ("Generating rowsum decompositions for length ".toList ++ natText p ++ " ...".toList)
  let rowsums ← Out.ofOption (generateRowsums p ty)
  Out.each (fun rs => Out.say (quadDebug rs)) rowsums
  Out.say ("Generated ".toList ++ natText rowsums.length ++ " different rowsums\n".toList)
  let total ← Out.sum (fun rs => do
    Out.say ("Generating .pair files for rowsums ".toList ++ quadDebug rs ++ " ...".toList)
    writePairsRowsumOut A tm ty rs p mo pairing) rowsums
  Out.say ("Generated ".toList ++ natText total ++ " total pairs".toList)
  Out.say ("Total time to generate .pair files: ".toList ++ secsText tm.totalTime ++ " seconds\n".toList)

/-! ## The join stage -/

/-- The names of the two sorted files, `find_write.rs:621-631`. -/
def sortedNames (d : Dir) : List Text := (d.filter fun f => (pairSuffix ++ sortedSuffix).isSuffixOf f.1).map Prod.fst

/-- The number of candidates, `find_write.rs:682-725`. -/
def matchCount (files : Text × Text) : Option Nat :=
  let l12 := readLines files.1
  let l34 := readLines files.2
  (joinLoop (l12.length + l34.length + 1) l12 l34).map List.length

/-- The body of the loop of `join_pairs`, `find_write.rs:500-511`, and `join_pairs_files`, `find_write.rs:665-755`. -/
def joinDirOut (ty : SeqType) (e : Text × Dir) : Out (List QuadSeq) := do
  let tab ← Out.ofOption (getSequencesFromDir e.2)
  let o ← Out.ofOption (getOrderFromDir e.2)
  Out.say ("Matching files in /".toList ++ e.1 ++ " ...".toList)
  let r ← Out.ofOption (joinPairsFiles ty o.1 o.2 tab)
  let k ← Out.ofOption (matchCount o.1)
  Out.say ("Matches found in ".toList ++ nameDebug ((sortedNames e.2).getD 0 []) ++ " and ".toList ++
    nameDebug ((sortedNames e.2).getD 1 []) ++ ": ".toList ++ natText k ++ "\n".toList)
  return r

/-- The line of `find_write.rs:525` or `find_write.rs:529`. -/
def filteredLine (ty : SeqType) (k : Nat) : Text :=
  match ty with
  | .quaternionType => "Filtered with the NS (negate-and-swap) operation; now filtering ".toList ++ natText k ++
      " sequences up to QT equivalence ...".toList
  | _ => "Filtered with the SN (single negate) and SS (single swap) operations; now filtering ".toList ++ natText k ++
      " sequences up to Williamson-type equivalence ...".toList

/-- The two lines after a reduction, `find_write.rs:543-544` and `main.rs:153-154`. -/
def reducedOut (k : Nat) (ty : Text) (h : Nat) : Out Unit := do
  Out.say ("Found ".toList ++ natText k ++ " ".toList ++ ty ++ " after reducing to equivalence".toList)
  Out.say ("Reducing to equivalence took ".toList ++ secsText h ++ " seconds.\n".toList)

/-- `join_pairs`, `find_write.rs:490-549`. -/
def joinPairsOut (debug : Bool) (tm : Terminal) (ty : SeqType) (dirs : List (Text × Dir)) : Out (List QuadSeq) := do
  let result ← Out.concat (joinDirOut ty) dirs
  Out.say ("Matching took: ".toList ++ secsText tm.matchTime ++ " seconds.".toList)
  Out.ofOption (if debug && !result.all hasSortedRowsums then none else some ())
  Out.say ("\nFound ".toList ++ natText result.length ++ " ".toList ++ ty.toText ++ " after matching".toList)
  let filtered ← Out.ofOption (filterCanonical ty result)
  Out.say (filteredLine ty filtered.length)
  let reduced ← Out.ofOption (reduceToCanonicalReps filtered ty)
  reducedOut reduced.length ty.toText tm.reduceTime
  return reduced

/-- `main.rs:98-103`: one QT sequence. -/
def amicableOut (debug : Bool) (q : QuadSeq) : Out Unit := do
  Out.ofOption (if debug && !q.verifyQts then none else some ())
  if q.isAmicable then Out.pure ()
  else do
    let t ← Out.ofOption q.toText
    Out.print ("Seq is valid QTS, but not amicable (not WTS): ".toList ++ t)

/-- `main.rs:97-105`: the check of the QT sequences. -/
def checkAmicableOut (debug : Bool) (ty : SeqType) (result : List QuadSeq) : Out Unit :=
  if ty = .quaternionType then Out.each (amicableOut debug) result else Out.pure ()

/-- `find_write_quad_seq`, `main.rs:92-169`. -/
def joinOut {F κ : Type} (env : Env F κ) (tm : Terminal) (s : Store) (ty : SeqType) (p : Nat) : Out Unit := do
  let d ← Out.ofOption (s ty.toText (natText p))
  let result ← joinPairsOut env.debug tm ty (listedDirs env d)
  checkAmicableOut env.debug ty result
  let _ ← Out.ofOption (resultText result)
  let _ ← Out.ofOption (qseqText result)
  match ty with
  | .williamsonType => do
    Out.say ("In order to generate all Williamson-type sequences up to Hadamard equivalence, we now generate a complete list ".toList ++
      "up to QT equivalence ...".toList)
    let reduced ← Out.ofOption (reduceToCanonicalReps (expandWts p result) .quaternionType)
    reducedOut reduced.length "qts".toList tm.reduceQtTime
    let _ ← Out.ofOption (resultText reduced)
    let _ ← Out.ofOption (qseqText reduced)
  | _ => return

/-! ## The conversions -/

/-- The path of a result file as printed. -/
def findPath (ty : SeqType) (p : Nat) (name : Text) : Text :=
  "results/pairs/".toList ++ ty.toText ++ "/find_".toList ++ natText p ++ "/".toList ++ name

/-- `convert hm`, `main.rs:382-390`, and `hadamard_equivalence_from_file`, `matrix_equivalence.rs:72-122`. -/
def convertHmOut {F κ : Type} [DecidableEq κ] (env : Env F κ) (s : Store) (ty : SeqType) (p : Nat) : Out Unit := do
  let name := match ty with
    | .williamsonType => "result-qts.seq".toList
    | _ => "result.seq".toList
  Out.say ("Converting sequences found in ".toList ++ findPath ty p name ++
    " to Hadamard matrices up to Hadamard equivalence ...".toList)
  let t ← Out.ofOption (readTop s ty.toText (natText p) name)
  let l ← Out.ofOption ((readLines t).mapM (readCanonicalLine env.debug))
  Out.ofOption (if l.all fun q => q.size ≠ 0 && q.verify ty then some () else none)
  Out.say "Reducing matrices to equivalence via graph isomorphism...".toList
  let equ ← Out.ofOption (hadamardRepresentatives env.canon env.hmOrder env.debug ty t)
  Out.say ("Number of matrices up to equivalence : ".toList ++ natText equ.length)
  let _ ← Out.ofOption (equ.mapM HM.toStringMagma)

/-- `convert_qs_to_matrices`, `main.rs:178-209`. -/
def convertQhmOut (s : Store) (ty : SeqType) (p : Nat) : Out Unit := do
  Out.say ("./".toList ++ findPath ty p "result.seq".toList)
  match readTop s ty.toText (natText p) "result.seq".toList with
  | none => Out.pure ()
  | some t => do
    let r ← Out.ofOption (convertQsToMatrices t)
    Out.say ("converted ".toList ++ natText r.2.1 ++ " sequences of size ".toList ++ natText p ++ ". ".toList ++
      natText r.2.2 ++ " contained non-commuting elements.".toList)

/-- `main`, `main.rs:335-453`, for the commands run by the scripts. -/
def mainOut {F κ : Type} [DecidableEq κ] (env : Env F κ) (tm : Terminal) (s : Store) : List Text → Out Unit
  | [] => Out.pure ()
  | cmd :: args =>
    if cmd = "join".toList then
      match args with
      | [ty, p] => do
        let ty ← Out.ofOption (strToSeqtype ty)
        let p ← Out.ofOption (parseUsize p)
        joinOut env tm s ty p
      | _ => Out.ofOption none
    else if cmd = "convert".toList then
      match args with
      | [kind, ty, p] => do
        let ty ← Out.ofOption (strToSeqtype ty)
        let p ← Out.ofOption (parseUsize p)
        if kind = "hm".toList then convertHmOut env s ty p
        else if kind = "qhm".toList then convertQhmOut s ty p
        else Out.ofOption none
      | _ => Out.ofOption none
    else if cmd = "pairs".toList then
      match args with
      | [ty, p, mo, pairing] => do
        let ty ← Out.ofOption (strToSeqtype ty)
        let p ← Out.ofOption (parseUsize p)
        let mo ← Out.ofOption (strToMatchOption mo)
        writePairsOut env.A tm p ty mo (strToRowsumPairing pairing)
      | _ => Out.ofOption none
    else Out.pure ()

/-! ## The log file -/

/-- The standard output of the program. -/
def stdout {F κ : Type} [DecidableEq κ] (env : Env F κ) (tm : Terminal) (s : Store) (args : List Text) : Text :=
  (mainOut env tm s args).text

/-- `sortpairs.sh:41-66`: the line for every file, in the order of the pattern, and the time. (The pattern lists names in
the order of the locale, bytewise here.) -/
def sortLog (tm : Terminal) (s : Store) (ty n : Text) : Text :=
  let dirs := ((s ty n).map FindDir.dirs).getD []
  let line := fun (dir file : Text) => "Sorting file results/pairs/".toList ++ ty ++ "/find_".toList ++ n ++ "/".toList ++ dir ++
    "/".toList ++ file ++ " ...\n".toList
  (dirs.mergeSort fun a b => textLe a.1 b.1).flatMap (fun e =>
    let files := ((e.2.filter fun f => pairSuffix.isSuffixOf f.1).map Prod.fst).mergeSort textLe
    (if files = [] then ["*.pair".toList] else files).flatMap (line e.1)) ++
  "Total time to sort: ".toList ++ secsText tm.sortTime ++ " seconds.\n\n".toList

/-- `driver.sh:119-130`: the log of the stage of the flag `-h`. The number is that of the lines of `result.mat`; without this
file `wc` fails and the variable is empty. -/
def hmLog {F κ : Type} [DecidableEq κ] (env : Env F κ) (tm : Terminal) (ty n : Text) (s : Store) : Text :=
  let args := ["convert".toList, "hm".toList, ty, n]
  let count := ((readTop (runProgram env s args).1 ty n "result.mat".toList).map fun t => natText (wcLines t)).getD []
  stdout env tm s args ++ "Converting to matrices up to Hadamard equivalence took ".toList ++ secsText tm.hmTime ++
    " seconds\n".toList ++ count ++ " matrices were found after converting up to Hadamard equivalence.\n".toList

/-- `convert_qhm.sh:15-20`. -/
def qhmLog {F κ : Type} [DecidableEq κ] (env : Env F κ) (tm : Terminal) (ty n : Text) (s : Store) : Text :=
  stdout env tm s ["convert".toList, "qhm".toList, ty, n] ++ "Converting to PQS to QHM took ".toList ++ secsText tm.qhmTime ++
    " seconds\n".toList

/-- The log after `driver.sh`, `driver.sh:28-142`, for a log `old` before. The first `tee` empties it, the others append. -/
def driverLog {F κ : Type} [DecidableEq κ] (env : Env F κ) (tm : Terminal) (ty n : Text) (flags : List Flag) (s : Store)
    (old : Option Text) : Option Text :=
  if ty = [] ∨ n = [] then old
  else
    let (o, s) := flags.foldl (driverFlag ty n) (.default, s)
    if hasRowsumDirs s ty n then old
    else
      let s := mkdirFind s ty n
      let args := ["pairs".toList, ty, n, o.matchOption] ++ shellWords o.pairing
      let s1 := (runProgram env s args).1
      let s2 := (sortPairsSh s1 ty n).1
      let s3 := (runProgram env s2 ["join".toList, ty, n]).1
      let s4 := if o.hadamard then (runProgram env s3 ["convert".toList, "hm".toList, ty, n]).1 else s3
      some (stdout env tm s args ++ sortLog tm s1 ty n ++ stdout env tm s2 ["join".toList, ty, n] ++
        (if o.hadamard then hmLog env tm ty n s3 else []) ++ "Converting PQS to QHM ...\n".toList ++
        qhmLog env tm ty n s4 ++ "\nTotal execution time was ".toList ++ secsText tm.wholeTime ++ " seconds.\n".toList)

/-- The log after `pairs.sh`, `pairs.sh:77-84`. -/
def pairsShLog {F κ : Type} [DecidableEq κ] (env : Env F κ) (tm : Terminal) (ty n : Text) (flags : List Flag) (s : Store)
    (old : Option Text) : Option Text :=
  if ty = [] ∨ n = [] then old
  else
    let (o, s) := flags.foldl (pairsFlag ty n) (.default, s)
    if hasRowsumDirs s ty n then old
    else some (stdout env tm (mkdirFind s ty n) (["pairs".toList, ty, n, o.matchOption] ++ shellWords o.pairing) ++
      "Generating the .pair files took ".toList ++ natText tm.pairsSeconds ++ " seconds. \n \n\n".toList)

/-- Appending to the log, if its directory exists. -/
def appendLog (s : Store) (ty n : Text) (old : Option Text) (t : Text) : Option Text :=
  if (s ty n).isSome then some (old.getD [] ++ t) else old

/-- The log after `sortpairs.sh`. -/
def sortPairsShLog (tm : Terminal) (ty n : Text) (s : Store) (old : Option Text) : Option Text :=
  appendLog s ty n old (sortLog tm s ty n)

/-- The log after `join_pairs.sh`, `join_pairs.sh:20-25`; it also gets the message of a panic. -/
def joinPairsShLog {F κ : Type} [DecidableEq κ] (env : Env F κ) (tm : Terminal) (ty n : Text) (s : Store)
    (old : Option Text) : Option Text :=
  let out := mainOut env tm s ["join".toList, ty, n]
  appendLog s ty n old (out.text ++ (if out.result.isSome then [] else tm.panicText ++ "\n".toList) ++
    "Joining the files together took ".toList ++ natText tm.joinSeconds ++ " seconds. \n\n\n".toList)

/-- The log after `convert_hm.sh`, `convert_hm.sh:15-21`. -/
def convertHmShLog {F κ : Type} [DecidableEq κ] (env : Env F κ) (tm : Terminal) (ty n : Text) (s : Store)
    (old : Option Text) : Option Text :=
  appendLog s ty n old (stdout env tm s ["convert".toList, "hm".toList, ty, n] ++
    "Converting to matrices up to Hadamard equivalence took ".toList ++ secsText tm.hmTime ++ " seconds\n".toList)

/-- The log after `convert_qhm.sh`. -/
def convertQhmShLog {F κ : Type} [DecidableEq κ] (env : Env F κ) (tm : Terminal) (ty n : Text) (s : Store)
    (old : Option Text) : Option Text :=
  appendLog s ty n old (qhmLog env tm ty n s)

/-- The log after the scripts of the single stages, run one after the other (and `convert_hm.sh` for the flag `-h`). -/
def scriptsLog {F κ : Type} [DecidableEq κ] (env : Env F κ) (tm : Terminal) (ty n : Text) (flags : List Flag) (s : Store)
    (old : Option Text) : Option Text :=
  let log := pairsShLog env tm ty n flags s old
  let s := (pairsSh env ty n flags s).1
  let log := sortPairsShLog tm ty n s log
  let s := (sortPairsSh s ty n).1
  let log := joinPairsShLog env tm ty n s log
  let s := joinPairsSh env ty n s
  let log := if .h ∈ flags then convertHmShLog env tm ty n s log else log
  let s := if .h ∈ flags then convertHmSh env ty n s else s
  convertQhmShLog env tm ty n s log

/-! ## `collect_results.py` -/

/-- Iterating over the lines of a file. -/
def pyLines (t : Text) : List Text :=
  let l := t.splitOnP fun c => c = '\n'
  if l.getLast? = some [] then l.dropLast else l

/-- `re.search`: the first place at which the pattern matches. -/
def search {α : Type} (m : Text → Option α) : Text → Option α
  | [] => m []
  | c :: t => match m (c :: t) with
    | some a => some a
    | none => search m t

/-- A literal. -/
def literal (pre t : Text) : Option Text := if pre.isPrefixOf t then some (t.drop pre.length) else none

/-- `\d+` (a digit cannot match what follows in any of the patterns, so no backtracking is needed). -/
def digits (t : Text) : Option (Text × Text) :=
  if t.takeWhile Char.isDigit = [] then none else some (t.takeWhile Char.isDigit, t.dropWhile Char.isDigit)

/-- `int` of a nonempty text of digits. -/
def intOf (t : Text) : Nat := t.foldl (fun acc c => 10 * acc + (c.toNat - 48)) 0

/-- `pre(\d+)post`, as `int`. -/
def numAt (pre post t : Text) : Option Nat :=
  (literal pre t).bind fun r => (digits r).bind fun d => (literal post d.2).map fun _ => intOf d.1

/-- `pre(\d+\.\d\d)post`, as `float` (an exact rational here). -/
def secsAt (pre post t : Text) : Option Rat :=
  (literal pre t).bind fun r => (digits r).bind fun d =>
    match d.2 with
    | '.' :: a :: b :: r =>
      if a.isDigit && b.isDigit then (literal post r).map fun _ => (intOf (d.1 ++ [a, b]) : Rat) / 100 else none
    | _ => none

/-- `pre(\d+(?:\.\d+)?)post`, as `float`. -/
def floatAt (pre post t : Text) : Option Rat :=
  (literal pre t).bind fun r => (digits r).bind fun d =>
    match (literal ".".toList d.2).bind digits with
    | some f => (literal post f.2).map fun _ => (intOf (d.1 ++ f.1) : Rat) / 10 ^ f.1.length
    | none => (literal post d.2).map fun _ => (intOf d.1 : Rat)

/-- The values found in the lines of a file. -/
def scan {α : Type} (m : Text → Option α) (t : Text) : List α := (pyLines t).filterMap (search m)

/-- `read_runtimes`, `collect_results.py:9-18`. -/
def readRuntimes (log : Text) : Rat := (scan (secsAt ": ".toList " seconds".toList) log).sum

/-- `get_qt_equivalence_time`, `collect_results.py:22-29`. -/
def qtEquivalenceTime (log : Text) : Rat :=
  (scan (floatAt "Reducing to equivalence took ".toList " seconds".toList) log).head?.getD (-1)

/-- `get_hm_equivalence_time`, `collect_results.py:32-39`. -/
def hmEquivalenceTime (log : Text) : Rat :=
  (scan (floatAt "Converting to matrices up to Hadamard equivalence took ".toList " seconds".toList) log).head?.getD (-1)

/-- `reduced_QTS_count`, `collect_results.py:52-59`. -/
def reducedCount (log : Text) (ty : Text) : Int :=
  ((scan (numAt "Found ".toList (" ".toList ++ ty ++ " after reducing to equivalence".toList)) log).head?.map fun k => (k : Int)).getD (-1)

/-- `hadamard_reduced_QTS_count`, `collect_results.py:62-69`. -/
def matrixCount (s : Store) (ty n : Text) : Int :=
  ((readTop s ty n "result.mat".toList).map fun t => ((pyLines t).length : Int)).getD (-1)

/-- `count_pairs`, `collect_results.py:72-82`, when there is a log. -/
def countPairs (log : Text) (s : Store) (ty n : Text) : Int :=
  ((scan (numAt "Generated ".toList " total pairs".toList) log).head?.map fun k => (k : Int)).getD (countPairsSh s ty n)

/-- One row of the table. -/
structure Row where
  q : Int
  w : Int
  m : Int
  time : Rat
  qtTime : Rat
  hmTime : Rat
  pairs : Int
  deriving DecidableEq

/-- The row of one length, `collect_results.py:145-176` (the column with the disk usage is left out). -/
def collectRow (log : Option Text) (s : Store) (ty n : Text) : Row :=
  match log with
  | none => { q := -1, w := -1, m := -1, time := -1, qtTime := -1, hmTime := -1, pairs := -1 }
  | some log =>
    { q := reducedCount log "qts".toList, w := reducedCount log "wts".toList, m := matrixCount s ty n, time := readRuntimes log,
      qtTime := qtEquivalenceTime log, hmTime := hmEquivalenceTime log, pairs := countPairs log s ty n }

/-- The totals printed with `verbose`, `collect_results.py:178-182`: up to Williamson-type, QT and Hadamard equivalence. -/
def collectTotals (rows : List Row) : Int × Int × Int := ((rows.map Row.w).sum, (rows.map Row.q).sum, (rows.map Row.m).sum)

end Model
