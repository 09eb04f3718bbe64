import Verif.Model.Matching
import Verif.Model.Rowsum
import Verif.Model.FindUnique

/-!
# Model: `find/find_write.rs`, `sortpairs.sh`, and the `join` command of `main.rs`

Text is a list of characters (all characters written are ASCII, so bytes and characters coincide). A directory is a list
of named files in listing order. `File::write` is taken to write its whole buffer, and I/O errors do not occur.
-/

namespace Model

/-! ## Text -/

/-- A text, as its characters. -/
abbrev Text := List Char

/-- Decimal digit. -/
def digitChar (d : Nat) : Char := Char.ofNat (48 + d)

/-- Decimal digits with fuel. -/
def natAux : Nat → Nat → Text
  | 0, _ => []
  | fuel + 1, n => if n < 10 then [digitChar n] else natAux fuel (n / 10) ++ [digitChar (n % 10)]

/-- `usize::to_string`. -/
def natText (n : Nat) : Text := natAux (n + 1) n

/-- `isize::to_string`. -/
def intText (z : Int) : Text := if z < 0 then '-' :: natText z.natAbs else natText z.natAbs

/-- Bytewise comparison `s < t` of strings (Rust `str` order; ASCII text). -/
def textLt : Text → Text → Bool
  | _, [] => false
  | [], _ :: _ => true
  | x :: xs, y :: ys => if x.toNat < y.toNat then true else if y.toNat < x.toNat then false else textLt xs ys

/-- Drops one carriage return (of a reversed line). -/
def stripCr : Text → Text
  | '\r' :: r => r
  | s => s

/-- `BufRead::lines`: split at newlines, dropping one carriage return before a newline; an unterminated last line
counts. -/
def linesAux : Text → Text → List Text
  | [], acc => if acc = [] then [] else [acc.reverse]
  | c :: cs, acc =>
    if c = '\n' then (stripCr acc).reverse :: linesAux cs []
    else linesAux cs (c :: acc)

/-- `read_lines`, `main.rs:172-176`. -/
def readLines (t : Text) : List Text := linesAux t []

/-- Lines terminated by newlines. -/
def unlines (l : List Text) : Text := l.flatMap fun s => s ++ ['\n']

/-- Splits at the first occurrence of a separator (the first two items of `str::split`). -/
def splitFirst (sep : Text) : Text → Text × Option Text
  | [] => ([], if sep = [] then some [] else none)
  | c :: cs =>
    if sep.isPrefixOf (c :: cs) then ([], some ((c :: cs).drop sep.length))
    else
      let r := splitFirst sep cs
      (c :: r.1, r.2)

/-- One step of `str::parse::<usize>`. -/
def parseDigit (acc : Nat) (c : Char) : Option Nat :=
  if 48 ≤ c.toNat ∧ c.toNat ≤ 57 then some (acc * 10 + (c.toNat - 48)) else none

/-- Drops a leading `+`. -/
def stripPlus : Text → Text
  | '+' :: r => r
  | s => s

/-- `str::parse::<usize>`: an optional `+`, at least one digit, no overflow. -/
def parseUsize (s : Text) : Option Nat :=
  let ds := stripPlus s
  if ds = [] then none
  else (ds.foldlM parseDigit 0).bind fun n => if n < 2 ^ 64 then some n else none

/-! ## Names -/

/-- `SequenceType::to_string`, `symmetries.rs:32-43`. -/
def SeqType.toText : SeqType → Text
  | .williamson => ['w', 's']
  | .williamsonType => ['w', 't', 's']
  | .quaternionType => ['q', 't', 's']
  | .itoType => ['i', 't', 's']
  | .extraTypeI => ['e', 't', '1']
  | .extraTypeII => ['e', 't', '2']
  | .extraTypeIII => ['e', 't', '3']

/-- `str_to_seqtype`, `main.rs:308-319`; `none` is the panic. -/
def strToSeqtype (n : Text) : Option SeqType :=
  if n = ['q', 't', 's'] then some .quaternionType
  else if n = ['w', 't', 's'] then some .williamsonType
  else if n = ['w', 's'] then some .williamson
  else if n = ['i', 't', 's'] then some .itoType
  else if n = ['e', 't', '1'] then some .extraTypeI
  else if n = ['e', 't', '2'] then some .extraTypeII
  else if n = ['e', 't', '3'] then some .extraTypeIII
  else none

/-- `RowsumPairing`, `symmetries.rs:10-13`. -/
inductive Pairing
  | WX | WY | WZ
  deriving DecidableEq, Repr

/-- `str_to_rowsum_pairing`, `main.rs:291-298`. -/
def strToRowsumPairing (n : Text) : Option Pairing :=
  if n = ['W', 'X'] then some .WX else if n = ['W', 'Y'] then some .WY else if n = ['W', 'Z'] then some .WZ else none

/-- `SequenceTag::to_string`. -/
def Tag.toChar : Tag → Char
  | .W => 'W'
  | .X => 'X'
  | .Y => 'Y'
  | .Z => 'Z'

/-- One character of `get_tag_from_filename`, `find_write.rs:646-652`. -/
def charToTag : Char → Option Tag
  | 'W' => some .W
  | 'X' => some .X
  | 'Y' => some .Y
  | 'Z' => some .Z
  | _ => none

/-- `get_tag_from_filename`, `find_write.rs:643-662`. -/
def getTagFromFilename (name : Text) : Option (Tag × Tag) :=
  (name[5]?).bind fun c => (charToTag c).bind fun t1 =>
    (name[6]?).bind fun c => (charToTag c).map fun t2 => (t1, t2)

/-- `seq_<tag>.seq`, `find_write.rs:88`. -/
def seqFileName (t : Tag) : Text := ['s', 'e', 'q', '_'] ++ [t.toChar] ++ ['.', 's', 'e', 'q']

/-- The suffix `.pair`. -/
def pairSuffix : Text := ['.', 'p', 'a', 'i', 'r']

/-- The suffix `.sorted` added by `sortpairs.sh`. -/
def sortedSuffix : Text := ['.', 's', 'o', 'r', 't', 'e', 'd']

/-- `pair_<tag><tag>.pair`, `find_write.rs:133`. -/
def pairFileName (t1 t2 : Tag) : Text := ['p', 'a', 'i', 'r', '_'] ++ [t1.toChar, t2.toChar] ++ pairSuffix

/-- `rowsum_a_b_c_d`, `find_write.rs:407`. -/
def rowsumDirName (rs : Quad) : Text :=
  ['r', 'o', 'w', 's', 'u', 'm', '_'] ++ intText rs.1 ++ ['_'] ++ intText rs.2.1 ++ ['_'] ++ intText rs.2.2.1 ++
    ['_'] ++ intText rs.2.2.2

/-- `quad_to_string`, `find_write.rs:9-14`. -/
def quadToText (q : Quad) : Text :=
  intText q.1 ++ [' '] ++ intText q.2.1 ++ [' '] ++ intText q.2.2.1 ++ [' '] ++ intText q.2.2.2 ++ ['\n']

/-- `write_rowsums`, `find_write.rs:16-29`: the text of `rowsums.quad`. -/
def rowsumsText (p : Nat) (ty : SeqType) : Option Text := (generateRowsums p ty).map fun l => l.flatMap quadToText

/-! ## Writing the pair files -/

/-- `MatchOption`, `find_write.rs:38-41`. -/
inductive MatchOption
  | correlation | psd
  deriving DecidableEq, Repr

/-- The row sum belonging to a tag, `find_write.rs:97-102`. -/
def tagRowsum (rs : Quad) : Tag → Int
  | .W => rs.1
  | .X => rs.2.1
  | .Y => rs.2.2.1
  | .Z => rs.2.2.2

/-- `verify_rowsums`, `find_write.rs:96-126`. -/
def verifyRowsums (seqs1 seqs2 : List (List Int)) (tags : Tag × Tag) (rs : Quad) : Bool :=
  (seqs1.all fun s => rowsum s = tagRowsum rs tags.1) && seqs2.all fun s => rowsum s = tagRowsum rs tags.2

/-- The closure `op`, `find_write.rs:138-141`. -/
def Side.op : Side → Int → Int
  | .left, x => x
  | .right, x => -x

/-- The values of a key, each followed by an underscore, `find_write.rs:162-164`. -/
def keyText (vals : List Int) : Text := vals.flatMap fun v => intText v ++ ['_']

/-- The key values written for a pair, `find_write.rs:154-219`. The outer `none` is a panic, the inner `none` is
`continue` (the pair is dropped). -/
def pairKey {F : Type} (A : Fl F) (ty : SeqType) (side : Side) (mo : MatchOption) (tags : Tag × Tag) (p : Nat)
    (d : PairData F) : Option (Option (List Int)) :=
  match mo with
  | .correlation =>
    let auto := computeAutoCorrelationPairDft A d.norm1 d.seq1.length d.norm2 d.seq2.length
    (computeCrossCorrelationsDft A d.dft1 d.dft2 tags d.seq1.length).bind fun cross =>
      match ty with
      | .quaternionType => some (some (auto.map side.op ++ cross.map side.op))
      | .williamsonType => if cross.any fun v => v ≠ 0 then some none else some (some (auto.map side.op))
      | .williamson => some (some (auto.map side.op))
      | _ => none
  | .psd =>
    let psd := (computePsdPair A d.norm1 d.norm2 p side).map A.round
    (computeCrossPsdPair A d.dft1 d.dft2 tags d.seq1.length).bind fun cpsd =>
      match ty with
      | .quaternionType => some (some (psd ++ cpsd.map fun c => side.op (A.round c.2)))
      | .williamsonType =>
        if cpsd.any fun c => A.gt (A.abs c.2) (A.lit 1 10000) then some none else some (some psd)
      | .williamson => some (some psd)
      | _ => none

/-- The text of a line (without the newline), `find_write.rs:221-225`. -/
def lineText (vals : List Int) (i j : Nat) : Text :=
  (if keyText vals = [] then ['_'] else keyText vals) ++ [':', '_'] ++ natText i ++ ['_'] ++ natText j

/-- State of the buffered writer, `find_write.rs:143-145`: the blocks handed to `File::write` so far, the buffer and
the counter. -/
structure Writer where
  blocks : List Text
  buffer : Text
  counter : Nat

/-- Adding one line, `find_write.rs:227-233`. -/
def Writer.push (w : Writer) (line : Text) : Writer :=
  let buffer := w.buffer ++ (line ++ ['\n'])
  let counter := w.counter + 1
  if counter % 1000 = 0 then { blocks := w.blocks ++ [buffer], buffer := [], counter } else { w with buffer, counter }

/-- The blocks written for a list of lines, in order; the last block is written after the loop,
`find_write.rs:248`. -/
def writeBlocks (lines : List Text) : List Text :=
  let w := lines.foldl Writer.push { blocks := [], buffer := [], counter := 0 }
  w.blocks ++ [w.buffer]

/-- The lines written by `write_seq_pairs`, `find_write.rs:151-233`. -/
def pairLines {F : Type} (A : Fl F) (seqs1 seqs2 : List (List Int)) (tags : Tag × Tag) (ty : SeqType) (p : Nat)
    (side : Side) (mo : MatchOption) : Option (List Text) :=
  ((filteredCouplesPsds A seqs1 seqs2 (A.mul (A.lit 4 1) (A.ofInt p))).mapM fun d =>
    (pairKey A ty side mo tags p d).map fun k => k.map fun vals => lineText vals d.i1 d.i2).map
      fun l => l.reduceOption

/-- `write_seq_pairs`, `find_write.rs:128-251`: the text of the `.pair` file. The warnings are modelled by
`halfIntWarning` below. -/
def writeSeqPairs {F : Type} (A : Fl F) (seqs1 seqs2 : List (List Int)) (tags : Tag × Tag) (ty : SeqType) (rs : Quad)
    (p : Nat) (side : Side) (mo : MatchOption) : Option Text :=
  if verifyRowsums seqs1 seqs2 tags rs then
    (pairLines A seqs1 seqs2 tags ty p side mo).map fun lines => (writeBlocks lines).flatten
  else none

/-- The running minimum of `|fract(a) - 0.5|`, `find_write.rs:190-193`, starting at 1, and the comparison with the
tolerance, `find_write.rs:240-242`: is a warning printed? -/
def halfIntWarning {F : Type} (A : Fl F) (tol : F) (vals : List F) : Bool :=
  A.gt tol (vals.foldl (fun m a =>
    let difference := A.abs (A.sub (A.fract a) (A.lit 1 2))
    if A.gt m difference then difference else m) (A.lit 1 1))

/-- `symmetric`, `find_write.rs:475-485`. -/
def symmetricSeq (seq : List Int) : Bool :=
  (List.range' 1 (seq.length / 2)).all fun t => at0 seq t = at0 seq (seq.length - t)

/-- The sequences generated for one row sum, `find_write.rs:418-441`. -/
def rowsumSequences (ty : SeqType) (r : Int) (p : Nat) : List (List Int) :=
  match ty with
  | .williamson => (generateSequencesWithRowsum r p).filter fun s => symmetricSeq s
  | _ => generateSequencesWithRowsum r p

/-- `write_sequences`, `find_write.rs:85-94`. -/
def sequencesText (seqs : List (List Int)) : Option Text := (seqs.mapM sequenceToString).map unlines

/-- A directory: named files in listing order. -/
abbrev Dir := List (Text × Text)

/-- The two pairs of tags of a pairing, `find_write.rs:457-469` (and `get_indices`, `find_write.rs:253-263`). -/
def pairingTags : Option Pairing → (Tag × Tag) × (Tag × Tag)
  | some .WX => ((.W, .X), (.Y, .Z))
  | some .WY => ((.W, .Y), (.X, .Z))
  | some .WZ | none => ((.W, .Z), (.X, .Y))

/-- `write_pairs_rowsum`, `find_write.rs:402-473`: the files created in the directory of one row-sum quadruple. -/
def writePairsRowsum {F : Type} (A : Fl F) (ty : SeqType) (rs : Quad) (p : Nat) (mo : MatchOption)
    (pairing : Option Pairing) : Option Dir :=
  let sq := fun t => rowsumSequences ty (tagRowsum rs t) p
  let (t12, t34) := pairingTags pairing
  (sequencesText (sq .W)).bind fun tw => (sequencesText (sq .X)).bind fun tx =>
  (sequencesText (sq .Y)).bind fun ty' => (sequencesText (sq .Z)).bind fun tz =>
  (writeSeqPairs A (sq t12.1) (sq t12.2) t12 ty rs p .left mo).bind fun p12 =>
  (writeSeqPairs A (sq t34.1) (sq t34.2) t34 ty rs p .right mo).map fun p34 =>
    [(seqFileName .W, tw), (seqFileName .X, tx), (seqFileName .Y, ty'), (seqFileName .Z, tz),
      (pairFileName t12.1 t12.2, p12), (pairFileName t34.1 t34.2, p34)]

/-- `write_pairs`, `find_write.rs:377-400`: one directory per generated row-sum quadruple. -/
def writePairs {F : Type} (A : Fl F) (p : Nat) (ty : SeqType) (mo : MatchOption) (pairing : Option Pairing) :
    Option (List (Text × Dir)) :=
  (generateRowsums p ty).bind fun rowsums =>
    rowsums.mapM fun rs => (writePairsRowsum A ty rs p mo pairing).map fun d => (rowsumDirName rs, d)

/-- `get_indices`, `find_write.rs:253-263`, as tags. -/
def getIndices : Option Pairing → Nat → Option (Tag × Tag)
  | some .WX, 1 => some (.W, .X)
  | some .WX, 2 => some (.Y, .Z)
  | some .WY, 1 => some (.W, .Y)
  | some .WY, 2 => some (.X, .Z)
  | some .WZ, 1 => some (.W, .Z)
  | some .WZ, 2 => some (.X, .Y)
  | _, _ => none

/-- `write_pair_single_rowsum`, `find_write.rs:284-340`: the three files written by one of the two processes. The early
`return` for an unknown pairing writes nothing. -/
def writePairSingleRowsum {F : Type} (A : Fl F) (ty : SeqType) (rs : Quad) (p : Nat) (mo : MatchOption)
    (pairing : Option Pairing) (pair : Nat) : Option Dir :=
  match getIndices pairing pair with
  | none => some []
  | some t =>
    let sq := fun t => rowsumSequences ty (tagRowsum rs t) p
    let side := if pair = 1 then Side.left else Side.right
    (sequencesText (sq t.1)).bind fun t0 => (sequencesText (sq t.2)).bind fun t1 =>
      (writeSeqPairs A (sq t.1) (sq t.2) t ty rs p side mo).map fun pf =>
        [(seqFileName t.1, t0), (seqFileName t.2, t1), (pairFileName t.1 t.2, pf)]

/-! ## Sorting -/

/-- Bytewise `s ≤ t`. -/
def textLe (s t : Text) : Bool := !textLt t s

/-- `sort` with `LC_ALL=C` on the lines of a file, `sortpairs.sh:36-53`. -/
def sortText (t : Text) : Text := unlines ((readLines t).mergeSort textLe)

/-- `sortpairs.sh` on one directory: every `*.pair` is replaced by its sorted version. -/
def sortDir (d : Dir) : Dir :=
  d.map fun f => if pairSuffix.isSuffixOf f.1 then (f.1 ++ sortedSuffix, sortText f.2) else f

/-! ## Reading back and joining -/

/-- One character of `string_to_sequence`, `find_write.rs:602-606`. -/
def charToPm : Char → Option Int
  | '+' => some 1
  | '-' => some (-1)
  | _ => none

/-- `string_to_sequence`, `find_write.rs:597-610`. -/
def stringToSequence (s : Text) : Option (List Int) := s.mapM charToPm

/-- `file_to_sequences`, `find_write.rs:583-595`. -/
def fileToSequences (t : Text) : Option (List (List Int)) := (readLines t).mapM stringToSequence

/-- The four lists of stored sequences. -/
structure SeqTable where
  w : List (List Int)
  x : List (List Int)
  y : List (List Int)
  z : List (List Int)

/-- The suffix `.seq`. -/
def seqSuffix : Text := ['.', 's', 'e', 'q']

/-- `get_sequences_from_dir`, `find_write.rs:552-581`. -/
def getSequencesFromDir (d : Dir) : Option SeqTable :=
  d.foldlM (fun tab f =>
    if seqSuffix.isSuffixOf f.1 then
      if f.1 = seqFileName .W then (fileToSequences f.2).map fun l => { tab with w := l }
      else if f.1 = seqFileName .X then (fileToSequences f.2).map fun l => { tab with x := l }
      else if f.1 = seqFileName .Y then (fileToSequences f.2).map fun l => { tab with y := l }
      else if f.1 = seqFileName .Z then (fileToSequences f.2).map fun l => { tab with z := l }
      else none
    else some tab) { w := [], x := [], y := [], z := [] }

/-- The four tags in the order of the two pair files. -/
abbrev TagOrder := Tag × Tag × Tag × Tag

/-- `get_order_from_dir`, `find_write.rs:614-641`: the two sorted files and their tags, in listing order. -/
def getOrderFromDir (d : Dir) : Option ((Text × Text) × TagOrder) :=
  match d.filter fun f => (pairSuffix ++ sortedSuffix).isSuffixOf f.1 with
  | [f1, f2] =>
    (getTagFromFilename f1.1).bind fun t12 => (getTagFromFilename f2.1).map fun t34 =>
      ((f1.2, f2.2), (t12.1, t12.2, t34.1, t34.2))
  | _ => none

/-- `get_line_from`, `find_write.rs:758-771`. -/
def getLineFrom (s : Text) : Option (Text × (Nat × Nat)) :=
  let sep := ['_', ':', '_']
  let (line, rest) := splitFirst sep s
  rest.bind fun rest =>
    let part := (splitFirst sep rest).1
    let (i1, more) := splitFirst ['_'] part
    more.bind fun more =>
      (parseUsize i1).bind fun i => (parseUsize (splitFirst ['_'] more).1).map fun j => (line, (i, j))

/-- `get_sequence_aux`, `find_write.rs:786-804`. -/
def getSequenceAux (tab : SeqTable) (order : TagOrder) (ix : Nat × Nat × Nat × Nat) (tag : Tag) : Option (List Int) :=
  (if tag = order.1 then some ix.1
    else if tag = order.2.1 then some ix.2.1
    else if tag = order.2.2.1 then some ix.2.2.1
    else if tag = order.2.2.2 then some ix.2.2.2
    else none).bind fun index =>
    match tag with
    | .W => tab.w[index]?
    | .X => tab.x[index]?
    | .Y => tab.y[index]?
    | .Z => tab.z[index]?

/-- `get_sequences` and the construction of the quadruple, `find_write.rs:774-783`, `728-730`. -/
def getSequences (tab : SeqTable) (order : TagOrder) (ix : Nat × Nat × Nat × Nat) : Option QuadSeq :=
  (getSequenceAux tab order ix .W).bind fun w => (getSequenceAux tab order ix .X).bind fun x =>
  (getSequenceAux tab order ix .Y).bind fun y => (getSequenceAux tab order ix .Z).map fun z =>
    (QuadSeq.new w.length).setAllValues w x y z

/-- `condition`, `find_write.rs:732-737`; `none` is a panic of `to_qs`. -/
def joinCondition (ty : SeqType) (q : QuadSeq) : Option Bool :=
  match ty with
  | .quaternionType => q.toQs.map fun qs => qs.isPerfect
  | .williamsonType => some q.verifyWts
  | .williamson => some q.verifyWs
  | _ => some false

/-- One candidate, `find_write.rs:724-741`. -/
def testMatch (ty : SeqType) (tab : SeqTable) (order : TagOrder) (m : (Nat × Nat) × (Nat × Nat)) :
    Option (List QuadSeq) :=
  (getSequences tab order (m.1.1, m.1.2, m.2.1, m.2.2)).bind fun q =>
    (joinCondition ty q).map fun ok => if ok then [q] else []

/-- The inner loops of `join_pairs_files`, `find_write.rs:694-719`: the indices of the leading lines with this key, and
the remaining lines. -/
def collectMatching (key : Text) : List Text → Option (List (Nat × Nat) × List Text)
  | [] => some ([], [])
  | l :: ls =>
    (getLineFrom l).bind fun p =>
      if p.1 = key then (collectMatching key ls).map fun r => (p.2 :: r.1, r.2) else some ([], l :: ls)

/-- The main loop of `join_pairs_files`, `find_write.rs:685-750`: the candidate index pairs, block by block. Every
iteration consumes at least one line, so the fuel given by `joinPairsFiles` suffices. -/
def joinLoop : Nat → List Text → List Text → Option (List ((Nat × Nat) × (Nat × Nat)))
  | 0, _, _ => none
  | _ + 1, [], _ => some []
  | _ + 1, _ :: _, [] => some []
  | fuel + 1, l12 :: ls12, l34 :: ls34 =>
    (getLineFrom l12).bind fun p12 => (getLineFrom l34).bind fun p34 =>
      if p12.1 = p34.1 then
        (collectMatching p12.1 (l12 :: ls12)).bind fun m12 =>
        (collectMatching p12.1 (l34 :: ls34)).bind fun m34 =>
          (joinLoop fuel m12.2 m34.2).map fun more => (m12.1.flatMap fun a => m34.1.map fun b => (a, b)) ++ more
      else if textLt p12.1 p34.1 then joinLoop fuel ls12 (l34 :: ls34)
      else joinLoop fuel (l12 :: ls12) ls34

/-- `join_pairs_files`, `find_write.rs:669-755`. -/
def joinPairsFiles (ty : SeqType) (files : Text × Text) (order : TagOrder) (tab : SeqTable) : Option (List QuadSeq) :=
  let l12 := readLines files.1
  let l34 := readLines files.2
  (joinLoop (l12.length + l34.length + 1) l12 l34).bind fun ms =>
    (ms.mapM (testMatch ty tab order)).map List.flatten

/-- The body of the loop of `join_pairs`, `find_write.rs:500-509`. -/
def joinDir (ty : SeqType) (d : Dir) : Option (List QuadSeq) :=
  (getSequencesFromDir d).bind fun tab => (getOrderFromDir d).bind fun o => joinPairsFiles ty o.1 o.2 tab

/-- The matches of all directories, `find_write.rs:494-511`. -/
def joinAll (ty : SeqType) (dirs : List (Text × Dir)) : Option (List QuadSeq) :=
  (dirs.mapM fun d => joinDir ty d.2).map List.flatten

/-- The filter by negations and swaps, `find_write.rs:522-534`. -/
def filterCanonical (ty : SeqType) (result : List QuadSeq) : Option (List QuadSeq) :=
  match ty with
  | .quaternionType => (result.mapM nsCanonical).map unique
  | .williamsonType | .williamson => some (unique (result.map snSsCanonical))
  | _ => none

/-- `join_pairs`, `find_write.rs:490-549`. -/
def joinPairs (ty : SeqType) (dirs : List (Text × Dir)) : Option (List QuadSeq) :=
  (joinAll ty dirs).bind fun result => (filterCanonical ty result).bind fun filtered =>
    reduceToCanonicalReps filtered ty

/-- The lists written by `find_write_quad_seq`, `main.rs:92-169`: the enumeration and, for Williamson-type sequences, the
enumeration up to QT equivalence. -/
def findWriteQuadSeq (i : Nat) (ty : SeqType) (dirs : List (Text × Dir)) :
    Option (List QuadSeq × Option (List QuadSeq)) :=
  (joinPairs ty dirs).bind fun result =>
    match ty with
    | .williamsonType => (reduceToCanonicalReps (expandWts i result) .quaternionType).map fun r => (result, some r)
    | _ => some (result, none)

/-! ## Placeholder files -/

/-- The inner loop of `sort`, `find_write.rs:52-55`: position of the first maximum of `tab[i..4]`. -/
def maxIndex (tab : List Int) (i : Nat) : Nat :=
  (List.range' (i + 1) (4 - (i + 1))).foldl (fun index j => if at0 tab j > at0 tab index then j else index) i

/-- `sort`, `find_write.rs:44-61`: decreasing order and the original indices. -/
def sortQuad (q : Quad) : List Int × List Nat :=
  (List.range 4).foldl (fun (s : List Int × List Nat) i =>
    let index := maxIndex s.1 i
    (swapAt s.1 i index, swapAt s.2 i index)) ([q.1, q.2.1, q.2.2.1, q.2.2.2], [0, 1, 2, 3])

/-- `index_to_tag`, `find_write.rs:75-83`. -/
def indexToTag : Nat → Option Tag
  | 0 => some .W
  | 1 => some .X
  | 2 => some .Y
  | 3 => some .Z
  | _ => none

/-- `create_rowsum_dirs`, `find_write.rs:342-375`: the names of the two empty pair files. -/
def createRowsumDirs (rs : Quad) (pairing : Option Pairing) : Option (List Text) :=
  ((sortQuad rs).2.mapM indexToTag).bind fun tags =>
    match tags, pairing with
    | [a, b, c, d], some .WX => some [pairFileName a b, pairFileName c d]
    | [a, b, c, d], some .WY => some [pairFileName a c, pairFileName b d]
    | [a, b, c, d], some .WZ => some [pairFileName a d, pairFileName b c]
    | _, _ => none

end Model
