import Verif.Model.Matrices
import Verif.Model.Equivalence
import Verif.Model.FindWrite

/-!
# Model: `sequences/matrix_equivalence.rs` and the conversion commands of `main.rs`

The canonical labelling of graphs is computed by the external crate `graph_canon`. It is a parameter `canon` of the
functions below, with values in an arbitrary type `κ`; what is assumed about it is stated in the theorems.
-/

namespace Model

/-! ## Graphs of Hadamard matrices -/

/-- `petgraph::Graph<i32, i32, Undirected>`: the number of nodes and the edges in insertion order. The node and edge
weights are always 0. -/
structure Graph where
  nodes : Nat
  edges : List (Nat × Nat)
  deriving DecidableEq

/-- `graph_from_hm`, `matrix_equivalence.rs:16-42`. -/
def graphFromHm (mat : HM) : Graph :=
  let size := mat.size
  { nodes := 4 * size
    edges :=
      ((List.range (4 * size)).flatMap fun i => if i < 2 * size then [(i, i)] else []) ++
      (List.range size).flatMap fun row => (List.range size).flatMap fun col =>
        if mat.get row col = 1 then [(row, 2 * size + col), (size + row, 3 * size + col)]
        else [(row, 3 * size + col), (size + row, 2 * size + col)] }

/-- `are_isomorphic`, `matrix_equivalence.rs:45-51`. -/
def areIsomorphic {κ : Type} [DecidableEq κ] (canon : Graph → κ) (g1 g2 : Graph) : Bool := canon g1 = canon g2

/-- `canon_hm`, `matrix_equivalence.rs:53-55`. -/
def canonHm {κ : Type} (canon : Graph → κ) (mat : HM) : κ := canon (graphFromHm mat)

/-- `Itertools::unique_by(..).collect_vec()`: an element is kept if its key has not been seen. -/
def uniqueBy {α κ : Type} [DecidableEq κ] (key : α → κ) (l : List α) : List α :=
  (l.foldl (fun (st : List κ × List α) x =>
    if key x ∈ st.1 then st else (key x :: st.1, st.2 ++ [x])) ([], [])).2

/-- `reduce_to_hadamard_equivalence`, `matrix_equivalence.rs:58-60`. -/
def reduceToHadamardEquivalence {κ : Type} [DecidableEq κ] (canon : Graph → κ) (mats : List HM) : List HM :=
  uniqueBy (canonHm canon) mats

/-- `reduce_to_ns_equivalence`, `matrix_equivalence.rs:62-66`; the order of the hash set is arbitrary. -/
def reduceToNsEquivalence (sequences : List QuadSeq) : Option (List QuadSeq) :=
  (sequences.mapM nsCanonical).map List.dedup

/-- `is_ns_canonical`, `matrix_equivalence.rs:68-70`. -/
def isNsCanonical (s : QuadSeq) : Option Bool := (nsCanonical s).map fun t => t = s

/-- `HashMap::insert` on an association list: the value of an existing key is replaced. -/
def mapInsert {κ α : Type} [DecidableEq κ] (m : List (κ × α)) (kv : κ × α) : List (κ × α) :=
  if kv.1 ∈ m.map Prod.fst then m.map fun e => if e.1 = kv.1 then (e.1, kv.2) else e else m ++ [kv]

/-- Reading one line, `matrix_equivalence.rs:79-87`. With `debug` (debug assertions enabled) the sequence must be
canonical. -/
def readCanonicalLine (debug : Bool) (line : Text) : Option QuadSeq :=
  (QS.fromStr line).bind fun qs =>
    (QuadSeq.fromPqs qs).bind fun q =>
      if debug then (isNsCanonical q).bind fun b => if b then some q else none else some q

/-- The list of matrices written by `hadamard_equivalence_from_file`, `matrix_equivalence.rs:72-103`. `none` is a panic:
a malformed line, or a sequence that fails its verification (the size of an empty sequence underflows in
`is_periodic_complementary`). `order` is the iteration order of the hash map. -/
def hadamardRepresentatives {κ : Type} [DecidableEq κ] (canon : Graph → κ) (order : List HM → List HM) (debug : Bool)
    (ty : SeqType) (t : Text) : Option (List HM) :=
  ((readLines t).mapM (readCanonicalLine debug)).bind fun quadSeqList =>
    if quadSeqList.all fun q => q.size ≠ 0 && q.verify ty then
      (quadSeqList.mapM fun seq => HM.fromWilliamson seq .quaternionType).map fun mats =>
        order (((mats.map fun m => (canonHm canon m, m)).foldl mapInsert []).map Prod.snd)
    else none

/-- `hadamard_equivalence_from_file`, `matrix_equivalence.rs:72-122`: the contents of `result.mat`. -/
def hadamardEquivalenceFromFile {κ : Type} [DecidableEq κ] (canon : Graph → κ) (order : List HM → List HM)
    (debug : Bool) (ty : SeqType) (t : Text) : Option Text :=
  (hadamardRepresentatives canon order debug ty t).bind fun equ => (equ.mapM HM.toStringMagma).map unlines

/-! ## Result files -/

/-- The contents of `result.seq` and `result-qts.seq`, `main.rs:117-121` and `main.rs:164-167`. -/
def resultText (l : List QuadSeq) : Option Text := (l.mapM fun (q : QuadSeq) => q.toQs.bind QS.toStringRaw).map unlines

/-! ## Quaternionic matrices -/

/-- The loop body of `convert_qs_to_matrices`, `main.rs:193-205`: the printed matrix and whether it has non-commuting
elements. -/
def convertLine (line : Text) : Option (Text × Bool) :=
  (QS.fromStr line).bind fun pqs =>
    let qhm := (QHM.fromPqs pqs).dephase
    qhm.toString.map fun s => (s, qhm.containsNonCommutingElements)

/-- `convert_qs_to_matrices`, `main.rs:178-209`: the contents of `result.qhm`, the number of sequences and the number of
matrices with non-commuting elements. -/
def convertQsToMatrices (t : Text) : Option (Text × Nat × Nat) :=
  ((readLines t).mapM convertLine).map fun l => (unlines (l.map Prod.fst), l.length, l.countP Prod.snd)

/-- `qhm_write_all`, `main.rs:212-238`: the contents of `qhm_all.mat`. `order` is the iteration order of the hash set
returned by `generate_equivalent_quad_seqs`. -/
def qhmWriteAll (order : List QuadSeq → List QuadSeq) (ty : SeqType) (t : Text) : Option Text :=
  ((readLines t).mapM fun line => (QS.fromStr line).bind QuadSeq.fromPqs).bind fun qts =>
    (generateEquivalentQuadSeqs qts ty).bind fun equ =>
      ((order equ).mapM fun (seq : QuadSeq) => seq.toQs.bind fun qs => (QHM.fromPqs qs).dephased.toString.map fun s =>
        s ++ ['\n', '\n']).map List.flatten

/-- `verify_qts_eq_wts`, `main.rs:268-289`. `none` is a panic: a malformed line or a failed assertion. -/
def verifyQtsEqWts (t : Text) : Option Unit :=
  ((readLines t).mapM fun line => (QS.fromStr line).bind QuadSeq.fromPqs).bind fun qts =>
    if qts.all fun q => q.size ≠ 0 && q.verifyQts && q.isAmicable then some () else none

end Model
