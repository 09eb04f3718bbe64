import Verif.Model.Float32
import Verif.Model.Search
import Verif.Model.Graph
import Verif.Model.Mum

/-!
# Model: single precision in the searches, the join and the conversions

The functions of the other models that compute with `f32` values, again with a rounding `rd` after every addition,
subtraction and multiplication, and with the tables of quaternions as the program computes them. What is not repeated here
computes with no `f32` value.
-/

namespace Model.F32

variable (rd : Rat → Rat)

/-- `QPLUS`, `sequences/sequence.rs:17-19`. -/
def qplus : List Quat :=
  [Q1, -Q1, QI, -QI, QJ, -QJ, QK, -QK,
   QQ, smul rd QQ (-1), mul rd QQ QI, mul rd QQ (-QI), mul rd QQ QJ, mul rd QQ (-QJ), mul rd QQ QK, mul rd QQ (-QK)]

/-! ## Sequences -/

/-- The table look-up of `QS::from_str`, `sequences/sequence.rs:58-67`. -/
def charToQuat (c : Char) : Option Quat := (firstIndex Q24_STRING c).bind fun i => (q24 rd)[i]?

/-- `QS::from_str`, `sequences/sequence.rs:51-70`. -/
def fromStr (s : List Char) : Option QS :=
  (s.mapM (charToQuat rd)).map fun values => { size := s.length, values, symmetry := none }

/-- `QS::set_value`, `sequences/sequence.rs:77-87`. -/
def setValue (q : QS) (value : Quat) (index : Nat) : Option QS :=
  if index < q.values.length then
    let v1 := q.values.set index value
    match q.symmetry with
    | some .I =>
        if index + 1 ≤ q.size ∧ q.size - 1 - index < v1.length then
          some { q with values := v1.set (q.size - 1 - index) value } else none
    | some .II =>
        if q.size / 2 + index < v1.length then
          some { q with values := v1.set (q.size / 2 + index) (smul rd value (QS.sgn index)) } else none
    | some .III =>
        if q.size / 2 + index < v1.length then
          some { q with values := v1.set (q.size / 2 + index) (smul rd value (QS.sgn (index / 2))) } else none
    | some .IV =>
        if q.size / 2 + index < v1.length then
          some { q with values := v1.set (q.size / 2 + index) (-value) } else none
    | none => some { q with values := v1 }
  else none

/-- `quaternion_to_string`, `sequences/sequence.rs:203-212`. -/
def quaternionToString (q : Quat) : Option Char := (firstIndex (q24 rd) q).bind fun i => Q24_STRING[i]?

/-- `QS::to_string_raw`, `sequences/sequence.rs:165-173`. -/
def toStringRaw (q : QS) : Option (List Char) := q.values.mapM (quaternionToString rd)

/-- `quaternion_to_quad`, `sequences/williamson.rs:45-54`. -/
def quaternionToQuad (q : Quat) : Option (Int × Int × Int × Int) :=
  (firstIndex (q24 rd) q).bind fun i => QUADRUPLETS[i]?

/-- `QuadSeq::from_pqs`, `sequences/williamson.rs:151-168`. -/
def fromPqs (q : QS) : Option QuadSeq :=
  (q.values.mapM (quaternionToQuad rd)).map fun l =>
    (QuadSeq.new q.size).setAllValues (l.map fun v => v.1) (l.map fun v => v.2.1)
      (l.map fun v => v.2.2.1) (l.map fun v => v.2.2.2)

/-- The match of `QuadSeq::to_qs`, `sequences/williamson.rs:271-289`. -/
def quadToQuat : Int × Int × Int × Int → Option Quat
  | (1,1,1,1) => (qplus rd)[1]?
  | (1,1,1,-1) => (qplus rd)[12]?
  | (1,1,-1,1) => (qplus rd)[10]?
  | (1,1,-1,-1) => (qplus rd)[4]?
  | (1,-1,1,1) => (qplus rd)[14]?
  | (1,-1,1,-1) => (qplus rd)[6]?
  | (1,-1,-1,1) => (qplus rd)[2]?
  | (1,-1,-1,-1) => (qplus rd)[8]?
  | (-1,1,1,1) => (qplus rd)[9]?
  | (-1,1,1,-1) => (qplus rd)[3]?
  | (-1,1,-1,1) => (qplus rd)[7]?
  | (-1,1,-1,-1) => (qplus rd)[15]?
  | (-1,-1,1,1) => (qplus rd)[5]?
  | (-1,-1,1,-1) => (qplus rd)[11]?
  | (-1,-1,-1,1) => (qplus rd)[13]?
  | (-1,-1,-1,-1) => (qplus rd)[0]?
  | _ => none

/-- `QuadSeq::to_qs`, `sequences/williamson.rs:266-293`. -/
def toQs (s : QuadSeq) : Option QS :=
  (List.range s.size).foldlM (fun qs i => (quadToQuat rd (s.values i)).bind fun q => setValue rd qs q i)
    (QS.new s.size none)

/-- `sequence_product`, `product.rs:4-23`. -/
def sequenceProduct (qs1 qs2 : QS) : Option QS :=
  let p := qs1.size
  let q := qs2.size
  (iprod p q).foldlM (fun result ij =>
    let index := ij.1 * q + ij.2
    setValue rd result (mul rd (qs1.val (index % p)) (qs2.val (index % q))) index) (QS.new (p * q) none)

/-! ## Searches -/

/-- `find_recursive`, `find_naive.rs:14-30`. -/
def naiveRec : Nat → QS → Nat → Found → Option (QS × Found)
  | fuel, q, index, out =>
    if index ≥ q.searchSize then
      if isPerfect rd q then (toStringRaw rd q).map fun s => (q, out.1 ++ [s], out.2 + 1) else some (q, out)
    else
      match fuel with
      | 0 => none
      | fuel + 1 => (qplus rd).foldlM (fun (st : QS × Found) value =>
          (setValue rd st.1 value index).bind fun q' => naiveRec fuel q' (index + 1) st.2) (q, out)

/-- `find`, `find_naive.rs:5-12`. -/
def findNaive (size : Nat) (symmetry : Option Symmetry) : Option Found :=
  (naiveRec rd size (QS.new size symmetry) 1 ([], 0)).map Prod.snd

/-- The possible outcomes of `find_recursive` and `find_recursive_q24`, `find_optim.rs:14-32` and `41-58`. -/
def optimRec (alphabet : List Quat) : Nat → QS → Nat → Found → Prop
  | fuel, q, index, out =>
    if index ≥ q.searchSize then
      if isPerfect rd q then ∃ s, toStringRaw rd q = some s ∧ out = ([s], 1) else out = ([], 0)
    else
      match fuel with
      | 0 => False
      | fuel + 1 => ∃ outs : List Found,
          List.Forall₂ (fun value o => ∃ q', setValue rd q value index = some q' ∧ optimRec alphabet fuel q' (index + 1) o)
            alphabet outs ∧ out.1.Perm (outs.map Prod.fst).flatten ∧ ParSum (outs.map Prod.snd) out.2

/-- The possible outcomes of `find`, `find_optim.rs:8-12`. -/
def findOptim (size : Nat) (symmetry : Option Symmetry) : Found → Prop :=
  optimRec rd (qplus rd) size (QS.new size symmetry) 1

/-- The possible outcomes of `find_q24`, `find_optim.rs:35-39`. -/
def findOptimQ24 (size : Nat) (symmetry : Option Symmetry) : Found → Prop :=
  optimRec rd (q24 rd) size (QS.new size symmetry) 1

/-- `find_recursive`, `find_unique.rs:104-119`. -/
def uniqueRec : Nat → QuadSeq → Nat → List QuadSeq → Option (QuadSeq × List QuadSeq)
  | fuel, will, index, out =>
    if index ≥ will.size then
      (toQs rd will).map fun q => if isPerfect rd q then (will, out ++ [will]) else (will, out)
    else
      match fuel with
      | 0 => none
      | fuel + 1 => QUADRUPLETS.foldlM (fun (st : QuadSeq × List QuadSeq) value =>
          uniqueRec fuel (st.1.setSequenceValue value index) (index + 1) st.2) (will, out)

/-- `find_aux`, `find_unique.rs:94-102`. -/
def findAux (size : Nat) : Option (List QuadSeq) := (uniqueRec rd size (QuadSeq.new size) 0 []).map Prod.snd

/-- `find`, `find_unique.rs:56-91`. -/
def findUnique (size : Nat) : Option (List Char) :=
  (findAux rd size).bind fun sequences => (findClasses sequences).bind fun classes =>
    (classes.mapM fun (c : List QuadSeq) => c.mapM fun (e : QuadSeq) => (toQs rd e).bind fun q =>
      if isPerfect rd q then toStringRaw rd q else none).bind
      fun _ =>
        (classes.mapM findMinimum).bind fun mins =>
          (mins.mapM fun (w : QuadSeq) => (toQs rd w).bind (toStringRaw rd)).map fun ls =>
            ls.foldl (fun s t => s ++ t ++ ['\n']) []

/-- `find_recursive`, `find_williamson.rs:12-38`. -/
def williamsonRec (condition : QuadSeq → Bool) : Nat → QuadSeq → Nat → Option Found
  | fuel, will, index =>
    if index ≥ will.size then
      if condition will then (toQs rd will).bind fun q =>
        if isPerfect rd q then (toStringRaw rd q).map fun s => ([s], 1) else some ([], 0)
      else some ([], 0)
    else
      match fuel with
      | 0 => none
      | fuel + 1 => QUADRUPLETS.foldlM (fun (acc : Found) value =>
          (williamsonRec condition fuel (will.setSequenceValue value index) (index + 1)).map fun r =>
            (acc.1 ++ r.1, acc.2 + r.2)) ([], 0)

/-- `find`, `find_williamson.rs:6-10`. -/
def findWilliamson (size : Nat) (condition : QuadSeq → Bool) : Option Found :=
  williamsonRec rd condition size (QuadSeq.new size) 1

/-! ## The join -/

/-- `condition`, `find_write.rs:732-737`. -/
def joinCondition (ty : SeqType) (q : QuadSeq) : Option Bool :=
  match ty with
  | .quaternionType => (toQs rd q).map fun qs => isPerfect rd qs
  | .williamsonType => some q.verifyWts
  | .williamson => some q.verifyWs
  | _ => some false

/-- One candidate, `find_write.rs:724-741`. -/
def testMatch (ty : SeqType) (tab : SeqTable) (order : TagOrder) (m : (Nat × Nat) × (Nat × Nat)) :
    Option (List QuadSeq) :=
  (getSequences tab order (m.1.1, m.1.2, m.2.1, m.2.2)).bind fun q =>
    (joinCondition rd ty q).map fun ok => if ok then [q] else []

/-- `join_pairs_files`, `find_write.rs:669-755`. -/
def joinPairsFiles (ty : SeqType) (files : Text × Text) (order : TagOrder) (tab : SeqTable) : Option (List QuadSeq) :=
  let l12 := readLines files.1
  let l34 := readLines files.2
  (joinLoop (l12.length + l34.length + 1) l12 l34).bind fun ms =>
    (ms.mapM (testMatch rd ty tab order)).map List.flatten

/-- The body of the loop of `join_pairs`, `find_write.rs:500-509`. -/
def joinDir (ty : SeqType) (d : Dir) : Option (List QuadSeq) :=
  (getSequencesFromDir d).bind fun tab => (getOrderFromDir d).bind fun o => joinPairsFiles rd ty o.1 o.2 tab

/-- The matches of all directories, `find_write.rs:494-511`. -/
def joinAll (ty : SeqType) (dirs : List (Text × Dir)) : Option (List QuadSeq) :=
  (dirs.mapM fun d => joinDir rd ty d.2).map List.flatten

/-- `join_pairs`, `find_write.rs:490-549`. -/
def joinPairs (ty : SeqType) (dirs : List (Text × Dir)) : Option (List QuadSeq) :=
  (joinAll rd ty dirs).bind fun result => (filterCanonical ty result).bind fun filtered =>
    reduceToCanonicalReps filtered ty

/-- The lists written by `find_write_quad_seq`, `main.rs:92-169`. -/
def findWriteQuadSeq (i : Nat) (ty : SeqType) (dirs : List (Text × Dir)) :
    Option (List QuadSeq × Option (List QuadSeq)) :=
  (joinPairs rd ty dirs).bind fun result =>
    match ty with
    | .williamsonType => (reduceToCanonicalReps (expandWts i result) .quaternionType).map fun r => (result, some r)
    | _ => some (result, none)

/-- The contents of `result.seq`, `main.rs:117-121` and `main.rs:164-167`. -/
def resultText (l : List QuadSeq) : Option Text :=
  (l.mapM fun (q : QuadSeq) => (toQs rd q).bind (toStringRaw rd)).map unlines

/-! ## Matrices -/

/-- `QHM::dephase`, `matrices.rs:70-85`. -/
def dephase (m : QHM) : QHM :=
  let n := m.size
  let m1 := loop2 n (fun m col invRow =>
    let row := n - 1 - invRow
    set2 m row col (mul rd (get2 Q0 m row col) (get2 Q0 m 0 col).conj)) m.matrix
  let m2 := loop2 n (fun m row invCol =>
    let col := n - 1 - invCol
    set2 m row col (mul rd (get2 Q0 m row 0).conj (get2 Q0 m row col))) m1
  { m with matrix := m2 }

/-- `QHM::dephased`, `matrices.rs:88-107`. -/
def dephased (m : QHM) : QHM :=
  let n := m.size
  let new1 := loop2 n (fun new col invRow =>
    let row := n - 1 - invRow
    set2 new row col (mul rd (get2 Q0 m.matrix row col) (get2 Q0 m.matrix 0 col).conj))
    (List.replicate n (List.replicate n Q0))
  let new2 := loop2 n (fun new row invCol =>
    let col := n - 1 - invCol
    set2 new row col (mul rd (get2 Q0 new row 0).conj (get2 Q0 new row col))) new1
  { size := m.size, matrix := new2 }

/-- The body of the loops of `contains_non_commuting_elements`, `matrices.rs:116-131`. -/
def nonCommutingStep (unique : Option (List Quat)) (new : Quat) : Option (List Quat) :=
  unique.bind fun u =>
    if u.contains new then some u
    else if u.any fun elm => mul rd new elm ≠ mul rd elm new then none
    else some (u ++ [new])

/-- `QHM::contains_non_commuting_elements`, `matrices.rs:110-137`. -/
def containsNonCommutingElements (m : QHM) : Bool :=
  let elements := (List.range' 1 (m.size - 1)).flatMap fun i => (List.range' 1 (m.size - 1)).map fun j => m.get i j
  (elements.foldl (nonCommutingStep rd) (some [])).isNone

/-- `QHM::to_string`, `matrices.rs:184-199`. -/
def qhmToString (m : QHM) : Option (List Char) :=
  ((List.range m.size).mapM fun row =>
    ((List.range m.size).mapM fun col => (quaternionToString rd (m.get row col)).map fun c => [c, ' ']).map fun cs =>
      ['|', ' '] ++ cs.flatten ++ ['|', '\n']).map List.flatten

/-- The loop body of `convert_qs_to_matrices`, `main.rs:193-205`. -/
def convertLine (line : Text) : Option (Text × Bool) :=
  (fromStr rd line).bind fun pqs =>
    let qhm := dephase rd (QHM.fromPqs pqs)
    (qhmToString rd qhm).map fun s => (s, containsNonCommutingElements rd qhm)

/-- `convert_qs_to_matrices`, `main.rs:178-209`. -/
def convertQsToMatrices (t : Text) : Option (Text × Nat × Nat) :=
  ((readLines t).mapM (convertLine rd)).map fun l => (unlines (l.map Prod.fst), l.length, l.countP Prod.snd)

/-- `qhm_write_all`, `main.rs:212-238`. -/
def qhmWriteAll (order : List QuadSeq → List QuadSeq) (ty : SeqType) (t : Text) : Option Text :=
  ((readLines t).mapM fun line => (fromStr rd line).bind (fromPqs rd)).bind fun qts =>
    (generateEquivalentQuadSeqs qts ty).bind fun equ =>
      ((order equ).mapM fun (seq : QuadSeq) => (toQs rd seq).bind fun qs =>
        (qhmToString rd (dephased rd (QHM.fromPqs qs))).map fun s => s ++ ['\n', '\n']).map List.flatten

/-! ## Operators -/

/-- num-complex `impl Add for Complex` (external crate). -/
def cadd (a b : Cx) : Cx := ⟨rd (a.re + b.re), rd (a.im + b.im)⟩

/-- num-complex `impl Mul for Complex` (external crate). -/
def cmul (a b : Cx) : Cx := ⟨rd (rd (a.re * b.re) - rd (a.im * b.im)), rd (rd (a.re * b.im) + rd (a.im * b.re))⟩

/-- `Operator::tensor`, `mum.rs:75-86`. -/
def tensor (o other : Operator) : Operator :=
  let size := o.size * other.size
  { size
    values := ((iprod o.size o.size).flatMap fun ij => (iprod other.size other.size).map fun pq => (ij, pq)).foldl
      (fun values (t : (Nat × Nat) × (Nat × Nat)) =>
        set2 values (t.1.1 * other.size + t.2.1) (t.1.2 * other.size + t.2.2)
          (cmul rd (o.get t.1.1 t.1.2) (other.get t.2.1 t.2.2)))
      (List.replicate size (List.replicate size Cx.zero)) }

/-- `impl Add<&Operator> for Operator`, `mum.rs:107-121`. -/
def opAdd (o rhs : Operator) : Operator :=
  { size := o.size
    values := (List.range o.size).map fun i => (List.range o.size).map fun j => cadd rd (o.get i j) (rhs.get i j) }

/-- `impl Mul<Complex<f32>> for Operator`, `mum.rs:123-137`. -/
def opSmul (o : Operator) (rhs : Cx) : Operator :=
  { size := o.size
    values := (List.range o.size).map fun i => (List.range o.size).map fun j => cmul rd (o.get i j) rhs }

/-- `quaternion_to_operator`, `mum.rs:31-35`. -/
def quaternionToOperator (q : Quat) : Operator :=
  opAdd rd (opAdd rd (opAdd rd (opSmul rd OP1 ⟨q.w, 0⟩) (opSmul rd OPX ⟨0, q.x⟩)) (opSmul rd OPY ⟨0, -q.y⟩))
    (opSmul rd OPZ ⟨0, q.z⟩)

/-- The operator `q_b` in `MUM::from_qhm`, `mum.rs:178-184`. -/
def qb (qhm : QHM) (b : Nat) : Operator :=
  (iprod qhm.size qhm.size).foldl (fun acc jk =>
    opAdd rd acc (tensor rd (quaternionToOperator rd (mul rd (qhm.get b jk.1) (qhm.get b jk.2).conj))
      (computationalBasis qhm.size jk.1 jk.2))) (Operator.empty (qhm.size * 2))

/-- `MUM::from_qhm`, `mum.rs:173-190`. -/
def mumFromQhm (qhm : QHM) : MUM := { matrixSize := qhm.size * 2, sequence := (List.range qhm.size).map (qb rd qhm) }

/-- `HMUO::from_qhm`, `mum.rs:229-239`. -/
def hmuoFromQhm (qhm : QHM) : HMUO :=
  { matrixSize := 2 * qhm.size
    operator := (iprod qhm.size qhm.size).foldl (fun mat jk =>
      opAdd rd mat (tensor rd (computationalBasis qhm.size jk.1 jk.2)
        (quaternionToOperator rd (qhm.get jk.1 jk.2).conj))) (Operator.empty (2 * qhm.size)) }

/-- `mum_product`, `product.rs:25-44`. -/
def mumProduct (mum1 mum2 : MUM) : MUM :=
  let p := mum1.sequence.length
  let q := mum2.sequence.length
  { matrixSize := mum1.matrixSize * mum2.matrixSize
    sequence := (iprod p q).map fun ij =>
      let index := ij.1 * q + ij.2
      tensor rd (mum1.sequence.getD (index % p) (Operator.empty 0)) (mum2.sequence.getD (index % q) (Operator.empty 0)) }

/-- `HMUO::tensor`, `mum.rs:242-244`. -/
def hmuoTensor (h other : HMUO) : HMUO :=
  { matrixSize := h.matrixSize + other.matrixSize, operator := tensor rd h.operator other.operator }

end Model.F32
