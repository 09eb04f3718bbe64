import Verif.Model.Sequence
import Verif.Model.Williamson

/-!
# Model: `sequences/matrices.rs`

Matrices are vectors of rows. The fields of `QHM` and `HM` are private; every constructor builds `size` rows of length
`size`, so the indices below are in range for every matrix the code can build.
-/

namespace Model

/-- `m[i][j]`. -/
def get2 {α : Type} (d : α) (m : List (List α)) (i j : Nat) : α := (m.getD i []).getD j d

/-- `m[i][j] = v`. -/
def set2 {α : Type} (m : List (List α)) (i j : Nat) (v : α) : List (List α) := m.set i ((m.getD i []).set j v)

/-- `for i in 0..n { for j in 0..n { body } }` with a mutable matrix. -/
def loop2 {α : Type} (n : Nat) (body : List (List α) → Nat → Nat → List (List α)) (m : List (List α)) : List (List α) :=
  (List.range n).foldl (fun m i => (List.range n).foldl (fun m j => body m i j) m) m

/-! ## `QHM` -/

/-- `struct QHM`, `matrices.rs:7-10`. -/
structure QHM where
  size : Nat
  matrix : List (List Quat)
  deriving DecidableEq

namespace QHM

/-- `QHM::new`, `matrices.rs:15-21`. -/
def new (size : Nat) : QHM := { size, matrix := List.replicate size (List.replicate size Q1) }

/-- `QHM::get`, `matrices.rs:24-26`. -/
def get (m : QHM) (i j : Nat) : Quat := get2 Q0 m.matrix i j

/-- `QHM::row`, `matrices.rs:29-31`. -/
def row (m : QHM) (i : Nat) : List Quat := m.matrix.getD i []

/-- `QHM::col`, `matrices.rs:33-40`. -/
def col (m : QHM) (j : Nat) : List Quat := (List.range m.size).map fun i => get2 Q0 m.matrix i j

/-- `QHM::from_pqs`, `matrices.rs:46-61`. -/
def fromPqs (pqs : QS) : QHM :=
  let size := pqs.size
  { size
    matrix := (List.range size).map fun row =>
      (List.range size).map fun col => pqs.values.getD ((col + size - row) % size) Q0 }

/-- `QHM::dephase`, `matrices.rs:70-85`. -/
def dephase (m : QHM) : QHM :=
  let n := m.size
  -- dephase the columns
  let m1 := loop2 n (fun m col invRow =>
    let row := n - 1 - invRow
    set2 m row col (get2 Q0 m row col * (get2 Q0 m 0 col).conj)) m.matrix
  -- dephase the rows
  let m2 := loop2 n (fun m row invCol =>
    let col := n - 1 - invCol
    set2 m row col ((get2 Q0 m row 0).conj * get2 Q0 m row col)) m1
  { m with matrix := m2 }

/-- `QHM::dephased`, `matrices.rs:88-107`: the first loop reads `self`, the second the new matrix. -/
def dephased (m : QHM) : QHM :=
  let n := m.size
  let new1 := loop2 n (fun new col invRow =>
    let row := n - 1 - invRow
    set2 new row col (get2 Q0 m.matrix row col * (get2 Q0 m.matrix 0 col).conj))
    (List.replicate n (List.replicate n Q0))
  let new2 := loop2 n (fun new row invCol =>
    let col := n - 1 - invCol
    set2 new row col ((get2 Q0 new row 0).conj * get2 Q0 new row col)) new1
  { size := m.size, matrix := new2 }

/-- The body of the loops of `contains_non_commuting_elements`, `matrices.rs:116-131`. The state is the list of unique
elements; `none` is the early `return true`. -/
def nonCommutingStep (unique : Option (List Quat)) (new : Quat) : Option (List Quat) :=
  unique.bind fun u =>
    if u.contains new then some u
    else if u.any fun elm => new * elm ≠ elm * new then none
    else some (u ++ [new])

/-- `QHM::contains_non_commuting_elements`, `matrices.rs:110-137`. -/
def containsNonCommutingElements (m : QHM) : Bool :=
  let elements := (List.range' 1 (m.size - 1)).flatMap fun i => (List.range' 1 (m.size - 1)).map fun j => m.get i j
  (elements.foldl nonCommutingStep (some [])).isNone

/-- `f32::EPSILON.sqrt()`, `matrices.rs:142`: the single-precision number nearest to the square root of `2 ^ (-23)`. -/
def f32Tolerance : Rat := 11863283 / 2 ^ 35

/-- The inner product of two rows, `matrices.rs:152-156`. -/
def innerProduct (n : Nat) (r1 r2 : List Quat) : Quat :=
  (List.range n).foldl (fun acc i => acc + r1.getD i Q0 * (r2.getD i Q0).conj) Q0

/-- `x.abs() < f32_tolerance`. -/
def small (x : Rat) : Bool := decide (-f32Tolerance < x ∧ x < f32Tolerance)

/-- `QHM::verify`, `matrices.rs:140-181`. -/
def verify (m : QHM) : Bool :=
  let n := m.size
  (List.range n).all fun row1 => (List.range n).all fun row2 =>
    let result := innerProduct n (m.row row1) (m.row row2)
    let realMatch := if row1 = row2 then small (result.w - n) else small result.w
    let imaginaryMatch := small result.x && small result.y && small result.z
    realMatch && imaginaryMatch

/-- `QHM::to_string`, `matrices.rs:184-199`. `none` is the panic of `quaternion_to_string`. -/
def toString (m : QHM) : Option (List Char) :=
  ((List.range m.size).mapM fun row =>
    ((List.range m.size).mapM fun col => (quaternionToString (m.get row col)).map fun c => [c, ' ']).map fun cs =>
      ['|', ' '] ++ cs.flatten ++ ['|', '\n']).map List.flatten

end QHM

/-! ## `HM` -/

/-- `struct HM`, `matrices.rs:205-208`. -/
structure HM where
  size : Nat
  matrix : List (List Int)
  deriving DecidableEq

/-- `enum OpMat`, `matrices.rs:210-212`. -/
inductive OpMat
  | none | minus | transpose | minusTranspose
  deriving DecidableEq

namespace HM

/-- `HM::new`, `matrices.rs:217-223`. -/
def new (size : Nat) : HM := { size, matrix := List.replicate size (List.replicate size 1) }

/-- `HM::get`, `matrices.rs:226-228`. -/
def get (m : HM) (i j : Nat) : Int := get2 0 m.matrix i j

/-- `HM::set_value`, `matrices.rs:230-232`. -/
def setValue (m : HM) (row col : Nat) (v : Int) : HM := { m with matrix := set2 m.matrix row col v }

/-- `HM::from_sequence`, `matrices.rs:235-247`. -/
def fromSequence (seq : List Int) : HM :=
  let size := seq.length
  (List.range size).foldl (fun hm index =>
    (List.range size).foldl (fun hm i => hm.setValue i ((i + index) % size) (seq.getD index 0)) hm) (HM.new size)

/-- `HM::get_with_op_mat`, `matrices.rs:310-317`. -/
def getWithOpMat (m : HM) (row col : Nat) : OpMat → Int
  | .none => get2 0 m.matrix row col
  | .minus => neg8 (get2 0 m.matrix row col)
  | .transpose => get2 0 m.matrix col row
  | .minusTranspose => neg8 (get2 0 m.matrix col row)

/-- `HM::copy_block_to`, `matrices.rs:288-294`. -/
def copyBlockTo (m block : HM) (rowOffset colOffset : Nat) (op : OpMat) : HM :=
  { m with matrix := loop2 block.size (fun m row col =>
      set2 m (row + rowOffset) (col + colOffset) (block.getWithOpMat row col op)) m.matrix }

/-- The calls of `copy_block_to` in `HM::from_williamson`, in order, `matrices.rs:262-277`. -/
def williamsonBlocks (size : Nat) (matw matx maty matz : HM) : List (HM × Nat × Nat × OpMat) :=
  [(matw, 0, 0, .none),
   (matx, size, 0, .none),
   (maty, 2 * size, 0, .none),
   (matz, 3 * size, 0, .none),
   (matx, 0, size, .none),
   (matw, size, size, .minus),
   (matz, 2 * size, size, .none),
   (maty, 3 * size, size, .minus),
   (maty, 0, 2 * size, .none),
   (matz, size, 2 * size, .minus),
   (matw, 2 * size, 2 * size, .minus),
   (matx, 3 * size, 2 * size, .none),
   (matz, 0, 3 * size, .none),
   (maty, size, 3 * size, .none),
   (matx, 2 * size, 3 * size, .minus),
   (matw, 3 * size, 3 * size, .minus)]

/-- `HM::from_williamson`, `matrices.rs:250-283`. `none` is the panic for other sequence types. -/
def fromWilliamson (will : QuadSeq) (ty : SeqType) : Option HM :=
  let size := will.size
  let matw := fromSequence (will.sequence .W)
  let matx := fromSequence (will.sequence .X)
  let maty := fromSequence (will.sequence .Y)
  let matz := fromSequence (will.sequence .Z)
  match ty with
  | .quaternionType => some ((williamsonBlocks size matw matx maty matz).foldl
      (fun hm b => hm.copyBlockTo b.1 b.2.1 b.2.2.1 b.2.2.2) (HM.new (4 * size)))
  | _ => Option.none

/-- `HM::get_qts`, `matrices.rs:296-308`. -/
def getQts (m : HM) : QuadSeq :=
  let len := m.size / 4
  (QuadSeq.new len).setAllValues ((List.range len).map fun i => m.get 0 i)
    ((List.range len).map fun i => m.get len i) ((List.range len).map fun i => m.get (2 * len) i)
    ((List.range len).map fun i => m.get (3 * len) i)

/-- `HM::dephase`, `matrices.rs:328-343`. -/
def dephase (m : HM) : HM :=
  let n := m.size
  let m1 := loop2 n (fun m invRow col =>
    let row := n - 1 - invRow
    set2 m row col (mul8 (get2 0 m 0 col) (get2 0 m row col))) m.matrix
  let m2 := loop2 n (fun m invCol row =>
    let col := n - 1 - invCol
    set2 m row col (mul8 (get2 0 m row 0) (get2 0 m row col))) m1
  { m with matrix := m2 }

/-- `HM::dephased`, `matrices.rs:346-365`: both loops read `self`. -/
def dephased (m : HM) : HM :=
  let n := m.size
  let new1 := loop2 n (fun new invRow col =>
    let row := n - 1 - invRow
    set2 new row col (mul8 (get2 0 m.matrix 0 col) (get2 0 m.matrix row col)))
    (List.replicate n (List.replicate n 1))
  let new2 := loop2 n (fun new invCol row =>
    let col := n - 1 - invCol
    set2 new row col (mul8 (get2 0 m.matrix row 0) (get2 0 m.matrix row col))) new1
  { size := m.size, matrix := new2 }

/-- The inner product in `HM::verify`, `matrices.rs:459-462`: an `i8` accumulator. -/
def innerProduct (n : Nat) (r1 r2 : List Int) : Int :=
  (List.range n).foldl (fun acc i => add8 acc (mul8 (r1.getD i 0) (r2.getD i 0))) 0

/-- `HM::row`, `matrices.rs:444-446`. -/
def row (m : HM) (i : Nat) : List Int := m.matrix.getD i []

/-- `HM::verify`, `matrices.rs:449-472`. -/
def verify (m : HM) : Bool :=
  (List.range m.size).all fun row1 => (List.range' (row1 + 1) (m.size - (row1 + 1))).all fun row2 =>
    decide (innerProduct m.size (m.row row1) (m.row row2) = 0)

/-- `HM::to_string`, `matrices.rs:372-392`. -/
def toString (m : HM) : List Char :=
  ((List.range m.size).map fun row =>
    ['|', ' '] ++ ((List.range m.size).map fun col => if m.get row col = 1 then ['+', ' '] else ['-', ' ']).flatten ++
      ['|', '\n']).flatten

/-- One entry in `to_string_magma`, `matrices.rs:401-406`. -/
def magmaEntry (v : Int) : List Char := if v = 1 then ['1'] else ['-', '1']

/-- One row in `to_string_magma`, `matrices.rs:398-416` and `421-437`. -/
def magmaRow (m : HM) (row : Nat) : List Char :=
  ['['] ++ ((List.range (m.size - 1)).map fun col => magmaEntry (m.get row col) ++ [',']).flatten ++
    magmaEntry (m.get row (m.size - 1)) ++ [']']

/-- `HM::to_string_magma`, `matrices.rs:394-441`. `none`: `self.size - 1` underflows for size 0. -/
def toStringMagma (m : HM) : Option (List Char) :=
  if m.size = 0 then Option.none
  else some ("M := Matrix([".toList ++ ((List.range (m.size - 1)).map fun row => magmaRow m row ++ [',']).flatten ++
    magmaRow m (m.size - 1) ++ "]);".toList)

end HM

end Model
