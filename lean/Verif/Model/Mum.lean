import Verif.Model.Matrices

/-!
# Model: `sequences/mum.rs` and `sequences/product.rs`

Complex numbers are exact rational pairs (`num_complex::Complex<f32>` in the code).
-/

namespace Model

/-- `num_complex::Complex<f32>` (external crate), used in `mum.rs:5`. -/
structure Cx where
  re : Rat
  im : Rat
  deriving DecidableEq, Repr

namespace Cx

/-- `impl Add for Complex` (external crate). -/
def add (a b : Cx) : Cx := ⟨a.re + b.re, a.im + b.im⟩

/-- `impl Mul for Complex` (external crate). -/
def mul (a b : Cx) : Cx := ⟨a.re * b.re - a.im * b.im, a.re * b.im + a.im * b.re⟩

/-- `Complex::conj` (external crate). -/
def conj (a : Cx) : Cx := ⟨a.re, -a.im⟩

instance : Add Cx := ⟨add⟩
instance : Mul Cx := ⟨mul⟩

/-- `Complex::new(0., 0.)`. -/
def zero : Cx := ⟨0, 0⟩

end Cx

/-- `iproduct!(0..a, 0..b)` (external crate `itertools`): the second index runs fastest. -/
def iprod (a b : Nat) : List (Nat × Nat) := (List.range a).flatMap fun i => (List.range b).map fun j => (i, j)

/-- `struct Operator`, `mum.rs:47-50`. -/
structure Operator where
  size : Nat
  values : List (List Cx)
  deriving DecidableEq

/-- `make_operator`, `mum.rs:10-14`. -/
def makeOperator (a b c d : Cx) : Operator := { size := 2, values := [[a, b], [c, d]] }

/-- `OP1`, `mum.rs:21`. -/
def OP1 : Operator := makeOperator ⟨1, 0⟩ ⟨0, 0⟩ ⟨0, 0⟩ ⟨1, 0⟩
/-- `OPX`, `mum.rs:22`. -/
def OPX : Operator := makeOperator ⟨0, 0⟩ ⟨1, 0⟩ ⟨1, 0⟩ ⟨0, 0⟩
/-- `OPY`, `mum.rs:23`. -/
def OPY : Operator := makeOperator ⟨0, 0⟩ ⟨0, -1⟩ ⟨0, 1⟩ ⟨0, 0⟩
/-- `OPZ`, `mum.rs:24`. -/
def OPZ : Operator := makeOperator ⟨1, 0⟩ ⟨0, 0⟩ ⟨0, 0⟩ ⟨-1, 0⟩

namespace Operator

/-- `self.values[i][j]`; in range for the operators the code builds. -/
def get (o : Operator) (i j : Nat) : Cx := get2 Cx.zero o.values i j

/-- `Operator::empty`, `mum.rs:57-59`. -/
def empty (size : Nat) : Operator := { size, values := List.replicate size (List.replicate size Cx.zero) }

/-- `Operator::conjugate_transpose`, `mum.rs:61-73`. -/
def conjugateTranspose (o : Operator) : Operator :=
  { size := o.size
    values := (List.range o.size).map fun i => (List.range o.size).map fun j => (o.get j i).conj }

/-- `Operator::tensor`, `mum.rs:75-86`. -/
def tensor (o other : Operator) : Operator :=
  let size := o.size * other.size
  { size
    values := ((iprod o.size o.size).flatMap fun ij => (iprod other.size other.size).map fun pq => (ij, pq)).foldl
      (fun values (t : (Nat × Nat) × (Nat × Nat)) =>
        set2 values (t.1.1 * other.size + t.2.1) (t.1.2 * other.size + t.2.2)
          (o.get t.1.1 t.1.2 * other.get t.2.1 t.2.2))
      (List.replicate size (List.replicate size Cx.zero)) }

/-- `impl Add<&Operator> for Operator`, `mum.rs:107-121`. -/
def add (o rhs : Operator) : Operator :=
  { size := o.size
    values := (List.range o.size).map fun i => (List.range o.size).map fun j => o.get i j + rhs.get i j }

/-- `impl Mul<Complex<f32>> for Operator`, `mum.rs:123-137`. -/
def smul (o : Operator) (rhs : Cx) : Operator :=
  { size := o.size
    values := (List.range o.size).map fun i => (List.range o.size).map fun j => o.get i j * rhs }

end Operator

/-- `quaternion_to_operator`, `mum.rs:31-35`. -/
def quaternionToOperator (q : Quat) : Operator :=
  (((OP1.smul ⟨q.w, 0⟩).add (OPX.smul ⟨0, q.x⟩)).add (OPY.smul ⟨0, -q.y⟩)).add (OPZ.smul ⟨0, q.z⟩)

/-- `computational_basis`, `mum.rs:38-43`. -/
def computationalBasis (size j k : Nat) : Operator :=
  { size, values := set2 (List.replicate size (List.replicate size Cx.zero)) j k ⟨1, 0⟩ }

/-- `struct MUM`, `mum.rs:142-145`. -/
structure MUM where
  matrixSize : Nat
  sequence : List Operator
  deriving DecidableEq

namespace MUM

/-- `MUM::empty`, `mum.rs:155-159`. -/
def empty (length matrixSize : Nat) : MUM := { matrixSize, sequence := List.replicate length (Operator.empty matrixSize) }

/-- The operator `q_b` in `MUM::from_qhm`, `mum.rs:178-184`. -/
def qb (qhm : QHM) (b : Nat) : Operator :=
  (iprod qhm.size qhm.size).foldl (fun acc jk =>
    acc.add ((quaternionToOperator (qhm.get b jk.1 * (qhm.get b jk.2).conj)).tensor
      (computationalBasis qhm.size jk.1 jk.2))) (Operator.empty (qhm.size * 2))

/-- `MUM::from_qhm`, `mum.rs:173-190`. -/
def fromQhm (qhm : QHM) : MUM := { matrixSize := qhm.size * 2, sequence := (List.range qhm.size).map (qb qhm) }

end MUM

/-- `struct HMUO`, `mum.rs:204-207`. -/
structure HMUO where
  matrixSize : Nat
  operator : Operator
  deriving DecidableEq

namespace HMUO

/-- `HMUO::empty`, `mum.rs:216-219`. -/
def empty (matrixSize : Nat) : HMUO := { matrixSize, operator := Operator.empty matrixSize }

/-- `HMUO::from_qhm`, `mum.rs:229-239`. -/
def fromQhm (qhm : QHM) : HMUO :=
  { matrixSize := 2 * qhm.size
    operator := (iprod qhm.size qhm.size).foldl (fun mat jk =>
      mat.add ((computationalBasis qhm.size jk.1 jk.2).tensor (quaternionToOperator (qhm.get jk.1 jk.2).conj)))
      (Operator.empty (2 * qhm.size)) }

/-- `HMUO::tensor`, `mum.rs:242-244`: the recorded size is the sum. -/
def tensor (h other : HMUO) : HMUO :=
  { matrixSize := h.matrixSize + other.matrixSize, operator := h.operator.tensor other.operator }

end HMUO

/-- `sequence_product`, `product.rs:4-23`. `none` is an out-of-range panic. -/
def sequenceProduct (qs1 qs2 : QS) : Option QS :=
  let p := qs1.size
  let q := qs2.size
  (iprod p q).foldlM (fun result ij =>
    let index := ij.1 * q + ij.2
    result.setValue (qs1.val (index % p) * qs2.val (index % q)) index) (QS.new (p * q) none)

/-- `mum_product`, `product.rs:25-44`. The lengths are those of the vectors, so the indices are in range. -/
def mumProduct (mum1 mum2 : MUM) : MUM :=
  let p := mum1.sequence.length
  let q := mum2.sequence.length
  { matrixSize := mum1.matrixSize * mum2.matrixSize
    sequence := (iprod p q).map fun ij =>
      let index := ij.1 * q + ij.2
      (mum1.sequence.getD (index % p) (Operator.empty 0)).tensor (mum2.sequence.getD (index % q) (Operator.empty 0)) }

end Model
