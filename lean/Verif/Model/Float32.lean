import Verif.Model.Matrices

/-!
# Model: single-precision evaluation

The other models compute with exact rationals. Here every addition, subtraction and multiplication of `f32` values is
followed by a rounding `rd`. Negation, conjugation and `abs` are exact in IEEE arithmetic. The values -0 and 0 are equal
in every comparison of the code, so they are not distinguished.
-/

namespace Model.F32

variable (rd : Rat → Rat)

/-- cgmath `impl Add for Quaternion` (external crate). -/
def add (p q : Quat) : Quat := ⟨rd (p.w + q.w), rd (p.x + q.x), rd (p.y + q.y), rd (p.z + q.z)⟩

/-- `a * b + c * d + e * f - g * h`, evaluated from left to right. -/
def dot3m (a b c d e f g h : Rat) : Rat :=
  rd (rd (rd (rd (a * b) + rd (c * d)) + rd (e * f)) - rd (g * h))

/-- cgmath `impl Mul<Quaternion> for Quaternion` (external crate). -/
def mul (p q : Quat) : Quat :=
  ⟨rd (rd (rd (rd (p.w * q.w) - rd (p.x * q.x)) - rd (p.y * q.y)) - rd (p.z * q.z)),
   dot3m rd p.w q.x p.x q.w p.y q.z p.z q.y,
   dot3m rd p.w q.y p.y q.w p.z q.x p.x q.z,
   dot3m rd p.w q.z p.z q.w p.x q.y p.y q.x⟩

/-- cgmath `impl Mul<f32> for Quaternion` (external crate). -/
def smul (p : Quat) (r : Rat) : Quat := ⟨rd (p.w * r), rd (p.x * r), rd (p.y * r), rd (p.z * r)⟩

/-- `Q24`, `sequences/sequence.rs:21-25`. -/
def q24 : List Quat :=
  [Q1, -Q1, QI, -QI, QJ, -QJ, QK, -QK,
   QQ, smul rd QQ (-1), mul rd QQ QI, mul rd QQ (-QI), mul rd QQ QJ, mul rd QQ (-QJ), mul rd QQ QK, mul rd QQ (-QK),
   QSc, smul rd QSc (-1), mul rd QSc QI, mul rd QSc (-QI), mul rd QSc QJ, mul rd QSc (-QJ), mul rd QSc QK,
   mul rd QSc (-QK)]

/-- `QS::periodic_autocorrelation`, `sequences/sequence.rs:110-117`. -/
def periodicAutocorrelation (q : QS) (t : Nat) : Quat :=
  (List.range q.size).foldl (fun acc i => add rd acc (mul rd (q.val i) (q.val ((i + t) % q.size)).conj)) Q0

/-- `QS::odd_periodic_autocorrelation`, `sequences/sequence.rs:119-128`. -/
def oddPeriodicAutocorrelation (q : QS) (t : Nat) : Quat :=
  (List.range q.size).foldl (fun acc i =>
    add rd acc (smul rd (mul rd (q.val i) (q.val ((i + t) % q.size)).conj) (QS.sgn ((i + t) / q.size)))) Q0

/-- `QS::is_perfect`, `sequences/sequence.rs:131-140`. -/
def isPerfect (q : QS) : Bool :=
  if q.size = 1 then true
  else (List.range' 1 ((q.size + 1) / 2)).all fun t => periodicAutocorrelation rd q t = Q0

/-- `QS::is_odd_perfect`, `sequences/sequence.rs:142-151`. -/
def isOddPerfect (q : QS) : Bool :=
  if q.size = 1 then true
  else (List.range' 1 ((q.size + 1) / 2)).all fun t => oddPeriodicAutocorrelation rd q t = Q0

/-- The inner product of two rows, `matrices.rs:152-156`. -/
def innerProduct (n : Nat) (r1 r2 : List Quat) : Quat :=
  (List.range n).foldl (fun acc i => add rd acc (mul rd (r1.getD i Q0) (r2.getD i Q0).conj)) Q0

/-- `QHM::verify`, `matrices.rs:140-181`; `n as f32` is the rounded integer. -/
def qhmVerify (m : QHM) : Bool :=
  let n := m.size
  (List.range n).all fun row1 => (List.range n).all fun row2 =>
    let result := innerProduct rd n (m.row row1) (m.row row2)
    let realMatch := if row1 = row2 then QHM.small (rd (result.w - rd n)) else QHM.small result.w
    let imaginaryMatch := QHM.small result.x && QHM.small result.y && QHM.small result.z
    realMatch && imaginaryMatch

end Model.F32
