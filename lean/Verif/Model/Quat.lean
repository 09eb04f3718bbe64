import Mathlib.Data.Rat.Defs

/-!
# Model: quaternions (`cgmath::Quaternion<f32>`)

Components are exact rationals; float exactness is a separate theorem (C57).
-/

namespace Model

/-- `cgmath::Quaternion<f32>` (`Quaternion::new(w, xi, yj, zk)`), used from `sequences/sequence.rs:2`. -/
structure Quat where
  w : Rat
  x : Rat
  y : Rat
  z : Rat
  deriving DecidableEq, Repr

namespace Quat

/-- cgmath `impl Add for Quaternion` (external crate). -/
def add (p q : Quat) : Quat := ⟨p.w + q.w, p.x + q.x, p.y + q.y, p.z + q.z⟩

/-- cgmath `impl Neg for Quaternion` (external crate). -/
def neg (p : Quat) : Quat := ⟨-p.w, -p.x, -p.y, -p.z⟩

/-- cgmath `impl Mul<Quaternion> for Quaternion` (external crate): Hamilton product. -/
def mul (p q : Quat) : Quat :=
  ⟨p.w * q.w - p.x * q.x - p.y * q.y - p.z * q.z,
   p.w * q.x + p.x * q.w + p.y * q.z - p.z * q.y,
   p.w * q.y + p.y * q.w + p.z * q.x - p.x * q.z,
   p.w * q.z + p.z * q.w + p.x * q.y - p.y * q.x⟩

/-- cgmath `impl Mul<f32> for Quaternion` (external crate). -/
def smul (p : Quat) (r : Rat) : Quat := ⟨p.w * r, p.x * r, p.y * r, p.z * r⟩

/-- cgmath `Quaternion::conjugate` (external crate). -/
def conj (p : Quat) : Quat := ⟨p.w, -p.x, -p.y, -p.z⟩

instance : Add Quat := ⟨add⟩
instance : Neg Quat := ⟨neg⟩
instance : Mul Quat := ⟨mul⟩

end Quat

/-- `Q0`, `sequences/sequence.rs:9`. -/
def Q0 : Quat := ⟨0, 0, 0, 0⟩
/-- `Q1`, `sequences/sequence.rs:10`. -/
def Q1 : Quat := ⟨1, 0, 0, 0⟩
/-- `QI`, `sequences/sequence.rs:11`. -/
def QI : Quat := ⟨0, 1, 0, 0⟩
/-- `QJ`, `sequences/sequence.rs:12`. -/
def QJ : Quat := ⟨0, 0, 1, 0⟩
/-- `QK`, `sequences/sequence.rs:13`. -/
def QK : Quat := ⟨0, 0, 0, 1⟩
/-- `QQ`, `sequences/sequence.rs:14`. -/
def QQ : Quat := ⟨1/2, 1/2, 1/2, 1/2⟩
/-- `QS`, `sequences/sequence.rs:15`. -/
def QSc : Quat := ⟨1/2, -1/2, -1/2, -1/2⟩

/-- `QPLUS`, `sequences/sequence.rs:17-19`. -/
def QPLUS : List Quat :=
  [Q1, -Q1, QI, -QI, QJ, -QJ, QK, -QK,
   QQ, QQ.smul (-1), QQ * QI, QQ * -QI, QQ * QJ, QQ * -QJ, QQ * QK, QQ * -QK]

/-- `Q24`, `sequences/sequence.rs:21-25`. -/
def Q24 : List Quat :=
  [Q1, -Q1, QI, -QI, QJ, -QJ, QK, -QK,
   QQ, QQ.smul (-1), QQ * QI, QQ * -QI, QQ * QJ, QQ * -QJ, QQ * QK, QQ * -QK,
   QSc, QSc.smul (-1), QSc * QI, QSc * -QI, QSc * QJ, QSc * -QJ, QSc * QK, QSc * -QK]

/-- `Q24_STRING`, `sequences/sequence.rs:27-29` (one-character strings as characters). -/
def Q24_STRING : List Char :=
  ['+', '-', 'i', 'I', 'j', 'J', 'k', 'K', 'q', 'Q', 'x', 'X', 'y', 'Y', 'z', 'Z',
   's', 'S', 'u', 'U', 'v', 'V', 'w', 'W']

end Model
