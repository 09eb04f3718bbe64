/-!
# Model: machine integers and small enumerations

Everything in `Verif/Model` transcribes `/repo/rust/src`; each definition cites the lines it models.
-/

namespace Model

/-- Wrapping conversion to `i8` (`as i8`, and the result of release-mode `i8` arithmetic):
reduction modulo 256 into `-128..127`. -/
def wrap8 (x : Int) : Int := Int.bmod x 256

/-- `i8` negation (`-x`), release-mode wrapping semantics (a debug build panics on -128). -/
def neg8 (x : Int) : Int := wrap8 (-x)

/-- `i8` multiplication, release-mode wrapping semantics. -/
def mul8 (x y : Int) : Int := wrap8 (x * y)

/-- `i8` addition, release-mode wrapping semantics. -/
def add8 (x y : Int) : Int := wrap8 (x + y)

/-- Indexing `v[i]`. In the model an index is always in range where this is used; the default is never
reached for well-formed data. -/
def at0 (l : List Int) (i : Nat) : Int := l.getD i 0

/-- `let mut res = 0; for i in 0..n { res += f(i) }`. -/
def sumTo (n : Nat) (f : Nat → Int) : Int := (List.range n).foldl (fun acc i => acc + f i) 0

/-- `SequenceTag`, `sequences/williamson.rs:10-13`. -/
inductive Tag
  | W | X | Y | Z
  deriving DecidableEq, Repr

/-- `SequenceType`, `sequences/symmetries.rs:16-18`. -/
inductive SeqType
  | williamson | williamsonType | quaternionType | itoType | extraTypeI | extraTypeII | extraTypeIII
  deriving DecidableEq, Repr

/-- `Symmetry`, `sequences/symmetries.rs:5-7`. -/
inductive Symmetry
  | I | II | III | IV
  deriving DecidableEq, Repr

end Model
