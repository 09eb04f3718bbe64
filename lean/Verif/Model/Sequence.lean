import Verif.Model.Basic
import Verif.Model.Quat

/-!
# Model: `sequences/sequence.rs`
-/

namespace Model

/-- `struct QS`, `sequences/sequence.rs:31-36`. -/
structure QS where
  size : Nat
  values : List Quat
  symmetry : Option Symmetry
  deriving DecidableEq, Repr

/-- First index of `x` in `l` (`iter().enumerate().filter(..).next()`),
`sequences/sequence.rs:59-60,205-206`, `sequences/williamson.rs:47-48`. -/
def firstIndex {α : Type} [DecidableEq α] (l : List α) (x : α) : Option Nat :=
  if l.idxOf x < l.length then some (l.idxOf x) else none

namespace QS

/-- `QS::new`, `sequences/sequence.rs:43-49`. -/
def new (size : Nat) (symmetry : Option Symmetry) : QS :=
  { size, values := List.replicate size Q1, symmetry }

/-- One iteration of `QS::from_str`, `sequences/sequence.rs:58-67`; `none` is the panic. -/
def charToQuat (c : Char) : Option Quat := (firstIndex Q24_STRING c).bind fun i => Q24[i]?

/-- `QS::from_str`, `sequences/sequence.rs:51-70`. `none` is the panic on an unknown character.
`s.len()` counts bytes; all accepted characters are one byte long. -/
def fromStr (s : List Char) : Option QS :=
  (s.mapM charToQuat).map fun values => { size := s.length, values, symmetry := none }

/-- Entry `values[i]`; in range for well-formed sequences. -/
def val (q : QS) (i : Nat) : Quat := q.values.getD i Q0

/-- The factor `(-1).pow(e) as f32`, `sequences/sequence.rs:81-82,124`. -/
def sgn (e : Nat) : Rat := (-1) ^ e

/-- `QS::set_value`, `sequences/sequence.rs:77-87`. `none` is the out-of-range panic. -/
def setValue (q : QS) (value : Quat) (index : Nat) : Option QS :=
  if index < q.values.length then
    let v1 := q.values.set index value
    match q.symmetry with
    | some .I =>
        if index + 1 ≤ q.size ∧ q.size - 1 - index < v1.length then
          some { q with values := v1.set (q.size - 1 - index) value } else none
    | some .II =>
        if q.size / 2 + index < v1.length then
          some { q with values := v1.set (q.size / 2 + index) (value.smul (sgn index)) } else none
    | some .III =>
        if q.size / 2 + index < v1.length then
          some { q with values := v1.set (q.size / 2 + index) (value.smul (sgn (index / 2))) } else none
    | some .IV =>
        if q.size / 2 + index < v1.length then
          some { q with values := v1.set (q.size / 2 + index) (-value) } else none
    | none => some { q with values := v1 }
  else none

/-- `QS::search_size`, `sequences/sequence.rs:90-97`. -/
def searchSize (q : QS) : Nat :=
  match q.symmetry with
  | some _ => (q.size + 1) / 2
  | none => q.size

/-- `QS::periodic_autocorrelation`, `sequences/sequence.rs:110-117`. -/
def periodicAutocorrelation (q : QS) (t : Nat) : Quat :=
  (List.range q.size).foldl (fun acc i => acc + q.val i * (q.val ((i + t) % q.size)).conj) Q0

/-- `QS::odd_periodic_autocorrelation`, `sequences/sequence.rs:119-128`. -/
def oddPeriodicAutocorrelation (q : QS) (t : Nat) : Quat :=
  (List.range q.size).foldl (fun acc i =>
    acc + (q.val i * (q.val ((i + t) % q.size)).conj).smul (sgn ((i + t) / q.size))) Q0

/-- `QS::is_perfect`, `sequences/sequence.rs:131-140`. -/
def isPerfect (q : QS) : Bool :=
  if q.size = 1 then true
  else (List.range' 1 ((q.size + 1) / 2)).all fun t => q.periodicAutocorrelation t = Q0

/-- `QS::is_odd_perfect`, `sequences/sequence.rs:142-151`. -/
def isOddPerfect (q : QS) : Bool :=
  if q.size = 1 then true
  else (List.range' 1 ((q.size + 1) / 2)).all fun t => q.oddPeriodicAutocorrelation t = Q0

/-- `QS::is_symmetric`, `sequences/sequence.rs:153-162`. -/
def isSymmetric (q : QS) : Bool :=
  (List.range' 1 ((q.size + 1) / 2 - 1)).all fun t => q.val t = q.val (q.size - t)

end QS

/-- `quaternion_to_string`, `sequences/sequence.rs:203-212`. `none` is the panic. -/
def quaternionToString (q : Quat) : Option Char := (firstIndex Q24 q).bind fun i => Q24_STRING[i]?

/-- `QS::to_string_raw`, `sequences/sequence.rs:165-173`. -/
def QS.toStringRaw (q : QS) : Option (List Char) := q.values.mapM quaternionToString

/-- `impl ToString for QS`, `sequences/sequence.rs:215-226`. -/
def QS.toString (q : QS) : Option (List Char) :=
  q.toStringRaw.map fun s => ['['] ++ s ++ [']']

/-- `swap`, `sequences/sequence.rs:191-195`, with in-range indices. -/
def swapAt {α : Type} (l : List α) (i j : Nat) : List α :=
  match l[i]?, l[j]? with
  | some x, some y => (l.set i y).set j x
  | _, _ => l

/-- The loop of `transpose`, `sequences/sequence.rs:183-187`. -/
def transposeLoop {α : Type} : Nat → List α → Nat → Nat → List α
  | 0, s, _, _ => s
  | fuel + 1, s, l, r => if l < r then transposeLoop fuel (swapAt s l r) (l + 1) (r - 1) else s

/-- `transpose`, `sequences/sequence.rs:179-188`. `none`: `seq.len() - 1` underflows on an empty vector. -/
def transpose {α : Type} (s : List α) : Option (List α) :=
  if s.length = 0 then none else some (transposeLoop s.length s 1 (s.length - 1))

end Model
