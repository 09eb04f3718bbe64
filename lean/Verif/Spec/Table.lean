import Verif.Model.Log
import Verif.Spec.Opb
import Mathlib.Algebra.Order.Field.Rat
import Mathlib.Algebra.Order.Group.Unbundled.Abs

/-!
# Specification: reading a table

The columns of the tables in the paper's notation, with their headings, and what the text in a column says.
-/

namespace Spec
open Model

/-- A column of the table. -/
inductive Column
  | length | wts | qts | matrices | time | qtTime | hmTime | pairs | disk
  deriving DecidableEq

/-- The columns of the plain table; the number of Williamson-type classes only for Williamson-type sequences. -/
def plainColumns (wts : Bool) : List Column :=
  if wts then [.length, .wts, .qts, .matrices, .time, .qtTime, .hmTime, .pairs, .disk]
  else [.length, .qts, .matrices, .time, .qtTime, .hmTime, .pairs, .disk]

/-- The columns of the table in LaTeX. -/
def latexColumns (wts : Bool) : List Column :=
  if wts then [.length, .wts, .qts, .matrices, .time, .pairs, .disk] else [.length, .qts, .matrices, .time, .pairs, .disk]

/-- The headings of the plain table. -/
def Column.heading : Column → List Char
  | .length => "n".toList
  | .wts => "W_{equ}".toList
  | .qts => "Q_{equ}".toList
  | .matrices => "M_{equ}".toList
  | .time => "Time (s)".toList
  | .qtTime => "QT Equ Time (s)".toList
  | .hmTime => "HM Equ Time (s)".toList
  | .pairs => "Pairs".toList
  | .disk => "Disk usage (MB)".toList

/-- The headings in LaTeX. -/
def Column.latexHeading : Column → List Char
  | .length => "$n$".toList
  | .wts => "$W_{\\text{equ}}$".toList
  | .qts => "$Q_{\\text{equ}}$".toList
  | .matrices => "$M_{\\text{equ}}$".toList
  | .disk => "Space".toList
  | c => c.heading

/-- A number with `d` decimals, as a multiple of `10^-d`. -/
def decimal (d : ℕ) (t : List Char) : Option ℤ :=
  match pieces '.' t with
  | [a, b] => if a ≠ [] ∧ b.length = d then number (a ++ b) else none
  | _ => none

/-- The text is a number with two decimals, nearest to the value. -/
def Nearest2 (t : List Char) (q : ℚ) : Prop := ∃ z : ℤ, decimal 2 t = some z ∧ |(z : ℚ) / 100 - q| ≤ 1 / 200

/-- The text is a number with one decimal, nearest to the value. -/
def Nearest1 (t : List Char) (q : ℚ) : Prop := ∃ z : ℤ, decimal 1 t = some z ∧ |(z : ℚ) / 10 - q| ≤ 1 / 20

/-- What the text in a column says about the results of one length. -/
def Column.Says (n : ℕ) (r : Row) (disk : ℚ) : Column → List Char → Prop
  | .length, t => number t = some (n : ℤ)
  | .wts, t => number t = some r.w
  | .qts, t => number t = some r.q
  | .matrices, t => number t = some r.m
  | .time, t => Nearest2 t r.time
  | .qtTime, t => Nearest2 t r.qtTime
  | .hmTime, t => Nearest2 t r.hmTime
  | .pairs, t => number t = some r.pairs
  | .disk, t => Nearest1 t disk

/-- The words of a line, separated by blanks. -/
def words (l : List Char) : List (List Char) := (pieces ' ' l).filter (· ≠ [])

/-- Without the blanks at both ends. -/
def trim (t : List Char) : List Char := ((t.dropWhile (· = ' ')).reverse.dropWhile (· = ' ')).reverse

/-- Cutting a line into fields of fixed width; the last field is what remains. -/
def cut : List ℕ → List Char → List (List Char)
  | [], t => [t]
  | w :: ws, t => t.take w :: cut ws (t.drop w)

/-- The fields of a line of the plain table with `k + 2` columns: 2 characters, then 16 for each. -/
def fields (k : ℕ) (l : List Char) : List (List Char) := (cut (2 :: List.replicate k 16) l).map trim

/-- The cells of a line in LaTeX: it ends with two backslashes, the cells are separated by `&`. -/
def latexCells (l : List Char) : Option (List (List Char)) :=
  if ['\\', '\\'] <:+ l then some ((pieces '&' (l.take (l.length - 2))).map trim) else none

/-- The numbers fit into their columns. -/
structure Fits (r : Row) (disk : ℚ) : Prop where
  w : |r.w| < 10 ^ 14
  q : |r.q| < 10 ^ 14
  m : |r.m| < 10 ^ 14
  pairs : |r.pairs| < 10 ^ 14
  time : |r.time| < 10 ^ 10
  qtTime : |r.qtTime| < 10 ^ 10
  hmTime : |r.hmTime| < 10 ^ 10
  disk : |disk| < 10 ^ 10

end Spec
