import Verif.Model.Log

/-!
# Model: the table printed by `collect_results.py`

Numbers with decimals are rationals, as in `Model/Log`. The lengths given on the command line are not negative.
-/

namespace Model

/-- `str.rjust(width, ' ')`. -/
def rjust (t : Text) (width : Nat) : Text := List.replicate (width - t.length) ' ' ++ t

/-- Rounding to the nearest integer, halves to the even one. -/
def roundHalfEven (q : Rat) : Int :=
  let r := q - q.floor
  if r < 1 / 2 then q.floor
  else if 1 / 2 < r then q.floor + 1
  else if q.floor % 2 = 0 then q.floor else q.floor + 1

/-- The absolute value. -/
def absRat (q : Rat) : Rat := if q < 0 then -q else q

/-- `f"{q:.2f}"`. -/
def fixed2 (q : Rat) : Text := (if q < 0 then ['-'] else []) ++ secsText (roundHalfEven (absRat q * 100)).toNat

/-- `f"{q:.1f}"`. -/
def fixed1 (q : Rat) : Text :=
  let k := (roundHalfEven (absRat q * 10)).toNat
  (if q < 0 then ['-'] else []) ++ natText (k / 10) ++ ['.'] ++ [digitChar (k % 10)]

/-- The size of a file in bytes. -/
def fileSize (t : Text) : Nat := (t.map fun c => c.utf8Size).sum

/-- `get_disk_usage`, `collect_results.py:42-49`: the files in the directories of the length, in units of `1024²` bytes. -/
def diskUsage (s : Store) (ty n : Text) : Rat :=
  match s ty n with
  | none => 0
  | some d => (d.dirs.map fun e => ((e.2.map fun f => fileSize f.2).sum : Rat) / 1024 ^ 2).sum

/-- `create_table`, `collect_results.py:88-97`: the headings. -/
def textHead (wts : Bool) : Text :=
  rjust "n".toList 2 ++ (if wts then rjust "W_{equ}".toList 16 else []) ++ rjust "Q_{equ}".toList 16 ++ rjust "M_{equ}".toList 16 ++
    rjust "Time (s)".toList 16 ++ rjust "QT Equ Time (s)".toList 16 ++ rjust "HM Equ Time (s)".toList 16 ++
    rjust "Pairs".toList 16 ++ rjust "Disk usage (MB)".toList 16

/-- `collect_results.py:100-109`: the line of one length. -/
def textRow (wts : Bool) (n : Nat) (r : Row) (disk : Rat) : Text :=
  rjust (natText n) 2 ++ (if wts then rjust (intText r.w) 16 else []) ++ rjust (intText r.q) 16 ++ rjust (intText r.m) 16 ++
    rjust (fixed2 r.time) 16 ++ rjust (fixed2 r.qtTime) 16 ++ rjust (fixed2 r.hmTime) 16 ++ rjust (intText r.pairs) 16 ++
    rjust (fixed1 disk) 16

/-- `collect_results.py:111-114`: the headings in LaTeX. -/
def latexHead (wts : Bool) : Text :=
  if wts then "$n$ & $W_{\\text{equ}}$ & $Q_{\\text{equ}}$ & $M_{\\text{equ}}$ & Time (s) & Pairs & Space \\\\".toList
  else "$n$ & $Q_{\\text{equ}}$ & $M_{\\text{equ}}$ & Time (s) & Pairs & Space \\\\".toList

/-- `collect_results.py:117-120`: the line of one length in LaTeX. -/
def latexRow (wts : Bool) (n : Nat) (r : Row) (disk : Rat) : Text :=
  let sep := " & ".toList
  if wts then natText n ++ sep ++ intText r.w ++ sep ++ intText r.q ++ sep ++ intText r.m ++ sep ++ fixed2 r.time ++ sep ++
    intText r.pairs ++ sep ++ fixed1 disk ++ " \\\\".toList
  else natText n ++ sep ++ intText r.q ++ sep ++ intText r.m ++ sep ++ fixed2 r.time ++ sep ++
    intText r.pairs ++ sep ++ fixed1 disk ++ " \\\\".toList

/-- `create_table`, `collect_results.py:84-120`, with its lines. -/
def createTable (latex : Bool) (ty : Text) (rows : List (Nat × Row × Rat)) : Text :=
  let wts : Bool := ty = "wts".toList
  let lines := if latex then latexHead wts :: "\\hline".toList :: rows.map fun r => latexRow wts r.1 r.2.1 r.2.2
    else textHead wts :: rows.map fun r => textRow wts r.1 r.2.1 r.2.2
  lines.flatMap fun l => l ++ ['\n']

/-- `collect_results.py:125-187` without `verbose`: the arguments are two lengths, a type and the kind of table; `logs` are
the log files of the lengths. -/
def collectResults (logs : Nat → Option Text) (s : Store) (first last : Nat) (ty kind : Text) : Text :=
  createTable (kind = "l".toList) ty ((List.range' first (last + 1 - first)).map fun n =>
    (n, collectRow (logs n) s ty (natText n), if (logs n).isSome then diskUsage s ty (natText n) else -1))

end Model
