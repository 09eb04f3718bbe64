import Verif.Model.FindWrite

/-!
# Model: `sequences/equations.rs` and `find/find_with_rowsum.rs`

The generated pseudo-Boolean equations. The code assembles the text of each equation directly; here an equation is the
list of its terms and its right side, and `Equation.text` prints it in the same format: a term is followed by a space, a
positive coefficient is preceded by `+` except in the first term. Entries are ±1, so the `i8` differences do not
overflow.
-/

namespace Model

/-- An equation `Σ coefficient * product of variables = rhs`; the variable `x7` is the number 7. -/
structure Equation where
  terms : List (Int × List Nat)
  rhs : Int
  deriving DecidableEq, Repr

/-- The text of a term, `equations.rs:161-175`, `234-239`, `299-330`. -/
def termText (first : Bool) (t : Int × List Nat) : Text :=
  (if t.1 > 0 && !first then ['+'] else []) ++ intText t.1 ++ (t.2.flatMap fun v => ' ' :: 'x' :: natText v) ++ [' ']

/-- The text of an equation, `equations.rs:180`, `244`, `360`. -/
def Equation.text (e : Equation) : Text :=
  (match e.terms with
    | [] => []
    | t :: ts => termText true t ++ ts.flatMap (termText false)) ++ ['=', ' '] ++ intText e.rhs ++ [';', '\n']

/-- `OpType`, `equations.rs:5-7`. -/
inductive OpType
  | leftPlus | leftMinus | rightPlus | rightMinus
  deriving DecidableEq, Repr

/-- `AddType`, `equations.rs:9-11`. -/
inductive AddType
  | plus | minus
  deriving DecidableEq, Repr

/-- `op_left_plus`, `op_right_plus`, `op_left_minus`, `op_right_minus`, `equations.rs:84-97`. -/
def opCoefficient (op : OpType) (seq : List Int) (k t n : Nat) : Int :=
  match op with
  | .leftPlus => at0 seq ((k + n - t) % n) + at0 seq ((k + t) % n)
  | .rightPlus => at0 seq ((k + t) % n) + at0 seq ((k + n - t) % n)
  | .leftMinus => at0 seq ((k + n - t) % n) - at0 seq ((k + t) % n)
  | .rightMinus => at0 seq ((k + t) % n) - at0 seq ((k + n - t) % n)

/-- `generate_equation_from`, `equations.rs:151-185`: no equation if all coefficients are zero. -/
def linearEquation (coefficients : List Int) (rhs : Int) : List Equation :=
  let terms := ((coefficients.zipIdx 1).filter fun (c : Int × Nat) => c.1 ≠ 0).map fun (c : Int × Nat) => (c.1, [c.2])
  if terms = [] then [] else [{ terms := terms, rhs := rhs }]

/-- The coefficients `values` of `equations_crosscorrelation` at one shift, `equations.rs:131-137`. -/
def crossCoefficients (seq1 : List Int) (op1 : OpType) (seq2 : List Int) (op2 : OpType) (add : AddType) (t : Nat) : List Int :=
  let n := seq1.length
  (List.range n).map (fun k => opCoefficient op1 seq1 k t n) ++
    (List.range n).map (fun k => match add with
      | .plus => opCoefficient op2 seq2 k t n
      | .minus => -opCoefficient op2 seq2 k t n)

/-- `equations_crosscorrelation`, `equations.rs:101-148`. -/
def equationsCrosscorrelation (seq1 : List Int) (op1 : OpType) (seq2 : List Int) (op2 : OpType) (add : AddType) :
    List Equation :=
  (List.range seq1.length).flatMap fun t =>
    let values := crossCoefficients seq1 op1 seq2 op2 add t
    linearEquation values (values.map fun v => Int.tdiv v 2).sum

/-- `equations_rowsum`, `equations.rs:190-203`. -/
def equationsRowsum (n : Nat) (rs1 rs2 : Int) : List Equation :=
  linearEquation (List.replicate n 2 ++ List.replicate n 0) (rs1 + n) ++
    linearEquation (List.replicate n 0 ++ List.replicate n 2) (rs2 + n)

/-- `generate_equation_autocorrelation`, `equations.rs:224-247`. -/
def autocorrelationEquation (size offset : Nat) (rhs : Int) : Equation :=
  { terms := (List.range' 1 size).flatMap fun index =>
      let io := (index + offset) % size
      [(4, [index, io]), (-2, [index]), (-2, [io]), (4, [index + size, io + size]), (-2, [index + size]),
        (-2, [io + size])]
    rhs := rhs - 2 * size }

/-- `equations_autocorrelation`, `equations.rs:211-222`. -/
def equationsAutocorrelation (seq1 seq2 : List Int) : List Equation :=
  (List.range' 1 (seq1.length - 1)).map fun offset =>
    autocorrelationEquation seq1.length offset
      (-(periodicAutocorrelation seq1 offset + periodicAutocorrelation seq2 offset))

/-- `op_minus`, `equations.rs:256-258`. -/
def opMinus (seqa seqb : List Int) (offset : Nat) : Int :=
  crossCorrelation seqa seqb offset - crossCorrelation seqa seqb offset

/-- `op_plus`, `equations.rs:260-262`. -/
def opPlus (seqa seqb : List Int) (offset : Nat) : Int :=
  crossCorrelation seqa seqb offset + crossCorrelation seqa seqb offset

/-- `generator_left_minus`, `generator_right_minus`, `generator_plus`, `equations.rs:295-332`. -/
def generator (op : OpType) (index offset size : Nat) : List (Int × List Nat) :=
  let io := (index + offset) % size
  match op with
  | .leftMinus => [(4, [index, io + size]), (-2, [index]), (-2, [io + size]), (-4, [index + size, io]),
      (2, [index + size]), (2, [io])]
  | .rightMinus => [(4, [index + size, io]), (-2, [index + size]), (-2, [io]), (-4, [index, io + size]), (2, [index]),
      (2, [io + size])]
  | _ => [(4, [index, io + size]), (-2, [index]), (-2, [io + size]), (4, [index + size, io]), (-2, [index + size]),
      (-2, [io])]

/-- `equations_nonlinear_crosscorrelation` and `generate_equation_non_linear_crosscorrelation`,
`equations.rs:266-290` and `338-363`. -/
def equationsNonlinear (seq1 seq2 : List Int) (op1 op2 : OpType) (add : AddType) : List Equation :=
  (List.range' 1 (seq1.length - 1)).map fun offset =>
    let o := match op1 with
      | .leftPlus | .rightPlus => opPlus seq1 seq2 offset
      | .leftMinus => opMinus seq1 seq2 offset
      | .rightMinus => opMinus seq2 seq1 offset
    let r := match add with
      | .plus => -o
      | .minus => -(-o)
    { terms := (List.range' 1 seq1.length).flatMap fun index => generator op2 index offset seq1.length
      rhs := -r }

/-- `additional_comment`, `equations.rs:368-370`. -/
def additionalComment (tag1 tag2 : Tag) : Text :=
  "\n* x1 ... xn is ".toList ++ [tag1.toChar] ++ ", xn+1 ... x2n is ".toList ++ [tag2.toChar] ++ ['\n']

/-- `equations_williamson_type`, `equations.rs:26-79`: the tags of the unknown sequences and the equations. `none` is the
panic on other tags. -/
def equationsWilliamsonType (seq1 : List Int) (tag1 : Tag) (seq2 : List Int) (tag2 : Tag) (rowsum : Quad) :
    Option ((Tag × Tag) × List Equation) :=
  let main : Option ((Tag × Tag) × List Equation) := match tag1, tag2 with
    | .W, .X => some ((.Z, .Y),
        equationsCrosscorrelation seq1 .rightMinus seq2 .leftMinus .plus ++
        equationsCrosscorrelation seq2 .rightMinus seq1 .rightMinus .plus ++
        equationsNonlinear seq1 seq2 .leftMinus .leftMinus .plus ++
        equationsRowsum seq1.length rowsum.2.2.2 rowsum.2.2.1)
    | .W, .Y => some ((.Z, .X),
        equationsCrosscorrelation seq1 .rightMinus seq2 .rightMinus .plus ++
        equationsCrosscorrelation seq2 .rightMinus seq1 .leftMinus .plus ++
        equationsNonlinear seq1 seq2 .rightMinus .leftMinus .plus ++
        equationsRowsum seq1.length rowsum.2.2.2 rowsum.2.1)
    | .W, .Z => some ((.X, .Y),
        equationsCrosscorrelation seq2 .leftMinus seq1 .rightMinus .plus ++
        equationsCrosscorrelation seq1 .leftMinus seq2 .leftMinus .plus ++
        equationsNonlinear seq1 seq2 .rightMinus .leftMinus .plus ++
        equationsRowsum seq1.length rowsum.2.1 rowsum.2.2.1)
    | .X, .Y => some ((.Z, .W),
        equationsCrosscorrelation seq1 .rightMinus seq2 .leftMinus .plus ++
        equationsCrosscorrelation seq2 .rightMinus seq1 .rightMinus .plus ++
        equationsNonlinear seq1 seq2 .leftMinus .leftMinus .plus ++
        equationsRowsum seq1.length rowsum.2.2.2 rowsum.1)
    | .X, .Z => some ((.W, .Y),
        equationsCrosscorrelation seq2 .leftMinus seq1 .leftMinus .plus ++
        equationsCrosscorrelation seq1 .rightMinus seq2 .leftMinus .plus ++
        equationsNonlinear seq1 seq2 .rightMinus .rightMinus .plus ++
        equationsRowsum seq1.length rowsum.1 rowsum.2.2.1)
    | .Y, .Z => some ((.W, .X),
        equationsCrosscorrelation seq2 .leftMinus seq1 .rightMinus .plus ++
        equationsCrosscorrelation seq1 .leftMinus seq2 .leftMinus .plus ++
        equationsNonlinear seq1 seq2 .rightMinus .leftMinus .plus ++
        equationsRowsum seq1.length rowsum.1 rowsum.2.1)
    | _, _ => none
  main.map fun r => (r.1, r.2 ++ equationsAutocorrelation seq1 seq2)

/-- `generate_equations`, `equations.rs:14-23`. `none` is a panic: only quaternion-type sequences are supported. -/
def generateEquations (seq1 : List Int) (tag1 : Tag) (seq2 : List Int) (tag2 : Tag) (ty : SeqType) (rowsum : Quad) :
    Option Text :=
  match ty with
  | .quaternionType => (equationsWilliamsonType seq1 tag1 seq2 tag2 rowsum).map fun r =>
      additionalComment r.1.1 r.1.2 ++ r.2.flatMap Equation.text
  | _ => none

/-! ## `find_with_rowsum.rs` -/

/-- `get_two_best`, `find_with_rowsum.rs:8-27`; `isize::MIN` is the starting value of the second maximum. -/
def getTwoBest (quad : Quad) : (Int × Nat) × (Int × Nat) :=
  let upd (c : Bool) (new old : Int × Nat) : Int × Nat := if c then new else old
  let m : Int × Nat := (quad.1, 0)
  let m := upd (quad.2.1 > m.1) (quad.2.1, 1) m
  let m := upd (quad.2.2.1 > m.1) (quad.2.2.1, 2) m
  let m := upd (quad.2.2.2 > m.1) (quad.2.2.2, 3) m
  let m2 : Int × Nat := (-9223372036854775808, 4)
  let m2 := upd (quad.1 ≥ m2.1 && m.2 != 0) (quad.1, 0) m2
  let m2 := upd (quad.2.1 ≥ m2.1 && m.2 != 1) (quad.2.1, 1) m2
  let m2 := upd (quad.2.2.1 ≥ m2.1 && m.2 != 2) (quad.2.2.1, 2) m2
  let m2 := upd (quad.2.2.2 ≥ m2.1 && m.2 != 3) (quad.2.2.2, 3) m2
  if m.2 < m2.2 then (m, m2) else (m2, m)

end Model
