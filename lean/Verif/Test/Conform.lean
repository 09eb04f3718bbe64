import Verif.Model.Log

/-!
# Test: the model is run with the machine's double-precision numbers

Not imported by the library. `lake env lean --run Verif/Test/Conform.lean wts 5` runs the model of `driver.sh` on an empty
store and prints `result.log` and the result files, to be compared with `/repo/wts-results` (`tools/conform.py`). The transforms are
plain sums, the canonical labelling is not computed.
-/

open Model

namespace Test

def toInt (x : Float) : Int := if x < 0 then - ((-x).toUInt64.toNat : Int) else (x.toUInt64.toNat : Int)

def root (n k : Nat) : Float × Float :=
  let a := 2 * 3.141592653589793 * k.toFloat / n.toFloat
  (a.cos, a.sin)

def floatFl : Fl Float where
  ofInt := Float.ofInt
  lit a b := Float.ofInt a / b.toFloat
  add := (· + ·)
  sub := (· - ·)
  mul := (· * ·)
  div := (· / ·)
  neg x := - x
  abs := Float.abs
  fract x := x - Float.ofInt (toInt x)
  gt x y := x > y
  round x := toInt x.round
  r2c x :=
    let n := x.length
    (List.range (n / 2 + 1)).map fun k =>
      (x.zipIdx).foldl (fun s (v, j) => let w := root n (j * k % n); (s.1 + v * w.1, s.2 - v * w.2)) (0, 0)
  c2r n X :=
    (List.range n).map fun j =>
      (X.zipIdx).foldl (fun s (v, k) =>
        let w := root n (j * k % n)
        let t := v.1 * w.1 - v.2 * w.2
        if k = 0 ∨ 2 * k = n then s + t else s + 2 * t) 0

def env : Env Float Unit where
  A := floatFl
  canon _ := ()
  hmOrder := id
  qsOrder := id
  lsDirs := id
  lsFiles := id
  debug := true

def tm : Terminal where
  seqsTime _ := 0
  pairsTime _ := 0
  totalTime := 0
  matchTime := 0
  reduceTime := 0
  reduceQtTime := 0
  sortTime := 0
  hmTime := 0
  qhmTime := 0
  wholeTime := 0
  joinSeconds := 0
  pairsSeconds := 0
  psdGap _ _ := none
  cpsdGap _ _ := none
  panicText := []

end Test

open Test in
def main (args : List String) : IO Unit := do
  let ty := (args.getD 0 "wts").toList
  let n := (args.getD 1 "3").toList
  let flags : List Model.Flag := if args.length > 2 then [.c, .h] else [.h]
  let empty : Store := fun _ _ => none
  let r := driverSh env ty n flags empty
  IO.println s!"==status {r.2}"
  IO.println "==result.log"
  IO.print (String.ofList ((driverLog env tm ty n flags empty none).getD []))
  for name in ["result.seq", "result-qts.seq", "result.qseq", "result-qts.qseq", "result.qhm", "result.mat"] do
    IO.println s!"=={name}"
    IO.print (String.ofList ((readTop r.1 ty n name.toList).getD []))
