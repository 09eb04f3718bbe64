import Verif.Model.FindWrite

/-!
# Model: representatives of row-sum quadruples, `sequences/rowsum.rs:186-276`

The function is not called by the current pipeline (its caller is commented out, `rowsum.rs:156-181`).
-/

namespace Model

/-- The reads of `swap`, `rowsum.rs:188-201`; `none` is the panic. -/
def quadGet (q : Quad) : Nat → Option Int
  | 0 => some q.1
  | 1 => some q.2.1
  | 2 => some q.2.2.1
  | 3 => some q.2.2.2
  | _ => none

/-- The writes of `swap`, `rowsum.rs:202-215`; `none` is the panic. -/
def quadSet (q : Quad) : Nat → Int → Option Quad
  | 0, v => some (v, q.2.1, q.2.2.1, q.2.2.2)
  | 1, v => some (q.1, v, q.2.2.1, q.2.2.2)
  | 2, v => some (q.1, q.2.1, v, q.2.2.2)
  | 3, v => some (q.1, q.2.1, q.2.2.1, v)
  | _, _ => none

/-- `swap`, `rowsum.rs:186-217`. -/
def quadSwap (q : Quad) (i1 i2 : Nat) : Option Quad :=
  (quadGet q i1).bind fun val1 => (quadGet q i2).bind fun val2 => (quadSet q i1 val2).bind fun q => quadSet q i2 val1

/-- `better_than`, `rowsum.rs:219-235`. -/
def betterThan (q1 q2 : Quad) : Bool :=
  if q1.1 < q2.1 then true
  else if q1.1 > q2.1 then false
  else if q1.2.1 < q2.2.1 then true
  else if q1.2.1 > q2.2.1 then false
  else if q1.2.2.1 < q2.2.2.1 then true
  else if q1.2.2.1 > q2.2.2.1 then false
  else if q1.2.2.2 < q2.2.2.2 then true
  else false

/-- The inner loop of `equivalent`, `rowsum.rs:247-252`. -/
def minIndex (tab : List Int) (i : Nat) : Nat :=
  (List.range' (i + 1) (4 - (i + 1))).foldl (fun minInd j => if at0 tab j < at0 tab minInd then j else minInd) i

/-- The sorting branch of `equivalent`, `rowsum.rs:243-262`. -/
def sortIncreasing (q : Quad) : List Int :=
  (List.range 3).foldl (fun tab i =>
    let minInd := minIndex tab i
    if minInd ≠ i then swapAt tab i minInd else tab) [q.1, q.2.1, q.2.2.1, q.2.2.2]

/-- The swap pairs of `equivalent`, `rowsum.rs:266`. -/
def evenSwaps : List (Nat × Nat × Nat × Nat) :=
  [(0, 1, 0, 1), (0, 1, 0, 2), (0, 1, 0, 3), (0, 1, 1, 2), (0, 1, 1, 3), (0, 1, 2, 3), (0, 2, 0, 3), (0, 2, 1, 3),
    (0, 2, 2, 3), (0, 3, 1, 2), (1, 2, 2, 3), (1, 3, 3, 2)]

/-- The loop over even permutations of `equivalent`, `rowsum.rs:266-271`. -/
def leastEven (q : Quad) : Option Quad :=
  evenSwaps.foldlM (fun final sw =>
    (quadSwap q sw.1 sw.2.1).bind fun t => (quadSwap t sw.2.2.1 sw.2.2.2).map fun t =>
      if betterThan t final then t else final) q

/-- `equivalent`, `rowsum.rs:237-275`. -/
def quadEquivalent (q : Quad) (ty : SeqType) : Option Quad :=
  if ty ≠ .quaternionType ∨ quadContainsZero q ∨ quadContainsDup q then
    let v := sortIncreasing q
    some (at0 v 0, at0 v 1, at0 v 2, at0 v 3)
  else leastEven q

end Model
