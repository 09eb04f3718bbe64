/-!
# Model: the cached transform plans of `sequences/fourier.rs`

`R2C_PLAN` and `C2R_PLAN` (`fourier.rs:8-9`) are process-wide `OnceLock<Mutex<_>>` cells. A plan is made for the length of
the first call; applying it to arrays of another length returns an error, which `unwrap` turns into a panic while the
mutex is held, so the mutex is poisoned. Lengths are at least 1.
-/

namespace Model

/-- One plan cell. -/
inductive Cell
  | unset
  | plan (n : Nat)
  | poisoned
  deriving DecidableEq, Repr

/-- One use of a cell at length `n`: does the call return normally, and the new cell. `get_or_init`, `lock().unwrap()`,
`plan.r2c(..).unwrap()` in `fourier.rs:15-23` and `29-38`. -/
def Cell.use (c : Cell) (n : Nat) : Bool × Cell :=
  match c with
  | .unset => (true, .plan n)
  | .plan m => if m = n then (true, .plan m) else (false, .poisoned)
  | .poisoned => (false, .poisoned)

/-- A call of `dft_sequence` on a sequence of length `n`, or of `inverse_dft` with length `n`. -/
inductive Call
  | dft (n : Nat)
  | inverse (n : Nat)
  deriving DecidableEq, Repr

/-- The two static cells. -/
structure Plans where
  r2c : Cell
  c2r : Cell

/-- The cells at process start. -/
def Plans.fresh : Plans := { r2c := .unset, c2r := .unset }

/-- One call. -/
def Plans.step (s : Plans) : Call → Bool × Plans
  | .dft n => ((s.r2c.use n).1, { s with r2c := (s.r2c.use n).2 })
  | .inverse n => ((s.c2r.use n).1, { s with c2r := (s.c2r.use n).2 })

/-- The outcomes of a history of calls (a panic is caught, or happens in another thread). -/
def Plans.run (s : Plans) : List Call → List Bool
  | [] => []
  | c :: cs => (s.step c).1 :: (s.step c).2.run cs

end Model
