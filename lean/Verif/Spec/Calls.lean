import Verif.Model.Calls

/-!
# Specification: what the calls of a command hand to the system
-/

namespace Spec
open Model

/-- The blocks handed to `write`, in order. -/
def blocks : List SysCall → List Text
  | [] => []
  | .write _ b :: cs => b :: blocks cs
  | _ :: cs => blocks cs

/-- Every block that is not empty is begun before `r` bytes are written. -/
def BegunBefore (r : ℕ) (bs : List Text) : Prop := ∀ pre b post, bs = pre ++ b :: post → b ≠ [] → pre.flatten.length < r

end Spec
