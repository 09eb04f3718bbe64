import Verif.Model.Program

/-!
# Specification: interrupted commands
-/

namespace Spec
open Model

/-- The same directory, or the same file with any text. -/
def SameTarget : Write → Write → Prop
  | .mkdir ty n dir, .mkdir ty' n' dir' => ty = ty' ∧ n = n' ∧ dir = dir'
  | .put ty n dir name _, .put ty' n' dir' name' _ => ty = ty' ∧ n = n' ∧ dir = dir' ∧ name = name'
  | .putTop ty n name _, .putTop ty' n' name' _ => ty = ty' ∧ n = n' ∧ name = name'
  | _, _ => False

/-- `t` is what a process that was to do the writes `ops` in `s` may leave when it is killed: some of the first writes have been
done, and each may have left any text (a part of it, or garbage after a crash of the machine). -/
def Killed (s : Store) (ops : List Write) (t : Store) : Prop :=
  ∃ pre pre' post, ops = pre ++ post ∧ List.Forall₂ SameTarget pre pre' ∧ t = applyOps s pre'

end Spec
