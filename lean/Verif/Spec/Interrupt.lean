import Verif.Model.Driver
import Verif.Spec.Rerun

/-!
# Specification: a driver that is killed
-/

namespace Spec
open Model

/-- `t` is what the stages of `driver.sh` may leave when the script is killed with the command it is waiting for: the commands
before have ended, and the command in progress was killed at any of its writes. A killed `sortpairs.sh` leaves the directories
with any files. `s` is the store when the first stage begins. -/
inductive Interrupted {F κ : Type} [DecidableEq κ] (env : Env F κ) (ty n : Text) (o : Options) (s : Store) : Store → Prop
  | pairs {t : Store} :
    Killed s (mainRun env s (["pairs".toList, ty, n, o.matchOption] ++ shellWords o.pairing)).ops t → Interrupted env ty n o s t
  | sort {t s1 : Store} : s1 = (runProgram env s (["pairs".toList, ty, n, o.matchOption] ++ shellWords o.pairing)).1 →
    (∀ a b, (a, b) ≠ (ty, n) → t a b = s1 a b) → (t ty n).map FindDir.files = (s1 ty n).map FindDir.files →
    (t ty n).map (fun d => d.dirs.map Prod.fst) = (s1 ty n).map (fun d => d.dirs.map Prod.fst) → Interrupted env ty n o s t
  | join {t s1 s2 : Store} : s1 = (runProgram env s (["pairs".toList, ty, n, o.matchOption] ++ shellWords o.pairing)).1 →
    s2 = (sortPairsSh s1 ty n).1 → Killed s2 (mainRun env s2 ["join".toList, ty, n]).ops t → Interrupted env ty n o s t
  | hm {t s1 s2 s3 : Store} : s1 = (runProgram env s (["pairs".toList, ty, n, o.matchOption] ++ shellWords o.pairing)).1 →
    s2 = (sortPairsSh s1 ty n).1 → s3 = (runProgram env s2 ["join".toList, ty, n]).1 → o.hadamard = true →
    Killed s3 (mainRun env s3 ["convert".toList, "hm".toList, ty, n]).ops t → Interrupted env ty n o s t
  | qhm {t s1 s2 s3 s4 : Store} : s1 = (runProgram env s (["pairs".toList, ty, n, o.matchOption] ++ shellWords o.pairing)).1 →
    s2 = (sortPairsSh s1 ty n).1 → s3 = (runProgram env s2 ["join".toList, ty, n]).1 →
    s4 = (if o.hadamard = true then (runProgram env s3 ["convert".toList, "hm".toList, ty, n]).1 else s3) →
    Killed s4 (mainRun env s4 ["convert".toList, "qhm".toList, ty, n]).ops t → Interrupted env ty n o s t

/-- One attempt to run `driver.sh` with some flags, killed in one of its stages. -/
def Attempt {F κ : Type} [DecidableEq κ] (env : Env F κ) (ty n : Text) (flags : List Flag) (s t : Store) : Prop :=
  Interrupted env ty n (flags.foldl (driverFlag ty n) (.default, s)).1
    (mkdirFind (flags.foldl (driverFlag ty n) (.default, s)).2 ty n) t

end Spec
