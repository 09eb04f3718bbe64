import Verif.Model.Driver
import Verif.Spec.Pipeline

/-!
# Specification: stores, processes and environments
-/

namespace Spec
open Model

/-- The text of a file, by name. -/
def lookup (d : Dir) (name : Text) : Option Text := (d.find? fun f => f.1 = name).map Prod.snd

/-- The same directories with the same files, in any order. -/
def SameDirs (D w : List (Text × Dir)) : Prop :=
  ∃ ds, ds.Perm w ∧ List.Forall₂ (fun a b => a.1 = b.1 ∧ a.2.Perm b.2) D ds

/-- `t` is an interleaving of the sequences `ls`: the events of processes that run at the same time. -/
inductive Interleave {α : Type} : List (List α) → List α → Prop
  | nil (ls : List (List α)) (h : ∀ l ∈ ls, l = []) : Interleave ls []
  | cons (pre post : List (List α)) (x : α) (l t : List α) (h : Interleave (pre ++ l :: post) t) :
    Interleave (pre ++ (x :: l) :: post) (x :: t)

/-- Listing and iteration orders are orders of what is there. -/
structure Env.Fair {F κ : Type} (env : Env F κ) : Prop where
  dirs : ∀ l, (env.lsDirs l).Perm l
  files : ∀ l, (env.lsFiles l).Perm l
  hm : ∀ l, (env.hmOrder l).Perm l
  qs : ∀ l, (env.qsOrder l).Perm l

/-- No directories yet: `find_<n>` is missing or has only plain files. -/
def Fresh (s : Store) (ty n : Text) : Prop := ∀ d, s ty n = some d → d.dirs = []

/-- The plain files of `find_<n>`. -/
def topFiles (s : Store) (ty n : Text) : Dir := ((s ty n).map fun d => d.files).getD []

/-- The directories of `find_<n>`. -/
def subDirs (s : Store) (ty n : Text) : List (Text × Dir) := ((s ty n).map fun d => d.dirs).getD []

/-- The commands of the program. -/
def commands : List Text :=
  ["qhm-all".toList, "amicable".toList, "rowsums".toList, "join".toList, "convert".toList, "pairs".toList,
    "pairs_rowsum".toList, "create".toList, "pair_single".toList]

/-- The arguments (after the program name) are well formed, and they concern the sequences of this type and length. -/
inductive Concerns : List Text → SeqType → ℕ → Prop
  | qhmAll {ty n : Text} {T : SeqType} {p : ℕ} (h1 : strToSeqtype ty = some T) (h2 : parseUsize n = some p) :
    Concerns ["qhm-all".toList, ty, n] T p
  | amicable {n : Text} {p : ℕ} (h2 : parseUsize n = some p) : Concerns ["amicable".toList, n] .quaternionType p
  | rowsums {ty n : Text} {T : SeqType} {p : ℕ} (h1 : strToSeqtype ty = some T) (h2 : parseUsize n = some p) :
    Concerns ["rowsums".toList, ty, n] T p
  | join {ty n : Text} {T : SeqType} {p : ℕ} (h1 : strToSeqtype ty = some T) (h2 : parseUsize n = some p) :
    Concerns ["join".toList, ty, n] T p
  | convert {kind ty n : Text} {T : SeqType} {p : ℕ} (h0 : kind = "hm".toList ∨ kind = "qhm".toList)
    (h1 : strToSeqtype ty = some T) (h2 : parseUsize n = some p) : Concerns ["convert".toList, kind, ty, n] T p
  | pairs {ty n mo pr : Text} {T : SeqType} {p : ℕ} (h1 : strToSeqtype ty = some T) (h2 : parseUsize n = some p)
    (h3 : mo = "correlation".toList ∨ mo = "psd".toList) : Concerns ["pairs".toList, ty, n, mo, pr] T p
  | pairsRowsum {ty n a b c d mo pr : Text} {T : SeqType} {p : ℕ} (h1 : strToSeqtype ty = some T)
    (h2 : parseUsize n = some p) (h3 : mo = "correlation".toList ∨ mo = "psd".toList)
    (h4 : ∀ x ∈ [a, b, c, d], parseIsize x ≠ none) : Concerns ["pairs_rowsum".toList, ty, n, a, b, c, d, mo, pr] T p
  | create {ty n a b c d pr : Text} {rest : List Text} {T : SeqType} {p : ℕ} (h1 : strToSeqtype ty = some T)
    (h2 : parseUsize n = some p) (h4 : ∀ x ∈ [a, b, c, d], parseIsize x ≠ none) :
    Concerns ("create".toList :: ty :: n :: a :: b :: c :: d :: pr :: rest) T p
  | pairSingle {ty n a b c d mo pr k : Text} {T : SeqType} {p : ℕ} (h1 : strToSeqtype ty = some T)
    (h2 : parseUsize n = some p) (h3 : mo = "correlation".toList ∨ mo = "psd".toList)
    (h4 : ∀ x ∈ [a, b, c, d], parseIsize x ≠ none) (h5 : parseU8 k ≠ none) :
    Concerns ["pair_single".toList, ty, n, a, b, c, d, mo, pr, k] T p

/-- The name of a matching option. -/
def matchName : MatchOption → Text
  | .correlation => "correlation".toList
  | .psd => "psd".toList

/-- The arguments for one row sum. -/
def rowsumArgs (ty : SeqType) (n : ℕ) (rs : Quad) (mo : MatchOption) (pr : Text) : List Text :=
  ["pairs_rowsum".toList, ty.toText, natText n, intText rs.1, intText rs.2.1, intText rs.2.2.1, intText rs.2.2.2,
    matchName mo, pr]

/-- The arguments for one half of a row sum. -/
def singleArgs (ty : SeqType) (n : ℕ) (rs : Quad) (mo : MatchOption) (pr : Text) (k : Text) : List Text :=
  ["pair_single".toList, ty.toText, natText n, intText rs.1, intText rs.2.1, intText rs.2.2.1, intText rs.2.2.2,
    matchName mo, pr, k]

/-! ## The driver -/

/-- The argument of a flag `-p`. -/
def pairingArg : Flag → Option Text
  | .p arg => some arg
  | _ => none

/-- The pairing in effect: the last `-p`, or the default. -/
def flagPairing (flags : List Flag) : Text := ((flags.filterMap pairingArg).getLast?).getD "WZ".toList

/-- A text that is not empty and has no blanks. -/
def IsWord (t : Text) : Prop := t ≠ [] ∧ ∀ c ∈ t, c ≠ ' ' ∧ c ≠ '\t' ∧ c ≠ '\n'

/-- The driver is allowed to start: the only directories are those of an earlier run, there are none without the
flag `-d`, and the pairing is one word. -/
structure Ready (s : Store) (ty n : Text) (flags : List Flag) : Prop where
  dirs : ∀ e ∈ subDirs s ty n, .d ∈ flags ∧ "rowsum_".toList <+: e.1
  pairing : IsWord (flagPairing flags)

end Spec
