import Verif.Spec.Driver

/-!
# Specification: processes that run at the same time, are killed and are started again

A state has the store, the earlier stores and, for every running process of the program, the writes it has still to
perform. A process may be started at any time with any arguments; it may have read every file at a different time. A
process may be killed between any two writes. A file that is written line by line may be seen (or left behind) with only
some of its lines. Anything may be deleted at any time, and files in the row-sum directories other than the lists of
sequences may get any contents, at any time (the pair files and the sorted files, in particular). The folder of a type
and a length may be created.
-/

namespace Spec
open Model

/-- The state of the system. -/
structure Sys where
  now : Store
  past : List Store
  procs : List (List Write)

/-- The text consists of complete lines. -/
def WholeLines (t : Text) : Prop := t = [] ∨ t.getLast? = some '\n'

/-- The write `o'` is the write `o` stopped after some lines. -/
inductive Stopped : Write → Write → Prop
  | put (T N dir name : Text) {t t' : Text} (h : t' <+: t) (hl : WholeLines t') :
    Stopped (.put T N dir name t) (.put T N dir name t')
  | putTop (T N name : Text) {t t' : Text} (h : t' <+: t) (hl : WholeLines t') :
    Stopped (.putTop T N name t) (.putTop T N name t')

/-- Every file of `v` existed with this text, at its place, in one of the stores. -/
def Mixed (stores : List Store) (v : Store) : Prop :=
  ∀ T N d, v T N = some d →
    (∀ f ∈ d.files, ∃ s ∈ stores, f ∈ topFiles s T N) ∧
    ∀ e ∈ d.dirs, ∀ f ∈ e.2, ∃ s ∈ stores, ∃ e' ∈ subDirs s T N, e'.1 = e.1 ∧ f ∈ e'.2

/-- `v'` is the store `v` after some deletions. -/
def Deleted (v v' : Store) : Prop :=
  ∀ T N, v' T N = none ∨ ∃ d d', v T N = some d ∧ v' T N = some d' ∧ d'.files.Sublist d.files ∧
    ∃ ds, ds.Sublist d.dirs ∧ List.Forall₂ (fun a b => a.1 = b.1 ∧ a.2.Sublist b.2) d'.dirs ds

/-- The name of a list of sequences. -/
def IsSeqFile (name : Text) : Prop := ∃ t, name = seqFileName t

/-- `v'` differs from `v` only in files of the row-sum directories that are not lists of sequences, or in deleted lists. -/
def Tampered (v v' : Store) : Prop :=
  ∀ T N, (v T N = none ∧ v' T N = none) ∨ ∃ d d', v T N = some d ∧ v' T N = some d' ∧ d'.files = d.files ∧
    List.Forall₂ (fun a b => b.1 = a.1 ∧ ∀ f ∈ b.2, IsSeqFile f.1 → f ∈ a.2) d.dirs d'.dirs

/-- One step. -/
inductive Step {F κ : Type} [DecidableEq κ] (E : Env F κ → Prop) : Sys → Sys → Prop
  /-- the program is started -/
  | start (s : Sys) (env : Env F κ) (h : E env) (v : Store) (hv : Mixed (s.now :: s.past) v) (args : List Text) :
    Step E s { s with procs := (mainRun env v args).ops :: s.procs }
  /-- a process performs its next write -/
  | write (now : Store) (past : List Store) (pre post : List (List Write)) (o : Write) (l : List Write) :
    Step E ⟨now, past, pre ++ (o :: l) :: post⟩ ⟨o.apply now, now :: past, pre ++ l :: post⟩
  /-- a process has written some lines of a file -/
  | lines (now : Store) (past : List Store) (pre post : List (List Write)) (o o' : Write) (l : List Write)
    (h : Stopped o o') :
    Step E ⟨now, past, pre ++ (o :: l) :: post⟩ ⟨o'.apply now, now :: past, pre ++ (o :: l) :: post⟩
  /-- a process is killed -/
  | kill (now : Store) (past : List Store) (pre post : List (List Write)) (l : List Write) :
    Step E ⟨now, past, pre ++ l :: post⟩ ⟨now, past, pre ++ post⟩
  /-- files of the row-sum directories that are not lists of sequences are written -/
  | other (s : Sys) (v : Store) (h : Tampered s.now v) : Step E s { s with now := v, past := s.now :: s.past }
  /-- the folder of a type and a length is created -/
  | folder (s : Sys) (T N : Text) : Step E s { s with now := mkdirFind s.now T N, past := s.now :: s.past }
  /-- files and directories are deleted -/
  | delete (s : Sys) (v : Store) (h : Deleted s.now v) : Step E s { s with now := v, past := s.now :: s.past }

/-- The states that can be reached when nothing is running at the beginning. -/
inductive Reachable {F κ : Type} [DecidableEq κ] (E : Env F κ → Prop) (s : Store) : Sys → Prop
  | init : Reachable E s ⟨s, [], []⟩
  | step {a b : Sys} (h : Reachable E s a) (h' : Step E a b) : Reachable E s b

/-- The file, if it is there, has one line for every quadruple of a list without repetitions all of whose members have
the property. -/
def SeqsSound (s : Store) (T N name : Text) (Q : QuadSeq → Prop) : Prop :=
  readTop s T N name ≠ none → ∃ r, r.Nodup ∧ (∀ q ∈ r, Q q) ∧ SeqsStored s T N name r

/-- `result.mat`, if it is there, has Hadamard matrices no two of which are equivalent, each of a quadruple with the
property. -/
def MatsSound (s : Store) (T N : Text) (Q : QuadSeq → Prop) : Prop :=
  readTop s T N "result.mat".toList ≠ none →
    ∃ out ts, readTop s T N "result.mat".toList = some (unlines ts) ∧
      List.Forall₂ (fun (m : HM) t => m.toStringMagma = some t) out ts ∧
      (∀ m ∈ out, HMHadamard m ∧ ∃ q, Q q ∧ HM.fromWilliamson q .quaternionType = some m) ∧
      out.Pairwise (fun x y => ¬ HMEquiv x y)

end Spec
