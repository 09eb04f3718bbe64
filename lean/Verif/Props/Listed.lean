import Verif.Proofs.Asserted
import Verif.Proofs.Listed
import Verif.Props.FindWrite

/-!
# Property C116: the order in which directories are listed

`fs::read_dir` lists directories in an order that depends on the file system. The join stage works through them in that order and
then reduces all sequences by the symmetry group of the length of the first one.
-/

set_option linter.unusedVariables false
set_option linter.unusedSectionVars false

namespace Props
open Model Spec Proofs

variable {F κ : Type} [DecidableEq κ]

/-- C116. Whatever directories are there, complete or not and of whatever contents: listed in another order they give the same
sequences in another order, or a panic both times; provided the sequences matched have entries ±1 and one length. -/
theorem C116_join (n : ℕ) [NeZero n] (ty : SeqType) (dirs dirs' : List (Text × Dir)) (h : dirs.Perm dirs')
    (hn : ∀ l, joinAll ty dirs = some l → ∀ q ∈ l, PMQuad n q) :
    (joinPairs ty dirs = none ∧ joinPairs ty dirs' = none) ∨
      ∃ r r', joinPairs ty dirs = some r ∧ joinPairs ty dirs' = some r' ∧ r.Perm r' :=
  Listed.join_perm ty h hn

/-- C116. The command `join`: on a file system that lists directories in another order it does the same writes in the same order and
ends in the same way, in the release build and in the debug build; only the lines of the files written may be in another order.
(Williamson-type sequences, which are reduced a second time, are in `C116_program_wts`.) -/
theorem C116_program (n : ℕ) [NeZero n] (env : Env F κ) (hf : Env.Fair env) (ls : List (Text × Dir) → List (Text × Dir))
    (hl : ∀ l, (ls l).Perm l) (s : Store) (tyT nT : Text) (ty : SeqType) (p : ℕ) (h1 : strToSeqtype tyT = some ty)
    (h2 : parseUsize nT = some p) (hty : ty ≠ .williamsonType)
    (hn : ∀ d l, s ty.toText (natText p) = some d → joinAll ty (listedDirs env d) = some l → ∀ q ∈ l, PMQuad n q) :
    List.Forall₂ ShuffledWrite (mainRun env s ["join".toList, tyT, nT]).ops
        (mainRun { env with lsDirs := ls } s ["join".toList, tyT, nT]).ops ∧
      (runProgram env s ["join".toList, tyT, nT]).2 = (runProgram { env with lsDirs := ls } s ["join".toList, tyT, nT]).2 := by
  unfold runProgram
  rw [Command.main_join env s h1 h2, Command.main_join { env with lsDirs := ls } s h1 h2]
  obtain ⟨k1, k2⟩ := Listed.near_join env ls hf.dirs hl s ty hty p hn
  exact ⟨k1, by rw [k2]⟩

/-- C116. The same for Williamson-type sequences of lengths up to 31, for all four files. -/
theorem C116_program_wts (n : ℕ) [NeZero n] (hn31 : n ≤ 31) (env : Env F κ) (hf : Env.Fair env)
    (ls : List (Text × Dir) → List (Text × Dir)) (hl : ∀ l, (ls l).Perm l) (s : Store) (nT : Text) (p : ℕ) (h2 : parseUsize nT = some p)
    (hn : ∀ d l, s "wts".toList (natText p) = some d → joinAll .williamsonType (listedDirs env d) = some l → ∀ q ∈ l, PMQuad n q) :
    List.Forall₂ ShuffledWrite (mainRun env s ["join".toList, "wts".toList, nT]).ops
        (mainRun { env with lsDirs := ls } s ["join".toList, "wts".toList, nT]).ops ∧
      (runProgram env s ["join".toList, "wts".toList, nT]).2 =
        (runProgram { env with lsDirs := ls } s ["join".toList, "wts".toList, nT]).2 := by
  have h1 : strToSeqtype "wts".toList = some .williamsonType := by decide
  unfold runProgram
  rw [Command.main_join env s h1 h2, Command.main_join { env with lsDirs := ls } s h1 h2]
  obtain ⟨k1, k2⟩ := Listed.near_join_wts hn31 env ls hf.dirs hl s p hn
  exact ⟨k1, by rw [k2]⟩

/-- C116. The condition holds for what the pair stage writes, for every type and every length below 64, and for every choice of some
of its directories. -/
theorem C116_pairs {K : Type} (A : Fl K) (val : K → ℝ) (n : ℕ) [NeZero n] (hn : n < 64) {mo : MatchOption} (hN : Numerics A val n mo)
    (ty : SeqType) (hty : Supported ty) (pr : Option Pairing) :
    ∃ w, writePairs A n ty mo pr = some w ∧ ∀ all, Listing w all → ∀ dirs, dirs.Sublist all →
      ∃ l, joinAll ty dirs = some l ∧ ∀ q ∈ l, PMQuad n q := by
  obtain ⟨_, w, _, h1, _, h3⟩ := pipeline_all A val n hN hn ty hty pr
  refine ⟨w, h1, fun all ha dirs hd => ?_⟩
  obtain ⟨r, hr, hq⟩ := h3 all ha
  obtain ⟨l, hl, hs⟩ := Listed.joinAll_sub ty hd hr
  exact ⟨l, hl, fun q h => Proofs.Assert.ofType_pm ((hq q).1 (hs q h)).1⟩

-- Length 5, the exact arithmetic: the directories in the order listed and reversed.
example : ∃ w, writePairs exactFl 5 .quaternionType .correlation none = some w ∧ ∀ dirs, Listing w dirs →
    (joinPairs .quaternionType dirs = none ∧ joinPairs .quaternionType dirs.reverse = none) ∨
      ∃ r r', joinPairs .quaternionType dirs = some r ∧ joinPairs .quaternionType dirs.reverse = some r' ∧ r.Perm r' := by
  obtain ⟨w, h1, h2⟩ := C116_pairs exactFl id 5 (by norm_num) (mo := .correlation) ⟨(C28_exact_accurate 5).2, fun _ => (C28_exact_accurate 5).1, fun h => by cases h⟩ .quaternionType (.inl rfl) none
  refine ⟨w, h1, fun dirs hd => C116_join 5 .quaternionType dirs _ (List.reverse_perm dirs).symm fun l hl => ?_⟩
  obtain ⟨l', e, h⟩ := h2 dirs hd dirs (List.Sublist.refl _)
  rw [hl] at e
  cases e
  exact h

-- The command on the directories of the pair stage, listed in the one order and in the reverse order.
example (env : Env F κ) (hf : Env.Fair env) (s : Store)
    (hs : ∀ d w, s "wts".toList "5".toList = some d → writePairs exactFl 5 .williamsonType .correlation none = some w →
      Listing w (listedDirs env d)) :
    (runProgram env s ["join".toList, "wts".toList, "5".toList]).2 =
      (runProgram { env with lsDirs := List.reverse } s ["join".toList, "wts".toList, "5".toList]).2 := by
  obtain ⟨w, h1, h2⟩ := C116_pairs exactFl id 5 (by norm_num) (mo := .correlation)
    ⟨(C28_exact_accurate 5).2, fun _ => (C28_exact_accurate 5).1, fun h => by cases h⟩ .williamsonType (.inr (.inl rfl)) none
  refine (C116_program_wts 5 (by norm_num) env hf List.reverse List.reverse_perm s _ 5 (by decide +kernel) fun d l hd hl => ?_).2
  rw [show natText 5 = "5".toList by decide] at hd
  obtain ⟨l', e, h⟩ := h2 _ (hs d w hd h1) _ (List.Sublist.refl _)
  rw [hl] at e
  cases e
  exact h

end Props
