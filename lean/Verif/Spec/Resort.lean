import Verif.Model.Driver

/-!
# Specification: a sorting script that is killed
-/

namespace Spec
open Model

/-- The files of a directory to be sorted. -/
def pairFiles (d : Dir) : Dir := d.filter fun f => ".pair".toList.isSuffixOf f.1

/-- One file sorted, and the unsorted one removed. -/
def sortedOne (d : Dir) (f : Text × Text) : Dir :=
  (putFile d (f.1 ++ ".sorted".toList) (sortText f.2)).filter fun g => g.1 ≠ f.1

/-- `x` is what a killed `sortpairs.sh` may leave of a directory it was working on: the first files have been sorted, and one more,
which is still there, has been begun or not, with any text in the sorted file. -/
def PartSorted (d x : Dir) : Prop :=
  ∃ pre f post, pairFiles d = pre ++ f :: post ∧
    (x = pre.foldl sortedOne d ∨ ∃ g, x = putFile (pre.foldl sortedOne d) (f.1 ++ ".sorted".toList) g)

/-- `t` is what a killed `sortpairs.sh` may leave of `s`: some directories are finished, it was working on one, and the others are
untouched. -/
def SortKilled (ty n : Text) (finished : List (Text × Dir)) (s t : Store) : Prop :=
  (∀ a b, (a, b) ≠ (ty, n) → t a b = s a b) ∧
    ∃ files name d rest x, s ty n = some ⟨files, finished ++ (name, d) :: rest⟩ ∧ PartSorted d x ∧
      t ty n = some ⟨files, finished.map (fun e => (e.1, (pairFiles e.2).foldl sortedOne e.2)) ++ (name, x) :: rest⟩

end Spec
