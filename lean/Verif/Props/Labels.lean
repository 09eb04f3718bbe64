import Verif.Proofs.Labels

/-!
# Properties: the reduction to representatives above length 31 in a release build (C109)

The symmetry group of `find_unique.rs:189-198` is generated on the labels `1, …, 4n` cast to `i8`
(`equivalence.rs:190-243`). C17 shows that the reduction is right up to length 31, C93 what happens at length 32. Here are the
lengths up to 100, the end of the table of the automorphisms.
-/

set_option linter.unusedVariables false

namespace Props
open Model Spec Proofs Proofs.Check Proofs.Labels

/-- C109. From length 32 to length 63 the reduction looks at the first 128 entries only, counted through the four sequences one
after the other: two quadruples with the same first 128 entries get the same representative, whatever the others are. -/
theorem C109_blind (n : ℕ) (h1 : 32 ≤ n) (h2 : n ≤ 63) (ty : SeqType)
    (hty : ty = .quaternionType ∨ ty = .williamsonType ∨ ty = .williamson) (s t : QuadSeq) (hs : PMQuad n s) (ht : PMQuad n t)
    (h : (flat s).take 128 = (flat t).take 128) : ∃ r, reduceToCanonicalReps [s, t] ty = some [r] := by
  haveI : NeZero n := ⟨by omega⟩
  exact reduce_blind h1 h2 hty hs ht h

example : PMQuad 40 (QuadSeq.new 40) := by decide
example : (flat (QuadSeq.new 40)).take 128 = (flat (flipAt 39 (QuadSeq.new 40))).take 128 ∧
    PMQuad 40 (flipAt 39 (QuadSeq.new 40)) ∧ QuadSeq.new 40 ≠ flipAt 39 (QuadSeq.new 40) := by decide +kernel

/-- C109. So from length 33 to length 63 the reduction loses classes, silently: every quadruple gets the same representative as
some quadruple that is not equivalent to it. (Length 32: `C93_release_merges`.) -/
theorem C109_merges (n : ℕ) (h1 : 33 ≤ n) (h2 : n ≤ 63) (ty : SeqType)
    (hty : ty = .quaternionType ∨ ty = .williamsonType ∨ ty = .williamson) (s : QuadSeq) (hs : PMQuad n s) :
    ∃ t r, PMQuad n t ∧ ¬ (haveI : NeZero n := ⟨by omega⟩; TypeEquiv ty (fam n s) (fam n t)) ∧
      reduceToCanonicalReps [s, t] ty = some [r] := by
  haveI : NeZero n := ⟨by omega⟩
  obtain ⟨t, k1, k2, k3⟩ := exists_apart h1 ty hs
  obtain ⟨r, hr⟩ := reduce_blind (by omega) h2 hty hs k1 k2.symm
  exact ⟨t, r, k1, k3, hr⟩

example : PMQuad 33 (QuadSeq.new 33) := by decide

/-- C109. From length 64 to length 100 the label 256 is stored as 0, which names no entry: the reduction panics on every list of
quadruples, for every sequence type. -/
theorem C109_panics (n : ℕ) (h1 : 64 ≤ n) (h2 : n ≤ 100) (ty : SeqType) (l : List QuadSeq) (hl : ∀ s ∈ l, PMQuad n s) :
    reduceToCanonicalReps l ty = none :=
  reduce_none h1 h2 fun s hs => (hl s hs).size

example : PMQuad 64 (QuadSeq.new 64) := by decide

/-- C109. So the last stage of the search writes no result at these lengths, whatever the pair files hold. -/
theorem C109_join (n : ℕ) (h1 : 64 ≤ n) (h2 : n ≤ 100) (ty : SeqType) (dirs : List (Text × Dir))
    (h : ∀ l, joinAll ty dirs = some l → ∀ s ∈ l, PMQuad n s) : joinPairs ty dirs = none ∧ findWriteQuadSeq n ty dirs = none := by
  haveI : NeZero n := ⟨by omega⟩
  have := join_none h1 h2 ty dirs h
  exact ⟨this, by unfold findWriteQuadSeq; rw [this]; rfl⟩

example : ∀ l, joinAll .quaternionType [] = some l → ∀ s ∈ l, PMQuad 64 s := by
  intro l h s hs; cases h; cases hs

/-- C109. The same for the class computed from the symmetry group: at lengths 64 to 100 no quadruple has one. -/
theorem C109_class (n : ℕ) (h1 : 64 ≤ n) (h2 : n ≤ 100) (ty : SeqType) (s : QuadSeq) (hs : PMQuad n s) (g : List QuadSeq)
    (hg : generateSymmetryGroup n (canonicalOps ty) = some g) : generateEquivalenceClassFast s g = none :=
  fast_none h1 h2 (canonicalOps_sub ty) hg hs.size

/-- The group exists at these lengths: only its use panics. -/
example : ∃ g, generateSymmetryGroup 64 (canonicalOps .quaternionType) = some g :=
  let ⟨g, h, _⟩ := generateEquivalenceClass_i8 (n := 64) (by omega) (canonicalOps_sub .quaternionType) (labelSeq_shaped8 64)
  ⟨g, h⟩

end Props
