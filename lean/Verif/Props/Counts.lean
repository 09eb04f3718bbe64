import Verif.Proofs.Counts
import Verif.Proofs.Word

/-!
# Property C99: the numbers reported by the search functions of `main.rs`
-/

namespace Props
open Model Spec Proofs Proofs.Counts
open scoped Quaternion

/-! ## Sixteen times the number is the number of all sequences -/

/-- C99. The Williamson search ends normally, prints one line for every sequence counted, and the number of all Williamson
sequences of the length is 16 times the number reported. -/
theorem C99_williamson (n : ℕ) [NeZero n] :
    ∃ o, findWilliamsonOfSize n = some o ∧ o.1.length = o.2 ∧ Nat.card {s // IsWS n s} = 16 * o.2 := by
  obtain ⟨L, h1, h2, ps, h3, h4⟩ := C48_williamson n fun w => w.isSymmetric && w.isPeriodicComplementary
  refine ⟨_, h4, mapM_len h3, card_ws h1 fun s => ?_⟩
  rw [h2]
  constructor
  · rintro ⟨k1, k2, k3⟩
    rw [Bool.and_eq_true] at k3
    refine ⟨(C08_verify_ws n s k1.1).1 ?_, k2⟩
    change s.verifyWs = true
    unfold QuadSeq.verifyWs
    rw [k3.1, k3.2]; rfl
  · rintro ⟨k1, k2⟩
    have k3 : s.verify .williamson = true := (C08_verify_ws n s k1.1).2 k1
    refine ⟨(C08_verify_qts n s k1.1).1 (C05_ws_is_wts n s k1.1 k3).2, k2, ?_⟩
    change s.verifyWs = true at k3
    unfold QuadSeq.verifyWs at k3
    rw [Bool.and_eq_true] at k3
    rw [k3.1, k3.2]; rfl

/-- C99. The same for Williamson-type sequences. -/
theorem C99_williamson_type (n : ℕ) [NeZero n] :
    ∃ o, findWilliamsonTypeOfSize n = some o ∧ o.1.length = o.2 ∧ Nat.card {s // IsWTS n s} = 16 * o.2 := by
  obtain ⟨L, h1, h2, ps, h3, h4⟩ := C48_williamson n fun w => w.isAmicable && w.isPeriodicComplementary
  refine ⟨_, h4, mapM_len h3, card_wts h1 fun s => ?_⟩
  rw [h2, C04_isQTS_iff_isWTS]
  constructor
  · exact fun h => ⟨h.1, h.2.1⟩
  · rintro ⟨k1, k2⟩
    have k3 : s.verify .williamsonType = true := (C08_verify_wts n s k1.1).2 k1
    change s.verifyWts = true at k3
    unfold QuadSeq.verifyWts at k3
    rw [Bool.and_eq_true] at k3
    exact ⟨k1, k2, by rw [k3.1, k3.2]; rfl⟩

/-- C99. The search for perfect sequences without symmetry: whatever the schedule, it reports a sixteenth of the number of
perfect sequences over the 16 letters of the README. -/
theorem C99_perfect (n : ℕ) [NeZero n] :
    (∃ r, findPqsOfType n none r) ∧ ∀ r, findPqsOfType n none r → ∃ o, r = some o ∧ o.1.length = o.2 ∧
      Nat.card {x : ZMod n → ℍ[ℚ] // PerfectWord x} = 16 * o.2 := by
  obtain ⟨⟨o, ho⟩, hall⟩ := C48_parallel n
  refine ⟨⟨some o, o, ho, rfl⟩, ?_⟩
  rintro r ⟨o, ho, rfl⟩
  obtain ⟨L, h1, h2, h3, ps, h4, h5⟩ := hall o ho
  refine ⟨o, rfl, by rw [h5.length_eq, mapM_len h4, h3], ?_⟩
  obtain ⟨L', k1, k2, ps', k3, k4⟩ := C48_williamson n fun _ => true
  rw [h3, ← perm_over h1 h2, card_words]
  have hw : ∀ s, s ∈ L' ↔ IsWTS n s ∧ s.values 0 = (-1, -1, -1, -1) := fun s => by
    rw [k2, C04_isQTS_iff_isWTS]; exact ⟨fun h => ⟨h.1, h.2.1⟩, fun h => ⟨h.1, h.2, rfl⟩⟩
  have e1 : Nat.card {s // IsQTS n s} = Nat.card {s // IsWTS n s} := by simp only [C04_isQTS_iff_isWTS]
  have e2 : Nat.card {s // IsQTS n s ∧ s.values 0 = (-1, -1, -1, -1)} = L'.length := by
    have e : {s // IsQTS n s ∧ s.values 0 = (-1, -1, -1, -1)} = {s // s ∈ L'.toFinset} := by
      simp only [List.mem_toFinset, hw, C04_isQTS_iff_isWTS]
    rw [e, Nat.card_eq_fintype_card, Fintype.card_coe, List.toFinset_card_of_nodup k1]
  rw [e1, e2, card_wts k1 hw]

/-- C99. Hence the two searches, over quaternion sequences and over Williamson-type quadruples, report the same number for
every length. -/
theorem C99_same (n : ℕ) [NeZero n] (o o' : Found) (h : findPqsOfType n none (some o)) (h' : findWilliamsonTypeOfSize n = some o') :
    o.2 = o'.2 := by
  obtain ⟨_, e, _, c⟩ := (C99_perfect n).2 _ h
  cases e
  obtain ⟨_, e', _, c'⟩ := C99_williamson_type n
  rw [h'] at e'
  cases e'
  have e1 : Nat.card {s // IsQTS n s} = Nat.card {s // IsWTS n s} := by simp only [C04_isQTS_iff_isWTS]
  rw [card_words, e1, c'] at c
  omega

example : (findWilliamsonOfSize 3).map Prod.snd = some 4 ∧ (findWilliamsonTypeOfSize 2).map Prod.snd = some 6 ∧
    (findNaive 2 none).map Prod.snd = some 6 := by decide +kernel

/-! ## Searches with a symmetry -/

/-- C99. With symmetry I the search reports the symmetric perfect sequences that begin with 1, at every length; with symmetry
II or III those of even length, and it says nothing about odd lengths. (For symmetry IV see C49.) -/
theorem C99_symmetry (n : ℕ) [NeZero n] (ty : Symmetry) (hty : ty ≠ .IV) :
    (ty = .I ∨ Even n → (∃ r, findPqsOfType n (some ty) r) ∧ ∀ r, findPqsOfType n (some ty) r →
      ∃ o, r = some o ∧ Reports n (fun v => PerfectOver QPLUS n v ∧ HasSymmetry ty v) o) ∧
    (ty ≠ .I → ¬ Even n → ∀ r, findPqsOfType n (some ty) r ↔ r = none) := by
  constructor
  · intro hn
    obtain ⟨⟨⟨o, ho⟩, hall⟩, _⟩ := C49_parallel_partial n ty hty hn
    have hiff : ∀ r, findPqsOfType n (some ty) r ↔ ∃ o, findOptim n (some ty) o ∧ r = some o := by
      intro r
      have he : ty ≠ .I → ¬ n % 2 = 1 := fun h k => by
        have := (Nat.even_iff.1 (hn.resolve_left h)); omega
      cases ty
      · exact Iff.rfl
      · unfold findPqsOfType; simp only; rw [if_neg (he (by decide))]
      · unfold findPqsOfType; simp only; rw [if_neg (he (by decide))]
      · exact absurd rfl hty
    refine ⟨⟨some o, (hiff _).2 ⟨o, ho, rfl⟩⟩, fun r hr => ?_⟩
    obtain ⟨o, h1, rfl⟩ := (hiff _).1 hr
    exact ⟨o, rfl, hall o h1⟩
  · intro h1 h2 r
    have h3 : n % 2 = 1 := by rw [Nat.even_iff] at h2; omega
    cases ty
    · exact absurd rfl h1
    · unfold findPqsOfType; simp only; rw [if_pos h3]
    · unfold findPqsOfType; simp only; rw [if_pos h3]
    · exact absurd rfl hty

example : (findNaive 4 (some .II)).map Prod.snd = some 16 := by decide +kernel

/-! ## All lengths, and the file of representatives -/

/-- C99. The searches over ranges of lengths report the right number for each of them: 1 to 17 for perfect sequences, 1 to 14
for Williamson and Williamson-type sequences. -/
theorem C99_ranges :
    (∀ rs, findPqs none rs → rs.length = 17 ∧ ∀ (n : ℕ) [NeZero n], n ≤ 17 → ∃ o, rs[n - 1]? = some (some o) ∧
      Nat.card {x : ZMod n → ℍ[ℚ] // PerfectWord x} = 16 * o.2) ∧
    (∃ os, findWilliamsonSizes = some os ∧ os.length = 14 ∧ ∀ (n : ℕ) [NeZero n], n ≤ 14 → ∃ o, os[n - 1]? = some o ∧
      Nat.card {s // IsWS n s} = 16 * o.2) ∧
    (∃ os, findWilliamsonTypeSizes = some os ∧ os.length = 14 ∧ ∀ (n : ℕ) [NeZero n], n ≤ 14 → ∃ o, os[n - 1]? = some o ∧
      Nat.card {s // IsWTS n s} = 16 * o.2) := by
  have idx : ∀ (m n : ℕ) [NeZero n], n ≤ m → (List.range' 1 m)[n - 1]? = some n := by
    intro m n _ h
    have := Nat.pos_of_neZero n
    rw [List.getElem?_range' (by omega)]
    congr 1; omega
  have run : ∀ (f : ℕ → Option Found) (g : ℕ → Found), (∀ n ∈ List.range' 1 14, f n = some (g n)) →
      (List.range' 1 14).mapM f = some ((List.range' 1 14).map g) := by
    intro f g h
    exact Word.mapM_eq f g _ h
  refine ⟨fun rs hrs => ⟨?_, fun n _ hn => ?_⟩, ?_, ?_⟩
  · have := hrs.length_eq
    rw [List.length_range'] at this
    exact this.symm
  · have hl := hrs.length_eq
    rw [List.length_range'] at hl
    have h0 := Nat.pos_of_neZero n
    have hi : n - 1 < rs.length := by omega
    have h := (List.forall₂_iff_get.1 hrs).2 (n - 1) (by rw [List.length_range']; omega) hi
    simp only [List.get_eq_getElem, List.getElem_range'] at h
    rw [show 1 + 1 * (n - 1) = n by omega] at h
    obtain ⟨o, e, _, c⟩ := (C99_perfect n).2 _ h
    exact ⟨o, by rw [List.getElem?_eq_getElem hi, e], c⟩
  · have ex : ∀ n ∈ List.range' 1 14, findWilliamsonOfSize n = some ((findWilliamsonOfSize n).getD ([], 0)) := by
      intro n hn
      rw [List.mem_range'_1] at hn
      have : NeZero n := ⟨by omega⟩
      obtain ⟨o, h, _⟩ := C99_williamson n
      rw [h]; rfl
    refine ⟨_, run _ _ ex, by simp, fun n _ hn => ?_⟩
    obtain ⟨o, h, _, c⟩ := C99_williamson n
    exact ⟨o, by rw [List.getElem?_map, idx 14 n hn, Option.map_some, h]; rfl, c⟩
  · have ex : ∀ n ∈ List.range' 1 14, findWilliamsonTypeOfSize n = some ((findWilliamsonTypeOfSize n).getD ([], 0)) := by
      intro n hn
      rw [List.mem_range'_1] at hn
      have : NeZero n := ⟨by omega⟩
      obtain ⟨o, h, _⟩ := C99_williamson_type n
      rw [h]; rfl
    refine ⟨_, run _ _ ex, by simp, fun n _ hn => ?_⟩
    obtain ⟨o, h, _, c⟩ := C99_williamson_type n
    exact ⟨o, by rw [List.getElem?_map, idx 14 n hn, Option.map_some, h]; rfl, c⟩

/-- C99. The file of representatives holds the least quadruple of every class of QT sequences, once. -/
theorem C99_unique (n : ℕ) [NeZero n] (hn : n ≤ 100) :
    ∃ (r : List QuadSeq) (t : List Char), r.Nodup ∧ (∀ x, x ∈ r ↔ LeastInClass n .quaternionType x) ∧ resultText r = some t ∧
      findUniqueWilliamsonTypeOfSize n =
        some ("./results/sequences/unique_wts/".toList ++ natText n ++ ".seq".toList, t) := by
  obtain ⟨r, h1, h2, h3, t, h4⟩ := C48_unique n hn
  refine ⟨r, t, h1, h2, h4, ?_⟩
  unfold findUniqueWilliamsonTypeOfSize
  rw [h3, h4]; rfl

/-! ## Comparison of sequences -/

/-- C99. `equals` decides equality of sequences of the same length, and `contains` membership among quadruples of the same
length. -/
theorem C99_contains (n : ℕ) (set : List QuadSeq) (s : QuadSeq) (hs : PMQuad n s) (hset : ∀ e ∈ set, PMQuad n e) :
    contains set s = some (decide (s ∈ set)) := by
  have heq : ∀ x y : List ℤ, PMSeq n x → PMSeq n y → equals x y = some (decide (x = y)) := fun x y hx hy =>
    equalsLoop_eq [] y x (by rw [hx.1, hy.1])
  induction set with
  | nil => rfl
  | cons e set ih =>
    have he := hset e List.mem_cons_self
    unfold contains
    rw [ih fun x hx => hset x (List.mem_cons_of_mem _ hx), heq _ _ hs.a he.a, heq _ _ hs.b he.b, heq _ _ hs.c he.c,
      heq _ _ hs.d he.d]
    have hse : s = e ↔ s.a = e.a ∧ s.b = e.b ∧ s.c = e.c ∧ s.d = e.d := by
      constructor
      · rintro rfl; exact ⟨rfl, rfl, rfl, rfl⟩
      · rintro ⟨h1, h2, h3, h4⟩
        have h0 : s.size = e.size := by rw [hs.size, he.size]
        cases s; cases e
        simp_all
    simp only [Option.bind_some, List.mem_cons, hse]
    by_cases h1 : s.a = e.a <;> by_cases h2 : s.b = e.b <;> by_cases h3 : s.c = e.c <;> by_cases h4 : s.d = e.d <;>
      simp [h1, h2, h3, h4]

example : contains [exWS3] exWS3 = some true ∧ contains [exWS3] { exWS3 with a := [1, 1, 1] } = some false := by decide

/-- For different lengths `equals` is neither symmetric nor total: it compares with a prefix, or panics. -/
theorem C99_equals_prefix : equals [1] [1, -1] = some true ∧ equals [1, -1] [1] = none := by decide

end Props
