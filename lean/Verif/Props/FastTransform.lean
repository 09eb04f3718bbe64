import Verif.Proofs.FastEval
import Verif.Proofs.FastExact
import Verif.Props.TwicePrime

/-!
# Property C105: the fast transform by factors of the length
-/

set_option linter.unusedVariables false

namespace Props
open Model Spec Proofs

/-- Factors of `n`, all of them at least 2. -/
def Factors (fs : List ℕ) (n : ℕ) : Prop := (∀ p ∈ fs, 2 ≤ p) ∧ fs.prod = n

theorem factors_cost (fs : List ℕ) (h : ∀ p ∈ fs, 2 ≤ p) (hne : fs ≠ []) :
    1 + FastTransform.steps fs ≤ 2 * fs.prod ∧ 2 ≤ fs.prod := by
  induction fs with
  | nil => exact absurd rfl hne
  | cons p fs ih =>
    have hp := h p List.mem_cons_self
    by_cases h0 : fs = []
    · subst h0
      simp only [FastTransform.steps, List.map_cons, List.map_nil, List.sum_cons, List.sum_nil, List.prod_cons,
        List.prod_nil]
      omega
    · obtain ⟨h1, h2⟩ := ih (fun q hq => h q (List.mem_cons_of_mem _ hq)) h0
      simp only [FastTransform.steps, List.map_cons, List.sum_cons, List.prod_cons] at h1 ⊢
      constructor <;> nlinarith

theorem factors_length (fs : List ℕ) (h : ∀ p ∈ fs, 2 ≤ p) : 2 ^ fs.length ≤ fs.prod := by
  induction fs with
  | nil => simp
  | cons p fs ih =>
    rw [List.length_cons, List.prod_cons, pow_succ, mul_comm]
    exact Nat.mul_le_mul (h p List.mem_cons_self) (ih fun q hq => h q (List.mem_cons_of_mem _ hq))

/-- C105. With any factors of the length the fast transform would give the transform if there were no rounding. It is at
most `2 n` operations deep and enlarges its inputs at most `n²` times. -/
theorem C105_transforms (rd : ℝ → ℝ) (hrd : NearestDouble rd) (fs : ℕ → List ℕ) (n : ℕ) [NeZero n] (hf : Factors (fs n) n) :
    Transforms (fastLib rd fs) n (2 * n) ((n : ℝ) ^ 2) := by
  have hT := FastTransform.transforms hrd hf.2
  have hD : 1 + FastTransform.steps (fs n) ≤ 2 * n := by
    by_cases h0 : fs n = []
    · have h1 := hf.2
      rw [h0] at h1 ⊢
      simp only [FastTransform.steps, List.map_nil, List.sum_nil, List.prod_nil] at h1 ⊢
      omega
    · have := (factors_cost _ hf.1 h0).1
      rwa [hf.2] at this
  have hG : (2 : ℝ) ^ (fs n).length * n ≤ (n : ℝ) ^ 2 := by
    have := factors_length _ hf.1
    rw [hf.2] at this
    have h1 : (2 : ℝ) ^ (fs n).length ≤ n := by exact_mod_cast this
    rw [sq]
    exact mul_le_mul_of_nonneg_right h1 (by positivity)
  exact ⟨hT.fwd, hT.bwd, fun k hk a ha => have c := hT.fwd_cost k hk a ha; ⟨c.1, c.2.1.trans hD, c.2.2.trans hG⟩,
    fun t ht => have c := hT.bwd_cost t ht; ⟨c.1, c.2.1.trans hD, c.2.2.trans hG⟩⟩

theorem fast_pos (n : ℕ) [NeZero n] : 1 ≤ 2 * n := by have := Nat.pos_of_ne_zero (NeZero.ne n); omega

/-- C105. So at all lengths up to 180 the correlations computed by the fast transform in double precision are the integer
correlations. -/
theorem C105_correlations (rd : ℝ → ℝ) (hrd : NearestDouble rd) (fs : ℕ → List ℕ) (n : ℕ) [NeZero n] (hn : n ≤ 180)
    (hf : Factors (fs n) n) (x y : List ℤ) (hx : PMSeq n x) (hy : PMSeq n y) (tags : Tag × Tag) :
    let A := libraryFl rd (fastLib rd fs)
    computeAutoCorrelationPairDft A ((dftSequence A x).map A.normSqr) n ((dftSequence A y).map A.normSqr) n =
        computeAutoCorrelationPair x y ∧
      computeCrossCorrelationsDft A (dftSequence A x) (dftSequence A y) tags n = computeCrossCorrelations x y tags := by
  refine C103_correlations rd hrd _ n (by omega) _ _ (fast_pos n) (C105_transforms rd hrd fs n hf) ?_ x y hx hy tags
  have h1 : (n : ℝ) ≤ 180 := by exact_mod_cast hn
  have h0 : (0 : ℝ) ≤ n := by positivity
  have h2 : (n : ℝ) ^ 2 ≤ 180 ^ 2 := pow_le_pow_left₀ h0 h1 2
  have h3 : ((n : ℝ) + 1) ^ 2 ≤ 181 ^ 2 := pow_le_pow_left₀ (by linarith) (by linarith) 2
  have h4 : ((2 * n : ℕ) : ℝ) ≤ 360 := by exact_mod_cast (by omega)
  calc ((2 * n : ℕ) : ℝ) * (n : ℝ) ^ 2 * ((n : ℝ) + 1) ^ 2 ≤ 360 * 180 ^ 2 * 181 ^ 2 := by gcongr
    _ ≤ 500000000000 := by norm_num

theorem fast_prime {fs : List ℕ} {p : ℕ} (hp : p.Prime) (hf : Factors fs p) : fs = [p] := by
  obtain ⟨h1, h2⟩ := hf
  match fs with
  | [] => exact absurd h2.symm hp.ne_one
  | [q] => simpa using h2
  | q :: r :: l =>
    exfalso
    have hq := h1 q List.mem_cons_self
    have hr := (factors_cost (r :: l) (fun x hx => h1 x (List.mem_cons_of_mem _ hx)) (by simp)).2
    rw [List.prod_cons] at h2
    rcases (Nat.prime_mul_iff.1 (h2 ▸ hp)) with ⟨_, h⟩ | ⟨_, h⟩ <;> omega

/-- C105. Double precision is good enough with the fast transform at the same lengths as with summation term by term. -/
theorem C105_numerics (rd : ℝ → ℝ) (hrd : NearestDouble rd) (fs : ℕ → List ℕ) (n : ℕ) [hz : NeZero n] (mo : MatchOption)
    (hn : ShortLength mo n) (hf : Factors (fs n) n) : Numerics (libraryFl rd (fastLib rd fs)) doubleVal n mo := by
  have h31 := short_le hn
  have hT := C105_transforms rd hrd fs n hf
  have hG := library_gain _ n _ _ hT
  have hprime : n.Prime → n ≠ 2 → Numerics (libraryFl rd (fastLib rd fs)) doubleVal n mo := by
    intro hp h2
    have hT' := FastTransform.transforms hrd hf.2
    have hs : fs n = [n] := fast_prime hp hf
    rw [hs] at hT'
    refine C103_numerics rd hrd _ n hp h2 _ _ (by omega) hT' mo ?_
    have e : ((1 + FastTransform.steps [n] : ℕ) : ℝ) * (2 ^ [n].length * n) = (n + 2) * (2 * n) := by
      simp only [FastTransform.steps, List.map_cons, List.map_nil, List.sum_cons, List.sum_nil, List.length_cons,
        List.length_nil]
      push_cast
      ring
    unfold Moderate
    rw [e]
    have h0 : (0 : ℝ) ≤ n := by positivity
    have hm : ∀ b : ℝ, (n : ℝ) ≤ b → ((n : ℝ) + 2) * (2 * n) ≤ (b + 2) * (2 * b) := fun b hb => by nlinarith
    rcases hn with h | ⟨rfl, h⟩ | h
    · exact .inr (.inr ⟨by omega, (hm 7 (by exact_mod_cast h)).trans (by norm_num)⟩)
    · refine .inr (.inl ⟨rfl, ?_, ?_⟩)
      · revert h
        simp only [List.mem_cons, List.not_mem_nil, or_false]
        omega
      · refine (hm 23 ?_).trans (by norm_num)
        have : n ≤ 23 := by
          revert h
          simp only [List.mem_cons, List.not_mem_nil, or_false]
          omega
        exact_mod_cast this
    · exact .inr (.inr ⟨by omega, (hm 11 (by rw [h]; norm_num)).trans (by norm_num)⟩)
  have hDG : ((2 * n : ℕ) : ℝ) * (n : ℝ) ^ 2 ≤ 100000 := by
    have h1 : (n : ℝ) ≤ 31 := by exact_mod_cast h31
    have h2 : ((2 * n : ℕ) : ℝ) ≤ 62 := by exact_mod_cast (by omega)
    calc ((2 * n : ℕ) : ℝ) * (n : ℝ) ^ 2 ≤ 62 * 31 ^ 2 := by gcongr
      _ ≤ 100000 := by norm_num
  have hbig : ((2 * n : ℕ) : ℝ) * (n : ℝ) ^ 2 * ((n : ℝ) + 1) ^ 2 ≤ 500000000000 := by
    have h1 : (n : ℝ) ≤ 31 := by exact_mod_cast h31
    have h2 : ((n : ℝ) + 1) ^ 2 ≤ 32 ^ 2 := pow_le_pow_left₀ (by positivity) (by linarith) 2
    exact (mul_le_mul hDG h2 (by positivity) (by norm_num)).trans (by norm_num)
  have hm := C103_model rd hrd _ n (by omega) _ _ (fast_pos n) hT (library_one n _ _ hG hbig) (2 ^ 150) le_rfl
  have hsm := library_small n _ _ hbig
  have hB := library_range n (by omega)
  -- the other lengths
  have hother : FilterSafe (libraryFl rd (fastLib rd fs)) n → (mo = .psd → n ≤ 7) →
      Numerics (libraryFl rd (fastLib rd fs)) doubleVal n mo := by
    intro hF h7
    refine ⟨hF, fun _ => C74_accurate _ _ _ n _ _ (by positivity) hsm hB hm, fun hmo => ?_⟩
    refine C91_keys _ _ _ n _ _ ((C91_numbers n _ hB).1 (Nat.pos_of_ne_zero hz.out) (by have := h7 hmo; omega) _
      (by positivity) ?_) hm
    have h1 : (n : ℝ) ≤ 7 := by exact_mod_cast h7 hmo
    have h2 : ((2 * n : ℕ) : ℝ) ≤ 14 := by exact_mod_cast (by have := h7 hmo; omega)
    have h3 : ((2 * n : ℕ) : ℝ) * (n : ℝ) ^ 2 ≤ 14 * 7 ^ 2 := by gcongr
    have e : 16 * ((2 * n : ℕ) : ℝ) * (n : ℝ) ^ 2 / 2 ^ 53 = 16 / 2 ^ 53 * (((2 * n : ℕ) : ℝ) * (n : ℝ) ^ 2) := by ring
    rw [e]
    refine (mul_le_mul_of_nonneg_left h3 (by positivity)).trans ?_
    norm_num
  have hfour : n ∣ 4 → Numerics (libraryFl rd (fastLib rd fs)) doubleVal n mo := by
    intro h4
    have hn4 : n ≤ 4 := Nat.le_of_dvd (by norm_num) h4
    refine hother (FastExact.fast_filter hrd h4 hf.2 ?_) (fun _ => by omega)
    have := factors_length _ hf.1
    rw [hf.2] at this
    by_contra hc
    have : 2 ^ 3 ≤ 2 ^ (fs n).length := Nat.pow_le_pow_right (by norm_num) (by omega)
    omega
  have htwice : ∀ p, p = 3 ∨ p = 7 ∨ p = 11 → n = 2 * p → (mo = .psd → n ≤ 7) →
      Numerics (libraryFl rd (fastLib rd fs)) doubleVal n mo := by
    rintro p hp rfl h7
    exact hother (C104_library rd hrd _ p hp _ _ (fast_pos _) hT hDG).filter h7
  have h0 := hz.out
  rcases hn with h | ⟨hmo, h⟩ | h
  · have : n = 1 ∨ n = 2 ∨ n = 3 ∨ n = 4 ∨ n = 5 ∨ n = 6 ∨ n = 7 := by omega
    rcases this with h | h | h | h | h | h | h
    · exact hfour (by rw [h]; norm_num)
    · exact hfour (by rw [h]; norm_num)
    · exact hprime (by rw [h]; decide) (by omega)
    · exact hfour (by rw [h])
    · exact hprime (by rw [h]; decide) (by omega)
    · exact htwice 3 (by norm_num) h (by omega)
    · exact hprime (by rw [h]; decide) (by omega)
  · simp only [List.mem_cons, List.not_mem_nil, or_false] at h
    have hc : mo = .psd → n ≤ 7 := fun h => by rw [hmo] at h; cases h
    rcases h with h | h | h | h | h | h | h
    · exact hprime (by rw [h]; decide) (by omega)
    · exact hprime (by rw [h]; decide) (by omega)
    · exact htwice 7 (by norm_num) h hc
    · exact hprime (by rw [h]; decide) (by omega)
    · exact hprime (by rw [h]; decide) (by omega)
    · exact htwice 11 (by norm_num) h hc
    · exact hprime (by rw [h]; decide) (by omega)
  · exact hprime (by rw [h]; decide) (by omega)

/-- C105. So at these lengths the enumeration with the fast transform gives exactly the least member of every class. -/
theorem C105_enumeration (rd : ℝ → ℝ) (hrd : NearestDouble rd) (fs : ℕ → List ℕ) (n : ℕ) [NeZero n] (mo : MatchOption)
    (hn : ShortLength mo n) (hf : Factors (fs n) n) (ty : SeqType) (hty : ty = .quaternionType ∨ ty = .williamsonType)
    (hex : ∃ q, OfType n ty q) (pr : Option Pairing) :
    ∃ w, writePairs (libraryFl rd (fastLib rd fs)) n ty mo pr = some w ∧ ∀ dirs, Listing w dirs →
      ∃ r, joinPairs ty dirs = some r ∧ r.Nodup ∧ ∀ x, x ∈ r ↔ LeastInClass n ty x := by
  obtain ⟨w, hw, _, h3⟩ := C32_enumeration (libraryFl rd (fastLib rd fs)) doubleVal n (short_le hn)
    (C105_numerics rd hrd fs n mo hn hf) ty hty pr
  refine ⟨w, hw, fun dirs hd => ?_⟩
  obtain ⟨r, a, b, c, _⟩ := h3 dirs hd hex
  exact ⟨r, a, b, c⟩

/-- A Williamson-type quadruple of length 16. Its class is in the published results. -/
def quad16 : QuadSeq := ⟨16, [-1, -1, -1, -1, -1, -1, -1, -1, 1, -1, 1, -1, 1, -1, 1, -1],
  [-1, -1, -1, 1, -1, 1, -1, -1, 1, -1, 1, 1, 1, 1, 1, -1],
  [-1, -1, 1, 1, 1, 1, -1, -1, 1, -1, -1, 1, -1, 1, 1, -1],
  [-1, 1, 1, -1, 1, 1, -1, -1, 1, 1, -1, -1, -1, 1, 1, -1]⟩

theorem quad16_pm : PMQuad 16 quad16 := ⟨rfl, by decide, by decide, by decide, by decide⟩

theorem quad16_wts : IsWTS 16 quad16 := (C08_verify_wts 16 _ quad16_pm).1 (by decide +kernel)

/-- The ways to write 16 as a product. -/
def factors16 : List (List ℕ) := [[16], [2, 8], [8, 2], [4, 4], [2, 2, 4], [2, 4, 2], [4, 2, 2], [2, 2, 2, 2]]

theorem factors16_all (fs : List ℕ) (h : Factors fs 16) : fs ∈ factors16 := by
  obtain ⟨h1, h2⟩ := h
  have hp : ∀ (p : ℕ) (l : List ℕ) (m : ℕ), m ≤ 16 → m ≠ 0 → (p :: l).prod = m → p ≤ 16 ∧ p * l.prod = m := by
    intro p l m hm h0 hh
    rw [List.prod_cons] at hh
    refine ⟨?_, hh⟩
    have : l.prod ≠ 0 := by rintro h; rw [h] at hh; omega
    nlinarith [Nat.pos_of_ne_zero this]
  have one : ∀ l : List ℕ, (∀ p ∈ l, 2 ≤ p) → l.prod = 1 → l = [] := by
    intro l hl h
    by_contra hc
    have := (factors_cost l hl hc).2
    omega
  have two : ∀ l : List ℕ, (∀ p ∈ l, 2 ≤ p) → l.prod = 2 → l = [2] := fun l hl h =>
    fast_prime (by decide) ⟨hl, h⟩
  have four : ∀ l : List ℕ, (∀ p ∈ l, 2 ≤ p) → l.prod = 4 → l = [4] ∨ l = [2, 2] := by
    intro l hl h
    match l with
    | [] => simp at h
    | p :: l =>
      obtain ⟨a, b⟩ := hp p l 4 (by norm_num) (by norm_num) h
      have hl' : ∀ q ∈ l, 2 ≤ q := fun q hq => hl q (List.mem_cons_of_mem _ hq)
      have p2 := hl p List.mem_cons_self
      clear h hl
      interval_cases p <;> first | omega | skip
      · exact .inr (by rw [two l hl' (by omega)])
      · exact .inl (by rw [one l hl' (by omega)])
  have eight : ∀ l : List ℕ, (∀ p ∈ l, 2 ≤ p) → l.prod = 8 → l = [8] ∨ l = [4, 2] ∨ l = [2, 4] ∨ l = [2, 2, 2] := by
    intro l hl h
    match l with
    | [] => simp at h
    | p :: l =>
      obtain ⟨a, b⟩ := hp p l 8 (by norm_num) (by norm_num) h
      have hl' : ∀ q ∈ l, 2 ≤ q := fun q hq => hl q (List.mem_cons_of_mem _ hq)
      have p2 := hl p List.mem_cons_self
      clear h hl
      interval_cases p <;> first | omega | skip
      · rcases four l hl' (by omega) with h | h <;> simp [h]
      · simp [two l hl' (by omega)]
      · simp [one l hl' (by omega)]
  match fs with
  | [] => simp at h2
  | p :: l =>
    obtain ⟨a, b⟩ := hp p l 16 (by norm_num) (by norm_num) h2
    have hl' : ∀ q ∈ l, 2 ≤ q := fun q hq => h1 q (List.mem_cons_of_mem _ hq)
    have p2 := h1 p List.mem_cons_self
    clear h1 h2
    interval_cases p <;> first | omega | skip
    · rcases eight l hl' (by omega) with h | h | h | h <;> rw [h] <;> decide
    · rcases four l hl' (by omega) with h | h <;> rw [h] <;> decide
    · rw [two l hl' (by omega)]; decide
    · rw [one l hl' (by omega)]; decide

/-- The values of the sum at frequency 2, for given factors. -/
def sum16 (fs : List ℕ) : Option (List ℤ) :=
  (FastEval.powerS fs quad16.b 2).bind fun U => (FastEval.powerS fs quad16.c 2).bind fun V => DoubleEval.opS (· + ·) U V

theorem sum16_large : ∀ fs ∈ factors16, ∃ W, sum16 fs = some W ∧ ∀ w ∈ W, 4 * (16 : ℕ) * 2 ^ 108 < w := by
  have h : ∀ fs ∈ factors16, (sum16 fs).isSome = true ∧
      ∀ w ∈ (sum16 fs).getD [], 4 * (16 : ℕ) * 2 ^ 108 < w := by decide +kernel
  intro fs hfs
  obtain ⟨h1, h2⟩ := h fs hfs
  obtain ⟨W, hW⟩ := Option.isSome_iff_exists.1 h1
  exact ⟨W, hW, by rw [hW] at h2; exact h2⟩

/-- C105. At length 16 the filter discards a pair of a Williamson-type quadruple, whatever factors the fast transform uses
and whatever the rule for ties. The power spectra of the pair add up to at most 64 at frequency 2, and the computed sum is
larger. -/
theorem C105_fails (rd : ℝ → ℝ) (h : NearestDouble rd) (fs : ℕ → List ℕ) (hf : Factors (fs 16) 16) :
    let A := libraryFl rd (fastLib rd fs)
    ¬ FilterSafe A 16 ∧
      filteredCouplesPsds A [quad16.b] [quad16.c] (A.mul (A.lit 4 1) (A.ofInt (16 : ℕ))) = [] ∧
      psd 16 quad16.b 2 + psd 16 quad16.c 2 ≤ 4 * 16 ∧ IsWTS 16 quad16 := by
  obtain ⟨W, hW, hall⟩ := sum16_large _ (factors16_all _ hf)
  unfold sum16 at hW
  simp only [Option.bind_eq_some_iff] at hW
  obtain ⟨U, hU, V, hV, hW⟩ := hW
  have hr := FastEval.discards h (by norm_num) hf.2 quad16_pm.b quad16_pm.c (k := 2) (by norm_num) (by norm_num) hU hV hW hall
  refine ⟨fun hF => ?_, ?_, ?_, quad16_wts⟩
  · have := hF _ quad16_pm quad16_wts.2.1 .X .Y (by decide)
    exact absurd (hr.symm.trans this) (by decide)
  · unfold filteredCouplesPsds pairData
    simp only [List.zipIdx_cons, List.zipIdx_nil, List.flatMap_cons, List.flatMap_nil, List.filterMap_cons,
      List.filterMap_nil, hr, if_true, List.append_nil]
  · exact_mod_cast Fourier.pair_le quad16_pm quad16_wts.2.1 (t1 := .X) (t2 := .Y) (by decide) 2

/-- Prime factors are factors, at every length; and there is such a rounding. -/
example : (∃ rd, NearestDouble rd) ∧ (∀ n, n ≠ 0 → Factors n.primeFactorsList n) ∧ Factors [4, 4] 16 :=
  ⟨Binary64.exists_nearest, fun n hn => ⟨fun p hp => (Nat.prime_of_mem_primeFactorsList hp).two_le,
    Nat.prod_primeFactorsList hn⟩, by decide, by decide⟩

end Props
