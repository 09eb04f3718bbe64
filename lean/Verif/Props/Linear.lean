import Verif.Proofs.Linear
import Verif.Props.Binary64

/-!
# Property C103: double precision suffices with any fast transform
-/

set_option linter.unusedVariables false

namespace Props
open Model Spec Proofs

/-- C103. The error of a computation by linear steps in double precision, with any rule for ties: at most
`16 · depth · gain / 2⁵³` times the largest input. -/
theorem C103_error (rd : ℝ → ℝ) (hrd : NearestDouble rd) (a : Lin) (m D : ℕ) (G S : ℝ) (ha : a.Proper m)
    (hD : a.depth ≤ D) (hD1 : 1 ≤ D) (hG : a.gain ≤ G) (hs : 16 * D * G / 2 ^ 53 ≤ 1) (hS : 1 ≤ S) (hS2 : S ≤ 2 ^ 180)
    (x : ℕ → ℝ) (hx : ∀ i < m, Double (x i) ∧ |x i| ≤ S) :
    ∃ y, a.run rd (fun i => some (x i)) = some y ∧ Double y ∧ |y - a.exact x| ≤ 16 * D * G / 2 ^ 53 * S := by
  have e : 16 * D * G * Binary64.u = 16 * D * G / 2 ^ 53 := by unfold Binary64.u; rw [mul_one_div]
  have := Linear.cost_near hrd (y := fun i => some (x i)) hS hS2 m (fun i hi => ⟨_, rfl, (hx i hi).1, by simp⟩)
    (fun i hi => (hx i hi).2) a ha hD hD1 hG (by rw [e]; exact hs)
  rwa [e] at this

/-- C103. Double-precision arithmetic with the transforms of any library follows the error model. -/
theorem C103_model (rd : ℝ → ℝ) (hrd : NearestDouble rd) (L : Library) (n : ℕ) [NeZero n] (hn : n ≤ 1000) (D : ℕ) (G : ℝ)
    (hD : 1 ≤ D) (hL : Transforms L n D G) (hs : 16 * D * G / 2 ^ 53 ≤ 1) (B : ℝ) (hB : B ≤ 2 ^ 150) :
    FloatModel (libraryFl rd L) doubleVal DoubleOk n B (16 * D * G / 2 ^ 53) := by
  have e : 16 * D * G * Binary64.u = 16 * D * G / 2 ^ 53 := by unfold Binary64.u; rw [mul_one_div]
  have := Linear.model hrd hn hD hL (by rw [e]; exact hs) hB
  rwa [e] at this

theorem library_range (n : ℕ) (hn : n ≤ 1000) : 16 * ((n : ℝ) + 1) ^ 3 ≤ (2 : ℝ) ^ 150 := by
  have h1 : (n : ℝ) ≤ 1000 := by exact_mod_cast hn
  have h0 : (0 : ℝ) ≤ n := by positivity
  have h2 : ((n : ℝ) + 1) ^ 3 ≤ 1001 ^ 3 := pow_le_pow_left₀ (by linarith) (by linarith) 3
  refine (mul_le_mul_of_nonneg_left h2 (by norm_num)).trans ?_
  norm_num

theorem library_gain (L : Library) (n : ℕ) [NeZero n] (D : ℕ) (G : ℝ) (hL : Transforms L n D G) : 1 ≤ G :=
  (Linear.gain_one _).trans (hL.bwd_cost 0 (Nat.pos_of_ne_zero (NeZero.ne n))).2.2

theorem library_small (n : ℕ) (D : ℕ) (G : ℝ) (hDG : D * G * ((n : ℝ) + 1) ^ 2 ≤ 500000000000) :
    16 * D * G / 2 ^ 53 * ((n : ℝ) + 1) ^ 2 ≤ 1 / 1000 := by
  have e : 16 * D * G / 2 ^ 53 * ((n : ℝ) + 1) ^ 2 = 16 / 2 ^ 53 * (D * G * ((n : ℝ) + 1) ^ 2) := by ring
  rw [e]
  refine (mul_le_mul_of_nonneg_left hDG (by positivity)).trans ?_
  norm_num

theorem library_one (n : ℕ) (D : ℕ) (G : ℝ) (hG : 1 ≤ G) (hDG : D * G * ((n : ℝ) + 1) ^ 2 ≤ 500000000000) :
    16 * D * G / 2 ^ 53 ≤ 1 := by
  have h := library_small n D G hDG
  have h1 : (1 : ℝ) ≤ ((n : ℝ) + 1) ^ 2 := one_le_pow₀ (by have := n.cast_nonneg (α := ℝ); linarith)
  have h2 : 0 ≤ 16 * D * G / 2 ^ 53 := by positivity
  nlinarith

/-- C103. So the correlations computed with any library are the integer correlations, as long as depth, gain and length
are moderate. -/
theorem C103_correlations (rd : ℝ → ℝ) (hrd : NearestDouble rd) (L : Library) (n : ℕ) [NeZero n] (hn : n ≤ 1000) (D : ℕ)
    (G : ℝ) (hD : 1 ≤ D) (hL : Transforms L n D G) (hDG : D * G * ((n : ℝ) + 1) ^ 2 ≤ 500000000000) (x y : List ℤ)
    (hx : PMSeq n x) (hy : PMSeq n y) (tags : Tag × Tag) :
    let A := libraryFl rd L
    computeAutoCorrelationPairDft A ((dftSequence A x).map A.normSqr) n ((dftSequence A y).map A.normSqr) n =
        computeAutoCorrelationPair x y ∧
      computeCrossCorrelationsDft A (dftSequence A x) (dftSequence A y) tags n = computeCrossCorrelations x y tags := by
  have hG := library_gain L n D G hL
  exact C74_correlations (libraryFl rd L) doubleVal DoubleOk n (2 ^ 150) _ (by positivity) (library_small n D G hDG)
    (library_range n hn) (C103_model rd hrd L n hn D G hD hL (library_one n D G hG hDG) _ le_rfl) x y hx hy tags

/-- How large depth times gain may be. -/
def Moderate (mo : MatchOption) (n D : ℕ) (G : ℝ) : Prop :=
  mo = .correlation ∧ n ≤ 19 ∧ D * G ≤ 100000 ∨ mo = .correlation ∧ n ≤ 23 ∧ D * G ≤ 1200 ∨ n ≤ 12 ∧ D * G ≤ 1000

/-- C103. At small odd prime lengths double precision is good enough for matching, whatever library computes the
transforms. -/
theorem C103_numerics (rd : ℝ → ℝ) (hrd : NearestDouble rd) (L : Library) (n : ℕ) [NeZero n] (hn : n.Prime) (hodd : n ≠ 2)
    (D : ℕ) (G : ℝ) (hD : 1 ≤ D) (hL : Transforms L n D G) (mo : MatchOption) (hmo : Moderate mo n D G) :
    Numerics (libraryFl rd L) doubleVal n mo := by
  have hG := library_gain L n D G hL
  have h3 : 3 ≤ n := by have := hn.two_le; omega
  have hDG0 : 0 ≤ D * G := by positivity
  have hlow : n ≤ 23 ∧ D * G ≤ 100000 := by
    rcases hmo with ⟨_, h1, h2⟩ | ⟨_, h1, h2⟩ | ⟨h1, h2⟩
    · exact ⟨by omega, h2⟩
    · exact ⟨h1, by linarith⟩
    · exact ⟨by omega, by linarith⟩
  have hbig : D * G * ((n : ℝ) + 1) ^ 2 ≤ 500000000000 := by
    have h1 : (n : ℝ) ≤ 23 := by exact_mod_cast hlow.1
    have h2 : ((n : ℝ) + 1) ^ 2 ≤ 24 ^ 2 := pow_le_pow_left₀ (by positivity) (by linarith) 2
    refine (mul_le_mul hlow.2 h2 (by positivity) (by norm_num)).trans (by norm_num)
  have hm := C103_model rd hrd L n (by omega) D G hD hL (library_one n D G hG hbig) (2 ^ 150) le_rfl
  have hsm := library_small n D G hbig
  have hB := library_range n (by omega)
  have corr : 20 * (16 * D * G / 2 ^ 53 * ((n : ℝ) + 1) ^ 2) ≤ 4 * (4 * (n - 3 : ℕ) / (n : ℝ) ^ 2) ^ ((n - 3) / 2) →
      Numerics (libraryFl rd L) doubleVal n .correlation := fun hg =>
    ⟨C101_filter _ _ _ n hn hodd _ _ (by positivity) hsm hB hg hm,
      fun _ => C74_accurate _ _ _ n _ _ (by positivity) hsm hB hm, fun h => by cases h⟩
  have eq : 20 * (16 * D * G / 2 ^ 53 * ((n : ℝ) + 1) ^ 2) = 320 / 2 ^ 53 * ((n : ℝ) + 1) ^ 2 * (D * G) := by ring
  rcases hmo with ⟨rfl, h1, h2⟩ | ⟨rfl, h1, h2⟩ | ⟨h1, h2⟩
  · refine corr ?_
    rw [eq]
    refine (mul_le_mul_of_nonneg_left h2 (by positivity)).trans ?_
    clear * - h3 h1
    interval_cases n <;> norm_num
  · refine corr ?_
    rw [eq]
    refine (mul_le_mul_of_nonneg_left h2 (by positivity)).trans ?_
    clear * - h3 h1
    interval_cases n <;> norm_num
  · refine C91_prime (libraryFl rd L) doubleVal DoubleOk n hn hodd (2 ^ 150) _
      ((C91_numbers n _ (library_range n (by omega))).1 (by omega) h1 _ (by positivity) ?_) hm mo
    have e : 16 * D * G / 2 ^ 53 = 16 / 2 ^ 53 * (D * G) := by ring
    rw [e]
    refine le_trans (mul_le_mul_of_nonneg_left h2 (by positivity)) ?_
    norm_num

theorem moderate_le (mo : MatchOption) (n D : ℕ) (G : ℝ) (h : Moderate mo n D G) : n ≤ 31 := by
  rcases h with ⟨_, h, _⟩ | ⟨_, h, _⟩ | ⟨h, _⟩ <;> omega

/-- C103. So the enumeration gives exactly the least member of every class. -/
theorem C103_enumeration (rd : ℝ → ℝ) (hrd : NearestDouble rd) (L : Library) (n : ℕ) [NeZero n] (hn : n.Prime)
    (hodd : n ≠ 2) (D : ℕ) (G : ℝ) (hD : 1 ≤ D) (hL : Transforms L n D G) (mo : MatchOption) (hmo : Moderate mo n D G)
    (ty : SeqType) (hty : ty = .quaternionType ∨ ty = .williamsonType) (hex : ∃ q, OfType n ty q) (pr : Option Pairing) :
    ∃ w, writePairs (libraryFl rd L) n ty mo pr = some w ∧ ∀ dirs, Listing w dirs →
      ∃ r, joinPairs ty dirs = some r ∧ r.Nodup ∧ ∀ x, x ∈ r ↔ LeastInClass n ty x := by
  obtain ⟨w, hw, _, h3⟩ := C32_enumeration (libraryFl rd L) doubleVal n (moderate_le _ _ _ _ hmo)
    (C103_numerics rd hrd L n hn hodd D G hD hL mo hmo) ty hty pr
  refine ⟨w, hw, fun dirs hd => ?_⟩
  obtain ⟨r, a, b, c, _⟩ := h3 dirs hd hex
  exact ⟨r, a, b, c⟩

/-- C103. And so does the driver for QT sequences. -/
theorem C103_driver_qts {κ : Type} [DecidableEq κ] (env : Env (Option ℝ) κ) (rd : ℝ → ℝ) (hrd : NearestDouble rd)
    (L : Library) (hA : env.A = libraryFl rd L) (hf : Env.Fair env) (hc : ExactLabelling env.canon) (n : ℕ) [NeZero n]
    (hn : n.Prime) (hodd : n ≠ 2) (D : ℕ) (G : ℝ) (hD : 1 ≤ D) (hL : Transforms L n D G) (flags : List Flag)
    (hmo : Moderate (flagMatching flags) n D G) (hex : ∃ q, IsQTS n q) (s : Store)
    (hr : Ready s "qts".toList (natText n) flags) :
    ∃ s' r, driverSh env "qts".toList (natText n) flags s = (s', 0) ∧ r.Nodup ∧
      (∀ x, x ∈ r ↔ LeastInClass n .quaternionType x) ∧
      SeqsStored s' "qts".toList (natText n) "result.seq".toList r := by
  obtain ⟨s', r, a, b, c, d, _⟩ := C79_qts env hf hc doubleVal n (moderate_le _ _ _ _ hmo) flags
    (by rw [hA]; exact C103_numerics rd hrd L n hn hodd D G hD hL _ hmo) hex s hr
  exact ⟨s', r, a, b, c, d⟩

/-- C103. And for Williamson-type sequences. -/
theorem C103_driver_wts {κ : Type} [DecidableEq κ] (env : Env (Option ℝ) κ) (rd : ℝ → ℝ) (hrd : NearestDouble rd)
    (L : Library) (hA : env.A = libraryFl rd L) (hf : Env.Fair env) (hc : ExactLabelling env.canon) (n : ℕ) [NeZero n]
    (hn : n.Prime) (hodd : n ≠ 2) (D : ℕ) (G : ℝ) (hD : 1 ≤ D) (hL : Transforms L n D G) (flags : List Flag)
    (hmo : Moderate (flagMatching flags) n D G) (hex : ∃ q, IsWTS n q) (s : Store)
    (hr : Ready s "wts".toList (natText n) flags) :
    ∃ s' r r', driverSh env "wts".toList (natText n) flags s = (s', 0) ∧ r.Nodup ∧
      (∀ x, x ∈ r ↔ LeastInClass n .williamsonType x) ∧
      SeqsStored s' "wts".toList (natText n) "result.seq".toList r ∧
      r'.Nodup ∧ (∀ x ∈ r', IsWTS n x) ∧
      (∀ q, IsWTS n q → ∃ x ∈ r', QTEquiv (fam n q) (fam n x) ∧ ∀ y ∈ r', QTEquiv (fam n q) (fam n y) → y = x) ∧
      SeqsStored s' "wts".toList (natText n) "result-qts.seq".toList r' := by
  obtain ⟨s', r, r', a, b, c, d, _, f, g, i, j, _⟩ := C79_wts env hf hc doubleVal n (moderate_le _ _ _ _ hmo) flags
    (by rw [hA]; exact C103_numerics rd hrd L n hn hodd D G hD hL _ hmo) hex s hr
  exact ⟨s', r, r', a, b, c, d, f, g, i, j⟩

/-- C103. There is such a library for all lengths at once: summation term by term. -/
theorem C103_direct (rd : ℝ → ℝ) (hrd : NearestDouble rd) :
    ∃ L, ∀ n [NeZero n], Transforms L n (2 * n) (2 * n : ℕ) := by
  refine ⟨Linear.direct rd, fun n _ => ?_⟩
  have := Linear.direct_transforms hrd n
  push_cast
  exact this

/-- The computations that the FFTW library uses at length 3, with the constants `1 / 2`, `√3 / 2`, `2` and `√3`. -/
noncomputable def codelet3 (rd : ℝ → ℝ) : Library where
  fwd _ k :=
    if k = 0 then (.add (.input 0) (.add (.input 1) (.input 2)), .sub (.input 0) (.input 0)) else
      (.fma (-1 / 2) (-1 / 2) (.add (.input 1) (.input 2)) (.input 0),
       .scale (√3 / 2) (rd (√3 / 2)) (.sub (.input 2) (.input 1)))
  bwd _ t :=
    if t = 0 then .fma 2 2 (.input 2) (.input 0) else
      if t = 1 then .sub (.sub (.input 0) (.input 2)) (.scale √3 (rd √3) (.input 3)) else
        .add (.sub (.input 0) (.input 2)) (.scale √3 (rd √3) (.input 3))

theorem codelet3_transforms (rd : ℝ → ℝ) (hrd : NearestDouble rd) : Transforms (codelet3 rd) 3 2 4 := by
  have h3 : √3 * √3 = 3 := Real.mul_self_sqrt (by norm_num)
  have h30 : 0 ≤ √3 := Real.sqrt_nonneg 3
  have h32 : √3 ≤ 2 := by nlinarith
  have hs : ∀ c : ℝ, 0 ≤ c → c ≤ 2 → Double (rd c) ∧ |rd c - c| ≤ max 1 |c| / 2 ^ 51 := by
    intro c h0 h2
    have hm : |c| ≤ maxDouble := by
      rw [abs_of_nonneg h0]
      exact h2.trans (le_trans (by norm_num) Binary64.max_large)
    obtain ⟨a, ha, h4, h5⟩ := Binary64.round_ap hrd hm
    unfold roundDouble at ha
    rw [if_pos hm] at ha
    obtain rfl := Option.some.inj ha
    refine ⟨h4, h5.trans ?_⟩
    have hu := Binary64.u_pos
    have m1 : (1 : ℝ) ≤ max 1 |c| := le_max_left _ _
    have m2 : |c| ≤ max 1 |c| := le_max_right _ _
    have : max 1 |c| / 2 ^ 51 = Binary64.u * (4 * max 1 |c|) := by unfold Binary64.u; ring
    rw [this]
    exact mul_le_mul_of_nonneg_left (by linarith) hu.le
  have hexact : ∀ (m e : ℤ), |m| < 2 ^ 53 → -1074 ≤ e → e ≤ 971 → Double (m * (2 : ℝ) ^ e) := fun m e a b c => ⟨m, e, a, b, c, rfl⟩
  have hhalf : Double (-1 / 2) := by
    have := hexact (-1) (-1) (by norm_num) (by norm_num) (by norm_num)
    norm_num at this ⊢
    exact this
  have htwo : Double 2 := by
    have := hexact 2 0 (by norm_num) (by norm_num) (by norm_num)
    norm_num at this ⊢
    exact this
  have c1 : Real.cos (2 * Real.pi * 1 / 3) = -1 / 2 := by
    rw [show 2 * Real.pi * 1 / 3 = Real.pi - Real.pi / 3 by ring, Real.cos_pi_sub, Real.cos_pi_div_three]; ring
  have s1 : Real.sin (2 * Real.pi * 1 / 3) = √3 / 2 := by
    rw [show 2 * Real.pi * 1 / 3 = Real.pi - Real.pi / 3 by ring, Real.sin_pi_sub, Real.sin_pi_div_three]
  have c2 : Real.cos (2 * Real.pi * 2 / 3) = -1 / 2 := by
    rw [show 2 * Real.pi * 2 / 3 = Real.pi / 3 + Real.pi by ring, Real.cos_add_pi, Real.cos_pi_div_three]; ring
  have s2 : Real.sin (2 * Real.pi * 2 / 3) = -(√3 / 2) := by
    rw [show 2 * Real.pi * 2 / 3 = Real.pi / 3 + Real.pi by ring, Real.sin_add_pi, Real.sin_pi_div_three]
  have c4 : Real.cos (2 * Real.pi * 4 / 3) = -1 / 2 := by
    rw [show 2 * Real.pi * 4 / 3 = 2 * Real.pi * 1 / 3 + 2 * Real.pi by ring, Real.cos_add_two_pi, c1]
  have s4 : Real.sin (2 * Real.pi * 4 / 3) = √3 / 2 := by
    rw [show 2 * Real.pi * 4 / 3 = 2 * Real.pi * 1 / 3 + 2 * Real.pi by ring, Real.sin_add_two_pi, s1]
  have un := fun m => Binary64.unit_parts 3 m
  refine ⟨?_, ?_, ?_, ?_⟩
  · intro x hx k hk
    have hk' : k = 0 ∨ k = 1 := by omega
    obtain ⟨a, b, c, rfl⟩ : ∃ a b c, x = [a, b, c] := by
      match x, hx.1 with
      | [a, b, c], _ => exact ⟨a, b, c, rfl⟩
    have hd : ∀ j : ℕ, (dft 3 [a, b, c] j).re = a + b * Real.cos (2 * Real.pi * (1 * j : ℕ) / 3) +
          c * Real.cos (2 * Real.pi * (2 * j : ℕ) / 3) ∧
        (dft 3 [a, b, c] j).im = -(b * Real.sin (2 * Real.pi * (1 * j : ℕ) / 3)) -
          c * Real.sin (2 * Real.pi * (2 * j : ℕ) / 3) := by
      intro j
      unfold dft
      simp only [Finset.sum_range_succ, Finset.sum_range_zero, zero_add, Complex.add_re, Complex.add_im, Complex.mul_re,
        Complex.mul_im, Complex.intCast_re, Complex.intCast_im, (un _).2.2.1, (un _).2.2.2, List.getD_cons_zero,
        List.getD_cons_succ]
      constructor <;> simp <;> ring
    rw [(hd k).1, (hd k).2]
    rcases hk' with rfl | rfl
    · simp [codelet3, Lin.exact]
      ring
    · simp only [codelet3, Lin.exact, one_ne_zero, if_false, List.getD_cons_zero, List.getD_cons_succ]
      push_cast
      rw [c1, c2, s1, s2]
      constructor <;> ring
  · intro X hX t ht
    obtain ⟨⟨a, a'⟩, ⟨b, b'⟩, rfl⟩ : ∃ z w, X = [z, w] := by
      match X, hX with
      | [z, w], _ => exact ⟨z, w, rfl⟩
    simp only [Finset.sum_range_succ, Finset.sum_range_zero, zero_add, Complex.mul_re, (un _).1, (un _).2.1]
    have ht' : t = 0 ∨ t = 1 ∨ t = 2 := by omega
    rcases ht' with rfl | rfl | rfl
    · simp [codelet3, Lin.exact, parts, hermitian]
      ring
    · simp [codelet3, Lin.exact, parts, hermitian]
      rw [show 2 * Real.pi / 3 = 2 * Real.pi * 1 / 3 by ring, c1, c2, s1, s2]
      ring
    · simp [codelet3, Lin.exact, parts, hermitian]
      rw [c4, c2, s4, s2]
      ring
  · intro k hk a ha
    have hk' : k = 0 ∨ k = 1 := by omega
    have m1 : max 1 |√3 / 2| ≤ 1 := by rw [abs_of_nonneg (by positivity)]; exact max_le le_rfl (by linarith)
    have m2 : max 1 |(-1 / 2 : ℝ)| ≤ 1 := max_le le_rfl (by norm_num [abs_le])
    rcases hk' with rfl | rfl <;> rcases ha with rfl | rfl
    · refine ⟨by simp [codelet3, Lin.Proper], by simp [codelet3, Lin.depth], ?_⟩
      simp [codelet3, Lin.gain]; norm_num
    · refine ⟨by simp [codelet3, Lin.Proper], by simp [codelet3, Lin.depth], ?_⟩
      simp [codelet3, Lin.gain]; norm_num
    · refine ⟨?_, by simp [codelet3, Lin.depth], ?_⟩
      · simp only [codelet3, one_ne_zero, if_false, Lin.Proper]
        exact ⟨⟨hhalf, by rw [sub_self, abs_zero]; positivity⟩, by norm_num, by norm_num⟩
      · simp only [codelet3, one_ne_zero, if_false, Lin.gain]
        linarith
    · refine ⟨?_, by simp [codelet3, Lin.depth], ?_⟩
      · simp only [codelet3, one_ne_zero, if_false, Lin.Proper]
        exact ⟨hs _ (by positivity) (by linarith), by norm_num⟩
      · simp only [codelet3, one_ne_zero, if_false, Lin.gain]
        linarith
  · intro t ht
    have m1 : max 1 |√3| ≤ 2 := by rw [abs_of_nonneg h30]; exact max_le (by norm_num) h32
    have m2 : max 1 |(2 : ℝ)| ≤ 2 := max_le (by norm_num) (by norm_num [abs_le])
    have ht' : t = 0 ∨ t = 1 ∨ t = 2 := by omega
    rcases ht' with rfl | rfl | rfl
    · refine ⟨?_, by simp [codelet3, Lin.depth], ?_⟩
      · simp only [codelet3, if_true, Lin.Proper]
        exact ⟨⟨htwo, by rw [sub_self, abs_zero]; positivity⟩, by norm_num, by norm_num⟩
      · simp only [codelet3, if_true, Lin.gain]
        linarith
    · refine ⟨?_, by simp [codelet3, Lin.depth], ?_⟩
      · simp only [codelet3, one_ne_zero, if_false, if_true, Lin.Proper]
        exact ⟨by norm_num, hs _ h30 h32, by norm_num⟩
      · simp only [codelet3, one_ne_zero, if_false, if_true, Lin.gain]
        linarith
    · refine ⟨?_, by simp [codelet3, Lin.depth], ?_⟩
      · simp only [codelet3, show (2 : ℕ) ≠ 0 by decide, show (2 : ℕ) ≠ 1 by decide, if_false, Lin.Proper]
        exact ⟨by norm_num, hs _ h30 h32, by norm_num⟩
      · simp only [codelet3, show (2 : ℕ) ≠ 0 by decide, show (2 : ℕ) ≠ 1 by decide, if_false, Lin.gain]
        linarith

/-- It is moderate. So is term-by-term summation at 11 for both ways of matching and at 19 for correlations. -/
example : Moderate .psd 3 2 4 ∧ Moderate .psd 11 (2 * 11) (2 * 11 : ℕ) ∧ Moderate .correlation 19 (2 * 19) (2 * 19 : ℕ) ∧
    (∃ rd, NearestDouble rd ∧ Transforms (codelet3 rd) 3 2 4) ∧ ∃ q, OfType 3 .quaternionType q := by
  refine ⟨.inr (.inr ⟨by norm_num, by norm_num⟩), .inr (.inr ⟨by norm_num, by norm_num⟩), .inl ⟨rfl, by norm_num, by norm_num⟩, ?_, ?_⟩
  · obtain ⟨rd, h⟩ := Binary64.exists_nearest
    exact ⟨rd, h, codelet3_transforms rd h⟩
  · exact ⟨exWS3, (C08_verify_qts 3 exWS3 exWS3_pm).1 (by decide)⟩

end Props
