import Verif.Proofs.FastTransform
import Verif.Proofs.DoubleEval

/-!
# Helper lemmas: evaluating the fast transform in double precision

As in `DoubleEval`: all possible results, with either choice for ties, as lists of integers scaled by `2 ^ 54`.
-/

set_option linter.unusedSectionVars false
set_option linter.unusedVariables false
set_option linter.unusedSimpArgs false

namespace Proofs.FastEval
open Model Spec Proofs Proofs.Binary64 Proofs.DoubleEval Proofs.FastTransform

variable {rd : ℝ → ℝ}

/-- All results for a complex number. -/
abbrev Cand := List ℤ × List ℤ

theorem sub_oneOf (h : NearestDouble rd) {c : ℤ} (h3 : -1074 ≤ c) (h4 : c ≤ 0) {S T U : List ℤ} {o p : Option ℝ}
    (ho : OneOf c S o) (hp : OneOf c T p) (hU : opS (· - ·) S T = some U) :
    OneOf c U (binDouble rd (· - ·) o p) := by
  obtain ⟨s, hs, rfl⟩ := ho
  obtain ⟨t, ht, rfl⟩ := hp
  unfold opS at hU
  split at hU
  · rename_i hall
    have hall := List.all_eq_true.1 (List.all_eq_true.1 hall s hs) t ht
    obtain ⟨k, hk, he⟩ := round_near h h3 h4 (of_decide_eq_true hall)
    refine ⟨k, ?_, ?_⟩
    · rw [← Option.some.inj hU, List.mem_dedup]
      exact List.mem_flatMap.2 ⟨s, hs, List.mem_flatMap.2 ⟨t, ht, hk⟩⟩
    · unfold binDouble
      rw [← he]
      simp only [Option.bind_some]
      congr 1
      push_cast
      ring
  · cases hU

/-- All results of a multiplication by the stored number `m / 2 ^ 54`. -/
def mulS (m : ℤ) (S : List ℤ) : Option (List ℤ) :=
  (opS (· * ·) [m] S).bind fun U => if U.all (fun k => k % 2 ^ 54 == 0) then some (U.map (· / 2 ^ 54)) else none

theorem mulS_oneOf (h : NearestDouble rd) {m : ℤ} {S U : List ℤ} {o : Option ℝ} {s : ℝ}
    (hs : s = m * (2 : ℝ) ^ (-54 : ℤ)) (ho : OneOf (-54) S o) (hU : mulS m S = some U) :
    OneOf (-54) U (o.bind fun v => roundDouble rd (s * v)) := by
  unfold mulS at hU
  cases hV : opS (· * ·) [m] S with
  | none => rw [hV] at hU; cases hU
  | some V =>
    rw [hV, Option.bind_some] at hU
    split at hU
    · rename_i hall
      obtain rfl := Option.some.inj hU
      obtain ⟨k, hk, he⟩ := mul_oneOf h (c := -54) (c' := -54) (by norm_num) (by norm_num)
        (o := some s) ⟨m, List.mem_singleton.2 rfl, by rw [hs]⟩ ho hV
      refine ⟨k / 2 ^ 54, List.mem_map.2 ⟨k, hk, rfl⟩, ?_⟩
      have e : (o.bind fun v => roundDouble rd (s * v)) = binDouble rd (· * ·) (some s) o := rfl
      rw [e, he]
      have hd : k % 2 ^ 54 = 0 := by simpa using List.all_eq_true.1 hall k hk
      have hk2 : (k : ℝ) = ((k / 2 ^ 54 : ℤ) : ℝ) * 2 ^ 54 := by
        have : k = k / 2 ^ 54 * 2 ^ 54 := by omega
        exact_mod_cast this
      congr 1
      rw [hk2, zpow_add₀ (by norm_num)]
      have : (2 : ℝ) ^ (-54 : ℤ) = 1 / 2 ^ 54 := by rw [zpow_neg, one_div]; rfl
      rw [this]
      field_simp
    · cases hU

/-- The results are among the candidates. -/
def Eval (rd : ℝ → ℝ) (y : ℕ → Option ℝ) (z : Lin × Lin) (U : Cand) : Prop :=
  OneOf (-54) U.1 (z.1.run rd y) ∧ OneOf (-54) U.2 (z.2.run rd y)

def twistS (c s : ℤ) (z : Cand) : Option Cand :=
  (mulS c z.1).bind fun a => (mulS s z.2).bind fun b => (mulS c z.2).bind fun d => (mulS s z.1).bind fun e =>
    (opS (· - ·) a b).bind fun u => (opS (· + ·) d e).bind fun v => some (u, v)

theorem twist_eval (h : NearestDouble rd) {y : ℕ → Option ℝ} {z : Lin × Lin} {Z U : Cand} (hz : Eval rd y z Z) {θ : ℝ}
    {c s : ℤ} (hc : rd (Real.cos θ) = c * (2 : ℝ) ^ (-54 : ℤ)) (hs : rd (Real.sin θ) = s * (2 : ℝ) ^ (-54 : ℤ))
    (hU : twistS c s Z = some U) : Eval rd y (twist rd θ z) U := by
  unfold twistS at hU
  simp only [Option.bind_eq_some_iff] at hU
  obtain ⟨a, ha, b, hb, d, hd, e, he, u, hu, v, hv, hUV⟩ := hU
  obtain rfl := Option.some.inj hUV
  exact ⟨sub_oneOf h (by norm_num) (by norm_num) (mulS_oneOf h hc hz.1 ha) (mulS_oneOf h hs hz.2 hb) hu,
    add_oneOf h (by norm_num) (by norm_num) (mulS_oneOf h hc hz.2 hd) (mulS_oneOf h hs hz.1 he) hv⟩

def csumS (t : ℕ → Option Cand) : ℕ → Option Cand
  | 0 => t 0
  | m + 1 => (csumS t m).bind fun a => (t (m + 1)).bind fun b =>
      (opS (· + ·) a.1 b.1).bind fun u => (opS (· + ·) a.2 b.2).bind fun v => some (u, v)

theorem csum_eval (h : NearestDouble rd) {y : ℕ → Option ℝ} {t : ℕ → Lin × Lin} {T : ℕ → Option Cand} :
    ∀ (m : ℕ), (∀ r ≤ m, ∀ U, T r = some U → Eval rd y (t r) U) → ∀ U, csumS T m = some U → Eval rd y (csum t m) U
  | 0, ht, U, hU => ht 0 le_rfl U hU
  | m + 1, ht, U, hU => by
      rw [csumS] at hU
      simp only [Option.bind_eq_some_iff] at hU
      obtain ⟨a, ha, b, hb, u, hu, v, hv, hUV⟩ := hU
      obtain rfl := Option.some.inj hUV
      have ih := csum_eval h m (fun r hr => ht r (by omega)) a ha
      have hb' := ht (m + 1) le_rfl b hb
      exact ⟨add_oneOf h (by norm_num) (by norm_num) ih.1 hb'.1 hu, add_oneOf h (by norm_num) (by norm_num) ih.2 hb'.2 hv⟩

/-- The number of eighths of a turn in `2 π a / n`. -/
def eighth (n : ℕ) (a : ℤ) : Option ℕ := if (8 * a) % n = 0 then some (((8 * a) / n) % 8).toNat else none

theorem eighth_angle {n : ℕ} (hn : n ≠ 0) {a : ℤ} {b : ℕ} (h : eighth n a = some b) : b < 8 ∧
    Real.cos (turnAngle n a) = Real.cos (b * (Real.pi / 4)) ∧ Real.sin (turnAngle n a) = Real.sin (b * (Real.pi / 4)) := by
  unfold eighth at h
  split at h
  · rename_i h0
    obtain rfl := Option.some.inj h
    obtain ⟨q, hq⟩ := Int.dvd_of_emod_eq_zero h0
    have hn' : (n : ℤ) ≠ 0 := by exact_mod_cast hn
    have e1 : 8 * a / n = q := by rw [hq, Int.mul_ediv_cancel_left _ hn']
    rw [e1]
    have hr := Int.emod_nonneg q (by norm_num : (8 : ℤ) ≠ 0)
    have hr2 := Int.emod_lt_of_pos q (by norm_num : (0 : ℤ) < 8)
    have hc : ((q % 8).toNat : ℤ) = q % 8 := Int.toNat_of_nonneg hr
    refine ⟨by omega, ?_⟩
    have hcr : (((q % 8).toNat : ℕ) : ℝ) = ((q % 8 : ℤ) : ℝ) := by exact_mod_cast hc
    have hq2 : (q : ℝ) = 8 * ((q / 8 : ℤ) : ℝ) + ((q % 8 : ℤ) : ℝ) := by exact_mod_cast (Int.mul_ediv_add_emod q 8).symm
    have e2 : turnAngle n a = ((q % 8).toNat : ℝ) * (Real.pi / 4) + ((q / 8 : ℤ) : ℝ) * (2 * Real.pi) := by
      unfold turnAngle
      have hnr : (n : ℝ) ≠ 0 := by exact_mod_cast hn
      have h8 : (8 : ℝ) * a = n * q := by exact_mod_cast hq
      rw [hcr, div_eq_iff hnr]
      have : (a : ℝ) = n * q / 8 := by linarith
      rw [this]
      linear_combination (Real.pi * n / 4) * hq2
    rw [e2, Real.cos_add_int_mul_two_pi, Real.sin_add_int_mul_two_pi]
    exact ⟨rfl, rfl⟩
  · cases h

theorem rd_of {x v : ℝ} (hx : |x| ≤ 1) (h : roundDouble rd x = some v) : rd x = v := by
  unfold roundDouble at h
  rw [if_pos ((hx.trans (one_le_pow₀ one_le_two)).trans max_large)] at h
  exact Option.some.inj h

theorem rd_eighth (h : NearestDouble rd) (b : ℕ) (hb : b < 8) :
    rd (Real.cos (b * (Real.pi / 4))) = cosS b * (2 : ℝ) ^ (-54 : ℤ) ∧
    rd (Real.sin (b * (Real.pi / 4))) = sinS b * (2 : ℝ) ^ (-54 : ℤ) := by
  obtain ⟨b', _, hbb, h1, h2⟩ := angle b
  rw [Nat.mod_eq_of_lt hb] at hbb
  subst hbb
  have c := cosDouble_eq h b'
  have s := sinDouble_eq h b'
  unfold cosDouble at c
  unfold sinDouble at s
  rw [h1] at c
  rw [h2] at s
  exact ⟨rd_of (Real.abs_cos_le_one _) c, rd_of (Real.abs_sin_le_one _) s⟩

/-- All results of the fast transform, if only multiples of 45 degrees occur. -/
def fastS (sg : ℤ) : List ℕ → (ℕ → Cand) → ℕ → Option Cand
  | [], X, _ => some (X 0)
  | p :: fs, X, k =>
    csumS (fun r => (eighth (p * fs.prod) (sg * (r * k : ℕ))).bind fun b =>
      (fastS sg fs (fun j => X (j * p + r)) (k % fs.prod)).bind fun Z => twistS (cosS b) (sinS b) Z) (p - 1)

theorem fast_eval (h : NearestDouble rd) (sg : ℤ) {y : ℕ → Option ℝ} : ∀ (fs : List ℕ), (∀ p ∈ fs, p ≠ 0) →
    ∀ (x : ℕ → Lin × Lin) (X : ℕ → Cand), (∀ j < fs.prod, Eval rd y (x j) (X j)) → ∀ k U, fastS sg fs X k = some U →
      Eval rd y (fast rd sg fs x k) U
  | [], _, x, X, hx, k, U, hU => by
      obtain rfl := Option.some.inj hU
      exact hx 0 (by simp)
  | p :: fs, h0, x, X, hx, k, U, hU => by
      have hp : p ≠ 0 := h0 p List.mem_cons_self
      have hfs : ∀ q ∈ fs, q ≠ 0 := fun q hq => h0 q (List.mem_cons_of_mem _ hq)
      have hm : fs.prod ≠ 0 := List.prod_ne_zero (fun h0 => hfs 0 h0 rfl)
      rw [fastS] at hU
      rw [fast]
      refine csum_eval h _ (fun r hr V hV => ?_) U hU
      simp only [Option.bind_eq_some_iff] at hV
      obtain ⟨b, hb, Z, hZ, hV⟩ := hV
      obtain ⟨hb8, hc, hs⟩ := eighth_angle (Nat.mul_ne_zero hp hm) hb
      have ih := fast_eval h sg (y := y) fs hfs (fun j => x (j * p + r)) (fun j => X (j * p + r)) (fun j hj => hx _ (by
        rw [List.prod_cons]
        calc j * p + r < j * p + p := by omega
          _ = p * (j + 1) := by ring
          _ ≤ p * fs.prod := Nat.mul_le_mul_left _ hj)) (k % fs.prod) Z hZ
      obtain ⟨r1, r2⟩ := rd_eighth h b hb8
      exact twist_eval h ih (by rw [hc]; exact r1) (by rw [hs]; exact r2) hV

/-- All values of the power spectrum of `x` at frequency `k`, times `2 ^ 108`. -/
def powerS (fs : List ℕ) (x : List ℤ) (k : ℕ) : Option (List ℤ) :=
  (fastS (-1) fs (fun j => ([x.getD j 0 * 2 ^ 54], [0])) k).bind fun z =>
    (sqS z.1).bind fun a => (sqS z.2).bind fun b => opS (· + ·) a b

theorem power_oneOf (h : NearestDouble rd) {fs : ℕ → List ℕ} {n : ℕ} [NeZero n] (hf : (fs n).prod = n) {x : List ℤ}
    (hx : PMSeq n x) {k : ℕ} (hk : k ≤ n / 2) {U : List ℤ} (hU : powerS (fs n) x k = some U) :
    OneOf (-108) U (((dftSequence (libraryFl rd (fastLib rd fs)) x).map (libraryFl rd (fastLib rd fs)).normSqr).getD k none) := by
  have hn := NeZero.ne n
  have h0 : ∀ p ∈ fs n, p ≠ 0 := fun p hp h0 => hn (by rw [← hf]; exact List.prod_eq_zero (h0 ▸ hp))
  have e54 : (2 : ℝ) ^ (-54 : ℤ) = 1 / 2 ^ 54 := by rw [zpow_neg, one_div]; rfl
  set l := x.map fun a => (libraryFl rd (fastLib rd fs)).ofInt a with hl
  have hlen : l.length = n := by rw [hl, List.length_map]; exact hx.1
  have hget : ∀ j, j < n → l.getD j none = some ((x.getD j 0 : ℤ) : ℝ) := by
    intro j hj
    have hj' : j < x.length := by rw [hx.1]; exact hj
    rw [List.getD_eq_getElem _ _ (by rw [hlen]; exact hj), List.getD_eq_getElem _ _ hj']
    simp only [hl, List.getElem_map]
    refine round_exact h (double_int ?_)
    rcases hx.2 _ (List.getElem_mem hj') with e | e <;> rw [e] <;> norm_num
  unfold powerS at hU
  simp only [Option.bind_eq_some_iff] at hU
  obtain ⟨z, hz, a, ha, b, hb, hab⟩ := hU
  have ev := fast_eval h (-1) (y := fun j => l.getD j none) (fs n) h0 (fun j => (.input j, .scale 0 0 (.input j)))
    (fun j => ([x.getD j 0 * 2 ^ 54], [0])) (fun j hj => by
      rw [hf] at hj
      refine ⟨⟨_, List.mem_singleton.2 rfl, ?_⟩, ⟨0, List.mem_singleton.2 rfl, ?_⟩⟩
      · simp only [Lin.run]
        rw [hget j hj, e54]
        congr 1
        push_cast
        field_simp
        norm_num
      · simp only [Lin.run]
        rw [hget j hj, Option.bind_some, zero_mul]
        have := round_exact h (double_int (z := 0) (by norm_num))
        simpa using this) k z hz
  have q1 := sq_oneOf h (by norm_num) (by norm_num) ev.1 ha
  have q2 := sq_oneOf h (by norm_num) (by norm_num) ev.2 hb
  have := add_oneOf h (by norm_num) (by norm_num) q1 q2 hab
  have e3 : ((dftSequence (libraryFl rd (fastLib rd fs)) x).map (libraryFl rd (fastLib rd fs)).normSqr).getD k none =
      (libraryFl rd (fastLib rd fs)).normSqr (((fastLib rd fs).fwd n k).1.run rd (fun j => l.getD j none),
        ((fastLib rd fs).fwd n k).2.run rd fun j => l.getD j none) := by
    have : dftSequence (libraryFl rd (fastLib rd fs)) x = (List.range (l.length / 2 + 1)).map fun k =>
      (((fastLib rd fs).fwd l.length k).1.run rd (fun j => l.getD j none),
        ((fastLib rd fs).fwd l.length k).2.run rd fun j => l.getD j none) := rfl
    rw [this, hlen, List.getD_eq_getElem _ _ (by simp; omega)]
    simp
  rw [e3]
  exact this

/-- The filter discards the pair if every value of the sum at some frequency is beyond the bound. -/
theorem discards (h : NearestDouble rd) {fs : ℕ → List ℕ} {n : ℕ} [NeZero n] (hn : n < 1000) (hf : (fs n).prod = n)
    {x y : List ℤ} (hx : PMSeq n x) (hy : PMSeq n y) {k : ℕ} (h1 : 1 ≤ k) (hk : k ≤ n / 2) {U V W : List ℤ}
    (hU : powerS (fs n) x k = some U) (hV : powerS (fs n) y k = some V) (hW : opS (· + ·) U V = some W)
    (hall : ∀ w ∈ W, 4 * n * 2 ^ 108 < w) :
    boundExceeded (libraryFl rd (fastLib rd fs))
      ((dftSequence (libraryFl rd (fastLib rd fs)) x).map (libraryFl rd (fastLib rd fs)).normSqr)
      ((dftSequence (libraryFl rd (fastLib rd fs)) y).map (libraryFl rd (fastLib rd fs)).normSqr)
      ((libraryFl rd (fastLib rd fs)).mul ((libraryFl rd (fastLib rd fs)).lit 4 1)
        ((libraryFl rd (fastLib rd fs)).ofInt n)) = true := by
  have l : ∀ z, PMSeq n z →
      ((dftSequence (libraryFl rd (fastLib rd fs)) z).map (libraryFl rd (fastLib rd fs)).normSqr).length = n / 2 + 1 := by
    intro z hz
    unfold dftSequence libraryFl
    dsimp only
    simp [hz.1]
  have hu := power_oneOf h hf hx hk hU
  have hv := power_oneOf h hf hy hk hV
  obtain ⟨w, hw, he⟩ := add_oneOf h (by norm_num) (by norm_num) hu hv hW
  have lx := l x hx
  have ly := l y hy
  have hb : (libraryFl rd (fastLib rd fs)).mul ((libraryFl rd (fastLib rd fs)).lit 4 1)
      ((libraryFl rd (fastLib rd fs)).ofInt n) = some (4 * (n : ℝ)) := by
    change binDouble rd (· * ·) (roundDouble rd _) (roundDouble rd _) = _
    have r : ∀ z : ℤ, |z| < 2 ^ 53 → roundDouble rd (z : ℝ) = some (z : ℝ) := fun z hz => round_exact h (double_int hz)
    have r4 := r 4 (by norm_num)
    have rn := r n (by rw [abs_of_nonneg (by positivity)]; omega)
    have r4n := r (4 * n) (by rw [abs_of_nonneg (by positivity)]; omega)
    push_cast at r4 rn r4n
    norm_num at r4
    have e4 : (((4 : ℤ) : ℝ) / ((1 : ℕ) : ℝ)) = 4 := by norm_num
    rw [e4, r4]
    push_cast
    rw [rn]
    exact r4n
  rw [hb]
  generalize (dftSequence (libraryFl rd (fastLib rd fs)) x).map (libraryFl rd (fastLib rd fs)).normSqr = a at *
  generalize (dftSequence (libraryFl rd (fastLib rd fs)) y).map (libraryFl rd (fastLib rd fs)).normSqr = b at *
  unfold boundExceeded
  rw [List.any_eq_true]
  refine ⟨(a.getD k none, b.getD k none), ?_, ?_⟩
  · rw [List.mem_iff_getElem]
    refine ⟨k - 1, by simp [lx, ly]; omega, ?_⟩
    simp only [List.getElem_drop, List.getElem_zip]
    rw [List.getD_eq_getElem _ _ (by omega), List.getD_eq_getElem _ _ (by omega)]
    congr 2 <;> omega
  · have hadd : (libraryFl rd (fastLib rd fs)).add (a.getD k none) (b.getD k none) = _ := he
    simp only [hadd]
    unfold libraryFl doubleFl
    simp only [decide_eq_true_eq]
    refine ⟨_, rfl, _, rfl, ?_⟩
    have := hall w hw
    have h1 : (4 * n * 2 ^ 108 : ℝ) < w := by exact_mod_cast this
    have e108 : (2 : ℝ) ^ (-108 : ℤ) = 1 / 2 ^ 108 := by rw [zpow_neg, one_div]; rfl
    rw [e108, gt_iff_lt, mul_one_div, lt_div_iff₀ (by positivity)]
    exact h1

end Proofs.FastEval
