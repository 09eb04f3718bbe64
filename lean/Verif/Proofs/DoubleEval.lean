import Verif.Proofs.Binary64

/-!
# Helper lemmas: evaluating expressions in double precision

`near z` lists the integers to which `z` may be rounded when 53 bits are kept, with either choice for ties. Scaled by a
power of 2 these are the possible results of a rounding to nearest.
-/

set_option linter.unusedSectionVars false
set_option linter.unusedVariables false
set_option linter.unusedSimpArgs false

namespace Proofs.DoubleEval
open Model Spec Proofs Proofs.Binary64

/-- `d` is a nearest number of the format. -/
def IsNear (x d : ℝ) : Prop := Double d ∧ ∀ y, Double y → |d - x| ≤ |y - x|

theorem IsNear.neg {x d : ℝ} (h : IsNear x d) : IsNear (-x) (-d) := by
  refine ⟨double_neg h.1, fun y hy => ?_⟩
  have := h.2 (-y) (double_neg hy)
  rw [show -d - -x = -(d - x) by ring, abs_neg, show y - -x = -(-y - x) by ring, abs_neg]
  exact this

theorem double_grid {q c : ℤ} (h1 : 0 ≤ q) (h2 : q ≤ 2 ^ 53) (h3 : -1074 ≤ c) (h4 : c ≤ 970) :
    Double ((q : ℝ) * (2 : ℝ) ^ c) := by
  rcases lt_or_eq_of_le h2 with h | h
  · exact ⟨q, c, by rw [abs_of_nonneg h1]; exact h, h3, by omega, rfl⟩
  · refine ⟨2 ^ 52, c + 1, by norm_num, by omega, by omega, ?_⟩
    rw [h, zpow_add_one₀ (by norm_num)]
    push_cast
    ring

/-- Between two neighbours on the grid of a binade there is no other number of the format. -/
theorem core {x d : ℝ} {q c : ℤ} (h1 : 2 ^ 52 ≤ q) (h2 : q < 2 ^ 53) (h3 : -1074 ≤ c) (h4 : c ≤ 970)
    (hx1 : (q : ℝ) * (2 : ℝ) ^ c ≤ x) (hx2 : x ≤ ((q + 1 : ℤ) : ℝ) * (2 : ℝ) ^ c) (hd : IsNear x d) :
    (d = q * (2 : ℝ) ^ c ∧ 2 * x ≤ (2 * q + 1) * (2 : ℝ) ^ c) ∨
      (d = ((q + 1 : ℤ) : ℝ) * (2 : ℝ) ^ c ∧ (2 * q + 1) * (2 : ℝ) ^ c ≤ 2 * x) := by
  have p : (0 : ℝ) < (2 : ℝ) ^ c := by positivity
  have a1 := hd.2 _ (double_grid (q := q) (c := c) (by omega) (by omega) h3 h4)
  have a2 := hd.2 _ (double_grid (q := q + 1) (c := c) (by omega) (by omega) h3 h4)
  rw [abs_of_nonpos (by linarith : (q : ℝ) * (2 : ℝ) ^ c - x ≤ 0)] at a1
  rw [abs_of_nonneg (by linarith : 0 ≤ ((q + 1 : ℤ) : ℝ) * (2 : ℝ) ^ c - x)] at a2
  have b1 := (abs_le.1 a1).1
  have b2 := (abs_le.1 a2).2
  rcases lt_trichotomy d ((q : ℝ) * (2 : ℝ) ^ c) with h | h | h
  · exact absurd (abs_le.1 a1).1 (by push Not; linarith)
  · left
    refine ⟨h, ?_⟩
    have := (abs_le.1 a2).1
    push_cast at this
    rw [h] at this
    linarith
  · rcases lt_trichotomy d (((q + 1 : ℤ) : ℝ) * (2 : ℝ) ^ c) with h' | h' | h'
    · exfalso
      obtain ⟨m, e, hm, _, _, rfl⟩ := hd.1
      rcases le_or_gt c e with he | he
      · obtain ⟨k, rfl⟩ := Int.le.dest he
        have e2 : (2 : ℝ) ^ (c + (k : ℤ)) = 2 ^ c * ((2 ^ k : ℤ) : ℝ) := by
          rw [zpow_add₀ (by norm_num), zpow_natCast]; push_cast; rfl
        have e3 : (m : ℝ) * (2 : ℝ) ^ (c + (k : ℤ)) = ((m * 2 ^ k : ℤ) : ℝ) * 2 ^ c := by
          rw [e2]; push_cast; ring
        rw [e3] at h h'
        have i1 := lt_of_mul_lt_mul_right h p.le
        have i2 := lt_of_mul_lt_mul_right h' p.le
        have j1 : q < m * 2 ^ k := by exact_mod_cast i1
        have j2 : m * 2 ^ k < q + 1 := by exact_mod_cast i2
        omega
      · have p1 : (2 : ℝ) ^ e ≤ 2 ^ (c - 1) := zpow_le_zpow_right₀ one_le_two (by omega)
        have p2 : (2 : ℝ) ^ c = 2 ^ (c - 1) * 2 := by rw [← zpow_add_one₀ (by norm_num)]; congr 1; ring
        have hm' : (m : ℝ) ≤ 2 ^ 53 := by
          have := (abs_lt.1 hm).2.le
          exact_mod_cast this
        have hq : (2 : ℝ) ^ 52 ≤ q := by exact_mod_cast h1
        have pp : (0 : ℝ) < (2 : ℝ) ^ e := by positivity
        have : (m : ℝ) * 2 ^ e ≤ 2 ^ 53 * 2 ^ (c - 1) :=
          (mul_le_mul_of_nonneg_right hm' pp.le).trans (mul_le_mul_of_nonneg_left p1 (by positivity))
        have : (2 : ℝ) ^ 52 * 2 ^ c ≤ q * 2 ^ c := mul_le_mul_of_nonneg_right hq p.le
        rw [p2] at this h
        norm_num at *
        linarith
    · right
      refine ⟨h', ?_⟩
      have := (abs_le.1 a1).2
      rw [h'] at this
      push_cast at this
      linarith
    · exact absurd (abs_le.1 a2).2 (by push Not; linarith)

/-- Keep 53 bits of a natural number. -/
def nearNat (z : ℕ) : List ℕ :=
  let e := z.log2 - 52
  let q := z / 2 ^ e
  let r := z % 2 ^ e
  if 2 * r < 2 ^ e then [q * 2 ^ e]
  else if 2 ^ e < 2 * r then [(q + 1) * 2 ^ e]
  else [q * 2 ^ e, (q + 1) * 2 ^ e]

def near (z : ℤ) : List ℤ :=
  if 0 ≤ z then (nearNat z.toNat).map (fun k : ℕ => (k : ℤ)) else (nearNat (-z).toNat).map (fun k : ℕ => -(k : ℤ))

theorem nearNat_mem {z : ℕ} {c : ℤ} (h3 : -1074 ≤ c) (h4 : c ≤ 0) (hz : z < 2 ^ 250) {d : ℝ}
    (hd : IsNear ((z : ℝ) * (2 : ℝ) ^ c) d) : ∃ k ∈ nearNat z, d = (k : ℝ) * (2 : ℝ) ^ c := by
  unfold nearNat
  dsimp only
  by_cases hsmall : z < 2 ^ 53
  · have hl : z.log2 - 52 = 0 := by
      by_cases h0 : z = 0
      · subst h0; rfl
      · have := (Nat.log2_lt h0).2 hsmall
        omega
    rw [hl]
    have hD : Double ((z : ℝ) * (2 : ℝ) ^ c) := by
      have := double_grid (q := z) (c := c) (by omega) (by omega) h3 (by omega)
      simpa using this
    refine ⟨z, by simp [Nat.mod_one], ?_⟩
    have := hd.2 _ hD
    rw [sub_self, abs_zero] at this
    exact sub_eq_zero.1 (abs_nonpos_iff.1 this)
  · have h0 : z ≠ 0 := by rintro rfl; simp at hsmall
    have hge : 53 ≤ z.log2 := (Nat.le_log2 h0).2 (by omega)
    have hlt : z.log2 < 250 := (Nat.log2_lt h0).2 hz
    obtain ⟨e, he⟩ : ∃ e, z.log2 = e + 52 := ⟨z.log2 - 52, by omega⟩
    rw [he, Nat.add_sub_cancel]
    have l1 : 2 ^ (e + 52) ≤ z := by rw [← he]; exact Nat.log2_self_le h0
    have l2 : z < 2 ^ (e + 53) := by
      have := Nat.lt_log2_self (n := z)
      rwa [he] at this
    have pe : 0 < 2 ^ e := by positivity
    have q1 : 2 ^ 52 ≤ z / 2 ^ e := (Nat.le_div_iff_mul_le pe).2 (by rw [← pow_add, add_comm]; exact l1)
    have q2 : z / 2 ^ e < 2 ^ 53 := (Nat.div_lt_iff_lt_mul pe).2 (by rw [← pow_add, add_comm]; exact l2)
    have hdm := Nat.div_add_mod z (2 ^ e)
    have hr := Nat.mod_lt z pe
    generalize z / 2 ^ e = q at *
    generalize z % 2 ^ e = r at *
    have p : (0 : ℝ) < (2 : ℝ) ^ c := by positivity
    have ez : (z : ℝ) = q * 2 ^ e + r := by
      rw [← hdm]; push_cast; ring
    have hr' : (r : ℝ) ≤ 2 ^ e := by exact_mod_cast hr.le
    have ec : (2 : ℝ) ^ (c + (e : ℤ)) = 2 ^ c * 2 ^ e := by rw [zpow_add₀ (by norm_num), zpow_natCast]
    have x1 : ((q : ℤ) : ℝ) * (2 : ℝ) ^ (c + (e : ℤ)) ≤ (z : ℝ) * 2 ^ c := by
      rw [ec, ez, Int.cast_natCast]
      have : (0 : ℝ) ≤ r * 2 ^ c := mul_nonneg (Nat.cast_nonneg _) p.le
      clear * - this
      linarith
    have x2 : (z : ℝ) * 2 ^ c ≤ (((q : ℤ) + 1 : ℤ) : ℝ) * (2 : ℝ) ^ (c + (e : ℤ)) := by
      rw [ec, ez, Int.cast_add, Int.cast_natCast, Int.cast_one]
      have := mul_le_mul_of_nonneg_right hr' p.le
      clear * - this
      linarith
    have q1' : (2 : ℤ) ^ 52 ≤ (q : ℤ) := by
      clear * - q1
      omega
    have q2' : (q : ℤ) < (2 : ℤ) ^ 53 := by
      clear * - q2
      omega
    have c1 : -1074 ≤ c + (e : ℤ) := by
      clear * - h3
      omega
    have c2 : c + (e : ℤ) ≤ 970 := by
      clear * - h4 hlt he
      omega
    have hc := core q1' q2' c1 c2 x1 x2 hd
    rw [ec] at hc
    push_cast at hc
    have lo : 2 * ((z : ℝ) * 2 ^ c) ≤ (2 * q + 1) * (2 ^ c * 2 ^ e) → 2 * r ≤ 2 ^ e := by
      intro h
      rw [ez] at h
      have : (2 * (r : ℝ)) * 2 ^ c ≤ 2 ^ e * 2 ^ c := by
        clear * - h
        linarith
      have := le_of_mul_le_mul_right this p
      exact_mod_cast this
    have hi : (2 * q + 1) * ((2 : ℝ) ^ c * 2 ^ e) ≤ 2 * ((z : ℝ) * 2 ^ c) → 2 ^ e ≤ 2 * r := by
      intro h
      rw [ez] at h
      have : (2 : ℝ) ^ e * 2 ^ c ≤ (2 * r) * 2 ^ c := by
        clear * - h
        linarith
      have := le_of_mul_le_mul_right this p
      exact_mod_cast this
    rcases hc with ⟨hdv, hb⟩ | ⟨hdv, hb⟩
    · have := lo hb
      refine ⟨q * 2 ^ e, ?_, by rw [hdv]; push_cast; ring⟩
      split
      · simp
      · rw [if_neg (by clear * - this; omega)]; simp
    · have := hi hb
      refine ⟨(q + 1) * 2 ^ e, ?_, by rw [hdv]; push_cast; ring⟩
      rw [if_neg (by clear * - this; omega)]
      split <;> simp

theorem near_mem {z : ℤ} {c : ℤ} (h3 : -1074 ≤ c) (h4 : c ≤ 0) (hz : |z| < 2 ^ 250) {d : ℝ}
    (hd : IsNear ((z : ℝ) * (2 : ℝ) ^ c) d) : ∃ k ∈ near z, d = (k : ℝ) * (2 : ℝ) ^ c := by
  unfold near
  split
  · rename_i h
    have e : (z : ℝ) = (z.toNat : ℝ) := by
      have : (z.toNat : ℤ) = z := Int.toNat_of_nonneg h
      exact_mod_cast this.symm
    rw [e] at hd
    obtain ⟨k, hk, rfl⟩ := nearNat_mem h3 h4 (by
      rw [abs_of_nonneg h] at hz
      have : (z.toNat : ℤ) = z := Int.toNat_of_nonneg h
      zify
      rw [this]; exact hz) hd
    exact ⟨k, List.mem_map.2 ⟨k, hk, rfl⟩, by simp⟩
  · rename_i h
    have e : -(z : ℝ) = ((-z).toNat : ℝ) := by
      have : ((-z).toNat : ℤ) = -z := Int.toNat_of_nonneg (by omega)
      have h2 : (((-z).toNat : ℤ) : ℝ) = ((-z : ℤ) : ℝ) := by rw [this]
      push_cast at h2
      exact h2.symm
    have hd := hd.neg
    rw [← neg_mul, e] at hd
    obtain ⟨k, hk, hk2⟩ := nearNat_mem h3 h4 (by
      rw [abs_of_neg (by omega)] at hz
      have : ((-z).toNat : ℤ) = -z := Int.toNat_of_nonneg (by omega)
      zify
      rw [this]; exact hz) hd
    refine ⟨-k, List.mem_map.2 ⟨k, hk, rfl⟩, ?_⟩
    push_cast
    linarith

variable {rd : ℝ → ℝ}

theorem round_near (h : NearestDouble rd) {z c : ℤ} (h3 : -1074 ≤ c) (h4 : c ≤ 0) (hz : |z| < 2 ^ 250) :
    ∃ k ∈ near z, roundDouble rd ((z : ℝ) * (2 : ℝ) ^ c) = some ((k : ℝ) * (2 : ℝ) ^ c) := by
  have hm : |(z : ℝ) * (2 : ℝ) ^ c| ≤ maxDouble := by
    refine le_trans ?_ max_large
    have p : (0 : ℝ) < (2 : ℝ) ^ c := by positivity
    have p1 : (2 : ℝ) ^ c ≤ 1 := zpow_le_one_of_nonpos₀ one_le_two h4
    have hz' : |(z : ℝ)| ≤ 2 ^ 250 := by exact_mod_cast hz.le
    rw [abs_mul, abs_of_pos p]
    calc |(z : ℝ)| * 2 ^ c ≤ |(z : ℝ)| * 1 := mul_le_mul_of_nonneg_left p1 (abs_nonneg _)
      _ ≤ 2 ^ 250 := by rw [mul_one]; exact hz'
  obtain ⟨k, hk, he⟩ := near_mem h3 h4 hz (h _ hm)
  exact ⟨k, hk, by unfold roundDouble; rw [if_pos hm, he]⟩

/-- The result is one of the numbers `k * 2 ^ c` with `k` in `S`. -/
def OneOf (c : ℤ) (S : List ℤ) (o : Option ℝ) : Prop := ∃ k ∈ S, o = some ((k : ℝ) * (2 : ℝ) ^ c)

/-- All results of an operation. `none` if a result may be too large for `round_near`. -/
def opS (f : ℤ → ℤ → ℤ) (S T : List ℤ) : Option (List ℤ) :=
  if S.all (fun s => T.all fun t => decide (|f s t| < 2 ^ 250)) then
    some (S.flatMap fun s => T.flatMap fun t => near (f s t)).dedup
  else none

theorem add_oneOf (h : NearestDouble rd) {c : ℤ} (h3 : -1074 ≤ c) (h4 : c ≤ 0) {S T U : List ℤ} {o p : Option ℝ}
    (ho : OneOf c S o) (hp : OneOf c T p) (hU : opS (· + ·) S T = some U) :
    OneOf c U (binDouble rd (· + ·) o p) := by
  obtain ⟨s, hs, rfl⟩ := ho
  obtain ⟨t, ht, rfl⟩ := hp
  unfold opS at hU
  split at hU
  · rename_i hall
    have hall := List.all_eq_true.1 (List.all_eq_true.1 hall s hs) t ht
    obtain ⟨k, hk, he⟩ := round_near h h3 h4 (of_decide_eq_true hall)
    refine ⟨k, ?_, ?_⟩
    · rw [← Option.some.inj hU, List.mem_dedup]
      exact List.mem_flatMap.2 ⟨s, hs, List.mem_flatMap.2 ⟨t, ht, hk⟩⟩
    · unfold binDouble
      rw [← he]
      simp only [Option.bind_some]
      congr 1
      push_cast
      ring
  · cases hU

theorem mul_oneOf (h : NearestDouble rd) {c c' : ℤ} (h3 : -1074 ≤ c + c') (h4 : c + c' ≤ 0) {S T U : List ℤ}
    {o p : Option ℝ} (ho : OneOf c S o) (hp : OneOf c' T p) (hU : opS (· * ·) S T = some U) :
    OneOf (c + c') U (binDouble rd (· * ·) o p) := by
  obtain ⟨s, hs, rfl⟩ := ho
  obtain ⟨t, ht, rfl⟩ := hp
  unfold opS at hU
  split at hU
  · rename_i hall
    have hall := List.all_eq_true.1 (List.all_eq_true.1 hall s hs) t ht
    obtain ⟨k, hk, he⟩ := round_near h h3 h4 (of_decide_eq_true hall)
    refine ⟨k, ?_, ?_⟩
    · rw [← Option.some.inj hU, List.mem_dedup]
      exact List.mem_flatMap.2 ⟨s, hs, List.mem_flatMap.2 ⟨t, ht, hk⟩⟩
    · unfold binDouble
      rw [← he]
      simp only [Option.bind_some]
      congr 1
      push_cast
      rw [zpow_add₀ (by norm_num)]
      ring
  · cases hU

/-- All results of squaring. -/
def sqS (S : List ℤ) : Option (List ℤ) :=
  if S.all (fun s => decide (|s * s| < 2 ^ 250)) then some (S.flatMap fun s => near (s * s)).dedup else none

theorem sq_oneOf (h : NearestDouble rd) {c : ℤ} (h3 : -1074 ≤ c + c) (h4 : c + c ≤ 0) {S U : List ℤ} {o : Option ℝ}
    (ho : OneOf c S o) (hU : sqS S = some U) : OneOf (c + c) U (binDouble rd (· * ·) o o) := by
  obtain ⟨s, hs, rfl⟩ := ho
  unfold sqS at hU
  split at hU
  · rename_i hall
    have hall := List.all_eq_true.1 hall s hs
    obtain ⟨k, hk, he⟩ := round_near h h3 h4 (of_decide_eq_true hall)
    refine ⟨k, ?_, ?_⟩
    · rw [← Option.some.inj hU, List.mem_dedup]
      exact List.mem_flatMap.2 ⟨s, hs, hk⟩
    · unfold binDouble
      rw [← he]
      simp only [Option.bind_some]
      congr 1
      push_cast
      rw [zpow_add₀ (by norm_num)]
      ring
  · cases hU

/-- All results of a sum from left to right. -/
def sumS (acc : List ℤ) : List ℤ → Option (List ℤ)
  | [] => some acc
  | t :: l => (opS (· + ·) acc [t]).bind fun acc' => sumS acc' l

theorem sum_oneOf (h : NearestDouble rd) {c : ℤ} (h3 : -1074 ≤ c) (h4 : c ≤ 0) :
    ∀ (l : List ℤ) (acc U : List ℤ) (o : Option ℝ), OneOf c acc o → sumS acc l = some U →
      OneOf c U ((l.map fun t => some ((t : ℝ) * (2 : ℝ) ^ c)).foldl (binDouble rd (· + ·)) o)
  | [], acc, U, o, ho, hU => by
      obtain rfl := Option.some.inj hU
      exact ho
  | t :: l, acc, U, o, ho, hU => by
      unfold sumS at hU
      cases hV : opS (· + ·) acc [t] with
      | none => rw [hV] at hU; cases hU
      | some V =>
        rw [hV] at hU
        exact sum_oneOf h h3 h4 l V U _ (add_oneOf h h3 h4 ho ⟨t, List.mem_singleton.2 rfl, rfl⟩ hV) hU

/-! ### Multiples of 45 degrees -/

/-- `2 ^ 54` times the rounded cosine and sine of `j π / 4`. -/
def cosS (j : ℕ) : ℤ := match j % 8 with
  | 0 => 2 ^ 54
  | 1 => 12738103345051546
  | 2 => 0
  | 3 => -12738103345051546
  | 4 => -2 ^ 54
  | 5 => -12738103345051546
  | 6 => 0
  | _ => 12738103345051546

def sinS (j : ℕ) : ℤ := match j % 8 with
  | 0 => 0
  | 1 => 12738103345051546
  | 2 => 2 ^ 54
  | 3 => 12738103345051546
  | 4 => 0
  | 5 => -12738103345051546
  | 6 => -2 ^ 54
  | _ => -12738103345051546

theorem angle (j : ℕ) : ∃ b : ℕ, b < 8 ∧ b = j % 8 ∧
    Real.cos (2 * Real.pi * ((j * 1 : ℕ) : ℝ) / (8 : ℕ)) = Real.cos (b * (Real.pi / 4)) ∧
    Real.sin (2 * Real.pi * ((j * 1 : ℕ) : ℝ) / (8 : ℕ)) = Real.sin (b * (Real.pi / 4)) := by
  refine ⟨j % 8, Nat.mod_lt _ (by norm_num), rfl, ?_⟩
  have e : 2 * Real.pi * ((j * 1 : ℕ) : ℝ) / (8 : ℕ) =
      ((j % 8 : ℕ) : ℝ) * (Real.pi / 4) + ((j / 8 : ℕ) : ℝ) * (2 * Real.pi) := by
    have := Nat.div_add_mod j 8
    have h2 : (j : ℝ) = 8 * ((j / 8 : ℕ) : ℝ) + ((j % 8 : ℕ) : ℝ) := by exact_mod_cast this.symm
    push_cast at *
    rw [h2]
    ring
  rw [e, Real.cos_add_nat_mul_two_pi, Real.sin_add_nat_mul_two_pi]
  exact ⟨rfl, rfl⟩

/-- The eight values. -/
theorem values (b : ℕ) (hb : b < 8) :
    Real.cos (b * (Real.pi / 4)) = [1, √2 / 2, 0, -(√2 / 2), -1, -(√2 / 2), 0, √2 / 2].getD b 0 ∧
    Real.sin (b * (Real.pi / 4)) = [0, √2 / 2, 1, √2 / 2, 0, -(√2 / 2), -1, -(√2 / 2)].getD b 0 := by
  have e2 : ((2 : ℕ) : ℝ) * (Real.pi / 4) = Real.pi / 2 := by push_cast; ring
  have e3 : ((3 : ℕ) : ℝ) * (Real.pi / 4) = Real.pi - Real.pi / 4 := by push_cast; ring
  have e4 : ((4 : ℕ) : ℝ) * (Real.pi / 4) = Real.pi := by push_cast; ring
  have e5 : ((5 : ℕ) : ℝ) * (Real.pi / 4) = Real.pi / 4 + Real.pi := by push_cast; ring
  have e6 : ((6 : ℕ) : ℝ) * (Real.pi / 4) = Real.pi / 2 + Real.pi := by push_cast; ring
  have e7 : ((7 : ℕ) : ℝ) * (Real.pi / 4) = 2 * Real.pi - Real.pi / 4 := by push_cast; ring
  interval_cases b
  · simp
  · simp
  · rw [e2]; simp
  · rw [e3, Real.cos_pi_sub, Real.sin_pi_sub]; simp
  · rw [e4]; simp
  · rw [e5, Real.cos_add_pi, Real.sin_add_pi]; simp
  · rw [e6, Real.cos_add_pi, Real.sin_add_pi]; simp
  · rw [e7, Real.cos_two_pi_sub, Real.sin_two_pi_sub]; simp

theorem round_root (h : NearestDouble rd) :
    roundDouble rd (√2 / 2) = some (((12738103345051546 : ℤ) : ℝ) * (2 : ℝ) ^ (-54 : ℤ)) ∧
    roundDouble rd (-(√2 / 2)) = some (((-12738103345051546 : ℤ) : ℝ) * (2 : ℝ) ^ (-54 : ℤ)) := by
  have l1 : (12738103345051545 : ℝ) < √2 * 2 ^ 53 := by
    rw [← div_lt_iff₀ (by positivity)]
    apply Real.lt_sqrt_of_sq_lt
    norm_num
  have l2 : √2 * 2 ^ 53 < (12738103345051547 : ℝ) := by
    rw [← lt_div_iff₀ (by positivity)]
    rw [Real.sqrt_lt' (by positivity)]
    norm_num
  have key : ∀ d, IsNear (√2 / 2) d → d = ((12738103345051546 : ℤ) : ℝ) * (2 : ℝ) ^ (-54 : ℤ) := by
    intro d hd
    have e53 : (2 : ℝ) ^ (-53 : ℤ) = 1 / 2 ^ 53 := by rw [zpow_neg, one_div]; rfl
    have e54 : (2 : ℝ) ^ (-54 : ℤ) = 1 / 2 ^ 54 := by rw [zpow_neg, one_div]; rfl
    rcases le_or_gt ((12738103345051546 : ℝ)) (√2 * 2 ^ 53) with hh | hh
    · have := core (x := √2 / 2) (d := d) (q := 6369051672525773) (c := -53) (by norm_num) (by norm_num) (by norm_num)
        (by norm_num) (by rw [e53]; push_cast; norm_num at *; linarith) (by rw [e53]; push_cast; norm_num at *; linarith) hd
      rcases this with ⟨he, _⟩ | ⟨_, hb⟩
      · rw [he, e53, e54]; push_cast; norm_num
      · exfalso
        rw [e53] at hb
        push_cast at hb
        norm_num at *
        linarith
    · have := core (x := √2 / 2) (d := d) (q := 6369051672525772) (c := -53) (by norm_num) (by norm_num) (by norm_num)
        (by norm_num) (by rw [e53]; push_cast; norm_num at *; linarith) (by rw [e53]; push_cast; norm_num at *; linarith) hd
      rcases this with ⟨_, hb⟩ | ⟨he, _⟩
      · exfalso
        rw [e53] at hb
        push_cast at hb
        norm_num at *
        linarith
      · rw [he, e53, e54]; push_cast; norm_num
  have hm : |√2 / 2| ≤ maxDouble := by
    refine le_trans ?_ max_large
    rw [abs_of_nonneg (by positivity)]
    norm_num at *
    linarith
  constructor
  · unfold roundDouble
    rw [if_pos hm, key _ (h _ hm)]
  · have hm' : |-(√2 / 2)| ≤ maxDouble := by rw [abs_neg]; exact hm
    unfold roundDouble
    rw [if_pos hm']
    have := key _ (by simpa using IsNear.neg (h _ hm'))
    congr 1
    push_cast at *
    linarith

theorem cosDouble_eq (h : NearestDouble rd) (j : ℕ) :
    cosDouble rd 8 (j * 1) = some ((cosS j : ℝ) * (2 : ℝ) ^ (-54 : ℤ)) := by
  obtain ⟨b, hb, hbj, hc, _⟩ := angle j
  unfold cosDouble cosS
  rw [hc, ← hbj, (values b hb).1]
  have e54 : (2 : ℝ) ^ (-54 : ℤ) = 1 / 2 ^ 54 := by rw [zpow_neg, one_div]; rfl
  have g : ∀ z : ℤ, |z| < 2 ^ 53 → roundDouble rd (z : ℝ) = some (z : ℝ) := fun z hz => round_exact h (double_int hz)
  have g0 := g 0 (by norm_num)
  have g1 := g 1 (by norm_num)
  have g2 := g (-1) (by norm_num)
  have hr := round_root h
  norm_num at g0 g1 g2
  interval_cases b
  · change roundDouble rd 1 = _; rw [g1, e54]; norm_num
  · exact hr.1
  · change roundDouble rd 0 = _; rw [g0]; norm_num
  · exact hr.2
  · change roundDouble rd (-1) = _; rw [g2, e54]; norm_num
  · exact hr.2
  · change roundDouble rd 0 = _; rw [g0]; norm_num
  · exact hr.1

theorem sinDouble_eq (h : NearestDouble rd) (j : ℕ) :
    sinDouble rd 8 (j * 1) = some ((sinS j : ℝ) * (2 : ℝ) ^ (-54 : ℤ)) := by
  obtain ⟨b, hb, hbj, _, hc⟩ := angle j
  unfold sinDouble sinS
  rw [hc, ← hbj, (values b hb).2]
  have e54 : (2 : ℝ) ^ (-54 : ℤ) = 1 / 2 ^ 54 := by rw [zpow_neg, one_div]; rfl
  have g : ∀ z : ℤ, |z| < 2 ^ 53 → roundDouble rd (z : ℝ) = some (z : ℝ) := fun z hz => round_exact h (double_int hz)
  have g0 := g 0 (by norm_num)
  have g1 := g 1 (by norm_num)
  have g2 := g (-1) (by norm_num)
  have hr := round_root h
  norm_num at g0 g1 g2
  interval_cases b
  · change roundDouble rd 0 = _; rw [g0]; norm_num
  · exact hr.1
  · change roundDouble rd 1 = _; rw [g1, e54]; norm_num
  · exact hr.1
  · change roundDouble rd 0 = _; rw [g0]; norm_num
  · exact hr.2
  · change roundDouble rd (-1) = _; rw [g2, e54]; norm_num
  · exact hr.2

/-! ### One frequency of the transform at length 8 -/

theorem pm_mul (h : NearestDouble rd) {a z : ℤ} (ha : a = 1 ∨ a = -1) (hz : Double ((z : ℝ) * (2 : ℝ) ^ (-54 : ℤ))) :
    binDouble rd (· * ·) (roundDouble rd (a : ℝ)) (some ((z : ℝ) * (2 : ℝ) ^ (-54 : ℤ))) =
      some (((a * z : ℤ) : ℝ) * (2 : ℝ) ^ (-54 : ℤ)) := by
  rw [round_exact h (double_int (by rcases ha with rfl | rfl <;> norm_num))]
  unfold binDouble
  simp only [Option.bind_some]
  have : Double ((a : ℝ) * ((z : ℝ) * (2 : ℝ) ^ (-54 : ℤ))) := by
    rcases ha with rfl | rfl
    · simpa using hz
    · simpa using double_neg hz
  rw [round_exact h this]
  congr 1
  push_cast
  ring

theorem double_cosS (j : ℕ) : Double ((cosS j : ℝ) * (2 : ℝ) ^ (-54 : ℤ)) := by
  have e54 : (2 : ℝ) ^ (-54 : ℤ) = 1 / 2 ^ 54 := by rw [zpow_neg, one_div]; rfl
  have e53 : (2 : ℝ) ^ (-53 : ℤ) = 1 / 2 ^ 53 := by rw [zpow_neg, one_div]; rfl
  unfold cosS
  split
  · exact ⟨1, 0, by norm_num, by norm_num, by norm_num, by rw [e54]; norm_num⟩
  · exact ⟨6369051672525773, -53, by norm_num, by norm_num, by norm_num, by rw [e54, e53]; norm_num⟩
  · exact ⟨0, 0, by norm_num, by norm_num, by norm_num, by simp⟩
  · exact ⟨-6369051672525773, -53, by norm_num, by norm_num, by norm_num, by rw [e54, e53]; norm_num⟩
  · exact ⟨-1, 0, by norm_num, by norm_num, by norm_num, by rw [e54]; norm_num⟩
  · exact ⟨-6369051672525773, -53, by norm_num, by norm_num, by norm_num, by rw [e54, e53]; norm_num⟩
  · exact ⟨0, 0, by norm_num, by norm_num, by norm_num, by simp⟩
  · exact ⟨6369051672525773, -53, by norm_num, by norm_num, by norm_num, by rw [e54, e53]; norm_num⟩

theorem double_sinS (j : ℕ) : Double ((sinS j : ℝ) * (2 : ℝ) ^ (-54 : ℤ)) := by
  have e54 : (2 : ℝ) ^ (-54 : ℤ) = 1 / 2 ^ 54 := by rw [zpow_neg, one_div]; rfl
  have e53 : (2 : ℝ) ^ (-53 : ℤ) = 1 / 2 ^ 53 := by rw [zpow_neg, one_div]; rfl
  unfold sinS
  split
  · exact ⟨0, 0, by norm_num, by norm_num, by norm_num, by simp⟩
  · exact ⟨6369051672525773, -53, by norm_num, by norm_num, by norm_num, by rw [e54, e53]; norm_num⟩
  · exact ⟨1, 0, by norm_num, by norm_num, by norm_num, by rw [e54]; norm_num⟩
  · exact ⟨6369051672525773, -53, by norm_num, by norm_num, by norm_num, by rw [e54, e53]; norm_num⟩
  · exact ⟨0, 0, by norm_num, by norm_num, by norm_num, by simp⟩
  · exact ⟨-6369051672525773, -53, by norm_num, by norm_num, by norm_num, by rw [e54, e53]; norm_num⟩
  · exact ⟨-1, 0, by norm_num, by norm_num, by norm_num, by rw [e54]; norm_num⟩
  · exact ⟨-6369051672525773, -53, by norm_num, by norm_num, by norm_num, by rw [e54, e53]; norm_num⟩

/-- All values of the power spectrum of `x` at frequency 1, times `2 ^ 108`. -/
def psdS (x : List ℤ) : Option (List ℤ) :=
  (sumS [0] ((List.range 8).map fun j => x.getD j 0 * cosS j)).bind fun re =>
  (sumS [0] ((List.range 8).map fun j => -(x.getD j 0 * sinS j))).bind fun im =>
  (sqS re).bind fun re2 => (sqS im).bind fun im2 => opS (· + ·) re2 im2

theorem psd_oneOf (h : NearestDouble rd) {x : List ℤ} (hx : PMSeq 8 x) {U : List ℤ} (hU : psdS x = some U) :
    OneOf (-108) U (((dftSequence (doubleFl rd) x).map (doubleFl rd).normSqr).getD 1 none) := by
  have hlen : (x.map fun a => (doubleFl rd).ofInt a).length = 8 := by rw [List.length_map]; exact hx.1
  have hget : ∀ j, j < 8 → (x.map fun a => (doubleFl rd).ofInt a).getD j none = roundDouble rd ((x.getD j 0 : ℤ) : ℝ) := by
    intro j hj
    have hj' : j < x.length := by rw [hx.1]; exact hj
    rw [List.getD_eq_getElem _ _ (by rw [hlen]; exact hj), List.getD_eq_getElem _ _ hj', List.getElem_map]
    rfl
  have hpm : ∀ j, j < 8 → x.getD j 0 = 1 ∨ x.getD j 0 = -1 := by
    intro j hj
    have hj' : j < x.length := by rw [hx.1]; exact hj
    rw [List.getD_eq_getElem _ _ hj']
    exact hx.2 _ (List.getElem_mem hj')
  unfold psdS at hU
  cases hre : sumS [0] ((List.range 8).map fun j => x.getD j 0 * cosS j) with
  | none => rw [hre] at hU; cases hU
  | some re =>
  cases him : sumS [0] ((List.range 8).map fun j => -(x.getD j 0 * sinS j)) with
  | none => rw [hre, him] at hU; cases hU
  | some im =>
  rw [hre, him] at hU
  simp only [Option.bind_some] at hU
  cases hre2 : sqS re with
  | none => rw [hre2] at hU; cases hU
  | some re2 =>
  cases him2 : sqS im with
  | none => rw [hre2, him2] at hU; cases hU
  | some im2 =>
  rw [hre2, him2] at hU
  simp only [Option.bind_some] at hU
  have z0 : OneOf (-54) [0] (some 0) := ⟨0, by simp, by simp⟩
  have s1 := sum_oneOf h (by norm_num) (by norm_num) _ _ _ _ z0 hre
  have s2 := sum_oneOf h (by norm_num) (by norm_num) _ _ _ _ z0 him
  have q1 := sq_oneOf h (by norm_num) (by norm_num) s1 hre2
  have q2 := sq_oneOf h (by norm_num) (by norm_num) s2 him2
  have := add_oneOf h (by norm_num) (by norm_num) q1 q2 hU
  have e3 : ((dftSequence (doubleFl rd) x).map (doubleFl rd).normSqr).getD 1 none =
      (doubleFl rd).normSqr ((dftSequence (doubleFl rd) x).getD 1 (none, none)) := by
    unfold dftSequence doubleFl
    dsimp only
    rw [List.length_map, hx.1]
    rfl
  rw [e3]
  have er : (dftSequence (doubleFl rd) x).getD 1 (none, none) =
      (((List.map (fun t : ℤ => some ((t : ℝ) * (2 : ℝ) ^ (-54 : ℤ)))
          ((List.range 8).map fun j => x.getD j 0 * cosS j)).foldl (binDouble rd (· + ·)) (some 0)),
       ((List.map (fun t : ℤ => some ((t : ℝ) * (2 : ℝ) ^ (-54 : ℤ)))
          ((List.range 8).map fun j => -(x.getD j 0 * sinS j))).foldl (binDouble rd (· + ·)) (some 0))) := by
    have hd : (dftSequence (doubleFl rd) x).getD 1 (none, none) =
      (sumDouble rd ((List.range 8).map fun j => binDouble rd (· * ·)
        ((x.map fun a => (doubleFl rd).ofInt a).getD j none) (cosDouble rd 8 (j * 1))),
       sumDouble rd ((List.range 8).map fun j => (binDouble rd (· * ·)
        ((x.map fun a => (doubleFl rd).ofInt a).getD j none) (sinDouble rd 8 (j * 1))).map (- ·))) := by
      have : dftSequence (doubleFl rd) x = (List.range ((x.map fun a => (doubleFl rd).ofInt a).length / 2 + 1)).map fun k =>
        (sumDouble rd ((List.range (x.map fun a => (doubleFl rd).ofInt a).length).map fun j => binDouble rd (· * ·)
          ((x.map fun a => (doubleFl rd).ofInt a).getD j none) (cosDouble rd (x.map fun a => (doubleFl rd).ofInt a).length (j * k))),
         sumDouble rd ((List.range (x.map fun a => (doubleFl rd).ofInt a).length).map fun j => (binDouble rd (· * ·)
          ((x.map fun a => (doubleFl rd).ofInt a).getD j none) (sinDouble rd (x.map fun a => (doubleFl rd).ofInt a).length (j * k))).map (- ·))) := rfl
      rw [this, hlen]
      rfl
    rw [hd]
    unfold sumDouble
    rw [List.map_map, List.map_map]
    congr 2
    · refine List.map_congr_left fun j hj => ?_
      have hj := List.mem_range.1 hj
      rw [hget j hj, cosDouble_eq h, pm_mul h (hpm j hj) (double_cosS j)]
      rfl
    · refine List.map_congr_left fun j hj => ?_
      have hj := List.mem_range.1 hj
      rw [hget j hj, sinDouble_eq h, pm_mul h (hpm j hj) (double_sinS j)]
      simp
  rw [er]
  exact this

/-- The filter discards the pair if every value of the sum at frequency 1 is beyond the bound. -/
theorem discards (h : NearestDouble rd) {x y : List ℤ} (hx : PMSeq 8 x) (hy : PMSeq 8 y) {U V W : List ℤ}
    (hU : psdS x = some U) (hV : psdS y = some V) (hW : opS (· + ·) U V = some W)
    (hall : ∀ w ∈ W, 32 * 2 ^ 108 < w) :
    boundExceeded (doubleFl rd) ((dftSequence (doubleFl rd) x).map (doubleFl rd).normSqr)
      ((dftSequence (doubleFl rd) y).map (doubleFl rd).normSqr)
      ((doubleFl rd).mul ((doubleFl rd).lit 4 1) ((doubleFl rd).ofInt (8 : ℕ))) = true := by
  have l : ∀ z, PMSeq 8 z → ((dftSequence (doubleFl rd) z).map (doubleFl rd).normSqr).length = 5 := by
    intro z hz
    unfold dftSequence doubleFl
    dsimp only
    simp [hz.1]
  have hu := psd_oneOf h hx hU
  have hv := psd_oneOf h hy hV
  obtain ⟨w, hw, he⟩ := add_oneOf h (by norm_num) (by norm_num) hu hv hW
  have lx := l x hx
  have ly := l y hy
  have hb : (doubleFl rd).mul ((doubleFl rd).lit 4 1) ((doubleFl rd).ofInt (8 : ℕ)) = some 32 := by
    change binDouble rd (· * ·) (roundDouble rd _) (roundDouble rd _) = _
    have r : ∀ z : ℤ, |z| < 2 ^ 53 → roundDouble rd (z : ℝ) = some (z : ℝ) := fun z hz => round_exact h (double_int hz)
    have r4 := r 4 (by norm_num)
    have r8 := r 8 (by norm_num)
    have r32 := r 32 (by norm_num)
    norm_num at r4 r8 r32 ⊢
    rw [r4, r8]
    unfold binDouble
    norm_num
    exact r32
  rw [hb]
  generalize (dftSequence (doubleFl rd) x).map (doubleFl rd).normSqr = a at *
  generalize (dftSequence (doubleFl rd) y).map (doubleFl rd).normSqr = b at *
  unfold boundExceeded
  rw [List.any_eq_true]
  refine ⟨(a.getD 1 none, b.getD 1 none), ?_, ?_⟩
  · rw [List.mem_iff_getElem]
    refine ⟨0, by simp [lx, ly], ?_⟩
    simp only [List.getElem_drop, List.getElem_zip]
    rw [List.getD_eq_getElem _ _ (by omega), List.getD_eq_getElem _ _ (by omega)]
  · change decide (∃ p ∈ binDouble rd (· + ·) (a.getD 1 none) (b.getD 1 none), ∃ q ∈ some (32 : ℝ), p > q) = true
    rw [he]
    simp only [decide_eq_true_eq]
    refine ⟨_, rfl, _, rfl, ?_⟩
    have := hall w hw
    have h1 : (32 * 2 ^ 108 : ℝ) < w := by exact_mod_cast this
    have e108 : (2 : ℝ) ^ (-108 : ℤ) = 1 / 2 ^ 108 := by rw [zpow_neg, one_div]; rfl
    rw [e108, gt_iff_lt, mul_one_div, lt_div_iff₀ (by positivity)]
    exact h1

end Proofs.DoubleEval
