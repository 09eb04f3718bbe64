import Verif.Proofs.Gap
import Verif.Spec.Numerics

/-!
# Helper lemmas: keys from power spectra that agree up to the last value are equal
-/

set_option linter.unusedSectionVars false
set_option linter.unusedVariables false
set_option linter.unusedSimpArgs false

namespace Proofs.Rigid
open Model Spec Proofs.Txt Proofs.Keys Proofs.Matching Proofs.Pipeline Proofs.Isolation Proofs.Complete Proofs.Fourier
  Proofs.Psd Proofs.Gap Proofs.Amicable Complex

variable {n : ℕ} [NeZero n]

/-- The transform of an integer function. -/
noncomputable def D (g : ZMod n → ℤ) (k : ZMod n) : ℂ := ∑ s, (g s : ℂ) * ψ (-(s * k))

theorem D_even {g : ZMod n → ℤ} (hev : ∀ t, g (-t) = g t) (k : ZMod n) : D g (-k) = D g k := by
  unfold D
  refine Fintype.sum_equiv (Equiv.neg _) _ _ fun s => ?_
  simp only [Equiv.neg_apply, hev]
  congr 2
  ring

theorem norm_ψ (a : ZMod n) : ‖(ψ a : ℂ)‖ = 1 := by
  have : ψ a = ((ZMod.toCircle a : Circle) : ℂ) := rfl
  rw [this, Circle.norm_coe]

/-- An even function with even values, with value and sum zero at the origin, whose transform is at most slightly more than
1 in modulus except at the last frequency, is zero. -/
theorem rigid {g : ZMod n → ℤ} (hev : ∀ t, g (-t) = g t) (h0 : g 0 = 0) (hs : ∑ t, g t = 0) (h2 : ∀ t, Even (g t))
    (hD : ∀ k : ℕ, 1 ≤ k → k < n / 2 → ‖D g (k : ZMod n)‖ ≤ 1 + 1 / n) (t : ZMod n) : g t = 0 := by
  have hn := npos (n := n)
  have hn' : (0 : ℝ) < n := by exact_mod_cast hn
  have hD0 : D g 0 = 0 := by
    unfold D
    simp only [mul_zero, neg_zero, AddChar.map_zero_eq_one, mul_one]
    exact_mod_cast hs
  set m : ZMod n := ((n / 2 : ℕ) : ZMod n) with hm
  have hsmall : ∀ k : ZMod n, k ≠ 0 → k ≠ m → k ≠ -m → ‖D g k‖ ≤ 1 + 1 / n := by
    intro k k0 k1 k2
    have hv : k.val ≠ 0 := fun e => k0 ((ZMod.val_eq_zero k).1 e)
    have hk : ((k.val : ℕ) : ZMod n) = k := ZMod.natCast_zmod_val k
    have hlt := ZMod.val_lt k
    rcases lt_trichotomy k.val (n / 2) with h | h | h
    · have := hD k.val (by omega) h
      rwa [hk] at this
    · exact absurd (by rw [hm, ← h, hk]) k1
    · have e : -k = ((n - k.val : ℕ) : ZMod n) := by
        rw [Nat.cast_sub hlt.le, hk]; simp
      rw [← D_even hev, e]
      refine hD _ (by omega) ?_
      by_contra hc
      have : n - k.val = n / 2 := by omega
      rw [this, ← hm] at e
      exact k2 (by rw [← e, neg_neg])
  let S : Finset (ZMod n) := Finset.univ.filter fun k => k ≠ 0 ∧ k ≠ m ∧ k ≠ -m
  let T : Finset (ZMod n) := Finset.univ.filter fun k => ¬ (k ≠ 0 ∧ k ≠ m ∧ k ≠ -m)
  have hsplit : ∀ {α : Type} [AddCommMonoid α] (f : ZMod n → α), ∑ k, f k = ∑ k ∈ S, f k + ∑ k ∈ T, f k := by
    intro α _ f
    exact (Finset.sum_filter_add_sum_filter_not _ _ _).symm
  have hzero : ∑ k, D g k = 0 := by
    have := inversion g 0
    simp only [mul_zero, AddChar.map_zero_eq_one, mul_one, h0, Int.cast_zero] at this
    exact this
  have hT : ∀ k ∈ T, D g k = 0 ∨ D g k = D g m := by
    intro k hk
    have hk := (Finset.mem_filter.1 hk).2
    by_cases k0 : k = 0
    · rw [k0]; exact .inl hD0
    · by_cases k1 : k = m
      · rw [k1]; exact .inr rfl
      · have : k = -m := by
          by_contra k2
          exact hk ⟨k0, k1, k2⟩
        rw [this, D_even hev]; exact .inr rfl
  have hnorm : ∑ k ∈ T, ‖D g k‖ = ‖∑ k ∈ T, D g k‖ := by
    have h1 : ∑ k ∈ T, D g k = ((T.filter fun k => D g k ≠ 0).card : ℂ) * D g m := by
      rw [← Finset.sum_filter_ne_zero, Finset.sum_congr rfl (g := fun _ => D g m), Finset.sum_const, nsmul_eq_mul]
      intro k hk
      obtain ⟨a, b⟩ := Finset.mem_filter.1 hk
      exact (hT k a).resolve_left b
    have h2 : ∑ k ∈ T, ‖D g k‖ = ((T.filter fun k => D g k ≠ 0).card : ℝ) * ‖D g m‖ := by
      have : T.filter (fun k => D g k ≠ 0) = T.filter fun k => ‖D g k‖ ≠ 0 :=
        Finset.filter_congr fun k _ => by simp
      rw [← Finset.sum_filter_ne_zero, this, Finset.sum_congr rfl (g := fun _ => ‖D g m‖), Finset.sum_const,
        nsmul_eq_mul]
      intro k hk
      obtain ⟨a, b⟩ := Finset.mem_filter.1 hk
      rw [(hT k a).resolve_left fun e => b (by rw [e, norm_zero])]
    rw [h1, h2, norm_mul, Complex.norm_natCast]
  have hS : ∑ k ∈ S, ‖D g k‖ ≤ n - 1 / n := by
    have h1 : ∑ k ∈ S, ‖D g k‖ ≤ ∑ k ∈ S, (1 + 1 / n : ℝ) := Finset.sum_le_sum fun k hk => by
      obtain ⟨_, a, b, c⟩ := Finset.mem_filter.1 hk
      exact hsmall k a b c
    have h3 : S.card ≤ n - 1 := by
      have : S ⊆ Finset.univ.erase 0 := fun k hk =>
        Finset.mem_erase.2 ⟨(Finset.mem_filter.1 hk).2.1, Finset.mem_univ _⟩
      have := Finset.card_le_card this
      rwa [Finset.card_erase_of_mem (Finset.mem_univ _), Finset.card_univ, ZMod.card] at this
    have h4 : ((S.card : ℕ) : ℝ) ≤ ((n - 1 : ℕ) : ℝ) := by exact_mod_cast h3
    rw [Nat.cast_sub hn, Nat.cast_one] at h4
    rw [Finset.sum_const, nsmul_eq_mul] at h1
    have h5 : (S.card : ℝ) * (1 + 1 / n) ≤ (n - 1) * (1 + 1 / n) := mul_le_mul_of_nonneg_right h4 (by positivity)
    have h6 : ((n : ℝ) - 1) * (1 + 1 / n) = n - 1 / n := by field_simp; ring
    linarith
  have hTS : ∑ k ∈ T, ‖D g k‖ ≤ n - 1 / n := by
    rw [hnorm]
    have : ∑ k ∈ T, D g k = -∑ k ∈ S, D g k := by
      rw [hsplit] at hzero
      exact eq_neg_of_add_eq_zero_right hzero
    rw [this, norm_neg]
    exact (norm_sum_le _ _).trans hS
  have hall : ‖((n : ℂ) * g t)‖ ≤ 2 * (n - 1 / n) := by
    rw [← inversion g t]
    refine (norm_sum_le _ _).trans ?_
    have : ∀ k, ‖(∑ s, (g s : ℂ) * ψ (-(s * k))) * ψ (k * t)‖ = ‖D g k‖ := by
      intro k
      rw [norm_mul, norm_ψ, mul_one]; rfl
    simp only [this]
    rw [hsplit]
    linarith
  rw [norm_mul, Complex.norm_natCast, Complex.norm_intCast] at hall
  have hlt : |((g t : ℤ) : ℝ)| < 2 := by
    by_contra hc
    push Not at hc
    have := mul_le_mul_of_nonneg_left hc hn'.le
    have : (0 : ℝ) < 1 / n := by positivity
    linarith
  have hlt' : |g t| < 2 := by exact_mod_cast hlt
  obtain ⟨a, ha⟩ := h2 t
  rw [abs_lt] at hlt'
  omega

/-- The correlations whose transform is the value in a key. -/
def corr (side : Side) (x y : ZMod n → ℤ) (t : ZMod n) : ℤ :=
  match side with
  | .left => paf x t + paf y t
  | .right => (if t = 0 then 4 * (n : ℤ) else 0) - (paf x t + paf y t)

/-- The value at frequency 0. -/
def total (n : ℕ) (side : Side) (a b : ℤ) : ℤ :=
  match side with
  | .left => a ^ 2 + b ^ 2
  | .right => 4 * n - (a ^ 2 + b ^ 2)

theorem psd_transform (x : List ℤ) (k : ℕ) : (psd n x k : ℂ) = D (paf (cyc n x)) (k : ZMod n) := by
  rw [psd_eq, dft_eq, F_mul_conj]
  simp only [ccf_self]
  rfl

theorem D_add (f g : ZMod n → ℤ) (k : ZMod n) : D (fun t => f t + g t) k = D f k + D g k := by
  unfold D
  rw [← Finset.sum_add_distrib]
  refine Finset.sum_congr rfl fun t _ => ?_
  push_cast; ring

theorem D_sub (f g : ZMod n → ℤ) (k : ZMod n) : D (fun t => f t - g t) k = D f k - D g k := by
  unfold D
  rw [← Finset.sum_sub_distrib]
  refine Finset.sum_congr rfl fun t _ => ?_
  push_cast; ring

theorem D_point (c : ℤ) (k : ZMod n) : D (fun t => if t = 0 then c else 0) k = c := by
  unfold D
  rw [Finset.sum_eq_single 0]
  · simp
  · intro b _ hb; simp [hb]
  · simp

theorem value_transform (side : Side) (x y : List ℤ) (k : ℕ) :
    (keyValue n side x y k : ℂ) = D (corr side (cyc n x) (cyc n y)) (k : ZMod n) := by
  cases side with
  | left =>
    unfold keyValue
    have : corr (n := n) .left (cyc n x) (cyc n y) = fun t => paf (cyc n x) t + paf (cyc n y) t := rfl
    rw [this, D_add, ← psd_transform, ← psd_transform]
    push_cast; rfl
  | right =>
    unfold keyValue
    have : corr (n := n) .right (cyc n x) (cyc n y) =
      fun t => (if t = 0 then 4 * (n : ℤ) else 0) - (paf (cyc n x) t + paf (cyc n y) t) := rfl
    rw [this, D_sub, D_add, D_point, ← psd_transform, ← psd_transform]
    push_cast; ring

theorem corr_zero {side : Side} {x y : List ℤ} (hx : PMSeq n x) (hy : PMSeq n y) :
    corr side (cyc n x) (cyc n y) 0 = 2 * n := by
  unfold corr
  rw [paf_zero (cyc_pm hx), paf_zero (cyc_pm hy)]
  cases side <;> simp <;> ring

theorem corr_sum {side : Side} {x y : List ℤ} (hx : PMSeq n x) (hy : PMSeq n y) :
    ∑ t, corr side (cyc n x) (cyc n y) t = total n side x.sum y.sum := by
  have e : ∑ t, (paf (cyc n x) t + paf (cyc n y) t) = x.sum ^ 2 + y.sum ^ 2 := by
    rw [Finset.sum_add_distrib, ← sum_sq_paf, ← sum_sq_paf, sum_cyc hx.1, sum_cyc hy.1]
  cases side with
  | left => exact e
  | right =>
    unfold corr total
    simp only
    rw [Finset.sum_sub_distrib, e, Finset.sum_ite_eq']
    simp

theorem corr_even (side : Side) (x y : ZMod n → ℤ) (t : ZMod n) : corr side x y (-t) = corr side x y t := by
  unfold corr
  cases side <;> simp only [paf_even, neg_eq_zero]

theorem paf_parity {x : List ℤ} (hx : PMSeq n x) (t : ZMod n) : ∃ a, paf (cyc n x) t = n + 2 * a := by
  have : ∀ i, ∃ a, cyc n x i * cyc n x (i + t) = 1 + 2 * a := by
    intro i
    rcases cyc_pm hx i with h | h <;> rcases cyc_pm hx (i + t) with h' | h' <;> rw [h, h']
    · exact ⟨0, by norm_num⟩
    · exact ⟨-1, by norm_num⟩
    · exact ⟨-1, by norm_num⟩
    · exact ⟨0, by norm_num⟩
  choose f hf using this
  refine ⟨∑ i, f i, ?_⟩
  unfold paf
  simp only [hf]
  rw [Finset.sum_add_distrib, ← Finset.mul_sum]
  simp

theorem corr_parity {side : Side} {x y : List ℤ} (hx : PMSeq n x) (hy : PMSeq n y) (t : ZMod n) :
    Even (corr side (cyc n x) (cyc n y) t) := by
  obtain ⟨a, ha⟩ := paf_parity hx t
  obtain ⟨b, hb⟩ := paf_parity hy t
  unfold corr
  rw [ha, hb]
  cases side with
  | left => exact ⟨n + a + b, by ring⟩
  | right =>
    simp only
    split
    · exact ⟨2 * n - (n + a + b), by ring⟩
    · exact ⟨-(n + a + b), by ring⟩

theorem round_same {a b : ℝ} (h : roundAway a = roundAway b) : |a - b| ≤ 1 := by
  have h1 := round_dist a
  have h2 := round_dist b
  rw [h] at h1
  rw [abs_le] at *
  constructor <;> linarith

theorem sideVal_value (side : Side) (x y : List ℤ) (k : ℕ) :
    sideVal n side (psd n x k + psd n y k) = roundAway (keyValue n side x y k) := by
  cases side <;> rfl

/-- Values that are close at all frequencies but the last belong to the same correlations. -/
theorem corr_close {s1 s2 : Side} {x y x' y' : List ℤ} (hx : PMSeq n x) (hy : PMSeq n y) (hx' : PMSeq n x')
    (hy' : PMSeq n y') (h0 : total n s1 x.sum y.sum = total n s2 x'.sum y'.sum)
    (hr : ∀ k, 1 ≤ k → k < n / 2 → |keyValue n s1 x y k - keyValue n s2 x' y' k| ≤ 1 + 1 / n) (t : ZMod n) :
    corr s1 (cyc n x) (cyc n y) t = corr s2 (cyc n x') (cyc n y') t := by
  have := rigid (n := n) (g := fun t => corr s1 (cyc n x) (cyc n y) t - corr s2 (cyc n x') (cyc n y') t)
    (fun t => by simp only [corr_even]) (by simp only [corr_zero hx hy, corr_zero hx' hy', sub_self])
    (by rw [Finset.sum_sub_distrib, corr_sum hx hy, corr_sum hx' hy', h0, sub_self])
    (fun t => (corr_parity hx hy t).sub (corr_parity hx' hy' t))
    (fun k k1 k2 => by
      rw [D_sub, ← value_transform, ← value_transform, ← Complex.ofReal_sub, Complex.norm_real, Real.norm_eq_abs]
      exact hr k k1 k2) t
  exact sub_eq_zero.1 this

/-- Values that round alike at all frequencies but the last belong to the same correlations. -/
theorem corr_eq {s1 s2 : Side} {x y x' y' : List ℤ} (hx : PMSeq n x) (hy : PMSeq n y) (hx' : PMSeq n x')
    (hy' : PMSeq n y') (h0 : total n s1 x.sum y.sum = total n s2 x'.sum y'.sum)
    (hr : ∀ k, 1 ≤ k → k < n / 2 → roundAway (keyValue n s1 x y k) = roundAway (keyValue n s2 x' y' k)) (t : ZMod n) :
    corr s1 (cyc n x) (cyc n y) t = corr s2 (cyc n x') (cyc n y') t := by
  refine corr_close hx hy hx' hy' h0 (fun k k1 k2 => (round_same (hr k k1 k2)).trans ?_) t
  have : (0 : ℝ) ≤ 1 / n := by positivity
  linarith

theorem value_eq {s1 s2 : Side} {x y x' y' : List ℤ}
    (h : ∀ t, corr (n := n) s1 (cyc n x) (cyc n y) t = corr s2 (cyc n x') (cyc n y') t) (k : ℕ) :
    keyValue n s1 x y k = keyValue n s2 x' y' k := by
  have e : corr (n := n) s1 (cyc n x) (cyc n y) = corr s2 (cyc n x') (cyc n y') := funext h
  have := value_transform (n := n) s1 x y k
  rw [e, ← value_transform] at this
  exact_mod_cast this

theorem psdVals_value (side : Side) (x y : List ℤ) :
    psdVals n side x y = (List.range' 1 (n / 2)).map fun k => roundAway (keyValue n side x y k) :=
  List.map_congr_left fun k _ => sideVal_value side x y k

/-- Keys that agree up to the last value are equal. -/
theorem keys_rigid {s1 s2 : Side} {x y x' y' : List ℤ} (hx : PMSeq n x) (hy : PMSeq n y) (hx' : PMSeq n x')
    (hy' : PMSeq n y') (h0 : total n s1 x.sum y.sum = total n s2 x'.sum y'.sum)
    (hd : (psdVals n s1 x y).dropLast = (psdVals n s2 x' y').dropLast) :
    psdVals n s1 x y = psdVals n s2 x' y' := by
  rw [psdVals_value, psdVals_value] at *
  have hr : ∀ k, 1 ≤ k → k < n / 2 → roundAway (keyValue n s1 x y k) = roundAway (keyValue n s2 x' y' k) := by
    intro k k1 k2
    have e := congrArg (fun l : List ℤ => l[k - 1]?) hd
    simp only [List.getElem?_dropLast, List.length_map, List.length_range'] at e
    rw [if_pos (by omega), if_pos (by omega), List.getElem?_map, List.getElem?_map,
      List.getElem?_eq_getElem (by simp; omega)] at e
    simp only [List.getElem_range', Option.map_some, Option.some.injEq] at e
    rwa [show 1 + 1 * (k - 1) = k by omega] at e
  have hc := corr_eq hx hy hx' hy' h0 hr
  exact List.map_congr_left fun k _ => by rw [value_eq hc k]

theorem psdKey_vals {ty : SeqType} (hq : ty ≠ .quaternionType) {side : Side} {pos : Bool} {x y u : List ℤ}
    (h : psdKey n ty side pos x y = some u) : u = psdVals n side x y := by
  unfold psdKey at h
  cases ty with
  | quaternionType => exact absurd rfl hq
  | williamsonType =>
    simp only at h
    split at h
    · cases h
    · exact (Option.some.inj h).symm
  | _ => exact (Option.some.inj h).symm

/-- The key of a true match is isolated in both files. -/
theorem key_iso {ty : SeqType} (hty : Supported ty) (pr : Option Pairing) (p12 p34 : Bool) (rs : Quad)
    (hrs : rs.1 ^ 2 + rs.2.1 ^ 2 + rs.2.2.1 ^ 2 + rs.2.2.2 ^ 2 = 4 * n) {q : QuadSeq} (hq : OfType n ty q)
    (hqs : ∀ t, (q.sequence t).sum = tagRowsum rs t) {v : List ℤ}
    (hv : psdKey n ty .left p12 (q.sequence (pairingTags pr).1.1) (q.sequence (pairingTags pr).1.2) = some v) :
    (∀ x y u, PMSeq n x → PMSeq n y → x.sum = tagRowsum rs (pairingTags pr).1.1 →
      y.sum = tagRowsum rs (pairingTags pr).1.2 → psdKey n ty .left p12 x y = some u →
        u = v ∨ (¬ keyOf v <+: keyOf u ∧ ¬ keyOf u <+: keyOf v)) ∧
    (∀ x y u, PMSeq n x → PMSeq n y → x.sum = tagRowsum rs (pairingTags pr).2.1 →
      y.sum = tagRowsum rs (pairingTags pr).2.2 → psdKey n ty .right p34 x y = some u →
        u = v ∨ (¬ keyOf v <+: keyOf u ∧ ¬ keyOf u <+: keyOf v)) := by
  have hw := ofType_wts hq
  by_cases hqt : ty = .quaternionType
  · subst hqt
    constructor <;> intro x y u _ _ _ _ hu <;>
      exact iso_zero ((psdKey_qt_length hu).trans (psdKey_qt_length hv).symm) (psdKey_qt_last hq hv)
  · have ev := psdKey_vals hqt hv
    have key : ∀ {side x y u p}, PMSeq n x → PMSeq n y → psdKey n ty side p x y = some u →
        total n side x.sum y.sum = total n .left (q.sequence (pairingTags pr).1.1).sum (q.sequence (pairingTags pr).1.2).sum →
        u = v ∨ (¬ keyOf v <+: keyOf u ∧ ¬ keyOf u <+: keyOf v) := by
      intro side x y u p hx hy hu ht
      have eu := psdKey_vals hqt hu
      by_cases hne : u = v
      · exact .inl hne
      · refine .inr (not_prefix_last ?_ hne fun hd => .inl ?_)
        · rw [eu, ev, psdVals_length, psdVals_length]
        · rw [eu, ev] at hd ⊢
          exact keys_rigid hx hy (seq_pm hw.1 _) (seq_pm hw.1 _) ht hd
    constructor
    · intro x y u hx hy sx sy hu
      exact key hx hy hu (by rw [sx, sy, hqs, hqs])
    · intro x y u hx hy sx sy hu
      refine key hx hy hu ?_
      rw [sx, sy, hqs, hqs]
      unfold total
      rcases pr with _ | _ | _ | _ <;> simp only [pairingTags, tagRowsum] <;> linarith

/-- A bound that no pair exceeds. -/
theorem big_bound (x y : List ℤ) (i j : ℕ) : ∃ (b : ℝ) (d : PairData ℝ), pairData exactFl b (x, i) (y, j) = some d := by
  have : ∃ b : ℝ, boundExceeded exactFl ((dftSequence exactFl x).map exactFl.normSqr)
      ((dftSequence exactFl y).map exactFl.normSqr) b = false := by
    unfold boundExceeded
    generalize ((List.zip _ _).drop 1) = l
    induction l with
    | nil => exact ⟨0, rfl⟩
    | cons p l ih =>
      obtain ⟨b, hb⟩ := ih
      refine ⟨max b (p.1 + p.2), ?_⟩
      rw [List.any_eq_false] at hb ⊢
      intro q hq
      simp only [exactFl, gt_iff_lt, decide_eq_true_eq, not_lt] at hb ⊢
      rcases List.mem_cons.1 hq with rfl | hq
      · exact le_max_right _ _
      · exact (hb q hq).trans (le_max_left _ _)
  obtain ⟨b, hb⟩ := this
  exact ⟨b, _, pairData_ok hb⟩

theorem spectrum_iff {K : Type} {A : Fl K} : ExactSpectrumKeys A n ↔ PsdKeys A n := by
  constructor
  · intro h x y hx hy tags pos hp ty hty side i j b d hd
    obtain ⟨b', d', hd'⟩ := big_bound x y i j
    rw [h x y hx hy ty hty side tags (by rw [hp]; rfl) i j b d b' d' hd hd', pairKey_psd hx hy hp hty hd']
  · intro h x y hx hy ty hty side tags hs i j b d b' d' hd hd'
    obtain ⟨pos, hp⟩ := Option.isSome_iff_exists.1 hs
    rw [h hx hy hp hty hd, pairKey_psd hx hy hp hty hd']

theorem psdKey_entry {ty : SeqType} {side : Side} {pos : Bool} {x y u : List ℤ} (h : psdKey n ty side pos x y = some u) :
    u.length = (if ty = .quaternionType then n / 2 + n / 2 else n / 2) ∧
      ∀ k < n / 2, u[k]? = some (roundAway (keyValue n side x y (k + 1))) := by
  have hv : ∀ k < n / 2, (psdVals n side x y)[k]? = some (roundAway (keyValue n side x y (k + 1))) := by
    intro k hk
    rw [psdVals_value, List.getElem?_map, List.getElem?_range' (by omega)]
    simp [Nat.add_comm]
  by_cases hq : ty = .quaternionType
  · subst hq
    refine ⟨psdKey_qt_length h, fun k hk => ?_⟩
    unfold psdKey at h
    rw [← Option.some.inj h, List.getElem?_append_left (by rw [psdVals_length]; exact hk), hv k hk]
  · rw [if_neg hq, psdKey_vals hq h, psdVals_length]
    exact ⟨rfl, hv⟩

/-- Exact keys are good enough. -/
theorem keys_good {K : Type} {A : Fl K} (h : PsdKeys A n) : SpectrumKeys A n where
  solution q hq t1 t2 _ ty hty side tags hs i j b d b' d' hd hd' := by
    obtain ⟨pos, hp⟩ := Option.isSome_iff_exists.1 hs
    rw [h (seq_pm hq.1 _) (seq_pm hq.1 _) hp hty hd, pairKey_psd (seq_pm hq.1 _) (seq_pm hq.1 _) hp hty hd']
  others x y hx hy ty hty side tags hs i j b d hd := by
    obtain ⟨pos, hp⟩ := Option.isSome_iff_exists.1 hs
    refine ⟨_, h hx hy hp hty hd, fun u hu => ?_⟩
    obtain ⟨h1, h2⟩ := psdKey_entry hu
    refine ⟨h1, fun k hk => ⟨_, h2 k hk, (round_dist _).trans ?_⟩⟩
    have : (0 : ℝ) ≤ 1 / (2 * n) := by positivity
    linarith

/-! ## Decimal texts of neighbouring numbers -/

theorem foldl_grow : ∀ (t : Text) {m m' : ℕ}, t.foldlM parseDigit m = some m' → m ≤ m'
  | [], m, m', h => by obtain rfl := Option.some.inj h; exact le_rfl
  | c :: t, m, m', h => by
    rw [List.foldlM_cons] at h
    unfold parseDigit at h
    split at h
    · have := foldl_grow t h; omega
    · cases h

theorem nat_prefix {m m' : ℕ} (h0 : m ≠ 0) (hc : m' ≤ m + 1) (h : natText m <+: natText m') : m = m' := by
  obtain ⟨t, ht⟩ := h
  have h1 := natText_parse m'
  rw [← ht, List.foldlM_append, natText_parse m] at h1
  change t.foldlM parseDigit m = some m' at h1
  cases t with
  | nil => exact Option.some.inj h1
  | cons c t =>
    rw [List.foldlM_cons] at h1
    unfold parseDigit at h1
    split at h1
    · have := foldl_grow t h1; omega
    · cases h1

/-- The text of an integer is not a beginning of that of a neighbour. -/
theorem near_prefix {a b : ℤ} (hc : |a - b| ≤ 1) (h : intText a <+: intText b) : a = b := by
  by_cases hb : b = 0
  · subst hb; exact zero_prefix h
  by_cases ha : a = 0
  · subst ha; exact (prefix_zero h).symm
  rw [abs_le] at hc
  unfold intText at h
  split at h <;> split at h
  · have := nat_prefix (by omega) (by omega) ((List.cons_prefix_cons.1 h).2)
    omega
  · omega
  · omega
  · have := nat_prefix (by omega) (by omega) h
    omega

/-- The computed key of a true match is isolated in both files. -/
theorem aKey_iso {K : Type} {A : Fl K} (hK : SpectrumKeys A n) {ty : SeqType} (hty : Supported ty) (pr : Option Pairing)
    (p12 : Bool) (rs : Quad) (hrs : rs.1 ^ 2 + rs.2.1 ^ 2 + rs.2.2.1 ^ 2 + rs.2.2.2 ^ 2 = 4 * n) {q : QuadSeq}
    (hq : OfType n ty q) (hqs : ∀ t, (q.sequence t).sum = tagRowsum rs t) {v : List ℤ}
    (hv : psdKey n ty .left p12 (q.sequence (pairingTags pr).1.1) (q.sequence (pairingTags pr).1.2) = some v) :
    (∀ x y u, PMSeq n x → PMSeq n y → x.sum = tagRowsum rs (pairingTags pr).1.1 →
      y.sum = tagRowsum rs (pairingTags pr).1.2 → aKey A n ty .left (pairingTags pr).1 x y = some u →
        u = v ∨ (¬ keyOf v <+: keyOf u ∧ ¬ keyOf u <+: keyOf v)) ∧
    (∀ x y u, PMSeq n x → PMSeq n y → x.sum = tagRowsum rs (pairingTags pr).2.1 →
      y.sum = tagRowsum rs (pairingTags pr).2.2 → aKey A n ty .right (pairingTags pr).2 x y = some u →
        u = v ∨ (¬ keyOf v <+: keyOf u ∧ ¬ keyOf u <+: keyOf v)) := by
  have hw := ofType_wts hq
  obtain ⟨s12, s34, e12, e34⟩ := pairing_sign pr
  have hn' : (0 : ℝ) < n := by exact_mod_cast npos (n := n)
  have ho : ∀ {side tags x y u}, (crossSign tags).isSome = true → PMSeq n x → PMSeq n y →
      aKey A n ty side tags x y = some u → u.length = v.length ∧ ∀ k < n / 2, ∃ z, u[k]? = some z ∧
        |keyValue n side x y (k + 1) - z| ≤ 1 / 2 + 1 / (2 * n) := by
    intro side tags x y u ht hx hy hu
    obtain ⟨d, hd, hk⟩ := aKey_some hu
    obtain ⟨o, ho, h⟩ := hK.others x y hx hy ty hty side tags ht _ _ _ d hd
    rw [hk] at ho
    obtain ⟨h1, h2⟩ := h u (Option.some.inj ho).symm
    exact ⟨h1.trans (psdKey_entry hv).1.symm, h2⟩
  by_cases hqt : ty = .quaternionType
  · subst hqt
    constructor <;> intro x y u hx hy _ _ hu
    · exact iso_zero (ho (by rw [e12]; rfl) hx hy hu).1 (psdKey_qt_last hq hv)
    · exact iso_zero (ho (by rw [e34]; rfl) hx hy hu).1 (psdKey_qt_last hq hv)
  · have hl : v.length = n / 2 := by rw [(psdKey_entry hv).1, if_neg hqt]
    have key : ∀ {side tags x y u}, (crossSign tags).isSome = true → PMSeq n x → PMSeq n y →
        aKey A n ty side tags x y = some u →
        total n side x.sum y.sum = total n .left (q.sequence (pairingTags pr).1.1).sum (q.sequence (pairingTags pr).1.2).sum →
        u = v ∨ (¬ keyOf v <+: keyOf u ∧ ¬ keyOf u <+: keyOf v) := by
      intro side tags x y u ht hx hy hu hs
      obtain ⟨hlen, hval⟩ := ho ht hx hy hu
      have hexact := (psdKey_entry hv).2
      by_cases hne : u = v
      · exact .inl hne
      · refine .inr (not_prefix_last hlen hne fun hd => ?_)
        have hone : (1 : ℝ) ≤ n := by exact_mod_cast npos (n := n)
        have hhalf : (1 : ℝ) / (2 * n) ≤ 1 / n := by
          rw [div_le_div_iff₀ (by linarith) hn']
          linarith
        have hcorr := corr_close hx hy (seq_pm hw.1 (pairingTags pr).1.1) (seq_pm hw.1 (pairingTags pr).1.2) hs
          fun k k1 k2 => by
            obtain ⟨z, hz, hzd⟩ := hval (k - 1) (by omega)
            have hv' := hexact (k - 1) (by omega)
            have e := congrArg (fun l : List ℤ => l[k - 1]?) hd
            simp only [List.getElem?_dropLast] at e
            rw [if_pos (by omega), if_pos (by omega), hz, hv', Option.some_inj] at e
            rw [show k - 1 + 1 = k by omega] at hzd e
            have hr := round_dist (keyValue n .left (q.sequence (pairingTags pr).1.1) (q.sequence (pairingTags pr).1.2) k)
            rw [← e] at hr
            rw [abs_le] at *
            constructor <;> linarith [hr.1, hr.2, hzd.1, hzd.2]
        rcases Nat.eq_zero_or_pos (n / 2) with h0 | h0
        · refine absurd ?_ hne
          rw [List.length_eq_zero_iff.1 (hlen.trans (hl.trans h0)), List.length_eq_zero_iff.1 (hl.trans h0)]
        · obtain ⟨z, hz, hzd⟩ := hval (n / 2 - 1) (by omega)
          have hv' := hexact (n / 2 - 1) (by omega)
          rw [value_eq hcorr] at hzd
          set w := keyValue n .left (q.sequence (pairingTags pr).1.1) (q.sequence (pairingTags pr).1.2) (n / 2 - 1 + 1)
          have hr := round_dist w
          have lu : u.getLast? = some z := by rw [List.getLast?_eq_getElem?, hlen, hl, hz]
          have lv : v.getLast? = some (roundAway w) := by rw [List.getLast?_eq_getElem?, hl, hv']
          have hn1 : (1 : ℝ) / (2 * n) ≤ 1 / 2 := by
            rw [div_le_div_iff₀ (by linarith) (by norm_num)]
            linarith
          have hn2 : 2 ≤ n := by omega
          have hn3 : (1 : ℝ) / (2 * n) < 1 / 2 := by
            have : (2 : ℝ) ≤ n := by exact_mod_cast hn2
            rw [div_lt_div_iff₀ (by linarith) (by norm_num)]
            linarith
          have hlt : |((z - roundAway w : ℤ) : ℝ)| < 2 := by
            push_cast
            rw [abs_le] at hr hzd
            rw [abs_lt]
            constructor <;> linarith [hr.1, hr.2, hzd.1, hzd.2]
          have hlt' : |z - roundAway w| < 2 := by exact_mod_cast hlt
          rw [lu, lv]
          simp only [Option.getD_some]
          by_cases hzw : z = roundAway w
          · refine .inl ?_
            have hune : u ≠ [] := by rintro rfl; rw [List.length_nil] at hlen; omega
            have hvne : v ≠ [] := by rintro rfl; rw [List.length_nil] at hl; omega
            rw [List.getLast?_eq_some_getLast hune, Option.some_inj] at lu
            rw [List.getLast?_eq_some_getLast hvne, Option.some_inj] at lv
            rw [← List.dropLast_append_getLast hune, ← List.dropLast_append_getLast hvne, hd, lu, lv, hzw]
          · refine .inr ⟨fun hp => hzw (near_prefix (by omega) hp), fun hp => hzw (near_prefix ?_ hp).symm⟩
            rw [abs_sub_comm]; omega
    constructor
    · intro x y u hx hy sx sy hu
      exact key (by rw [e12]; rfl) hx hy hu (by rw [sx, sy, hqs, hqs])
    · intro x y u hx hy sx sy hu
      refine key (by rw [e34]; rfl) hx hy hu ?_
      rw [sx, sy, hqs, hqs]
      unfold total
      rcases pr with _ | _ | _ | _ <;> simp only [pairingTags, tagRowsum] <;> linarith

/-- The key computed for a pair of a quadruple that is searched for. -/
theorem aKey_solution {K : Type} {A : Fl K} (hK : SpectrumKeys A n) (hF : FilterSafe A n) {ty : SeqType} (hty : Supported ty)
    {q : QuadSeq} (hw : IsWTS n q) {t1 t2 : Tag} (hne : t1 ≠ t2) {side : Side} {tags : Tag × Tag} {pos : Bool}
    (hp : crossSign tags = some pos) :
    aKey A n ty side tags (q.sequence t1) (q.sequence t2) = psdKey n ty side pos (q.sequence t1) (q.sequence t2) := by
  obtain ⟨d, hd⟩ := data_passes (n := n) 0 0 (wts_passes hF hw hne)
  obtain ⟨b', d', hd'⟩ := big_bound (q.sequence t1) (q.sequence t2) 0 0
  rw [aKey_eq hd, hK.solution q hw t1 t2 hne ty hty side tags (by rw [hp]; rfl) _ _ _ d b' d' hd hd',
    pairKey_psd (seq_pm hw.1 _) (seq_pm hw.1 _) hp hty hd']
  rfl

/-- Matching by power spectra loses nothing, for every type. -/
theorem psd_dir_all {K : Type} (A : Fl K) (hK : SpectrumKeys A n) (hF : FilterSafe A n) (hn : n < 2 ^ 62) {ty : SeqType}
    (hty : Supported ty) (rs : Quad) (hrs : rs.1 ^ 2 + rs.2.1 ^ 2 + rs.2.2.1 ^ 2 + rs.2.2.2 ^ 2 = 4 * n)
    (hfit : ∀ t, (rowsumSequences ty (tagRowsum rs t) n).length < 2 ^ 64) (pr : Option Pairing) :
    ∃ d0, writePairsRowsum A ty rs n .psd pr = some d0 ∧ ∀ d, d.Perm (sortDir d0) →
      ∃ r, joinDir ty d = some r ∧
        ∀ q, q ∈ r ↔ OfType n ty q ∧ (q.a.sum, q.b.sum, q.c.sum, q.d.sum) = rs := by
  obtain ⟨p12, p34, e12, e34⟩ := pairing_sign pr
  obtain ⟨d0, h0, h⟩ := psd_dir A hF hn hty rs hrs hfit pr fun x y hx hy side tags ht i j b d hd => by
    obtain ⟨o, ho, _⟩ := hK.others x y hx hy ty hty side tags ht i j b d hd
    exact ⟨o, ho⟩
  refine ⟨d0, h0, fun d hd => ?_⟩
  obtain ⟨r, hr, h1, h2⟩ := h d hd
  refine ⟨r, hr, fun q => ⟨h1 q, fun ⟨hq, hs⟩ => ?_⟩⟩
  obtain ⟨v, hv1, hv2⟩ := psdKey_agree hq pr p12 p34
  obtain ⟨i1, i2⟩ := aKey_iso hK hty pr p12 rs hrs hq (fun t => by subst hs; cases t <;> rfl) hv1
  have hw := ofType_wts hq
  exact h2 q hq hs v (by rw [aKey_solution hK hF hty hw (pairing_ne pr).1 e12]; exact hv1)
    (by rw [aKey_solution hK hF hty hw (pairing_ne pr).2 e34]; exact hv2) i1 i2

/-- One directory, with either matching option. -/
theorem dir_all {K : Type} (A : Fl K) (val : K → ℝ) {mo : MatchOption} (hN : Numerics A val n mo) (hn : n < 2 ^ 62)
    {ty : SeqType} (hty : Supported ty) (rs : Quad) (hrs : rs.1 ^ 2 + rs.2.1 ^ 2 + rs.2.2.1 ^ 2 + rs.2.2.2 ^ 2 = 4 * n)
    (hfit : ∀ t, (rowsumSequences ty (tagRowsum rs t) n).length < 2 ^ 64) (pr : Option Pairing) :
    ∃ d0, writePairsRowsum A ty rs n mo pr = some d0 ∧ ∀ d, d.Perm (sortDir d0) →
      ∃ r, joinDir ty d = some r ∧
        ∀ q, q ∈ r ↔ OfType n ty q ∧ (q.a.sum, q.b.sum, q.c.sum, q.d.sum) = rs := by
  cases mo with
  | correlation => exact corr_dir A val (hN.correlation rfl) hN.filter hn hty rs hrs hfit pr
  | psd => exact psd_dir_all A (hN.psd rfl) hN.filter hn hty rs hrs hfit pr

theorem exact_numerics (mo : MatchOption) : Numerics exactFl id n mo :=
  ⟨exact_filterSafe, fun _ => exact_accurate, fun _ => keys_good exact_keys⟩

/-! ## What equal keys mean -/

/-- An odd function whose transform is at most 1 in modulus at all frequencies is zero. -/
theorem odd_rigid {g : ZMod n → ℤ} (hodd : ∀ t, g (-t) = -g t) (hD : ∀ k : ℕ, 1 ≤ k → k ≤ n / 2 → ‖D g (k : ZMod n)‖ ≤ 1)
    (t : ZMod n) : g t = 0 := by
  have hn := npos (n := n)
  have hneg : ∀ k, D g (-k) = -D g k := by
    intro k
    unfold D
    rw [← Finset.sum_neg_distrib]
    refine Fintype.sum_equiv (Equiv.neg _) _ _ fun s => ?_
    simp only [Equiv.neg_apply, hodd]
    have : -(s * -k) = -(-s * k) := by ring
    rw [this]; push_cast; ring
  have h0 : D g 0 = 0 := by
    have h1 := hneg 0
    rw [neg_zero] at h1
    have h2 : (2 : ℂ) * D g 0 = 0 := by linear_combination h1
    simpa using h2
  have hall : ∀ k : ZMod n, ‖D g k‖ ≤ if k = 0 then 0 else 1 := by
    intro k
    split
    · rename_i h; rw [h, h0, norm_zero]
    · rename_i hk0
      have hv : k.val ≠ 0 := fun e => hk0 ((ZMod.val_eq_zero k).1 e)
      have hk : ((k.val : ℕ) : ZMod n) = k := ZMod.natCast_zmod_val k
      have hlt := ZMod.val_lt k
      by_cases h : k.val ≤ n / 2
      · have := hD k.val (by omega) h
        rwa [hk] at this
      · have e : -k = ((n - k.val : ℕ) : ZMod n) := by
          rw [Nat.cast_sub hlt.le, hk]; simp
        have := hD (n - k.val) (by omega) (by omega)
        rwa [← e, hneg, norm_neg] at this
  have hb : ‖((n : ℂ) * g t)‖ ≤ n - 1 := by
    rw [← inversion g t]
    refine (norm_sum_le _ _).trans ?_
    have e : ∀ k, ‖(∑ s, (g s : ℂ) * ψ (-(s * k))) * ψ (k * t)‖ = ‖D g k‖ := by
      intro k
      rw [norm_mul, norm_ψ, mul_one]; rfl
    simp only [e]
    refine (Finset.sum_le_sum fun k _ => hall k).trans ?_
    rw [← Finset.add_sum_erase _ _ (Finset.mem_univ (0 : ZMod n)), if_pos rfl, zero_add,
      Finset.sum_congr rfl (g := fun _ => (1 : ℝ)) fun k hk => if_neg (Finset.ne_of_mem_erase hk), Finset.sum_const,
      Finset.card_erase_of_mem (Finset.mem_univ _), Finset.card_univ, ZMod.card, nsmul_eq_mul, mul_one,
      Nat.cast_sub hn, Nat.cast_one]
  rw [norm_mul, Complex.norm_natCast, Complex.norm_intCast] at hb
  have hn' : (0 : ℝ) < n := by exact_mod_cast hn
  have hlt : |((g t : ℤ) : ℝ)| < 1 := by
    by_contra hc
    push Not at hc
    have := mul_le_mul_of_nonneg_left hc hn'.le
    linarith
  have hlt' : |g t| < 1 := by exact_mod_cast hlt
  rw [abs_lt] at hlt'
  omega

/-- The difference of the two cross-correlations, in the order of the key. -/
def skew (pos : Bool) (x y : ZMod n → ℤ) (t : ZMod n) : ℤ := if pos then ccf x y t - ccf y x t else ccf y x t - ccf x y t

theorem skew_odd (pos : Bool) (x y : ZMod n → ℤ) (t : ZMod n) : skew pos x y (-t) = -skew pos x y t := by
  unfold skew
  have h1 : ccf x y (-t) = ccf y x t := (Amicable.ccf_neg x y t).symm
  have h2 : ccf y x (-t) = ccf x y t := (Amicable.ccf_neg y x t).symm
  rw [h1, h2]
  cases pos <;> simp

theorem skew_transform (pos : Bool) (x y : List ℤ) (k : ℕ) :
    D (skew pos (cyc n x) (cyc n y)) (k : ZMod n) = (crossIm n pos x y k : ℂ) * Complex.I := by
  have e1 : dft n x k * (starRingEnd ℂ) (dft n y k) = D (ccf (cyc n x) (cyc n y)) (k : ZMod n) := by
    rw [dft_eq, dft_eq, F_mul_conj]; rfl
  have e2 : dft n y k * (starRingEnd ℂ) (dft n x k) = D (ccf (cyc n y) (cyc n x)) (k : ZMod n) := by
    rw [dft_eq, dft_eq, F_mul_conj]; rfl
  have hc : ∀ z w : ℂ, z * (starRingEnd ℂ) w - w * (starRingEnd ℂ) z =
      ((z * (starRingEnd ℂ) w - w * (starRingEnd ℂ) z).im : ℂ) * Complex.I := by
    intro z w
    apply Complex.ext
    · simp; ring
    · simp
  unfold crossIm
  cases pos with
  | true =>
    have : skew true (cyc n x) (cyc n y) = fun t => ccf (cyc n x) (cyc n y) t - ccf (cyc n y) (cyc n x) t := rfl
    rw [this, D_sub, ← e1, ← e2, hc]; rfl
  | false =>
    have : skew false (cyc n x) (cyc n y) = fun t => ccf (cyc n y) (cyc n x) t - ccf (cyc n x) (cyc n y) t := rfl
    rw [this, D_sub, ← e1, ← e2, hc]; rfl

/-- Within the tolerance means amicable. -/
theorem amicable_of_small {pos : Bool} {x y : List ℤ}
    (h : ∀ k, 1 ≤ k → k ≤ n / 2 → |crossIm n pos x y k| ≤ 1 / 10000) : Spec.Amicable (cyc n x) (cyc n y) := by
  intro t
  have := odd_rigid (g := skew pos (cyc n x) (cyc n y)) (skew_odd pos _ _) (fun k k1 k2 => by
    rw [skew_transform, norm_mul, Complex.norm_I, mul_one, Complex.norm_real, Real.norm_eq_abs]
    linarith [h k k1 k2]) t
  unfold skew at this
  split at this <;> omega

/-- Cross values that round alike belong to the same differences. -/
theorem skew_of_round {p q : Bool} {x y z w : List ℤ}
    (h : ∀ k, 1 ≤ k → k ≤ n / 2 → roundAway (crossIm n p x y k) = -roundAway (crossIm n q z w k)) (t : ZMod n) :
    skew p (cyc n x) (cyc n y) t = -skew q (cyc n z) (cyc n w) t := by
  have := odd_rigid (g := fun t => skew p (cyc n x) (cyc n y) t + skew q (cyc n z) (cyc n w) t)
    (fun t => by rw [skew_odd, skew_odd]; ring) (fun k k1 k2 => by
    rw [D_add, skew_transform, skew_transform, ← add_mul, norm_mul, Complex.norm_I, mul_one, ← Complex.ofReal_add,
      Complex.norm_real, Real.norm_eq_abs]
    have h1 := round_dist (crossIm n p x y k)
    have h2 := round_dist (crossIm n q z w k)
    rw [h k k1 k2] at h1
    push_cast at h1
    rw [abs_le] at *
    constructor <;> linarith) t
  omega

theorem vals_comp {q : QuadSeq} (hpm : PMQuad n q) (hs : q.a.sum ^ 2 + q.b.sum ^ 2 + q.c.sum ^ 2 + q.d.sum ^ 2 = 4 * n)
    (pr : Option Pairing)
    (h : psdVals n .left (q.sequence (pairingTags pr).1.1) (q.sequence (pairingTags pr).1.2) =
      psdVals n .right (q.sequence (pairingTags pr).2.1) (q.sequence (pairingTags pr).2.2)) :
    Complementary (fam n q .W) (fam n q .X) (fam n q .Y) (fam n q .Z) := by
  rw [psdVals_value, psdVals_value] at h
  have hr : ∀ k, 1 ≤ k → k < n / 2 → roundAway (keyValue n .left (q.sequence (pairingTags pr).1.1)
      (q.sequence (pairingTags pr).1.2) k) = roundAway (keyValue n .right (q.sequence (pairingTags pr).2.1)
      (q.sequence (pairingTags pr).2.2) k) := fun k k1 k2 =>
    List.map_inj_left.1 h k (List.mem_range'_1.2 ⟨k1, by omega⟩)
  rw [← comp_pairing (fam n q) pr]
  intro t ht
  have := corr_eq (seq_pm hpm _) (seq_pm hpm _) (seq_pm hpm _) (seq_pm hpm _) (by
    unfold total
    rcases pr with _ | _ | _ | _ <;> simp only [pairingTags, QuadSeq.sequence] <;> linarith) hr t
  simp only [corr, cyc_seq, if_neg ht] at this
  omega

theorem psdVals_of_comp {q : QuadSeq} (hpm : PMQuad n q) (hc : Complementary (fam n q .W) (fam n q .X) (fam n q .Y) (fam n q .Z))
    (pr : Option Pairing) :
    psdVals n .left (q.sequence (pairingTags pr).1.1) (q.sequence (pairingTags pr).1.2) =
      psdVals n .right (q.sequence (pairingTags pr).2.1) (q.sequence (pairingTags pr).2.2) := by
  refine List.map_congr_left fun k _ => ?_
  have h := psd_sum hpm.a hpm.b hpm.c hpm.d hc k
  unfold sideVal
  refine congrArg roundAway ?_
  rcases pr with _ | _ | _ | _ <;> simp only [pairingTags, QuadSeq.sequence] <;> linarith

theorem roundAway_neg (a : ℝ) : roundAway (-a) = -roundAway a := by
  rcases eq_or_ne a 0 with rfl | h0
  · rw [neg_zero, roundAway_zero, neg_zero]
  unfold roundAway
  by_cases h : 0 ≤ a
  · rw [if_pos h, if_neg (by have := lt_of_le_of_ne h h0.symm; linarith), ← Int.ceil_neg]
    congr 1; ring
  · rw [if_neg h, if_pos (by linarith), ← Int.floor_neg]
    congr 1; ring

/-- What the keys express beyond complementarity. -/
theorem psdKey_iff {ty : SeqType} (hty : Supported ty) {q : QuadSeq} (hpm : PMQuad n q)
    (hs : q.a.sum ^ 2 + q.b.sum ^ 2 + q.c.sum ^ 2 + q.d.sum ^ 2 = 4 * n) (pr : Option Pairing) {p p' : Bool}
    (hp : crossSign (pairingTags pr).1 = some p) (hp' : crossSign (pairingTags pr).2 = some p') :
    (∃ v, psdKey n ty .left p (q.sequence (pairingTags pr).1.1) (q.sequence (pairingTags pr).1.2) = some v ∧
      psdKey n ty .right p' (q.sequence (pairingTags pr).2.1) (q.sequence (pairingTags pr).2.2) = some v) ↔
    Complementary (fam n q .W) (fam n q .X) (fam n q .Y) (fam n q .Z) ∧ KeyCondition ty pr (fam n q) := by
  have hpc : (∀ t, skew p (fam n q (pairingTags pr).1.1) (fam n q (pairingTags pr).1.2) t =
      -skew p' (fam n q (pairingTags pr).2.1) (fam n q (pairingTags pr).2.2) t) ↔ PairCross pr (fam n q) := by
    rcases pr with _ | _ | _ | _ <;> simp only [pairingTags, crossSign, Option.some.injEq] at hp hp' <;> subst hp hp' <;>
      simp only [PairCross, pairingTags, skew, if_true, if_false, Bool.false_eq_true] <;>
      exact forall_congr' fun t => by constructor <;> intro h <;> omega
  rcases hty with rfl | rfl | rfl
  · show (∃ v, some _ = some v ∧ some _ = some v) ↔ _
    have hrange : ∀ k, k ∈ List.range' 1 (n / 2) ↔ 1 ≤ k ∧ k ≤ n / 2 := fun k => by
      rw [List.mem_range'_1]; omega
    constructor
    · rintro ⟨v, h1, h2⟩
      obtain ⟨k1, k2⟩ := List.append_inj (Option.some.inj (h1.trans h2.symm)) (by rw [psdVals_length, psdVals_length])
      refine ⟨vals_comp hpm hs pr k1, hpc.1 fun t => ?_⟩
      have := skew_of_round (n := n) (p := p) (q := p') (x := q.sequence (pairingTags pr).1.1)
        (y := q.sequence (pairingTags pr).1.2) (z := q.sequence (pairingTags pr).2.1)
        (w := q.sequence (pairingTags pr).2.2)
        (fun k a b => List.map_inj_left.1 k2 k ((hrange k).2 ⟨a, b⟩)) t
      simpa only [cyc_seq] using this
    · rintro ⟨hc, hk⟩
      refine ⟨_, rfl, ?_⟩
      rw [psdVals_of_comp hpm hc pr]
      congr 2
      refine List.map_congr_left fun k hk' => ?_
      have e : crossIm n p (q.sequence (pairingTags pr).1.1) (q.sequence (pairingTags pr).1.2) k =
          -crossIm n p' (q.sequence (pairingTags pr).2.1) (q.sequence (pairingTags pr).2.2) k := by
        have h1 := skew_transform (n := n) p (q.sequence (pairingTags pr).1.1) (q.sequence (pairingTags pr).1.2) k
        have h2 := skew_transform (n := n) p' (q.sequence (pairingTags pr).2.1) (q.sequence (pairingTags pr).2.2) k
        have h3 : D (fun t => skew p (fam n q (pairingTags pr).1.1) (fam n q (pairingTags pr).1.2) t +
            skew p' (fam n q (pairingTags pr).2.1) (fam n q (pairingTags pr).2.2) t) (k : ZMod n) = 0 := by
          unfold D
          refine Finset.sum_eq_zero fun t _ => ?_
          dsimp only
          rw [hpc.2 hk t]
          simp
        rw [D_add] at h3
        simp only [cyc_seq] at h1 h2
        rw [h1, h2, ← add_mul, ← Complex.ofReal_add] at h3
        have := Complex.ofReal_eq_zero.1 ((mul_eq_zero.1 h3).resolve_right Complex.I_ne_zero)
        linarith
      show -roundAway _ = roundAway _
      rw [e, roundAway_neg]
  · have key : ∀ (side : Side) (b : Bool) (x y v : List ℤ), psdKey n .williamsonType side b x y = some v ↔
        Spec.Amicable (cyc n x) (cyc n y) ∧ v = psdVals n side x y := by
      intro side b x y v
      constructor
      · intro h
        refine ⟨amicable_of_small (pos := b) fun k k1 k2 => ?_, psdKey_vals (by simp) h⟩
        unfold psdKey at h
        simp only at h
        split at h
        · cases h
        · rename_i hany
          rw [Bool.not_eq_true, List.any_eq_false] at hany
          have := hany k (List.mem_range'_1.2 ⟨k1, by omega⟩)
          rw [decide_eq_true_eq] at this
          linarith
      · rintro ⟨ha, rfl⟩
        rw [psdKey_amicable ha]
    simp only [key, cyc_seq]
    constructor
    · rintro ⟨v, ⟨a1, e1⟩, a2, e2⟩
      exact ⟨vals_comp hpm hs pr (e1.symm.trans e2), a1, a2⟩
    · rintro ⟨hc, a1, a2⟩
      exact ⟨_, ⟨a1, rfl⟩, a2, psdVals_of_comp hpm hc pr⟩
  · show (∃ v, some _ = some v ∧ some _ = some v) ↔ _
    constructor
    · rintro ⟨v, h1, h2⟩
      exact ⟨vals_comp hpm hs pr (Option.some.inj (h1.trans h2.symm)), trivial⟩
    · rintro ⟨hc, _⟩
      exact ⟨_, rfl, by rw [psdVals_of_comp hpm hc pr]⟩

theorem corrKey_iff {ty : SeqType} (hty : Supported ty) (f : Fam n) (pr : Option Pairing) {p p' : Bool}
    (hp : crossSign (pairingTags pr).1 = some p) (hp' : crossSign (pairingTags pr).2 = some p') :
    (∃ v, corrKey ty .left p (f (pairingTags pr).1.1) (f (pairingTags pr).1.2) = some (some v) ∧
      corrKey ty .right p' (f (pairingTags pr).2.1) (f (pairingTags pr).2.2) = some (some v)) ↔
    Complementary (f .W) (f .X) (f .Y) (f .Z) ∧ KeyCondition ty pr f := by
  have hpc : (∀ t, (if p then asym (f (pairingTags pr).1.1) (f (pairingTags pr).1.2) t
        else asym (f (pairingTags pr).1.2) (f (pairingTags pr).1.1) t) +
      (if p' then asym (f (pairingTags pr).2.1) (f (pairingTags pr).2.2) t
        else asym (f (pairingTags pr).2.2) (f (pairingTags pr).2.1) t) = 0) ↔ PairCross pr f := by
    rcases pr with _ | _ | _ | _ <;> simp only [pairingTags, crossSign, Option.some.injEq] at hp hp' <;> subst hp hp' <;>
      simp only [PairCross, pairingTags, asym, if_true, if_false, Bool.false_eq_true] <;>
      exact forall_congr' fun t => by constructor <;> intro h <;> omega
  rw [← comp_pairing f pr, ← auto_iff]
  rcases hty with rfl | rfl | rfl
  · simp only [corrKey, op_left, op_right, List.map_id', Option.some.injEq]
    rw [show KeyCondition .quaternionType pr f ↔ PairCross pr f from Iff.rfl, ← hpc, ← cross_iff]
    constructor
    · rintro ⟨v, h1, h2⟩
      exact List.append_inj (h1.trans h2.symm) (by simp [auto_len])
    · rintro ⟨h1, h2⟩
      exact ⟨_, rfl, by rw [h1, h2]⟩
  · have key : ∀ (side : Side) (b : Bool) (x y : ZMod n → ℤ) (v : List ℤ), corrKey .williamsonType side b x y = some (some v) ↔
        Spec.Amicable x y ∧ v = (autoVals x y).map side.op := by
      intro side b x y v
      constructor
      · intro h
        simp only [corrKey] at h
        split at h
        · cases h
        · rename_i hany
          refine ⟨?_, (Option.some.inj (Option.some.inj h)).symm⟩
          have hz : crossVals b x y = (crossVals b x y).map fun v => -v := by
            conv_lhs => rw [← List.map_id (crossVals b x y)]
            refine List.map_congr_left fun v hv => ?_
            have : v = 0 := by
              rw [Bool.not_eq_true, List.any_eq_false] at hany
              simpa using hany v hv
            rw [this]; rfl
          intro t
          have := (cross_iff x y x y b b).1 hz t
          unfold asym at this
          split at this <;> omega
      · rintro ⟨ha, rfl⟩
        rw [corrKey_amicable ha]
    simp only [key]
    constructor
    · rintro ⟨v, ⟨a1, e1⟩, a2, e2⟩
      rw [e1, op_left, op_right, List.map_id'] at e2
      exact ⟨e2, a1, a2⟩
    · rintro ⟨hc, a1, a2⟩
      exact ⟨_, ⟨a1, rfl⟩, a2, by rw [op_left, op_right, List.map_id']; exact hc⟩
  · simp only [corrKey, op_left, op_right, List.map_id', Option.some.injEq]
    constructor
    · rintro ⟨v, h1, h2⟩
      exact ⟨h1.trans h2.symm, trivial⟩
    · rintro ⟨hc, _⟩
      exact ⟨_, rfl, hc.symm⟩

end Proofs.Rigid
