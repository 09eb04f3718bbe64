import Mathlib.Algebra.BigOperators.Intervals
import Verif.Proofs.Pipeline

/-!
# Helper lemmas: the keys of true matches are isolated
-/

set_option linter.unusedSectionVars false
set_option linter.unusedVariables false
set_option linter.unusedSimpArgs false

namespace Proofs.Isolation
open Model Spec Proofs.Txt Proofs.Keys Proofs.Matching

variable {n : ℕ} [NeZero n]

/-! ## A linear relation between the entries of a key -/

/-- The sum of an even function over all shifts, from the entries of a key. -/
def weight (n : ℕ) (u : List ℤ) : ℤ := u.sum + (u.take ((n - 1) / 2)).sum

theorem sum_range_list (f : ℕ → ℤ) (k : ℕ) : ((List.range' 1 k).map f).sum = ∑ t ∈ Finset.range k, f (t + 1) := by
  induction k with
  | zero => simp
  | succ k ih =>
    rw [List.range'_concat, List.map_append, List.sum_append, ih, Finset.sum_range_succ]
    simp [Nat.add_comm]

theorem take_range' (j k : ℕ) : (List.range' 1 k).take j = List.range' 1 (min j k) := by
  refine List.ext_getElem (by simp) fun i h1 h2 => ?_
  simp

theorem sum_map_neg (l : List ℤ) : (l.map fun v => -v).sum = -l.sum := by
  induction l with
  | nil => rfl
  | cons x xs ih => rw [List.map_cons, List.sum_cons, List.sum_cons, ih]; ring

theorem even_sum (f : ZMod n → ℤ) (hf : ∀ t, f (-t) = f t) :
    ∑ t, f t = f 0 + weight n ((List.range' 1 (n / 2)).map fun (t : ℕ) => f (t : ZMod n)) := by
  have hn := npos (n := n)
  have h1 : ∑ t, f t = ∑ t ∈ Finset.range n, f (t : ZMod n) := by
    rw [sum_range_zmod n fun t => f (t : ZMod n)]
    exact Finset.sum_congr rfl fun t _ => by rw [ZMod.natCast_zmod_val]
  obtain ⟨m, hm⟩ : ∃ m, n = m + 1 := ⟨n - 1, by omega⟩
  have h2 : ∑ t ∈ Finset.range n, f (t : ZMod n) = ∑ t ∈ Finset.range m, f ((t + 1 : ℕ) : ZMod n) + f 0 := by
    have : Finset.range n = Finset.range (m + 1) := by rw [hm]
    rw [this, Finset.sum_range_succ']
    simp
  have hk : n / 2 ≤ m := by omega
  have h3 : ∑ t ∈ Finset.range m, f ((t + 1 : ℕ) : ZMod n) =
      ∑ t ∈ Finset.range (n / 2), f ((t + 1 : ℕ) : ZMod n) +
        ∑ t ∈ Finset.range (m - n / 2), f ((t + 1 : ℕ) : ZMod n) := by
    rw [← Finset.sum_range_add_sum_Ico (fun t => f ((t + 1 : ℕ) : ZMod n)) hk]
    congr 1
    rw [Finset.sum_Ico_eq_sum_range, ← Finset.sum_range_reflect]
    refine Finset.sum_congr rfl fun t ht => ?_
    rw [Finset.mem_range] at ht
    rw [← hf]
    congr 1
    have e : (n / 2 + (m - n / 2 - 1 - t) + 1) + (t + 1) = n := by omega
    have e2 : ((n / 2 + (m - n / 2 - 1 - t) + 1 : ℕ) : ZMod n) + ((t + 1 : ℕ) : ZMod n) = 0 := by
      rw [← Nat.cast_add, e]; simp
    rw [neg_eq_iff_add_eq_zero]
    exact e2
  unfold weight
  rw [← List.map_take, take_range', sum_range_list, sum_range_list, h1, h2, h3]
  have : min ((n - 1) / 2) (n / 2) = m - n / 2 := by omega
  rw [this]
  ring

theorem weight_neg (u : List ℤ) : weight n (u.map fun v => -v) = -weight n u := by
  unfold weight
  rw [← List.map_take, sum_map_neg, sum_map_neg]
  ring

/-- Two keys of the same length and weight that agree up to the last entry are equal. -/
theorem weight_last {u v : List ℤ} (hu : u.length = n / 2) (hv : v.length = n / 2) (hd : u.dropLast = v.dropLast)
    (hw : weight n u = weight n v) : u = v := by
  by_cases h0 : n / 2 = 0
  · rw [List.length_eq_zero_iff.1 (hu.trans h0), List.length_eq_zero_iff.1 (hv.trans h0)]
  · have hune : u ≠ [] := by rintro rfl; simp at hu; omega
    have hvne : v ≠ [] := by rintro rfl; simp at hv; omega
    have eu := (List.dropLast_append_getLast hune).symm
    have ev := (List.dropLast_append_getLast hvne).symm
    rw [← hd] at ev
    have hl : u.dropLast.length = n / 2 - 1 := by rw [List.length_dropLast, hu]
    generalize u.dropLast = w at *
    generalize u.getLast hune = a at *
    generalize v.getLast hvne = b at *
    subst eu ev
    unfold weight at hw
    rcases Nat.lt_or_ge ((n - 1) / 2) (n / 2) with h | h
    · rw [List.take_append_of_le_length (by omega), List.take_append_of_le_length (by omega)] at hw
      simp only [List.sum_append, List.sum_singleton] at hw
      have : a = b := by linarith
      rw [this]
    · rw [List.take_of_length_le (by simp; omega), List.take_of_length_le (by simp; omega)] at hw
      simp only [List.sum_append, List.sum_singleton] at hw
      have : a = b := by linarith
      rw [this]

theorem weight_auto {l m : List ℤ} (hl : PMSeq n l) (hm : PMSeq n m) :
    weight n (autoVals (cyc n l) (cyc n m)) = l.sum ^ 2 + m.sum ^ 2 - 2 * n := by
  have h := even_sum (fun t => paf (cyc n l) t + paf (cyc n m) t) fun t => by simp only [paf_even]
  rw [Finset.sum_add_distrib, ← sum_sq_paf, ← sum_sq_paf, sum_cyc hl.1, sum_cyc hm.1, paf_zero (cyc_pm hl),
    paf_zero (cyc_pm hm)] at h
  unfold autoVals
  linarith

/-! ## Isolation -/

theorem not_prefix_last {u v : List ℤ} (hl : u.length = v.length) (hne : u ≠ v)
    (h : u.dropLast = v.dropLast → u = v ∨ (¬ intText (u.getLast?.getD 0) <+: intText (v.getLast?.getD 0) ∧
      ¬ intText (v.getLast?.getD 0) <+: intText (u.getLast?.getD 0))) :
    ¬ keyOf v <+: keyOf u ∧ ¬ keyOf u <+: keyOf v := by
  have hu : u ≠ [] := by
    rintro rfl
    exact hne (List.length_eq_zero_iff.1 hl.symm).symm
  have hv : v ≠ [] := by
    rintro rfl
    exact hne (List.length_eq_zero_iff.1 hl)
  constructor
  · intro hp
    obtain ⟨e1, e2⟩ := keyOf_prefix hl.symm hv hp
    rcases h e1.symm with h | h
    · exact hne h
    · exact h.2 e2
  · intro hp
    obtain ⟨e1, e2⟩ := keyOf_prefix hl hu hp
    rcases h e1 with h | h
    · exact hne h
    · exact h.1 e2

/-- A key whose last value is zero is isolated among keys of the same length. -/
theorem iso_zero {u v : List ℤ} (hl : u.length = v.length) (hv : v.getLast?.getD 0 = 0) :
    u = v ∨ (¬ keyOf v <+: keyOf u ∧ ¬ keyOf u <+: keyOf v) := by
  by_cases hne : u = v
  · exact .inl hne
  · refine .inr (not_prefix_last hl hne fun hd => ?_)
    rw [hv]
    by_cases h0 : u.getLast?.getD 0 = 0
    · left
      have hu : u ≠ [] := by rintro rfl; exact hne (List.length_eq_zero_iff.1 hl.symm).symm
      have hv' : v ≠ [] := by rintro rfl; exact hne (List.length_eq_zero_iff.1 hl)
      rw [← List.dropLast_append_getLast hu, ← List.dropLast_append_getLast hv', hd]
      rw [List.getLast?_eq_some_getLast hu, Option.getD_some] at h0
      rw [List.getLast?_eq_some_getLast hv', Option.getD_some] at hv
      rw [h0, hv]
    · exact .inr ⟨fun h => h0 (zero_prefix h), fun h => h0 (prefix_zero h)⟩

/-- Keys of the same weight are isolated. -/
theorem iso_weight {u v : List ℤ} (hu : u.length = n / 2) (hv : v.length = n / 2) (hw : weight n u = weight n v) :
    u = v ∨ (¬ keyOf v <+: keyOf u ∧ ¬ keyOf u <+: keyOf v) := by
  by_cases hne : u = v
  · exact .inl hne
  · exact .inr (not_prefix_last (hu.trans hv.symm) hne fun hd => .inl (weight_last hu hv hd hw))

/-! ## Correlation keys -/

/-- The key of a pair of lists; `none` if the pair is dropped. -/
def key (n : ℕ) [NeZero n] (ty : SeqType) (side : Side) (pos : Bool) (x y : List ℤ) : Option (List ℤ) :=
  (corrKey ty side pos (cyc n x) (cyc n y)).getD none

theorem corrKey_key {ty : SeqType} (hty : Supported ty) (side : Side) (pos : Bool) (x y : List ℤ) :
    corrKey ty side pos (cyc n x) (cyc n y) = some (key n ty side pos x y) := by
  unfold key
  rcases hty with rfl | rfl | rfl
  · rfl
  · unfold corrKey; simp only; split <;> rfl
  · rfl

theorem key_length {ty : SeqType} {side : Side} {pos : Bool} {x y u : List ℤ} (h : key n ty side pos x y = some u) :
    u.length = if ty = .quaternionType then n / 2 + n / 2 else n / 2 := by
  unfold key corrKey at h
  cases ty with
  | quaternionType => simp only [Option.getD_some, Option.some.injEq] at h; subst h; simp [auto_len, cross_len]
  | williamsonType =>
    simp only at h
    split at h
    · cases h
    · simp only [Option.getD_some, Option.some.injEq] at h; subst h; simp [auto_len]
  | williamson => simp only [Option.getD_some, Option.some.injEq] at h; subst h; simp [auto_len]
  | _ => simp at h

theorem key_weight {ty : SeqType} (hq : ty ≠ .quaternionType) {side : Side} {pos : Bool} {x y u : List ℤ}
    (h : key n ty side pos x y = some u) (hx : PMSeq n x) (hy : PMSeq n y) :
    weight n u = side.op (x.sum ^ 2 + y.sum ^ 2 - 2 * n) := by
  have : u = (autoVals (cyc n x) (cyc n y)).map side.op := by
    unfold key corrKey at h
    cases ty with
    | quaternionType => exact absurd rfl hq
    | williamsonType =>
      simp only at h
      split at h
      · cases h
      · simp only [Option.getD_some, Option.some.injEq] at h; exact h.symm
    | williamson => simp only [Option.getD_some, Option.some.injEq] at h; exact h.symm
    | _ => simp at h
  rw [this]
  cases side with
  | left => rw [op_left, List.map_id', weight_auto hx hy]
  | right => rw [op_right, weight_neg, weight_auto hx hy]

/-- The key of a true match is isolated in both files. -/
theorem key_iso {ty : SeqType} (hty : Supported ty) (pr : Option Pairing) (p12 p34 : Bool) (rs : Quad)
    (hrs : rs.1 ^ 2 + rs.2.1 ^ 2 + rs.2.2.1 ^ 2 + rs.2.2.2 ^ 2 = 4 * n) {q : QuadSeq} (hq : OfType n ty q)
    (hqs : ∀ t, (q.sequence t).sum = tagRowsum rs t) {v : List ℤ}
    (hv : key n ty .left p12 (q.sequence (pairingTags pr).1.1) (q.sequence (pairingTags pr).1.2) = some v) :
    (∀ x y u, PMSeq n x → PMSeq n y → x.sum = tagRowsum rs (pairingTags pr).1.1 →
      y.sum = tagRowsum rs (pairingTags pr).1.2 → key n ty .left p12 x y = some u →
        u = v ∨ (¬ keyOf v <+: keyOf u ∧ ¬ keyOf u <+: keyOf v)) ∧
    (∀ x y u, PMSeq n x → PMSeq n y → x.sum = tagRowsum rs (pairingTags pr).2.1 →
      y.sum = tagRowsum rs (pairingTags pr).2.2 → key n ty .right p34 x y = some u →
        u = v ∨ (¬ keyOf v <+: keyOf u ∧ ¬ keyOf u <+: keyOf v)) := by
  have hw := ofType_wts hq
  by_cases hqt : ty = .quaternionType
  · subst hqt
    have hz : v.getLast?.getD 0 = 0 := by
      unfold key at hv
      rw [cyc_seq, cyc_seq, corrKey_amicable (wts_amicable hw _ _)] at hv
      simp only [Option.getD_some, Option.some.injEq] at hv
      rw [← hv]
      by_cases h0 : n / 2 = 0
      · have : autoVals (fam n q (pairingTags pr).1.1) (fam n q (pairingTags pr).1.2) = [] :=
          List.length_eq_zero_iff.1 ((auto_len _ _).trans h0)
        rw [this, h0]; rfl
      · obtain ⟨k, hk⟩ := Nat.exists_eq_succ_of_ne_zero h0
        rw [hk, List.replicate_succ', ← List.append_assoc, List.getLast?_concat]
        rfl
    constructor <;> intro x y u _ _ _ _ hu <;>
      exact iso_zero ((key_length hu).trans (key_length hv).symm) hz
  · have lv := key_length hv
    have wv := key_weight hqt hv (seq_pm hw.1 _) (seq_pm hw.1 _)
    rw [if_neg hqt] at lv
    simp only [hqs, Side.op] at wv
    constructor
    · intro x y u hx hy sx sy hu
      have lu := key_length hu
      have wu := key_weight hqt hu hx hy
      rw [if_neg hqt] at lu
      simp only [sx, sy, Side.op] at wu
      exact iso_weight lu lv (wu.trans wv.symm)
    · intro x y u hx hy sx sy hu
      have lu := key_length hu
      have wu := key_weight hqt hu hx hy
      rw [if_neg hqt] at lu
      simp only [sx, sy, Side.op] at wu
      refine iso_weight lu lv (wu.trans (Eq.trans ?_ wv.symm))
      rcases pr with _ | _ | _ | _ <;> simp only [pairingTags, tagRowsum] <;> linarith

end Proofs.Isolation
