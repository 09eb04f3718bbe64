import Verif.Model.Rowsum
import Verif.Proofs.Canonical
import Mathlib.Tactic.NormNum
import Mathlib.Tactic.Linarith
import Mathlib.Tactic.Ring
import Mathlib.Algebra.BigOperators.Ring.Finset

/-!
# Row sums
-/

set_option linter.unusedSectionVars false
set_option linter.unusedVariables false
set_option linter.unusedSimpArgs false

namespace Proofs
open Model Spec

/-! ## Generation with a prescribed row sum -/

theorem rowsum_eq_sum (l : List ℤ) : rowsum l = l.sum := by
  unfold rowsum
  rw [List.sum_eq_foldl]

/-- All ±1 lists of length `m` with `r` ones, in the order of the code. -/
def chooseOnes : ℕ → ℕ → List (List ℤ)
  | 0, 0 => [[]]
  | 0, _ + 1 => []
  | m + 1, 0 => [List.replicate (m + 1) (-1)]
  | m + 1, r + 1 =>
    if m < r then [] else (chooseOnes m r).map (fun l => 1 :: l) ++ (chooseOnes m (r + 1)).map fun l => -1 :: l

theorem chooseOnes_zero (m : ℕ) : chooseOnes m 0 = [List.replicate m (-1)] := by
  cases m <;> rfl

theorem chooseOnes_gt {m r : ℕ} (h : m < r) : chooseOnes m r = [] := by
  cases m with
  | zero =>
    cases r with
    | zero => omega
    | succ r => rfl
  | succ m =>
    cases r with
    | zero => omega
    | succ r => unfold chooseOnes; rw [if_pos (by omega)]

theorem genSeqRec_eq (fuel : ℕ) (pre : List ℤ) (m r : ℕ) (hf : m < fuel) :
    genSeqRec fuel (pre ++ List.replicate m (-1)) r pre.length =
      ((chooseOnes m r).map fun l => pre ++ l, pre ++ List.replicate m (-1)) := by
  induction fuel generalizing pre m r with
  | zero => omega
  | succ fuel ih =>
    unfold genSeqRec
    split
    · next h => subst h; rw [chooseOnes_zero]; rfl
    · next h =>
      split
      · next h2 =>
        rw [List.length_append, List.length_replicate] at h2
        rw [chooseOnes_gt (by omega)]; rfl
      · next h2 =>
        rw [List.length_append, List.length_replicate] at h2
        obtain ⟨m, rfl⟩ : ∃ k, m = k + 1 := ⟨m - 1, by omega⟩
        obtain ⟨r, rfl⟩ : ∃ k, r = k + 1 := ⟨r - 1, by omega⟩
        have e1 : pre ++ List.replicate (m + 1) (-1 : ℤ) = (pre ++ [-1]) ++ List.replicate m (-1) := by
          rw [List.append_assoc]; rfl
        have l1 : (pre ++ [(-1 : ℤ)]).length = pre.length + 1 := by simp
        have l2 : (pre ++ [(1 : ℤ)]).length = pre.length + 1 := by simp
        have i1 := ih (pre ++ [-1]) m (r + 1) (by omega)
        have i2 := ih (pre ++ [1]) m r (by omega)
        rw [l1, ← e1] at i1
        rw [l2] at i2
        have e2 : (pre ++ List.replicate (m + 1) (-1 : ℤ)).set pre.length 1 = (pre ++ [1]) ++ List.replicate m (-1) := by
          rw [List.set_append_right _ _ le_rfl, Nat.sub_self, List.replicate_succ, List.set_cons_zero, List.append_assoc]
          rfl
        have e3 : ((pre ++ [1]) ++ List.replicate m (-1 : ℤ)).set pre.length (-1) = pre ++ List.replicate (m + 1) (-1) := by
          rw [List.append_assoc, List.set_append_right _ _ le_rfl, Nat.sub_self, List.singleton_append, List.set_cons_zero]
          rfl
        simp only [i1, e2, Nat.add_sub_cancel, i2, e3]
        have e4 : chooseOnes (m + 1) (r + 1) =
            (chooseOnes m r).map (fun l => 1 :: l) ++ (chooseOnes m (r + 1)).map fun l => -1 :: l := by
          show (if m < r then [] else _) = _
          rw [if_neg (by omega)]
        rw [e4, List.map_append, List.map_map, List.map_map]
        congr 2
        · refine List.map_congr_left fun l _ => ?_
          simp
        · refine List.map_congr_left fun l _ => ?_
          simp

theorem chooseOnes_spec (m r : ℕ) :
    (chooseOnes m r).Nodup ∧ ∀ l, l ∈ chooseOnes m r ↔ PMSeq m l ∧ l.sum = 2 * (r : ℤ) - m := by
  induction m generalizing r with
  | zero =>
    cases r with
    | zero =>
      refine ⟨List.nodup_singleton _, fun l => ?_⟩
      simp only [chooseOnes, List.mem_singleton, PMSeq, IsPM, List.length_eq_zero_iff]
      constructor
      · rintro rfl; simp
      · exact fun h => h.1.1
    | succ r =>
      refine ⟨List.nodup_nil, fun l => ⟨fun h => absurd h (List.not_mem_nil), ?_⟩⟩
      rintro ⟨⟨h1, _⟩, h2⟩
      rw [List.length_eq_zero_iff] at h1
      subst h1
      simp at h2; omega
  | succ m ih =>
    have hrange : ∀ k l, PMSeq k l → -(k : ℤ) ≤ l.sum ∧ l.sum ≤ k := by
      intro k l
      induction l generalizing k with
      | nil => rintro ⟨rfl, _⟩; simp
      | cons x l ihl =>
        rintro ⟨rfl, h2⟩
        have := ihl l.length ⟨rfl, fun y hy => h2 y (List.mem_cons_of_mem _ hy)⟩
        have hx := h2 x List.mem_cons_self
        rw [List.sum_cons, List.length_cons]; push_cast
        rcases hx with rfl | rfl <;> constructor <;> linarith [this.1, this.2]
    cases r with
    | zero =>
      refine ⟨List.nodup_singleton _, fun l => ?_⟩
      rw [chooseOnes_zero, List.mem_singleton]
      constructor
      · rintro rfl
        refine ⟨⟨List.length_replicate, fun x hx => .inr (List.eq_of_mem_replicate hx)⟩, ?_⟩
        rw [List.sum_replicate]; simp
      · rintro ⟨⟨h1, h2⟩, h3⟩
        refine List.eq_replicate_iff.2 ⟨h1, ?_⟩
        intro x hx
        rcases h2 x hx with h | h
        · exfalso
          subst h
          obtain ⟨p, q, rfl⟩ := List.append_of_mem hx
          have k1 := hrange _ (p ++ q) ⟨rfl, fun y hy => h2 y (by
            rcases List.mem_append.1 hy with h | h
            · exact List.mem_append_left _ h
            · exact List.mem_append_right _ (List.mem_cons_of_mem _ h))⟩
          rw [List.length_append, List.length_cons] at h1
          rw [List.sum_append, List.sum_cons] at h3
          rw [List.sum_append, List.length_append] at k1
          push_cast at k1 h3
          have : ((p.length : ℤ) + q.length) = m := by omega
          linarith [k1.1]
        · exact h
    | succ r =>
      by_cases hmr : m < r
      · have e : chooseOnes (m + 1) (r + 1) = [] := chooseOnes_gt (by omega)
        rw [e]
        refine ⟨List.nodup_nil, fun l => ⟨fun h => absurd h (List.not_mem_nil), ?_⟩⟩
        rintro ⟨h1, h2⟩
        have := (hrange _ l h1).2
        rw [h2] at this; push_cast at this
        omega
      · have e4 : chooseOnes (m + 1) (r + 1) =
            (chooseOnes m r).map (fun l => 1 :: l) ++ (chooseOnes m (r + 1)).map fun l => -1 :: l := by
          show (if m < r then [] else _) = _
          rw [if_neg hmr]
        rw [e4]
        obtain ⟨a1, a2⟩ := ih r
        obtain ⟨b1, b2⟩ := ih (r + 1)
        refine ⟨?_, fun l => ?_⟩
        · rw [List.nodup_append]
          refine ⟨a1.map (fun _ _ h => (List.cons.inj h).2), b1.map (fun _ _ h => (List.cons.inj h).2), ?_⟩
          intro x hx y hy hxy
          obtain ⟨u, _, rfl⟩ := List.mem_map.1 hx
          obtain ⟨v, _, rfl⟩ := List.mem_map.1 hy
          have := (List.cons.inj hxy).1
          omega
        · rw [List.mem_append, List.mem_map, List.mem_map]
          cases l with
          | nil =>
            constructor
            · rintro (⟨u, _, h⟩ | ⟨u, _, h⟩) <;> simp at h
            · rintro ⟨⟨h, _⟩, _⟩; simp at h
          | cons x l =>
            have : PMSeq (m + 1) (x :: l) ↔ (x = 1 ∨ x = -1) ∧ PMSeq m l := by
              unfold PMSeq IsPM
              rw [List.length_cons, List.forall_mem_cons, Nat.add_right_cancel_iff]; tauto
            rw [this, List.sum_cons]
            constructor
            · rintro (⟨u, h, e⟩ | ⟨u, h, e⟩) <;> cases e
              · obtain ⟨h1, h2⟩ := (a2 _).1 h
                exact ⟨⟨.inl rfl, h1⟩, by rw [h2]; push_cast; ring⟩
              · obtain ⟨h1, h2⟩ := (b2 _).1 h
                exact ⟨⟨.inr rfl, h1⟩, by rw [h2]; push_cast; ring⟩
            · rintro ⟨⟨rfl | rfl, h1⟩, h2⟩
              · exact .inl ⟨l, (a2 l).2 ⟨h1, by push_cast at h2; linarith⟩, rfl⟩
              · exact .inr ⟨l, (b2 l).2 ⟨h1, by push_cast at h2 ⊢; linarith⟩, rfl⟩

theorem pm_sum_parity {m : ℕ} {l : List ℤ} (h : PMSeq m l) : ∃ k : ℤ, l.sum = m + 2 * k := by
  obtain ⟨rfl, h⟩ := h
  induction l with
  | nil => exact ⟨0, by simp⟩
  | cons x l ih =>
    obtain ⟨k, hk⟩ := ih fun y hy => h y (List.mem_cons_of_mem _ hy)
    rw [List.sum_cons, hk, List.length_cons]
    rcases h x List.mem_cons_self with rfl | rfl
    · exact ⟨k, by push_cast; ring⟩
    · exact ⟨k - 1, by push_cast; ring⟩

theorem pm_sum_range {m : ℕ} {l : List ℤ} (h : PMSeq m l) : -(m : ℤ) ≤ l.sum ∧ l.sum ≤ m := by
  obtain ⟨rfl, h⟩ := h
  induction l with
  | nil => simp
  | cons x l ih =>
    have := ih fun y hy => h y (List.mem_cons_of_mem _ hy)
    rw [List.sum_cons, List.length_cons]; push_cast
    rcases h x List.mem_cons_self with rfl | rfl <;> constructor <;> linarith [this.1, this.2]

theorem generate_spec (rs : ℤ) (size : ℕ) (h1 : size < 2 ^ 62) (h2 : -2 ^ 62 < rs) (h3 : rs < 2 ^ 62) :
    (generateSequencesWithRowsum rs size).Nodup ∧
      ∀ l, l ∈ generateSequencesWithRowsum rs size ↔ PMSeq size l ∧ l.sum = rs := by
  unfold generateSequencesWithRowsum
  split
  · next hp =>
    refine ⟨List.nodup_nil, fun l => ⟨fun h => absurd h (List.not_mem_nil), ?_⟩⟩
    rintro ⟨ha, hb⟩
    obtain ⟨k, hk⟩ := pm_sum_parity ha
    omega
  · next hp =>
    have hpar : ∃ k : ℤ, (size : ℤ) + rs = 2 * k := ⟨((size : ℤ) + rs) / 2, by omega⟩
    obtain ⟨k, hk⟩ := hpar
    have hdiv : Int.tdiv ((size : ℤ) + rs) 2 = k := by rw [hk]; exact Int.mul_tdiv_cancel_left _ (by decide)
    have hg := genSeqRec_eq (size + 1) [] size (asUsize k) (by omega)
    simp only [List.nil_append, List.length_nil] at hg
    simp only [hdiv, hg, List.map_id']
    obtain ⟨a1, a2⟩ := chooseOnes_spec size (asUsize k)
    refine ⟨a1, fun l => ?_⟩
    rw [a2]
    by_cases hk0 : 0 ≤ k
    · have : (asUsize k : ℤ) = k := by unfold asUsize; omega
      rw [this]
      constructor
      · rintro ⟨x, y⟩; exact ⟨x, by omega⟩
      · rintro ⟨x, y⟩; exact ⟨x, by omega⟩
    · have : (asUsize k : ℤ) = 2 ^ 64 + k := by unfold asUsize; omega
      rw [this]
      constructor
      · rintro ⟨x, y⟩
        have := pm_sum_range x
        omega
      · rintro ⟨x, y⟩
        have := pm_sum_range x
        omega

/-! ## Four squares -/

/-- Lexicographic order on quadruples. -/
def QLt (s t : Quad) : Prop :=
  s.1 < t.1 ∨ s.1 = t.1 ∧ (s.2.1 < t.2.1 ∨ s.2.1 = t.2.1 ∧
    (s.2.2.1 < t.2.2.1 ∨ s.2.2.1 = t.2.2.1 ∧ s.2.2.2 < t.2.2.2))

/-- Sorted and non-negative. -/
def SortedQ (s : Quad) : Prop := 0 ≤ s.1 ∧ s.1 ≤ s.2.1 ∧ s.2.1 ≤ s.2.2.1 ∧ s.2.2.1 ≤ s.2.2.2

theorem sq_mono {a b : ℤ} (h0 : 0 ≤ a) (h : a ≤ b) : a * a ≤ b * b := mul_self_le_mul_self h0 h

/-- The successor: sorted, larger, and nothing of square sum at most `p` in between. -/
theorem increment_spec (p : ℕ) (s : Quad) (hs : SortedQ s) :
    SortedQ (incrementSquares s p) ∧ QLt s (incrementSquares s p) ∧
      ∀ q, SortedQ q → squareSum q ≤ p → QLt s q → ¬ QLt q (incrementSquares s p) := by
  obtain ⟨a, b, c, d⟩ := s
  obtain ⟨h0, h1, h2, h3⟩ := hs
  simp only at h0 h1 h2 h3
  unfold incrementSquares
  simp only
  split
  · next e1 =>
    refine ⟨⟨h0, h1, h2, by simp only; omega⟩, by simp [QLt], ?_⟩
    rintro ⟨a', b', c', d'⟩ _ _ k1 k2
    simp only [QLt] at k1 k2
    omega
  · next e1 =>
    split
    · next e2 =>
      refine ⟨⟨h0, h1, by simp only; omega, by simp only; omega⟩, by simp [QLt], ?_⟩
      rintro ⟨a', b', c', d'⟩ ⟨g0, g1, g2, g3⟩ hq k1 k2
      simp only [QLt] at k1 k2
      simp only at g0 g1 g2 g3
      have : a' = a ∧ b' = b ∧ c' = c ∧ d + 1 ≤ d' := by omega
      obtain ⟨rfl, rfl, rfl, hd⟩ := this
      apply e1
      unfold squareSum at hq ⊢
      simp only at hq ⊢
      have := sq_mono (by omega) hd
      linarith
    · next e2 =>
      split
      · next e3 =>
        refine ⟨⟨h0, by simp only; omega, le_rfl, le_rfl⟩, by simp [QLt], ?_⟩
        rintro ⟨a', b', c', d'⟩ ⟨g0, g1, g2, g3⟩ hq k1 k2
        simp only [QLt] at k1 k2
        simp only at g0 g1 g2 g3
        have : a' = a ∧ b' = b ∧ ((c' = c ∧ d + 1 ≤ d') ∨ c + 1 ≤ c') := by omega
        obtain ⟨rfl, rfl, hd⟩ := this
        unfold squareSum at hq e1 e2
        simp only at hq e1 e2
        rcases hd with ⟨rfl, hd⟩ | hd
        · apply e1
          have := sq_mono (by omega) hd
          linarith
        · apply e2
          have := sq_mono (by omega) hd
          have := sq_mono (by omega) (hd.trans g3)
          linarith
      · next e3 =>
        refine ⟨⟨by simp only; omega, le_rfl, le_rfl, le_rfl⟩, by simp [QLt], ?_⟩
        rintro ⟨a', b', c', d'⟩ ⟨g0, g1, g2, g3⟩ hq k1 k2
        simp only [QLt] at k1 k2
        simp only at g0 g1 g2 g3
        have : a' = a ∧ ((b' = b ∧ ((c' = c ∧ d + 1 ≤ d') ∨ c + 1 ≤ c')) ∨ b + 1 ≤ b') := by omega
        obtain ⟨rfl, hd⟩ := this
        unfold squareSum at hq e1 e2 e3
        simp only at hq e1 e2 e3
        rcases hd with ⟨rfl, ⟨rfl, hd⟩ | hd⟩ | hd
        · apply e1
          have := sq_mono (by omega) hd
          linarith
        · apply e2
          have := sq_mono (by omega) hd
          have := sq_mono (by omega) (hd.trans g3)
          linarith
        · apply e3
          have := sq_mono (by omega) hd
          have := sq_mono (by omega) (hd.trans g2)
          have := sq_mono (by omega) (hd.trans (g2.trans g3))
          linarith

/-- Position in the box `[0, p+1]^4`. -/
def code (p : ℕ) (s : Quad) : ℤ := ((s.1 * (p + 2) + s.2.1) * (p + 2) + s.2.2.1) * (p + 2) + s.2.2.2

/-- All entries are at most `p + 1`. -/
def InBox (p : ℕ) (s : Quad) : Prop := s.1 ≤ p + 1 ∧ s.2.1 ≤ p + 1 ∧ s.2.2.1 ≤ p + 1 ∧ s.2.2.2 ≤ p + 1

theorem sq_le_self {x : ℤ} {p : ℕ} (h : x * x ≤ p) : x ≤ p := by nlinarith

theorem increment_box (p : ℕ) (s : Quad) (hs : SortedQ s) (h : s.1 * s.1 ≤ p) : InBox p (incrementSquares s p) := by
  obtain ⟨a, b, c, d⟩ := s
  have key : ∀ q : Quad, squareSum q ≤ p → InBox p q := by
    rintro ⟨x, y, z, w⟩ hq
    unfold squareSum at hq
    simp only at hq
    have := mul_self_nonneg x
    have := mul_self_nonneg y
    have := mul_self_nonneg z
    have := mul_self_nonneg w
    have e1 := sq_le_self (x := x) (p := p) (by linarith)
    have e2 := sq_le_self (x := y) (p := p) (by linarith)
    have e3 := sq_le_self (x := z) (p := p) (by linarith)
    have e4 := sq_le_self (x := w) (p := p) (by linarith)
    exact ⟨by simp only; omega, by simp only; omega, by simp only; omega, by simp only; omega⟩
  unfold incrementSquares
  simp only
  split
  · next e => exact key _ e
  · split
    · next e => exact key _ e
    · split
      · next e => exact key _ e
      · have := sq_le_self h
        simp only at this
        exact ⟨by simp only; omega, by simp only; omega, by simp only; omega, by simp only; omega⟩

theorem code_lt {p : ℕ} {s t : Quad} (hs : SortedQ s) (ht : SortedQ t) (bs : InBox p s) (bt : InBox p t) (h : QLt s t) :
    code p s < code p t := by
  obtain ⟨a, b, c, d⟩ := s
  obtain ⟨a', b', c', d'⟩ := t
  obtain ⟨s0, s1, s2, s3⟩ := hs
  obtain ⟨t0, t1, t2, t3⟩ := ht
  obtain ⟨u0, u1, u2, u3⟩ := bs
  obtain ⟨v0, v1, v2, v3⟩ := bt
  simp only at *
  have step : ∀ x y x' y' : ℤ, 0 ≤ y' → y ≤ p + 1 → (x < x' ∨ x = x' ∧ y < y') →
      x * (p + 2) + y < x' * (p + 2) + y' := by
    intro x y x' y' k1 k2 k3
    have hp : (0 : ℤ) ≤ p := Int.natCast_nonneg p
    rcases k3 with k3 | ⟨rfl, k3⟩
    · nlinarith
    · linarith
  unfold code
  simp only [QLt] at h ⊢
  rcases h with h | ⟨rfl, h | ⟨rfl, h | ⟨rfl, h⟩⟩⟩
  · exact step _ _ _ _ (by omega) (by omega) (.inl (step _ _ _ _ (by omega) (by omega) (.inl (step _ _ _ _ (by omega) (by omega) (.inl h)))))
  · exact step _ _ _ _ (by omega) (by omega) (.inl (step _ _ _ _ (by omega) (by omega) (.inl (step _ _ _ _ (by omega) (by omega) (.inr ⟨rfl, h⟩)))))
  · exact step _ _ _ _ (by omega) (by omega) (.inl (step _ _ _ _ (by omega) (by omega) (.inr ⟨rfl, h⟩)))
  · exact step _ _ _ _ (by omega) (by omega) (.inr ⟨rfl, h⟩)

theorem code_bound {p : ℕ} {s : Quad} (bs : InBox p s) : code p s < ((p : ℤ) + 2) ^ 4 := by
  obtain ⟨u0, u1, u2, u3⟩ := bs
  unfold code
  have hp : (0 : ℤ) ≤ p := Int.natCast_nonneg p
  have e1 : s.1 * (p + 2) + s.2.1 ≤ ((p : ℤ) + 2) ^ 2 - 1 := by nlinarith
  have e2 : (s.1 * (p + 2) + s.2.1) * (p + 2) + s.2.2.1 ≤ ((p : ℤ) + 2) ^ 3 - 1 := by nlinarith
  nlinarith

theorem QLt_trans {s t u : Quad} (h1 : QLt s t) (h2 : QLt t u) : QLt s u := by
  unfold QLt at *; omega

theorem QLt_irrefl (s : Quad) : ¬ QLt s s := by unfold QLt; omega

theorem QLt_total (s t : Quad) : QLt s t ∨ s = t ∨ QLt t s := by
  obtain ⟨a, b, c, d⟩ := s
  obtain ⟨a', b', c', d'⟩ := t
  simp only [QLt, Prod.mk.injEq]
  omega

theorem loop_spec (p : ℕ) (fuel : ℕ) (s : Quad) (acc : List Quad) (hs : SortedQ s) (hb : InBox p s)
    (hf : ((p : ℤ) + 2) ^ 4 - code p s < fuel) :
    ∃ l, fourSquaresLoop p fuel s acc = some (acc ++ l) ∧ l.Pairwise QLt ∧
      ∀ q, q ∈ l ↔ SortedQ q ∧ squareSum q = p ∧ (s = q ∨ QLt s q) := by
  induction fuel generalizing s acc with
  | zero => have := code_bound hb; push_cast at hf; omega
  | succ fuel ih =>
    unfold fourSquaresLoop
    split
    · next h =>
      obtain ⟨i1, i2, i3⟩ := increment_spec p s hs
      have ib := increment_box p s hs h
      have hc := code_lt hs i1 hb ib i2
      obtain ⟨l, e, k1, k2⟩ := ih (incrementSquares s p) (if squareSum s = p then acc ++ [s] else acc) i1 ib
        (by push_cast at hf; omega)
      have hmem : ∀ q, SortedQ q → squareSum q = p → (QLt s q ↔ incrementSquares s p = q ∨ QLt (incrementSquares s p) q) := by
        intro q h1 h2
        constructor
        · intro h3
          rcases QLt_total (incrementSquares s p) q with h4 | h4 | h4
          · exact .inr h4
          · exact .inl h4
          · exact absurd h4 (i3 q h1 h2.le h3)
        · rintro (rfl | h3)
          · exact i2
          · exact QLt_trans i2 h3
      by_cases hsq : squareSum s = p
      · rw [if_pos hsq] at e ⊢
        refine ⟨s :: l, by rw [e, List.append_assoc]; rfl, ?_, fun q => ?_⟩
        · rw [List.pairwise_cons]
          refine ⟨fun q hq => ?_, k1⟩
          obtain ⟨g1, g2, g3⟩ := (k2 q).1 hq
          exact (hmem q g1 g2).2 g3
        · rw [List.mem_cons, k2]
          constructor
          · rintro (rfl | ⟨g1, g2, g3⟩)
            · exact ⟨hs, hsq, .inl rfl⟩
            · exact ⟨g1, g2, .inr ((hmem q g1 g2).2 g3)⟩
          · rintro ⟨g1, g2, rfl | g3⟩
            · exact .inl rfl
            · exact .inr ⟨g1, g2, (hmem q g1 g2).1 g3⟩
      · rw [if_neg hsq] at e ⊢
        refine ⟨l, e, k1, fun q => ?_⟩
        rw [k2]
        constructor
        · rintro ⟨g1, g2, g3⟩
          exact ⟨g1, g2, .inr ((hmem q g1 g2).2 g3)⟩
        · rintro ⟨g1, g2, rfl | g3⟩
          · exact absurd g2 hsq
          · exact ⟨g1, g2, (hmem q g1 g2).1 g3⟩
    · next h =>
      refine ⟨[], by rw [List.append_nil], List.Pairwise.nil, fun q => ⟨fun h => absurd h (List.not_mem_nil), ?_⟩⟩
      rintro ⟨⟨g0, _⟩, g2, g3⟩
      exfalso
      apply h
      have hle : s.1 ≤ q.1 := by
        rcases g3 with rfl | g3
        · exact le_rfl
        · unfold QLt at g3; omega
      unfold squareSum at g2
      have := sq_mono hs.1 hle
      nlinarith [mul_self_nonneg q.2.1, mul_self_nonneg q.2.2.1, mul_self_nonneg q.2.2.2]

theorem sumOfFourSquares_spec (p : ℕ) :
    ∃ l, sumOfFourSquares p = some l ∧ l.Pairwise QLt ∧ ∀ q, q ∈ l ↔ SortedQ q ∧ squareSum q = p := by
  obtain ⟨l, e, k1, k2⟩ := loop_spec p ((p + 2) ^ 4 + 1) (0, 0, 0, 0) []
    ⟨le_rfl, le_rfl, le_rfl, le_rfl⟩ ⟨by simp only; omega, by simp only; omega, by simp only; omega, by simp only; omega⟩
    (by unfold code; push_cast; linarith)
  refine ⟨l, e, k1, fun q => ?_⟩
  rw [k2]
  refine ⟨fun h => ⟨h.1, h.2.1⟩, fun h => ⟨h.1, h.2, ?_⟩⟩
  obtain ⟨a, b, c, d⟩ := q
  obtain ⟨⟨h0, h1, h2, h3⟩, _⟩ := h
  simp only at h0 h1 h2 h3
  simp only [QLt, Prod.mk.injEq]
  omega

/-! ## The generated row sums -/

theorem generateRowsums_spec (n : ℕ) (ty : SeqType) :
    ∃ l, generateRowsums n ty = some l ∧ l.Nodup ∧ ∀ q : Quad, q ∈ l ↔
      (squareSum q = 4 * (n : ℤ) ∧ q.1 % 2 = n % 2 ∧ q.2.1 % 2 = n % 2 ∧ q.2.2.1 % 2 = n % 2 ∧ q.2.2.2 % 2 = n % 2) ∧
      (SortedQ q ∨ ty = .quaternionType ∧ 0 < q.1 ∧ q.1 < q.2.1 ∧ q.2.1 < q.2.2.1 ∧ q.2.2.1 < -q.2.2.2) := by
  obtain ⟨l, e, k1, k2⟩ := sumOfFourSquares_spec (4 * n)
  refine ⟨l.flatMap (rowsumStep n ty), by unfold generateRowsums; rw [e]; rfl, ?_, fun q => ?_⟩
  · have hmem : ∀ s ∈ l, ∀ q ∈ rowsumStep n ty s, (q.1, q.2.1, q.2.2.1, (q.2.2.2.natAbs : ℤ)) = s := by
      intro s hs q hq
      obtain ⟨⟨g0, g1, g2, g3⟩, _⟩ := (k2 s).1 hs
      obtain ⟨a, b, c, d⟩ := s
      simp only at g0 g1 g2 g3
      unfold rowsumStep at hq
      simp only at hq
      split at hq
      · split at hq
        · simp only [List.mem_cons, List.not_mem_nil, or_false] at hq
          rcases hq with rfl | rfl <;> simp only [Prod.mk.injEq, true_and] <;> omega
        · rw [List.mem_singleton] at hq; subst hq; simp only [Prod.mk.injEq, true_and]; omega
      · exact absurd hq (List.not_mem_nil)
    rw [List.nodup_flatMap]
    refine ⟨fun s hs => ?_, ?_⟩
    · obtain ⟨⟨g0, g1, g2, g3⟩, _⟩ := (k2 s).1 hs
      unfold rowsumStep
      simp only
      split
      · split
        · next h =>
          obtain ⟨a, b, c, d⟩ := s
          simp only at *
          rw [List.nodup_cons]
          refine ⟨?_, List.nodup_singleton _⟩
          rw [List.mem_singleton, Prod.mk.injEq, Prod.mk.injEq, Prod.mk.injEq]
          omega
        · exact List.nodup_singleton _
      · exact List.nodup_nil
    · refine k1.imp_of_mem ?_
      intro s t hs ht hst q h1 h2
      have e1 := hmem s hs q h1
      have e2 := hmem t ht q h2
      rw [e1] at e2
      subst e2
      exact QLt_irrefl _ hst
  · rw [List.mem_flatMap]
    have hmod : ∀ x : ℤ, 0 ≤ x → (((n % 2 : ℕ) : ℤ) = Int.tmod x 2 ↔ x % 2 = (n : ℤ) % 2) := by
      intro x hx
      rw [Int.tmod_eq_emod_of_nonneg hx]
      omega
    constructor
    · rintro ⟨s, hs, hq⟩
      obtain ⟨⟨g0, g1, g2, g3⟩, g4⟩ := (k2 s).1 hs
      obtain ⟨a, b, c, d⟩ := s
      simp only at g0 g1 g2 g3
      unfold rowsumStep at hq
      simp only at hq
      simp only [hmod a (by omega), hmod b (by omega), hmod c (by omega), hmod d (by omega)] at hq
      split at hq
      · next hpar =>
        split at hq
        · next hd =>
          simp only [List.mem_cons, List.not_mem_nil, or_false] at hq
          rcases hq with rfl | rfl
          · exact ⟨⟨by rw [g4]; push_cast; ring, hpar⟩, .inl ⟨g0, g1, g2, g3⟩⟩
          · simp only
            refine ⟨⟨?_, hpar.1, hpar.2.1, hpar.2.2.1, by omega⟩, .inr ⟨hd.2.2.2.2, by omega, by omega, by omega, by omega⟩⟩
            unfold squareSum at g4 ⊢
            simp only at g4 ⊢
            push_cast at g4
            linarith
        · rw [List.mem_singleton] at hq; subst hq
          exact ⟨⟨by rw [g4]; push_cast; ring, hpar⟩, .inl ⟨g0, g1, g2, g3⟩⟩
      · exact absurd hq (List.not_mem_nil)
    · rintro ⟨⟨g4, hpar⟩, h⟩
      rcases h with h | ⟨hty, h0, h1, h2, h3⟩
      · refine ⟨q, (k2 q).2 ⟨h, by rw [g4]; push_cast; ring⟩, ?_⟩
        obtain ⟨a, b, c, d⟩ := q
        obtain ⟨g0, g1, g2, g3⟩ := h
        simp only at g0 g1 g2 g3
        unfold rowsumStep
        simp only
        simp only [hmod a (by omega), hmod b (by omega), hmod c (by omega), hmod d (by omega)]
        rw [if_pos hpar]
        split
        · exact List.mem_cons_self
        · exact List.mem_singleton_self _
      · obtain ⟨a, b, c, d⟩ := q
        simp only at *
        refine ⟨(a, b, c, -d), (k2 _).2 ⟨⟨by simp only; omega, by simp only; omega, by simp only; omega, by simp only; omega⟩, ?_⟩, ?_⟩
        · unfold squareSum at g4 ⊢
          simp only at g4 ⊢
          push_cast
          linarith
        · unfold rowsumStep
          simp only
          simp only [hmod a (by omega), hmod b (by omega), hmod c (by omega), hmod (-d) (by omega)]
          rw [if_pos ⟨hpar.1, hpar.2.1, hpar.2.2.1, by omega⟩, if_pos ⟨by omega, by omega, by omega, by omega, hty⟩, neg_neg]
          exact List.mem_cons_of_mem _ List.mem_cons_self

end Proofs

namespace Proofs
open Model Spec

variable {n : ℕ} [NeZero n]

/-! ## The row-sum identity -/

theorem sum_cyc {l : List ℤ} (h : l.length = n) : ∑ i : ZMod n, cyc n l i = l.sum := by
  have : ∑ i : ZMod n, cyc n l i = ∑ i ∈ Finset.range n, at0 l i := by
    rw [sum_range_zmod n fun i => at0 l i]
    exact Finset.sum_congr rfl fun i _ => rfl
  rw [this]
  clear this
  have : ∀ m, m ≤ l.length → ∑ i ∈ Finset.range m, at0 l i = (l.take m).sum := by
    intro m hm
    induction m with
    | zero => simp
    | succ m ih =>
      rw [Finset.sum_range_succ, ih (by omega), List.take_add_one, List.sum_append]
      congr 1
      have : m < l.length := by omega
      simp [at0, List.getD_eq_getElem?_getD, this]
  rw [this n (by omega), ← h, List.take_length]

theorem sum_sq_paf (x : ZMod n → ℤ) : (∑ i, x i) ^ 2 = ∑ t, paf x t := by
  unfold paf
  rw [Finset.sum_comm, sq, Finset.sum_mul]
  refine Finset.sum_congr rfl fun i _ => ?_
  rw [← Finset.mul_sum]
  congr 1
  exact (Fintype.sum_equiv (Equiv.addLeft i) _ _ fun j => rfl).symm

theorem paf_zero {x : ZMod n → ℤ} (h : PM x) : paf x 0 = n := by
  unfold paf
  have : ∀ i : ZMod n, x i * x (i + 0) = 1 := by
    intro i
    rw [add_zero]
    rcases h i with e | e <;> rw [e] <;> rfl
  rw [Finset.sum_congr rfl fun i _ => this i]
  simp [ZMod.card]

theorem sum_squares {a b c d : ZMod n → ℤ} (ha : PM a) (hb : PM b) (hc : PM c) (hd : PM d) (h : Complementary a b c d) :
    (∑ i, a i) ^ 2 + (∑ i, b i) ^ 2 + (∑ i, c i) ^ 2 + (∑ i, d i) ^ 2 = 4 * n := by
  rw [sum_sq_paf, sum_sq_paf, sum_sq_paf, sum_sq_paf, ← Finset.sum_add_distrib, ← Finset.sum_add_distrib,
    ← Finset.sum_add_distrib, Finset.sum_eq_single 0 (fun t _ ht => h t ht) (fun h => absurd (Finset.mem_univ _) h),
    paf_zero ha, paf_zero hb, paf_zero hc, paf_zero hd]
  ring

/-! ## Sorting the row sums by negations and swaps -/

/-- Row sums of a family. -/
def rsF (f : Fam n) (t : Tag) : ℤ := ∑ i, f t i

theorem rsF_neg (t₀ : Tag) (f : Fam n) (t : Tag) : rsF (negAt t₀ f) t = if t = t₀ then -rsF f t else rsF f t := by
  unfold rsF negAt
  split <;> simp

theorem rsF_swap (t₁ t₂ : Tag) (f : Fam n) (t : Tag) : rsF (swapFam t₁ t₂ f) t = rsF f (Equiv.swap t₁ t₂ t) := rfl

theorem sn_nonneg_at {f g : Fam n} (h : SNEquiv f g) (t₀ : Tag) :
    ∃ g', SNEquiv f g' ∧ 0 ≤ rsF g' t₀ ∧ ∀ t, t ≠ t₀ → rsF g' t = rsF g t := by
  by_cases h0 : 0 ≤ rsF g t₀
  · exact ⟨g, h, h0, fun _ _ => rfl⟩
  · refine ⟨negAt t₀ g, .trans _ _ _ h (.rel _ _ (.neg t₀)), ?_, fun t ht => ?_⟩
    · rw [rsF_neg, if_pos rfl]; omega
    · rw [rsF_neg, if_neg ht]

theorem sn_nonneg (f : Fam n) : ∃ g, SNEquiv f g ∧ ∀ t, 0 ≤ rsF g t := by
  obtain ⟨g1, e1, h1, _⟩ := sn_nonneg_at (.refl f) .W
  obtain ⟨g2, e2, h2, k2⟩ := sn_nonneg_at e1 .X
  obtain ⟨g3, e3, h3, k3⟩ := sn_nonneg_at e2 .Y
  obtain ⟨g4, e4, h4, k4⟩ := sn_nonneg_at e3 .Z
  refine ⟨g4, e4, fun t => ?_⟩
  cases t
  · rw [k4 _ (by decide), k3 _ (by decide), k2 _ (by decide)]; exact h1
  · rw [k4 _ (by decide), k3 _ (by decide)]; exact h2
  · rw [k4 _ (by decide)]; exact h3
  · exact h4

theorem sn_cmp {f g : Fam n} (h : SNEquiv f g) {t₁ t₂ : Tag} (h12 : t₁ ≠ t₂) :
    ∃ g', SNEquiv f g' ∧ rsF g' t₁ = min (rsF g t₁) (rsF g t₂) ∧ rsF g' t₂ = max (rsF g t₁) (rsF g t₂) ∧
      ∀ t, t ≠ t₁ → t ≠ t₂ → rsF g' t = rsF g t := by
  by_cases h0 : rsF g t₁ ≤ rsF g t₂
  · exact ⟨g, h, (min_eq_left h0).symm, (max_eq_right h0).symm, fun _ _ _ => rfl⟩
  · refine ⟨swapFam t₁ t₂ g, .trans _ _ _ h (.rel _ _ (.swap _ _ h12)), ?_, ?_, fun t e1 e2 => ?_⟩
    · rw [rsF_swap, Equiv.swap_apply_left, min_eq_right (by omega)]
    · rw [rsF_swap, Equiv.swap_apply_right, max_eq_left (by omega)]
    · rw [rsF_swap, Equiv.swap_apply_of_ne_of_ne e1 e2]

theorem sn_sorted (f : Fam n) :
    ∃ g, SNEquiv f g ∧ 0 ≤ rsF g .W ∧ rsF g .W ≤ rsF g .X ∧ rsF g .X ≤ rsF g .Y ∧ rsF g .Y ≤ rsF g .Z := by
  obtain ⟨g, e, h⟩ := sn_nonneg f
  obtain ⟨g1, e1, a1, b1, c1⟩ := sn_cmp e (t₁ := .W) (t₂ := .X) (by decide)
  obtain ⟨g2, e2, a2, b2, c2⟩ := sn_cmp e1 (t₁ := .Y) (t₂ := .Z) (by decide)
  obtain ⟨g3, e3, a3, b3, c3⟩ := sn_cmp e2 (t₁ := .W) (t₂ := .Y) (by decide)
  obtain ⟨g4, e4, a4, b4, c4⟩ := sn_cmp e3 (t₁ := .X) (t₂ := .Z) (by decide)
  obtain ⟨g5, e5, a5, b5, c5⟩ := sn_cmp e4 (t₁ := .X) (t₂ := .Y) (by decide)
  have hW := h .W
  have hX := h .X
  have hY := h .Y
  have hZ := h .Z
  have k1 := c1 .Y (by decide) (by decide)
  have k1' := c1 .Z (by decide) (by decide)
  have k2 := c2 .W (by decide) (by decide)
  have k2' := c2 .X (by decide) (by decide)
  have k3 := c3 .X (by decide) (by decide)
  have k3' := c3 .Z (by decide) (by decide)
  have k4 := c4 .W (by decide) (by decide)
  have k4' := c4 .Y (by decide) (by decide)
  have k5 := c5 .W (by decide) (by decide)
  have k5' := c5 .Z (by decide) (by decide)
  refine ⟨g5, e5, ?_, ?_, ?_, ?_⟩ <;> omega

theorem negAt_self (t : Tag) (f : Fam n) : negAt t (negAt t f) = f := by
  funext u i; unfold negAt; split <;> simp

theorem neg_ns_swap (f : Fam n) (t₀ t₁ t₂ : Tag) (h : t₁ ≠ t₂) : NSEquiv (negAt t₀ f) (swapFam t₁ t₂ f) := by
  have : NSEquiv (negAt t₀ f) _ := .rel _ _ (.mk (f := negAt t₀ f) t₀ t₁ t₂ h)
  rwa [negAt_self] at this

theorem neg_ns_neg (f : Fam n) (t₀ t₁ : Tag) : NSEquiv (negAt t₀ f) (negAt t₁ f) :=
  .trans _ _ _ (neg_ns_swap f t₀ .W .X (by decide)) (.symm _ _ (neg_ns_swap f t₁ .W .X (by decide)))

theorem neg_ns_congr {f g : Fam n} (h : NSEquiv f g) (t : Tag) : NSEquiv (negAt t f) (negAt t g) := by
  induction h with
  | rel x y h =>
    cases h with
    | mk t₀ t₁ t₂ h12 =>
      rw [negAt_swapFam, negAt_comm]
      exact .trans _ _ _ (neg_ns_neg x t _) (.rel _ _ (.mk _ _ _ h12))
  | refl x => exact .refl _
  | symm x y _ ih => exact .symm _ _ ih
  | trans x y z _ _ h1 h2 => exact .trans _ _ _ h1 h2

/-- The negate-and-swap class has index at most two in the class of negations and swaps. -/
theorem sn_ns {f g : Fam n} (h : SNEquiv f g) : NSEquiv f g ∨ NSEquiv f (negAt .W g) := by
  induction h with
  | rel x y h =>
    right
    cases h with
    | neg t₀ =>
      have := neg_ns_neg (negAt t₀ x) .W t₀
      rw [negAt_self] at this
      exact .symm _ _ this
    | swap t₁ t₂ h12 =>
      rw [negAt_swapFam]
      have := neg_ns_swap (negAt (Equiv.swap t₁ t₂ .W) x) (Equiv.swap t₁ t₂ .W) t₁ t₂ h12
      rwa [negAt_self] at this
  | refl x => exact .inl (.refl _)
  | symm x y _ ih =>
    rcases ih with ih | ih
    · exact .inl (.symm _ _ ih)
    · right
      have := neg_ns_congr ih .W
      rw [negAt_self] at this
      exact .symm _ _ this
  | trans x y z _ _ h1 h2 =>
    rcases h1 with h1 | h1 <;> rcases h2 with h2 | h2
    · exact .inl (.trans _ _ _ h1 h2)
    · exact .inr (.trans _ _ _ h1 h2)
    · exact .inr (.trans _ _ _ h1 (neg_ns_congr h2 .W))
    · have := neg_ns_congr h2 .W
      rw [negAt_self] at this
      exact .inl (.trans _ _ _ h1 this)

/-- Every family can be brought by negate-and-swap operations to one of the two sorted shapes. -/
theorem ns_sorted (f : Fam n) : ∃ g, NSEquiv f g ∧
    ((0 ≤ rsF g .W ∧ rsF g .W ≤ rsF g .X ∧ rsF g .X ≤ rsF g .Y ∧ rsF g .Y ≤ rsF g .Z) ∨
      (0 < rsF g .W ∧ rsF g .W < rsF g .X ∧ rsF g .X < rsF g .Y ∧ rsF g .Y < -rsF g .Z)) := by
  obtain ⟨g, e, h0, h1, h2, h3⟩ := sn_sorted f
  rcases sn_ns e with h | h
  · exact ⟨g, h, .inl ⟨h0, h1, h2, h3⟩⟩
  · have hsw : ∀ t₁ t₂, t₁ ≠ t₂ → rsF g t₁ = rsF g t₂ → ∃ g', NSEquiv f g' ∧ ∀ t, rsF g' t = rsF g t := by
      intro t₁ t₂ h12 he
      refine ⟨swapFam t₁ t₂ g, .trans _ _ _ h (neg_ns_swap g .W t₁ t₂ h12), fun t => ?_⟩
      rw [rsF_swap]
      by_cases k1 : t = t₁
      · subst k1; rw [Equiv.swap_apply_left, he]
      · by_cases k2 : t = t₂
        · subst k2; rw [Equiv.swap_apply_right, he]
        · rw [Equiv.swap_apply_of_ne_of_ne k1 k2]
    have fin : (∃ g', NSEquiv f g' ∧ ∀ t, rsF g' t = rsF g t) → ∃ g, NSEquiv f g ∧
        ((0 ≤ rsF g .W ∧ rsF g .W ≤ rsF g .X ∧ rsF g .X ≤ rsF g .Y ∧ rsF g .Y ≤ rsF g .Z) ∨
          (0 < rsF g .W ∧ rsF g .W < rsF g .X ∧ rsF g .X < rsF g .Y ∧ rsF g .Y < -rsF g .Z)) := by
      rintro ⟨g', k1, k2⟩
      exact ⟨g', k1, .inl (by simp only [k2]; exact ⟨h0, h1, h2, h3⟩)⟩
    by_cases z : rsF g .W = 0
    · refine fin ⟨negAt .W g, h, fun t => ?_⟩
      rw [rsF_neg]
      split
      · next e => subst e; rw [z]; rfl
      · rfl
    by_cases z1 : rsF g .W = rsF g .X
    · exact fin (hsw .W .X (by decide) z1)
    by_cases z2 : rsF g .X = rsF g .Y
    · exact fin (hsw .X .Y (by decide) z2)
    by_cases z3 : rsF g .Y = rsF g .Z
    · exact fin (hsw .Y .Z (by decide) z3)
    refine ⟨negAt .Z g, .trans _ _ _ h (neg_ns_neg g _ _), .inr ?_⟩
    rw [rsF_neg, rsF_neg, rsF_neg, rsF_neg, if_neg (by decide), if_neg (by decide), if_neg (by decide), if_pos rfl]
    omega

theorem rowsum_fam {s : QuadSeq} (h : Wf n s) (t : Tag) : rowsum (s.sequence t) = rsF (fam n s) t := by
  rw [rowsum_eq_sum, rsF, fam_apply, sum_cyc (h.len t)]

theorem ns_sn {f g : Fam n} (h : NSEquiv f g) : SNEquiv f g := by
  induction h with
  | rel x y h =>
    cases h with
    | mk t₀ t₁ t₂ h12 => exact .trans _ _ _ (.rel _ _ (.neg t₀)) (.rel _ _ (.swap _ _ h12))
  | refl x => exact .refl _
  | symm x y _ ih => exact .symm _ _ ih
  | trans x y z _ _ h1 h2 => exact .trans _ _ _ h1 h2

theorem sn_valid {f g : Fam n} (h : SNEquiv f g) : ValidF f ↔ ValidF g := by
  induction h with
  | rel x y h =>
    refine ⟨valid_SNMove h, fun hy => ?_⟩
    cases h with
    | neg t₀ => have := valid_negAt hy t₀; rwa [negAt_self] at this
    | swap t₁ t₂ h12 =>
      have := valid_swapFam hy t₁ t₂
      have e : swapFam t₁ t₂ (swapFam t₁ t₂ x) = x := by funext u; simp [swapFam]
      rwa [e] at this
  | refl x => rfl
  | symm x y _ ih => exact ih.symm
  | trans x y z _ _ h1 h2 => exact h1.trans h2

theorem sn_symf {f g : Fam n} (h : SNEquiv f g) : SymF f ↔ SymF g := by
  induction h with
  | rel x y h =>
    cases h with
    | neg t₀ =>
      refine ⟨fun hx => sym_negAt hx _, fun hy => ?_⟩
      have := sym_negAt hy t₀; rwa [negAt_self] at this
    | swap t₁ t₂ h12 =>
      refine ⟨fun hx => sym_swapFam hx _ _, fun hy => ?_⟩
      have := sym_swapFam hy t₁ t₂
      have e : swapFam t₁ t₂ (swapFam t₁ t₂ x) = x := by funext u; simp [swapFam]
      rwa [e] at this
  | refl x => rfl
  | symm x y _ ih => exact ih.symm
  | trans x y z _ _ h1 h2 => exact h1.trans h2

end Proofs
