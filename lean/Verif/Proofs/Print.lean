import Mathlib.Data.List.GetD
import Mathlib.Data.List.Basic
import Mathlib.Tactic.Linarith
import Verif.Proofs.QHad
import Verif.Proofs.Text
import Verif.Proofs.Dephase

/-!
# Helper lemmas: printed matrices determine the matrices
-/

set_option linter.unusedSectionVars false
set_option linter.unusedVariables false
set_option linter.unusedSimpArgs false

namespace Proofs.Print
open Model Spec Proofs.Loops

/-- Blocks of equal length are determined by their concatenation. -/
theorem blocks_inj {α : Type} (c : ℕ) (hc : 0 < c) : ∀ (l l' : List (List α)), (∀ x ∈ l, x.length = c) →
    (∀ x ∈ l', x.length = c) → l.flatten = l'.flatten → l = l'
  | [], [], _, _, _ => rfl
  | [], y :: l', _, h', h => by
    have h3 := congrArg List.length h
    rw [List.flatten_cons, List.length_append, h' y (by simp)] at h3
    simp at h3
    omega
  | x :: l, [], h', _, h => by
    have h3 := congrArg List.length h
    rw [List.flatten_cons, List.length_append, h' x (by simp)] at h3
    simp at h3
    omega
  | x :: l, y :: l', h1, h2, h => by
    rw [List.flatten_cons, List.flatten_cons] at h
    obtain ⟨e1, e2⟩ := List.append_inj h (by rw [h1 x (by simp), h2 y (by simp)])
    rw [e1, blocks_inj c hc l l' (fun z hz => h1 z (by simp [hz])) (fun z hz => h2 z (by simp [hz])) e2]

theorem flatten_length {α : Type} (c : ℕ) (l : List (List α)) (h : ∀ x ∈ l, x.length = c) :
    l.flatten.length = l.length * c := by
  induction l with
  | nil => simp
  | cons x l ih =>
    rw [List.flatten_cons, List.length_append, ih fun y hy => h y (by simp [hy]), h x (by simp), List.length_cons]
    ring

/-- One printed row. -/
def prRow (n : ℕ) (c : ℕ → Char) : List Char := ['|', ' '] ++ ((List.range n).map fun j => [c j, ' ']).flatten ++ ['|', '\n']

/-- A printed matrix. -/
def pr (n : ℕ) (c : ℕ → ℕ → Char) : List Char := ((List.range n).map fun i => prRow n (c i)).flatten

theorem prRow_length (n : ℕ) (c : ℕ → Char) : (prRow n c).length = 2 * n + 4 := by
  unfold prRow
  rw [List.length_append, List.length_append, flatten_length 2 _ (by simp)]
  simp
  ring

theorem prRow_inj {n : ℕ} {c c' : ℕ → Char} (h : prRow n c = prRow n c') {j : ℕ} (hj : j < n) : c j = c' j := by
  unfold prRow at h
  have h := List.append_cancel_left (List.append_cancel_right h)
  have h := blocks_inj 2 (by norm_num) _ _ (by simp) (by simp) h
  have := (List.map_inj_left.1 h) j (List.mem_range.2 hj)
  simpa using this

theorem pr_length (n : ℕ) (c : ℕ → ℕ → Char) : (pr n c).length = n * (2 * n + 4) := by
  unfold pr
  rw [flatten_length (2 * n + 4) _ (by
    intro x hx
    obtain ⟨i, _, rfl⟩ := List.mem_map.1 hx
    exact prRow_length _ _)]
  simp

theorem pr_inj {n n' : ℕ} {c c' : ℕ → ℕ → Char} (h : pr n c = pr n' c') :
    n = n' ∧ ∀ i j, i < n → j < n → c i j = c' i j := by
  have hn : n = n' := by
    have := congrArg List.length h
    rw [pr_length, pr_length] at this
    rcases Nat.lt_trichotomy n n' with g | g | g
    · nlinarith
    · exact g
    · nlinarith
  subst hn
  refine ⟨rfl, fun i j hi hj => ?_⟩
  have hl : ∀ (d : ℕ → ℕ → Char), ∀ x ∈ (List.range n).map (fun i => prRow n (d i)), x.length = 2 * n + 4 := by
    intro d x hx
    obtain ⟨i, _, rfl⟩ := List.mem_map.1 hx
    exact prRow_length _ _
  have h := blocks_inj (2 * n + 4) (by omega) _ _ (hl c) (hl c') h
  exact prRow_inj ((List.map_inj_left.1 h) i (List.mem_range.2 hi)) hj

theorem hm_pr (m : HM) : m.toString = pr m.size fun i j => if m.get i j = 1 then '+' else '-' := by
  unfold HM.toString pr prRow
  congr 1
  refine List.map_congr_left fun i _ => ?_
  congr 3
  refine List.map_congr_left fun j _ => ?_
  by_cases h : m.get i j = 1 <;> simp [h]

theorem hm_ext {m m' : HM} (h : Square m.size m.matrix) (h' : Square m'.size m'.matrix) (hs : m.size = m'.size)
    (hg : ∀ i j, i < m.size → j < m.size → m.get i j = m'.get i j) : m = m' := by
  cases m with
  | mk n a =>
    cases m' with
    | mk n' a' =>
      simp only at hs
      subst hs
      have : a = a' := shape_ext h h' 0 hg
      rw [this]

theorem qhm_ext {m m' : QHM} (h : Square m.size m.matrix) (h' : Square m'.size m'.matrix) (hs : m.size = m'.size)
    (hg : ∀ i j, i < m.size → j < m.size → m.get i j = m'.get i j) : m = m' := by
  cases m with
  | mk n a =>
    cases m' with
    | mk n' a' =>
      simp only at hs
      subst hs
      have : a = a' := shape_ext h h' Q0 hg
      rw [this]

theorem hm_inj {m m' : HM} (h : Square m.size m.matrix) (h' : Square m'.size m'.matrix)
    (hp : PMMat (zmat m.size m.matrix)) (hp' : PMMat (zmat m'.size m'.matrix)) (he : m.toString = m'.toString) : m = m' := by
  rw [hm_pr, hm_pr] at he
  obtain ⟨hs, hc⟩ := pr_inj he
  refine hm_ext h h' hs fun i j hi hj => ?_
  have h1 : m.get i j = 1 ∨ m.get i j = -1 := Dephase.pm_get hp hi hj
  have h2 : m'.get i j = 1 ∨ m'.get i j = -1 := Dephase.pm_get hp' (hs ▸ hi) (hs ▸ hj)
  have := hc i j hi hj
  rcases h1 with h1 | h1 <;> rcases h2 with h2 | h2 <;> rw [h1, h2] at this ⊢ <;> revert this <;> decide

theorem mapM_some {α β : Type} {f : α → Option β} {g : α → β} {l : List α} (h : ∀ x ∈ l, f x = some (g x)) :
    l.mapM f = some (l.map g) := by
  induction l with
  | nil => rfl
  | cons x l ih =>
    rw [List.mapM_cons, h x (by simp), ih fun y hy => h y (by simp [hy])]
    rfl

theorem qhm_pr (m : QHM) (h : ∀ i j, i < m.size → j < m.size → m.get i j ∈ Q24) :
    m.toString = some (pr m.size fun i j => (quaternionToString (m.get i j)).getD ' ') := by
  unfold QHM.toString
  rw [mapM_some (g := fun i => prRow m.size fun j => (quaternionToString (m.get i j)).getD ' ')]
  · rfl
  intro i hi
  rw [mapM_some (g := fun j => [(quaternionToString (m.get i j)).getD ' ', ' '])]
  · rfl
  intro j hj
  obtain ⟨c, _, hc, _⟩ := q24_char _ (h i j (List.mem_range.1 hi) (List.mem_range.1 hj))
  rw [hc]
  rfl

theorem q24_print_inj {p q : Quat} (hp : p ∈ Q24) (hq : q ∈ Q24)
    (h : (quaternionToString p).getD ' ' = (quaternionToString q).getD ' ') : p = q := by
  obtain ⟨c, _, h1, h2⟩ := q24_char p hp
  obtain ⟨d, _, h3, h4⟩ := q24_char q hq
  rw [h1, h3] at h
  have h : c = d := h
  subst h
  rw [h2] at h4
  exact Option.some.inj h4

theorem qhm_inj {m m' : QHM} (h : Square m.size m.matrix) (h' : Square m'.size m'.matrix)
    (hp : ∀ i j, i < m.size → j < m.size → m.get i j ∈ Q24) (hp' : ∀ i j, i < m'.size → j < m'.size → m'.get i j ∈ Q24)
    (he : m.toString = m'.toString) : m = m' := by
  rw [qhm_pr m hp, qhm_pr m' hp'] at he
  obtain ⟨hs, hc⟩ := pr_inj (Option.some.inj he)
  exact qhm_ext h h' hs fun i j hi hj =>
    q24_print_inj (hp i j hi hj) (hp' i j (hs ▸ hi) (hs ▸ hj)) (hc i j hi hj)

/-! ### Magma syntax -/

/-- Elements separated by `,` and closed by `]`. -/
def sepBy {α : Type} (enc : α → List Char) : List α → List Char
  | [] => [']']
  | [x] => enc x ++ [']']
  | x :: y :: l => enc x ++ ',' :: sepBy enc (y :: l)

/-- `enc` is a code on `P` that can be read off when followed by `,` or `]`. -/
def Readable {α : Type} (P : α → Prop) (enc : α → List Char) : Prop :=
  ∀ x y, P x → P y → ∀ r s, enc x ++ r = enc y ++ s → x = y ∧ r = s

theorem sepBy_readable {α : Type} {P : α → Prop} {enc : α → List Char} (h : Readable P enc) :
    Readable (fun l => l ≠ [] ∧ ∀ x ∈ l, P x) (sepBy enc) := by
  rintro l l' ⟨h1, h2⟩ ⟨h3, h4⟩ r s he
  induction l generalizing l' with
  | nil => exact absurd rfl h1
  | cons x l ih =>
    cases l' with
    | nil => exact absurd rfl h3
    | cons y l' =>
      have hx := h2 x (by simp)
      have hy := h4 y (by simp)
      cases l with
      | nil =>
        cases l' with
        | nil =>
          simp only [sepBy, List.append_assoc] at he
          obtain ⟨e1, e2⟩ := h x y hx hy _ _ he
          refine ⟨by rw [e1], by simpa using e2⟩
        | cons y' l' =>
          simp only [sepBy, List.append_assoc] at he
          obtain ⟨e1, e2⟩ := h x y hx hy _ _ he
          simp at e2
      | cons x' l =>
        cases l' with
        | nil =>
          simp only [sepBy, List.append_assoc] at he
          obtain ⟨e1, e2⟩ := h x y hx hy _ _ he
          simp at e2
        | cons y' l' =>
          simp only [sepBy, List.append_assoc] at he
          obtain ⟨e1, e2⟩ := h x y hx hy _ _ he
          simp only [List.cons_append, List.cons.injEq, true_and] at e2
          obtain ⟨e3, e4⟩ := ih (l' := y' :: l') (by simp) (fun z hz => h2 z (by simp [hz])) (by simp)
            (fun z hz => h4 z (by simp [hz])) e2
          exact ⟨by rw [e1, e3], e4⟩

theorem entry_readable : Readable (fun v : ℤ => v = 1 ∨ v = -1) HM.magmaEntry := by
  rintro x y (rfl | rfl) (rfl | rfl) r s h <;> simp [HM.magmaEntry] at h ⊢ <;> exact h

theorem sepBy_range {α : Type} (enc : α → List Char) (f : ℕ → α) (n : ℕ) :
    ((List.range n).map fun i => enc (f i) ++ [',']).flatten ++ enc (f n) ++ [']'] =
      sepBy enc ((List.range (n + 1)).map f) := by
  have : ∀ k a, ((List.range' a k).map fun i => enc (f i) ++ [',']).flatten ++ enc (f (a + k)) ++ [']'] =
      sepBy enc ((List.range' a (k + 1)).map f) := by
    intro k
    induction k with
    | zero => intro a; simp [sepBy]
    | succ k ih =>
      intro a
      have := ih (a + 1)
      have e1 : List.range' a (k + 1 + 1) = a :: (a + 1) :: List.range' (a + 1 + 1) k := by
        rw [List.range'_succ, List.range'_succ]
      have e2 : List.range' (a + 1) (k + 1) = (a + 1) :: List.range' (a + 1 + 1) k := List.range'_succ
      have e3 : List.range' a (k + 1) = a :: List.range' (a + 1) k := List.range'_succ
      rw [e2, show a + 1 + k = a + (k + 1) by omega, List.map_cons] at this
      rw [e1, e3, List.map_cons, List.map_cons, List.map_cons, sepBy, ← this, List.flatten_cons]
      simp
  have := this n 0
  rw [Nat.zero_add] at this
  rw [List.range_eq_range', List.range_eq_range', this]

/-- The rows of a matrix as read by `get`. -/
def rows (m : HM) : List (List ℤ) := (List.range m.size).map fun i => (List.range m.size).map fun j => m.get i j

theorem magma_eq (m : HM) (h : m.size ≠ 0) : m.toStringMagma =
    some ("M := Matrix([".toList ++ (sepBy (fun r => '[' :: sepBy HM.magmaEntry r) (rows m) ++ [')', ';'])) := by
  obtain ⟨k, hk⟩ := Nat.exists_eq_succ_of_ne_zero h
  unfold HM.toStringMagma
  rw [if_neg h]
  have hrow : ∀ i, m.magmaRow i = '[' :: sepBy HM.magmaEntry ((List.range m.size).map fun j => m.get i j) := by
    intro i
    unfold HM.magmaRow
    have := sepBy_range HM.magmaEntry (fun j => m.get i j) k
    rw [hk, Nat.succ_sub_one, ← Nat.succ_eq_add_one] at *
    rw [← this]
    simp
  have := sepBy_range (fun r => '[' :: sepBy HM.magmaEntry r) (fun i => (List.range m.size).map fun j => m.get i j) k
  simp only [hrow]
  unfold rows
  rw [show m.size - 1 = k by omega, show (List.range m.size).map (fun i => (List.range m.size).map fun j => m.get i j) =
    (List.range (k + 1)).map (fun i => (List.range m.size).map fun j => m.get i j) by rw [hk], ← this]
  have e : "]);".toList = [']', ')', ';'] := rfl
  rw [e]
  simp only [List.append_assoc, List.cons_append, List.nil_append]

theorem rows_inj {m m' : HM} (h : Square m.size m.matrix) (h' : Square m'.size m'.matrix) (he : rows m = rows m') :
    m = m' := by
  have hs : m.size = m'.size := by simpa [rows] using congrArg List.length he
  refine hm_ext h h' hs fun i j hi hj => ?_
  unfold rows at he
  rw [← hs] at he
  have := (List.map_inj_left.1 he) i (List.mem_range.2 hi)
  exact (List.map_inj_left.1 this) j (List.mem_range.2 hj)

theorem magma_inj {m m' : HM} (h : Square m.size m.matrix) (h' : Square m'.size m'.matrix)
    (hp : PMMat (zmat m.size m.matrix)) (hp' : PMMat (zmat m'.size m'.matrix)) (h0 : m.size ≠ 0) (h0' : m'.size ≠ 0)
    (he : m.toStringMagma = m'.toStringMagma) : m = m' := by
  rw [magma_eq m h0, magma_eq m' h0'] at he
  have he := List.append_cancel_left (Option.some.inj he)
  have hr : ∀ {m : HM}, PMMat (zmat m.size m.matrix) → m.size ≠ 0 →
      rows m ≠ [] ∧ ∀ r ∈ rows m, r ≠ [] ∧ ∀ v ∈ r, v = 1 ∨ v = -1 := by
    intro m hp h0
    unfold rows
    constructor
    · simpa using h0
    · intro r hr
      obtain ⟨i, hi, rfl⟩ := List.mem_map.1 hr
      refine ⟨by simpa using h0, fun v hv => ?_⟩
      obtain ⟨j, hj, rfl⟩ := List.mem_map.1 hv
      exact Dephase.pm_get hp (List.mem_range.1 hi) (List.mem_range.1 hj)
  have hcode : Readable (fun r : List ℤ => r ≠ [] ∧ ∀ v ∈ r, v = 1 ∨ v = -1) (fun r => '[' :: sepBy HM.magmaEntry r) := by
    intro x y hx hy r s hrs
    simp only [List.cons_append, List.cons.injEq, true_and] at hrs
    exact sepBy_readable entry_readable x y hx hy r s hrs
  exact rows_inj h h' (sepBy_readable hcode _ _ (hr hp h0) (hr hp' h0') _ _ he).1

/-- The text has no line breaks. -/
theorem magma_clean {m : HM} {p : Text} (h : m.toStringMagma = some p) : '\n' ∉ p ∧ '\r' ∉ p := by
  have hs : ∀ {α : Type} (enc : α → List Char) (c : Char), c = '\n' ∨ c = '\r' → (∀ x, c ∉ enc x) → ∀ l, c ∉ sepBy enc l := by
    intro α enc c hc he l
    induction l with
    | nil => rcases hc with rfl | rfl <;> simp [sepBy]
    | cons x l ih =>
      cases l with
      | nil => rcases hc with rfl | rfl <;> simp [sepBy, he]
      | cons y l =>
        simp only [sepBy, List.mem_append, List.mem_cons, not_or]
        refine ⟨he x, ?_, by simpa using ih⟩
        rcases hc with rfl | rfl <;> decide
  have hent : ∀ c : Char, c = '\n' ∨ c = '\r' → ∀ v, c ∉ HM.magmaEntry v := by
    intro c hc v
    unfold HM.magmaEntry
    rcases hc with rfl | rfl <;> split <;> decide
  have h0 : m.size ≠ 0 := by
    intro h0
    unfold HM.toStringMagma at h
    rw [if_pos h0] at h
    cases h
  rw [magma_eq m h0] at h
  have h := Option.some.inj h
  subst h
  have hrow : ∀ c : Char, c = '\n' ∨ c = '\r' →
      c ∉ sepBy (fun r => '[' :: sepBy HM.magmaEntry r) (rows m) := by
    intro c hc
    refine hs _ c hc (fun r => ?_) _
    rw [List.mem_cons, not_or]
    exact ⟨by rcases hc with rfl | rfl <;> decide, hs _ c hc (hent c hc) _⟩
  have hpre : ∀ c : Char, c = '\n' ∨ c = '\r' → c ∉ "M := Matrix([".toList ∧ c ∉ [')', ';'] := by
    rintro c (rfl | rfl) <;> decide
  constructor
  · rw [List.mem_append, List.mem_append, not_or, not_or]
    exact ⟨(hpre _ (.inl rfl)).1, hrow _ (.inl rfl), (hpre _ (.inl rfl)).2⟩
  · rw [List.mem_append, List.mem_append, not_or, not_or]
    exact ⟨(hpre _ (.inr rfl)).1, hrow _ (.inr rfl), (hpre _ (.inr rfl)).2⟩

end Proofs.Print
