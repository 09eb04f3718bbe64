import Mathlib.Data.List.GetD
import Mathlib.Data.List.Pairwise
import Mathlib.Tactic.Common
import Verif.Model.Matrices

/-!
# Helper lemmas: loops writing into a matrix
-/

set_option linter.unusedSectionVars false
set_option linter.unusedVariables false
set_option linter.unusedSimpArgs false

namespace Proofs.Loops
open Model

variable {α : Type}

/-- `n` rows of length `n`. -/
def Shape (n : ℕ) (m : List (List α)) : Prop := m.length = n ∧ ∀ r ∈ m, r.length = n

theorem shape_row {n : ℕ} {m : List (List α)} (h : Shape n m) {i : ℕ} (hi : i < n) : (m.getD i []).length = n := by
  rw [List.getD_eq_getElem _ _ (by rw [h.1]; exact hi)]
  exact h.2 _ (List.getElem_mem _)

theorem shape_set2 {n : ℕ} {m : List (List α)} (h : Shape n m) {i : ℕ} (hi : i < n) (j : ℕ) (v : α) :
    Shape n (set2 m i j v) := by
  unfold set2
  refine ⟨by rw [List.length_set]; exact h.1, fun r hr => ?_⟩
  rcases List.mem_or_eq_of_mem_set hr with h1 | h1
  · exact h.2 r h1
  · rw [h1, List.length_set]; exact shape_row h hi

theorem get2_set2 {n : ℕ} {m : List (List α)} (h : Shape n m) {i j : ℕ} (hi : i < n) (hj : j < n) (v d : α) (a b : ℕ) :
    get2 d (set2 m i j v) a b = if a = i ∧ b = j then v else get2 d m a b := by
  unfold get2 set2
  by_cases ha : a = i
  · subst ha
    have hr := shape_row h hi
    have e1 : (m.set a ((m.getD a []).set j v)).getD a [] = (m.getD a []).set j v := by
      rw [List.getD_eq_getElem _ _ (by rw [List.length_set, h.1]; exact hi)]
      simp
    rw [e1]
    by_cases hb : b = j
    · subst hb
      rw [if_pos ⟨rfl, rfl⟩, List.getD_eq_getElem _ _ (by rw [List.length_set, hr]; exact hj)]
      simp
    · rw [if_neg (fun h => hb h.2)]
      simp only [List.getD_eq_getElem?_getD]
      rw [List.getElem?_set_ne (Ne.symm hb)]
  · rw [if_neg (fun h => ha h.1)]
    simp only [List.getD_eq_getElem?_getD]
    rw [List.getElem?_set_ne (Ne.symm ha)]

theorem shape_ext {n : ℕ} {m m' : List (List α)} (h : Shape n m) (h' : Shape n m') (d : α)
    (hg : ∀ i j, i < n → j < n → get2 d m i j = get2 d m' i j) : m = m' := by
  refine List.ext_getElem (h.1.trans h'.1.symm) fun i h1 h2 => ?_
  have hi : i < n := by rw [← h.1]; exact h1
  refine List.ext_getElem ((h.2 _ (List.getElem_mem h1)).trans (h'.2 _ (List.getElem_mem h2)).symm) fun j h3 h4 => ?_
  have hj : j < n := by rw [← h.2 _ (List.getElem_mem h1)]; exact h3
  have := hg i j hi hj
  unfold get2 at this
  rw [List.getD_eq_getElem _ _ h1, List.getD_eq_getElem _ _ h2, List.getD_eq_getElem _ _ h3,
    List.getD_eq_getElem _ _ h4] at this
  exact this

theorem shape_replicate (n : ℕ) (v : α) : Shape n (List.replicate n (List.replicate n v)) :=
  ⟨List.length_replicate, fun r hr => by rw [List.eq_of_mem_replicate hr, List.length_replicate]⟩

theorem get2_replicate (n : ℕ) (v d : α) {i j : ℕ} (hi : i < n) (hj : j < n) :
    get2 d (List.replicate n (List.replicate n v)) i j = v := by
  unfold get2
  have e : (List.replicate n (List.replicate n v)).getD i [] = List.replicate n v := by
    rw [List.getD_eq_getElem _ _ (by simpa using hi), List.getElem_replicate]
  rw [e, List.getD_eq_getElem _ _ (by simpa using hj), List.getElem_replicate]

theorem shape_map (n : ℕ) (f : ℕ → ℕ → α) :
    Shape n ((List.range n).map fun i => (List.range n).map fun j => f i j) := by
  refine ⟨by simp, fun r hr => ?_⟩
  obtain ⟨i, _, rfl⟩ := List.mem_map.1 hr
  simp

theorem get2_map (n : ℕ) (f : ℕ → ℕ → α) (d : α) {i j : ℕ} (hi : i < n) (hj : j < n) :
    get2 d ((List.range n).map fun i => (List.range n).map fun j => f i j) i j = f i j := by
  unfold get2
  have e : ((List.range n).map fun i => (List.range n).map fun j => f i j).getD i [] =
      (List.range n).map fun j => f i j := by
    rw [List.getD_eq_getElem _ _ (by simpa using hi), List.getElem_map, List.getElem_range]
  rw [e, List.getD_eq_getElem _ _ (by simpa using hj), List.getElem_map, List.getElem_range]

/-- A loop over a list of positions: if every write yields the value `g i` whenever the state agrees with the initial one
outside the positions written before, then the result holds `g i` at the positions and the initial value elsewhere. -/
theorem foldl_spec {ι : Type} (d : α) (n : ℕ) (pos : ι → ℕ × ℕ) (val : List (List α) → ι → α) (g : ι → α)
    (m0 : List (List α)) (L : List ι) (hpos : ∀ i ∈ L, (pos i).1 < n ∧ (pos i).2 < n)
    (hnd : L.Pairwise fun i j => pos i ≠ pos j) (D : List ι)
    (hDL : ∀ k ∈ D, ∀ i ∈ L, pos k ≠ pos i)
    (hval : ∀ L1 i L2, L = L1 ++ i :: L2 → ∀ m', Shape n m' →
      (∀ q : ℕ × ℕ, (∀ k ∈ D ++ L1, pos k ≠ q) → get2 d m' q.1 q.2 = get2 d m0 q.1 q.2) → val m' i = g i)
    (m : List (List α)) (hm : Shape n m)
    (hD : ∀ q : ℕ × ℕ, (∀ k ∈ D, pos k ≠ q) → get2 d m q.1 q.2 = get2 d m0 q.1 q.2)
    (hDv : ∀ k ∈ D, get2 d m (pos k).1 (pos k).2 = g k) :
    let r := L.foldl (fun m i => set2 m (pos i).1 (pos i).2 (val m i)) m
    Shape n r ∧ (∀ i ∈ D ++ L, get2 d r (pos i).1 (pos i).2 = g i) ∧
      ∀ q : ℕ × ℕ, (∀ i ∈ D ++ L, pos i ≠ q) → get2 d r q.1 q.2 = get2 d m0 q.1 q.2 := by
  induction L generalizing m D with
  | nil =>
    simp only [List.foldl_nil, List.append_nil]
    exact ⟨hm, hDv, hD⟩
  | cons i L ih =>
    simp only [List.foldl_cons]
    obtain ⟨p1, p2⟩ := hpos i (List.mem_cons_self ..)
    have hv : val m i = g i := hval [] i L rfl m hm (by simpa using hD)
    have hset := get2_set2 hm p1 p2 (val m i) d
    have := ih (fun k hk => hpos k (List.mem_cons_of_mem _ hk)) (List.pairwise_cons.1 hnd).2 (D ++ [i])
      (fun k hk j hj => by
        rcases List.mem_append.1 hk with hk | hk
        · exact hDL k hk j (List.mem_cons_of_mem _ hj)
        · rw [List.mem_singleton.1 hk]; exact (List.pairwise_cons.1 hnd).1 j hj)
      (fun L1 j L2 e m' hm' hq => hval (i :: L1) j L2 (by rw [e]; rfl) m' hm' (by simpa using hq))
      (set2 m (pos i).1 (pos i).2 (val m i)) (shape_set2 hm p1 _ _)
      (fun q hq => by
        rw [hset, if_neg]
        · exact hD q fun k hk => hq k (List.mem_append_left _ hk)
        · rintro ⟨e1, e2⟩
          exact hq i (by simp) (Prod.ext e1.symm e2.symm))
      (fun k hk => by
        rw [hset]
        rcases List.mem_append.1 hk with hk | hk
        · rw [if_neg]
          · exact hDv k hk
          · rintro ⟨e1, e2⟩
            exact hDL k hk i (List.mem_cons_self ..) (Prod.ext e1 e2)
        · rw [List.mem_singleton.1 hk, if_pos ⟨rfl, rfl⟩, hv])
    simpa [List.append_assoc] using this

/-- The version with an empty list of positions written before. -/
theorem loop_spec {ι : Type} (d : α) (n : ℕ) (pos : ι → ℕ × ℕ) (val : List (List α) → ι → α) (g : ι → α)
    (m : List (List α)) (hm : Shape n m) (L : List ι) (hpos : ∀ i ∈ L, (pos i).1 < n ∧ (pos i).2 < n)
    (hnd : L.Pairwise fun i j => pos i ≠ pos j)
    (hval : ∀ L1 i L2, L = L1 ++ i :: L2 → ∀ m', Shape n m' →
      (∀ q : ℕ × ℕ, (∀ k ∈ L1, pos k ≠ q) → get2 d m' q.1 q.2 = get2 d m q.1 q.2) → val m' i = g i) :
    let r := L.foldl (fun m i => set2 m (pos i).1 (pos i).2 (val m i)) m
    Shape n r ∧ (∀ i ∈ L, get2 d r (pos i).1 (pos i).2 = g i) ∧
      ∀ q : ℕ × ℕ, (∀ i ∈ L, pos i ≠ q) → get2 d r q.1 q.2 = get2 d m q.1 q.2 := by
  have := foldl_spec d n pos val g m L hpos hnd [] (by simp) (by simpa using hval) m hm (by simp) (by simp)
  simpa using this

/-- Positions of a double loop, in order. -/
def grid (n : ℕ) : List (ℕ × ℕ) := (List.range n).flatMap fun i => (List.range n).map fun j => (i, j)

theorem mem_grid {n : ℕ} {p : ℕ × ℕ} : p ∈ grid n ↔ p.1 < n ∧ p.2 < n := by
  obtain ⟨a, b⟩ := p
  simp [grid]

theorem loop2_eq (n : ℕ) (body : List (List α) → ℕ → ℕ → List (List α)) (m : List (List α)) :
    loop2 n body m = (grid n).foldl (fun m p => body m p.1 p.2) m := by
  unfold loop2 grid
  rw [List.foldl_flatMap]
  simp only [List.foldl_map]

theorem grid_lt (n : ℕ) : (grid n).Pairwise fun p q => p.1 < q.1 ∨ p.1 = q.1 ∧ p.2 < q.2 := by
  unfold grid
  rw [List.pairwise_flatMap]
  refine ⟨fun i _ => ?_, ?_⟩
  · rw [List.pairwise_map]
    exact List.pairwise_lt_range.imp fun h => .inr ⟨rfl, h⟩
  · refine List.pairwise_lt_range.imp fun h p hp q hq => ?_
    obtain ⟨_, _, rfl⟩ := List.mem_map.1 hp
    obtain ⟨_, _, rfl⟩ := List.mem_map.1 hq
    exact .inl h

/-- A double loop that writes each position once, where the value written reads the position itself and one more
position that is not written before. -/
theorem loop2_two (d : α) (n : ℕ) (pos dep : ℕ × ℕ → ℕ × ℕ) (F : α → α → α) (m : List (List α)) (hm : Shape n m)
    (hpos : ∀ p, p.1 < n → p.2 < n → (pos p).1 < n ∧ (pos p).2 < n)
    (hord : ∀ p q : ℕ × ℕ, p.1 < n → p.2 < n → q.1 < n → q.2 < n → (p.1 < q.1 ∨ p.1 = q.1 ∧ p.2 < q.2) →
      pos p ≠ pos q ∧ pos p ≠ dep q) :
    let r := loop2 n (fun m i j => set2 m (pos (i, j)).1 (pos (i, j)).2
      (F (get2 d m (pos (i, j)).1 (pos (i, j)).2) (get2 d m (dep (i, j)).1 (dep (i, j)).2))) m
    Shape n r ∧ ∀ i j, i < n → j < n → get2 d r (pos (i, j)).1 (pos (i, j)).2 =
      F (get2 d m (pos (i, j)).1 (pos (i, j)).2) (get2 d m (dep (i, j)).1 (dep (i, j)).2) := by
  have hg : (grid n).Pairwise fun p q => pos p ≠ pos q ∧ pos p ≠ dep q := by
    refine (grid_lt n).imp_of_mem fun {p q} hp hq h => ?_
    rw [mem_grid] at hp hq
    exact hord p q hp.1 hp.2 hq.1 hq.2 h
  have := loop_spec d n pos (fun m p => F (get2 d m (pos p).1 (pos p).2) (get2 d m (dep p).1 (dep p).2))
    (fun p => F (get2 d m (pos p).1 (pos p).2) (get2 d m (dep p).1 (dep p).2)) m hm (grid n)
    (fun p hp => by rw [mem_grid] at hp; exact hpos p hp.1 hp.2) (hg.imp fun h => h.1)
    (fun L1 p L2 e m' hm' hq => by
      have h1 : ∀ k ∈ L1, pos k ≠ pos p ∧ pos k ≠ dep p := by
        intro k hk
        rw [e] at hg
        exact (List.pairwise_append.1 hg).2.2 k hk p (List.mem_cons_self ..)
      rw [hq (pos p) fun k hk => (h1 k hk).1, hq (dep p) fun k hk => (h1 k hk).2])
  rw [loop2_eq]
  refine ⟨this.1, fun i j hi hj => this.2.1 (i, j) (mem_grid.2 ⟨hi, hj⟩)⟩

/-- A double loop that writes each position once with values that do not depend on the matrix. -/
theorem loop2_const (d : α) (n N : ℕ) (pos : ℕ × ℕ → ℕ × ℕ) (v : ℕ × ℕ → α) (m : List (List α)) (hm : Shape N m)
    (hpos : ∀ p, p.1 < n → p.2 < n → (pos p).1 < N ∧ (pos p).2 < N)
    (hord : ∀ p q : ℕ × ℕ, p.1 < n → p.2 < n → q.1 < n → q.2 < n → (p.1 < q.1 ∨ p.1 = q.1 ∧ p.2 < q.2) →
      pos p ≠ pos q) :
    let r := loop2 n (fun m i j => set2 m (pos (i, j)).1 (pos (i, j)).2 (v (i, j))) m
    Shape N r ∧ (∀ i j, i < n → j < n → get2 d r (pos (i, j)).1 (pos (i, j)).2 = v (i, j)) ∧
      ∀ q : ℕ × ℕ, (∀ i j, i < n → j < n → pos (i, j) ≠ q) → get2 d r q.1 q.2 = get2 d m q.1 q.2 := by
  have hg : (grid n).Pairwise fun p q => pos p ≠ pos q := by
    refine (grid_lt n).imp_of_mem fun {p q} hp hq h => ?_
    rw [mem_grid] at hp hq
    exact hord p q hp.1 hp.2 hq.1 hq.2 h
  have := loop_spec d N pos (fun _ p => v p) v m hm (grid n)
    (fun p hp => by rw [mem_grid] at hp; exact hpos p hp.1 hp.2) hg (fun _ _ _ _ _ _ _ => rfl)
  rw [loop2_eq]
  refine ⟨this.1, fun i j hi hj => this.2.1 (i, j) (mem_grid.2 ⟨hi, hj⟩), fun q hq => this.2.2 q ?_⟩
  rintro ⟨i, j⟩ hp
  rw [mem_grid] at hp
  exact hq i j hp.1 hp.2

end Proofs.Loops
