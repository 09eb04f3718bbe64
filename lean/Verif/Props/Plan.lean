import Verif.Model.Plan
import Mathlib.Data.List.Basic

/-!
# Property C56: cached transform plans
-/

namespace Props
open Model

/-- All forward calls have one common length, and so have all inverse calls. -/
def Consistent (h : List Call) : Prop :=
  (∀ m n, Call.dft m ∈ h → Call.dft n ∈ h → m = n) ∧ ∀ m n, Call.inverse m ∈ h → Call.inverse n ∈ h → m = n

/-- C56 is violated: after a transform of one length, every transform of another length fails, and after that failure
even the first length fails. -/
theorem C56_other_length_fails (m n : ℕ) (h : m ≠ n) :
    Plans.fresh.run [.dft m, .dft n, .dft m] = [true, false, false] ∧
      Plans.fresh.run [.inverse m, .inverse n, .inverse m] = [true, false, false] := by
  simp [Plans.fresh, Plans.run, Plans.step, Cell.use, h]

/-- What a cell allows: no call has been made, or only calls of the stored length. -/
def allowed (c : Cell) (l : List ℕ) : Prop :=
  match c with
  | .unset => ∀ m ∈ l, ∀ n ∈ l, m = n
  | .plan k => ∀ m ∈ l, m = k
  | .poisoned => l = []

theorem allowed_cons (c : Cell) (n : ℕ) (l : List ℕ) :
    allowed c (n :: l) ↔ (c.use n).1 = true ∧ allowed (c.use n).2 l := by
  cases c with
  | unset =>
    simp only [allowed, Cell.use, true_and]
    constructor
    · intro h m hm; exact h m (List.mem_cons_of_mem _ hm) n (List.mem_cons_self ..)
    · intro h a ha b hb
      have : ∀ a ∈ n :: l, a = n := by
        intro a ha
        rcases List.mem_cons.1 ha with rfl | ha
        · rfl
        · exact h a ha
      rw [this a ha, this b hb]
  | plan k =>
    by_cases hk : k = n
    · subst hk; simp [allowed, Cell.use]
    · have : ¬ n = k := fun h => hk h.symm
      simp [allowed, Cell.use, hk, this]
  | poisoned => simp [allowed, Cell.use]

/-- Lengths of the forward and of the inverse calls. -/
def dfts (h : List Call) : List ℕ := h.filterMap fun c => match c with | .dft n => some n | .inverse _ => none
def invs (h : List Call) : List ℕ := h.filterMap fun c => match c with | .dft _ => none | .inverse n => some n

theorem run_iff (h : List Call) (s : Plans) :
    (∀ b ∈ s.run h, b = true) ↔ allowed s.r2c (dfts h) ∧ allowed s.c2r (invs h) := by
  induction h generalizing s with
  | nil => cases s with | mk a b => cases a <;> cases b <;> simp [Plans.run, dfts, invs, allowed]
  | cons c cs ih =>
    simp only [Plans.run, List.forall_mem_cons, ih]
    cases c with
    | dft n =>
      rw [show dfts (.dft n :: cs) = n :: dfts cs from rfl, show invs (.dft n :: cs) = invs cs from rfl, allowed_cons]
      simp [Plans.step, and_assoc]
    | inverse n =>
      rw [show dfts (.inverse n :: cs) = dfts cs from rfl, show invs (.inverse n :: cs) = n :: invs cs from rfl,
        allowed_cons]
      simp only [Plans.step]
      constructor
      · rintro ⟨h1, h2, h3⟩; exact ⟨h2, h1, h3⟩
      · rintro ⟨h2, h1, h3⟩; exact ⟨h1, h2, h3⟩

/-- C56 (partial). In a process a history of calls succeeds throughout exactly if all forward transforms have one common
length and all inverse transforms have one common length. Missing: histories that mix lengths, which fail. -/
theorem C56_histories_partial (h : List Call) : (∀ b ∈ Plans.fresh.run h, b = true) ↔ Consistent h := by
  rw [run_iff]
  have m1 : ∀ n, n ∈ dfts h ↔ Call.dft n ∈ h := by
    intro n
    unfold dfts
    rw [List.mem_filterMap]
    constructor
    · rintro ⟨c, hc, h⟩; cases c <;> simp at h; subst h; exact hc
    · intro hc; exact ⟨_, hc, rfl⟩
  have m2 : ∀ n, n ∈ invs h ↔ Call.inverse n ∈ h := by
    intro n
    unfold invs
    rw [List.mem_filterMap]
    constructor
    · rintro ⟨c, hc, h⟩; cases c <;> simp at h; subst h; exact hc
    · intro hc; exact ⟨_, hc, rfl⟩
  simp only [Plans.fresh, allowed, m1, m2, Consistent]
  constructor
  · rintro ⟨a, b⟩; exact ⟨fun m n hm hn => a m hm n hn, fun m n hm hn => b m hm n hn⟩
  · rintro ⟨a, b⟩; exact ⟨fun m hm n hn => a m n hm hn, fun m hm n hn => b m n hm hn⟩

example : Plans.fresh.run [.dft 5, .inverse 5, .dft 5, .dft 6, .inverse 5] = [true, true, true, false, true] := by decide
/-- The pipeline for one length is consistent. -/
example : Consistent [.dft 7, .dft 7, .inverse 7] := (C56_histories_partial _).1 (by decide)

end Props
