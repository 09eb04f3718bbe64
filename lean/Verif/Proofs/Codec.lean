import Verif.Proofs.Convert

/-!
# Text encoding of quaternion sequences
-/

namespace Proofs
open Model Spec

theorem q24_char : ∀ q ∈ Q24, ∃ c ∈ Q24_STRING, quaternionToString q = some c ∧ QS.charToQuat c = some q := by
  decide +kernel

theorem char_q24 : ∀ c ∈ Q24_STRING, ∃ q ∈ Q24, QS.charToQuat c = some q ∧ quaternionToString q = some c := by
  decide +kernel

theorem charToQuat_none {c : Char} : QS.charToQuat c = none ↔ c ∉ Q24_STRING := by
  constructor
  · intro h hc
    obtain ⟨q, _, h1, _⟩ := char_q24 c hc
    rw [h1] at h; simp at h
  · intro h; unfold QS.charToQuat; rw [firstIndex_none h]; rfl

theorem quaternionToString_none {q : Quat} : quaternionToString q = none ↔ q ∉ Q24 := by
  constructor
  · intro h hc
    obtain ⟨c, _, h1, _⟩ := q24_char q hc
    rw [h1] at h; simp at h
  · intro h; unfold quaternionToString; rw [firstIndex_none h]; rfl

/-- Composition of two entrywise partial maps that undo each other. -/
theorem mapM_roundtrip {α β : Type} {f : α → Option β} {g : β → Option α} {l : List α}
    (h : ∀ x ∈ l, ∃ y, f x = some y ∧ g y = some x) :
    ∃ m, l.mapM f = some m ∧ m.mapM g = some l ∧ m.length = l.length := by
  induction l with
  | nil => exact ⟨[], rfl, rfl, rfl⟩
  | cons x xs ih =>
    obtain ⟨y, h1, h2⟩ := h x (by simp)
    obtain ⟨m, h3, h4, h5⟩ := ih fun z hz => h z (by simp [hz])
    refine ⟨y :: m, ?_, ?_, by simp [h5]⟩
    · rw [List.mapM_cons, h1, h3]; rfl
    · rw [List.mapM_cons, h2, h4]; rfl

end Proofs
