import Verif.Props.Driver

/-!
# Helper lemmas: the driver in detail
-/

set_option linter.unusedVariables false

namespace Proofs.Detail
open Model Spec Proofs Proofs.Store Proofs.Program Proofs.Driver Proofs.Command Proofs.Stages Proofs.Scripts Props

variable {F κ : Type} [DecidableEq κ]

theorem mapM_weaken {α β : Type} {f g : α → Option β} (h : ∀ a b, f a = some b → g a = some b) :
    ∀ (l : List α) (m : List β), l.mapM f = some m → l.mapM g = some m := by
  intro l
  induction l with
  | nil => intro m hm; simpa using hm
  | cons a l ih =>
    intro m hm
    rw [List.mapM_cons] at hm ⊢
    obtain ⟨b, hb, hm⟩ := Option.bind_eq_some_iff.1 hm
    obtain ⟨c, hc, hm⟩ := Option.bind_eq_some_iff.1 hm
    rw [h a b hb]
    exact Option.bind_eq_some_iff.2 ⟨b, rfl, Option.bind_eq_some_iff.2 ⟨c, ih c hc, hm⟩⟩

theorem readLine_weaken {line : Text} {q : QuadSeq} (h : readCanonicalLine true line = some q) :
    readCanonicalLine false line = some q := by
  unfold readCanonicalLine at h ⊢
  obtain ⟨a, ha, h⟩ := Option.bind_eq_some_iff.1 h
  obtain ⟨b, hb, h⟩ := Option.bind_eq_some_iff.1 h
  rw [ha, Option.bind_some, hb, Option.bind_some]
  rw [if_pos rfl] at h
  obtain ⟨c, _, h⟩ := Option.bind_eq_some_iff.1 h
  split at h
  · rw [if_neg (by simp)]; exact h
  · cases h

theorem representatives_weaken {canon : Graph → κ} {order : List HM → List HM} {ty : SeqType} {t : Text} {out : List HM}
    (h : hadamardRepresentatives canon order true ty t = some out) :
    hadamardRepresentatives canon order false ty t = some out := by
  unfold hadamardRepresentatives at h ⊢
  obtain ⟨l, hl, h⟩ := Option.bind_eq_some_iff.1 h
  rw [mapM_weaken (fun a b => readLine_weaken) _ _ hl, Option.bind_some]
  exact h

theorem fromFile_weaken {canon : Graph → κ} {order : List HM → List HM} {ty : SeqType} {t out : Text}
    (h : hadamardEquivalenceFromFile canon order true ty t = some out) :
    hadamardEquivalenceFromFile canon order false ty t = some out := by
  unfold hadamardEquivalenceFromFile at h ⊢
  obtain ⟨l, hl, h⟩ := Option.bind_eq_some_iff.1 h
  rw [representatives_weaken hl, Option.bind_some]
  exact h

/-- The driver on QT sequences. -/
theorem qts_detail (env : Env F κ) (hf : Env.Fair env) (hc : ExactLabelling env.canon) (val : F → ℝ) (n : ℕ) [NeZero n]
    (hn : n ≤ 31) (flags : List Flag) (hN : Numerics env.A val n (flagMatching flags)) (hex : ∃ q, IsQTS n q) (s : Store)
    (hr : Ready s "qts".toList (natText n) flags) :
    ∃ w fd r t out text, writePairs env.A n .quaternionType (flagMatching flags) (strToRowsumPairing (flagPairing flags)) = some w ∧
      joinState env "qts".toList (natText n) flags s "qts".toList (natText n) = some fd ∧
      Listing w (listedDirs env fd) ∧ joinPairs .quaternionType (listedDirs env fd) = some r ∧ r.Nodup ∧
      (∀ x, x ∈ r ↔ LeastInClass n .quaternionType x) ∧ resultText r = some t ∧ (∃ q, qseqText r = some q) ∧
      runProgram env (joinState env "qts".toList (natText n) flags s) ["join".toList, "qts".toList, natText n] =
        (afterJoin env "qts".toList (natText n) flags s, true) ∧
      readTop (afterJoin env "qts".toList (natText n) flags s) "qts".toList (natText n) "result.seq".toList = some t ∧
      (afterJoin env "qts".toList (natText n) flags s "qts".toList (natText n)).isSome ∧
      hadamardRepresentatives env.canon env.hmOrder env.debug .quaternionType t = some out ∧
      hadamardEquivalenceFromFile env.canon env.hmOrder env.debug .quaternionType t = some text ∧
      driverSh env "qts".toList (natText n) flags s =
        ((runProgram env (afterHm env "qts".toList (natText n) flags s) ["convert".toList, "qhm".toList, "qts".toList, natText n]).1, 0) := by
  obtain ⟨w, hw, _, hj⟩ := C32_enumeration env.A val n hn hN .quaternionType (.inl rfl)
    (strToRowsumPairing (flagPairing flags))
  obtain ⟨fd, r, r', t, q, second, h1, h2, h3, ⟨rfl, hnd, hmem⟩, h4, h5, h6, h7, e1, e2, h8, h9⟩ := after_join env hf (n := n)
    (by omega) .quaternionType flags s hr rfl hw
    (P := fun r r' => r' = none ∧ r.Nodup ∧ ∀ x, x ∈ r ↔ LeastInClass n .quaternionType x)
    (fun dirs hd => by
      obtain ⟨r, hr, k⟩ := hj dirs hd hex
      exact ⟨r, none, by unfold findWriteQuadSeq; rw [hr]; rfl, rfl, k.1, k.2.1⟩)
    (fun r r' h => by
      obtain ⟨rfl, _, hmem⟩ := h
      exact ⟨fun x hx => ⟨((hmem x).1 hx).1.1, fun _ => (verify_of_ofType ((hmem x).1 hx).1).2.1⟩, fun l hl => by cases hl⟩)
  have hty : ∀ x ∈ r, IsQTS n x := fun x hx => ((hmem x).1 hx).1
  obtain ⟨t', out, text, k1, k2, k3, k4, k5, k6⟩ := C65_convert_list env.canon hc env.hmOrder hf.hm env.debug .quaternionType
    n r fun x hx => ⟨hty x hx, fun _ => ns_of_least (hty x hx).1 ((hmem x).1 hx).2⟩
  rw [h4] at k1
  cases k1
  refine ⟨w, fd, r, t, out, text, hw, h1, h2, ?_, hnd, hmem, h4, ⟨q, h5⟩, h7, ?_, h8, k2, k3, h9⟩
  · unfold findWriteQuadSeq at h3
    obtain ⟨a, ha, h3⟩ := Option.bind_eq_some_iff.1 h3
    cases h3
    exact ha
  · exact (e2.read "result.seq".toList).trans (by cases second <;> rfl)

/-- The driver on Williamson-type sequences. -/
theorem wts_detail (env : Env F κ) (hf : Env.Fair env) (hc : ExactLabelling env.canon) (val : F → ℝ) (n : ℕ) [NeZero n]
    (hn : n ≤ 31) (flags : List Flag) (hN : Numerics env.A val n (flagMatching flags)) (hex : ∃ q, IsWTS n q) (s : Store)
    (hr : Ready s "wts".toList (natText n) flags) :
    ∃ w fd r l t t' out text, writePairs env.A n .williamsonType (flagMatching flags) (strToRowsumPairing (flagPairing flags)) = some w ∧
      joinState env "wts".toList (natText n) flags s "wts".toList (natText n) = some fd ∧
      Listing w (listedDirs env fd) ∧ joinPairs .williamsonType (listedDirs env fd) = some r ∧ r.Nodup ∧
      (∀ x, x ∈ r ↔ LeastInClass n .williamsonType x) ∧
      reduceToCanonicalReps (expandWts n r) .quaternionType = some l ∧ l.Nodup ∧ (∀ x ∈ l, IsWTS n x) ∧
      (∀ q, IsWTS n q → ∃ x ∈ l, QTEquiv (fam n q) (fam n x) ∧ ∀ y ∈ l, QTEquiv (fam n q) (fam n y) → y = x) ∧
      resultText r = some t ∧ resultText l = some t' ∧ (∃ q, qseqText r = some q) ∧ (∃ q, qseqText l = some q) ∧
      runProgram env (joinState env "wts".toList (natText n) flags s) ["join".toList, "wts".toList, natText n] =
        (afterJoin env "wts".toList (natText n) flags s, true) ∧
      readTop (afterJoin env "wts".toList (natText n) flags s) "wts".toList (natText n) "result.seq".toList = some t ∧
      readTop (afterJoin env "wts".toList (natText n) flags s) "wts".toList (natText n) "result-qts.seq".toList = some t' ∧
      (afterJoin env "wts".toList (natText n) flags s "wts".toList (natText n)).isSome ∧
      hadamardRepresentatives env.canon env.hmOrder env.debug .williamsonType t' = some out ∧
      hadamardEquivalenceFromFile env.canon env.hmOrder env.debug .williamsonType t' = some text ∧
      driverSh env "wts".toList (natText n) flags s =
        ((runProgram env (afterHm env "wts".toList (natText n) flags s) ["convert".toList, "qhm".toList, "wts".toList, natText n]).1, 0) := by
  obtain ⟨w, hw, _, hj⟩ := C32_enumeration env.A val n hn hN .williamsonType (.inr rfl)
    (strToRowsumPairing (flagPairing flags))
  obtain ⟨w1, hw1, hj1⟩ := C32_up_to_qt env.A val n hn hN (strToRowsumPairing (flagPairing flags)) hex
  obtain ⟨w2, hw2, hj2⟩ := C65_wts env.A val n hn hN (strToRowsumPairing (flagPairing flags)) hex env.canon hc
    env.hmOrder hf.hm env.debug
  rw [hw] at hw1 hw2
  cases hw1
  cases hw2
  obtain ⟨fd, r, r', t, q, second, h1, h2, h3, ⟨l, rfl, hnd, hmem, hnd', hty', hrep, t', out, text, k1, k2, k3⟩, h4, h5, h6, h7,
      e1, e2, h8, h9⟩ := after_join env hf (n := n) (by omega) .williamsonType flags s hr rfl hw
    (P := fun r r' => ∃ l, r' = some l ∧ r.Nodup ∧ (∀ x, x ∈ r ↔ LeastInClass n .williamsonType x) ∧ l.Nodup ∧
      (∀ x ∈ l, IsWTS n x) ∧
      (∀ q, IsWTS n q → ∃ x ∈ l, QTEquiv (fam n q) (fam n x) ∧ ∀ y ∈ l, QTEquiv (fam n q) (fam n y) → y = x) ∧
      ∃ t out text, resultText l = some t ∧
        hadamardRepresentatives env.canon env.hmOrder env.debug .williamsonType t = some out ∧
        hadamardEquivalenceFromFile env.canon env.hmOrder env.debug .williamsonType t = some text)
    (fun dirs hd => by
      obtain ⟨r, a1, a2, a3, _⟩ := hj dirs hd hex
      obtain ⟨r1, l, b1, b2, b3, b4, b5⟩ := hj1 dirs hd
      obtain ⟨r2, l2, t, out, text, c1, c2, c3, c4, _⟩ := hj2 dirs hd
      rw [b1] at c1
      cases c1
      rw [a1] at b3
      cases b3
      exact ⟨r, some l, b1, l, rfl, a2, a3, b2, b4, b5, t, out, text, c2, c3, c4⟩)
    (fun r r' h => by
      obtain ⟨l, rfl, _, hmem, _, hl, _⟩ := h
      exact ⟨fun x hx => ⟨((hmem x).1 hx).1.1, fun h => by cases h⟩, fun l' hl' => by
        cases hl'
        exact fun x hx => (hl x hx).1⟩)
  obtain ⟨t2, q2, m1, m2, rfl⟩ := h6 l rfl
  rw [k1] at m1
  cases m1
  have hfw := h3
  unfold findWriteQuadSeq at hfw
  obtain ⟨a, ha, hfw⟩ := Option.bind_eq_some_iff.1 hfw
  obtain ⟨b, hb, hfw⟩ := Option.map_eq_some_iff.1 hfw
  cases hfw
  exact ⟨w, fd, r, l, t, t', out, text, hw, h1, h2, ha, hnd, hmem, hb, hnd', hty', hrep, h4, k1, ⟨q, h5⟩, ⟨q2, m2⟩, h7,
    (e2.read "result.seq".toList).trans rfl, (e2.read "result-qts.seq".toList).trans rfl, h8, k2, k3, h9⟩

end Proofs.Detail
