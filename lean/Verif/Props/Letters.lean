import Verif.Proofs.Words
import Verif.Props.Precision

/-!
# Property C92: the driver classifies the perfect sequences over the alphabet of the README

The specification (`Spec/Letters.lean`) speaks only of sequences of quaternions and of letters in a text.
-/

set_option linter.unusedVariables false

namespace Props
open Model Spec Proofs Proofs.Letters
open scoped Quaternion

/-- The word of a quadruple is the sequence the code converts it to. -/
theorem word_toQs {n : ℕ} [NeZero n] {q : QuadSeq} {p : QS} (hq : PMQuad n q) (hp : q.toQs = some p) :
    qcyc n p.values = word (fam n q) := by
  rw [toQs_eq hq] at hp
  cases hp
  funext i
  rw [qcyc_toQs]
  ext <;> simp only [word, lw_c, toH, linQuat, fam] <;> push_cast <;> rfl

/-- C92. Equivalence of sequences over the alphabet, by shifts, decimations, alternate negations, rotations and half shifts
of two components, is QT equivalence of the quadruples they are made from. -/
theorem C92_equivalence (n : ℕ) [NeZero n] (q q' : QuadSeq) (hq : PMQuad n q) (hq' : PMQuad n q') :
    ∃ p p', q.toQs = some p ∧ q'.toQs = some p' ∧
      (WordEquiv (qcyc n p.values) (qcyc n p'.values) ↔ QTEquiv (fam n q) (fam n q')) := by
  refine ⟨_, _, toQs_eq hq, toQs_eq hq', ?_⟩
  rw [word_toQs hq (toQs_eq hq), word_toQs hq' (toQs_eq hq')]
  exact equiv_iff (pmfam_fam hq) (pmfam_fam hq')

/-- C92. The rotations that map letters to letters act on quadruples as the negate-and-swap operations: every such rotation
is a chain of them, and every one of them is such a rotation. -/
theorem C92_rotations (n : ℕ) [NeZero n] (q : QuadSeq) (p : QS) (hq : PMQuad n q) (hp : q.toQs = some p) :
    (∀ u v : ℍ[ℚ], (∀ a ∈ Alphabet, u * a * v ∈ Alphabet) → ∃ q' p', PMQuad n q' ∧ q'.toQs = some p' ∧
      NSEquiv (fam n q) (fam n q') ∧ qcyc n p'.values = fun i => u * qcyc n p.values i * v) ∧
    ∀ q' p', PMQuad n q' → q'.toQs = some p' → NSEquiv (fam n q) (fam n q') →
      ∃ u v : ℍ[ℚ], (∀ a ∈ Alphabet, u * a * v ∈ Alphabet) ∧ qcyc n p'.values = fun i => u * qcyc n p.values i * v := by
  rw [word_toQs hq hp]
  constructor
  · intro u v h
    obtain ⟨g, h1, h2⟩ := rot_ns h (fam n q)
    have hg := (ns_sperm (pmfam_fam hq) h1).1
    refine ⟨ofFam n g, _, pmquad_ofFam hg, toQs_eq (pmquad_ofFam hg), by rw [fam_ofFam]; exact h1, ?_⟩
    rw [word_toQs (pmquad_ofFam hg) (toQs_eq (pmquad_ofFam hg)), fam_ofFam, h2]
  · intro q' p' hq' hp' h
    rw [word_toQs hq' hp']
    exact ns_rot_letters h

/-- C92. Equivalence preserves being a perfect sequence over the alphabet. -/
theorem C92_preserved (n : ℕ) [NeZero n] (x y : ZMod n → ℍ[ℚ]) (hx : PerfectWord x) (h : WordEquiv x y) : PerfectWord y := by
  rcases equiv_word h with rfl | ⟨f, g, hf, rfl, rfl, hfg⟩
  · exact hx
  · have hg := pm_qtequiv hf hfg
    have h1 := (perfect_word (pmquad_ofFam hf)).1 (by rw [fam_ofFam]; exact hx)
    have h2 : IsQTS n (ofFam n g) := by
      rw [C04_isQTS_iff_isWTS, isWTS_iff, fam_ofFam] at h1 ⊢
      refine ⟨PMQuad.wf (pmquad_ofFam hg), ?_⟩
      unfold QTEquiv at hfg
      rw [eqvGen_pres pres_QT] at hfg
      clear hx hg h
      induction hfg with
      | refl => exact h1.2
      | tail _ hm ih => exact valid_QTMove hm ih
    have := (perfect_word (pmquad_ofFam hg)).2 h2
    rwa [fam_ofFam] at this

/-- What the files contain, in terms of words. -/
theorem classifies {n : ℕ} [NeZero n] {lines : List Text} {r : List QuadSeq} (hnd : r.Nodup)
    (hr : ∀ q ∈ r, IsQTS n q)
    (hall : ∀ q, IsQTS n q → ∃ x ∈ r, QTEquiv (fam n q) (fam n x) ∧ ∀ y ∈ r, QTEquiv (fam n q) (fam n y) → y = x)
    (hl : List.Forall₂ (fun line q => (QS.fromStr line).bind QuadSeq.fromPqs = some q) lines r) : Classifies n lines := by
  refine ⟨r.map fun q => word (fam n q), ?_, ?_, ?_, ?_⟩
  · rw [List.forall₂_map_right_iff]
    clear hnd hall
    induction hl with
    | nil => exact .nil
    | cons h _ ih => exact .cons (writes_of (hr _ (by simp)).1 h) (ih fun q hq => hr q (by simp [hq]))
  · intro x hx
    obtain ⟨q, hq, rfl⟩ := List.mem_map.1 hx
    exact (perfect_word (hr q hq).1).2 (hr q hq)
  · rw [List.pairwise_map]
    refine hnd.imp_of_mem fun {a b} ha hb hne h => hne ?_
    rw [equiv_iff (pmfam_fam (hr a ha).1) (pmfam_fam (hr b hb).1)] at h
    obtain ⟨x, _, _, hx⟩ := hall a (hr a ha)
    rw [hx a ha (.refl _), hx b hb h]
  · intro x hx
    obtain ⟨q, hq, rfl⟩ := exists_quad hx.1
    obtain ⟨y, hy, hqy, _⟩ := hall q ((perfect_word hq).1 hx)
    exact ⟨_, List.mem_map.2 ⟨y, hy, rfl⟩, (equiv_iff (pmfam_fam hq) (pmfam_fam (hr y hy).1)).2 hqy⟩

/-- C92. The driver on QT sequences, in every environment with arithmetic good enough for the matching option of the flags:
if there is a perfect sequence of length `n ≤ 31` over the alphabet, then the run ends with status 0 and the lines of
`result.seq` are a complete classification of the perfect sequences over the alphabet. -/
theorem C92_qts {F κ : Type} [DecidableEq κ] (env : Env F κ) (hf : Env.Fair env) (hc : ExactLabelling env.canon)
    (val : F → ℝ) (n : ℕ) [NeZero n] (hn : n ≤ 31) (flags : List Flag) (hN : Numerics env.A val n (flagMatching flags))
    (hex : ∃ x : ZMod n → ℍ[ℚ], PerfectWord x) (s : Store) (hr : Ready s "qts".toList (natText n) flags) :
    ∃ s' t, driverSh env "qts".toList (natText n) flags s = (s', 0) ∧
      readTop s' "qts".toList (natText n) "result.seq".toList = some t ∧ Classifies n (readLines t) := by
  have hex' : ∃ q, IsQTS n q := by
    obtain ⟨x, hx⟩ := hex
    obtain ⟨q, hq, rfl⟩ := exists_quad hx.1
    exact ⟨q, (perfect_word hq).1 hx⟩
  obtain ⟨s', r, h1, h2, h3, ⟨t, h4, h5⟩, _⟩ := C79_qts env hf hc val n hn flags hN hex' s hr
  refine ⟨s', t, h1, h4, classifies h2 (fun q hq => ((h3 q).1 hq).1) ?_ h5⟩
  intro q hq
  obtain ⟨x, hx, hqx⟩ := least_exists hn (.inl rfl) (show OfType n .quaternionType q from hq)
  refine ⟨x, (h3 x).2 hx, hqx, fun y hy hqy => ?_⟩
  have hy' := (h3 y).1 hy
  have hxy : QTEquiv (fam n x) (fam n y) := .trans _ _ _ (.symm _ _ hqx) hqy
  exact flat_inj (pm_len hy'.1.1) (pm_len hx.1.1) (hy'.1.1.size.trans hx.1.1.size.symm)
    (le_antisymm (hy'.2 x hx.1.1 (.symm _ _ hxy)) (hx.2 y hy'.1.1 hxy))

/-- C92. The driver on Williamson-type sequences: the same for the lines of `result-qts.seq`. -/
theorem C92_wts {F κ : Type} [DecidableEq κ] (env : Env F κ) (hf : Env.Fair env) (hc : ExactLabelling env.canon)
    (val : F → ℝ) (n : ℕ) [NeZero n] (hn : n ≤ 31) (flags : List Flag) (hN : Numerics env.A val n (flagMatching flags))
    (hex : ∃ x : ZMod n → ℍ[ℚ], PerfectWord x) (s : Store) (hr : Ready s "wts".toList (natText n) flags) :
    ∃ s' t, driverSh env "wts".toList (natText n) flags s = (s', 0) ∧
      readTop s' "wts".toList (natText n) "result-qts.seq".toList = some t ∧ Classifies n (readLines t) := by
  have hex' : ∃ q, IsWTS n q := by
    obtain ⟨x, hx⟩ := hex
    obtain ⟨q, hq, rfl⟩ := exists_quad hx.1
    exact ⟨q, (C04_isQTS_iff_isWTS n q).1 ((perfect_word hq).1 hx)⟩
  obtain ⟨s', r, r', h1, _, _, _, _, h2, h3, h4, ⟨t, h5, h6⟩, _⟩ := C79_wts env hf hc val n hn flags hN hex' s hr
  exact ⟨s', t, h1, h5, classifies h2 (fun q hq => (C04_isQTS_iff_isWTS n q).2 (h3 q hq))
    (fun q hq => h4 q ((C04_isQTS_iff_isWTS n q).1 hq)) h6⟩

/-- C92. At odd prime lengths the explicit precision of C91 is all that is needed of the arithmetic. -/
theorem C92_prime {F κ : Type} [DecidableEq κ] (env : Env F κ) (hf : Env.Fair env) (hc : ExactLabelling env.canon)
    (val : F → ℝ) (ok : F → Prop) (n : ℕ) [NeZero n] (hp : n.Prime) (hodd : n ≠ 2) (hn : n ≤ 31) (B e : ℝ)
    (hpe : PreciseEnough n B e) (hA : FloatModel env.A val ok n B e) (flags : List Flag)
    (hex : ∃ x : ZMod n → ℍ[ℚ], PerfectWord x) (s : Store) (hr : Ready s "qts".toList (natText n) flags) :
    ∃ s' t, driverSh env "qts".toList (natText n) flags s = (s', 0) ∧
      readTop s' "qts".toList (natText n) "result.seq".toList = some t ∧ Classifies n (readLines t) :=
  C92_qts env hf hc val n hn flags (C91_prime env.A val ok n hp hodd B e hpe hA _) hex s hr

/-- The hypotheses are met: `++iQi` writes a perfect sequence of length 5 over the alphabet. -/
example : ∃ x : ZMod 5 → ℍ[ℚ], Writes "++iQi".toList x ∧ PerfectWord x :=
  ⟨_, writes_of exQTS5_pm (by decide +kernel), (perfect_word exQTS5_pm).2 exQTS5_isQTS⟩

/-- And a rotation of the alphabet that is not a multiplication from one side by a letter. -/
example : ∀ a ∈ Alphabet, qq * a * star qq ∈ Alphabet := by
  intro a ha
  rw [mem_iff] at ha ⊢
  have hw := ha .W
  have hx := ha .X
  have hy := ha .Y
  have hz := ha .Z
  simp only [co] at hw hx hy hz
  have e : (qq * a * star qq).re = a.re ∧ (qq * a * star qq).imI = a.imK ∧ (qq * a * star qq).imJ = a.imI ∧
      (qq * a * star qq).imK = a.imJ := by
    refine ⟨?_, ?_, ?_, ?_⟩ <;> simp [qq_c] <;> ring
  obtain ⟨e0, e1, e2, e3⟩ := e
  intro t
  cases t <;> simp only [co, e0, e1, e2, e3]
  · rcases hw with h | h
    · left; linarith
    · right; linarith
  · rcases hz with h | h
    · left; linarith
    · right; linarith
  · rcases hx with h | h
    · left; linarith
    · right; linarith
  · rcases hy with h | h
    · left; linarith
    · right; linarith

end Props
