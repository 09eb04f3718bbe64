import Mathlib.Data.List.Basic
import Mathlib.Data.List.Nodup
import Mathlib.Data.List.Perm.Basic
import Mathlib.Tactic.Common
import Verif.Model.Search
import Verif.Proofs.QHad
import Verif.Proofs.Print

/-!
# Helper lemmas: exhaustive searches that overwrite a list in place
-/

set_option linter.unusedSectionVars false
set_option linter.unusedVariables false
set_option linter.unusedSimpArgs false

namespace Proofs.Search
open Model

variable {A : Type} [DecidableEq A]

/-- A search writes an element and its mirror image at every position of a range. -/
structure Geo (A : Type) where
  /-- length of the list -/
  n : ℕ
  /-- first position -/
  k0 : ℕ
  /-- end of the search -/
  ss : ℕ
  mir : ℕ → ℕ
  f : ℕ → A → A
  lt : ∀ i, k0 ≤ i → i < ss → i < n ∧ mir i < n
  fix : ∀ i, k0 ≤ i → i < ss → mir i = i → ∀ a, f i a = a
  inj : ∀ i j, k0 ≤ i → i < ss → k0 ≤ j → j < ss → mir i = mir j → i = j
  off : ∀ i j, k0 ≤ i → i < ss → k0 ≤ j → j < ss → mir i = j → i = j

namespace Geo

variable (G : Geo A)

def step (s : List A) (a : A) (k : ℕ) : List A := (s.set k a).set (G.mir k) (G.f k a)

/-- Positions still to be written. -/
def W (k i : ℕ) : Prop := ∃ j, k ≤ j ∧ j < G.ss ∧ (i = j ∨ i = G.mir j)

def Eqv (k : ℕ) (s t : List A) : Prop := s.length = G.n ∧ t.length = G.n ∧ ∀ i, ¬ G.W k i → s[i]? = t[i]?

/-- All leaves below a state, in order. -/
def leaves (alpha : List A) : ℕ → List A → ℕ → List (List A)
  | 0, s, _ => [s]
  | f + 1, s, k => alpha.flatMap fun a => leaves alpha f (G.step s a k) (k + 1)

theorem step_length {s : List A} {a : A} {k : ℕ} : (G.step s a k).length = s.length := by simp [step]

theorem step_get {s : List A} (hs : s.length = G.n) {a : A} {k : ℕ} (h0 : G.k0 ≤ k) (hk : k < G.ss) (i : ℕ) :
    (G.step s a k)[i]? = if i = k then some a else if i = G.mir k then some (G.f k a) else s[i]? := by
  obtain ⟨l1, l2⟩ := G.lt k h0 hk
  unfold step
  rw [List.getElem?_set, List.getElem?_set]
  simp only [List.length_set, hs, l1, l2, if_true]
  by_cases h1 : i = k
  · subst h1
    by_cases h2 : G.mir i = i
    · rw [if_pos h2, if_pos rfl, G.fix i h0 hk h2]
    · rw [if_neg h2, if_pos rfl, if_pos rfl]
  · by_cases h2 : i = G.mir k
    · rw [if_pos h2.symm, if_neg h1, if_pos h2]
    · rw [if_neg (Ne.symm h2), if_neg (Ne.symm h1), if_neg h1, if_neg h2]

variable {G}

theorem Eqv.refl {k : ℕ} {s : List A} (h : s.length = G.n) : G.Eqv k s s := ⟨h, h, fun _ _ => rfl⟩

theorem Eqv.symm {k : ℕ} {s t : List A} (h : G.Eqv k s t) : G.Eqv k t s := ⟨h.2.1, h.1, fun i hi => (h.2.2 i hi).symm⟩

theorem Eqv.trans {k : ℕ} {s t u : List A} (h : G.Eqv k s t) (h' : G.Eqv k t u) : G.Eqv k s u :=
  ⟨h.1, h'.2.1, fun i hi => (h.2.2 i hi).trans (h'.2.2 i hi)⟩

theorem Eqv.mono {k : ℕ} {s t : List A} (h : G.Eqv (k + 1) s t) : G.Eqv k s t :=
  ⟨h.1, h.2.1, fun i hi => h.2.2 i fun ⟨j, h1, h2⟩ => hi ⟨j, by omega, h2⟩⟩

theorem Eqv.step {k : ℕ} {s t : List A} (h : G.Eqv k s t) (h0 : G.k0 ≤ k) (hk : k < G.ss) (a : A) :
    G.Eqv (k + 1) (G.step s a k) (G.step t a k) := by
  refine ⟨by rw [step_length, h.1], by rw [step_length, h.2.1], fun i hi => ?_⟩
  rw [G.step_get h.1 h0 hk, G.step_get h.2.1 h0 hk]
  split
  · rfl
  split
  · rfl
  refine h.2.2 i ?_
  rintro ⟨j, h1, h2, h3⟩
  rcases Nat.eq_or_lt_of_le h1 with rfl | h1
  · rcases h3 with h3 | h3 <;> contradiction
  · exact hi ⟨j, h1, h2, h3⟩

theorem Eqv.step_self {k : ℕ} {s : List A} (h : s.length = G.n) (h0 : G.k0 ≤ k) (hk : k < G.ss) (a : A) :
    G.Eqv k (G.step s a k) s := by
  refine ⟨by rw [step_length, h], h, fun i hi => ?_⟩
  rw [G.step_get h h0 hk, if_neg, if_neg]
  · rintro rfl; exact hi ⟨k, le_rfl, hk, .inr rfl⟩
  · rintro rfl; exact hi ⟨i, le_rfl, hk, .inl rfl⟩

theorem Eqv.eq {k : ℕ} {s t : List A} (hk : G.ss ≤ k) (h : G.Eqv k s t) : s = t :=
  List.ext_getElem? fun i => h.2.2 i fun ⟨j, h1, h2, _⟩ => by omega

theorem Eqv.leaves {alpha : List A} {f k : ℕ} (h0 : G.k0 ≤ k) (hf : f = G.ss - k) {s t : List A} (h : G.Eqv k s t) :
    G.leaves alpha f s k = G.leaves alpha f t k := by
  induction f generalizing k s t with
  | zero => unfold Geo.leaves; rw [h.eq (by omega)]
  | succ f ih =>
    unfold Geo.leaves
    refine List.flatMap_congr fun a _ => ih (by omega) (by omega) (h.step h0 (by omega) a)

/-- The sequential search visits the same leaves although it does not restore the list. -/
theorem sequential {S β : Type} {alpha : List A} (mk : List A → S) (body : S → A → ℕ → Option S)
    (rec : ℕ → S → ℕ → β → Option (S × β)) (upd : β → List (List A) → β)
    (upd_app : ∀ b l l', upd (upd b l) l' = upd b (l ++ l')) (upd_nil : ∀ b, upd b [] = b) (P : List A → Prop)
    (hleaf : ∀ f k s b, s.length = G.n → P s → G.ss ≤ k → rec f (mk s) k b = some (mk s, upd b [s]))
    (hbody : ∀ s a k, s.length = G.n → G.k0 ≤ k → k < G.ss → body (mk s) a k = some (mk (G.step s a k)))
    (hstep : ∀ f k s b, s.length = G.n → G.k0 ≤ k → k < G.ss → rec (f + 1) (mk s) k b =
      alpha.foldlM (fun st a => (body st.1 a k).bind fun q => rec f q (k + 1) st.2) (mk s, b))
    (hP : ∀ s a k, s.length = G.n → P s → a ∈ alpha → G.k0 ≤ k → k < G.ss → P (G.step s a k)) :
    ∀ f k s b, G.k0 ≤ k → G.ss - k ≤ f → s.length = G.n → P s →
      ∃ s', rec f (mk s) k b = some (mk s', upd b (G.leaves alpha (G.ss - k) s k)) ∧ G.Eqv k s' s ∧ P s' := by
  intro f
  induction f with
  | zero =>
    intro k s b h0 hf hs hp
    have : G.ss - k = 0 := by omega
    rw [this]
    exact ⟨s, hleaf _ _ _ _ hs hp (by omega), Eqv.refl hs, hp⟩
  | succ f ih =>
    intro k s b h0 hf hs hp
    by_cases hk : G.ss ≤ k
    · rw [show G.ss - k = 0 by omega]
      exact ⟨s, hleaf _ _ _ _ hs hp hk, Eqv.refl hs, hp⟩
    · have hk : k < G.ss := by omega
      rw [hstep f k s b hs h0 hk, show G.ss - k = (G.ss - (k + 1)) + 1 by omega]
      have key : ∀ (al : List A), (∀ a ∈ al, a ∈ alpha) → ∀ (t : List A) (c : β), G.Eqv k t s → P t →
          ∃ s', al.foldlM (fun (st : S × β) a => (body st.1 a k).bind fun q => rec f q (k + 1) st.2) (mk t, c) =
            some (mk s', upd c (al.flatMap fun a => G.leaves alpha (G.ss - (k + 1)) (G.step s a k) (k + 1))) ∧
            G.Eqv k s' s ∧ P s' := by
        intro al
        induction al with
        | nil => intro _ t c ht hp; exact ⟨t, by rw [List.flatMap_nil, upd_nil]; rfl, ht, hp⟩
        | cons a al iha =>
          intro hal t c ht hpt
          obtain ⟨t', e1, e2, e3⟩ := ih (k + 1) (G.step t a k) c (by omega) (by omega) (by rw [step_length, ht.1])
            (hP t a k ht.1 hpt (hal a (by simp)) h0 hk)
          have ht' : G.Eqv k t' s := e2.mono.trans ((Eqv.step_self ht.1 h0 hk a).trans ht)
          obtain ⟨s', e4, e5, e6⟩ := iha (fun x hx => hal x (by simp [hx])) t'
            (upd c (G.leaves alpha (G.ss - (k + 1)) (G.step t a k) (k + 1))) ht' e3
          refine ⟨s', ?_, e5, e6⟩
          rw [List.foldlM_cons]
          dsimp only
          rw [hbody t a k ht.1 h0 hk, Option.bind_some, e1]
          change List.foldlM _ _ al = _
          rw [e4, upd_app, List.flatMap_cons, (ht.step h0 hk a).leaves (by omega) rfl]
      exact key alpha (fun a h => h) s b (Eqv.refl hs) hp

/-- What a leaf looks like. -/
def Sol (G : Geo A) (alpha : List A) (k : ℕ) (s v : List A) : Prop :=
  v.length = G.n ∧ (∀ i, ¬ G.W k i → v[i]? = s[i]?) ∧
    ∀ i, k ≤ i → i < G.ss → ∃ a ∈ alpha, v[i]? = some a ∧ v[G.mir i]? = some (G.f i a)

theorem mem_leaves {alpha : List A} {f k : ℕ} (h0 : G.k0 ≤ k) (hf : f = G.ss - k) {s v : List A} (hs : s.length = G.n) :
    v ∈ G.leaves alpha f s k ↔ G.Sol alpha k s v := by
  induction f generalizing k s with
  | zero =>
    unfold Geo.leaves
    rw [List.mem_singleton]
    constructor
    · rintro rfl
      exact ⟨hs, fun _ _ => rfl, fun i h1 h2 => by omega⟩
    · rintro ⟨h1, h2, _⟩
      exact List.ext_getElem? fun i => h2 i fun ⟨j, a, b, _⟩ => by omega
  | succ f ih =>
    have hk : k < G.ss := by omega
    unfold Geo.leaves
    rw [List.mem_flatMap]
    constructor
    · rintro ⟨a, ha, hv⟩
      obtain ⟨h1, h2, h3⟩ := (ih (by omega) (by omega) (by rw [step_length, hs])).1 hv
      have hW : ∀ i, ¬ G.W k i → ¬ G.W (k + 1) i := fun i h ⟨j, a, b⟩ => h ⟨j, by omega, b⟩
      refine ⟨h1, fun i hi => ?_, fun i hi hi' => ?_⟩
      · rw [h2 i (hW i hi)]
        exact (Eqv.step_self hs h0 hk a).2.2 i hi
      · rcases Nat.eq_or_lt_of_le hi with rfl | hi
        · refine ⟨a, ha, ?_, ?_⟩
          · rw [h2 k, G.step_get hs h0 hk, if_pos rfl]
            rintro ⟨j, a1, a2, a3 | a3⟩
            · omega
            · have := G.off j k (by omega) a2 h0 hk a3.symm; omega
          · rw [h2 (G.mir k), G.step_get hs h0 hk]
            · split
              · rename_i h
                rw [G.fix k h0 hk h]
              · rw [if_pos rfl]
            rintro ⟨j, a1, a2, a3 | a3⟩
            · have := G.off k j h0 hk (by omega) a2 a3; omega
            · have := G.inj k j h0 hk (by omega) a2 a3; omega
        · exact h3 i hi hi'
    · rintro ⟨h1, h2, h3⟩
      obtain ⟨a, ha, e1, e2⟩ := h3 k le_rfl hk
      refine ⟨a, ha, (ih (by omega) (by omega) (by rw [step_length, hs])).2 ⟨h1, fun i hi => ?_, fun i hi => h3 i (by omega)⟩⟩
      rw [G.step_get hs h0 hk]
      split
      · rename_i h; rw [h, e1]
      split
      · rename_i h; rw [h, e2]
      refine h2 i ?_
      rintro ⟨j, a1, a2, a3⟩
      rcases Nat.eq_or_lt_of_le a1 with rfl | a1
      · rcases a3 with h3 | h3 <;> contradiction
      · exact hi ⟨j, a1, a2, a3⟩

theorem nodup_leaves {alpha : List A} (ha : alpha.Nodup) {f k : ℕ} (h0 : G.k0 ≤ k) (hf : f = G.ss - k) {s : List A}
    (hs : s.length = G.n) : (G.leaves alpha f s k).Nodup := by
  induction f generalizing k s with
  | zero => exact List.nodup_singleton _
  | succ f ih =>
    have hk : k < G.ss := by omega
    unfold Geo.leaves
    rw [List.nodup_flatMap]
    refine ⟨fun a _ => ih (by omega) (by omega) (by rw [step_length, hs]), ?_⟩
    refine ha.imp fun {a b} hab => ?_
    intro v hv hv'
    have h1 := ((mem_leaves (by omega) (by omega) (by rw [step_length, hs])).1 hv).2.1 k
    have h2 := ((mem_leaves (by omega) (by omega) (by rw [step_length, hs])).1 hv').2.1 k
    have hW : ¬ G.W (k + 1) k := by
      rintro ⟨j, a1, a2, a3 | a3⟩
      · omega
      · have := G.off j k (by omega) a2 h0 hk a3.symm; omega
    have h1 := h1 hW
    have h2 := h2 hW
    rw [G.step_get hs h0 hk, if_pos rfl] at h1 h2
    rw [h1] at h2
    exact hab (Option.some.inj h2)

end Geo

theorem parSum {l : List ℕ} {k : ℕ} (h : ParSum l k) : k = l.sum := by
  induction h with
  | segment l => rw [List.sum_eq_foldl]
  | join _ _ h1 h2 => rw [h1, h2, List.sum_append]


/-! ### Quaternion sequences -/

/-- The positions written by `set_value`. -/
def geoQ (n : ℕ) : Option Symmetry → Geo Quat
  | none =>
    { n := n
      k0 := 1
      ss := n
      mir := fun i => i
      f := fun _ a => a
      lt := fun i _ h => ⟨h, h⟩
      fix := fun _ _ _ _ _ => rfl
      inj := fun _ _ _ _ _ _ h => h
      off := fun _ _ _ _ _ _ h => h }
  | some .I =>
    { n := n
      k0 := 1
      ss := (n + 1) / 2
      mir := fun i => n - 1 - i
      f := fun _ a => a
      lt := fun i _ h => by omega
      fix := fun _ _ _ _ _ => rfl
      inj := fun _ _ _ _ _ _ h => by omega
      off := fun _ _ _ _ _ _ h => by omega }
  | some .II =>
    { n := n
      k0 := 1
      ss := (n + 1) / 2
      mir := fun i => n / 2 + i
      f := fun i a => a.smul (QS.sgn i)
      lt := fun i _ h => by omega
      fix := fun _ _ _ _ _ => by omega
      inj := fun _ _ _ _ _ _ h => by omega
      off := fun _ _ _ _ _ _ h => by omega }
  | some .III =>
    { n := n
      k0 := 1
      ss := (n + 1) / 2
      mir := fun i => n / 2 + i
      f := fun i a => a.smul (QS.sgn (i / 2))
      lt := fun i _ h => by omega
      fix := fun _ _ _ _ _ => by omega
      inj := fun _ _ _ _ _ _ h => by omega
      off := fun _ _ _ _ _ _ h => by omega }
  | some .IV =>
    { n := n
      k0 := 1
      ss := (n + 1) / 2
      mir := fun i => n / 2 + i
      f := fun _ a => -a
      lt := fun i _ h => by omega
      fix := fun _ _ _ _ _ => by omega
      inj := fun _ _ _ _ _ _ h => by omega
      off := fun _ _ _ _ _ _ h => by omega }

variable {n : ℕ} {sym : Option Symmetry}

theorem geoQ_n : (geoQ n sym).n = n := by rcases sym with _ | _ | _ | _ | _ <;> rfl
theorem geoQ_k0 : (geoQ n sym).k0 = 1 := by rcases sym with _ | _ | _ | _ | _ <;> rfl

def mkQ (n : ℕ) (sym : Option Symmetry) (v : List Quat) : QS := { size := n, values := v, symmetry := sym }

theorem search_mk (v : List Quat) : (mkQ n sym v).searchSize = (geoQ n sym).ss := by
  rcases sym with _ | _ | _ | _ | _ <;> rfl

theorem setValue_mk {v : List Quat} (hv : v.length = (geoQ n sym).n) (a : Quat) {k : ℕ} (h0 : (geoQ n sym).k0 ≤ k)
    (hk : k < (geoQ n sym).ss) : (mkQ n sym v).setValue a k = some (mkQ n sym ((geoQ n sym).step v a k)) := by
  obtain ⟨l1, l2⟩ := (geoQ n sym).lt k h0 hk
  rw [geoQ_n] at hv l1 l2
  unfold QS.setValue
  rw [if_pos (by change k < v.length; omega)]
  rcases sym with _ | _ | _ | _ | _
  · simp [mkQ, Geo.step, geoQ]
  · dsimp only [mkQ, geoQ, Geo.step] at *
    exact if_pos ⟨by omega, by rw [List.length_set]; omega⟩
  all_goals
    dsimp only [mkQ, geoQ, Geo.step] at *
    exact if_pos (by rw [List.length_set]; omega)

theorem q24_neg : ∀ p ∈ Q24, -p ∈ Q24 := by decide +kernel
theorem q24_smul1 : ∀ p ∈ Q24, p.smul 1 = p := by decide +kernel
theorem q24_smul2 : ∀ p ∈ Q24, p.smul (-1) = -p := by decide +kernel

theorem sgn_cases (e : ℕ) : QS.sgn e = if e % 2 = 0 then 1 else -1 := by
  unfold QS.sgn
  rcases Nat.even_or_odd e with h | h
  · rw [h.neg_one_pow, if_pos (Nat.even_iff.1 h)]
  · rw [h.neg_one_pow, if_neg (by rw [Nat.odd_iff.1 h]; decide)]

theorem smul_sgn {p : Quat} (h : p ∈ Q24) (e : ℕ) : p.smul (QS.sgn e) = if e % 2 = 0 then p else -p := by
  rw [sgn_cases]
  split
  · exact q24_smul1 p h
  · exact q24_smul2 p h

theorem geoQ_f24 {a : Quat} (ha : a ∈ Q24) (k : ℕ) : (geoQ n sym).f k a ∈ Q24 := by
  rcases sym with _ | _ | _ | _ | _
  · exact ha
  · exact ha
  · change a.smul (QS.sgn k) ∈ Q24
    rw [smul_sgn ha]; split
    · exact ha
    · exact q24_neg a ha
  · change a.smul (QS.sgn (k / 2)) ∈ Q24
    rw [smul_sgn ha]; split
    · exact ha
    · exact q24_neg a ha
  · exact q24_neg a ha

def All24 (v : List Quat) : Prop := ∀ x ∈ v, x ∈ Q24

theorem step24 {v : List Quat} (hv : All24 v) {a : Quat} (ha : a ∈ Q24) (k : ℕ) : All24 ((geoQ n sym).step v a k) := by
  intro x hx
  rcases List.mem_or_eq_of_mem_set hx with hx | rfl
  · rcases List.mem_or_eq_of_mem_set hx with hx | rfl
    · exact hv x hx
    · exact ha
  · exact geoQ_f24 ha k

theorem print24 {v : List Quat} (hv : All24 v) : ∃ p, (mkQ n sym v).toStringRaw = some p :=
  ⟨_, Print.mapM_some (g := fun x => (quaternionToString x).getD ' ') fun x hx => by
    obtain ⟨c, _, h, _⟩ := q24_char x (hv x hx); rw [h]; rfl⟩

/-- The printed form of a leaf. -/
def prQ (n : ℕ) (sym : Option Symmetry) (v : List Quat) : List Char := ((mkQ n sym v).toStringRaw).getD []

/-- The accepted leaves. -/
def good (n : ℕ) (sym : Option Symmetry) (alpha : List Quat) : List (List Quat) :=
  ((geoQ n sym).leaves alpha ((geoQ n sym).ss - 1) (List.replicate n Q1) 1).filter fun v => (mkQ n sym v).isPerfect

theorem replicate24 : All24 (List.replicate n Q1) := by
  intro x hx
  rw [List.eq_of_mem_replicate hx]
  decide +kernel

theorem naive_spec (n : ℕ) (sym : Option Symmetry) :
    findNaive n sym = some ((good n sym QPLUS).map (prQ n sym), (good n sym QPLUS).length) := by
  set G := geoQ n sym with hG
  have hsub : ∀ a ∈ QPLUS, a ∈ Q24 := by decide +kernel
  have := Geo.sequential (G := G) (alpha := QPLUS) (mkQ n sym) (fun q a k => q.setValue a k) naiveRec
    (fun b l => (b.1 ++ (l.filter fun v => (mkQ n sym v).isPerfect).map (prQ n sym),
      b.2 + (l.filter fun v => (mkQ n sym v).isPerfect).length))
    (by intro b l l'; simp [Nat.add_assoc]) (by intro b; simp) All24
    (by
      intro f k s b hs hp hk
      unfold naiveRec
      rw [if_pos (by rw [search_mk]; exact hk)]
      by_cases h : (mkQ n sym s).isPerfect = true
      · rw [if_pos h]
        obtain ⟨p, hpr⟩ := print24 (n := n) (sym := sym) hp
        rw [hpr]
        simp [h, prQ, hpr]
      · rw [if_neg h]
        simp [h])
    (fun s a k hs h0 hk => setValue_mk hs a h0 hk)
    (by
      intro f k s b hs h0 hk
      rw [naiveRec, if_neg (by rw [search_mk, ← hG]; omega)])
    (fun s a k hs hp ha h0 hk => step24 hp (hsub a ha) k)
    n 1 (List.replicate n Q1) ([], 0) (by rw [hG, geoQ_k0]) (by
      rcases sym with _ | _ | _ | _ | _ <;> simp only [hG, geoQ] <;> omega)
    (by rw [hG, geoQ_n]; simp) replicate24
  obtain ⟨s', h1, _⟩ := this
  unfold findNaive
  have e : QS.new n sym = mkQ n sym (List.replicate n Q1) := rfl
  rw [e, h1]
  simp [good, hG]

theorem optim_leaf {alpha : List Quat} {f k : ℕ} {q : QS} {o : Found} (h : q.searchSize ≤ k) : optimRec alpha f q k o ↔
    if q.isPerfect then ∃ s, q.toStringRaw = some s ∧ o = ([s], 1) else o = ([], 0) := by
  unfold optimRec; rw [if_pos h]

theorem optim_node {alpha : List Quat} {f k : ℕ} {q : QS} {o : Found} (h : k < q.searchSize) :
    optimRec alpha (f + 1) q k o ↔ ∃ outs : List Found,
      List.Forall₂ (fun value o => ∃ q', q.setValue value k = some q' ∧ optimRec alpha f q' (k + 1) o) alpha outs ∧
        o.1.Perm (outs.map Prod.fst).flatten ∧ ParSum (outs.map Prod.snd) o.2 := by
  rw [optimRec, if_neg (by omega)]

theorem optim_spec (n : ℕ) (sym : Option Symmetry) (alpha : List Quat) (hal : ∀ a ∈ alpha, a ∈ Q24) :
    ∀ f k s, 1 ≤ k → (geoQ n sym).ss - k ≤ f → s.length = n → All24 s →
      (∃ o, optimRec alpha f (mkQ n sym s) k o) ∧ ∀ o, optimRec alpha f (mkQ n sym s) k o →
        o.1.Perm ((((geoQ n sym).leaves alpha ((geoQ n sym).ss - k) s k).filter fun v => (mkQ n sym v).isPerfect).map
          (prQ n sym)) ∧
        o.2 = (((geoQ n sym).leaves alpha ((geoQ n sym).ss - k) s k).filter fun v => (mkQ n sym v).isPerfect).length := by
  set G := geoQ n sym with hG
  have leaf : ∀ f k s, G.ss ≤ k → s.length = n → All24 s →
      (∃ o, optimRec alpha f (mkQ n sym s) k o) ∧ ∀ o, optimRec alpha f (mkQ n sym s) k o →
        o.1.Perm (((G.leaves alpha (G.ss - k) s k).filter fun v => (mkQ n sym v).isPerfect).map (prQ n sym)) ∧
        o.2 = ((G.leaves alpha (G.ss - k) s k).filter fun v => (mkQ n sym v).isPerfect).length := by
    intro f k s hk hs hp
    rw [show G.ss - k = 0 by omega]
    simp only [optim_leaf (show (mkQ n sym s).searchSize ≤ k by rw [search_mk]; exact hk), Geo.leaves]
    by_cases h : (mkQ n sym s).isPerfect = true
    · simp only [h, if_true]
      obtain ⟨p, hpr⟩ := print24 (n := n) (sym := sym) hp
      refine ⟨⟨_, p, hpr, rfl⟩, ?_⟩
      rintro o ⟨p', hpr', rfl⟩
      rw [hpr] at hpr'
      cases hpr'
      simp [h, prQ, hpr]
    · simp [h]
  intro f
  induction f with
  | zero => intro k s h0 hf hs hp; exact leaf 0 k s (by omega) hs hp
  | succ f ih =>
    intro k s h0 hf hs hp
    by_cases hk : G.ss ≤ k
    · exact leaf _ k s hk hs hp
    have hk : k < G.ss := by omega
    have hset : ∀ a, (mkQ n sym s).setValue a k = some (mkQ n sym (G.step s a k)) := fun a =>
      setValue_mk (by rw [geoQ_n]; exact hs) a (by rw [geoQ_k0]; exact h0) hk
    have hrec : ∀ a ∈ alpha, _ := fun a ha => ih (k + 1) (G.step s a k) (by omega) (by omega)
      (by rw [Geo.step_length]; exact hs) (step24 hp (hal a ha) k)
    rw [show G.ss - k = (G.ss - (k + 1)) + 1 by omega]
    simp only [optim_node (show k < (mkQ n sym s).searchSize by rw [search_mk]; exact hk), Geo.leaves]
    constructor
    · have : ∃ outs : List Found, List.Forall₂ (fun value o => ∃ q', (mkQ n sym s).setValue value k = some q' ∧
          optimRec alpha f q' (k + 1) o) alpha outs := by
        clear ih
        revert hrec
        generalize hb : alpha = al
        intro hrec
        have : ∀ al' : List Quat, (∀ a ∈ al', a ∈ al) → ∃ outs : List Found, List.Forall₂ (fun value o => ∃ q',
            (mkQ n sym s).setValue value k = some q' ∧ optimRec al f q' (k + 1) o) al' outs := by
          intro al'
          induction al' with
          | nil => intro _; exact ⟨[], .nil⟩
          | cons a al' iha =>
            intro h
            obtain ⟨outs, ho⟩ := iha fun x hx => h x (by simp [hx])
            obtain ⟨o, h1⟩ := (hrec a (h a (by simp))).1
            exact ⟨o :: outs, .cons ⟨_, hset a, h1⟩ ho⟩
        exact this al fun a h => h
      obtain ⟨outs, ho⟩ := this
      exact ⟨((outs.map Prod.fst).flatten, _), outs, ho, List.Perm.refl _, ParSum.segment _⟩
    · rintro o ⟨outs, ho, h1, h2⟩
      have h2 := parSum h2
      have key : ∀ al' : List Quat, (∀ a ∈ al', a ∈ alpha) → ∀ outs : List Found,
          List.Forall₂ (fun value o => ∃ q', (mkQ n sym s).setValue value k = some q' ∧
            optimRec alpha f q' (k + 1) o) al' outs →
          (outs.map Prod.fst).flatten.Perm (((al'.flatMap fun a => G.leaves alpha (G.ss - (k + 1)) (G.step s a k) (k + 1)).filter
            fun v => (mkQ n sym v).isPerfect).map (prQ n sym)) ∧
          (outs.map Prod.snd).sum = ((al'.flatMap fun a => G.leaves alpha (G.ss - (k + 1)) (G.step s a k) (k + 1)).filter
            fun v => (mkQ n sym v).isPerfect).length := by
        intro al'
        induction al' with
        | nil => intro _ outs h; cases h; simp
        | cons a al' iha =>
          intro hs' outs h
          cases h with
          | @cons _ o _ outs h h' =>
            obtain ⟨q', e1, e2⟩ := h
            rw [hset a] at e1
            cases e1
            obtain ⟨g1, g2⟩ := (hrec a (hs' a (by simp))).2 o e2
            obtain ⟨g3, g4⟩ := iha (fun x hx => hs' x (by simp [hx])) outs h'
            rw [List.flatMap_cons, List.filter_append, List.map_append, List.length_append]
            simp only [List.map_cons, List.flatten_cons, List.sum_cons]
            exact ⟨g1.append g3, by rw [g2, g4]⟩
      obtain ⟨g1, g2⟩ := key alpha (fun a h => h) outs ho
      exact ⟨h1.trans g1, h2.trans g2⟩

end Proofs.Search
