import Verif.Proofs.Search
import Verif.Props.Graph

/-!
# The searches over quadruples of sequences
-/

set_option linter.unusedSectionVars false
set_option linter.unusedVariables false
set_option linter.unusedSimpArgs false

namespace Proofs.Search
open Model Spec Proofs Props

abbrev Q4 := ℤ × ℤ × ℤ × ℤ

/-- A list of columns as a quadruple. -/
def mkS (n : ℕ) (l : List Q4) : QuadSeq :=
  { size := n, a := l.map fun v => v.1, b := l.map fun v => v.2.1, c := l.map fun v => v.2.2.1, d := l.map fun v => v.2.2.2 }

theorem mkS_inj {n : ℕ} {l l' : List Q4} (h : mkS n l = mkS n l') : l = l' := by
  have h1 : l.map (fun v => v.1) = l'.map fun v => v.1 := congrArg QuadSeq.a h
  have h2 : l.map (fun v => v.2.1) = l'.map fun v => v.2.1 := congrArg QuadSeq.b h
  have h3 : l.map (fun v => v.2.2.1) = l'.map fun v => v.2.2.1 := congrArg QuadSeq.c h
  have h4 : l.map (fun v => v.2.2.2) = l'.map fun v => v.2.2.2 := congrArg QuadSeq.d h
  clear h
  induction l generalizing l' with
  | nil => cases l' <;> simp_all
  | cons a l ih =>
    cases l' with
    | nil => simp at h1
    | cons b l' =>
      simp only [List.map_cons, List.cons.injEq] at h1 h2 h3 h4
      rw [ih h1.2 h2.2 h3.2 h4.2]
      congr 1
      exact Prod.ext h1.1 (Prod.ext h2.1 (Prod.ext h3.1 h4.1))

def AllQ (l : List Q4) : Prop := ∀ v ∈ l, v ∈ QUADRUPLETS

theorem mkS_pm {n : ℕ} {l : List Q4} (hl : l.length = n) (ha : AllQ l) : PMQuad n (mkS n l) := by
  have : ∀ v ∈ l, PM4 v := fun v hv => (pm4_iff_mem v).2 (ha v hv)
  refine ⟨rfl, ⟨?_, ?_⟩, ⟨?_, ?_⟩, ⟨?_, ?_⟩, ⟨?_, ?_⟩⟩
  all_goals first
    | (simp [mkS, hl]; done)
    | (intro x hx
       obtain ⟨v, hv, rfl⟩ := List.mem_map.1 hx
       obtain ⟨h1, h2, h3, h4⟩ := this v hv
       assumption)

theorem pm_mkS {n : ℕ} {s : QuadSeq} (h : PMQuad n s) : ∃ l : List Q4, l.length = n ∧ AllQ l ∧ mkS n l = s := by
  obtain ⟨sz, a, b, c, d⟩ := s
  obtain ⟨h0, ⟨ha, ha'⟩, ⟨hb, hb'⟩, ⟨hc, hc'⟩, ⟨hd, hd'⟩⟩ := h
  dsimp only at *
  subst h0
  refine ⟨(List.range sz).map fun i => (a.getD i 0, b.getD i 0, c.getD i 0, d.getD i 0), by simp, ?_, ?_⟩
  · intro v hv
    obtain ⟨i, hi, rfl⟩ := List.mem_map.1 hv
    rw [List.mem_range] at hi
    rw [← pm4_iff_mem]
    simp only [PM4]
    rw [List.getD_eq_getElem _ _ (by omega), List.getD_eq_getElem _ _ (by omega), List.getD_eq_getElem _ _ (by omega),
      List.getD_eq_getElem _ _ (by omega)]
    exact ⟨ha' _ (List.getElem_mem _), hb' _ (List.getElem_mem _), hc' _ (List.getElem_mem _), hd' _ (List.getElem_mem _)⟩
  · have key : ∀ l : List ℤ, l.length = sz → (List.range sz).map (fun i => l.getD i 0) = l := by
      intro l hl
      refine List.ext_getElem (by simp [hl]) fun i h1 h2 => ?_
      simp [List.getElem?_eq_getElem h2]
    unfold mkS
    simp only [List.map_map, Function.comp_def]
    rw [key a ha, key b hb, key c hc, key d hd]

theorem mkS_set (n : ℕ) (l : List Q4) (v : Q4) (k : ℕ) : (mkS n l).setSequenceValue v k = mkS n (l.set k v) := by
  simp [mkS, QuadSeq.setSequenceValue, List.map_set]

theorem mkS_new (n : ℕ) : QuadSeq.new n = mkS n (List.replicate n (-1, -1, -1, -1)) := by
  simp [mkS, QuadSeq.new]

/-- One column per position. -/
def geoS (n k0 : ℕ) : Geo Q4 :=
  { n := n
    k0 := k0
    ss := n
    mir := fun i => i
    f := fun _ a => a
    lt := fun i _ h => ⟨h, h⟩
    fix := fun _ _ _ _ _ => rfl
    inj := fun _ _ _ _ _ _ h => h
    off := fun _ _ _ _ _ _ h => h }

theorem geoS_step (n k0 : ℕ) (s : List Q4) (a : Q4) (k : ℕ) : (geoS n k0).step s a k = s.set k a := by
  simp [Geo.step, geoS]

theorem geoS_stepQ {n k0 : ℕ} {s : List Q4} (hs : AllQ s) {a : Q4} (ha : a ∈ QUADRUPLETS) (k : ℕ) :
    AllQ ((geoS n k0).step s a k) := by
  intro x hx
  rw [geoS_step] at hx
  rcases List.mem_or_eq_of_mem_set hx with hx | rfl
  · exact hs x hx
  · exact ha

variable {n : ℕ} [NeZero n]

theorem perf_iff {s : QuadSeq} (h : PMQuad n s) : ∃ q p, s.toQs = some q ∧ q.toStringRaw = some p ∧
    (q.isPerfect = true ↔ IsQTS n s) := by
  have h2 := toQs_eq h
  obtain ⟨q, h1, h3⟩ := C03_isQTS_iff_perfect n s h
  have h4 : q = _ := Option.some.inj (h1.symm.trans h2)
  obtain ⟨t, k1, -⟩ := Conversion.read_line h
  rw [h1] at k1
  refine ⟨q, t, h1, k1, ?_⟩
  rw [h3, C01_isPerfect_iff n q (by rw [h4]) (by rw [h4]; simp)]

open Classical in
/-- The QT sequences among the leaves. -/
noncomputable def qts (n k0 : ℕ) [NeZero n] (s : List Q4) (k : ℕ) : List QuadSeq :=
  (((geoS n k0).leaves QUADRUPLETS (n - k) s k).map (mkS n)).filter fun s => decide (IsQTS n s)

theorem replicateQ : AllQ (List.replicate n (-1, -1, -1, -1)) := by
  intro x hx
  rw [List.eq_of_mem_replicate hx]
  decide

theorem leaves_all {k0 : ℕ} {s : List Q4} (hs : AllQ s) (hl : s.length = n) {k : ℕ} (h0 : k0 ≤ k) {v : List Q4}
    (hv : v ∈ (geoS n k0).leaves QUADRUPLETS (n - k) s k) : v.length = n ∧ AllQ v := by
  obtain ⟨h1, h2, h3⟩ := (Geo.mem_leaves (G := geoS n k0) h0 rfl hl).1 hv
  refine ⟨h1, fun x hx => ?_⟩
  obtain ⟨i, hi, rfl⟩ := List.mem_iff_getElem.1 hx
  by_cases hk : k ≤ i
  · obtain ⟨a, ha, e, -⟩ := h3 i hk (by change i < n; have : v.length = n := h1; omega)
    rw [List.getElem?_eq_getElem hi, Option.some.injEq] at e
    rw [e]; exact ha
  · have := h2 i (by rintro ⟨j, a1, a2, a3 | a3⟩ <;> (try simp only [geoS] at a3) <;> omega)
    rw [List.getElem?_eq_getElem hi, List.getElem?_eq_getElem (by have : v.length = n := h1; omega), Option.some.injEq] at this
    rw [this]; exact hs _ (List.getElem_mem _)

theorem aux_spec (n : ℕ) [NeZero n] : findAux n = some (qts n 0 (List.replicate n (-1, -1, -1, -1)) 0) := by
  classical
  have := Geo.sequential (G := geoS n 0) (alpha := QUADRUPLETS) (mkS n) (fun q a k => some (q.setSequenceValue a k)) uniqueRec
    (fun b l => b ++ (l.map (mkS n)).filter fun s => decide (IsQTS n s))
    (by intro b l l'; simp) (by intro b; simp) AllQ
    (by
      intro f k s b hs hp hk
      unfold uniqueRec
      rw [if_pos (show k ≥ (mkS n s).size from hk)]
      obtain ⟨q, p, h1, h2, h3⟩ := perf_iff (n := n) (mkS_pm hs hp)
      rw [h1, Option.map_some]
      by_cases h : IsQTS n (mkS n s)
      · rw [if_pos (h3.2 h)]; simp [h]
      · rw [if_neg (mt h3.1 h)]; simp [h])
    (fun s a k hs h0 hk => by rw [mkS_set, geoS_step])
    (by
      intro f k s b hs h0 hk
      rw [uniqueRec, if_neg (show ¬ k ≥ (mkS n s).size from not_le.2 hk)]
      rfl)
    (fun s a k hs hp ha h0 hk => geoS_stepQ hp ha k)
    n 0 (List.replicate n (-1, -1, -1, -1)) [] (Nat.le_refl 0) (Nat.le_refl _) (by simp [geoS]) replicateQ
  obtain ⟨s', h1, _⟩ := this
  unfold findAux
  rw [mkS_new, h1]
  simp only [Option.map_some, List.nil_append, qts]
  rfl

theorem mem_qts0 (s : QuadSeq) : s ∈ qts n 0 (List.replicate n (-1, -1, -1, -1)) 0 ↔ IsQTS n s := by
  classical
  unfold qts
  rw [List.mem_filter, decide_eq_true_iff, List.mem_map]
  constructor
  · exact fun h => h.2
  · intro h
    refine ⟨?_, h⟩
    obtain ⟨l, h1, h2, h3⟩ := pm_mkS h.1
    refine ⟨l, (Geo.mem_leaves (G := geoS n 0) (Nat.le_refl 0) rfl (by simp [geoS])).2 ⟨h1, fun i hi => ?_, fun i hi hi' => ?_⟩, h3⟩
    · have hin : n ≤ i := by
        by_contra hc
        exact hi ⟨i, Nat.zero_le _, by change i < n; omega, .inl rfl⟩
      rw [List.getElem?_eq_none (by omega), List.getElem?_eq_none (by simpa using hin)]
    · have hi' : i < l.length := by rw [h1]; exact hi'
      exact ⟨l[i], h2 _ (List.getElem_mem _), List.getElem?_eq_getElem hi', List.getElem?_eq_getElem hi'⟩

theorem quad_nodup : QUADRUPLETS.Nodup := by decide

theorem nodup_qts (k0 : ℕ) {s : List Q4} (hs : s.length = n) : (qts n k0 s k0).Nodup := by
  classical
  unfold qts
  refine List.Nodup.filter _ (List.Nodup.map (fun _ _ => mkS_inj) ?_)
  exact Geo.nodup_leaves (G := geoS n k0) quad_nodup (Nat.le_refl _) rfl hs

/-! ### Classes -/

theorem collect {E : QuadSeq → QuadSeq → Prop} {D : QuadSeq → Prop} {gen : QuadSeq → Option (List QuadSeq)}
    {C : QuadSeq → List QuadSeq} (hgen : ∀ s, D s → gen s = some (C s)) (hC : ∀ s, D s → ∀ t, t ∈ C s ↔ D t ∧ E s t)
    (refl : ∀ s, E s s) (symm : ∀ s t, E s t → E t s) (trans : ∀ s t u, E s t → E t u → E s u)
    (l : List QuadSeq) (hl : ∀ s ∈ l, D s) (cl : List (List QuadSeq)) (done : List QuadSeq)
    (h1 : ∀ c ∈ cl, ∃ s ∈ done, D s ∧ c = C s) (h2 : ∀ s ∈ done, ∃ c ∈ cl, s ∈ c)
    (h3 : cl.Pairwise fun c d => ∀ x ∈ c, x ∉ d) :
    ∃ r, l.foldlM (fun classes s =>
      if classes.any fun c => decide (s ∈ c) then some classes else (gen s).map fun c => classes ++ [c]) cl = some r ∧
      (∀ c ∈ r, ∃ s ∈ done ++ l, D s ∧ c = C s) ∧ (∀ s ∈ done ++ l, ∃ c ∈ r, s ∈ c) ∧
      r.Pairwise fun c d => ∀ x ∈ c, x ∉ d := by
  induction l generalizing cl done with
  | nil => exact ⟨cl, rfl, by simpa using h1, by simpa using h2, h3⟩
  | cons s l ih =>
    have hs := hl s List.mem_cons_self
    have hl' := fun t ht => hl t (List.mem_cons_of_mem s ht)
    have key : ∃ cl', (if cl.any fun c => decide (s ∈ c) then some cl else (gen s).map fun c => cl ++ [c]) = some cl' ∧
        (∀ c ∈ cl', ∃ t ∈ done ++ [s], D t ∧ c = C t) ∧ (∀ t ∈ done ++ [s], ∃ c ∈ cl', t ∈ c) ∧
        cl'.Pairwise fun c d => ∀ x ∈ c, x ∉ d := by
      by_cases hany : cl.any fun c => decide (s ∈ c)
      · refine ⟨cl, by rw [if_pos hany], fun c h => ?_, fun t ht => ?_, h3⟩
        · obtain ⟨u, a, b⟩ := h1 c h; exact ⟨u, by simp [a], b⟩
        · rcases List.mem_append.1 ht with h | h
          · exact h2 t h
          · obtain ⟨c, hc, h'⟩ := List.any_eq_true.1 hany
            exact ⟨c, hc, by rw [List.mem_singleton.1 h]; exact of_decide_eq_true h'⟩
      · refine ⟨cl ++ [C s], by rw [if_neg hany, hgen s hs]; rfl, fun c h => ?_, fun t ht => ?_, ?_⟩
        · rcases List.mem_append.1 h with h | h
          · obtain ⟨u, a, b⟩ := h1 c h; exact ⟨u, by simp [a], b⟩
          · exact ⟨s, by simp, hs, List.mem_singleton.1 h⟩
        · rcases List.mem_append.1 ht with h | h
          · obtain ⟨c, hc, h'⟩ := h2 t h; exact ⟨c, by simp [hc], h'⟩
          · rw [List.mem_singleton.1 h]; exact ⟨C s, by simp, (hC s hs s).2 ⟨hs, refl s⟩⟩
        · rw [List.pairwise_append]
          refine ⟨h3, List.pairwise_singleton _ _, ?_⟩
          intro c hcc d hd x hx hx'
          rw [List.mem_singleton] at hd; subst hd
          obtain ⟨u, _, hu, rfl⟩ := h1 c hcc
          apply hany
          rw [List.any_eq_true]
          refine ⟨_, hcc, decide_eq_true ?_⟩
          rw [hC u hu] at hx ⊢
          exact ⟨hs, trans _ _ _ hx.2 (symm _ _ ((hC s hs x).1 hx').2)⟩
    obtain ⟨cl', e, k1, k2, k3⟩ := key
    obtain ⟨r, e', m1, m2, m3⟩ := ih hl' cl' (done ++ [s]) k1 k2 k3
    refine ⟨r, ?_, ?_, ?_, m3⟩
    · rw [List.foldlM_cons, e]; exact e'
    · simpa using m1
    · simpa using m2

theorem unlines_fold (ls : List (List Char)) : ls.foldl (fun s t => s ++ t ++ ['\n']) [] = unlines ls := by
  have : ∀ acc : List Char, ls.foldl (fun s t => s ++ t ++ ['\n']) acc = acc ++ unlines ls := by
    induction ls with
    | nil => intro acc; simp [unlines]
    | cons a l ih => intro acc; rw [List.foldl_cons, ih]; simp [unlines]
  simpa using this []

theorem unique_spec (hn : n ≤ 100) : ∃ r : List QuadSeq, r.Nodup ∧ (∀ x, x ∈ r ↔ LeastInClass n .quaternionType x) ∧
    findUnique n = resultText r ∧ ∃ t, resultText r = some t := by
  have hE := typeEquiv_equivalence n .quaternionType
  set C : QuadSeq → List QuadSeq := fun s => (generateEquivalenceClass (equivalences .quaternionType) s).getD [] with hCdef
  have hgen : ∀ s, PMQuad n s → generateEquivalenceClass (equivalences .quaternionType) s = some (C s) := by
    intro s hs
    obtain ⟨c, h1, _⟩ := C11_class_eq n hn .quaternionType s hs
    rw [hCdef]; simp only [h1, Option.getD_some]
  have hC : ∀ s, PMQuad n s → ∀ t, t ∈ C s ↔ PMQuad n t ∧ TypeEquiv .quaternionType (fam n s) (fam n t) := by
    intro s hs
    obtain ⟨c, h1, _, h3⟩ := C11_class_eq n hn .quaternionType s hs
    rw [hCdef]; simp only [h1, Option.getD_some]; exact h3
  set L := qts n 0 (List.replicate n (-1, -1, -1, -1)) 0 with hL
  have hmemL : ∀ s, s ∈ L ↔ IsQTS n s := mem_qts0
  obtain ⟨cl, e, m1, m2, m3⟩ := collect (E := fun s t => TypeEquiv .quaternionType (fam n s) (fam n t)) (D := PMQuad n)
    hgen hC (fun s => hE.refl _) (fun s t h => hE.symm h) (fun s t u h h' => hE.trans h h') L
    (fun s hs => ((hmemL s).1 hs).1) [] [] (by simp) (by simp) List.Pairwise.nil
  simp only [List.nil_append] at m1 m2
  have hcls : ∀ c ∈ cl, ∃ s, IsQTS n s ∧ c = C s := fun c hc => by
    obtain ⟨s, h1, h2, h3⟩ := m1 c hc; exact ⟨s, (hmemL s).1 h1, h3⟩
  have hq : ∀ c ∈ cl, ∀ t ∈ c, IsQTS n t := by
    intro c hc t ht
    obtain ⟨s, h1, rfl⟩ := hcls c hc
    obtain ⟨g1, g2⟩ := (hC s h1.1 t).1 ht
    exact typeEquiv_ofType (.inl rfl) (show OfType n .quaternionType s from h1) g1 g2
  set ν : List QuadSeq → QuadSeq := fun c => (findMinimum c).getD (QuadSeq.new 0) with hν
  have hmin : ∀ c ∈ cl, findMinimum c = some (ν c) ∧ IsLeastQ (· ∈ c) (ν c) := by
    intro c hc
    obtain ⟨s, h1, rfl⟩ := hcls c hc
    obtain ⟨m, g1, g2⟩ := findMinimum_spec (n := n) (l := C s)
      (List.ne_nil_of_mem ((hC s h1.1 s).2 ⟨h1.1, hE.refl _⟩)) (fun t ht => pm_len (hq _ hc t ht).1)
    rw [hν]; simp only [g1, Option.getD_some]
    exact ⟨trivial, g2⟩
  refine ⟨cl.map ν, ?_, fun x => ?_, ?_, ?_⟩
  · unfold List.Nodup
    rw [List.pairwise_map]
    refine m3.imp_of_mem ?_
    intro c d hc hd hcd heq
    exact hcd _ (hmin c hc).2.1 (heq ▸ (hmin d hd).2.1)
  · rw [List.mem_map]
    constructor
    · rintro ⟨c, hc, rfl⟩
      have hx := (hmin c hc).2
      refine ⟨hq c hc _ hx.1, fun t ht h => ?_⟩
      obtain ⟨s, h1, rfl⟩ := hcls c hc
      refine hx.2 t ((hC s h1.1 t).2 ⟨ht, hE.trans ((hC s h1.1 _).1 hx.1).2 h⟩)
    · rintro ⟨h1, h2⟩
      have h1 : IsQTS n x := h1
      obtain ⟨c, hc, hx⟩ := m2 x ((hmemL x).2 h1)
      refine ⟨c, hc, ?_⟩
      obtain ⟨s, g1, rfl⟩ := hcls c hc
      have hU : Uniform n (· ∈ C s) := fun t ht => ⟨(hq _ hc t ht).1.size, pm_len (hq _ hc t ht).1⟩
      refine IsLeastQ.unique hU (hmin _ hc).2 ⟨hx, fun t ht => ?_⟩
      obtain ⟨k1, k2⟩ := (hC s g1.1 t).1 ht
      exact h2 t k1 (hE.trans (hE.symm ((hC s g1.1 x).1 hx).2) k2)
  · unfold findUnique findClasses
    rw [aux_spec, Option.bind_some, ← hL]
    rw [e, Option.bind_some]
    have hall : ∃ ps, (cl.mapM fun (c : List QuadSeq) => c.mapM fun (e : QuadSeq) => e.toQs.bind fun q =>
        if q.isPerfect then q.toStringRaw else none) = some ps := by
      refine ⟨_, mapM_some (g := fun c => c.map fun (e : QuadSeq) => ((e.toQs.bind QS.toStringRaw).getD [])) fun c hc => ?_⟩
      refine mapM_some fun t ht => ?_
      have ht := hq c hc t ht
      obtain ⟨q, p, h1, h2, h3⟩ := perf_iff ht.1
      rw [h1, Option.bind_some, if_pos (h3.2 ht), Option.bind_some, h2]; rfl
    obtain ⟨ps, hps⟩ := hall
    rw [hps, Option.bind_some, mapM_some fun c hc => (hmin c hc).1, Option.bind_some]
    unfold resultText
    congr 1
    funext ls
    exact unlines_fold ls
  · obtain ⟨t, ht, _⟩ := Conversion.resultText_spec (n := n) (l := cl.map ν) (by
      intro s hs
      obtain ⟨c, hc, rfl⟩ := List.mem_map.1 hs
      exact (hq c hc _ (hmin c hc).2.1).1)
    exact ⟨t, ht⟩

/-! ### The Williamson search -/

theorem williamson_spec (n : ℕ) [NeZero n] (cond : QuadSeq → Bool) : ∀ f k s, 1 ≤ k → n - k ≤ f → s.length = n → AllQ s →
    williamsonRec cond f (mkS n s) k = some
      (((qts n 1 s k).filter cond).map fun (s : QuadSeq) => (s.toQs.bind QS.toStringRaw).getD [],
       ((qts n 1 s k).filter cond).length) := by
  classical
  have leaf : ∀ f k s, n ≤ k → s.length = n → AllQ s → williamsonRec cond f (mkS n s) k = some
      (((qts n 1 s k).filter cond).map fun (s : QuadSeq) => (s.toQs.bind QS.toStringRaw).getD [],
       ((qts n 1 s k).filter cond).length) := by
    intro f k s hk hs ha
    unfold williamsonRec qts
    rw [if_pos (show k ≥ (mkS n s).size from hk), show n - k = 0 by omega]
    unfold Geo.leaves
    obtain ⟨q, p, h1, h2, h3⟩ := perf_iff (mkS_pm hs ha)
    rw [h1, Option.bind_some, h2]
    by_cases hc : cond (mkS n s) = true
    · rw [if_pos hc]
      by_cases h : IsQTS n (mkS n s)
      · rw [if_pos (h3.2 h)]; simp [h, hc, h1, h2]
      · rw [if_neg (mt h3.1 h)]; simp [h]
    · rw [if_neg hc]
      by_cases h : IsQTS n (mkS n s)
      · simp [h, hc]
      · simp [h]
  intro f
  induction f with
  | zero => intro k s h0 hf hs ha; exact leaf 0 k s (by omega) hs ha
  | succ f ih =>
    intro k s h0 hf hs ha
    by_cases hk : n ≤ k
    · exact leaf _ k s hk hs ha
    rw [williamsonRec, if_neg (show ¬ k ≥ (mkS n s).size from hk)]
    have hq : qts n 1 s k = QUADRUPLETS.flatMap fun a => qts n 1 ((geoS n 1).step s a k) (k + 1) := by
      unfold qts
      rw [show n - k = (n - (k + 1)) + 1 by omega]
      rw [Geo.leaves, List.map_flatMap, List.filter_flatMap]
    rw [hq]
    have key : ∀ (al : List Q4), (∀ a ∈ al, a ∈ QUADRUPLETS) → ∀ acc : Found,
        al.foldlM (fun (acc : Found) value => (williamsonRec cond f ((mkS n s).setSequenceValue value k) (k + 1)).map
          fun r => (acc.1 ++ r.1, acc.2 + r.2)) acc = some
          (acc.1 ++ ((al.flatMap fun a => qts n 1 ((geoS n 1).step s a k) (k + 1)).filter cond).map
            (fun (s : QuadSeq) => (s.toQs.bind QS.toStringRaw).getD []),
           acc.2 + ((al.flatMap fun a => qts n 1 ((geoS n 1).step s a k) (k + 1)).filter cond).length) := by
      intro al
      induction al with
      | nil => intro _ acc; simp
      | cons a al iha =>
        intro hal acc
        rw [List.foldlM_cons, mkS_set, ← geoS_step n 1, ih (k + 1) _ (by omega) (by omega)
          (by rw [Geo.step_length]; exact hs) (geoS_stepQ ha (hal a (by simp)) k)]
        change List.foldlM _ _ al = _
        rw [iha fun x hx => hal x (by simp [hx])]
        simp [Nat.add_assoc]
    have := key QUADRUPLETS (fun a h => h) ([], 0)
    simpa using this

theorem mem_qts1 (s : QuadSeq) : s ∈ qts n 1 (List.replicate n (-1, -1, -1, -1)) 1 ↔
    IsQTS n s ∧ s.values 0 = (-1, -1, -1, -1) := by
  classical
  have hn := Nat.pos_of_neZero n
  unfold qts
  rw [List.mem_filter, decide_eq_true_iff, List.mem_map, and_comm]
  refine and_congr_right fun h => ?_
  have hv : ∀ l : List Q4, l.length = n → ((mkS n l).values 0 = (-1, -1, -1, -1) ↔ l[0]? = some (-1, -1, -1, -1)) := by
    intro l hl
    cases l with
    | nil => simp at hl; omega
    | cons a l =>
      obtain ⟨a1, a2, a3, a4⟩ := a
      simp [mkS, QuadSeq.values, at0]
  constructor
  · rintro ⟨l, hl, rfl⟩
    have h1 := (leaves_all (n := n) (k0 := 1) replicateQ (by simp) (le_refl 1) hl).1
    rw [hv l h1]
    obtain ⟨_, h2, _⟩ := (Geo.mem_leaves (G := geoS n 1) (Nat.le_refl 1) rfl (by simp [geoS])).1 hl
    rw [h2 0 (by rintro ⟨j, a1, a2, a3 | a3⟩ <;> (try simp only [geoS] at a3) <;> omega)]
    simp [hn]
  · intro h0
    obtain ⟨l, h1, h2, rfl⟩ := pm_mkS h.1
    refine ⟨l, (Geo.mem_leaves (G := geoS n 1) (Nat.le_refl 1) rfl (by simp [geoS])).2 ⟨h1, fun i hi => ?_, fun i hi hi' => ?_⟩, rfl⟩
    · rcases Nat.eq_zero_or_pos i with rfl | hpos
      · rw [(hv l h1).1 h0]; simp [hn]
      · have hin : n ≤ i := by
          by_contra hc
          exact hi ⟨i, hpos, by change i < n; omega, .inl rfl⟩
        rw [List.getElem?_eq_none (by omega), List.getElem?_eq_none (by simpa using hin)]
    · have hi' : i < l.length := by rw [h1]; exact hi'
      exact ⟨l[i], h2 _ (List.getElem_mem _), List.getElem?_eq_getElem hi', List.getElem?_eq_getElem hi'⟩

end Proofs.Search
