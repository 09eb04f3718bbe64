import Verif.Proofs.Complete
import Verif.Proofs.Reps

/-!
# Helper lemmas: soundness of the join for arbitrary files, and the final reduction
-/

set_option linter.unusedSectionVars false
set_option linter.unusedVariables false
set_option linter.unusedSimpArgs false

namespace Proofs.Enumerate
open Model Spec Proofs.Txt Proofs.Join Proofs.Files

/-! ## Soundness without assumptions on the lines -/

theorem collect_sound (key : Text) (ls : List Text) {m : List (ℕ × ℕ)} {rest : List Text}
    (h : collectMatching key ls = some (m, rest)) :
    (∀ p ∈ m, ∃ l ∈ ls, getLineFrom l = some (key, p)) ∧ ∀ l ∈ rest, l ∈ ls := by
  induction ls generalizing m rest with
  | nil =>
    cases h
    exact ⟨by simp, by simp⟩
  | cons l ls ih =>
    unfold collectMatching at h
    rw [Option.bind_eq_some_iff] at h
    obtain ⟨⟨k, p⟩, hp, h⟩ := h
    dsimp only at h
    split at h
    · rename_i hk
      subst hk
      rw [Option.map_eq_some_iff] at h
      obtain ⟨⟨m', rest'⟩, hr, e⟩ := h
      cases e
      obtain ⟨h1, h2⟩ := ih hr
      refine ⟨fun p' hp' => ?_, fun x hx => List.mem_cons_of_mem _ (h2 x hx)⟩
      rcases List.mem_cons.1 hp' with rfl | hp'
      · exact ⟨l, List.mem_cons_self .., hp⟩
      · obtain ⟨x, hx, e⟩ := h1 p' hp'
        exact ⟨x, List.mem_cons_of_mem _ hx, e⟩
    · cases h
      exact ⟨by simp, fun x hx => hx⟩

theorem loop_sound' (fuel : ℕ) (l12 l34 : List Text) {r : List ((ℕ × ℕ) × (ℕ × ℕ))}
    (h : joinLoop fuel l12 l34 = some r) : ∀ m ∈ r, ∃ k, ∃ a ∈ l12, ∃ b ∈ l34,
      getLineFrom a = some (k, m.1) ∧ getLineFrom b = some (k, m.2) := by
  induction fuel generalizing l12 l34 r with
  | zero => cases h
  | succ fuel ih =>
    cases l12 with
    | nil => cases h; simp
    | cons x xs =>
      cases l34 with
      | nil => cases h; simp
      | cons y ys =>
        unfold joinLoop at h
        rw [Option.bind_eq_some_iff] at h
        obtain ⟨⟨k, p⟩, hp, h⟩ := h
        rw [Option.bind_eq_some_iff] at h
        obtain ⟨⟨k', q⟩, hq, h⟩ := h
        dsimp only at h
        split at h
        · rw [Option.bind_eq_some_iff] at h
          obtain ⟨⟨m1, r1⟩, h1, h⟩ := h
          rw [Option.bind_eq_some_iff] at h
          obtain ⟨⟨m2, r2⟩, h2, h⟩ := h
          rw [Option.map_eq_some_iff] at h
          obtain ⟨more, hm, rfl⟩ := h
          obtain ⟨a1, a2⟩ := collect_sound _ _ h1
          obtain ⟨b1, b2⟩ := collect_sound _ _ h2
          intro m hm'
          rcases List.mem_append.1 hm' with hm' | hm'
          · obtain ⟨u, hu, hm'⟩ := List.mem_flatMap.1 hm'
            obtain ⟨v, hv, rfl⟩ := List.mem_map.1 hm'
            obtain ⟨a, ha, e1⟩ := a1 u hu
            obtain ⟨b, hb, e2⟩ := b1 v hv
            exact ⟨_, a, ha, b, hb, e1, e2⟩
          · obtain ⟨k0, a, ha, b, hb, e⟩ := ih _ _ hm m hm'
            exact ⟨k0, a, a2 a ha, b, b2 b hb, e⟩
        · split at h
          · intro m hm
            obtain ⟨k0, a, ha, b, hb, e⟩ := ih _ _ h m hm
            exact ⟨k0, a, List.mem_cons_of_mem _ ha, b, hb, e⟩
          · intro m hm
            obtain ⟨k0, a, ha, b, hb, e⟩ := ih _ _ h m hm
            exact ⟨k0, a, ha, b, List.mem_cons_of_mem _ hb, e⟩

theorem mapM_mem {α β : Type} {f : α → Option β} : ∀ {l : List α} {r : List β}, l.mapM f = some r →
    ∀ y ∈ r, ∃ x ∈ l, f x = some y := by
  intro l
  induction l with
  | nil => intro r h; cases h; simp
  | cons x xs ih =>
    intro r h y hy
    rw [List.mapM_cons] at h
    simp only [Option.bind_eq_bind, Option.bind_eq_some_iff, Option.pure_def, Option.some.injEq] at h
    obtain ⟨v, hv, vs, hvs, rfl⟩ := h
    rcases List.mem_cons.1 hy with rfl | hy
    · exact ⟨x, List.mem_cons_self .., hv⟩
    · obtain ⟨z, hz, e⟩ := ih hvs y hy
      exact ⟨z, List.mem_cons_of_mem _ hz, e⟩

theorem order_inv {d : Dir} {fs : Text × Text} {o : TagOrder} (h : getOrderFromDir d = some (fs, o)) :
    ∃ n12 n34, (n12, fs.1) ∈ d ∧ (n34, fs.2) ∈ d ∧ (pairSuffix ++ sortedSuffix).isSuffixOf n12 = true ∧
      (pairSuffix ++ sortedSuffix).isSuffixOf n34 = true ∧
      getTagFromFilename n12 = some (o.1, o.2.1) ∧ getTagFromFilename n34 = some (o.2.2.1, o.2.2.2) := by
  unfold getOrderFromDir at h
  split at h
  · rename_i f1 f2 hf
    rw [Option.bind_eq_some_iff] at h
    obtain ⟨t12, h1, h⟩ := h
    rw [Option.map_eq_some_iff] at h
    obtain ⟨t34, h2, h⟩ := h
    cases h
    have m1 : f1 ∈ d.filter fun f => (pairSuffix ++ sortedSuffix).isSuffixOf f.1 := by rw [hf]; simp
    have m2 : f2 ∈ d.filter fun f => (pairSuffix ++ sortedSuffix).isSuffixOf f.1 := by rw [hf]; simp
    rw [List.mem_filter] at m1 m2
    exact ⟨f1.1, f2.1, m1.1, m2.1, m1.2, m2.2, h1, h2⟩
  · cases h

/-- The position of a tag in the order of the files. -/
def posOf (o : TagOrder) (ix : ℕ × ℕ × ℕ × ℕ) (t : Tag) : Option ℕ :=
  if t = o.1 then some ix.1 else if t = o.2.1 then some ix.2.1 else if t = o.2.2.1 then some ix.2.2.1
  else if t = o.2.2.2 then some ix.2.2.2 else none

theorem aux_inv {tab : SeqTable} {o : TagOrder} {ix : ℕ × ℕ × ℕ × ℕ} {t : Tag} {s : List ℤ}
    (h : getSequenceAux tab o ix t = some s) : ∃ i, posOf o ix t = some i ∧ (get tab t)[i]? = some s := by
  unfold getSequenceAux at h
  rw [Option.bind_eq_some_iff] at h
  obtain ⟨i, h1, h⟩ := h
  exact ⟨i, h1, by cases t <;> exact h⟩

variable {n : ℕ} [NeZero n]

theorem dir_sound {ty : SeqType} (hty : Supported ty) {d : Dir} {r : List QuadSeq} (h : joinDir ty d = some r)
    (hlen : ∀ f ∈ d, ∀ t, f.1 = seqFileName t → ∀ l, fileToSequences f.2 = some l → ∀ x ∈ l, x.length = n) :
    ∀ q ∈ r, OfType n ty q ∧ ∃ n12 n34 f12 f34 o ix k a b, (n12, f12) ∈ d ∧ (n34, f34) ∈ d ∧
      (pairSuffix ++ sortedSuffix).isSuffixOf n12 = true ∧ (pairSuffix ++ sortedSuffix).isSuffixOf n34 = true ∧
      getTagFromFilename n12 = some (o.1, o.2.1) ∧ getTagFromFilename n34 = some (o.2.2.1, o.2.2.2) ∧
      a ∈ readLines f12 ∧ b ∈ readLines f34 ∧ getLineFrom a = some (k, (ix.1, ix.2.1)) ∧
      getLineFrom b = some (k, (ix.2.2.1, ix.2.2.2)) ∧
      ∀ t, ∃ f ∈ d, ∃ l i, f.1 = seqFileName t ∧ fileToSequences f.2 = some l ∧ posOf o ix t = some i ∧
        l[i]? = some (q.sequence t) := by
  unfold joinDir at h
  rw [Option.bind_eq_some_iff] at h
  obtain ⟨tab, htab, h⟩ := h
  rw [Option.bind_eq_some_iff] at h
  obtain ⟨⟨⟨f12, f34⟩, o⟩, ho, h⟩ := h
  obtain ⟨n12, n34, hn12, hn34, hs12, hs34, ht12, ht34⟩ := order_inv ho
  dsimp only at h
  unfold joinPairsFiles at h
  dsimp only at h
  rw [Option.bind_eq_some_iff] at h
  obtain ⟨ms, hms, h⟩ := h
  rw [Option.map_eq_some_iff] at h
  obtain ⟨rs, hrs, rfl⟩ := h
  intro q hq
  obtain ⟨l, hl, hq⟩ := List.mem_flatten.1 hq
  obtain ⟨m, hm, hlm⟩ := mapM_mem hrs l hl
  unfold testMatch at hlm
  rw [Option.bind_eq_some_iff] at hlm
  obtain ⟨q', hq', hlm⟩ := hlm
  rw [Option.map_eq_some_iff] at hlm
  obtain ⟨b, hb, rfl⟩ := hlm
  cases b with
  | false => simp at hq
  | true =>
    simp only [if_true, List.mem_singleton] at hq
    subst hq
    obtain ⟨s, rfl, hs⟩ := getSequences_inv hq'
    have hst : ∀ t, ∃ f ∈ d, ∃ l i, f.1 = seqFileName t ∧ fileToSequences f.2 = some l ∧
        posOf o (m.1.1, m.1.2, m.2.1, m.2.2) t = some i ∧ l[i]? = some (s t) := by
      intro t
      obtain ⟨i, hi, hg⟩ := aux_inv (hs t)
      rcases readFold_sound d _ tab htab t with e | ⟨f, hf, e1, e2⟩
      · rw [e] at hg
        cases t <;> simp [Files.get] at hg
      · exact ⟨f, hf, get tab t, i, e1, e2, hi, hg⟩
    have hpm : PMQuad n (mkQuad s) := mkQuad_pm fun t => by
      obtain ⟨f, hf, l, i, e1, e2, e3, e4⟩ := hst t
      have hmem := List.mem_of_getElem? e4
      refine ⟨hlen f hf t e1 l e2 _ hmem, ?_⟩
      obtain ⟨x, _, hx⟩ := mapM_mem e2 _ hmem
      exact (stringToSeq_some hx).1
    obtain ⟨b', hb1, hb2⟩ := condition_pm hty hpm
    rw [hb] at hb1
    cases hb1
    refine ⟨hb2.1 rfl, ?_⟩
    obtain ⟨k, x, hx, y, hy, e1, e2⟩ := loop_sound' _ _ _ hms m hm
    refine ⟨n12, n34, f12, f34, o, (m.1.1, m.1.2, m.2.1, m.2.2), k, x, y, hn12, hn34, hs12, hs34, ht12, ht34, hx, hy,
      e1, e2, fun t => ?_⟩
    rw [mkQuad_seq]
    exact hst t

/-! ## Filter and reduction -/

theorem filter_spec {ty : SeqType} (hty : Supported ty) {l : List QuadSeq} (hl : ∀ s ∈ l, PMQuad n s) :
    ∃ r, filterCanonical ty l = some r ∧ (∀ x ∈ r, PMQuad n x ∧ ∃ s ∈ l, CanEquiv ty (fam n s) (fam n x)) ∧
      ∀ s ∈ l, ∃ x ∈ r, CanEquiv ty (fam n s) (fam n x) := by
  have sn : ∃ r, some (unique (l.map snSsCanonical)) = some r ∧
      (∀ x ∈ r, PMQuad n x ∧ ∃ s ∈ l, WTEquiv (fam n s) (fam n x)) ∧ ∀ s ∈ l, ∃ x ∈ r, WTEquiv (fam n s) (fam n x) := by
    refine ⟨_, rfl, fun x hx => ?_, fun s hs => ?_⟩
    · rw [(unique_spec _).2, List.mem_map] at hx
      obtain ⟨s, hs, rfl⟩ := hx
      have := (snSs_spec (hl s hs)).1
      exact ⟨this.1, s, hs, sn_wt this.2⟩
    · exact ⟨_, ((unique_spec _).2 _).2 (List.mem_map.2 ⟨s, hs, rfl⟩), sn_wt (snSs_spec (hl s hs)).1.2⟩
  rcases hty with rfl | rfl | rfl
  · have hsome : ∀ s ∈ l, nsCanonical s = some ((nsCanonical s).getD s) ∧ PMQuad n ((nsCanonical s).getD s) ∧
        QTEquiv (fam n s) (fam n ((nsCanonical s).getD s)) := by
      intro s hs
      obtain ⟨r, h1, h2, _⟩ := nsCanonical_spec (hl s hs)
      rw [h1]
      exact ⟨rfl, h2.1, ns_qt h2.2⟩
    unfold filterCanonical
    dsimp only
    rw [mapM_some fun s hs => (hsome s hs).1]
    refine ⟨_, rfl, fun x hx => ?_, fun s hs => ?_⟩
    · rw [(unique_spec _).2, List.mem_map] at hx
      obtain ⟨s, hs, rfl⟩ := hx
      exact ⟨(hsome s hs).2.1, s, hs, (hsome s hs).2.2⟩
    · exact ⟨_, ((unique_spec _).2 _).2 (List.mem_map.2 ⟨s, hs, rfl⟩), (hsome s hs).2.2⟩
  · exact sn
  · exact sn

theorem joinPairs_spec (hn : n ≤ 31) {ty : SeqType} (hty : Supported ty) {dirs : List (Text × Dir)} {l : List QuadSeq}
    (hj : joinAll ty dirs = some l) (hne : l ≠ []) (hl : ∀ s ∈ l, PMQuad n s) :
    ∃ r, joinPairs ty dirs = some r ∧ r.Nodup ∧ ∀ x, x ∈ r ↔ ∃ s ∈ l, IsLeastQ (Cls n (CanEquiv ty) s) x := by
  obtain ⟨f, hf, f1, f2⟩ := filter_spec hty hl
  have hfne : f ≠ [] := by
    obtain ⟨s, hs⟩ := List.exists_mem_of_ne_nil l hne
    obtain ⟨x, hx, _⟩ := f2 s hs
    exact List.ne_nil_of_mem hx
  obtain ⟨r, hr, h1, h2⟩ := reduce_spec hn hty hfne fun x hx => (f1 x hx).1
  have hE := canEquiv_equiv (n := n) ty
  have trans : ∀ {s t x : QuadSeq}, CanEquiv ty (fam n s) (fam n t) → IsLeastQ (Cls n (CanEquiv ty) s) x →
      IsLeastQ (Cls n (CanEquiv ty) t) x := fun hst hx =>
    ⟨⟨hx.1.1, hE.trans (hE.symm hst) hx.1.2⟩, fun u hu => hx.2 u ⟨hu.1, hE.trans hst hu.2⟩⟩
  refine ⟨r, ?_, h1, fun x => ?_⟩
  · unfold joinPairs
    rw [hj, Option.bind_some, hf, Option.bind_some, hr]
  · rw [h2]
    constructor
    · rintro ⟨y, hy, hx⟩
      obtain ⟨_, s, hs, hsy⟩ := f1 y hy
      exact ⟨s, hs, trans (hE.symm hsy) hx⟩
    · rintro ⟨s, hs, hx⟩
      obtain ⟨y, hy, hsy⟩ := f2 s hs
      exact ⟨y, hy, trans hsy hx⟩

/-! ## The lines of a pair file -/

theorem filteredCouples_pairwise {K : Type} (A : Fl K) (s1 s2 : List (List ℤ)) (b : K) :
    (filteredCouplesPsds A s1 s2 b).Pairwise fun d d' => d.i1 < d'.i1 ∨ d.i1 = d'.i1 ∧ d.i2 < d'.i2 := by
  have hz : ∀ s : List (List ℤ), s.zipIdx.Pairwise fun a b => a.2 < b.2 := by
    intro s
    rw [List.pairwise_iff_getElem]
    intro i j hi hj hij
    simp only [List.getElem_zipIdx]
    omega
  unfold filteredCouplesPsds
  rw [List.pairwise_flatMap]
  constructor
  · intro e1 he1
    rw [List.pairwise_filterMap]
    refine (hz s2).imp ?_
    intro a a' haa d hd d' hd'
    rw [Matching.pairData_some hd, Matching.pairData_some hd']
    exact .inr ⟨rfl, haa⟩
  · refine (hz s1).imp ?_
    intro e e' hee d hd d' hd'
    rw [List.mem_filterMap] at hd hd'
    obtain ⟨a, _, hd⟩ := hd
    obtain ⟨a', _, hd'⟩ := hd'
    rw [Matching.pairData_some hd, Matching.pairData_some hd']
    exact .inl hee

theorem mapM_get {α β : Type} {f : α → Option β} {l : List α} {r : List β} (h : l.mapM f = some r) :
    ∀ x ∈ l, ∃ y, f x = some y := by
  intro x hx
  cases hf : f x with
  | none =>
    have : l.mapM f = none := mapM_eq_none.2 ⟨x, hx, hf⟩
    rw [h] at this; cases this
  | some y => exact ⟨y, rfl⟩

theorem pairLines_once {K : Type} (A : Fl K) {s1 s2 : List (List ℤ)} (h1 : s1.length < 2 ^ 64) (h2 : s2.length < 2 ^ 64)
    (tags : Tag × Tag) (ty : SeqType) (p : ℕ) (side : Side) (mo : MatchOption) {lines : List Text}
    (h : pairLines A s1 s2 tags ty p side mo = some lines) :
    lines.Pairwise (fun a b => ∃ k l i j i' j', getLineFrom a = some (k, (i, j)) ∧ getLineFrom b = some (l, (i', j')) ∧
      (i < i' ∨ i = i' ∧ j < j')) ∧
    ∀ l, l ∈ lines ↔ ∃ i j x y d v, s1[i]? = some x ∧ s2[j]? = some y ∧
      pairData A (A.mul (A.lit 4 1) (A.ofInt p)) (x, i) (y, j) = some d ∧
      pairKey A ty side mo tags p d = some (some v) ∧ l = lineText v i j := by
  have hmem : ∀ d, d ∈ filteredCouplesPsds A s1 s2 (A.mul (A.lit 4 1) (A.ofInt p)) ↔ ∃ i j x y, s1[i]? = some x ∧
      s2[j]? = some y ∧ pairData A (A.mul (A.lit 4 1) (A.ofInt p)) (x, i) (y, j) = some d := by
    intro d
    unfold filteredCouplesPsds
    simp only [List.mem_flatMap, List.mem_filterMap]
    constructor
    · rintro ⟨⟨x, i⟩, hx, ⟨y, j⟩, hy, h⟩
      exact ⟨i, j, x, y, List.mem_zipIdx_iff_getElem?.1 hx, List.mem_zipIdx_iff_getElem?.1 hy, h⟩
    · rintro ⟨i, j, x, y, hx, hy, h⟩
      exact ⟨(x, i), List.mem_zipIdx_iff_getElem?.2 hx, (y, j), List.mem_zipIdx_iff_getElem?.2 hy, h⟩
  unfold pairLines at h
  rw [Option.map_eq_some_iff] at h
  obtain ⟨r, hr, rfl⟩ := h
  let g : PairData K → Option Text := fun d => (pairKey A ty side mo tags p d).bind fun k => k.map fun vals => lineText vals d.i1 d.i2
  have hkey : ∀ d ∈ filteredCouplesPsds A s1 s2 (A.mul (A.lit 4 1) (A.ofInt p)), ∃ k, pairKey A ty side mo tags p d = some k := by
    intro d hd
    obtain ⟨y, hy⟩ := mapM_get hr d hd
    rw [Option.map_eq_some_iff] at hy
    obtain ⟨k, hk, _⟩ := hy
    exact ⟨k, hk⟩
  rw [mapM_some (g := g) fun d hd => by
    obtain ⟨k, hk⟩ := hkey d hd
    show _ = some (Option.bind _ _)
    rw [hk]; rfl] at hr
  cases hr
  have e : ((filteredCouplesPsds A s1 s2 (A.mul (A.lit 4 1) (A.ofInt p))).map g).reduceOption =
      (filteredCouplesPsds A s1 s2 (A.mul (A.lit 4 1) (A.ofInt p))).filterMap g := by
    unfold List.reduceOption
    rw [List.filterMap_map]; rfl
  rw [e]
  have hline : ∀ d ∈ filteredCouplesPsds A s1 s2 (A.mul (A.lit 4 1) (A.ofInt p)), ∀ a, g d = some a →
      ∃ v, pairKey A ty side mo tags p d = some (some v) ∧ a = lineText v d.i1 d.i2 ∧
        getLineFrom a = some (keyOf v, (d.i1, d.i2)) := by
    intro d hd a ha
    obtain ⟨i, j, x, y, hx, hy, hp⟩ := (hmem d).1 hd
    obtain ⟨k, hk⟩ := hkey d hd
    have ha' : (pairKey A ty side mo tags p d).bind (fun k => k.map fun vals => lineText vals d.i1 d.i2) = some a := ha
    rw [hk, Option.bind_some, Option.map_eq_some_iff] at ha'
    obtain ⟨v, rfl, rfl⟩ := ha'
    have li : i < s1.length := (List.getElem?_eq_some_iff.1 hx).1
    have lj : j < s2.length := (List.getElem?_eq_some_iff.1 hy).1
    have ei : d.i1 = i := by rw [Matching.pairData_some hp]
    have ej : d.i2 = j := by rw [Matching.pairData_some hp]
    exact ⟨v, hk, rfl, getLine_lineText v (by omega) (by omega)⟩
  refine ⟨?_, fun l => ?_⟩
  · rw [List.pairwise_filterMap]
    have hall : ∀ d ∈ filteredCouplesPsds A s1 s2 (A.mul (A.lit 4 1) (A.ofInt p)),
        d ∈ filteredCouplesPsds A s1 s2 (A.mul (A.lit 4 1) (A.ofInt p)) := fun d hd => hd
    refine List.Pairwise.imp_of_mem ?_ (filteredCouples_pairwise A s1 s2 _)
    intro d d' hd hd' hlt a ha b hb
    obtain ⟨v, _, _, e1⟩ := hline d hd a ha
    obtain ⟨w, _, _, e2⟩ := hline d' hd' b hb
    exact ⟨_, _, _, _, _, _, e1, e2, hlt⟩
  · rw [List.mem_filterMap]
    constructor
    · rintro ⟨d, hd, hl⟩
      obtain ⟨v, e1, e2, _⟩ := hline d hd l hl
      obtain ⟨i, j, x, y, hx, hy, hp⟩ := (hmem d).1 hd
      refine ⟨i, j, x, y, d, v, hx, hy, hp, e1, ?_⟩
      rw [e2]
      rw [Matching.pairData_some hp]
    · rintro ⟨i, j, x, y, d, v, hx, hy, hp, hk, rfl⟩
      refine ⟨d, (hmem d).2 ⟨i, j, x, y, hx, hy, hp⟩, ?_⟩
      show Option.bind _ _ = _
      rw [hk, Option.bind_some, Option.map_some]
      rw [Matching.pairData_some hp]

/-! ## Sorting of row sums -/

theorem sort_increasing {a b c d : ℤ} (hab : a < b) (hbc : b < c) (hcd : c < d) :
    (sortQuad (a, b, c, d)).2 = [3, 2, 1, 0] := by
  have h1 : a < c := by omega
  have h2 : a < d := by omega
  have h3 : b < d := by omega
  have m1 : maxIndex [a, b, c, d] 0 = 3 := by
    simp [maxIndex, at0, List.range', hab, hbc, hcd]
  have m2 : maxIndex [d, b, c, a] 1 = 2 := by
    simp [maxIndex, at0, List.range', hbc, show ¬ c < a by omega]
  have m3 : maxIndex [d, c, b, a] 2 = 2 := by
    simp [maxIndex, at0, List.range', show ¬ b < a by omega]
  have m4 : maxIndex [d, c, b, a] 3 = 3 := by
    simp [maxIndex]
  unfold sortQuad
  simp only [show List.range 4 = [0, 1, 2, 3] from rfl, List.foldl_cons, List.foldl_nil]
  rw [m1]
  simp only [show swapAt [a, b, c, d] 0 3 = [d, b, c, a] from rfl]
  rw [m2]
  simp only [show swapAt [d, b, c, a] 1 2 = [d, c, b, a] from rfl]
  rw [m3]
  simp only [show swapAt [d, c, b, a] 2 2 = [d, c, b, a] from rfl]
  rw [m4]
  rfl

theorem sort_decreasing {a b c d : ℤ} (hab : b ≤ a) (hbc : c ≤ b) (hcd : d ≤ c) :
    (sortQuad (a, b, c, d)).2 = [0, 1, 2, 3] := by
  have m1 : maxIndex [a, b, c, d] 0 = 0 := by
    simp [maxIndex, at0, List.range', show ¬ a < b by omega, show ¬ a < c by omega, show ¬ a < d by omega]
  have m2 : maxIndex [a, b, c, d] 1 = 1 := by
    simp [maxIndex, at0, List.range', show ¬ b < c by omega, show ¬ b < d by omega]
  have m3 : maxIndex [a, b, c, d] 2 = 2 := by
    simp [maxIndex, at0, List.range', show ¬ c < d by omega]
  have m4 : maxIndex [a, b, c, d] 3 = 3 := by
    simp [maxIndex]
  unfold sortQuad
  simp only [show List.range 4 = [0, 1, 2, 3] from rfl, List.foldl_cons, List.foldl_nil]
  rw [m1]
  simp only [show swapAt [a, b, c, d] 0 0 = [a, b, c, d] from rfl]
  rw [m2]
  simp only [show swapAt [a, b, c, d] 1 1 = [a, b, c, d] from rfl]
  rw [m3]
  simp only [show swapAt [a, b, c, d] 2 2 = [a, b, c, d] from rfl]
  rw [m4]
  rfl

/-! ## The warning -/

theorem foldl_min (vals : List ℝ) (g : ℝ → ℝ) (m tol : ℝ) :
    tol > vals.foldl (fun m a => if m > g a then g a else m) m ↔ tol > m ∨ ∃ a ∈ vals, g a < tol := by
  induction vals generalizing m with
  | nil => simp
  | cons a as ih =>
    rw [List.foldl_cons, ih]
    simp only [List.mem_cons, exists_eq_or_imp]
    by_cases h : m > g a
    · rw [if_pos h]
      constructor
      · rintro (h1 | h1)
        · exact .inr (.inl h1)
        · exact .inr (.inr h1)
      · rintro (h1 | h1 | h1)
        · exact .inl (by linarith)
        · exact .inl h1
        · exact .inr h1
    · rw [if_neg h]
      constructor
      · rintro (h1 | h1)
        · exact .inl h1
        · exact .inr (.inr h1)
      · rintro (h1 | h1 | h1)
        · exact .inl h1
        · left; linarith
        · exact .inr h1

theorem warning_eq (tol : ℝ) (vals : List ℝ) : halfIntWarning exactFl tol vals = true ↔
    tol > 1 ∨ ∃ a ∈ vals, |(a - truncZero a) - 1 / 2| < tol := by
  have := foldl_min vals (fun a => |(a - truncZero a) - 1 / 2|) 1 tol
  unfold halfIntWarning
  simp only [exactFl, decide_eq_true_eq]
  norm_num at this ⊢
  exact this

theorem warning_negative {tol : ℝ} (h : tol ≤ 1) : halfIntWarning exactFl tol [-1 / 2] = false := by
  rw [Bool.eq_false_iff, ne_eq, warning_eq]
  have : truncZero (-1 / 2) = 0 := by
    unfold truncZero
    rw [if_neg (by norm_num), Int.ceil_eq_iff]
    norm_num
  simp only [List.mem_singleton, exists_eq_left, this]
  push Not
  refine ⟨h, ?_⟩
  norm_num
  exact h

theorem warning_iff {tol : ℝ} (h : tol ≤ 1) {vals : List ℝ} (hv : ∀ a ∈ vals, 0 ≤ a) :
    halfIntWarning exactFl tol vals = true ↔ ∃ a ∈ vals, ∃ z : ℤ, |a - (z + 1 / 2)| < tol := by
  rw [warning_eq, or_iff_right (by linarith)]
  refine exists_congr fun a => and_congr_right fun ha => ?_
  unfold truncZero
  rw [if_pos (hv a ha)]
  constructor
  · intro hlt
    exact ⟨⌊a⌋, by rwa [← sub_sub]⟩
  · rintro ⟨z, hz⟩
    have h1 := Int.floor_le a
    have h2 := Int.lt_floor_add_one a
    by_cases hzf : z = ⌊a⌋
    · subst hzf
      rwa [← sub_sub] at hz
    · have h0 : |a - ⌊a⌋ - 1 / 2| ≤ 1 / 2 := by rw [abs_le]; constructor <;> linarith
      have h3 : (1 : ℝ) / 2 ≤ |a - (z + 1 / 2)| := by
        rcases lt_or_gt_of_ne hzf with h4 | h4
        · have : (z : ℝ) + 1 ≤ ⌊a⌋ := by exact_mod_cast h4
          refine le_trans ?_ (le_abs_self _)
          linarith
        · have : (⌊a⌋ : ℝ) + 1 ≤ z := by exact_mod_cast h4
          refine le_trans ?_ (neg_le_abs _)
          linarith
      linarith

end Proofs.Enumerate
