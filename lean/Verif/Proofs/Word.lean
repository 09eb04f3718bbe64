import Verif.Model.Word
import Verif.Proofs.Rowsum
import Verif.Proofs.Checked

/-! # Proofs: 64-bit words -/

namespace Proofs.Word
open Model Spec Proofs

theorem i64_eq (dbg : Bool) {x : ℤ} (h1 : -2 ^ 63 ≤ x) (h2 : x < 2 ^ 63) : Word.i64 dbg x = some x :=
  if_pos ⟨h1, h2⟩

theorem u64_eq (dbg : Bool) {x : ℤ} {m : ℕ} (h : x = m) (h2 : m < 2 ^ 64) : Word.u64 dbg x = some m := by
  subst h
  unfold Word.u64
  rw [if_pos ⟨by omega, by omega⟩, Int.toNat_natCast]

theorem asUsize_nat {x : ℤ} {m : ℕ} (h : x = m) (h2 : m < 2 ^ 64) : asUsize x = m := by
  subst h
  unfold asUsize
  rw [Int.emod_eq_of_lt (by omega) (by omega), Int.toNat_natCast]

theorem asIsize_eq {m : ℕ} (h : m < 2 ^ 63) : Word.asIsize m = m := by
  unfold Word.asIsize
  rw [Int.bmod_def]
  split <;> omega

/-! ## Sums -/

theorem foldlM_eq {α : Type} (dbg : Bool) (f : α → Option ℤ) (g : α → ℤ) (l : List α)
    (hf : ∀ a ∈ l, f a = some (g a) ∧ -1 ≤ g a ∧ g a ≤ 1) (acc : ℤ) (h1 : -2 ^ 62 + l.length ≤ acc)
    (h2 : acc + l.length ≤ 2 ^ 62) :
    l.foldlM (fun acc a => (f a).bind fun x => Word.i64 dbg (acc + x)) acc = some (l.foldl (fun acc a => acc + g a) acc) ∧
      acc - l.length ≤ l.foldl (fun acc a => acc + g a) acc ∧ l.foldl (fun acc a => acc + g a) acc ≤ acc + l.length := by
  induction l generalizing acc with
  | nil => exact ⟨rfl, by simp, by simp⟩
  | cons a l ih =>
    obtain ⟨e, b1, b2⟩ := hf a List.mem_cons_self
    rw [List.length_cons] at h1 h2 ⊢
    push_cast at h1 h2 ⊢
    obtain ⟨i1, i2, i3⟩ := ih (fun x hx => hf x (List.mem_cons_of_mem _ hx)) (acc + g a) (by omega) (by omega)
    rw [List.foldlM_cons, e, List.foldl_cons]
    refine ⟨?_, by omega, by omega⟩
    show (Word.i64 dbg (acc + g a)).bind _ = _
    rw [i64_eq dbg (by omega) (by omega)]
    exact i1

theorem rowsum_eq (dbg : Bool) {n : ℕ} (hn : n < 2 ^ 58) {x : List ℤ} (hx : PMSeq n x) :
    Word.rowsum dbg x = some (rowsum x) ∧ -(n : ℤ) ≤ rowsum x ∧ rowsum x ≤ n := by
  have h := foldlM_eq dbg (fun a => some a) (fun a => a) x
    (fun a ha => ⟨rfl, by rcases hx.2 a ha with h | h <;> omega, by rcases hx.2 a ha with h | h <;> omega⟩) 0
    (by have := hx.1; omega) (by have := hx.1; omega)
  have hl := hx.1
  refine ⟨h.1, ?_, ?_⟩
  · have := h.2.1; unfold rowsum; omega
  · have := h.2.2; unfold rowsum; omega

theorem sumTo_eq (dbg : Bool) {n : ℕ} (hn : n < 2 ^ 58) (f : ℕ → Option ℤ) (g : ℕ → ℤ)
    (hf : ∀ i < n, f i = some (g i) ∧ -1 ≤ g i ∧ g i ≤ 1) :
    Word.sumTo dbg n f = some (sumTo n g) ∧ -(n : ℤ) ≤ sumTo n g ∧ sumTo n g ≤ n := by
  have h := foldlM_eq dbg f g (List.range n) (fun a ha => hf a (List.mem_range.1 ha)) 0
    (by rw [List.length_range]; omega) (by rw [List.length_range]; omega)
  rw [List.length_range] at h
  exact ⟨h.1, by have := h.2.1; unfold sumTo; omega, by have := h.2.2; unfold sumTo; omega⟩

theorem mul8_bd {x y : ℤ} (hx : x = 1 ∨ x = -1) (hy : y = 1 ∨ y = -1) : -1 ≤ mul8 x y ∧ mul8 x y ≤ 1 := by
  rcases hx with rfl | rfl <;> rcases hy with rfl | rfl <;> decide

theorem at0_pm {n : ℕ} {x : List ℤ} (hx : PMSeq n x) {i : ℕ} (hi : i < n) : at0 x i = 1 ∨ at0 x i = -1 := by
  unfold at0
  rw [List.getD_eq_getElem _ _ (by rw [hx.1]; exact hi)]
  exact hx.2 _ (List.getElem_mem _)

/-- The result of a computation with a bounded value. -/
def Ret (r : Option ℤ) (v : ℤ) (b : ℤ) : Prop := r = some v ∧ -b ≤ v ∧ v ≤ b

theorem paf_ret (dbg : Bool) {n : ℕ} (hn : n < 2 ^ 58) {x : List ℤ} (hx : PMSeq n x) {t : ℕ} (ht : t ≤ n) :
    Ret (Word.periodicAutocorrelation dbg x t) (periodicAutocorrelation x t) n := by
  unfold Word.periodicAutocorrelation periodicAutocorrelation Ret
  rw [hx.1]
  apply sumTo_eq dbg hn
  intro i hi
  refine ⟨?_, mul8_bd (at0_pm hx hi) (at0_pm hx (Nat.mod_lt _ (by omega)))⟩
  rw [u64_eq dbg (m := i + t) (by push_cast; rfl) (by omega)]
  rfl

theorem ccf_ret (dbg : Bool) {n : ℕ} (hn : n < 2 ^ 58) {x y : List ℤ} (hx : PMSeq n x) (hy : PMSeq n y) {t : ℕ} (ht : t ≤ n) :
    Ret (Word.crossCorrelation dbg x y t) (crossCorrelation x y t) n := by
  unfold Word.crossCorrelation crossCorrelation Ret
  rw [hx.1, if_pos hy.1.symm]
  apply sumTo_eq dbg hn
  intro i hi
  refine ⟨?_, mul8_bd (at0_pm hx hi) (at0_pm hy (Nat.mod_lt _ (by omega)))⟩
  rw [u64_eq dbg (m := i + n) (by push_cast; rfl) (by omega), Option.bind_some,
    u64_eq dbg (m := i + n - t) (by omega) (by omega)]
  rfl

theorem add_ret (dbg : Bool) {a b v : ℤ} (h : v = a + b) {c : ℤ} (h1 : -c ≤ v) (h2 : v ≤ c) (hc : c < 2 ^ 63) :
    Ret (Word.i64 dbg (a + b)) v c := by
  subst h
  exact ⟨i64_eq dbg (by omega) (by omega), h1, h2⟩

theorem bind_ret {α : Type} {r : Option ℤ} {v b : ℤ} (h : Ret r v b) (k : ℤ → Option α) : r.bind k = k v := by
  rw [h.1]; rfl

theorem map_ret {α : Type} {r : Option ℤ} {v b : ℤ} (h : Ret r v b) (k : ℤ → α) : r.map k = some (k v) := by
  rw [h.1]; rfl

theorem diff_ret (dbg : Bool) {n : ℕ} (hn : n < 2 ^ 58) {x y : List ℤ} (hx : PMSeq n x) (hy : PMSeq n y) {t : ℕ} (ht : t ≤ n) :
    Ret (Word.crossDiff dbg x y t) (crossCorrelation x y t - crossCorrelation y x t) (2 * n) := by
  have h1 := ccf_ret dbg hn hx hy ht
  have h2 := ccf_ret dbg hn hy hx ht
  unfold Word.crossDiff
  rw [bind_ret h1, bind_ret h2]
  obtain ⟨_, a, b⟩ := h1
  obtain ⟨_, c, d⟩ := h2
  exact ⟨i64_eq dbg (by omega) (by omega), by omega, by omega⟩

/-! ## Tests -/

theorem allM_eq {α : Type} (f : α → Option Bool) (g : α → Bool) (l : List α) (h : ∀ a ∈ l, f a = some (g a)) :
    Word.allM f l = some (l.all g) := by
  induction l with
  | nil => rfl
  | cons a l ih =>
    unfold Word.allM
    rw [h a List.mem_cons_self, Option.bind_some, ih fun x hx => h x (List.mem_cons_of_mem _ hx), List.all_cons]
    cases g a <;> rfl

theorem andM_eq {x y : Option Bool} {a b : Bool} (hx : x = some a) (hy : y = some b) : Word.andM x y = some (a && b) := by
  subst hx hy; cases a <;> rfl

theorem mapM_eq {α β : Type} (f : α → Option β) (g : α → β) (l : List α) (h : ∀ a ∈ l, f a = some (g a)) :
    l.mapM f = some (l.map g) := by
  induction l with
  | nil => rfl
  | cons a l ih =>
    rw [List.mapM_cons, h a List.mem_cons_self, ih fun x hx => h x (List.mem_cons_of_mem _ hx)]
    rfl

variable (dbg : Bool) {n : ℕ} (hn : n < 2 ^ 58)
include hn

theorem complementary_eq (h0 : 0 < n) {s : QuadSeq} (hs : PMQuad n s) :
    Word.isPeriodicComplementary dbg s = some s.isPeriodicComplementary := by
  obtain ⟨hsz, ha, hb, hc, hd⟩ := hs
  unfold Word.isPeriodicComplementary QuadSeq.isPeriodicComplementary
  rw [hsz, u64_eq dbg (m := n - 1) (by omega) (by omega), Option.bind_some]
  apply allM_eq
  intro t ht
  rw [List.mem_range'_1] at ht
  have ra := paf_ret dbg hn ha (t := t) (by omega)
  have rb := paf_ret dbg hn hb (t := t) (by omega)
  have rc := paf_ret dbg hn hc (t := t) (by omega)
  have rd := paf_ret dbg hn hd (t := t) (by omega)
  rw [bind_ret ra, bind_ret rb]
  have a1 := ra.2; have b1 := rb.2; have c1 := rc.2; have d1 := rd.2
  rw [i64_eq dbg (by omega) (by omega), Option.bind_some, bind_ret rc, i64_eq dbg (by omega) (by omega), Option.bind_some,
    bind_ret rd, i64_eq dbg (by omega) (by omega)]
  rfl

theorem crossEq_eq {x y : List ℤ} (hx : PMSeq n x) (hy : PMSeq n y) {t : ℕ} (ht : t ≤ n) :
    Word.crossEq dbg x y t = some (decide (crossCorrelation x y t = crossCorrelation y x t)) := by
  unfold Word.crossEq
  rw [bind_ret (ccf_ret dbg hn hx hy ht), map_ret (ccf_ret dbg hn hy hx ht)]

theorem diffEq_eq {x y z w : List ℤ} (hx : PMSeq n x) (hy : PMSeq n y) (hz : PMSeq n z) (hw : PMSeq n w) {t : ℕ} (ht : t ≤ n) :
    Word.diffEq dbg x y z w t = some (decide (crossCorrelation x y t - crossCorrelation y x t =
      crossCorrelation z w t - crossCorrelation w z t)) := by
  unfold Word.diffEq
  rw [bind_ret (diff_ret dbg hn hx hy ht), map_ret (diff_ret dbg hn hz hw ht)]

theorem amicable_eq {s : QuadSeq} (hs : PMQuad n s) : Word.isAmicable dbg s = some s.isAmicable := by
  obtain ⟨hsz, ha, hb, hc, hd⟩ := hs
  unfold Word.isAmicable QuadSeq.isAmicable
  rw [hsz]
  apply allM_eq
  intro t ht
  rw [List.mem_range'_1] at ht
  have ht' : t ≤ n := by omega
  rw [andM_eq (crossEq_eq dbg hn ha hb ht') (andM_eq (crossEq_eq dbg hn ha hc ht') (andM_eq (crossEq_eq dbg hn ha hd ht')
    (andM_eq (crossEq_eq dbg hn hb hc ht') (andM_eq (crossEq_eq dbg hn hb hd ht') (crossEq_eq dbg hn hc hd ht')))))]
  simp only [Bool.decide_and]

theorem cross_eq {s : QuadSeq} (hs : PMQuad n s) : Word.verifyCrossCorrelation dbg s = some s.verifyCrossCorrelation := by
  obtain ⟨hsz, ha, hb, hc, hd⟩ := hs
  unfold Word.verifyCrossCorrelation QuadSeq.verifyCrossCorrelation
  rw [hsz]
  apply allM_eq
  intro t ht
  rw [List.mem_range] at ht
  have ht' : t ≤ n := by omega
  rw [andM_eq (diffEq_eq dbg hn ha hb hd hc ht') (andM_eq (diffEq_eq dbg hn ha hc hb hd ht') (diffEq_eq dbg hn ha hd hc hb ht'))]
  simp only [Bool.decide_and]

theorem verify_eq (h0 : 0 < n) {s : QuadSeq} (hs : PMQuad n s) (ty : SeqType) : Word.verify dbg s ty = some (s.verify ty) := by
  have h := complementary_eq dbg hn h0 hs
  cases ty
  case quaternionType => exact andM_eq h (cross_eq dbg hn hs)
  case williamsonType => exact andM_eq h (amicable_eq dbg hn hs)
  case williamson => exact andM_eq h rfl
  all_goals rfl

/-! ## Keys -/

theorem auto_eq {x : List ℤ} (hx : PMSeq n x) : Word.computeAutoCorrelation dbg x = some (computeAutoCorrelation x) := by
  unfold Word.computeAutoCorrelation computeAutoCorrelation
  rw [hx.1]
  apply mapM_eq
  intro t ht
  rw [List.mem_range'_1] at ht
  exact (paf_ret dbg hn hx (by omega)).1

theorem autoPair_eq {x y : List ℤ} (hx : PMSeq n x) (hy : PMSeq n y) :
    Word.computeAutoCorrelationPair dbg x y = some (computeAutoCorrelationPair x y) := by
  unfold Word.computeAutoCorrelationPair computeAutoCorrelationPair
  rw [auto_eq dbg hn hx, Option.bind_some, auto_eq dbg hn hy, Option.bind_some,
    mapM_eq _ (fun p => p.1 + p.2)]
  · rw [List.zip, List.map_zipWith]
  · intro p hp
    have bd : ∀ z, PMSeq n z → ∀ v ∈ computeAutoCorrelation z, -(n : ℤ) ≤ v ∧ v ≤ n := by
      intro z hz v hv
      unfold computeAutoCorrelation at hv
      rw [List.mem_map] at hv
      obtain ⟨t, ht, rfl⟩ := hv
      rw [List.mem_range'_1, hz.1] at ht
      exact (paf_ret dbg hn hz (by omega)).2
    have b1 := bd x hx p.1 (List.of_mem_zip hp).1
    have b2 := bd y hy p.2 (List.of_mem_zip hp).2
    exact i64_eq dbg (by omega) (by omega)

theorem crossCorrelations_eq {x y : List ℤ} (hx : PMSeq n x) (hy : PMSeq n y) (tags : Tag × Tag) :
    Word.computeCrossCorrelations dbg x y tags = computeCrossCorrelations x y tags := by
  unfold Word.computeCrossCorrelations computeCrossCorrelations
  cases crossSign tags with
  | none => rfl
  | some pos =>
    rw [Option.bind_some, Option.map_some]
    apply mapM_eq
    intro t ht
    rw [List.mem_range'_1, hx.1] at ht
    split
    · exact (diff_ret dbg hn hx hy (by omega)).1
    · exact (diff_ret dbg hn hy hx (by omega)).1

theorem complAuto_eq {x y : List ℤ} (hx : PMSeq n x) (hy : PMSeq n y) :
    Word.computeComplementaryAutoCorrelations dbg x y = some (computeComplementaryAutoCorrelations x y) := by
  unfold Word.computeComplementaryAutoCorrelations computeComplementaryAutoCorrelations
  apply mapM_eq
  intro t ht
  rw [List.mem_range'_1, hx.1] at ht
  have ra := paf_ret dbg hn hx (t := t) (by omega)
  have rb := paf_ret dbg hn hy (t := t) (by omega)
  have a1 := ra.2; have b1 := rb.2
  rw [bind_ret ra, bind_ret rb, i64_eq dbg (by omega) (by omega), Option.bind_some, i64_eq dbg (by omega) (by omega)]

theorem complCross_eq {x y : List ℤ} (hx : PMSeq n x) (hy : PMSeq n y) (tags : Tag × Tag) :
    Word.computeComplementaryCrossCorrelations dbg x y tags = computeComplementaryCrossCorrelations x y tags := by
  unfold Word.computeComplementaryCrossCorrelations computeComplementaryCrossCorrelations
  cases crossSign tags with
  | none => rfl
  | some pos =>
    rw [Option.bind_some, Option.map_some]
    apply mapM_eq
    intro t ht
    rw [List.mem_range'_1, hx.1] at ht
    have r1 := diff_ret dbg hn hx hy (t := t) (by omega)
    have r2 := diff_ret dbg hn hy hx (t := t) (by omega)
    have a1 := r1.2; have b1 := r2.2
    split
    · rw [bind_ret r1, i64_eq dbg (by omega) (by omega)]
    · rw [bind_ret r2, i64_eq dbg (by omega) (by omega)]

theorem cond_ret {c : Four} (h1 : PMSeq n c.1) (h2 : PMSeq n c.2.1) (h3 : PMSeq n c.2.2.1) (h4 : PMSeq n c.2.2.2) {t : ℕ}
    (ht : t ≤ n) : Ret (Word.crossCond dbg c t) (crossCond c t) (4 * n) := by
  have r1 := diff_ret dbg hn h1 h2 ht
  have r2 := ccf_ret dbg hn h3 h4 ht
  have r3 := ccf_ret dbg hn h4 h3 ht
  have b1 := r1.2; have b2 := r2.2; have b3 := r3.2
  unfold Word.crossCond crossCond
  rw [bind_ret r1, bind_ret r2, i64_eq dbg (by omega) (by omega), Option.bind_some, bind_ret r3]
  exact ⟨i64_eq dbg (by omega) (by omega), by omega, by omega⟩

theorem tagged_eq {s : Four} (h1 : PMSeq n s.1) (h2 : PMSeq n s.2.1) (h3 : PMSeq n s.2.2.1) (h4 : PMSeq n s.2.2.2)
    (tags : Tag × Tag × Tag × Tag) :
    Word.verifyCrossCorrelationTagged dbg s tags = verifyCrossCorrelationTagged s tags := by
  have hf : ∀ ts t w, findTagged [s.1, s.2.1, s.2.2.1, s.2.2.2] ts t = some w → PMSeq n w := by
    intro ts t w h
    unfold findTagged at h
    rw [Option.map_eq_some_iff] at h
    obtain ⟨p, hp, rfl⟩ := h
    have := List.of_mem_zip (List.mem_of_mem_filter (List.mem_of_getLast? hp))
    have hm := this.2
    simp only [List.mem_cons, List.not_mem_nil, or_false] at hm
    rcases hm with h | h | h | h <;> rw [h] <;> assumption
  unfold Word.verifyCrossCorrelationTagged verifyCrossCorrelationTagged
  simp only
  cases hw : findTagged [s.1, s.2.1, s.2.2.1, s.2.2.2] [tags.1, tags.2.1, tags.2.2.1, tags.2.2.2] .W with
  | none => rfl
  | some w =>
  cases hx : findTagged [s.1, s.2.1, s.2.2.1, s.2.2.2] [tags.1, tags.2.1, tags.2.2.1, tags.2.2.2] .X with
  | none => rfl
  | some x =>
  cases hy : findTagged [s.1, s.2.1, s.2.2.1, s.2.2.2] [tags.1, tags.2.1, tags.2.2.1, tags.2.2.2] .Y with
  | none => rfl
  | some y =>
  cases hz : findTagged [s.1, s.2.1, s.2.2.1, s.2.2.2] [tags.1, tags.2.1, tags.2.2.1, tags.2.2.2] .Z with
  | none => rfl
  | some z =>
  have pw := hf _ _ _ hw
  have px := hf _ _ _ hx
  have py := hf _ _ _ hy
  have pz := hf _ _ _ hz
  simp only [Option.bind_some]
  have key : ∀ c d : Four, (PMSeq n c.1 ∧ PMSeq n c.2.1 ∧ PMSeq n c.2.2.1 ∧ PMSeq n c.2.2.2) →
      (PMSeq n d.1 ∧ PMSeq n d.2.1 ∧ PMSeq n d.2.2.1 ∧ PMSeq n d.2.2.2) →
      Word.allM (fun t => Word.andM ((Word.crossCond dbg c t).map fun r => decide (r = 0))
        ((Word.crossCond dbg d t).map fun r => decide (r = 0))) (List.range s.1.length) =
      some ((List.range s.1.length).all fun t => crossCond c t = 0 && crossCond d t = 0) := by
    intro c d hc hd
    apply allM_eq
    intro t ht
    rw [List.mem_range, h1.1] at ht
    exact andM_eq (map_ret (cond_ret dbg hn hc.1 hc.2.1 hc.2.2.1 hc.2.2.2 ht.le) _)
      (map_ret (cond_ret dbg hn hd.1 hd.2.1 hd.2.2.1 hd.2.2.2 ht.le) _)
  cases hr : remainingConds w x y z (tags.1, tags.2.1) with
  | none => rfl
  | some c =>
    have hc : (PMSeq n c.1.1 ∧ PMSeq n c.1.2.1 ∧ PMSeq n c.1.2.2.1 ∧ PMSeq n c.1.2.2.2) ∧
        (PMSeq n c.2.1 ∧ PMSeq n c.2.2.1 ∧ PMSeq n c.2.2.2.1 ∧ PMSeq n c.2.2.2.2) := by
      unfold remainingConds at hr
      split at hr <;> first | (cases hr; exact ⟨⟨by assumption, by assumption, by assumption, by assumption⟩, by assumption, by assumption, by assumption, by assumption⟩) | cases hr
    exact key c.1 c.2 hc.1 hc.2

end Proofs.Word

/-! ## Row sums -/

namespace Proofs.Word
open Model Spec Proofs

theorem sorted_eq (dbg : Bool) {n : ℕ} (hn : n < 2 ^ 58) {s : QuadSeq} (hs : PMQuad n s) :
    Word.hasSortedRowsums dbg s = some (hasSortedRowsums s) := by
  obtain ⟨_, ha, hb, hc, hd⟩ := hs
  obtain ⟨ea, _⟩ := rowsum_eq dbg hn ha
  obtain ⟨eb, _⟩ := rowsum_eq dbg hn hb
  obtain ⟨ec, _⟩ := rowsum_eq dbg hn hc
  obtain ⟨ed, d1, d2⟩ := rowsum_eq dbg hn hd
  unfold Word.hasSortedRowsums hasSortedRowsums rowsums
  rw [ea, eb, ec, ed]
  simp only [Option.bind_some]
  split
  · rfl
  · unfold Word.abs64
    split
    · rw [i64_eq dbg (by omega) (by omega), Option.map_some]
      congr 2
      rw [eq_iff_iff]
      constructor <;> intro h <;> omega
    · rw [Option.map_some]
      congr 2
      rw [eq_iff_iff]
      constructor <;> intro h <;> omega

theorem genSeqRec_word (dbg : Bool) (fuel : ℕ) (seq : List ℤ) (r pos : ℕ) (hl : seq.length < 2 ^ 62) (hf : seq.length < fuel + pos)
    (hp : pos ≤ seq.length) (hr : pos + r < 2 ^ 64) :
    Word.genSeqRec dbg fuel seq r pos = some (genSeqRec fuel seq r pos) ∧ (genSeqRec fuel seq r pos).2.length = seq.length := by
  induction fuel generalizing seq r pos with
  | zero => omega
  | succ fuel ih =>
    unfold Word.genSeqRec genSeqRec
    split
    · exact ⟨rfl, rfl⟩
    · next h0 =>
      rw [u64_eq dbg (m := pos + r) (by push_cast; rfl) hr, Option.bind_some]
      split
      · exact ⟨rfl, rfl⟩
      · next h1 =>
        rw [u64_eq dbg (m := pos + 1) (by push_cast; rfl) (by omega), Option.bind_some]
        obtain ⟨e1, l1⟩ := ih seq r (pos + 1) hl (by omega) (by omega) (by omega)
        rw [e1, Option.bind_some, if_pos (by omega), u64_eq dbg (m := r - 1) (by omega) (by omega), Option.bind_some]
        obtain ⟨e2, l2⟩ := ih ((genSeqRec fuel seq r (pos + 1)).2.set pos 1) (r - 1) (pos + 1)
          (by rw [List.length_set]; omega) (by rw [List.length_set]; omega) (by rw [List.length_set]; omega) (by omega)
        rw [e2]
        refine ⟨rfl, ?_⟩
        simp only
        rw [List.length_set, l2, List.length_set, l1]

theorem asUsize_lt (x : ℤ) : asUsize x < 2 ^ 64 := by
  unfold asUsize
  have := Int.emod_lt_of_pos x (show (0 : ℤ) < 2 ^ 64 by norm_num)
  omega

theorem gen_word (dbg : Bool) (size r : ℕ) (hs : size < 2 ^ 62) (hr : r < 2 ^ 64) :
    Word.genSeqRec dbg (size + 1) (List.replicate size (-1)) r 0 =
      some (genSeqRec (size + 1) (List.replicate size (-1)) r 0) :=
  (genSeqRec_word dbg _ _ _ _ (by rw [List.length_replicate]; exact hs) (by rw [List.length_replicate]; omega) (by omega)
    (by omega)).1

theorem gen_many (size r : ℕ) (h : size < r) : (genSeqRec (size + 1) (List.replicate size (-1)) r 0).1 = [] := by
  unfold genSeqRec
  rw [if_neg (by omega), if_pos (by rw [List.length_replicate]; omega)]

/-- With the length and the row sum within range of the words, and no overflow in a debug build. -/
theorem sequences_debug {size : ℕ} {rs : ℤ} (hs : size < 2 ^ 62) (h1 : -2 ^ 63 < rs) (h2 : (size : ℤ) + rs < 2 ^ 63) (dbg : Bool) :
    Word.generateSequencesWithRowsum dbg rs size = some (generateSequencesWithRowsum rs size) := by
  unfold Word.generateSequencesWithRowsum generateSequencesWithRowsum Word.abs64
  have e : (if rs < 0 then Word.i64 dbg (-rs) else some rs) = some (rs.natAbs : ℤ) := by
    split
    · rw [i64_eq dbg (by omega) (by omega)]; congr 1; omega
    · congr 1; omega
  rw [e, Option.bind_some]
  have e2 : asUsize (Int.tmod (rs.natAbs : ℤ) 2) = rs.natAbs % 2 :=
    asUsize_nat (by rw [Int.tmod_eq_emod_of_nonneg (by omega)]; push_cast; rfl) (by omega)
  rw [e2]
  split
  · rfl
  · rw [asIsize_eq (by omega), i64_eq dbg (by omega) h2, Option.bind_some, gen_word dbg _ _ hs (asUsize_lt _)]
    rfl

theorem sequences_release {size : ℕ} {rs : ℤ} (hs : size < 2 ^ 62) (h1 : -2 ^ 63 ≤ rs) (h2 : rs < 2 ^ 63) :
    Word.generateSequencesWithRowsum false rs size = some (generateSequencesWithRowsum rs size) := by
  by_cases c1 : rs = -2 ^ 63
  · subst c1
    unfold Word.generateSequencesWithRowsum generateSequencesWithRowsum
    have e : Word.abs64 false (-2 ^ 63) = some (-2 ^ 63) := by decide
    rw [e, Option.bind_some]
    have e2 : asUsize (Int.tmod (-2 ^ 63) 2) = (-2 ^ 63 : ℤ).natAbs % 2 := by decide
    rw [e2]
    split
    · rfl
    · rw [asIsize_eq (by omega), i64_eq false (by omega) (by omega), Option.bind_some, gen_word false _ _ hs (asUsize_lt _)]
      rfl
  · by_cases c2 : (size : ℤ) + rs < 2 ^ 63
    · exact sequences_debug hs (by omega) c2 false
    · unfold Word.generateSequencesWithRowsum generateSequencesWithRowsum Word.abs64
      rw [if_neg (by omega), Option.bind_some]
      have e2 : asUsize (Int.tmod rs 2) = rs.natAbs % 2 :=
        asUsize_nat (by rw [Int.tmod_eq_emod_of_nonneg (by omega)]; omega) (by omega)
      rw [e2]
      split
      · rfl
      · have hw : Word.i64 false (Word.asIsize size + rs) = some (size + rs - 2 ^ 64) := by
          rw [asIsize_eq (by omega)]
          unfold Word.i64
          rw [if_neg (by omega), if_neg (by decide), Int.bmod_def]
          congr 1
          have : ((size : ℤ) + rs) % ((2 ^ 64 : ℕ) : ℤ) = size + rs := Int.emod_eq_of_lt (by omega) (by omega)
          rw [this, if_neg (by omega)]
          rfl
        rw [hw, Option.bind_some, gen_word false _ _ hs (asUsize_lt _), Option.map_some]
        obtain ⟨k, hk⟩ : ∃ k : ℤ, (size : ℤ) + rs = 2 * k := ⟨(size + rs) / 2, by omega⟩
        have t1 : Int.tdiv ((size : ℤ) + rs - 2 ^ 64) 2 = k - 2 ^ 63 := by
          rw [show (size : ℤ) + rs - 2 ^ 64 = 2 * (k - 2 ^ 63) by omega, Int.mul_tdiv_cancel_left _ (by norm_num)]
        have t2 : Int.tdiv ((size : ℤ) + rs) 2 = k := by
          rw [hk, Int.mul_tdiv_cancel_left _ (by norm_num)]
        have a1 : size < asUsize (Int.tdiv (size + rs - 2 ^ 64) 2) := by
          rw [t1]; unfold asUsize; omega
        have a2 : size < asUsize (Int.tdiv (size + rs) 2) := by
          rw [t2]; unfold asUsize; omega
        rw [gen_many _ _ a1, gen_many _ _ a2]

theorem sequences_panic_abs (size : ℕ) : Word.generateSequencesWithRowsum true (-2 ^ 63) size = none := rfl

theorem sequences_panic_add {size : ℕ} {rs : ℤ} (hs : size < 2 ^ 62) (h2 : rs < 2 ^ 63) (h : 2 ^ 63 ≤ (size : ℤ) + rs)
    (hpar : rs % 2 = size % 2) : Word.generateSequencesWithRowsum true rs size = none := by
  unfold Word.generateSequencesWithRowsum Word.abs64
  rw [if_neg (by omega), Option.bind_some]
  have e2 : asUsize (Int.tmod rs 2) = rs.natAbs % 2 :=
    asUsize_nat (by rw [Int.tmod_eq_emod_of_nonneg (by omega)]; omega) (by omega)
  rw [e2, if_neg (by omega), asIsize_eq (by omega)]
  unfold Word.i64
  rw [if_neg (by omega)]
  rfl

/-! ## Four squares -/

theorem sq_bd {x : ℤ} (h0 : 0 ≤ x) (h1 : x ≤ 2 ^ 30 + 1) : 0 ≤ x * x ∧ x * x ≤ 2 ^ 60 + 2 ^ 31 + 1 := by
  constructor <;> nlinarith

/-- All entries between 0 and `b`. -/
def Box (b : ℤ) (s : Quad) : Prop :=
  (0 ≤ s.1 ∧ s.1 ≤ b) ∧ (0 ≤ s.2.1 ∧ s.2.1 ≤ b) ∧ (0 ≤ s.2.2.1 ∧ s.2.2.1 ≤ b) ∧ 0 ≤ s.2.2.2 ∧ s.2.2.2 ≤ b

theorem squareSum_word (dbg : Bool) {s : Quad} (h : Box (2 ^ 30 + 1) s) :
    ∃ t : ℕ, Word.squareSum dbg s = some t ∧ (t : ℤ) = squareSum s := by
  obtain ⟨⟨a0, a1⟩, ⟨b0, b1⟩, ⟨c0, c1⟩, d0, d1⟩ := h
  have ha := sq_bd a0 a1
  have hb := sq_bd b0 b1
  have hc := sq_bd c0 c1
  have hd := sq_bd d0 d1
  refine ⟨(squareSum s).toNat, ?_, by unfold squareSum; omega⟩
  unfold Word.squareSum
  rw [i64_eq dbg (by omega) (by omega), Option.bind_some, i64_eq dbg (by omega) (by omega), Option.bind_some,
    i64_eq dbg (by omega) (by omega), Option.bind_some, i64_eq dbg (by omega) (by omega), Option.bind_some,
    i64_eq dbg (by omega) (by omega), Option.bind_some, i64_eq dbg (by omega) (by omega), Option.bind_some,
    i64_eq dbg (by omega) (by omega), Option.map_some]
  congr 1
  exact asUsize_nat (by unfold squareSum; omega) (by unfold squareSum; omega)

theorem increment_word (dbg : Bool) {s : Quad} (h : Box (2 ^ 30) s) (p : ℕ) :
    Word.incrementSquares dbg s p = some (incrementSquares s p) := by
  obtain ⟨⟨a0, a1⟩, ⟨b0, b1⟩, ⟨c0, c1⟩, d0, d1⟩ := h
  unfold Word.incrementSquares incrementSquares
  simp only
  rw [i64_eq dbg (by omega) (by omega), Option.bind_some]
  obtain ⟨t3, e3, k3⟩ := squareSum_word dbg (s := (s.1, s.2.1, s.2.2.1, s.2.2.2 + 1))
    ⟨⟨a0, by simp only; omega⟩, ⟨b0, by simp only; omega⟩, ⟨c0, by simp only; omega⟩, by simp only; omega, by simp only; omega⟩
  rw [e3, Option.bind_some, ← k3]
  by_cases h3 : t3 ≤ p
  · rw [if_pos h3, if_pos (by omega)]
  rw [if_neg h3, if_neg (by omega), i64_eq dbg (by omega) (by omega), Option.bind_some]
  obtain ⟨t2, e2, k2⟩ := squareSum_word dbg (s := (s.1, s.2.1, s.2.2.1 + 1, s.2.2.1 + 1))
    ⟨⟨a0, by simp only; omega⟩, ⟨b0, by simp only; omega⟩, ⟨by simp only; omega, by simp only; omega⟩, by simp only; omega, by simp only; omega⟩
  rw [e2, Option.bind_some, ← k2]
  by_cases h2 : t2 ≤ p
  · rw [if_pos h2, if_pos (by omega)]
  rw [if_neg h2, if_neg (by omega), i64_eq dbg (by omega) (by omega), Option.bind_some]
  obtain ⟨t1, e1, k1⟩ := squareSum_word dbg (s := (s.1, s.2.1 + 1, s.2.1 + 1, s.2.1 + 1))
    ⟨⟨a0, by simp only; omega⟩, ⟨by simp only; omega, by simp only; omega⟩, ⟨by simp only; omega, by simp only; omega⟩, by simp only; omega, by simp only; omega⟩
  rw [e1, Option.bind_some, ← k1]
  by_cases h1 : t1 ≤ p
  · rw [if_pos h1, if_pos (by omega)]
  rw [if_neg h1, if_neg (by omega), i64_eq dbg (by omega) (by omega)]
  rfl

/-- The states of the loop: non-negative entries, and either a sum of squares within the bound or four equal entries. -/
def Reach (p : ℕ) (s : Quad) : Prop :=
  (0 ≤ s.1 ∧ 0 ≤ s.2.1 ∧ 0 ≤ s.2.2.1 ∧ 0 ≤ s.2.2.2) ∧ (squareSum s ≤ p ∨ s.2.1 = s.1 ∧ s.2.2.1 = s.1 ∧ s.2.2.2 = s.1)

theorem reach_increment {p : ℕ} {s : Quad} (h : Reach p s) : Reach p (incrementSquares s p) := by
  obtain ⟨⟨a, b, c, d⟩, _⟩ := h
  unfold incrementSquares
  simp only
  split
  · next h => exact ⟨⟨a, b, c, by simp only; omega⟩, .inl h⟩
  split
  · next h => exact ⟨⟨a, b, by simp only; omega, by simp only; omega⟩, .inl h⟩
  split
  · next h => exact ⟨⟨a, by simp only; omega, by simp only; omega, by simp only; omega⟩, .inl h⟩
  · exact ⟨⟨by simp only; omega, by simp only; omega, by simp only; omega, by simp only; omega⟩, .inr ⟨rfl, rfl, rfl⟩⟩

theorem le_of_sq {x : ℤ} (h : x * x < 2 ^ 60) : x ≤ 2 ^ 30 := by nlinarith

theorem reach_box {p : ℕ} (hp : p < 2 ^ 60) {s : Quad} (h : Reach p s) (h1 : s.1 * s.1 ≤ p) : Box (2 ^ 30) s := by
  obtain ⟨⟨a, b, c, d⟩, h⟩ := h
  have e1 := le_of_sq (x := s.1) (by omega)
  rcases h with h | ⟨h2, h3, h4⟩
  · unfold squareSum at h
    have s1 := mul_self_nonneg s.1
    have s2 := mul_self_nonneg s.2.1
    have s3 := mul_self_nonneg s.2.2.1
    have s4 := mul_self_nonneg s.2.2.2
    exact ⟨⟨a, e1⟩, ⟨b, le_of_sq (by omega)⟩, ⟨c, le_of_sq (by omega)⟩, d, le_of_sq (by omega)⟩
  · exact ⟨⟨a, e1⟩, ⟨b, by omega⟩, ⟨c, by omega⟩, d, by omega⟩

theorem loop_word (dbg : Bool) {p : ℕ} (hp : p < 2 ^ 60) (fuel : ℕ) (s : Quad) (acc : List Quad) (h : Reach p s)
    (hb : 0 ≤ s.1 ∧ s.1 ≤ 2 ^ 30 + 1) :
    Word.fourSquaresLoop dbg p fuel s acc = fourSquaresLoop p fuel s acc := by
  induction fuel generalizing s acc with
  | zero => rfl
  | succ fuel ih =>
    unfold Word.fourSquaresLoop fourSquaresLoop
    have hs := sq_bd hb.1 hb.2
    rw [i64_eq dbg (by omega) (by omega), Option.bind_some,
      asUsize_nat (m := (s.1 * s.1).toNat) (by omega) (by omega)]
    by_cases h1 : s.1 * s.1 ≤ p
    · rw [if_pos (by omega), if_pos h1]
      have hx := reach_box hp h h1
      obtain ⟨t, e, k⟩ := squareSum_word dbg (s := s)
        ⟨⟨hx.1.1, by have := hx.1.2; omega⟩, ⟨hx.2.1.1, by have := hx.2.1.2; omega⟩, ⟨hx.2.2.1.1, by have := hx.2.2.1.2; omega⟩,
          hx.2.2.2.1, by have := hx.2.2.2.2; omega⟩
      rw [e, Option.bind_some, increment_word dbg hx, Option.bind_some]
      have ht : (t = p) = (squareSum s = p) := by rw [← k, eq_iff_iff]; omega
      simp only [ht]
      apply ih _ _ (reach_increment h)
      have := (reach_increment h).1.1
      refine ⟨this, ?_⟩
      have h0 := hx.1.2
      unfold incrementSquares
      simp only
      split
      · simp only; omega
      split
      · simp only; omega
      split
      · simp only; omega
      · simp only; omega
    · rw [if_neg (by omega), if_neg h1]

theorem four_word (dbg : Bool) {p : ℕ} (hp : p < 2 ^ 60) : Word.sumOfFourSquares dbg p = sumOfFourSquares p :=
  loop_word dbg hp _ _ _ ⟨⟨le_rfl, le_rfl, le_rfl, le_rfl⟩, .inr ⟨rfl, rfl, rfl⟩⟩ (by decide)

theorem rowsums_word (dbg : Bool) {n : ℕ} (hn : n < 2 ^ 58) (ty : SeqType) :
    Word.generateRowsums dbg n ty = generateRowsums n ty := by
  obtain ⟨l, e, k1, k2⟩ := sumOfFourSquares_spec (4 * n)
  unfold Word.generateRowsums generateRowsums
  rw [u64_eq dbg (m := 4 * n) (by push_cast; rfl) (by omega), Option.bind_some, four_word dbg (by omega), e, Option.bind_some,
    mapM_eq _ (rowsumStep n ty)]
  · rfl
  · intro q hq
    obtain ⟨hs, hsum⟩ := (k2 q).1 hq
    have hd : q.2.2.2 ≤ 2 ^ 30 := by
      apply le_of_sq
      unfold squareSum at hsum
      have s1 := mul_self_nonneg q.1
      have s2 := mul_self_nonneg q.2.1
      have s3 := mul_self_nonneg q.2.2.1
      omega
    obtain ⟨g0, g1, g2, g3⟩ := hs
    unfold Word.rowsumStep rowsumStep
    simp only
    rw [asIsize_eq (by omega)]
    split
    · split
      · rw [i64_eq dbg (by omega) (by omega)]; rfl
      · rfl
    · rfl

end Proofs.Word
