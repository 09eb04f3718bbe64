import Verif.Proofs.LogRun
import Verif.Spec.Log

/-!
# Properties C89 and C90: the log and the table of the results
-/

set_option linter.unusedVariables false
set_option linter.unusedSectionVars false

namespace Props
open Model Spec Proofs Proofs.Store Proofs.Program Proofs.Driver Proofs.Command Proofs.Stages Proofs.Scripts Proofs.Log

variable {F κ : Type} [DecidableEq κ]

/-! ## Helpers -/

/-- A list with one member of every class has as many members as there are classes. -/
theorem count_reps {n : ℕ} [NeZero n] {ty : SeqType} {r : List QuadSeq} (hnd : r.Nodup) (hty : ∀ x ∈ r, OfType n ty x)
    (hrep : ∀ q, OfType n ty q → ∃ x ∈ r, TypeEquiv ty (fam n q) (fam n x) ∧ ∀ y ∈ r, TypeEquiv ty (fam n q) (fam n y) → y = x) :
    r.length = classCount n ty := by
  have hE := typeEquiv_equivalence n ty
  have hpm : ∀ {x}, OfType n ty x → PMQuad n x := fun h => (verify_of_ofType h).1
  have hmem : ∀ x y, PMQuad n y →
      ({z | PMQuad n z ∧ TypeEquiv ty (fam n x) (fam n z)} : Set QuadSeq) =
        {z | PMQuad n z ∧ TypeEquiv ty (fam n y) (fam n z)} → TypeEquiv ty (fam n x) (fam n y) := by
    intro x y hy e
    have : y ∈ ({z | PMQuad n z ∧ TypeEquiv ty (fam n y) (fam n z)} : Set QuadSeq) := ⟨hy, hE.refl _⟩
    rw [← e] at this
    exact this.2
  classical
  have hnd' : (r.map fun x => ({z | PMQuad n z ∧ TypeEquiv ty (fam n x) (fam n z)} : Set QuadSeq)).Nodup := by
    refine (List.nodup_map_iff_inj_on hnd).2 fun x hx y hy e => ?_
    obtain ⟨z, _, _, hz⟩ := hrep x (hty x hx)
    rw [hz x hx (hE.refl _), hz y hy (hmem x y (hpm (hty y hy)) e)]
  have e : {c : Set QuadSeq | ∃ q, OfType n ty q ∧ c = {x | PMQuad n x ∧ TypeEquiv ty (fam n q) (fam n x)}} =
      ((r.map fun x => ({z | PMQuad n z ∧ TypeEquiv ty (fam n x) (fam n z)} : Set QuadSeq)).toFinset :
        Set (Set QuadSeq)) := by
    ext c
    simp only [List.coe_toFinset, List.mem_map, Set.mem_ofPred_eq]
    constructor
    · rintro ⟨q, hq, rfl⟩
      obtain ⟨x, hx, e, _⟩ := hrep q hq
      refine ⟨x, hx, ?_⟩
      ext z
      exact and_congr_right fun _ => ⟨fun h => hE.trans e h, fun h => hE.trans (hE.symm e) h⟩
    · rintro ⟨x, hx, rfl⟩
      exact ⟨x, hty x hx, rfl⟩
  unfold classCount
  rw [e, Set.ncard_coe_finset, List.toFinset_card_of_nodup hnd', List.length_map]

/-- So has a list of the least members. -/
theorem count_least {n : ℕ} [NeZero n] (hn : n ≤ 31) {ty : SeqType} (hty : ty = .quaternionType ∨ ty = .williamsonType) {r : List QuadSeq}
    (hnd : r.Nodup) (hr : ∀ x, x ∈ r ↔ LeastInClass n ty x) : r.length = classCount n ty := by
  have hE := typeEquiv_equivalence n ty
  have hpm : ∀ {x}, OfType n ty x → PMQuad n x := fun h => (verify_of_ofType h).1
  refine count_reps hnd (fun x hx => ((hr x).1 hx).1) fun q hq => ?_
  obtain ⟨l, _, _, k3, k4, k5⟩ := C17_reduce n hn ty hty [q] (by simp) (fun s hs => by
    rw [List.mem_singleton] at hs; subst hs; exact hpm hq)
  obtain ⟨x, hx, e, _⟩ := k4 q (List.mem_singleton.2 rfl)
  have hx' : LeastInClass n ty x := ⟨typeEquiv_ofType hty hq (k3 x hx).1 e, k5 x hx⟩
  refine ⟨x, (hr x).2 hx', e, fun y hy e' => ?_⟩
  have hy' := (hr y).1 hy
  have exy := hE.trans (hE.symm e) e'
  exact flat_inj (pm_len (hpm hy'.1)) (pm_len (hpm hx'.1)) ((hpm hy'.1).size.trans (hpm hx'.1).size.symm)
      (le_antisymm (hy'.2 x (hpm hx'.1) (hE.symm exy)) (hx'.2 y (hpm hy'.1) exy))

/-- The matrices. -/
theorem matrices_row {s s' : Store} {T : Text} {n : ℕ} [NeZero n] {flags : List Flag} (h1 : .h ∈ flags → MatsStored s' T (natText n) (IsQTS n))
    (h2 : .h ∉ flags → readTop s' T (natText n) "result.mat".toList = readTop s T (natText n) "result.mat".toList) :
    matrixCount s' T (natText n) = if .h ∈ flags then (hadamardCount n : ℤ) else matrixCount s T (natText n) := by
  split
  · rename_i h
    exact matrixCount_stored (h1 h)
  · rename_i h
    unfold matrixCount
    rw [h2 h]

/-- The conditions of `log_core` for QT sequences. -/
theorem qts_join {K : Type} (A : Fl K) (val : K → ℝ) (n : ℕ) [NeZero n] (hn : n ≤ 31) (flags : List Flag) (hN : Numerics A val n (flagMatching flags))
    (hex : ∃ q, IsQTS n q) : ∃ w, writePairs A n .quaternionType (flagMatching flags) (strToRowsumPairing (flagPairing flags)) = some w ∧
      ∀ dirs, Listing w dirs → ∃ r r', findWriteQuadSeq n .quaternionType dirs = some (r, r') ∧
        (r' = none ∧ r.Nodup ∧ ∀ x, x ∈ r ↔ LeastInClass n .quaternionType x) := by
  obtain ⟨w, hw, _, hj⟩ := C32_enumeration A val n hn hN .quaternionType (.inl rfl) (strToRowsumPairing (flagPairing flags))
  refine ⟨w, hw, fun dirs hd => ?_⟩
  obtain ⟨r, h1, h2, h3, _⟩ := hj dirs hd hex
  exact ⟨r, none, by unfold findWriteQuadSeq; rw [h1]; rfl, rfl, h2, h3⟩

theorem qts_pm {n : ℕ} [NeZero n] (r : List QuadSeq) (r' : Option (List QuadSeq))
    (h : r' = none ∧ r.Nodup ∧ ∀ x, x ∈ r ↔ LeastInClass n .quaternionType x) :
    (∀ q ∈ r, PMQuad n q ∧ (SeqType.quaternionType = .quaternionType → q.verifyQts = true)) ∧ ∀ l, r' = some l → ∀ q ∈ l, PMQuad n q := by
  obtain ⟨rfl, _, hmem⟩ := h
  exact ⟨fun x hx => ⟨((hmem x).1 hx).1.1, fun _ => (verify_of_ofType ((hmem x).1 hx).1).2.1⟩, fun l hl => by cases hl⟩

/-- For Williamson-type sequences. -/
theorem wts_join {K : Type} (A : Fl K) (val : K → ℝ) (n : ℕ) [NeZero n] (hn : n ≤ 31) (flags : List Flag) (hN : Numerics A val n (flagMatching flags))
    (hex : ∃ q, IsWTS n q) : ∃ w, writePairs A n .williamsonType (flagMatching flags) (strToRowsumPairing (flagPairing flags)) = some w ∧
      ∀ dirs, Listing w dirs → ∃ r r', findWriteQuadSeq n .williamsonType dirs = some (r, r') ∧
        ∃ l, r' = some l ∧ r.Nodup ∧ (∀ x, x ∈ r ↔ LeastInClass n .williamsonType x) ∧ l.Nodup ∧ (∀ x ∈ l, IsWTS n x) ∧
          ∀ q, IsWTS n q → ∃ x ∈ l, QTEquiv (fam n q) (fam n x) ∧ ∀ y ∈ l, QTEquiv (fam n q) (fam n y) → y = x := by
  obtain ⟨w, hw, _, hj⟩ := C32_enumeration A val n hn hN .williamsonType (.inr rfl) (strToRowsumPairing (flagPairing flags))
  obtain ⟨w1, hw1, hj1⟩ := C32_up_to_qt A val n hn hN (strToRowsumPairing (flagPairing flags)) hex
  rw [hw] at hw1
  cases hw1
  refine ⟨w, hw, fun dirs hd => ?_⟩
  obtain ⟨r, a1, a2, a3, _⟩ := hj dirs hd hex
  obtain ⟨r1, l, b1, b2, b3, b4, b5⟩ := hj1 dirs hd
  rw [a1] at b3
  cases b3
  exact ⟨r, some l, b1, l, rfl, a2, a3, b2, b4, b5⟩

theorem wts_pm {n : ℕ} [NeZero n] (r : List QuadSeq) (r' : Option (List QuadSeq))
    (h : ∃ l, r' = some l ∧ r.Nodup ∧ (∀ x, x ∈ r ↔ LeastInClass n .williamsonType x) ∧ l.Nodup ∧ (∀ x ∈ l, IsWTS n x) ∧
          ∀ q, IsWTS n q → ∃ x ∈ l, QTEquiv (fam n q) (fam n x) ∧ ∀ y ∈ l, QTEquiv (fam n q) (fam n y) → y = x) :
    (∀ q ∈ r, PMQuad n q ∧ (SeqType.williamsonType = .quaternionType → q.verifyQts = true)) ∧ ∀ l, r' = some l → ∀ q ∈ l, PMQuad n q := by
  obtain ⟨l, rfl, _, hmem, _, hl, _⟩ := h
  exact ⟨fun x hx => ⟨((hmem x).1 hx).1.1, fun h => by cases h⟩, fun l' hl' => by
    cases hl'
    exact fun x hx => (hl x hx).1⟩

/-- For Williamson sequences. -/
theorem ws_join {K : Type} (A : Fl K) (val : K → ℝ) (n : ℕ) [NeZero n] (hn : n ≤ 31) (flags : List Flag) (hN : Numerics A val n (flagMatching flags))
    (hex : ∃ q, IsWS n q) : ∃ w, writePairs A n .williamson (flagMatching flags) (strToRowsumPairing (flagPairing flags)) = some w ∧
      ∀ dirs, Listing w dirs → ∃ r r', findWriteQuadSeq n .williamson dirs = some (r, r') ∧
        (r' = none ∧ r.Nodup ∧ ∀ x, x ∈ r ↔ LeastInClass n .williamsonType x ∧ ∃ s, IsWS n s ∧ WTEquiv (fam n s) (fam n x)) := by
  obtain ⟨w, hw, hj⟩ := C32_williamson_partial A val n hn hN (strToRowsumPairing (flagPairing flags)) hex
  refine ⟨w, hw, fun dirs hd => ?_⟩
  obtain ⟨r, h1, h2, h3⟩ := hj dirs hd
  exact ⟨r, none, by unfold findWriteQuadSeq; rw [h1]; rfl, rfl, h2, h3⟩

theorem ws_pm {n : ℕ} [NeZero n] (r : List QuadSeq) (r' : Option (List QuadSeq))
    (h : r' = none ∧ r.Nodup ∧ ∀ x, x ∈ r ↔ LeastInClass n .williamsonType x ∧ ∃ s, IsWS n s ∧ WTEquiv (fam n s) (fam n x)) :
    (∀ q ∈ r, PMQuad n q ∧ (SeqType.williamson = .quaternionType → q.verifyQts = true)) ∧ ∀ l, r' = some l → ∀ q ∈ l, PMQuad n q := by
  obtain ⟨rfl, _, hmem⟩ := h
  exact ⟨fun x hx => ⟨((hmem x).1 hx).1.1.1, fun h => by cases h⟩, fun l hl => by cases hl⟩

/-! ## C89: the row of a complete run -/

/-- C89. The row of the table after the driver on QT sequences. -/
theorem C89_qts (env : Env F κ) (hf : Env.Fair env) (hc : ExactLabelling env.canon) (val : F → ℝ) (n : ℕ) [NeZero n]
    (hn : n ≤ 31) (flags : List Flag) (hN : Numerics env.A val n (flagMatching flags)) (hex : ∃ q, IsQTS n q) (s : Store)
    (hr : Ready s "qts".toList (natText n) flags) (tm : Terminal) (old : Option Text) :
    ∃ s', driverSh env "qts".toList (natText n) flags s = (s', 0) ∧
      collectRow (driverLog env tm "qts".toList (natText n) flags s old) s' "qts".toList (natText n) =
        { q := classCount n .quaternionType
          w := -1
          m := if .h ∈ flags then (hadamardCount n : ℤ) else matrixCount s "qts".toList (natText n)
          time := (tm.totalTime : ℚ) / 100 + tm.sortTime / 100 + tm.matchTime / 100
          qtTime := (tm.reduceTime : ℚ) / 100
          hmTime := if .h ∈ flags then (tm.hmTime : ℚ) / 100 else -1
          pairs := countPairsSh s' "qts".toList (natText n) } := by
  obtain ⟨w, hw, hj⟩ := qts_join env.A val n hn flags hN hex
  obtain ⟨s', r, r', text, h1, ⟨rfl, hnd, hmem⟩, h3, h4, _⟩ := log_core env hf (n := n) (by omega) (.inl rfl) flags s hr rfl hw hj
    qts_pm tm old
  obtain ⟨s2, _, k1, _, _, _, _, _, k7, _⟩ := C79_qts env hf hc val n hn flags hN hex s hr
  obtain ⟨s3, _, _, _, _, j1, _, _, _, _, _, _, _, _, _, j11, _⟩ := driver_core env hf (n := n) (by omega) .quaternionType flags s hr rfl hw hj qts_pm
  have e2 : s2 = s' := congrArg Prod.fst (k1.symm.trans h1)
  have e3 : s3 = s' := congrArg Prod.fst (j1.symm.trans h1)
  subst e2 e3
  refine ⟨_, h1, ?_⟩
  rw [show driverLog env tm "qts".toList (natText n) flags s old = some text from h3, row_shows h4,
    matrices_row k7 fun hh => j11 "result.mat".toList (by decide) (by decide) fun _ => hh, ← count_least hn (.inl rfl) hnd hmem]
  unfold driverFound joinFound reducedFound secs
  by_cases hh : .h ∈ flags <;> simp [hh, Found.append_def, Found.add, Found.nil, add_assoc] <;> rfl

/-- C89. The row after the driver on Williamson-type sequences. (The column "QT Equ Time" has the time of the reduction up
to Williamson-type equivalence.) -/
theorem C89_wts (env : Env F κ) (hf : Env.Fair env) (hc : ExactLabelling env.canon) (val : F → ℝ) (n : ℕ) [NeZero n]
    (hn : n ≤ 31) (flags : List Flag) (hN : Numerics env.A val n (flagMatching flags)) (hex : ∃ q, IsWTS n q) (s : Store)
    (hr : Ready s "wts".toList (natText n) flags) (tm : Terminal) (old : Option Text) :
    ∃ s', driverSh env "wts".toList (natText n) flags s = (s', 0) ∧
      collectRow (driverLog env tm "wts".toList (natText n) flags s old) s' "wts".toList (natText n) =
        { q := classCount n .quaternionType
          w := classCount n .williamsonType
          m := if .h ∈ flags then (hadamardCount n : ℤ) else matrixCount s "wts".toList (natText n)
          time := (tm.totalTime : ℚ) / 100 + tm.sortTime / 100 + tm.matchTime / 100
          qtTime := (tm.reduceTime : ℚ) / 100
          hmTime := if .h ∈ flags then (tm.hmTime : ℚ) / 100 else -1
          pairs := countPairsSh s' "wts".toList (natText n) } := by
  obtain ⟨w, hw, hj⟩ := wts_join env.A val n hn flags hN hex
  obtain ⟨s', r, r', text, h1, ⟨l, rfl, hnd, hmem, hnd', hty', hrep⟩, h3, h4, _⟩ := log_core env hf (n := n) (by omega) (.inr (.inl rfl)) flags s hr rfl hw hj
    wts_pm tm old
  obtain ⟨s2, _, _, k1, _, _, _, _, _, _, _, _, _, _, k7, _⟩ := C79_wts env hf hc val n hn flags hN hex s hr
  obtain ⟨s3, _, _, _, _, j1, _, _, _, _, _, _, _, _, _, j11, _⟩ := driver_core env hf (n := n) (by omega) .williamsonType flags s hr rfl hw hj wts_pm
  have e2 : s2 = s' := congrArg Prod.fst (k1.symm.trans h1)
  have e3 : s3 = s' := congrArg Prod.fst (j1.symm.trans h1)
  subst e2 e3
  have hQ : (IsWTS n : QuadSeq → Prop) = IsQTS n := funext fun q => propext (C04_isQTS_iff_isWTS n q).symm
  rw [hQ] at k7
  have hl : l.length = classCount n .quaternionType := count_reps (ty := .quaternionType) hnd'
    (fun x hx => (C04_isQTS_iff_isWTS n x).2 (hty' x hx)) fun q hq => hrep q ((C04_isQTS_iff_isWTS n q).1 hq)
  refine ⟨_, h1, ?_⟩
  rw [show driverLog env tm "wts".toList (natText n) flags s old = some text from h3, row_shows h4,
    matrices_row k7 fun hh => j11 "result.mat".toList (by decide) (by decide) fun _ => hh, ← count_least hn (.inr rfl) hnd hmem, ← hl]
  unfold driverFound joinFound reducedFound secs
  by_cases hh : .h ∈ flags <;> simp [hh, Found.append_def, Found.add, Found.nil, add_assoc] <;> rfl

/-- C89. Runs for QT sequences and for Williamson-type sequences of the same length give the same numbers of QT classes and of
Hadamard classes, whatever the flags, the arithmetic, the listing orders and the labellings. -/
theorem C89_agree {F' κ' : Type} [DecidableEq κ'] (env : Env F κ) (env' : Env F' κ') (hf : Env.Fair env) (hf' : Env.Fair env')
    (hc : ExactLabelling env.canon) (hc' : ExactLabelling env'.canon) (val : F → ℝ) (val' : F' → ℝ) (n : ℕ) [NeZero n]
    (hn : n ≤ 31) (flags flags' : List Flag) (hN : Numerics env.A val n (flagMatching flags))
    (hN' : Numerics env'.A val' n (flagMatching flags')) (hex : ∃ q, IsQTS n q) (s s' : Store)
    (hr : Ready s "qts".toList (natText n) flags) (hr' : Ready s' "wts".toList (natText n) flags')
    (tm tm' : Terminal) (old old' : Option Text) (hh : .h ∈ flags) (hh' : .h ∈ flags') :
    (collectRow (driverLog env tm "qts".toList (natText n) flags s old) (driverSh env "qts".toList (natText n) flags s).1 "qts".toList (natText n)).q =
      (collectRow (driverLog env' tm' "wts".toList (natText n) flags' s' old') (driverSh env' "wts".toList (natText n) flags' s').1 "wts".toList (natText n)).q ∧
    (collectRow (driverLog env tm "qts".toList (natText n) flags s old) (driverSh env "qts".toList (natText n) flags s).1 "qts".toList (natText n)).m =
      (collectRow (driverLog env' tm' "wts".toList (natText n) flags' s' old') (driverSh env' "wts".toList (natText n) flags' s').1 "wts".toList (natText n)).m := by
  obtain ⟨t, e, k⟩ := C89_qts env hf hc val n hn flags hN hex s hr tm old
  obtain ⟨t', e', k'⟩ := C89_wts env' hf' hc' val' n hn flags' hN' (hex.imp fun q hq => (C04_isQTS_iff_isWTS n q).1 hq) s' hr' tm' old'
  rw [e, e', k, k', if_pos hh, if_pos hh']
  exact ⟨rfl, rfl⟩

-- The hypotheses are met: length 5, exact arithmetic, an exact labelling; a flag `-h`, an old log.
example : ∃ (κ : Type) (_ : DecidableEq κ) (env : Env ℝ κ) (s : Store), Numerics env.A id 5 (flagMatching [.d, .h]) ∧ Env.Fair env ∧
    ExactLabelling env.canon ∧ (∃ q, IsQTS 5 q) ∧ (∃ q, IsWTS 5 q) ∧ Ready s "qts".toList (natText 5) [.d, .h] ∧
    Ready s "wts".toList (natText 5) [.d, .h] := by
  obtain ⟨κ, canon, hc⟩ := exact_exists
  exact ⟨κ, Classical.decEq κ, ⟨exactFl, canon, id, id, id, id, false⟩, fun a b => none, C28_numerics 5 _,
    ⟨fun _ => .refl _, fun _ => .refl _, fun _ => .refl _, fun _ => .refl _⟩, hc, ⟨exQTS5, exQTS5_isQTS⟩,
    ⟨exQTS5, (C04_isQTS_iff_isWTS 5 _).1 exQTS5_isQTS⟩, ⟨by decide, by unfold IsWord; decide⟩, by decide, by unfold IsWord; decide⟩

-- The patterns on a log: the first count, all times with two decimals after a colon.
example : collectRow (some ("Generated 12 total pairs\nTotal time: 0.25 seconds\nFound 3 qts after reducing to equivalence\n" ++
    "Matching took: 1.50 seconds\nFound 4 qts after reducing to equivalence").toList) (fun _ _ => none) "qts".toList "5".toList =
    { q := 3, w := -1, m := -1, time := 7 / 4, qtTime := -1, hmTime := -1, pairs := 12 } := by decide +kernel

/-! ## C90: what the table leaves out -/

/-- What the three types have in common. -/
theorem logs_any {K : Type} {A : Fl K} {val : K → ℝ} {n : ℕ} [NeZero n] (hn : n ≤ 31) {ty : SeqType} (hty : Supported ty) {flags : List Flag}
    (hN : Numerics A val n (flagMatching flags)) (hex : ∃ q, OfType n ty q) :
    ∃ (w : List (Text × Dir)) (P : List QuadSeq → Option (List QuadSeq) → Prop),
      writePairs A n ty (flagMatching flags) (strToRowsumPairing (flagPairing flags)) = some w ∧
      (∀ dirs, Listing w dirs → ∃ r r', findWriteQuadSeq n ty dirs = some (r, r') ∧ P r r') ∧
      ∀ r r', P r r' → (∀ q ∈ r, PMQuad n q ∧ (ty = .quaternionType → q.verifyQts = true)) ∧ ∀ l, r' = some l → ∀ q ∈ l, PMQuad n q := by
  rcases hty with rfl | rfl | rfl
  · obtain ⟨w, h1, h2⟩ := qts_join A val n hn flags hN hex
    exact ⟨w, _, h1, h2, qts_pm⟩
  · obtain ⟨w, h1, h2⟩ := wts_join A val n hn flags hN hex
    exact ⟨w, _, h1, h2, wts_pm⟩
  · obtain ⟨w, h1, h2⟩ := ws_join A val n hn flags hN hex
    exact ⟨w, _, h1, h2, ws_pm⟩

/-- C90. The scripts of the single stages, run one after the other, give the same row as the driver. -/
theorem C90_scripts (env : Env F κ) (hf : Env.Fair env) (val : F → ℝ) (n : ℕ) [NeZero n] (hn : n ≤ 31) (ty : SeqType)
    (hty : Supported ty) (flags : List Flag) (hN : Numerics env.A val n (flagMatching flags)) (hex : ∃ q, OfType n ty q) (s : Store)
    (hr : Ready s ty.toText (natText n) flags) (tm : Terminal) (old : Option Text) (st : Store) :
    collectRow (scriptsLog env tm ty.toText (natText n) flags s old) st ty.toText (natText n) =
      collectRow (driverLog env tm ty.toText (natText n) flags s old) st ty.toText (natText n) := by
  obtain ⟨w, P, hw, hj, hpm⟩ := logs_any hn hty hN hex
  obtain ⟨s', r, r', text, h1, _, h3, h4, ⟨text', h5, h6⟩, _⟩ := log_core env hf (n := n) (by omega) hty flags s hr rfl hw hj hpm tm old
  rw [h3, h5, row_shows h4, row_shows h6]

/-- C90. When the join stage is repeated, the log keeps its first counts, and the time of the matching is added once more:
the column "Time" grows with every repetition. -/
theorem C90_rerun (env : Env F κ) (hf : Env.Fair env) (val : F → ℝ) (n : ℕ) [NeZero n] (hn : n ≤ 31) (ty : SeqType)
    (hty : Supported ty) (flags : List Flag) (hN : Numerics env.A val n (flagMatching flags)) (hex : ∃ q, OfType n ty q) (s : Store)
    (hr : Ready s ty.toText (natText n) flags) (tm tm' : Terminal) (old : Option Text) (st : Store) :
    let s' := (driverSh env ty.toText (natText n) flags s).1
    let log := driverLog env tm ty.toText (natText n) flags s old
    collectRow (joinPairsShLog env tm' ty.toText (natText n) s' log) st ty.toText (natText n) =
      { collectRow log st ty.toText (natText n) with
        time := (collectRow log st ty.toText (natText n)).time + (tm'.matchTime : ℚ) / 100 } := by
  obtain ⟨w, P, hw, hj, hpm⟩ := logs_any hn hty hN hex
  obtain ⟨s', r, r', text, h1, _, h3, h4, _, h6⟩ := log_core env hf (n := n) (by omega) hty flags s hr rfl hw hj hpm tm old
  obtain ⟨text', h7, h8⟩ := h6 tm' text _ h4
  dsimp only
  rw [h1, h3, h7, row_shows h8, row_shows h4]
  unfold driverFound joinFound reducedFound secs
  rcases hty with rfl | rfl | rfl <;> cases r' <;> by_cases hh : .h ∈ flags <;>
    simp [hh, Found.append_def, Found.add, Found.nil, add_assoc]

/-- C90. For Williamson sequences: though `result.seq` lists a sequence, the table has -1 in the columns of the classes. -/
theorem C90_williamson (env : Env F κ) (hf : Env.Fair env) (val : F → ℝ) (n : ℕ) [NeZero n] (hn : n ≤ 31)
    (flags : List Flag) (hN : Numerics env.A val n (flagMatching flags)) (hex : ∃ q, IsWS n q) (s : Store)
    (hr : Ready s "ws".toList (natText n) flags) (tm : Terminal) (old : Option Text) :
    ∃ s' r, driverSh env "ws".toList (natText n) flags s = (s', 0) ∧ r ≠ [] ∧
      SeqsStored s' "ws".toList (natText n) "result.seq".toList r ∧
      (collectRow (driverLog env tm "ws".toList (natText n) flags s old) s' "ws".toList (natText n)).q = -1 ∧
      (collectRow (driverLog env tm "ws".toList (natText n) flags s old) s' "ws".toList (natText n)).w = -1 := by
  obtain ⟨w, hw, hj⟩ := ws_join env.A val n hn flags hN hex
  obtain ⟨s', r, r', text, h1, ⟨rfl, hnd, hmem⟩, h3, h4, _⟩ := log_core env hf (n := n) (by omega) (.inr (.inr rfl)) flags s hr rfl hw hj
    ws_pm tm old
  obtain ⟨s3, r, r', t, q, j1, ⟨rfl, hnd, hmem⟩, j3, j4, j5, _⟩ := driver_core env hf (n := n) (by omega) .williamson flags s hr rfl hw hj ws_pm
  have e3 : s3 = s' := congrArg Prod.fst (j1.symm.trans h1)
  subst e3
  refine ⟨_, r, h1, ?_, seqs_stored (fun x hx => ((hmem x).1 hx).1.1.1) j3 j5, ?_⟩
  · obtain ⟨q, hq⟩ := hex
    obtain ⟨l, _, _, k3, k4, k5⟩ := C17_reduce n hn .williamsonType (.inr rfl) [q] (by simp) (fun s hs => by
      rw [List.mem_singleton] at hs; subst hs; exact hq.1)
    obtain ⟨x, hx, e, _⟩ := k4 q (List.mem_singleton.2 rfl)
    have hw : OfType n .williamsonType q := (verify_of_ofType (ty := .williamson) hq).2.2
    exact List.ne_nil_of_mem ((hmem x).2 ⟨⟨typeEquiv_ofType (.inr rfl) hw (k3 x hx).1 e, k5 x hx⟩, q, hq, e⟩)
  · rw [show driverLog env tm "ws".toList (natText n) flags s old = some text from h3, row_shows h4]
    unfold driverFound joinFound reducedFound secs
    by_cases hh : .h ∈ flags <;> simp [hh, Found.append_def, Found.add, Found.nil]

-- The hypotheses are met.
example : ∃ q, OfType 3 .williamson q := ⟨exWS3, exWS3_isWS⟩

/-- C90. In the totals, every length without a log lowers each total by one. -/
theorem C90_totals (rows : List (Option Text × Store)) (ty : Text) (n : Option Text × Store → Text) :
    let row := fun x => collectRow x.1 x.2 ty (n x)
    let present := rows.filter fun x => x.1.isSome
    let missing : ℤ := (rows.filter fun x => !x.1.isSome).length
    collectTotals (rows.map row) =
      ((collectTotals (present.map row)).1 - missing, (collectTotals (present.map row)).2.1 - missing,
        (collectTotals (present.map row)).2.2 - missing) := by
  dsimp only
  unfold collectTotals
  induction rows with
  | nil => rfl
  | cons x rows ih =>
    simp only [Prod.mk.injEq] at ih ⊢
    obtain ⟨h1, h2, h3⟩ := ih
    rcases x with ⟨_ | log, st⟩
    · simp only [List.map_cons, List.sum_cons, List.filter_cons, Option.isSome_none, Bool.false_eq_true, if_false, Bool.not_false, if_true,
        List.length_cons, h1, h2, h3]
      refine ⟨?_, ?_, ?_⟩ <;> (show (-1 : ℤ) + _ = _) <;> push_cast <;> ring
    · simp only [List.map_cons, List.sum_cons, List.filter_cons, Option.isSome_some, if_true, Bool.not_true, Bool.false_eq_true, if_false, h1, h2, h3]
      refine ⟨?_, ?_, ?_⟩ <;> ring

-- One length with a log that reports two classes, one length without a log: the printed total is 1.
example : collectTotals [collectRow (some "Found 2 qts after reducing to equivalence".toList) (fun _ _ => none) "qts".toList "5".toList,
    collectRow none (fun _ _ => none) "qts".toList "6".toList] = (-2, 1, -2) := by decide +kernel

end Props
