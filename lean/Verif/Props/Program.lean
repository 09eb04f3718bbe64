import Verif.Proofs.Command
import Verif.Props.Graph

/-!
# Properties C77, C78: the command line and the pair stage in many processes
-/

set_option linter.unusedVariables false

namespace Props
open Model Spec Proofs Proofs.Store Proofs.Program Proofs.Driver Proofs.Command

variable {F κ : Type} [DecidableEq κ]

/-! ## C77: the command line -/

/-- C77. A well-formed command changes nothing outside the directory of its type and length. -/
theorem C77_frame (env : Env F κ) (s : Store) (args : List Text) (ty : SeqType) (n : ℕ) (h : Concerns args ty n)
    (a b : Text) (hab : (a, b) ≠ (ty.toText, natText n)) : (runProgram env s args).1 a b = s a b :=
  applyOps_other (fun o ho e => hab ((main_into env s h).all o ho ▸ e.symm)) s

/-- C77. With ill-formed arguments nothing is written; the program panics if the command is known, and otherwise ends
normally. -/
theorem C77_ill_formed (env : Env F κ) (s : Store) (args : List Text) (h : ¬ ∃ ty n, Concerns args ty n) :
    (runProgram env s args).1 = s ∧ ((runProgram env s args).2 = false ↔ ∃ c ∈ args.head?, c ∈ commands) := by
  unfold runProgram
  rw [main_ill env s args h]
  refine ⟨rfl, ?_⟩
  by_cases hc : ∃ c ∈ args.head?, c ∈ commands
  · rw [if_pos hc]; exact ⟨fun _ => hc, fun _ => rfl⟩
  · rw [if_neg hc]; exact ⟨fun h => by simp at h, fun h => absurd h hc⟩

-- Concrete command lines: a wrong type, a missing argument, an unknown command, an overflowing length.
example (env : Env F κ) (s : Store) : runProgram env s ["join".toList, "pqs".toList, "5".toList] = (s, false) := rfl
example (env : Env F κ) (s : Store) : runProgram env s ["pairs".toList, "qts".toList, "5".toList] = (s, false) := rfl
example (env : Env F κ) (s : Store) : runProgram env s ["sort".toList, "qts".toList, "5".toList] = (s, true) := rfl
example : Concerns ["pairs".toList, "qts".toList, "+05".toList, "psd".toList, "anything".toList] .quaternionType 5 :=
  .pairs rfl (by decide) (.inr rfl)
example : ¬ ∃ ty n, Concerns ["join".toList, "qts".toList, "18446744073709551616".toList] ty n := by
  rintro ⟨_, _, h⟩
  cases h with
  | join _ h2 =>
    have : parseUsize "18446744073709551616".toList = none := by decide +kernel
    rw [this] at h2
    cases h2

/-- C77. Without a folder for the type and the length the commands that read it write nothing. All of them panic, except
`convert qhm`, which ends normally. -/
theorem C77_no_folder (env : Env F κ) (s : Store) (cmd : Text) (args : List Text) (ty : SeqType) (n : ℕ)
    (h : Concerns (cmd :: args) ty n) (hs : s ty.toText (natText n) = none)
    (hc : cmd ∈ ["qhm-all".toList, "amicable".toList, "rowsums".toList, "join".toList, "convert".toList]) :
    runProgram env s (cmd :: args) = (s, decide (cmd = "convert".toList ∧ args.head? = some "qhm".toList)) := by
  have hr : ∀ name, readTop s ty.toText (natText n) name = none := fun name => by unfold readTop; rw [hs]; rfl
  have key : ∀ r : Run Unit, r = ⟨[], none⟩ → (applyOps s r.ops, r.result.isSome) = (s, false) := by
    rintro _ rfl; rfl
  unfold runProgram
  cases h with
  | qhmAll h1 h2 =>
    unfold mainRun; dsimp only
    rw [if_pos rfl, h1, some_bind, h2, some_bind]
    exact key _ (by unfold qhmAllRun; rw [hr]; rfl)
  | amicable h2 =>
    unfold mainRun; dsimp only
    rw [if_neg (by decide), if_pos rfl, h2, some_bind]
    exact key _ (by unfold amicableRun; rw [show readTop s "qts".toList _ _ = none from hr _]; rfl)
  | rowsums h1 h2 =>
    rw [main_rowsums env s h1 h2]
    exact key _ (by unfold writeRowsumsRun writeTop; rw [hs]; rfl)
  | join h1 h2 =>
    rw [main_join env s h1 h2]
    exact key _ (by unfold joinRun; dsimp only; rw [hs]; rfl)
  | convert h0 h1 h2 =>
    rcases h0 with rfl | rfl
    · rw [main_hm env s h1 h2]
      exact key _ (by unfold convertHmRun; dsimp only; rw [hr]; rfl)
    · rw [main_qhm env s h1 h2]
      unfold convertQhmRun
      rw [hr]
      rfl
  | pairs => exact absurd hc (by decide)
  | pairsRowsum => exact absurd hc (by decide)
  | create => exact absurd hc (by decide)
  | pairSingle => exact absurd hc (by decide)

example (env : Env F κ) : runProgram env (fun _ _ => none) ["join".toList, "qts".toList, "5".toList] =
    (fun _ _ => none, false) :=
  C77_no_folder env _ _ _ .quaternionType 5 (.join rfl (by decide)) rfl (by decide)

/-- C77. The command `pairs` on a directory without subdirectories: if the pair stage does not panic, the program ends
normally, creates exactly the directories and files of the pair stage and leaves the plain files alone. -/
theorem C77_pairs (env : Env F κ) (s : Store) (tyT nT moT prT : Text) (ty : SeqType) (n : ℕ) (mo : MatchOption)
    (h1 : strToSeqtype tyT = some ty) (h2 : parseUsize nT = some n) (h3 : moT = matchName mo) (w : List (Text × Dir))
    (hw : writePairs env.A n ty mo (strToRowsumPairing prT) = some w) (hs : Fresh s tyT (natText n)) :
    ∃ s', runProgram env s ["pairs".toList, tyT, nT, moT, prT] = (s', true) ∧
      SameDirs (subDirs s' tyT (natText n)) w ∧ topFiles s' tyT (natText n) = topFiles s tyT (natText n) := by
  have hty : tyT = ty.toText := (C55_seqtype_roundtrip ty tyT).1 h1
  subst hty
  obtain ⟨l, hl, hrun⟩ := pairsRun_some env.A hw
  obtain ⟨hn, hnf, _⟩ := pairs_names hw
  obtain ⟨r1, r2, _⟩ := separate_result (ty := ty.toText) (n := natText n) hn hnf (interleave_flatten _) s hs
  refine ⟨_, ?_, r1, r2⟩
  unfold runProgram
  rw [main_pairs env s h1 h2 (mo_iff.2 h3), hrun, mk_bind, pure_eq]
  simp

/-- C77. If the pair stage panics, so does the program. -/
theorem C77_pairs_panics (env : Env F κ) (s : Store) (tyT nT moT prT : Text) (ty : SeqType) (n : ℕ) (mo : MatchOption)
    (h1 : strToSeqtype tyT = some ty) (h2 : parseUsize nT = some n) (h3 : moT = matchName mo)
    (hw : writePairs env.A n ty mo (strToRowsumPairing prT) = none) :
    (runProgram env s ["pairs".toList, tyT, nT, moT, prT]).2 = false := by
  unfold runProgram
  rw [main_pairs env s h1 h2 (mo_iff.2 h3)]
  simp only [bind_result, pairsRun_none env.A hw]
  rfl

-- The hypotheses are met: every length from 1 to 31 with exact arithmetic.
example (env : Env ℝ κ) (hA : env.A = exactFl) (s : Store) (hs : Fresh s "qts".toList "5".toList) :
    ∃ s' w, runProgram env s ["pairs".toList, "qts".toList, "5".toList, "correlation".toList, "WX".toList] = (s', true) ∧
      SameDirs (subDirs s' "qts".toList "5".toList) w ∧ w ≠ [] := by
  obtain ⟨w, h1, _, _⟩ := C32_enumeration exactFl id 5 (by norm_num) (C28_numerics 5 _)
    .quaternionType (.inl rfl) (some .WX)
  obtain ⟨s', k1, k2, _⟩ := C77_pairs env s "qts".toList "5".toList "correlation".toList "WX".toList .quaternionType 5
    .correlation rfl (by decide) rfl w (by rw [hA]; exact h1) hs
  refine ⟨s', w, k1, k2, ?_⟩
  obtain ⟨l, hl, _, hmem⟩ := C24_rowsums_exact 5 .quaternionType
  have hf := writePairs_dirs exactFl h1 hl
  have hm : ((1, 1, 3, 3) : Quad) ∈ l := (hmem 1 1 3 3).2 ⟨by norm_num, by decide, .inl (by norm_num)⟩
  rintro rfl
  cases hf
  simp at hm

/-! ## C78: the file of row sums and many processes -/

theorem rowsum_args {n : ℕ} [NeZero n] (hn : n < 2 ^ 62) {ty : SeqType} {l : List Quad} (hl : generateRowsums n ty = some l)
    {q : Quad} (hq : q ∈ l) : parseQuad (intText q.1) (intText q.2.1) (intText q.2.2.1) (intText q.2.2.2) = some q := by
  have hs := Complete.generated_squares hl hq
  have hb : ∀ t, parseIsize (intText (tagRowsum q t)) = some (tagRowsum q t) := fun t => by
    obtain ⟨b1, b2⟩ := Complete.rowsum_small hn q hs t
    exact parseIsize_intText (by linarith) (by linarith)
  unfold parseQuad
  have hW := hb .W
  have hX := hb .X
  have hY := hb .Y
  have hZ := hb .Z
  simp only [tagRowsum] at hW hX hY hZ
  rw [hW, hX, hY, hZ]
  rfl

/-- C78. The file `rowsums.quad` has one line for every row-sum quadruple, and the words of a line, given as arguments,
are read as this quadruple. -/
theorem C78_rowsums_file (n : ℕ) [NeZero n] (hn : n < 2 ^ 62) (ty : SeqType) :
    ∃ l t, generateRowsums n ty = some l ∧ rowsumsText n ty = some t ∧
      List.Forall₂ (fun line (q : Quad) => ∃ a b c d, line.splitOn ' ' = [a, b, c, d] ∧ parseQuad a b c d = some q)
        (readLines t) l := by
  obtain ⟨l, hl, _⟩ := C24_rowsums_exact n ty
  have hclean : ∀ z : ℤ, '\n' ∉ intText z ∧ '\r' ∉ intText z ∧ ' ' ∉ intText z := by
    intro z
    have h := Txt.intText_num z
    refine ⟨fun hc => ?_, fun hc => ?_, fun hc => ?_⟩ <;>
    · have := h _ hc
      unfold Txt.IsNum Txt.IsDigit at this
      revert this
      decide
  let line : Quad → Text := fun q =>
    intText q.1 ++ [' '] ++ intText q.2.1 ++ [' '] ++ intText q.2.2.1 ++ [' '] ++ intText q.2.2.2
  refine ⟨l, unlines (l.map line), hl, ?_, ?_⟩
  · unfold rowsumsText
    rw [hl, Option.map_some]
    congr 1
    unfold unlines
    rw [List.flatMap_map]
    refine List.flatMap_congr fun q _ => ?_
    simp [quadToText, line]
  · rw [Txt.readLines_unlines _ (by
      intro x hx
      obtain ⟨q, _, rfl⟩ := List.mem_map.1 hx
      simp only [line, List.mem_append, List.mem_singleton]
      have h1 := hclean q.1
      have h2 := hclean q.2.1
      have h3 := hclean q.2.2.1
      have h4 := hclean q.2.2.2
      simp [h1, h2, h3, h4]), List.forall₂_map_left_iff]
    rw [List.forall₂_same]
    intro q hq
    refine ⟨intText q.1, intText q.2.1, intText q.2.2.1, intText q.2.2.2, ?_, ?_⟩
    · have := List.splitOn_intercalate (ls := [intText q.1, intText q.2.1, intText q.2.2.1, intText q.2.2.2]) ' '
        (by simp [hclean]) (by simp)
      rw [← this]
      simp [line, List.intercalate, List.intersperse]
    · exact rowsum_args hn hl hq

example : ((rowsumsText 5 .quaternionType).map readLines) = some ["1 1 3 3".toList] := by decide +kernel

/-- C78. One process `pairs_rowsum` for every row-sum quadruple, all running at the same time: every process ends
normally, and whatever the order of their writes, the directories are those of the single command `pairs`. (Each process
may find the store in any state.) -/
theorem C78_rowsum_jobs (env : Env F κ) (s : Store) (n : ℕ) [NeZero n] (hn : n < 2 ^ 62) (ty : SeqType) (mo : MatchOption)
    (prT : Text) (w : List (Text × Dir)) (hw : writePairs env.A n ty mo (strToRowsumPairing prT) = some w)
    (hs : Fresh s ty.toText (natText n)) (st : Quad → Store) :
    ∃ l, generateRowsums n ty = some l ∧
      (∀ rs ∈ l, (mainRun env (st rs) (rowsumArgs ty n rs mo prT)).result = some ()) ∧
      ∀ t, Interleave (l.map fun rs => (mainRun env (st rs) (rowsumArgs ty n rs mo prT)).ops) t →
        SameDirs (subDirs (applyOps s t) ty.toText (natText n)) w ∧
        topFiles (applyOps s t) ty.toText (natText n) = topFiles s ty.toText (natText n) ∧
        (w ≠ [] → (applyOps s t ty.toText (natText n)).isSome) ∧
        ∀ a b, (a, b) ≠ (ty.toText, natText n) → applyOps s t a b = s a b := by
  obtain ⟨l, hl, hspec⟩ := C24_rowsums_exact n ty
  obtain ⟨hnd, hnf, hsrt⟩ := pairs_names hw
  have hf := writePairs_dirs env.A hw hl
  have hrun : ∀ rs ∈ l, ∀ d, writePairsRowsum env.A ty rs n mo (strToRowsumPairing prT) = some d →
      (mainRun env (st rs) (rowsumArgs ty n rs mo prT)).result = some () ∧
      (mainRun env (st rs) (rowsumArgs ty n rs mo prT)).ops = .mkdir ty.toText (natText n) (rowsumDirName rs) ::
        doubled ty.toText (natText n) (rowsumDirName rs) d := by
    intro rs hrs d hd
    unfold rowsumArgs
    rw [main_rowsum env _ (seqtype_text ty) (Txt.parse_natText (by omega)) (rowsum_args hn hl hrs) (mo_iff.2 rfl),
      rowsumRun_some env.A hd, mk_bind, pure_eq]
    simp
  have hall : (∀ rs ∈ l, (mainRun env (st rs) (rowsumArgs ty n rs mo prT)).result = some ()) ∧
      (l.map fun rs => (mainRun env (st rs) (rowsumArgs ty n rs mo prT)).ops) =
        w.map fun e => .mkdir ty.toText (natText n) e.1 :: doubled ty.toText (natText n) e.1 e.2 := by
    clear hw hl hnd hnf hspec hsrt
    induction hf with
    | nil => simp
    | @cons rs e l w h hf ih =>
      obtain ⟨r1, r2⟩ := hrun rs (by simp) e.2 h.2
      obtain ⟨i1, i2⟩ := ih fun rs hrs => hrun rs (by simp [hrs])
      constructor
      · intro x hx
        rcases List.mem_cons.1 hx with rfl | hx
        · exact r1
        · exact i1 x hx
      · rw [List.map_cons, List.map_cons, i2, r2, h.1]
  refine ⟨l, hl, hall.1, fun t ht => ?_⟩
  rw [hall.2] at ht
  obtain ⟨r1, r2, r3, r4, _⟩ := separate_result hnd hnf ht s hs
  exact ⟨r1, r2, r3, r4⟩

/-- C78. Two processes `pair_single` for every row-sum quadruple, all running at the same time. -/
theorem C78_single_jobs (env : Env F κ) (s : Store) (n : ℕ) [NeZero n] (hn : n < 2 ^ 62) (ty : SeqType) (mo : MatchOption)
    (prT : Text) (pr : Pairing) (hpr : strToRowsumPairing prT = some pr) (w : List (Text × Dir))
    (hw : writePairs env.A n ty mo (some pr) = some w) (hs : Fresh s ty.toText (natText n)) (st : Quad → Text → Store) :
    ∃ l, generateRowsums n ty = some l ∧
      (∀ rs ∈ l, ∀ k ∈ [['1'], ['2']], (mainRun env (st rs k) (singleArgs ty n rs mo prT k)).result = some ()) ∧
      ∀ t, Interleave (l.flatMap fun rs => [(mainRun env (st rs ['1']) (singleArgs ty n rs mo prT ['1'])).ops,
          (mainRun env (st rs ['2']) (singleArgs ty n rs mo prT ['2'])).ops]) t →
        SameDirs (subDirs (applyOps s t) ty.toText (natText n)) w ∧
        topFiles (applyOps s t) ty.toText (natText n) = topFiles s ty.toText (natText n) ∧
        (w ≠ [] → (applyOps s t ty.toText (natText n)).isSome) ∧
        ∀ a b, (a, b) ≠ (ty.toText, natText n) → applyOps s t a b = s a b := by
  obtain ⟨l, hl, hspec⟩ := C24_rowsums_exact n ty
  obtain ⟨hnd, hnf, hsrt⟩ := pairs_names hw
  have hf := writePairs_dirs env.A hw hl
  have hrun : ∀ rs ∈ l, ∀ kT k, parseU8 kT = some k → ∀ d, writePairSingleRowsum env.A ty rs n mo (some pr) k = some d →
      (mainRun env (st rs kT) (singleArgs ty n rs mo prT kT)).result = some () ∧
      (mainRun env (st rs kT) (singleArgs ty n rs mo prT kT)).ops = .mkdir ty.toText (natText n) (rowsumDirName rs) ::
        doubled ty.toText (natText n) (rowsumDirName rs) d := by
    intro rs hrs kT k hk d hd
    unfold singleArgs
    rw [main_single env _ (seqtype_text ty) (Txt.parse_natText (by omega)) (rowsum_args hn hl hrs) (mo_iff.2 rfl) hk, hpr]
    obtain ⟨e1, e2⟩ := singleRun_some env.A hd
    obtain ⟨c, hc⟩ := Option.isSome_iff_exists.1 e2
    generalize writePairSingleRowsumRun env.A ty.toText rs n mo (some pr) k = r at *
    obtain ⟨ops, res⟩ := r
    dsimp only at e1 hc
    rw [hc, e1, mk_bind, pure_eq]
    simp
  have hall : ∃ us : List (Text × Dir × Dir), (∀ rs ∈ l, ∀ k ∈ [['1'], ['2']],
      (mainRun env (st rs k) (singleArgs ty n rs mo prT k)).result = some ()) ∧
      (l.flatMap fun rs => [(mainRun env (st rs ['1']) (singleArgs ty n rs mo prT ['1'])).ops,
          (mainRun env (st rs ['2']) (singleArgs ty n rs mo prT ['2'])).ops]) =
        (us.flatMap fun u => [.mkdir ty.toText (natText n) u.1 :: doubled ty.toText (natText n) u.1 u.2.1,
          .mkdir ty.toText (natText n) u.1 :: doubled ty.toText (natText n) u.1 u.2.2]) ∧
      List.Forall₂ (fun u e => u.1 = e.1 ∧ (u.2.1 ++ u.2.2).Perm e.2) us w := by
    clear hw hl hnd hnf hspec hsrt
    induction hf with
    | nil => exact ⟨[], by simp, rfl, .nil⟩
    | @cons rs e l w h hf ih =>
      obtain ⟨us, i1, i2, i3⟩ := ih fun rs hrs => hrun rs (by simp [hrs])
      obtain ⟨d1, d2, k1, k2, k3⟩ := (C62_rowsum env.A ty rs n mo pr).1 e.2 h.2
      obtain ⟨r1, r2⟩ := hrun rs (by simp) ['1'] 1 (by decide) d1 k1
      obtain ⟨q1, q2⟩ := hrun rs (by simp) ['2'] 2 (by decide) d2 k2
      refine ⟨(rowsumDirName rs, d1, d2) :: us, ?_, ?_, .cons ⟨h.1.symm, k3⟩ i3⟩
      · intro x hx k hk
        rcases List.mem_cons.1 hx with rfl | hx
        · simp only [List.mem_cons, List.not_mem_nil, or_false] at hk
          rcases hk with rfl | rfl
          · exact r1
          · exact q1
        · exact i1 x hx k hk
      · rw [List.flatMap_cons, List.flatMap_cons, i2, r2, q2]
  obtain ⟨us, g1, g2, g3⟩ := hall
  refine ⟨l, hl, g1, fun t ht => ?_⟩
  rw [g2] at ht
  obtain ⟨r1, r2, r3, r4, _⟩ := split_result hnd hnf g3 ht s hs
  exact ⟨r1, r2, r3, r4⟩

omit [DecidableEq κ] in
/-- C78. Sorting afterwards, the join stage finds a listing of the directories of the pair stage. So everything proved
about the join stage after the command `pairs` (such as `C32_enumeration`) holds after any run of the processes. -/
theorem C78_listing (env : Env F κ) (hf : Env.Fair env) (n : ℕ) (ty : SeqType) (mo : MatchOption) (pr : Option Pairing)
    (w : List (Text × Dir)) (hw : writePairs env.A n ty mo pr = some w) (s : Store) (fd : FindDir)
    (hfd : s ty.toText (natText n) = some fd) (hd : SameDirs (subDirs s ty.toText (natText n)) w) :
    ∃ s' fd', sortPairsSh s ty.toText (natText n) = (s', true) ∧ s' ty.toText (natText n) = some fd' ∧
      fd'.files = fd.files ∧ Listing w (listedDirs env fd') := by
  refine ⟨(sortPairsSh s ty.toText (natText n)).1, { fd with dirs := fd.dirs.map fun e => (e.1, sortDirSh e.2) }, ?_, ?_, rfl, ?_⟩
  · exact Prod.ext rfl (by show teeStatus _ _ _ = true; unfold teeStatus; rw [hfd]; rfl)
  · show (if _ = _ then _ else _) = _
    rw [if_pos rfl, hfd]; rfl
  · unfold subDirs at hd
    rw [hfd] at hd
    exact listing_sorted env hf hd (pairs_names hw).2.2 _ rfl

theorem pairs_ne_nil {ty : SeqType} (hty : Supported ty) {w : List (Text × Dir)} {P : List QuadSeq → Prop}
    (h : ∀ dirs, Listing w dirs → ∃ r, joinPairs ty dirs = some r ∧ P r) : w ≠ [] := by
  rintro rfl
  obtain ⟨r, hr, _⟩ := h [] ⟨[], .refl _, .nil⟩
  rw [C60_panics ty hty [] rfl] at hr
  cases hr

/-- C78. The enumeration with two processes per row sum, all running at the same time: after sorting, the join stage
returns, without repetition, the least member of every equivalence class. -/
theorem C78_enumeration (env : Env F κ) (hf : Env.Fair env) (val : F → ℝ) (n : ℕ) [NeZero n] (hn : n ≤ 31)
    {mo : MatchOption} (hN : Numerics env.A val n mo) (ty : SeqType)
    (hty : ty = .quaternionType ∨ ty = .williamsonType) (hex : ∃ q, OfType n ty q) (prT : Text) (pr : Pairing)
    (hpr : strToRowsumPairing prT = some pr) (s : Store) (hs : Fresh s ty.toText (natText n)) (st : Quad → Text → Store) :
    ∃ l, generateRowsums n ty = some l ∧ ∀ t, Interleave (l.flatMap fun rs =>
        [(mainRun env (st rs ['1']) (singleArgs ty n rs mo prT ['1'])).ops,
          (mainRun env (st rs ['2']) (singleArgs ty n rs mo prT ['2'])).ops]) t →
      ∃ s' fd r, sortPairsSh (applyOps s t) ty.toText (natText n) = (s', true) ∧
        s' ty.toText (natText n) = some fd ∧ joinPairs ty (listedDirs env fd) = some r ∧ r.Nodup ∧
        (∀ x, x ∈ r ↔ LeastInClass n ty x) ∧
        ∀ q, OfType n ty q → ∃ x ∈ r, TypeEquiv ty (fam n q) (fam n x) := by
  obtain ⟨w, hw, _, hj⟩ := C32_enumeration env.A val n hn hN ty hty (some pr)
  obtain ⟨l, hl, _, hd⟩ := C78_single_jobs env s n (by omega) ty mo prT pr hpr w hw hs st
  refine ⟨l, hl, fun t ht => ?_⟩
  obtain ⟨h1, _, h2, _⟩ := hd t ht
  have hne : w ≠ [] := pairs_ne_nil (P := fun _ => True) (hty.elim .inl fun h => .inr (.inl h))
    fun dirs hdirs => by
      obtain ⟨r, hr, _⟩ := hj dirs hdirs hex
      exact ⟨r, hr, trivial⟩
  obtain ⟨fd, hfd⟩ := Option.isSome_iff_exists.1 (h2 hne)
  obtain ⟨s', fd', k1, k2, _, k3⟩ := C78_listing env hf n ty mo _ w hw _ fd hfd h1
  obtain ⟨r, hr, hnd, hmem, _, hall⟩ := hj _ k3 hex
  exact ⟨s', fd', r, k1, k2, hr, hnd, hmem, fun q hq => (hall q hq).imp fun x hx => ⟨hx.1, hx.2.1⟩⟩

-- An interleaving of two processes that is not their concatenation.
example : Interleave [[1, 2], [3, 4]] [1, 3, 4, 2] :=
  .cons [] _ 1 _ _ (.cons [[2]] [] 3 _ _ (.cons [[2]] [] 4 _ _ (.cons [] _ 2 _ _ (.nil _ (by simp)))))

-- The hypotheses are met for length 5 with exact arithmetic, starting from an empty store.
example (canon : Graph → κ) : ∃ l t s' fd r, generateRowsums 5 .quaternionType = some l ∧
    sortPairsSh (applyOps (fun _ _ => none) t) "qts".toList "5".toList = (s', true) ∧ s' "qts".toList "5".toList = some fd ∧
    joinPairs .quaternionType fd.dirs = some r ∧ r ≠ [] := by
  let env : Env ℝ κ := { A := exactFl, canon := canon, hmOrder := id, qsOrder := id, lsDirs := id, lsFiles := id, debug := true }
  obtain ⟨l, hl, h⟩ := C78_enumeration env ⟨fun _ => .refl _, fun _ => .refl _, fun _ => .refl _, fun _ => .refl _⟩ id 5
    (by norm_num) (C28_numerics 5 .psd) .quaternionType (.inl rfl) ⟨exQTS5, exQTS5_isQTS⟩
    "WX".toList .WX rfl (fun _ _ => none) (fun _ h => by cases h) (fun _ _ => fun _ _ => none)
  obtain ⟨s', fd, r, h1, h2, h3, _, _, h4⟩ := h _ (interleave_flatten _)
  have e : listedDirs env fd = fd.dirs := by simp [listedDirs, env]
  rw [e] at h3
  obtain ⟨x, hx, _⟩ := h4 exQTS5 exQTS5_isQTS
  exact ⟨l, _, s', fd, r, hl, h1, h2, h3, List.ne_nil_of_mem hx⟩

end Props
