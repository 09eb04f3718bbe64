import Verif.Proofs.Driver

/-!
# Helper lemmas: the command line
-/

set_option linter.unusedSectionVars false
set_option linter.unusedVariables false
set_option linter.unusedSimpArgs false

namespace Proofs.Command
open Model Spec Proofs.Store Proofs.Program Proofs.Driver

variable {F κ : Type} [DecidableEq κ]

/-! ## Arguments -/

theorem mo_iff {t : Text} {mo : MatchOption} : strToMatchOption t = some mo ↔ t = matchName mo := by
  unfold strToMatchOption matchName
  constructor
  · intro h
    split at h
    · cases h; assumption
    · split at h
      · cases h; assumption
      · cases h
  · rintro rfl
    cases mo <;> decide

theorem mo_some {t : Text} : (t = "correlation".toList ∨ t = "psd".toList) ↔ ∃ mo, strToMatchOption t = some mo := by
  simp only [mo_iff]
  constructor
  · rintro (h | h)
    · exact ⟨.correlation, h⟩
    · exact ⟨.psd, h⟩
  · rintro ⟨mo, h⟩
    cases mo
    · exact .inl h
    · exact .inr h

theorem parseIsize_intText {z : ℤ} (h1 : -2 ^ 63 < z) (h2 : z < 2 ^ 63) : parseIsize (intText z) = some z := by
  have hdig : ∀ n : ℕ, parseDigits (natText n) = some n := fun n => by
    unfold parseDigits
    rw [if_neg (Txt.natText_ne n), Txt.natText_parse]
  unfold intText
  split
  · show (parseDigits (natText z.natAbs)).bind _ = _
    rw [hdig, Option.bind_some, if_pos (by omega)]
    congr 1
    omega
  · have hd := Txt.natText_digits z.natAbs
    have hne := Txt.natText_ne z.natAbs
    have hcons : ∃ c r, natText z.natAbs = c :: r := List.exists_cons_of_ne_nil hne
    obtain ⟨c, r, e⟩ := hcons
    have hc : Txt.IsDigit c := hd c (by rw [e]; simp)
    have h3 : c ≠ '-' := by rintro rfl; unfold Txt.IsDigit at hc; revert hc; decide
    have h4 : c ≠ '+' := by rintro rfl; unfold Txt.IsDigit at hc; revert hc; decide
    have hs : stripPlus (c :: r) = c :: r := by
      unfold stripPlus
      split
      · rename_i h; cases h; exact absurd rfl h4
      · rfl
    have : parseIsize (c :: r) = (parseDigits (stripPlus (c :: r))).bind fun n => if n < 2 ^ 63 then some (n : ℤ) else none := by
      unfold parseIsize
      split
      · rename_i h; cases h; exact absurd rfl h3
      · rfl
    rw [e, this, hs, ← e, hdig, Option.bind_some, if_pos (by omega)]
    congr 1
    omega

theorem parseQuad_some {a b c d : Text} : (∀ x ∈ [a, b, c, d], parseIsize x ≠ none) ↔ ∃ q, parseQuad a b c d = some q := by
  unfold parseQuad
  simp only [List.mem_cons, List.not_mem_nil, or_false, forall_eq_or_imp, forall_eq]
  cases parseIsize a <;> cases parseIsize b <;> cases parseIsize c <;> cases parseIsize d <;> simp

/-! ## Commands -/

theorem main_pairs (env : Env F κ) (s : Store) {tyT nT moT prT : Text} {ty : SeqType} {n : ℕ} {mo : MatchOption}
    (h1 : strToSeqtype tyT = some ty) (h2 : parseUsize nT = some n) (h3 : strToMatchOption moT = some mo) :
    mainRun env s ["pairs".toList, tyT, nT, moT, prT] =
      (writePairsRun env.A n ty mo (strToRowsumPairing prT) >>= fun _ => pure ()) := by
  unfold mainRun
  dsimp only
  rw [if_neg (by decide), if_neg (by decide), if_neg (by decide), if_neg (by decide), if_neg (by decide), if_pos rfl,
    h1, some_bind, h2, some_bind, h3, some_bind]

theorem main_rowsum (env : Env F κ) (s : Store) {tyT nT a b c d moT prT : Text} {ty : SeqType} {n : ℕ} {rs : Quad}
    {mo : MatchOption} (h1 : strToSeqtype tyT = some ty) (h2 : parseUsize nT = some n) (h4 : parseQuad a b c d = some rs)
    (h3 : strToMatchOption moT = some mo) :
    mainRun env s ["pairs_rowsum".toList, tyT, nT, a, b, c, d, moT, prT] =
      (writePairsRowsumRun env.A ty.toText rs n mo (strToRowsumPairing prT) >>= fun _ => pure ()) := by
  unfold mainRun
  dsimp only
  rw [if_neg (by decide), if_neg (by decide), if_neg (by decide), if_neg (by decide), if_neg (by decide),
    if_neg (by decide), if_pos rfl, h1, some_bind, h2, some_bind, h4, some_bind, h3, some_bind]

theorem main_single (env : Env F κ) (s : Store) {tyT nT a b c d moT prT kT : Text} {ty : SeqType} {n : ℕ} {rs : Quad}
    {mo : MatchOption} {k : ℕ} (h1 : strToSeqtype tyT = some ty) (h2 : parseUsize nT = some n)
    (h4 : parseQuad a b c d = some rs) (h3 : strToMatchOption moT = some mo) (h5 : parseU8 kT = some k) :
    mainRun env s ["pair_single".toList, tyT, nT, a, b, c, d, moT, prT, kT] =
      (writePairSingleRowsumRun env.A ty.toText rs n mo (strToRowsumPairing prT) k >>= fun _ => pure ()) := by
  unfold mainRun
  dsimp only
  rw [if_neg (by decide), if_neg (by decide), if_neg (by decide), if_neg (by decide), if_neg (by decide),
    if_neg (by decide), if_neg (by decide), if_neg (by decide), if_pos rfl, h1, some_bind, h2, some_bind, h4, some_bind,
    h3, some_bind, h5, some_bind]

theorem main_rowsums (env : Env F κ) (s : Store) {tyT nT : Text} {ty : SeqType} {n : ℕ}
    (h1 : strToSeqtype tyT = some ty) (h2 : parseUsize nT = some n) :
    mainRun env s ["rowsums".toList, tyT, nT] = writeRowsumsRun s n ty := by
  unfold mainRun
  dsimp only
  rw [if_neg (by decide), if_neg (by decide), if_pos rfl, h1, some_bind, h2, some_bind]

theorem main_join (env : Env F κ) (s : Store) {tyT nT : Text} {ty : SeqType} {n : ℕ}
    (h1 : strToSeqtype tyT = some ty) (h2 : parseUsize nT = some n) :
    mainRun env s ["join".toList, tyT, nT] = joinRun env s ty n := by
  unfold mainRun
  dsimp only
  rw [if_neg (by decide), if_neg (by decide), if_neg (by decide), if_pos rfl, h1, some_bind, h2, some_bind]

theorem main_hm (env : Env F κ) (s : Store) {tyT nT : Text} {ty : SeqType} {n : ℕ}
    (h1 : strToSeqtype tyT = some ty) (h2 : parseUsize nT = some n) :
    mainRun env s ["convert".toList, "hm".toList, tyT, nT] = convertHmRun env s ty n := by
  unfold mainRun
  dsimp only
  rw [if_neg (by decide), if_neg (by decide), if_neg (by decide), if_neg (by decide), if_pos rfl, h1, some_bind, h2,
    some_bind, if_pos rfl]

theorem main_qhm (env : Env F κ) (s : Store) {tyT nT : Text} {ty : SeqType} {n : ℕ}
    (h1 : strToSeqtype tyT = some ty) (h2 : parseUsize nT = some n) :
    mainRun env s ["convert".toList, "qhm".toList, tyT, nT] = convertQhmRun s ty n := by
  unfold mainRun
  dsimp only
  rw [if_neg (by decide), if_neg (by decide), if_neg (by decide), if_neg (by decide), if_pos rfl, h1, some_bind, h2,
    some_bind, if_neg (by decide), if_pos rfl]

/-! ## What a command changes -/

/-- All writes go to one directory. -/
structure Into (ty n : Text) {α : Type} (r : Run α) : Prop where
  all : ∀ o ∈ r.ops, o.path = (ty, n)

theorem into_bind {ty n : Text} {α β : Type} {r : Run α} {f : α → Run β} (h1 : Into ty n r) (h2 : ∀ a, Into ty n (f a)) :
    Into ty n (r >>= f) := ⟨mem_bind h1.all fun a => (h2 a).all⟩

theorem into_option {ty n : Text} {α : Type} (a : Option α) : Into ty n (Run.ofOption a) := ⟨by simp [Run.ofOption]⟩

theorem into_pure {ty n : Text} {α : Type} (a : α) : Into ty n (pure a : Run α) := ⟨by simp [pure_eq]⟩

theorem into_op {ty n : Text} {o : Write} (h : o.path = (ty, n)) : Into ty n (Run.op o) := by
  refine ⟨fun o' ho => ?_⟩
  simp only [Run.op, List.mem_singleton] at ho
  rw [ho, h]

theorem into_file (ty n dir name : Text) (c : Option Text) : Into ty n (writeFile ty n dir name c) :=
  into_bind (into_op rfl) fun _ => into_bind (into_option _) fun _ => into_op rfl

theorem into_seqPairs (A : Fl F) (ty n dir : Text) (s1 s2 : List (List Int)) (t : Tag × Tag) (T : SeqType) (rs : Quad)
    (p : ℕ) (side : Side) (mo : MatchOption) : Into ty n (writeSeqPairsRun A ty n dir s1 s2 t T rs p side mo) :=
  into_bind (into_option _) fun _ => into_bind (into_op rfl) fun _ => into_bind (into_option _) fun _ =>
    into_bind (into_op rfl) fun _ => into_pure _

theorem into_rowsum (A : Fl F) (ty : Text) (rs : Quad) (p : ℕ) (mo : MatchOption) (pr : Option Pairing) :
    Into ty (natText p) (writePairsRowsumRun A ty rs p mo pr) :=
  into_bind (into_op rfl) fun _ => into_bind (into_option _) fun _ => into_bind (into_file ..) fun _ =>
    into_bind (into_file ..) fun _ => into_bind (into_file ..) fun _ => into_bind (into_file ..) fun _ =>
    into_bind (into_seqPairs ..) fun _ => into_bind (into_seqPairs ..) fun _ => into_pure _

theorem into_sum {α : Type} {ty n : Text} {f : α → Run ℕ} (h : ∀ x, Into ty n (f x)) (l : List α) : Into ty n (Run.sum f l) := by
  induction l with
  | nil => exact into_pure 0
  | cons x l ih => exact into_bind (h x) fun _ => into_bind ih fun _ => into_pure _

theorem into_pairs (A : Fl F) (p : ℕ) (ty : SeqType) (mo : MatchOption) (pr : Option Pairing) :
    Into ty.toText (natText p) (writePairsRun A p ty mo pr) :=
  into_bind (into_option _) fun _ => into_sum (fun _ => into_rowsum ..) _

theorem into_single (A : Fl F) (ty : Text) (rs : Quad) (p : ℕ) (mo : MatchOption) (pr : Option Pairing) (k : ℕ) :
    Into ty (natText p) (writePairSingleRowsumRun A ty rs p mo pr k) := by
  refine into_bind (into_op rfl) fun _ => into_bind (into_option _) fun _ => ?_
  split
  · exact into_pure _
  · exact into_bind (into_file ..) fun _ => into_bind (into_file ..) fun _ => into_seqPairs ..

theorem into_create (ty : Text) (p : ℕ) (rs : Quad) (pr : Option Pairing) :
    Into ty (natText p) (createRowsumDirsRun ty p rs pr) := by
  refine into_bind (into_op rfl) fun _ => into_bind (into_option _) fun names => ⟨fun o ho => ?_⟩
  obtain ⟨x, _, rfl⟩ := List.mem_map.1 ho
  rfl

theorem into_top (s : Store) (ty n name : Text) (c : Option Text) : Into ty n (writeTop s ty n name c) :=
  into_bind (into_option _) fun _ => into_bind (into_op rfl) fun _ => into_bind (into_option _) fun _ => into_op rfl

theorem into_result (ty n a b : Text) (l : List QuadSeq) : Into ty n (writeResultRun ty n a b l) :=
  into_bind (into_op rfl) fun _ => into_bind (into_op rfl) fun _ => into_bind (into_option _) fun _ =>
    into_bind (into_option _) fun _ => into_bind (into_op rfl) fun _ => into_op rfl

theorem into_join (env : Env F κ) (s : Store) (ty : SeqType) (p : ℕ) : Into ty.toText (natText p) (joinRun env s ty p) := by
  refine into_bind (into_option _) fun _ => into_bind (into_option _) fun _ => into_bind (into_option _) fun _ =>
    into_bind (into_option _) fun _ => into_bind (into_option _) fun _ => into_bind (into_result ..) fun _ => ?_
  cases ty
  case williamsonType => exact into_bind (into_option _) fun _ => into_result ..
  all_goals exact into_pure _

theorem into_hm (env : Env F κ) (s : Store) (ty : SeqType) (p : ℕ) :
    Into ty.toText (natText p) (convertHmRun env s ty p) :=
  into_bind (into_option _) fun _ => into_bind (into_option _) fun _ => into_op rfl

theorem into_qhm (s : Store) (ty : SeqType) (p : ℕ) : Into ty.toText (natText p) (convertQhmRun s ty p) := by
  unfold convertQhmRun
  split
  · exact into_pure ()
  · exact into_bind (into_op rfl) fun _ => into_bind (into_option _) fun _ => into_op rfl

theorem into_qhmAll (env : Env F κ) (s : Store) (ty : SeqType) (p : ℕ) :
    Into ty.toText (natText p) (qhmAllRun env s ty p) :=
  into_bind (into_option _) fun _ => into_bind (into_option _) fun _ => into_op rfl

theorem into_amicable (s : Store) (p : ℕ) (ty n : Text) : Into ty n (amicableRun s p) :=
  into_bind (into_option _) fun _ => into_option _

/-- The writes of the program. -/
theorem main_into (env : Env F κ) (s : Store) {args : List Text} {ty : SeqType} {n : ℕ} (h : Concerns args ty n) :
    Into ty.toText (natText n) (mainRun env s args) := by
  cases h with
  | qhmAll h1 h2 =>
    unfold mainRun; dsimp only
    rw [if_pos rfl, h1, some_bind, h2, some_bind]
    exact into_qhmAll ..
  | amicable h2 =>
    unfold mainRun; dsimp only
    rw [if_neg (by decide), if_pos rfl, h2, some_bind]
    exact into_amicable ..
  | rowsums h1 h2 => rw [main_rowsums env s h1 h2]; exact into_top ..
  | join h1 h2 => rw [main_join env s h1 h2]; exact into_join ..
  | convert h0 h1 h2 =>
    rcases h0 with rfl | rfl
    · rw [main_hm env s h1 h2]; exact into_hm ..
    · rw [main_qhm env s h1 h2]; exact into_qhm ..
  | pairs h1 h2 h3 =>
    obtain ⟨mo, h3⟩ := mo_some.1 h3
    rw [main_pairs env s h1 h2 h3]
    exact into_bind (into_pairs ..) fun _ => into_pure _
  | pairsRowsum h1 h2 h3 h4 =>
    obtain ⟨mo, h3⟩ := mo_some.1 h3
    obtain ⟨q, h4⟩ := parseQuad_some.1 h4
    rw [main_rowsum env s h1 h2 h4 h3]
    exact into_bind (into_rowsum ..) fun _ => into_pure _
  | create h1 h2 h4 =>
    obtain ⟨q, h4⟩ := parseQuad_some.1 h4
    unfold mainRun; dsimp only
    rw [if_neg (by decide), if_neg (by decide), if_neg (by decide), if_neg (by decide), if_neg (by decide),
      if_neg (by decide), if_neg (by decide), if_pos rfl, h1, some_bind, h2, some_bind, h4, some_bind]
    exact into_create ..
  | pairSingle h1 h2 h3 h4 h5 =>
    obtain ⟨mo, h3⟩ := mo_some.1 h3
    obtain ⟨q, h4⟩ := parseQuad_some.1 h4
    obtain ⟨k, h5⟩ := Option.ne_none_iff_exists'.1 h5
    rw [main_single env s h1 h2 h4 h3 h5]
    exact into_bind (into_single ..) fun _ => into_pure _

/-- Ill-formed arguments: nothing is written. -/
theorem main_ill (env : Env F κ) (s : Store) (args : List Text) (h : ¬ ∃ ty n, Concerns args ty n) :
    mainRun env s args = ⟨[], if ∃ c ∈ args.head?, c ∈ commands then none else some ()⟩ := by
  cases args with
  | nil => rfl
  | cons cmd args =>
    have hcmd : (∃ c ∈ (cmd :: args).head?, c ∈ commands) ↔ cmd ∈ commands := by simp
    by_cases hc : cmd ∈ commands
    · rw [if_pos (hcmd.2 hc)]
      have bad1 : ∀ {β : Type} {t : Text} (f : SeqType → Run β), (∀ T, strToSeqtype t = some T → f T = ⟨[], none⟩) →
          (Run.ofOption (strToSeqtype t) >>= f) = ⟨[], none⟩ := by
        intro β t f hf
        cases e : strToSeqtype t with
        | none => rfl
        | some T => rw [some_bind, hf T e]
      have bad2 : ∀ {β : Type} {t : Text} (f : ℕ → Run β), (∀ p, parseUsize t = some p → f p = ⟨[], none⟩) →
          (Run.ofOption (parseUsize t) >>= f) = ⟨[], none⟩ := by
        intro β t f hf
        cases e : parseUsize t with
        | none => rfl
        | some T => rw [some_bind, hf T e]
      have bad3 : ∀ {β : Type} {t : Text} (f : MatchOption → Run β), (∀ m, strToMatchOption t = some m → f m = ⟨[], none⟩) →
          (Run.ofOption (strToMatchOption t) >>= f) = ⟨[], none⟩ := by
        intro β t f hf
        cases e : strToMatchOption t with
        | none => rfl
        | some T => rw [some_bind, hf T e]
      have bad4 : ∀ {β : Type} {a b c d : Text} (f : Quad → Run β), (∀ q, parseQuad a b c d = some q → f q = ⟨[], none⟩) →
          (Run.ofOption (parseQuad a b c d) >>= f) = ⟨[], none⟩ := by
        intro β a b c d f hf
        cases e : parseQuad a b c d with
        | none => rfl
        | some T => rw [some_bind, hf T e]
      have bad5 : ∀ {β : Type} {t : Text} (f : ℕ → Run β), (∀ p, parseU8 t = some p → f p = ⟨[], none⟩) →
          (Run.ofOption (parseU8 t) >>= f) = ⟨[], none⟩ := by
        intro β t f hf
        cases e : parseU8 t with
        | none => rfl
        | some T => rw [some_bind, hf T e]
      simp only [commands, List.mem_cons, List.not_mem_nil, or_false] at hc
      rcases hc with rfl | rfl | rfl | rfl | rfl | rfl | rfl | rfl | rfl
      · unfold mainRun; dsimp only
        rw [if_pos rfl]
        split
        · exact bad1 _ fun T h1 => bad2 _ fun p h2 => absurd ⟨_, _, .qhmAll h1 h2⟩ h
        · rfl
      · unfold mainRun; dsimp only
        rw [if_neg (by decide), if_pos rfl]
        split
        · exact bad2 _ fun p h2 => absurd ⟨_, _, .amicable h2⟩ h
        · rfl
      · unfold mainRun; dsimp only
        rw [if_neg (by decide), if_neg (by decide), if_pos rfl]
        split
        · exact bad1 _ fun T h1 => bad2 _ fun p h2 => absurd ⟨_, _, .rowsums h1 h2⟩ h
        · rfl
      · unfold mainRun; dsimp only
        rw [if_neg (by decide), if_neg (by decide), if_neg (by decide), if_pos rfl]
        split
        · exact bad1 _ fun T h1 => bad2 _ fun p h2 => absurd ⟨_, _, .join h1 h2⟩ h
        · rfl
      · unfold mainRun; dsimp only
        rw [if_neg (by decide), if_neg (by decide), if_neg (by decide), if_neg (by decide), if_pos rfl]
        split
        · refine bad1 _ fun T h1 => bad2 _ fun p h2 => ?_
          split
          · rename_i hk; exact absurd ⟨_, _, .convert (.inl hk) h1 h2⟩ h
          · split
            · rename_i hk; exact absurd ⟨_, _, .convert (.inr hk) h1 h2⟩ h
            · rfl
        · rfl
      · unfold mainRun; dsimp only
        rw [if_neg (by decide), if_neg (by decide), if_neg (by decide), if_neg (by decide), if_neg (by decide), if_pos rfl]
        split
        · exact bad1 _ fun T h1 => bad2 _ fun p h2 => bad3 _ fun m h3 => absurd ⟨_, _, .pairs h1 h2 (mo_some.2 ⟨m, h3⟩)⟩ h
        · rfl
      · unfold mainRun; dsimp only
        rw [if_neg (by decide), if_neg (by decide), if_neg (by decide), if_neg (by decide), if_neg (by decide),
          if_neg (by decide), if_pos rfl]
        split
        · exact bad1 _ fun T h1 => bad2 _ fun p h2 => bad4 _ fun q h4 => bad3 _ fun m h3 =>
            absurd ⟨_, _, .pairsRowsum h1 h2 (mo_some.2 ⟨m, h3⟩) (parseQuad_some.2 ⟨q, h4⟩)⟩ h
        · rfl
      · unfold mainRun; dsimp only
        rw [if_neg (by decide), if_neg (by decide), if_neg (by decide), if_neg (by decide), if_neg (by decide),
          if_neg (by decide), if_neg (by decide), if_pos rfl]
        split
        · exact bad1 _ fun T h1 => bad2 _ fun p h2 => bad4 _ fun q h4 =>
            absurd ⟨_, _, .create h1 h2 (parseQuad_some.2 ⟨q, h4⟩)⟩ h
        · rfl
      · unfold mainRun; dsimp only
        rw [if_neg (by decide), if_neg (by decide), if_neg (by decide), if_neg (by decide), if_neg (by decide),
          if_neg (by decide), if_neg (by decide), if_neg (by decide), if_pos rfl]
        split
        · exact bad1 _ fun T h1 => bad2 _ fun p h2 => bad4 _ fun q h4 => bad3 _ fun m h3 => bad5 _ fun k h5 =>
            absurd ⟨_, _, .pairSingle h1 h2 (mo_some.2 ⟨m, h3⟩) (parseQuad_some.2 ⟨q, h4⟩) (by rw [h5]; simp)⟩ h
        · rfl
    · rw [if_neg (fun h' => hc (hcmd.1 h'))]
      simp only [commands, List.mem_cons, List.not_mem_nil, or_false, not_or] at hc
      obtain ⟨c1, c2, c3, c4, c5, c6, c7, c8, c9⟩ := hc
      unfold mainRun; dsimp only
      rw [if_neg c1, if_neg c2, if_neg c3, if_neg c4, if_neg c5, if_neg c6, if_neg c7, if_neg c8, if_neg c9]
      rfl

/-! ## Directories written by processes -/

/-- One process per directory. -/
theorem separate_result {ty n : Text} {w : List (Text × Dir)} (hn : (w.map Prod.fst).Nodup)
    (hnf : ∀ e ∈ w, (e.2.map Prod.fst).Nodup) {t : List Write}
    (ht : Interleave (w.map fun e => .mkdir ty n e.1 :: doubled ty n e.1 e.2) t) (s : Store) (hs : Fresh s ty n) :
    SameDirs (subDirs (applyOps s t) ty n) w ∧ topFiles (applyOps s t) ty n = topFiles s ty n ∧
      (w ≠ [] → (applyOps s t ty n).isSome) ∧ (∀ a b, (a, b) ≠ (ty, n) → applyOps s t a b = s a b) ∧
      (s ty n).isSome ≤ (applyOps s t ty n).isSome := by
  let procs : List Proc := w.map fun e => (e.1, e.2, .mkdir ty n e.1 :: doubled ty n e.1 e.2)
  have hp : ∀ p ∈ procs, ∃ e ∈ w, p = (e.1, e.2, .mkdir ty n e.1 :: doubled ty n e.1 e.2) := by
    intro p hp
    obtain ⟨e, he, rfl⟩ := List.mem_map.1 hp
    exact ⟨e, he, rfl⟩
  have hq : ∀ e ∈ w, ((e.1, e.2, .mkdir ty n e.1 :: doubled ty n e.1 e.2) : Proc) ∈ procs := fun e he =>
    List.mem_map.2 ⟨e, he, rfl⟩
  refine interleave_result (procs := procs) ?_ ?_ ?_ hn hnf ?_ ?_ ?_ s hs
  · intro p hpm
    obtain ⟨e, he, rfl⟩ := hp p hpm
    exact writes_doubled ty n e.1 (hnf e he)
  · show (w.map _).Pairwise _
    rw [List.pairwise_map]
    have : w.Pairwise fun a b => a.1 ≠ b.1 := by
      have := hn
      unfold List.Nodup at this
      rwa [List.pairwise_map] at this
    exact this.imp fun h e => absurd e h
  · show Interleave (List.map _ (w.map _)) t
    rw [List.map_map]
    exact ht
  · intro p hpm
    obtain ⟨e, he, rfl⟩ := hp p hpm
    exact ⟨e.2, he, fun _ _ h => h⟩
  · intro e he
    exact ⟨_, hq e he, rfl⟩
  · intro e he name c h
    exact ⟨_, hq e he, rfl, h⟩

theorem lookup_perm {d e : Dir} (hp : d.Perm e) (h : (e.map Prod.fst).Nodup) (name : Text) : lookup d name = lookup e name := by
  have hd : (d.map Prod.fst).Nodup := (hp.map _).nodup_iff.2 h
  ext c
  rw [← mem_iff_lookup hd, ← mem_iff_lookup h, hp.mem_iff]

/-- Two processes per directory. -/
theorem split_result {ty n : Text} {w : List (Text × Dir)} {us : List (Text × Dir × Dir)} (hn : (w.map Prod.fst).Nodup)
    (hnf : ∀ e ∈ w, (e.2.map Prod.fst).Nodup)
    (hu : List.Forall₂ (fun u e => u.1 = e.1 ∧ (u.2.1 ++ u.2.2).Perm e.2) us w) {t : List Write}
    (ht : Interleave (us.flatMap fun u => [.mkdir ty n u.1 :: doubled ty n u.1 u.2.1,
      .mkdir ty n u.1 :: doubled ty n u.1 u.2.2]) t) (s : Store) (hs : Fresh s ty n) :
    SameDirs (subDirs (applyOps s t) ty n) w ∧ topFiles (applyOps s t) ty n = topFiles s ty n ∧
      (w ≠ [] → (applyOps s t ty n).isSome) ∧ (∀ a b, (a, b) ≠ (ty, n) → applyOps s t a b = s a b) ∧
      (s ty n).isSome ≤ (applyOps s t ty n).isSome := by
  let mk : Text → Dir → Proc := fun x d => (x, d, .mkdir ty n x :: doubled ty n x d)
  let procs : List Proc := us.flatMap fun u => [mk u.1 u.2.1, mk u.1 u.2.2]
  have hback : ∀ u ∈ us, ∃ e ∈ w, u.1 = e.1 ∧ (u.2.1 ++ u.2.2).Perm e.2 := by
    intro u hum
    obtain ⟨i, hi, rfl⟩ := List.getElem_of_mem hum
    obtain ⟨h1, h2⟩ := List.forall₂_iff_get.1 hu
    exact ⟨_, List.getElem_mem (h1 ▸ hi), h2 i hi (h1 ▸ hi)⟩
  have hforth : ∀ e ∈ w, ∃ u ∈ us, u.1 = e.1 ∧ (u.2.1 ++ u.2.2).Perm e.2 := by
    intro e he
    obtain ⟨i, hi, rfl⟩ := List.getElem_of_mem he
    obtain ⟨h1, h2⟩ := List.forall₂_iff_get.1 hu
    exact ⟨_, List.getElem_mem (h1.symm ▸ hi), h2 i (h1.symm ▸ hi) hi⟩
  have hnames : us.map Prod.fst = w.map Prod.fst := by
    clear ht hback hforth hn hnf
    induction hu with
    | nil => rfl
    | cons h _ ih => rw [List.map_cons, List.map_cons, ih, h.1]
  have hp : ∀ p ∈ procs, ∃ u ∈ us, p = mk u.1 u.2.1 ∨ p = mk u.1 u.2.2 := by
    intro p hp
    obtain ⟨u, hu, h⟩ := List.mem_flatMap.1 hp
    exact ⟨u, hu, by simpa using h⟩
  have hq : ∀ u ∈ us, mk u.1 u.2.1 ∈ procs ∧ mk u.1 u.2.2 ∈ procs := fun u hu =>
    ⟨List.mem_flatMap.2 ⟨u, hu, by simp⟩, List.mem_flatMap.2 ⟨u, hu, by simp⟩⟩
  have hnd : ∀ u ∈ us, ((u.2.1 ++ u.2.2).map Prod.fst).Nodup := by
    intro u hum
    obtain ⟨e, he, _, hpm⟩ := hback u hum
    exact (hpm.map _).nodup_iff.2 (hnf e he)
  refine interleave_result (procs := procs) ?_ ?_ ?_ hn hnf ?_ ?_ ?_ s hs
  · intro p hpm
    obtain ⟨u, hum, h | h⟩ := hp p hpm
    · rw [h]
      have := hnd u hum
      rw [List.map_append] at this
      exact writes_doubled ty n u.1 (List.nodup_append.1 this).1
    · rw [h]
      have := hnd u hum
      rw [List.map_append] at this
      exact writes_doubled ty n u.1 (List.nodup_append.1 this).2.1
  · have hun : us.Pairwise fun a b => a.1 ≠ b.1 := by
      have := hn
      rw [← hnames] at this
      unfold List.Nodup at this
      rwa [List.pairwise_map] at this
    unfold Apart
    show (us.flatMap fun u => [mk u.1 u.2.1, mk u.1 u.2.2]).Pairwise _
    rw [List.pairwise_flatMap]
    refine ⟨fun u hum => ?_, hun.imp fun h x hx y hy e => ?_⟩
    · simp only [List.pairwise_cons, List.mem_singleton, forall_eq, List.not_mem_nil, false_implies, implies_true,
        List.Pairwise.nil, and_true]
      intro _ name hname
      rw [lookup_eq_none]
      intro hm
      have h1 : name ∈ u.2.1.map Prod.fst := by
        by_contra hc
        exact hname (lookup_eq_none.2 hc)
      have := hnd u hum
      rw [List.map_append, List.nodup_append] at this
      exact this.2.2 name h1 name hm rfl
    · exfalso
      simp only [List.mem_cons, List.not_mem_nil, or_false] at hx hy
      rcases hx with rfl | rfl <;> rcases hy with rfl | rfl <;> exact h e
  · show Interleave (List.map _ (us.flatMap _)) t
    rw [List.map_flatMap]
    exact ht
  · intro p hpm
    obtain ⟨u, hum, h⟩ := hp p hpm
    obtain ⟨e, he, e1, hpm'⟩ := hback u hum
    have hl : ∀ name, lookup e.2 name = (lookup u.2.1 name).or (lookup u.2.2 name) := fun name => by
      rw [← lookup_append, lookup_perm hpm' (hnf e he)]
    rcases h with rfl | rfl
    · refine ⟨e.2, by show (u.1, e.2) ∈ w; rw [e1]; exact he, fun name c h => ?_⟩
      rw [hl name]
      have h : lookup u.2.1 name = some c := h
      rw [h]; rfl
    · refine ⟨e.2, by show (u.1, e.2) ∈ w; rw [e1]; exact he, fun name c h => ?_⟩
      have h : lookup u.2.2 name = some c := h
      have hnone : lookup u.2.1 name = none := by
        rw [lookup_eq_none]
        intro hm
        have := hnd u hum
        rw [List.map_append, List.nodup_append] at this
        exact this.2.2 name hm name (List.mem_map_of_mem (f := Prod.fst) (mem_of_lookup h)) rfl
      rw [hl name, hnone, h]; rfl
  · intro e he
    obtain ⟨u, hum, e1, _⟩ := hforth e he
    exact ⟨_, (hq u hum).1, e1⟩
  · intro e he name c h
    obtain ⟨u, hum, e1, hpm⟩ := hforth e he
    rw [← lookup_perm hpm (hnf e he), lookup_append] at h
    cases h1 : lookup u.2.1 name with
    | some c' =>
      rw [h1] at h
      cases h
      exact ⟨_, (hq u hum).1, e1, h1⟩
    | none =>
      rw [h1] at h
      exact ⟨_, (hq u hum).2, e1, h⟩

/-- The names of the directories written by the pair stage. -/
theorem pairs_names {A : Fl F} {ty : SeqType} {p : ℕ} {mo : MatchOption} {pr : Option Pairing}
    {w : List (Text × Dir)} (h : writePairs A p ty mo pr = some w) :
    (w.map Prod.fst).Nodup ∧ (∀ e ∈ w, (e.2.map Prod.fst).Nodup) ∧ ∀ e ∈ w, Sortable e.2 := by
  obtain ⟨l, hl, hnd, hspec⟩ := generateRowsums_spec p ty
  have hf := writePairs_dirs A h hl
  have hnames : w.map Prod.fst = l.map rowsumDirName := by
    clear h hl hnd hspec
    induction hf with
    | nil => rfl
    | cons h _ ih => rw [List.map_cons, List.map_cons, ih, h.1]
  have hmem : ∀ e ∈ w, ∃ rs, writePairsRowsum A ty rs p mo pr = some e.2 := by
    intro e he
    obtain ⟨i, hi, rfl⟩ := List.getElem_of_mem he
    obtain ⟨h1, h2⟩ := List.forall₂_iff_get.1 hf
    exact ⟨_, (h2 i (h1 ▸ hi) hi).2⟩
  refine ⟨?_, fun e he => ?_, fun e he => ?_⟩
  · rw [hnames]
    exact hnd.map fun a b => Complete.dirName_inj
  · obtain ⟨rs, h⟩ := hmem e he
    exact rowsum_nodup A h
  · obtain ⟨rs, h⟩ := hmem e he
    exact rowsum_sortable A h

end Proofs.Command
