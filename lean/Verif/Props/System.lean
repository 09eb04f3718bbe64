import Verif.Proofs.System
import Verif.Props.Driver

/-!
# Properties C84 to C86: processes that run at the same time or are interrupted
-/

set_option linter.unusedVariables false
set_option linter.unusedSectionVars false

namespace Props
open Model Spec Proofs Proofs.Store Proofs.Program Proofs.Command Proofs.System

variable {F κ : Type} [DecidableEq κ]

/-! ## Helpers -/

/-- What the lines of `result.seq` are. -/
def Listed (n : ℕ) [NeZero n] : SeqType → QuadSeq → Prop
  | .williamson, x => LeastInClass n .williamsonType x ∧ ∃ s, IsWS n s ∧ WTEquiv (fam n s) (fam n x)
  | ty, x => LeastInClass n ty x

/-- What the lines of `result-qts.seq` are. -/
def ListedQt (n : ℕ) [NeZero n] (x : QuadSeq) : Prop := IsWTS n x ∧ LeastInClass n .quaternionType x

theorem listed_pm {n : ℕ} [NeZero n] {ty : SeqType} (hty : Supported ty) {x : QuadSeq} (h : Listed n ty x) : PMQuad n x := by
  rcases hty with rfl | rfl | rfl
  · exact (Keys.ofType_wts h.1).1
  · exact (Keys.ofType_wts h.1).1
  · exact (Keys.ofType_wts h.1.1).1

/-- Whatever the directories contain, as long as the stored sequences have length `n`: what `join` returns is sound. -/
theorem join_sound {n : ℕ} [NeZero n] (hn : n ≤ 31) {ty : SeqType} (hty : Supported ty) {dirs : List (Text × Dir)}
    {r : List QuadSeq} (h : joinPairs ty dirs = some r)
    (hlen : ∀ e ∈ dirs, ∀ f ∈ e.2, ∀ t, f.1 = seqFileName t → ∀ l, fileToSequences f.2 = some l → ∀ x ∈ l, x.length = n) :
    r.Nodup ∧ ∀ x ∈ r, Listed n ty x := by
  have h' := h
  unfold joinPairs at h'
  obtain ⟨m, hm, h'⟩ := Option.bind_eq_some_iff.1 h'
  obtain ⟨f, hf, h2⟩ := Option.bind_eq_some_iff.1 h'
  have hty' : ∀ s ∈ m, OfType n ty s := by
    unfold joinAll at hm
    obtain ⟨ls, hls, rfl⟩ := Option.map_eq_some_iff.1 hm
    intro s hs
    obtain ⟨l, hl, hs⟩ := List.mem_flatten.1 hs
    obtain ⟨e, he, hel⟩ := mem_right (Conversion.mapM_some_iff.1 hls) hl
    exact (C30_join_sound n ty hty e.2 l hel (hlen e he) s hs).1
  have hpm : ∀ s ∈ m, PMQuad n s := fun s hs => (Keys.ofType_wts (hty' s hs)).1
  have hne : m ≠ [] := by
    rintro rfl
    have : f = [] := by
      rcases hty with rfl | rfl | rfl <;> simp only [filterCanonical, List.mapM_nil, List.map_nil, unique, List.foldl_nil] at hf
      · cases hf; rfl
      · cases hf; rfl
      · cases hf; rfl
    rw [this] at h2
    cases h2
  obtain ⟨r', hr', hnd, hx⟩ := Enumerate.joinPairs_spec hn hty hm hne hpm
  rw [h] at hr'
  cases hr'
  refine ⟨hnd, fun x hxr => ?_⟩
  obtain ⟨s, hs, hsx⟩ := (hx x).1 hxr
  rcases hty with rfl | rfl | rfl
  · exact ⟨typeEquiv_ofType (.inl rfl) (hty' s hs) hsx.1.1 hsx.1.2, fun t ht hxt => hsx.2 t ⟨ht, .trans _ _ _ hsx.1.2 hxt⟩⟩
  · exact ⟨typeEquiv_ofType (.inr rfl) (hty' s hs) hsx.1.1 hsx.1.2, fun t ht hxt => hsx.2 t ⟨ht, .trans _ _ _ hsx.1.2 hxt⟩⟩
  · have hws : IsWS n s := hty' s hs
    have hwx : WTEquiv (fam n s) (fam n x) := hsx.1.2
    exact ⟨⟨typeEquiv_ofType (.inr rfl) (isWTS_of_isWS hws) hsx.1.1 hwx, fun t ht hxt => hsx.2 t ⟨ht, .trans _ _ _ hwx hxt⟩⟩,
      s, hws, hwx⟩

theorem reduce_sound {n : ℕ} [NeZero n] (hn : n ≤ 31) {r r' : List QuadSeq} (hr : ∀ x ∈ r, IsWTS n x)
    (h : reduceToCanonicalReps (expandWts n r) .quaternionType = some r') : r'.Nodup ∧ ∀ x ∈ r', ListedQt n x := by
  have hne : expandWts n r ≠ [] := by
    intro e
    rw [e] at h
    cases h
  have hpm : ∀ q ∈ expandWts n r, PMQuad n q := fun q hq => (C21_sound n r hr q hq).1.1
  obtain ⟨r'', k1, k2, k3, _, k5⟩ := C17_reduce n hn .quaternionType (.inl rfl) (expandWts n r) hne hpm
  rw [h] at k1
  cases k1
  refine ⟨k2, fun x hx => ?_⟩
  obtain ⟨hp, s, hs, hsx⟩ := k3 x hx
  have hq := typeEquiv_ofType (.inl rfl) ((C04_isQTS_iff_isWTS n s).2 (C21_sound n r hr s hs).1) hp hsx
  exact ⟨(C04_isQTS_iff_isWTS n x).1 hq, hq, k5 x hx⟩

/-- The invariant of the plain files. -/
structure TopOk (n : ℕ) [NeZero n] (ty : SeqType) (M : Text → Prop) (name c : Text) : Prop where
  seq : name = "result.seq".toList → LinesOk (Listed n ty) c
  qts : name = "result-qts.seq".toList → LinesOk (ListedQt n) c
  mat : name = "result.mat".toList → M c

theorem topOk_prefix {n : ℕ} [NeZero n] {ty : SeqType} {M : Text → Prop}
    (hM : ∀ c t, M c → t <+: c → WholeLines t → M t) (name c t : Text) (h : TopOk n ty M name c) (h1 : t <+: c)
    (h2 : WholeLines t) : TopOk n ty M name t :=
  ⟨fun e => linesOk_prefix (h.seq e) h1 h2, fun e => linesOk_prefix (h.qts e) h1 h2, fun e => hM c t (h.mat e) h1 h2⟩

theorem ok_join {n : ℕ} [NeZero n] (hn : n ≤ 31) {ty : SeqType} (hty : Supported ty) {M : Text → Prop} {env : Env F κ}
    (hf : Env.Fair env) {v : Store} (hv : ViewOk ty.toText (natText n) n (TopOk n ty M) v) :
    OpsOk ty.toText (natText n) n (TopOk n ty M) (joinRun env v ty n) := by
  unfold joinRun
  refine ok_bind (ok_option _) fun d hd => ok_bind (ok_option _) fun _ _ => ok_bind (ok_option _) fun _ _ =>
    ok_bind (ok_option _) fun r hr => ?_
  have hd : v ty.toText (natText n) = some d := hd
  obtain ⟨hnd, hl⟩ := join_sound hn hty (show joinPairs ty (listedDirs env d) = some r from hr) fun e he f hf' t ht l hl => by
    obtain ⟨e', he', rfl⟩ := List.mem_map.1 he
    exact seqOk_read (hv.files d hd e' ((hf.dirs _).mem_iff.1 he') f ((hf.files _).mem_iff.1 hf') ⟨t, ht⟩) hl
  have h1 : OpsOk ty.toText (natText n) n (TopOk n ty M)
      (writeResultRun ty.toText (natText n) "result.seq".toList "result.qseq".toList r) := by
    refine ok_result _ _ _ _ _ ⟨fun _ => linesOk_nil _, fun e => absurd e (by decide), fun e => absurd e (by decide)⟩
      (fun c => ⟨fun e => absurd e (by decide), fun e => absurd e (by decide), fun e => absurd e (by decide)⟩) fun t ht => ?_
    exact ⟨fun _ => linesOk_result hnd hl (fun x hx => listed_pm hty (hl x hx)) ht, fun e => absurd e (by decide),
      fun e => absurd e (by decide)⟩
  refine ok_bind (ok_option _) fun _ _ => ok_bind h1 fun _ _ => ?_
  cases ty with
  | williamsonType =>
    refine ok_bind (ok_option _) fun r' hr' => ?_
    obtain ⟨k1, k2⟩ := reduce_sound hn (fun x hx => (hl x hx).1) hr'
    refine ok_result _ _ _ _ _ ⟨fun e => absurd e (by decide), fun _ => linesOk_nil _, fun e => absurd e (by decide)⟩
      (fun c => ⟨fun e => absurd e (by decide), fun e => absurd e (by decide), fun e => absurd e (by decide)⟩) fun t ht => ?_
    exact ⟨fun e => absurd e (by decide), fun _ => linesOk_result k1 k2 (fun x hx => (k2 x hx).1.1) ht,
      fun e => absurd e (by decide)⟩
  | _ => exact ok_pure _

theorem mem_of_readTop {s : Store} {T N name c : Text} (h : readTop s T N name = some c) :
    ∃ d, s T N = some d ∧ (name, c) ∈ d.files := by
  unfold readTop at h
  obtain ⟨d, h1, h2⟩ := Option.bind_eq_some_iff.1 h
  exact ⟨d, h1, mem_of_lookup h2⟩

/-- What `convert hm` writes when its input is sound. -/
theorem hm_sound {n : ℕ} [NeZero n] {ty : SeqType} {canon : Graph → κ} (hc : ExactLabelling canon)
    {order : List HM → List HM} (ho : ∀ l, (order l).Perm l) {debug : Bool} {Q : QuadSeq → Prop} {t text : Text}
    (hQ : ∀ q, Q q → PMQuad n q) (ht : LinesOk Q t)
    (h : hadamardEquivalenceFromFile canon order debug ty t = some text) : MatsOk (OfType n ty) text := by
  unfold hadamardEquivalenceFromFile at h
  obtain ⟨out, h1, h2⟩ := Option.bind_eq_some_iff.1 h
  obtain ⟨ts, h3, rfl⟩ := Option.map_eq_some_iff.1 h2
  obtain ⟨mats, k1, k2, k3, k4, _⟩ := C46_from_file canon hc order ho debug ty t out h1
  obtain ⟨r, ls, _, hq, rfl, hcl, hf⟩ := ht
  rw [Txt.readLines_unlines ls hcl] at k1
  refine ⟨out, ts, rfl, Conversion.mapM_some_iff.1 h3, fun m hm => ⟨k2 m (k3 m hm), ?_⟩, k4⟩
  obtain ⟨line, hline, q, e1, ⟨n', hn', e2, _⟩, e3⟩ := mem_right k1 (k3 m hm)
  obtain ⟨q', hq', e4⟩ := mem_left hf hline
  rw [e1] at e4
  cases e4
  have hp := hQ q (hq q hq')
  have : n' = n := (Keys.ofType_wts e2).1.size.symm.trans hp.size
  subst this
  exact ⟨q, e2, e3⟩

theorem ok_hm {n : ℕ} [NeZero n] {ty : SeqType} (hty : Supported ty) {M : Text → Prop} {env : Env F κ}
    (hM : ∀ Q : QuadSeq → Prop, (∀ q, Q q → PMQuad n q) → ∀ t text, LinesOk Q t →
      hadamardEquivalenceFromFile env.canon env.hmOrder env.debug ty t = some text → M text) {v : Store}
    (hv : ViewOk ty.toText (natText n) n (TopOk n ty M) v) :
    OpsOk ty.toText (natText n) n (TopOk n ty M) (convertHmRun env v ty n) := by
  unfold convertHmRun
  refine ok_bind (ok_option _) fun t ht => ok_bind (ok_option _) fun text htext => ok_op fun _ => ?_
  refine ⟨fun e => absurd e (by decide), fun e => absurd e (by decide), fun _ => ?_⟩
  obtain ⟨d, h1, h2⟩ := mem_of_readTop ht
  have h3 := hv.top d h1 _ h2
  cases ty with
  | williamsonType => exact hM _ (fun q hq => hq.1.1) t text (h3.qts rfl) htext
  | _ => exact hM _ (fun q hq => listed_pm hty hq) t text (h3.seq rfl) htext

theorem system_ok {E : Env F κ → Prop} (hE : ∀ env, E env → Env.Fair env) (n : ℕ) [NeZero n] (hn : n ≤ 31) {ty : SeqType}
    (hty : Supported ty) {M : Text → Prop} (hM : ∀ c t, M c → t <+: c → WholeLines t → M t)
    (hM' : ∀ env, E env → ∀ Q : QuadSeq → Prop, (∀ q, Q q → PMQuad n q) → ∀ t text, LinesOk Q t →
      hadamardEquivalenceFromFile env.canon env.hmOrder env.debug ty t = some text → M text) {s0 : Store}
    (h0 : s0 ty.toText (natText n) = none) {S : Sys} (h : Reachable E s0 S) :
    SysOk ty.toText (natText n) n (TopOk n ty M) S := by
  refine reach_ok (topOk_prefix hM) (fun env he v hv args => ?_) (fun d hd => by rw [h0] at hd; cases hd) h
  refine (main_ok env v (fun c => ?_) (fun c => ?_) (fun c => ?_) (ok_join hn hty (hE env he) hv)
    (ok_hm hty (hM' env he) hv) args).all
  · exact ⟨fun e => absurd e (by decide), fun e => absurd e (by decide), fun e => absurd e (by decide)⟩
  · exact ⟨fun e => absurd e (by decide), fun e => absurd e (by decide), fun e => absurd e (by decide)⟩
  · exact ⟨fun e => absurd e (by decide), fun e => absurd e (by decide), fun e => absurd e (by decide)⟩

theorem seqs_sound {s : Store} {T N name : Text} {Q : QuadSeq → Prop} {n : ℕ} {P : Text → Text → Prop}
    (h : StoreOk T N n P s) (hP : ∀ c, P name c → LinesOk Q c) : SeqsSound s T N name Q := by
  intro hne
  obtain ⟨c, hc⟩ := Option.ne_none_iff_exists'.1 hne
  obtain ⟨d, h1, h2⟩ := mem_of_readTop hc
  obtain ⟨r, ls, k1, k2, rfl, k3, k4⟩ := hP c ((h d h1).top _ h2)
  exact ⟨r, k1, k2, _, hc, by rw [Txt.readLines_unlines ls k3]; exact k4⟩

/-- Two QT sequences of length 7 with different row sums. -/
def exA7 : QuadSeq :=
  { size := 7, a := [1, 1, -1, -1, 1, 1, -1], b := [1, -1, 1, 1, -1, 1, -1], c := [-1, 1, 1, 1, 1, -1, -1],
    d := [1, 1, 1, 1, 1, 1, -1] }

def exB7 : QuadSeq :=
  { size := 7, a := [1, 1, 1, 1, -1, -1, -1], b := [1, 1, 1, 1, -1, 1, -1], c := [-1, 1, 1, -1, 1, 1, 1],
    d := [-1, 1, 1, -1, 1, 1, 1] }

theorem exA7_isQTS : IsQTS 7 exA7 := (C08_verify_qts 7 exA7 ⟨rfl, ⟨rfl, by decide⟩, ⟨rfl, by decide⟩, ⟨rfl, by decide⟩,
  ⟨rfl, by decide⟩⟩).1 (by decide +kernel)

theorem exB7_isQTS : IsQTS 7 exB7 := (C08_verify_qts 7 exB7 ⟨rfl, ⟨rfl, by decide⟩, ⟨rfl, by decide⟩, ⟨rfl, by decide⟩,
  ⟨rfl, by decide⟩⟩).1 (by decide +kernel)

/-! ## C84: results are sound at all times -/

/-- C84. Start with no files for a type and a length. Let any number of processes of the program run at the same time on
the same directories, each with any arguments, be killed at any time and be started again; let files be seen half
written, and anything be deleted, and let sorting or any other program change the pair files in any way. At all times
`result.seq`, if it is there, lists the least members of different classes of QT sequences of this length. -/
theorem C84_qts {E : Env F κ → Prop} (hE : ∀ env, E env → Env.Fair env) (n : ℕ) [NeZero n] (hn : n ≤ 31) (s0 : Store)
    (h0 : s0 "qts".toList (natText n) = none) (S : Sys) (h : Reachable E s0 S) :
    SeqsSound S.now "qts".toList (natText n) "result.seq".toList (LeastInClass n .quaternionType) :=
  seqs_sound (system_ok hE n hn (ty := .quaternionType) (.inl rfl) (M := fun _ => True) (fun _ _ _ _ _ => trivial)
    (fun _ _ _ _ _ _ _ _ => trivial) h0 h).now fun c hc => hc.seq rfl

/-- C84. The same for Williamson-type sequences; and `result-qts.seq`, if it is there, lists the least members of
different classes for QT equivalence. -/
theorem C84_wts {E : Env F κ → Prop} (hE : ∀ env, E env → Env.Fair env) (n : ℕ) [NeZero n] (hn : n ≤ 31) (s0 : Store)
    (h0 : s0 "wts".toList (natText n) = none) (S : Sys) (h : Reachable E s0 S) :
    SeqsSound S.now "wts".toList (natText n) "result.seq".toList (LeastInClass n .williamsonType) ∧
    SeqsSound S.now "wts".toList (natText n) "result-qts.seq".toList
      (fun x => IsWTS n x ∧ LeastInClass n .quaternionType x) := by
  have := (system_ok hE n hn (ty := .williamsonType) (.inr (.inl rfl)) (M := fun _ => True) (fun _ _ _ _ _ => trivial)
    (fun _ _ _ _ _ _ _ _ => trivial) h0 h).now
  exact ⟨seqs_sound this fun c hc => hc.seq rfl, seqs_sound this fun c hc => hc.qts rfl⟩

/-- C84. For Williamson sequences: `result.seq` lists the least members of different Williamson-type classes that contain
a Williamson sequence. -/
theorem C84_ws {E : Env F κ → Prop} (hE : ∀ env, E env → Env.Fair env) (n : ℕ) [NeZero n] (hn : n ≤ 31) (s0 : Store)
    (h0 : s0 "ws".toList (natText n) = none) (S : Sys) (h : Reachable E s0 S) :
    SeqsSound S.now "ws".toList (natText n) "result.seq".toList
      (fun x => LeastInClass n .williamsonType x ∧ ∃ s, IsWS n s ∧ WTEquiv (fam n s) (fam n x)) :=
  seqs_sound (system_ok hE n hn (ty := .williamson) (.inr (.inr rfl)) (M := fun _ => True) (fun _ _ _ _ _ => trivial)
    (fun _ _ _ _ _ _ _ _ => trivial) h0 h).now fun c hc => hc.seq rfl

/-- C84. In the same circumstances `result.mat`, if it is there, has pairwise inequivalent Hadamard matrices of sequences
of the type. -/
theorem C84_matrices {E : Env F κ → Prop} (hE : ∀ env, E env → Env.Fair env ∧ ExactLabelling env.canon) (n : ℕ) [NeZero n]
    (hn : n ≤ 31) (ty : SeqType) (hty : Supported ty) (s0 : Store) (h0 : s0 ty.toText (natText n) = none) (S : Sys)
    (h : Reachable E s0 S) : MatsSound S.now ty.toText (natText n) (OfType n ty) := by
  have := (system_ok (fun env he => (hE env he).1) n hn hty (M := MatsOk (OfType n ty)) (fun _ _ => matsOk_prefix)
    (fun env he Q hQ t text ht => hm_sound (hE env he).2 (hE env he).1.hm hQ ht) h0 h).now
  intro hne
  obtain ⟨c, hc⟩ := Option.ne_none_iff_exists'.1 hne
  obtain ⟨d, h1, h2⟩ := mem_of_readTop hc
  obtain ⟨out, ts, rfl, k⟩ := ((this d h1).top _ h2).mat rfl
  exact ⟨out, ts, hc, k⟩

/-- C84. The driver is one of the executions considered: whatever its flags, and while other processes are running, it
leads to a state that can be reached. -/
theorem C84_driver {E : Env F κ → Prop} (s0 : Store) (S : Sys) (h : Reachable E s0 S) (env : Env F κ) (he : E env)
    (T N : Text) (flags : List Flag) :
    ∃ past, Reachable E s0 ⟨(driverSh env T N flags S.now).1, past, S.procs⟩ := reach_driver he flags h

/-- The claims are not empty: there is a state that can be reached in which `result.seq` lists the least members of all
classes, while another process has still all its writes to perform. -/
example (env : Env F κ) (hf : Env.Fair env) (hc : ExactLabelling env.canon) (val : F → ℝ)
    (hN : Numerics env.A val 7 .psd) (args : List Text) :
    ∃ S r, Reachable (· = env) (fun _ _ => none) S ∧ r ≠ [] ∧ (∀ x, x ∈ r ↔ LeastInClass 7 .quaternionType x) ∧
      SeqsStored S.now "qts".toList "7".toList "result.seq".toList r ∧
      S.procs = [(mainRun env (fun _ _ => none) args).ops] := by
  obtain ⟨s', r, h1, _, h2, h3, _⟩ := C79_qts env hf hc val 7 (by norm_num) [] hN ⟨exA7, exA7_isQTS⟩
    (fun _ _ => none) ⟨fun e he => (by cases he), by unfold IsWord; decide⟩
  have h0 : Reachable (· = env) (fun _ _ => none) ⟨fun _ _ => none, [], [(mainRun env (fun _ _ => none) args).ops]⟩ :=
    Reachable.init.step
      (Spec.Step.start (E := (· = env)) ⟨fun _ _ => none, [], []⟩ env rfl _ (mixed_self _ _) args)
  obtain ⟨past, h4⟩ := C84_driver (E := (· = env)) _ _ h0 env rfl "qts".toList "7".toList []
  refine ⟨_, r, h4, ?_, h2, ?_, rfl⟩
  · obtain ⟨y, hy, _⟩ := least_exists (n := 7) (by norm_num) (.inl rfl) (show OfType 7 .quaternionType exA7 from exA7_isQTS)
    exact List.ne_nil_of_mem ((h2 y).2 hy)
  · rw [show driverSh env "qts".toList "7".toList [] (fun _ _ => none) = (s', 0) from h1]
    exact h3

/-! ## C85: after an interruption -/

/-- C85. Whatever happened before, the driver with the flag `-d` gives the complete enumeration. -/
theorem C85_recover {E : Env F κ → Prop} (hE : ∀ env, E env → Env.Fair env) (n : ℕ) [NeZero n] (hn : n ≤ 31) (s0 : Store)
    (h0 : s0 "qts".toList (natText n) = none) (S : Sys) (h : Reachable E s0 S) (env : Env F κ) (hf : Env.Fair env)
    (hc : ExactLabelling env.canon) (val : F → ℝ) (flags : List Flag)
    (hN : Numerics env.A val n (flagMatching flags)) (hex : ∃ q, IsQTS n q) (hfd : .d ∈ flags) (hp : IsWord (flagPairing flags)) :
    ∃ s' r, driverSh env "qts".toList (natText n) flags S.now = (s', 0) ∧ r.Nodup ∧
      (∀ x, x ∈ r ↔ LeastInClass n .quaternionType x) ∧
      SeqsStored s' "qts".toList (natText n) "result.seq".toList r ∧
      QuadsStored s' "qts".toList (natText n) "result.qseq".toList r ∧
      QhmStored n s' "qts".toList (natText n) r ∧
      (.h ∈ flags → MatsStored s' "qts".toList (natText n) (IsQTS n)) := by
  have hok := (system_ok hE n hn (ty := .quaternionType) (.inl rfl) (M := fun _ => True) (fun _ _ _ _ _ => trivial)
    (fun _ _ _ _ _ _ _ _ => trivial) h0 h).now
  have hready : Ready S.now "qts".toList (natText n) flags := by
    refine ⟨fun e he => ⟨hfd, ?_⟩, hp⟩
    obtain ⟨d, h1, h2⟩ := mem_sub he
    exact (hok d h1).names e h2
  obtain ⟨s', r, k1, k2, k3, k4, k5, k6, k7, _⟩ := C79_qts env hf hc val n hn flags hN hex S.now hready
  exact ⟨s', r, k1, k2, k3, k4, k5, k6, k7⟩

/-! ## C86: an interrupted pair stage -/

/-- C86, as far as it goes. The command `pairs` is killed when it has written the directories of the row sums `l1`, which
are the first of the list; then the files are sorted and joined. If a QT sequence has row sums in `l1`, the program ends
normally, and `result.seq` has exactly the least members of the classes that contain a sequence with row sums in `l1`.
Missing: an error, or the other classes (see below). -/
theorem C86_interrupted_partial (env : Env F κ) (hf : Env.Fair env) (val : F → ℝ) (n : ℕ) [NeZero n] (hn : n ≤ 31)
    {mo : MatchOption} (hN : Numerics env.A val n mo) (moT pr : Text) (hmo : strToMatchOption moT = some mo) (l1 l2 : List Quad)
    (hl : generateRowsums n .quaternionType = some (l1 ++ l2)) (hex : ∃ q, IsQTS n q ∧ rowsums q ∈ l1) (s : Store)
    (hs : Fresh s "qts".toList (natText n)) :
    ∃ pre post, (mainRun env s ["pairs".toList, "qts".toList, natText n, moT, pr]).ops = pre ++ post ∧
      (l2 ≠ [] → post ≠ []) ∧
      ∃ s' r, runProgram env (sortPairsSh (applyOps s pre) "qts".toList (natText n)).1
          ["join".toList, "qts".toList, natText n] = (s', true) ∧
        SeqsStored s' "qts".toList (natText n) "result.seq".toList r ∧ r.Nodup ∧
        ∀ x, x ∈ r ↔ LeastInClass n .quaternionType x ∧
          ∃ q, IsQTS n q ∧ rowsums q ∈ l1 ∧ QTEquiv (fam n q) (fam n x) := by
  have hn' : n < 2 ^ 64 := lt_of_le_of_lt hn (by norm_num)
  have hty : strToSeqtype "qts".toList = some .quaternionType := seqtype_text .quaternionType
  have hnn : parseUsize (natText n) = some n := Txt.parse_natText hn'
  have hkey : ∀ rs ∈ l1 ++ l2, ∃ d0, writePairsRowsum env.A .quaternionType rs n mo (strToRowsumPairing pr) = some d0 ∧
      ∀ d, d.Perm (sortDir d0) → ∃ r, joinDir .quaternionType d = some r ∧
        ∀ q, q ∈ r ↔ OfType n .quaternionType q ∧ (q.a.sum, q.b.sum, q.c.sum, q.d.sum) = rs := fun rs hrs =>
    C31_directory_small env.A val n hN (by omega) .quaternionType (.inl rfl) rs (Complete.generated_squares hl hrs) _
  obtain ⟨hw, _⟩ := Complete.some_dirs env.A mo (strToRowsumPairing pr) hkey
  obtain ⟨_, hj⟩ := Complete.some_dirs env.A mo (strToRowsumPairing pr) (l := l1)
    fun rs hrs => hkey rs (List.mem_append_left _ hrs)
  set f := Complete.dirOf env.A mo .quaternionType n (strToRowsumPairing pr) with hfdef
  have hwp : writePairs env.A n .quaternionType mo (strToRowsumPairing pr) = some ((l1 ++ l2).map f) := by
    unfold writePairs
    rw [hl, Option.bind_some]
    exact hw
  obtain ⟨l', _, hrun⟩ := pairsRun_some env.A hwp
  obtain ⟨p1, p2, p3⟩ := pairs_names hwp
  have hsub : (l1.map f).Sublist ((l1 ++ l2).map f) := by
    rw [List.map_append]
    exact List.sublist_append_left ..
  let G : Text × Dir → List Write := fun e => .mkdir "qts".toList (natText n) e.1 :: doubled "qts".toList (natText n) e.1 e.2
  refine ⟨((l1.map f).map G).flatten, ((l2.map f).map G).flatten, ?_, ?_, ?_⟩
  · rw [main_pairs env s hty hnn (mo := mo) hmo, hrun, mk_bind, pure_eq, List.append_nil]
    show (((l1 ++ l2).map f).map G).flatten = _
    rw [List.map_append, List.map_append, List.flatten_append]
  · intro h
    cases l2 with
    | nil => exact absurd rfl h
    | cons a l => simp [G]
  obtain ⟨r1, r2, r3, r4, _⟩ := separate_result (ty := "qts".toList) (n := natText n) (w := l1.map f)
    (p1.sublist (hsub.map _)) (fun e he => p2 e (hsub.subset he)) (interleave_flatten _) s hs
  have hne1 : l1.map f ≠ [] := by
    obtain ⟨q, _, hq⟩ := hex
    exact List.ne_nil_of_mem (List.mem_map_of_mem hq)
  set s1 := applyOps s ((l1.map f).map G).flatten with hs1
  obtain ⟨fd, hfd⟩ := Option.isSome_iff_exists.1 (r3 hne1)
  have hfd2 : (sortPairsSh s1 "qts".toList (natText n)).1 "qts".toList (natText n) =
      some { fd with dirs := fd.dirs.map fun e => (e.1, sortDirSh e.2) } := by
    show (if _ = _ then _ else _) = _
    rw [if_pos rfl]
    show (s1 "qts".toList (natText n)).map _ = _
    rw [show s1 "qts".toList (natText n) = some fd from hfd]
    rfl
  have hlist : Listing (l1.map f) (listedDirs env { fd with dirs := fd.dirs.map fun e => (e.1, sortDirSh e.2) }) := by
    refine Driver.listing_sorted env hf (D := fd.dirs) ?_ (fun e he => p3 e (hsub.subset he)) _ rfl
    have : subDirs s1 "qts".toList (natText n) = fd.dirs := by
      unfold subDirs
      rw [show s1 "qts".toList (natText n) = some fd from hfd]
      rfl
    rw [← this]
    exact r1
  obtain ⟨m, hm, hmem⟩ := hj _ hlist
  have hrow : ∀ q : QuadSeq, rowsums q = (q.a.sum, q.b.sum, q.c.sum, q.d.sum) := fun q => by
    unfold rowsums; simp only [rowsum_eq_sum]
  have hpm : ∀ q ∈ m, PMQuad n q := fun q hq => (Keys.ofType_wts ((hmem q).1 hq).1).1
  have hne : m ≠ [] := by
    obtain ⟨q, hq, hq'⟩ := hex
    exact List.ne_nil_of_mem ((hmem q).2 ⟨hq, by rw [← hrow]; exact hq'⟩)
  obtain ⟨r, hr, hnd, hx⟩ := Enumerate.joinPairs_spec hn (.inl rfl) hm hne hpm
  have hE := typeEquiv_equivalence n .quaternionType
  have hmem' : ∀ x, x ∈ r ↔ LeastInClass n .quaternionType x ∧
      ∃ q, IsQTS n q ∧ rowsums q ∈ l1 ∧ QTEquiv (fam n q) (fam n x) := by
    intro x
    rw [hx]
    constructor
    · rintro ⟨q, hq, hqx⟩
      obtain ⟨k1, k2⟩ := (hmem q).1 hq
      exact ⟨⟨typeEquiv_ofType (.inl rfl) k1 hqx.1.1 hqx.1.2, fun t ht hxt => hqx.2 t ⟨ht, hE.trans hqx.1.2 hxt⟩⟩, q, k1,
        by rw [hrow]; exact k2, hqx.1.2⟩
    · rintro ⟨⟨hx1, hx2⟩, q, k1, k2, k3⟩
      exact ⟨q, (hmem q).2 ⟨k1, by rw [← hrow]; exact k2⟩, ⟨(Keys.ofType_wts hx1).1, k3⟩,
        fun u hu => hx2 u hu.1 (hE.trans (hE.symm k3) hu.2)⟩
  have hrpm : ∀ x ∈ r, IsQTS n x := fun x hx => ((hmem' x).1 hx).1.1
  obtain ⟨t, ht, _⟩ := Conversion.resultText_spec (n := n) (l := r) fun q hq => (hrpm q hq).1
  obtain ⟨qt, hqt⟩ := Stages.qseq_some (n := n) (l := r) fun q hq => (hrpm q hq).1
  have hjrun := Stages.joinRun_some env (ty := .quaternionType) (r' := none) (second := none) hfd2
    (by unfold findWriteQuadSeq; rw [hr]; rfl)
    (fun m' hm' x hx => by
      rw [hm] at hm'
      cases hm'
      exact Joined.sorted_of_generated hl (List.mem_append_left _ (by rw [hrow]; exact ((hmem x).1 hx).2)))
    (fun _ x hx => (verify_of_ofType (show OfType n .quaternionType x from hrpm x hx)).2.1) ht hqt
    (fun l hl => by cases hl) (fun _ => rfl)
  have e5 := Stages.effect_puts (ty := "qts".toList) (n := natText n) (Stages.joinFiles t qt none)
    (s := (sortPairsSh s1 "qts".toList (natText n)).1) (by rw [hfd2]; rfl)
  refine ⟨_, r, by
    unfold runProgram
    rw [main_join env _ hty hnn, hjrun]
    rfl, ?_, hnd, hmem'⟩
  refine seqs_stored (fun x hx => (hrpm x hx).1) ht ?_
  have := e5.read "result.seq".toList
  refine this.trans ?_
  rfl

/-- For odd lengths equivalent sequences have the same row sums up to order and sign. -/
theorem rowsum_invariant {n : ℕ} [NeZero n] (hodd : ¬ Even n) (v : ℤ) {f g : Fam n} (h : QTEquiv f g) :
    (∃ t, |∑ i, f t i| = v) ↔ ∃ t, |∑ i, g t i| = v := by
  have hmove : ∀ f g : Fam n, QTMove f g → ((∃ t, |∑ i, f t i| = v) ↔ ∃ t, |∑ i, g t i| = v) := by
    rintro f g (⟨⟨o⟩⟩ | (h | ⟨u⟩) | (h | h) | ⟨t₀, t₁, t₂, _⟩)
    · have : ∀ t, ∑ i, shiftAll o f t i = ∑ i, f t i := fun t => Equiv.sum_comp (Equiv.addRight o) (f t)
      simp only [this]
    · exact absurd h hodd
    · have : ∀ t, ∑ i, autAll u f t i = ∑ i, f t i := fun t => Equiv.sum_comp (Units.mulLeft u) (f t)
      simp only [this]
    · exact absurd h hodd
    · exact absurd h hodd
    · have : ∀ t, |∑ i, swapFam t₁ t₂ (negAt t₀ f) t i| = |∑ i, f (Equiv.swap t₁ t₂ t) i| := by
        intro t
        simp only [swapFam, negAt]
        by_cases h : Equiv.swap t₁ t₂ t = t₀
        · simp only [h, if_true, Finset.sum_neg_distrib, abs_neg]
        · simp only [h, if_false]
      simp only [this]
      constructor
      · rintro ⟨t, h⟩
        exact ⟨Equiv.swap t₁ t₂ t, by rw [Equiv.swap_apply_self]; exact h⟩
      · rintro ⟨t, h⟩
        exact ⟨_, h⟩
  induction h with
  | rel f g h => exact hmove f g h
  | refl f => exact Iff.rfl
  | symm f g _ ih => exact ih.symm
  | trans f g k _ _ h1 h2 => exact h1.trans h2

/-- C86 fails: for length 7, if the command `pairs` is killed at the right time, sorting and joining end normally, and a
class of QT sequences is missing in `result.seq`. -/
theorem C86_silent_loss (env : Env F κ) (hf : Env.Fair env) (val : F → ℝ) {mo : MatchOption}
    (hN : Numerics env.A val 7 mo) (moT pr : Text) (hmo : strToMatchOption moT = some mo) (s : Store) (hs : Fresh s "qts".toList "7".toList) :
    ∃ pre post, (mainRun env s ["pairs".toList, "qts".toList, "7".toList, moT, pr]).ops = pre ++ post ∧
      post ≠ [] ∧
      ∃ s' r x, runProgram env (sortPairsSh (applyOps s pre) "qts".toList "7".toList).1
          ["join".toList, "qts".toList, "7".toList] = (s', true) ∧
        SeqsStored s' "qts".toList "7".toList "result.seq".toList r ∧ r ≠ [] ∧
        LeastInClass 7 .quaternionType x ∧ x ∉ r := by
  obtain ⟨pre, post, h1, h2, s', r, h3, h4, h5, h6⟩ := C86_interrupted_partial env hf val 7 (by norm_num) hN moT pr hmo
    [(1, 1, 1, 5)] [(1, 3, 3, 3)] (by decide +kernel) ⟨exA7, exA7_isQTS, by decide⟩ s hs
  obtain ⟨x, hx, hxe⟩ := least_exists (n := 7) (by norm_num) (.inl rfl) (show OfType 7 .quaternionType exB7 from exB7_isQTS)
  obtain ⟨y, hy, hye⟩ := least_exists (n := 7) (by norm_num) (.inl rfl) (show OfType 7 .quaternionType exA7 from exA7_isQTS)
  refine ⟨pre, post, h1, h2 (by simp), s', r, x, h3, h4,
    List.ne_nil_of_mem ((h6 y).2 ⟨hy, exA7, exA7_isQTS, by decide, hye⟩), hx, fun hxr => ?_⟩
  obtain ⟨_, q, hq, hqr, hqx⟩ := (h6 x).1 hxr
  have hqB : QTEquiv (fam 7 q) (fam 7 exB7) := .trans _ _ _ hqx (.symm _ _ hxe)
  have h7 := (rowsum_invariant (by decide) 5 hqB).1 ⟨.Z, by
    show |∑ i, cyc 7 q.d i| = 5
    rw [sum_cyc hq.1.d.1]
    have : rowsums q = (1, 1, 1, 5) := by simpa using hqr
    unfold rowsums at this
    simp only [rowsum_eq_sum, Prod.mk.injEq] at this
    rw [this.2.2.2]
    rfl⟩
  obtain ⟨t, ht⟩ := h7
  cases t
  · have : |∑ i, cyc 7 exB7.a i| = 5 := ht
    rw [sum_cyc (by rfl)] at this
    exact absurd this (by decide)
  · have : |∑ i, cyc 7 exB7.b i| = 5 := ht
    rw [sum_cyc (by rfl)] at this
    exact absurd this (by decide)
  · have : |∑ i, cyc 7 exB7.c i| = 5 := ht
    rw [sum_cyc (by rfl)] at this
    exact absurd this (by decide)
  · have : |∑ i, cyc 7 exB7.d i| = 5 := ht
    rw [sum_cyc (by rfl)] at this
    exact absurd this (by decide)

end Props
