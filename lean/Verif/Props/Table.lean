import Verif.Proofs.Table
import Verif.Props.Log

/-!
# Property C106: the printed table is read as the results
-/

namespace Props
open Model Spec Proofs Proofs.Table

/-! ## Helpers -/

/-- The cells of a line of the plain table, but for the length and the disk usage. -/
def midCells (wts : Bool) (r : Row) : List Text :=
  (if wts then [intText r.w] else []) ++ [intText r.q, intText r.m, fixed2 r.time, fixed2 r.qtTime, fixed2 r.hmTime, intText r.pairs]

/-- The cells of a line in LaTeX, but for the length. -/
def latexTail (wts : Bool) (r : Row) (disk : ℚ) : List Text :=
  (if wts then [intText r.w] else []) ++ [intText r.q, intText r.m, fixed2 r.time, intText r.pairs, fixed1 disk]

theorem textRow_cells (wts : Bool) (n : ℕ) (r : Row) (disk : ℚ) :
    textRow wts n r disk = rjust (natText n) 2 ++ (midCells wts r ++ [fixed1 disk]).flatMap fun x => rjust x 16 := by
  unfold textRow midCells
  cases wts <;> simp

theorem latexRow_cells (wts : Bool) (n : ℕ) (r : Row) (disk : ℚ) : latexRow wts n r disk = latexLine (natText n) (latexTail wts r disk) := by
  unfold latexRow latexLine latexTail
  cases wts <;> simp

theorem plain_mid (wts : Bool) (r : Row) (disk : ℚ) : ∀ c ∈ midCells wts r ++ [fixed1 disk], Plain c := by
  unfold midCells
  cases wts <;> simp [plain_int, plain_fixed2, plain_fixed1]

theorem plain_tail (wts : Bool) (r : Row) (disk : ℚ) : ∀ c ∈ latexTail wts r disk, Plain c := by
  unfold latexTail
  cases wts <;> simp [plain_int, plain_fixed2, plain_fixed1]

theorem mid_length {wts : Bool} {r : Row} {disk : ℚ} (h : Fits r disk) : ∀ c ∈ midCells wts r ++ [fixed1 disk], c.length ≤ 15 := by
  have i : ∀ {z : ℤ}, |z| < 10 ^ 14 → (intText z).length ≤ 15 := fun h => intText_length (k := 13) h
  unfold midCells
  cases wts <;> simp [i h.w, i h.q, i h.m, i h.pairs, fixed2_length h.time, fixed2_length h.qtTime, fixed2_length h.hmTime, fixed1_length h.disk]

theorem says_plain (wts : Bool) (n : ℕ) (r : Row) (disk : ℚ) :
    List.Forall₂ (Column.Says n r disk) (plainColumns wts) (natText n :: (midCells wts r ++ [fixed1 disk])) := by
  unfold midCells plainColumns
  cases wts <;> simp [Column.Says, Opb.number_nat, Opb.number_int, nearest2, nearest1]

theorem says_latex (wts : Bool) (n : ℕ) (r : Row) (disk : ℚ) :
    List.Forall₂ (Column.Says n r disk) (latexColumns wts) (natText n :: latexTail wts r disk) := by
  unfold latexTail latexColumns
  cases wts <;> simp [Column.Says, Opb.number_nat, Opb.number_int, nearest2, nearest1]

theorem notin_nl {c : Text} (h : Plain c) : '\n' ∉ c := plain_notin h (by decide) (by decide) (by decide)

theorem textRow_nl (wts : Bool) (n : ℕ) (r : Row) (disk : ℚ) : '\n' ∉ textRow wts n r disk := by
  rw [textRow_cells, List.mem_append, List.mem_flatMap]
  rintro (h | ⟨c, hc, h⟩)
  · exact newline_rjust (notin_nl (plain_nat n)) h
  · exact newline_rjust (notin_nl (plain_mid wts r disk c hc)) h

theorem latexRow_nl (wts : Bool) (n : ℕ) (r : Row) (disk : ℚ) : '\n' ∉ latexRow wts n r disk := by
  rw [latexRow_cells, latexLine, List.mem_append, List.mem_append, List.mem_flatMap]
  rintro ((h | ⟨c, hc, h⟩) | h)
  · exact notin_nl (plain_nat n) h
  · rcases List.mem_append.1 h with h | h
    · revert h; decide
    · exact notin_nl (plain_tail wts r disk c hc) h
  · revert h; decide

/-! ## C106: the lines -/

/-- C106. A line of the plain table: its words are the cells in the order of the columns, as long as the numbers have at
most 15 characters. -/
theorem C106_words (wts : Bool) (n : ℕ) (r : Row) (disk : ℚ) (hf : Fits r disk) :
    List.Forall₂ (Column.Says n r disk) (plainColumns wts) (Spec.words (textRow wts n r disk)) := by
  rw [textRow_cells]
  have h := words_cells (natText n) (midCells wts r ++ [fixed1 disk])
    (plain_notin (plain_nat n) (by decide) (by decide) (by decide)) (Txt.natText_ne n) fun c hc =>
      ⟨plain_notin (plain_mid wts r disk c hc) (by decide) (by decide) (by decide), (plain_mid wts r disk c hc).1, mid_length hf c hc⟩
  rw [rjust, List.append_assoc, words_blanks, h]
  exact says_plain wts n r disk

/-- C106. The headings and the cells stand in the same places, for lengths below 100. -/
theorem C106_aligned (wts : Bool) (n : ℕ) (hn : n < 100) (r : Row) (disk : ℚ) (hf : Fits r disk) :
    fields ((plainColumns wts).length - 2) (textHead wts) = (plainColumns wts).map Column.heading ∧
    fields ((plainColumns wts).length - 2) (textRow wts n r disk) = Spec.words (textRow wts n r disk) ∧
    (textRow wts n r disk).length = (textHead wts).length := by
  have hl := mid_length (wts := wts) hf
  have hn2 : (natText n).length ≤ 2 := natText_length (k := 1) (by omega)
  have h := words_cells (natText n) (midCells wts r ++ [fixed1 disk])
    (plain_notin (plain_nat n) (by decide) (by decide) (by decide)) (Txt.natText_ne n) fun c hc =>
      ⟨plain_notin (plain_mid wts r disk c hc) (by decide) (by decide) (by decide), (plain_mid wts r disk c hc).1, hl c hc⟩
  have hm : (midCells wts r).length = (plainColumns wts).length - 2 := by cases wts <;> rfl
  refine ⟨by cases wts <;> decide +kernel, ?_, ?_⟩
  · rw [textRow_cells, ← hm, fields_cells _ hn2 (plain_ends (plain_nat n)) _ _ fun x hx =>
      ⟨by have := hl x hx; omega, plain_ends (plain_mid wts r disk x hx)⟩]
    conv_rhs => rw [rjust, List.append_assoc, words_blanks, h]
  · have e : ∀ cs : List Text, (∀ c ∈ cs, c.length ≤ 15) → (cs.flatMap fun x => rjust x 16).length = 16 * cs.length := by
      intro cs hcs
      induction cs with
      | nil => rfl
      | cons c cs ih =>
        rw [List.flatMap_cons, List.length_append, rjust_length (by have := hcs c List.mem_cons_self; omega),
          ih fun x hx => hcs x (List.mem_cons_of_mem _ hx), List.length_cons]
        omega
    rw [textRow_cells, List.length_append, rjust_length hn2, e _ hl, List.length_append, hm, List.length_singleton]
    cases wts <;> decide +kernel

/-- C106. A line in LaTeX, for all numbers. -/
theorem C106_latex (wts : Bool) (n : ℕ) (r : Row) (disk : ℚ) :
    latexCells (latexHead wts) = some ((latexColumns wts).map Column.latexHeading) ∧
    ∃ cells, latexCells (latexRow wts n r disk) = some cells ∧ List.Forall₂ (Column.Says n r disk) (latexColumns wts) cells := by
  refine ⟨by cases wts <;> decide +kernel, _, ?_, says_latex wts n r disk⟩
  rw [latexRow_cells]
  refine latexCells_line _ _ fun c hc => ?_
  have hp : Plain c := by
    rcases List.mem_cons.1 hc with rfl | hc
    · exact plain_nat n
    · exact plain_tail wts r disk c hc
  exact ⟨plain_notin hp (by decide) (by decide) (by decide), plain_ends hp⟩

-- The bound on the numbers is needed: with 16 digits two columns run together.
example : Spec.words (textRow false 7 { q := 1, w := -1, m := 2, time := 1, qtTime := 1, hmTime := 1, pairs := 10 ^ 15 } 0) ≠
    ["7".toList, "1".toList, "2".toList, "1.00".toList, "1.00".toList, "1.00".toList, "1000000000000000".toList, "0.0".toList] := by
  decide +kernel

/-! ## C106: the disk usage -/

theorem bytes_text : ∀ t : Text, (String.ofList t).utf8ByteSize = fileSize t
  | [] => rfl
  | c :: t => by
    rw [show c :: t = [c] ++ t from rfl, String.ofList_append, String.utf8ByteSize_append, bytes_text t,
      show String.ofList [c] = String.singleton c from rfl, String.utf8ByteSize_singleton]
    rfl

/-- C106. The disk usage in bytes is the number of bytes of all files in the row-sum directories of the length; the results
themselves and other lengths are not counted. -/
theorem C106_disk (s : Store) (ty n : Text) (d : FindDir) (h : s ty n = some d) :
    diskUsage s ty n * 1048576 = ((((d.dirs.flatMap Prod.snd).map fun f => (String.ofList f.2).utf8ByteSize).sum : ℕ) : ℚ) := by
  unfold diskUsage
  rw [h]
  dsimp only
  simp only [bytes_text]
  generalize d.dirs = l
  induction l with
  | nil => simp
  | cons e l ih =>
    rw [List.map_cons, List.sum_cons, add_mul, ih, List.flatMap_cons, List.map_append, List.sum_append]
    push_cast
    ring

/-- Two directories, three files; a file of the results is not counted. -/
example : diskUsage (fun _ _ => some ⟨[("result.seq".toList, "+-ijk".toList)],
    [("rowsum_1_1_3_3".toList, [("a".toList, "12".toList), ("b".toList, "345é".toList)]),
      ("rowsum_1_1_1_5".toList, [("c".toList, "6".toList)])]⟩) "qts".toList "5".toList = 8 / 1048576 := by decide +kernel

/-! ## C106: the whole table -/

/-- The rows of `collect_results.py`. -/
def tableRow (logs : ℕ → Option Text) (s : Store) (ty : Text) (n : ℕ) : Row × ℚ :=
  (collectRow (logs n) s ty (natText n), if (logs n).isSome then diskUsage s ty (natText n) else -1)

/-- C106. The plain table has the headings and one line for every length from the first to the last, in order; the
words of a line are the numbers of that length. -/
theorem C106_plain (logs : ℕ → Option Text) (s : Store) (first last : ℕ) (ty kind : Text) (hk : kind ≠ "l".toList)
    (hf : ∀ n, first ≤ n → n ≤ last → Fits (tableRow logs s ty n).1 (tableRow logs s ty n).2) :
    ∃ head lines, pieces '\n' (collectResults logs s first last ty kind) = head :: lines ++ [[]] ∧
      fields ((plainColumns (ty = "wts".toList)).length - 2) head = (plainColumns (ty = "wts".toList)).map Column.heading ∧
      List.Forall₂ (fun n l => List.Forall₂ (Column.Says n (tableRow logs s ty n).1 (tableRow logs s ty n).2)
        (plainColumns (ty = "wts".toList)) (Spec.words l)) (List.range' first (last + 1 - first)) lines := by
  refine ⟨textHead (ty = "wts".toList), (List.range' first (last + 1 - first)).map fun n =>
    textRow (ty = "wts".toList) n (tableRow logs s ty n).1 (tableRow logs s ty n).2, ?_, ?_, ?_⟩
  · unfold collectResults createTable
    simp only [hk, decide_false, List.map_map]
    rw [if_neg (by simp)]
    refine pieces_lines _ fun l hl => ?_
    rcases List.mem_cons.1 hl with rfl | hl
    · cases decide (ty = "wts".toList) <;> decide +kernel
    · obtain ⟨n, _, rfl⟩ := List.mem_map.1 hl
      exact textRow_nl _ _ _ _
  · cases decide (ty = "wts".toList) <;> decide +kernel
  · rw [List.forall₂_map_right_iff, List.forall₂_same]
    intro n hn
    rw [List.mem_range'_1] at hn
    exact C106_words _ n _ _ (hf n hn.1 (by omega))

/-- C106. The table in LaTeX: the headings, a rule, one line for every length. -/
theorem C106_latex_table (logs : ℕ → Option Text) (s : Store) (first last : ℕ) (ty : Text) :
    ∃ head lines, pieces '\n' (collectResults logs s first last ty "l".toList) = head :: "\\hline".toList :: lines ++ [[]] ∧
      latexCells head = some ((latexColumns (ty = "wts".toList)).map Column.latexHeading) ∧
      List.Forall₂ (fun n l => ∃ cells, latexCells l = some cells ∧
        List.Forall₂ (Column.Says n (tableRow logs s ty n).1 (tableRow logs s ty n).2) (latexColumns (ty = "wts".toList)) cells)
        (List.range' first (last + 1 - first)) lines := by
  refine ⟨latexHead (ty = "wts".toList), (List.range' first (last + 1 - first)).map fun n =>
    latexRow (ty = "wts".toList) n (tableRow logs s ty n).1 (tableRow logs s ty n).2, ?_, ?_, ?_⟩
  · unfold collectResults createTable
    simp only [decide_true, List.map_map]
    rw [if_pos trivial]
    refine pieces_lines _ fun l hl => ?_
    rcases List.mem_cons.1 hl with rfl | hl
    · cases decide (ty = "wts".toList) <;> decide +kernel
    · rcases List.mem_cons.1 hl with rfl | hl
      · decide +kernel
      · obtain ⟨n, _, rfl⟩ := List.mem_map.1 hl
        exact latexRow_nl _ _ _ _
  · exact (C106_latex _ 0 ⟨0, 0, 0, 0, 0, 0, 0⟩ 0).1
  · rw [List.forall₂_map_right_iff, List.forall₂_same]
    intro n _
    exact (C106_latex _ n _ _).2

/-- The hypotheses are met: two lengths, one without a log. -/
example : let logs : ℕ → Option Text := fun n => if n = 5 then some (
      "Generated 12 total pairs\nTotal time: 0.25 seconds\nFound 3 qts after reducing to equivalence\nMatching took: 1.50 seconds".toList) else none
    (∀ n, 5 ≤ n → n ≤ 6 → Fits (tableRow logs (fun _ _ => none) "qts".toList n).1 (tableRow logs (fun _ _ => none) "qts".toList n).2) ∧
    collectResults logs (fun _ _ => none) 5 6 "qts".toList "l".toList =
      ("$n$ & $Q_{\\text{equ}}$ & $M_{\\text{equ}}$ & Time (s) & Pairs & Space \\\\\n\\hline\n" ++
        "5 & 3 & -1 & 1.75 & 12 & 0.0 \\\\\n6 & -1 & -1 & -1.00 & -1 & -1.0 \\\\\n").toList ∧
    collectResults logs (fun _ _ => none) 5 6 "qts".toList "t".toList =
      (" n         Q_{equ}         M_{equ}        Time (s) QT Equ Time (s) HM Equ Time (s)           Pairs Disk usage (MB)\n" ++
        " 5               3              -1            1.75           -1.00           -1.00              12             0.0\n" ++
        " 6              -1              -1           -1.00           -1.00           -1.00              -1            -1.0\n").toList := by
  intro logs
  refine ⟨fun n h1 h2 => ?_, by decide +kernel, by decide +kernel⟩
  have h : n = 5 ∨ n = 6 := by omega
  rcases h with rfl | rfl
  · have e : tableRow logs (fun _ _ => none) "qts".toList 5 = ({ q := 3, w := -1, m := -1, time := 7 / 4, qtTime := -1, hmTime := -1, pairs := 12 }, 0) := by
      decide +kernel
    rw [e]
    constructor <;> norm_num [abs_lt]
  · have e : tableRow logs (fun _ _ => none) "qts".toList 6 = ({ q := -1, w := -1, m := -1, time := -1, qtTime := -1, hmTime := -1, pairs := -1 }, -1) := by
      decide +kernel
    rw [e]
    constructor <;> norm_num [abs_lt]

/-! ## C106: from the driver to the table -/

variable {F κ : Type} [DecidableEq κ]

theorem one_line {P : ℕ → Text → Prop} {n : ℕ} {lines : List Text} (h : List.Forall₂ P (List.range' n (n + 1 - n)) lines) :
    ∃ l, lines = [l] ∧ P n l := by
  rw [show n + 1 - n = 1 by omega] at h
  cases h with
  | cons h1 h2 =>
    cases h2
    exact ⟨_, rfl, h1⟩

/-- C106. The driver on QT sequences with `-h`, then the table in LaTeX for this length: the line reads the length, the number of
QT classes, the number of Hadamard classes, the time, the number of pairs. -/
theorem C106_driver_qts (env : Env F κ) (hf : Env.Fair env) (hc : ExactLabelling env.canon) (val : F → ℝ) (n : ℕ) [NeZero n]
    (hn : n ≤ 31) (flags : List Flag) (hh : .h ∈ flags) (hN : Numerics env.A val n (flagMatching flags)) (hex : ∃ q, IsQTS n q) (s : Store)
    (hr : Ready s "qts".toList (natText n) flags) (tm : Terminal) (old : Option Text) :
    ∃ s', driverSh env "qts".toList (natText n) flags s = (s', 0) ∧ ∃ head line len q m time pairs disk,
      pieces '\n' (collectResults (fun _ => driverLog env tm "qts".toList (natText n) flags s old) s' n n "qts".toList "l".toList) =
        [head, "\\hline".toList, line, []] ∧
      latexCells head = some ["$n$".toList, "$Q_{\\text{equ}}$".toList, "$M_{\\text{equ}}$".toList, "Time (s)".toList, "Pairs".toList,
        "Space".toList] ∧
      latexCells line = some [len, q, m, time, pairs, disk] ∧ number len = some (n : ℤ) ∧
      number q = some (classCount n .quaternionType : ℤ) ∧ number m = some (hadamardCount n : ℤ) ∧
      Nearest2 time ((tm.totalTime : ℚ) / 100 + tm.sortTime / 100 + tm.matchTime / 100) ∧
      number pairs = some (countPairsSh s' "qts".toList (natText n) : ℤ) := by
  obtain ⟨s', h1, h2⟩ := C89_qts env hf hc val n hn flags hN hex s hr tm old
  refine ⟨s', h1, ?_⟩
  obtain ⟨head, lines, k1, k2, k3⟩ := C106_latex_table (fun _ => driverLog env tm "qts".toList (natText n) flags s old) s' n n "qts".toList
  obtain ⟨l, rfl, cells, k4, k5⟩ := one_line k3
  rw [show latexColumns (decide ("qts".toList = "wts".toList)) = [.length, .qts, .matrices, .time, .pairs, .disk] by decide] at k2 k5
  rcases k5 with _ | ⟨p1, _ | ⟨p2, _ | ⟨p3, _ | ⟨p4, _ | ⟨p5, _ | ⟨p6, ⟨⟩⟩⟩⟩⟩⟩⟩
  simp only [Column.Says, tableRow, h2, if_pos hh] at p1 p2 p3 p4 p5
  exact ⟨head, l, _, _, _, _, _, _, k1, k2, k4, p1, p2, p3, p4, p5⟩

/-- C106. The same for Williamson-type sequences, with the number of Williamson-type classes. -/
theorem C106_driver_wts (env : Env F κ) (hf : Env.Fair env) (hc : ExactLabelling env.canon) (val : F → ℝ) (n : ℕ) [NeZero n]
    (hn : n ≤ 31) (flags : List Flag) (hh : .h ∈ flags) (hN : Numerics env.A val n (flagMatching flags)) (hex : ∃ q, IsWTS n q) (s : Store)
    (hr : Ready s "wts".toList (natText n) flags) (tm : Terminal) (old : Option Text) :
    ∃ s', driverSh env "wts".toList (natText n) flags s = (s', 0) ∧ ∃ head line len w q m time pairs disk,
      pieces '\n' (collectResults (fun _ => driverLog env tm "wts".toList (natText n) flags s old) s' n n "wts".toList "l".toList) =
        [head, "\\hline".toList, line, []] ∧
      latexCells head = some ["$n$".toList, "$W_{\\text{equ}}$".toList, "$Q_{\\text{equ}}$".toList, "$M_{\\text{equ}}$".toList,
        "Time (s)".toList, "Pairs".toList, "Space".toList] ∧
      latexCells line = some [len, w, q, m, time, pairs, disk] ∧ number len = some (n : ℤ) ∧
      number w = some (classCount n .williamsonType : ℤ) ∧ number q = some (classCount n .quaternionType : ℤ) ∧
      number m = some (hadamardCount n : ℤ) ∧
      Nearest2 time ((tm.totalTime : ℚ) / 100 + tm.sortTime / 100 + tm.matchTime / 100) ∧
      number pairs = some (countPairsSh s' "wts".toList (natText n) : ℤ) := by
  obtain ⟨s', h1, h2⟩ := C89_wts env hf hc val n hn flags hN hex s hr tm old
  refine ⟨s', h1, ?_⟩
  obtain ⟨head, lines, k1, k2, k3⟩ := C106_latex_table (fun _ => driverLog env tm "wts".toList (natText n) flags s old) s' n n "wts".toList
  obtain ⟨l, rfl, cells, k4, k5⟩ := one_line k3
  rw [show latexColumns (decide ("wts".toList = "wts".toList)) = [.length, .wts, .qts, .matrices, .time, .pairs, .disk] by decide] at k2 k5
  rcases k5 with _ | ⟨p1, _ | ⟨p2, _ | ⟨p3, _ | ⟨p4, _ | ⟨p5, _ | ⟨p6, _ | ⟨p7, ⟨⟩⟩⟩⟩⟩⟩⟩⟩
  simp only [Column.Says, tableRow, h2, if_pos hh] at p1 p2 p3 p4 p5 p6
  exact ⟨head, l, _, _, _, _, _, _, _, k1, k2, k4, p1, p2, p3, p4, p5, p6⟩

-- The hypotheses are met as in C89.
example : ∃ (κ : Type) (_ : DecidableEq κ) (env : Env ℝ κ) (s : Store), Numerics env.A id 5 (flagMatching [.h]) ∧ Env.Fair env ∧
    ExactLabelling env.canon ∧ (∃ q, IsQTS 5 q) ∧ (∃ q, IsWTS 5 q) ∧ Ready s "qts".toList (natText 5) [.h] ∧
    Ready s "wts".toList (natText 5) [.h] := by
  obtain ⟨κ, canon, hc⟩ := exact_exists
  exact ⟨κ, Classical.decEq κ, ⟨exactFl, canon, id, id, id, id, false⟩, fun a b => none, C28_numerics 5 _,
    ⟨fun _ => .refl _, fun _ => .refl _, fun _ => .refl _, fun _ => .refl _⟩, hc, ⟨exQTS5, exQTS5_isQTS⟩,
    ⟨exQTS5, (C04_isQTS_iff_isWTS 5 _).1 exQTS5_isQTS⟩, ⟨by decide, by unfold IsWord; decide⟩, by decide, by unfold IsWord; decide⟩

end Props
