/-
The commands of the console: benchmarks and the conversion of the examples (C80).
-/
import Verif.Model.Commands
import Verif.Props.Options
import Verif.Props.Results

namespace FL
open Scalar

namespace Console

section General
variable {S : Type} [ScalarText S] [Truncate S] [Heap S]

/-! ### benchmarks -/

omit [Truncate S] in
theorem runOnce_engine (b : Benchmark S) (h : b.engine.isSome = true) : b.runOnce.1.engine.isSome = true := by
  unfold Benchmark.runOnce
  cases he : b.engine with
  | none => rw [he] at h; cases h
  | some e => rfl

omit [Truncate S] in
/-- running one after the other is running as many times -/
theorem runs_iff (clock : Nat → S) (n i : Nat) (b b' : TimedBenchmark S) (h : b.bench.engine.isSome = true) :
    runs clock i n b = (b', none) ↔ b.run ((List.range' i n).map clock) = (b', none) := by
  induction n generalizing i b with
  | zero =>
    have : b.bench.engine.isNone = false := by cases hb : b.bench.engine <;> simp_all
    simp [runs, TimedBenchmark.run, TimedBenchmark.run.go, this]
  | succ n ih =>
    have hq := runOnce_engine b.bench h
    rw [List.range'_succ, List.map_cons]
    unfold runs TimedBenchmark.run
    unfold TimedBenchmark.run.go
    cases ho : b.bench.runOnce with
    | mk q err =>
      rw [ho] at hq
      cases err with
      | some err => simp
      | none =>
        have hn : q.engine.isNone = false := by cases hb : q.engine <;> simp_all
        simp only
        have : TimedBenchmark.run.go q [] = (q, none) := by simp [TimedBenchmark.run.go, hn]
        rw [this]
        simp only
        rw [ih (i + 1) ⟨b.name, q, b.times ++ [clock i]⟩ hq]
        unfold TimedBenchmark.run
        cases hg : TimedBenchmark.run.go q ((List.range' (i + 1) n).map clock) with
        | mk r err => cases err <;> simp

omit [Truncate S] [Heap S] in
theorem prepareText_engine (b b' : Benchmark S) (text : Str) (n : Int) (h : b.prepareText text n = .ok b') : b'.engine = b.engine := by
  rw [Benchmark.prepareText_spec] at h
  generalize Benchmark.readLines (S := S) true _ = z at h
  cases z with
  | error err => cases h
  | ok rows => cases h; rfl

/-- What a benchmark finds: the engine of the first file is evaluated `n` times on the data of the second, without an exception, in the times of
the clock; `rs` are the texts of its results. -/
structure Measured (u : Setup S) (G : Registry S) (k : Nat) (fll fld : Str) (n : Nat) (e : Engine S) (rs : List (Str × Str)) : Prop where
  engine : ∃ text, u.world.files fll = some text ∧ Imports G (cs! "fll") text e
  results : ∃ data b b' cells, u.world.files fld = some data ∧
    (⟨some e, [], [], macheps⟩ : Benchmark S).prepareText data (-1) = .ok b ∧
    (⟨e.name, b, []⟩ : TimedBenchmark S).run ((List.range n).map (u.clock k)) = (b', none) ∧
    b'.bench.canComputeErrors = true ∧
    b'.results u.library none .nanoSeconds true = .ok cells ∧ rs = TimedBenchmark.texts u.printer cells

omit [Truncate S] in
theorem run_times (b b' : TimedBenchmark S) (ts : List S) (h : b.run ts = (b', none)) : b'.times = b.times ++ ts ∧ b'.name = b.name := by
  unfold TimedBenchmark.run at h
  cases hg : TimedBenchmark.run.go b.bench ts with
  | mk q err =>
    rw [hg] at h
    cases err with
    | some err => cases h
    | none => cases h; exact ⟨rfl, rfl⟩

theorem Measured.names {u : Setup S} {G : Registry S} {k : Nat} {fll fld : Str} {n : Nat} {e : Engine S} {rs : List (Str × Str)}
    (h : Measured u G k fll fld n e rs) : rs.map (·.1) = TimedBenchmark.expectedNames true n := by
  obtain ⟨-, data, b, b', cells, -, -, h1, h2, h3, rfl⟩ := h
  have := TimedBenchmark.results_names _ _ _ _ _ _ h3
  rw [h2, (run_times _ _ _ h1).1] at this
  unfold TimedBenchmark.texts
  rw [List.map_map]
  simp only [List.nil_append, List.length_map, List.length_range, if_true] at this
  exact this

theorem Measured.row {u : Setup S} {G : Registry S} {k : Nat} {fll fld : Str} {n : Nat} {e : Engine S} {rs : List (Str × Str)}
    (h : Measured u G k fll fld n e rs) :
    benchmarkRow u G k fll fld n = .ok (TimedBenchmark.format rs .horizontal .body (cs! "\t")) := by
  obtain ⟨⟨text, h1, h2⟩, data, b, b', cells, h3, h4, h6, -, h7, rfl⟩ := h
  have h5 : b.engine.isSome = true := by rw [prepareText_engine _ _ _ _ h4]; rfl
  have hp : prepared u.world G fll fld = .ok ⟨e.name, b, []⟩ := by
    unfold prepared
    have hi : ({} : FllImporter).fromString G (endLines text) = .ok e := by
      have := importText_endLines G (cs! "fll") text
      rw [h2.eq] at this
      exact this
    rw [h1]
    simp only [hi, h3]
    show (do let b ← (⟨some e, [], [], macheps⟩ : Benchmark S).prepareText data (-1); _) = _
    rw [h4]
    rfl
  unfold benchmarkRow
  rw [hp]
  have hr := (runs_iff (u.clock k) n 0 ⟨e.name, b, []⟩ b' h5).2 (by rw [← List.range_eq_range']; exact h6)
  show (match runs (u.clock k) 0 (n : Int).toNat ⟨e.name, b, []⟩ with
    | (_, some err) => _
    | (b, none) => _) = _
  rw [Int.toNat_natCast, hr]
  simp only
  rw [h7]
  rfl

theorem join_intercalate (ts : List Str) (sep : Str) : Op.join ts sep = sep.intercalate ts := by
  induction ts with
  | nil => rfl
  | cons t ts ih =>
    cases ts with
    | nil => simp [Op.join]
    | cons v vs => rw [Op.join, ih, List.intercalate_cons_cons]

omit [Truncate S] [Heap S] in
theorem headerLine_eq (n : Nat) :
    headerLine (S := S) n = .ok (['\t'].intercalate (TimedBenchmark.expectedNames true n) ++ ['\n']) := by
  unfold headerLine
  rw [TimedBenchmark.header_spec, if_neg (by omega)]
  show Except.ok _ = _
  rw [Int.toNat_natCast, join_intercalate]

omit [Truncate S] [Heap S] in
theorem headerLine_negative (n : Int) (h : n < 0) : headerLine (S := S) n = .error .outOfRange := by
  unfold headerLine
  rw [TimedBenchmark.header_spec, if_pos h]
  rfl

/-- C80.  The values of a row: the name of the engine, its numbers of variables, the runs asked for. -/
theorem Measured.values {u : Setup S} {G : Registry S} {k : Nat} {fll fld : Str} {n : Nat} {e : Engine S} {rs : List (Str × Str)}
    (h : Measured u G k fll fld n e rs) :
    rs.lookup (cs! "library") = some u.library ∧ rs.lookup (cs! "name") = some e.name ∧
    rs.lookup (cs! "runs") = some (Nat.toDigits 10 n) := by
  obtain ⟨-, data, b, b', cells, -, h0, h1, h2, h3, rfl⟩ := h
  obtain ⟨e', he, k1, k2, -, -, -, -, k7, -⟩ := TimedBenchmark.engine_results _ _ _ _ _ _ h3
  obtain ⟨t1, t2⟩ := run_times _ _ _ h1
  have look : ∀ (cs : List (Result S)) (x : Str) (c : Cell S), cs.lookup x = some c → (TimedBenchmark.texts u.printer cs).lookup x = some (c.str u.printer) := by
    intro cs x c
    induction cs with
    | nil => intro h; cases h
    | cons q cs ih =>
      obtain ⟨a, d⟩ := q
      intro h
      simp only [TimedBenchmark.texts, List.map_cons, List.lookup_cons] at h ⊢
      split
      · rename_i hx
        rw [hx] at h
        simp only [Option.some.injEq] at h
        rw [h]
      · rename_i hx
        rw [hx] at h
        exact ih h
  refine ⟨look _ _ _ k1, ?_, ?_⟩
  · rw [look _ _ _ k2, t2]; rfl
  · rw [look _ _ _ k7, t1]
    simp [Cell.str]

/-- the row of a table: one line, with a cell for each result -/
theorem row_cells (rs : List (Str × Str)) (h0 : rs ≠ []) (hf : TimedBenchmark.Fits '\t' rs) :
    (TimedBenchmark.format rs .horizontal .body (cs! "\t")).splitOn '\t' = rs.map (·.2) ∧
    '\n' ∉ TimedBenchmark.format rs .horizontal .body (cs! "\t") := by
  obtain ⟨-, -, h, -, h'⟩ := TimedBenchmark.format_horizontal rs h0 '\t' (by decide) hf
  exact ⟨h, h'⟩

theorem expectedNames_ne (errors : Bool) (n : Nat) : TimedBenchmark.expectedNames errors n ≠ [] := by
  simp [TimedBenchmark.expectedNames]

theorem names_plain (c : Char) (hc : c = '\t' ∨ c = '\n') (n : Nat) : ∀ t ∈ TimedBenchmark.expectedNames true n, c ∉ t := by
  intro t ht
  unfold TimedBenchmark.expectedNames at ht
  rcases List.mem_append.1 ht with ht | ht
  · have : ∀ t ∈ ([cs! "library", cs! "name", cs! "inputs", cs! "outputs", cs! "ruleBlocks", cs! "rules", cs! "runs", cs! "evaluations"]
        ++ (if true then [cs! "outputVariable", cs! "range", cs! "tolerance", cs! "errors", cs! "nfErrors", cs! "accErrors",
        cs! "rmse", cs! "nrmse"] else []) ++ [cs! "units", cs! "sum(t)", cs! "mean(t)", cs! "sd(t)"] : List Str), '\t' ∉ t ∧ '\n' ∉ t := by decide
    rcases hc with rfl | rfl
    exacts [(this t ht).1, (this t ht).2]
  · obtain ⟨i, -, rfl⟩ := List.mem_map.1 ht
    intro hm
    rcases List.mem_cons.1 hm with e | hm
    · rcases hc with rfl | rfl <;> cases e
    · have := Nat.isDigit_of_mem_toDigits (by decide) (by decide) hm
      rcases hc with rfl | rfl <;> cases this

/-- the lines of a text of lines, each of them ended -/
theorem splitOn_lines (ls : List Str) (h : ∀ l ∈ ls, '\n' ∉ l) : (ls.flatMap fun l => l ++ ['\n']).splitOn '\n' = ls ++ [[]] := by
  have e : (ls.flatMap fun l => l ++ ['\n']) = ['\n'].intercalate (ls ++ [[]]) := by
    induction ls with
    | nil => rfl
    | cons l ls ih =>
      rw [List.flatMap_cons, ih fun l hl => h l (List.mem_cons_of_mem _ hl), List.cons_append]
      cases ls with
      | nil => simp [List.intercalate_cons_cons]
      | cons v vs => rw [List.cons_append, List.intercalate_cons_cons]
  rw [e, List.splitOn_intercalate]
  · intro l hl
    rcases List.mem_append.1 hl with hl | hl
    · exact h l hl
    · rw [List.mem_singleton.1 hl]; simp
  · simp

/-- the benchmarks of a list are measured one after the other -/
def AllMeasured (u : Setup S) (G : Registry S) (n : Nat) : Nat → List (Str × Str) → List (List (Str × Str)) → Prop
  | _, [], [] => True
  | k, p :: ps, rs :: rss => (∃ e, Measured u G k p.1 p.2 n e rs) ∧ TimedBenchmark.Fits '\t' rs ∧ AllMeasured u G n (k + 1) ps rss
  | _, _, _ => False

theorem rows_eq {u : Setup S} {G : Registry S} {n : Nat} (ps : List (Str × Str)) (rss : List (List (Str × Str))) (k : Nat)
    (h : AllMeasured u G n k ps rss) : ∃ rows : List Str, benchmarkRows u G n k ps = (rows.flatMap fun l => l ++ ['\n'], none) ∧
      rows.map (fun l => l.splitOn '\t') = rss.map (fun rs => rs.map (·.2)) ∧ (∀ l ∈ rows, '\n' ∉ l) ∧
      (∀ rs ∈ rss, rs.map (·.1) = TimedBenchmark.expectedNames true n) ∧ rss.length = ps.length := by
  induction ps generalizing k rss with
  | nil =>
    cases rss with
    | nil => exact ⟨[], rfl, rfl, by simp, by simp, rfl⟩
    | cons rs rss => exact h.elim
  | cons p ps ih =>
    cases rss with
    | nil => exact h.elim
    | cons rs rss =>
      obtain ⟨⟨e, h1⟩, h2, h3⟩ := h
      obtain ⟨rows, k1, k2, k3, k4, k5⟩ := ih rss (k + 1) h3
      have hn := h1.names
      have h0 : rs ≠ [] := by rintro rfl; exact expectedNames_ne true n hn.symm
      obtain ⟨c1, c2⟩ := row_cells rs h0 h2
      refine ⟨TimedBenchmark.format rs .horizontal .body (cs! "\t") :: rows, ?_, ?_, ?_, ?_, by simp [k5]⟩
      · unfold benchmarkRows
        rw [h1.row]
        simp only [k1, List.flatMap_cons]
      · rw [List.map_cons, List.map_cons, c1, k2]
      · intro l hl
        rcases List.mem_cons.1 hl with rfl | hl
        exacts [c2, k3 l hl]
      · intro x hx
        rcases List.mem_cons.1 hx with rfl | hx
        exacts [hn, k4 x hx]

/-- A table of benchmarks: a line of the names and a line for each benchmark, with a cell for each name. -/
structure IsTable (n : Nat) (rss : List (List (Str × Str))) (text : Str) : Prop where
  lines : ∃ (head : Str) (rows : List Str), text.splitOn '\n' = head :: rows ++ [[]] ∧ head.splitOn '\t' = TimedBenchmark.expectedNames true n ∧
    rows.map (fun l => l.splitOn '\t') = rss.map (fun rs => rs.map (·.2))
  names : ∀ rs ∈ rss, rs.map (·.1) = TimedBenchmark.expectedNames true n

theorem table_spec {u : Setup S} {G : Registry S} {n : Nat} (ps : List (Str × Str)) (rss : List (List (Str × Str)))
    (h : AllMeasured u G n 0 ps rss) : ∃ text, benchmarkTable u G n ps = (text, none) ∧ IsTable n rss text := by
  obtain ⟨rows, h1, h2, h3, h4, -⟩ := rows_eq ps rss 0 h
  have hh : '\n' ∉ ['\t'].intercalate (TimedBenchmark.expectedNames true n) :=
    TimedBenchmark.intercalate_notMem '\t' '\n' (by decide) _ (names_plain '\n' (.inr rfl) n)
  refine ⟨['\t'].intercalate (TimedBenchmark.expectedNames true n) ++ ['\n'] ++ rows.flatMap fun l => l ++ ['\n'], ?_,
    ⟨['\t'].intercalate (TimedBenchmark.expectedNames true n), rows, ?_, ?_, h2⟩, h4⟩
  · unfold benchmarkTable
    rw [headerLine_eq]
    simp only [h1]
  · have := splitOn_lines (['\t'].intercalate (TimedBenchmark.expectedNames true n) :: rows) (by
      intro l hl
      rcases List.mem_cons.1 hl with rfl | hl
      exacts [hh, h3 l hl])
    rw [List.flatMap_cons] at this
    exact this
  · exact List.splitOn_intercalate _ (fun l hl => names_plain '\t' (.inl rfl) n l hl) (expectedNames_ne true n)

/-- the world in which a file is empty -/
def emptied (u : Setup S) (f : Str) : Setup S :=
  { u with world := { u.world with files := fun g => if g = f then some [] else u.world.files g } }

/-- **C80.**  `benchmark` writes the table with one row for the engine and the data, to the file or else to the output.  Partial: the
output file must not be one of the other files, at least one run is needed and the cells have no tabs. -/
theorem benchmark_partial {u : Setup S} {G : Registry S} {n : Nat} {fll fld number : Str} {e : Engine S} {rs : List (Str × Str)}
    (hn : toInt S number = .ok n) (h : Measured u G 0 fll fld n e rs) (hf : TimedBenchmark.Fits '\t' rs) :
    ∃ text, IsTable n [rs] text ∧ program u G [cs! "benchmark", fll, fld, number] = ⟨[], text, none⟩ := by
  obtain ⟨text, h1, h2⟩ := table_spec (u := u) (G := G) [(fll, fld)] [rs] ⟨⟨e, h⟩, hf, trivial⟩
  refine ⟨text, h2, ?_⟩
  show benchmarkCommand u G [fll, fld, number] = _
  simp only [benchmarkCommand, hn]
  simp only [toDestination, List.head?_nil, h1]

/-- **C80.**  With an output file, likewise: nothing is printed, and no other file is touched.  Partial: as `benchmark_partial`, in the world
in which the output file has been emptied. -/
theorem benchmark_file_partial {u : Setup S} {G : Registry S} {n : Nat} {fll fld number f : Str} {e : Engine S} {rs : List (Str × Str)}
    (more : List Str) (hn : toInt S number = .ok n) (hc : u.world.creates f = true) (h1 : f ≠ fll) (h2 : f ≠ fld)
    (h : Measured u G 0 fll fld n e rs) (hf : TimedBenchmark.Fits '\t' rs) :
    ∃ text, IsTable n [rs] text ∧ program u G (cs! "benchmark" :: fll :: fld :: number :: f :: more) = ⟨[(f, text)], [], none⟩ := by
  have h' : Measured (emptied u f) G 0 fll fld n e rs := by
    obtain ⟨⟨t, ht, hi⟩, data, b, b', cells, hd, hr⟩ := h
    exact ⟨⟨t, by simpa [emptied, h1.symm] using ht, hi⟩, data, b, b', cells, by simpa [emptied, h2.symm] using hd, hr⟩
  obtain ⟨text, k1, k2⟩ := table_spec (u := emptied u f) (G := G) [(fll, fld)] [rs] ⟨⟨e, h'⟩, hf, trivial⟩
  refine ⟨text, k2, ?_⟩
  show benchmarkCommand u G (fll :: fld :: number :: f :: more) = _
  simp only [benchmarkCommand, hn]
  simp only [toDestination, List.head?_cons, hc, if_true]
  show (let r := benchmarkTable (emptied u f) G n [(fll, fld)]; (⟨[(f, r.1)], [], r.2⟩ : Outcome)) = _
  rw [k1]

/-- The benchmarks that two lists name: line by line, without the lines whose first file is blank or a comment. -/
def listed (a b : Str) : List (Str × Str) :=
  (((FllImporter.lines a).map Op.trim).zip ((FllImporter.lines b).map Op.trim)).filter fun p => p.1 ≠ [] ∧ p.1.head? ≠ some '#'

omit [ScalarText S] [Truncate S] [Heap S] in
theorem filePairs_listed (as bs : List Str) : filePairs as bs =
    ((as.map Op.trim).zip (bs.map Op.trim)).filter fun p => p.1 ≠ [] ∧ p.1.head? ≠ some '#' := by
  induction as generalizing bs with
  | nil => rfl
  | cons a as ih =>
    cases bs with
    | nil => rfl
    | cons b bs =>
      unfold filePairs
      rw [List.map_cons, List.map_cons, List.zip_cons_cons, List.filter_cons, ih]
      cases ha : Op.trim a with
      | nil => simp
      | cons c t =>
        by_cases hc : c = '#'
        · subst hc; simp
        · simp [hc]

theorem benchmarks_eq {u : Setup S} {G : Registry S} {n : Int} {flls flds a b : Str} (ha : u.world.files flls = some a)
    (hb : u.world.files flds = some b) : benchmarks u G n flls flds = benchmarkTable u G n (listed a b) := by
  unfold benchmarks listed
  rw [ha, hb]
  simp only
  rw [filePairs_listed]

/-- **C80.**  `benchmarks` writes the table with one row for each line of the lists, in order.  Partial: as `benchmark_partial`. -/
theorem benchmarks_partial {u : Setup S} {G : Registry S} {n : Nat} {flls flds number a b : Str} {rss : List (List (Str × Str))}
    (hn : toInt S number = .ok n) (ha : u.world.files flls = some a) (hb : u.world.files flds = some b)
    (h : AllMeasured u G n 0 (listed a b) rss) :
    ∃ text, IsTable n rss text ∧ program u G [cs! "benchmarks", flls, flds, number] = ⟨[], text, none⟩ := by
  obtain ⟨text, h1, h2⟩ := table_spec _ _ h
  refine ⟨text, h2, ?_⟩
  show benchmarksCommand u G [flls, flds, number] = _
  simp only [benchmarksCommand, hn]
  simp only [toDestination, List.head?_nil, benchmarks_eq ha hb, h1]

/-- **C80.**  With an output file, likewise. -/
theorem benchmarks_file_partial {u : Setup S} {G : Registry S} {n : Nat} {flls flds number f a b : Str} {rss : List (List (Str × Str))}
    (more : List Str) (hn : toInt S number = .ok n) (hc : u.world.creates f = true) (h1 : f ≠ flls) (h2 : f ≠ flds)
    (ha : u.world.files flls = some a) (hb : u.world.files flds = some b) (h : AllMeasured (emptied u f) G n 0 (listed a b) rss) :
    ∃ text, IsTable n rss text ∧ program u G (cs! "benchmarks" :: flls :: flds :: number :: f :: more) = ⟨[(f, text)], [], none⟩ := by
  obtain ⟨text, k1, k2⟩ := table_spec _ _ h
  refine ⟨text, k2, ?_⟩
  show benchmarksCommand u G (flls :: flds :: number :: f :: more) = _
  simp only [benchmarksCommand, hn]
  simp only [toDestination, List.head?_cons, hc, if_true]
  show (let r := benchmarks (emptied u f) G n flls flds; (⟨[(f, r.1)], [], r.2⟩ : Outcome)) = _
  rw [benchmarks_eq (u := emptied u f) (a := a) (b := b) (by simp [emptied, h1.symm, ha]) (by simp [emptied, h2.symm, hb]), k1]

/-- **C80.**  When a benchmark raises an exception, the rows before it are kept, and the exception is reported. -/
theorem benchmarks_stop {u : Setup S} {G : Registry S} {n : Nat} (ps : List (Str × Str)) (p : Str × Str) (qs : List (Str × Str))
    (rss : List (List (Str × Str))) (h : AllMeasured u G n 0 ps rss) {err : Err} (he : benchmarkRow u G ps.length p.1 p.2 n = .error err) :
    ∃ text, benchmarkTable u G n (ps ++ p :: qs) = (text, some err) ∧ benchmarkTable u G n ps = (text, none) := by
  have key : ∀ (ps : List (Str × Str)) (rss : List (List (Str × Str))) (k : Nat), AllMeasured u G n k ps rss →
      benchmarkRow u G (k + ps.length) p.1 p.2 n = .error err →
      ∃ text, benchmarkRows u G n k (ps ++ p :: qs) = (text, some err) ∧ benchmarkRows u G n k ps = (text, none) := by
    intro ps
    induction ps with
    | nil =>
      intro rss k _ he
      refine ⟨[], ?_, rfl⟩
      rw [List.nil_append]
      unfold benchmarkRows
      rw [show benchmarkRow u G k p.1 p.2 n = .error err from he]
    | cons p' ps ih =>
      intro rss k h he
      cases rss with
      | nil => exact h.elim
      | cons rs rss =>
        obtain ⟨⟨e, h1⟩, -, h3⟩ := h
        obtain ⟨text, k1, k2⟩ := ih rss (k + 1) h3 (by rw [List.length_cons] at he; rw [show k + 1 + ps.length = k + (ps.length + 1) by omega]; exact he)
        rw [List.cons_append]
        unfold benchmarkRows
        rw [h1.row]
        simp only [k1, k2]
        exact ⟨_, rfl, rfl⟩
  obtain ⟨text, k1, k2⟩ := key ps rss 0 h (by rw [Nat.zero_add]; exact he)
  unfold benchmarkTable
  rw [headerLine_eq]
  simp only [k1, k2]
  exact ⟨_, rfl, rfl⟩

/-- **C80.**  Too few arguments, a number that is none, and a file that cannot be created are reported, and nothing is written. -/
theorem benchmark_refused (u : Setup S) (G : Registry S) (c : Str) (hc : c = cs! "benchmark" ∨ c = cs! "benchmarks") (a b number f : Str)
    (more : List Str) :
    program u G [c, a] = ⟨[], [], some .unsupported⟩ ∧ program u G [c, a, b] = ⟨[], [], some .unsupported⟩ ∧
    (∀ err, toInt S number = .error err → program u G (c :: a :: b :: number :: more) = ⟨[], [], some err⟩) ∧
    (∀ n, toInt S number = .ok n → u.world.creates f = false →
      program u G (c :: a :: b :: number :: f :: more) = ⟨[], [], some .unsupported⟩) := by
  rcases hc with rfl | rfl
  · refine ⟨rfl, rfl, ?_, ?_⟩
    · intro err h
      show benchmarkCommand u G (a :: b :: number :: more) = _
      simp only [benchmarkCommand, h]
    · intro n h h'
      show benchmarkCommand u G (a :: b :: number :: f :: more) = _
      simp only [benchmarkCommand, h]
      simp [toDestination, h']
  · refine ⟨rfl, rfl, ?_, ?_⟩
    · intro err h
      show benchmarksCommand u G (a :: b :: number :: more) = _
      simp only [benchmarksCommand, h]
    · intro n h h'
      show benchmarksCommand u G (a :: b :: number :: f :: more) = _
      simp only [benchmarksCommand, h]
      simp [toDestination, h']

/-- **C80.**  The other arguments are options, as in C76. -/
theorem program_options (u : Setup S) (G : Registry S) (args : List Str) (r : Run) (h : main u.world G args = some r) :
    (program u G args).out = r.out ∧ (program u G args).error = r.error ∧ (program u G args).files.map (·.2) = r.file.toList := by
  unfold main at h
  unfold program
  match args with
  | [] => cases h; exact ⟨rfl, rfl, rfl⟩
  | [_] => cases h; exact ⟨rfl, rfl, rfl⟩
  | a :: b :: rest =>
    simp only at h ⊢
    by_cases hc : a = cs! "export-examples" ∨ a = cs! "benchmark" ∨ a = cs! "benchmarks"
    · rw [if_pos hc] at h; cases h
    · rw [if_neg hc] at h
      rw [not_or, not_or] at hc
      rw [if_neg hc.1, if_neg hc.2.1, if_neg hc.2.2]
      cases hp : parse (a :: b :: rest) with
      | error err => rw [hp] at h; cases h; exact ⟨rfl, rfl, rfl⟩
      | ok o =>
        rw [hp] at h
        simp only [Option.some.injEq] at h
        subst h
        simp only
        cases (process u.world G o).file <;> simp

/-- **C80 is violated.**  A negative number of runs is refused only after the output file has been emptied. -/
theorem negative_violated (u : Setup S) (G : Registry S) (fll fld number f : Str) (n : Int) (hn : toInt S number = .ok n) (h0 : n < 0)
    (hc : u.world.creates f = true) : program u G [cs! "benchmark", fll, fld, number, f] = ⟨[(f, [])], [], some .outOfRange⟩ := by
  show benchmarkCommand u G [fll, fld, number, f] = _
  simp only [benchmarkCommand, hn]
  simp only [toDestination, List.head?_cons, hc, if_true, benchmarkTable, headerLine_negative n h0]

/-! ### examples -/

omit [Heap S] in
/-- the text with another end of line is the same engine -/
theorem import_newline (G : Registry S) (t : Str) : importText G (cs! "fll") (t ++ ['\n']) = importText G (cs! "fll") t := by
  have e : Op.join (Op.split (t ++ ['\n']) (cs! "\n") true) (cs! "\n") = Op.join (Op.split t (cs! "\n") true) (cs! "\n") := by
    by_cases h0 : t = []
    · subst h0; rfl
    · have h1 : (t ++ ['\n'] : Str) ≠ [] := by simp
      have e : Op.split (t ++ ['\n']) ['\n'] false = Op.split t ['\n'] false ++ Op.split [] ['\n'] false :=
        Strict.split_append t [] '\n'
      have h2 : Op.split [] ['\n'] false = [[]] := by simp [Op.split]
      show Op.join (Op.split (t ++ ['\n']) ['\n'] true) _ = Op.join (Op.split t ['\n'] true) _
      rw [Op.split_ignoreEmpty _ _ h1 (by simp), Op.split_ignoreEmpty _ _ h0 (by simp), e, h2]
      simp
  show ({} : FllImporter).fromString G (t ++ ['\n']) = ({} : FllImporter).fromString G t
  unfold FllImporter.fromString
  show (do
    let s ← (FllImporter.lines (Op.join (Op.split (t ++ ['\n']) (cs! "\n") true) (cs! "\n"))).foldlM
      (({} : FllImporter).step G) ⟨⟨[], [], [], [], []⟩, [], []⟩
    ({} : FllImporter).process G s.tag (Op.join s.block (cs! "\n")) s.engine) = _
  rw [e]

/-- reading the text of the engine gives the same text again -/
def RoundTrips (G : Registry S) (format : Str) (e : Engine S) : Prop :=
  ∃ text e', Exports format e text ∧ Imports G format text e' ∧ Exports format e' text

/-- the five examples that FIS cannot express -/
def Excepted (x : Str) : Prop :=
  x = cs! "mamdani/Laundry" ∨ x = cs! "mamdani/SimpleDimmerInverse" ∨ x = cs! "mamdani/SimpleDimmerChained" ∨ x = cs! "hybrid/tipper" ∨
    x = cs! "hybrid/ObstacleAvoidance"

/-- the last part of a path -/
def Base (x base : Str) : Prop := (x = base ∨ ∃ dir, x = dir ++ '/' :: base) ∧ '/' ∉ base

/-- What the file of an example contains, by format. -/
inductive Contains (library : Str) (x : Str) (e : Engine S) : Str → Str → Prop
  | plain {f t : Str} (hf : f = cs! "fll" ∨ f = cs! "fcl" ∨ f = cs! "fis") (h : Exports f e t) : Contains library x e f t
  | cpp : Contains library x e (cs! "cpp")
      (cs! "#include <fl/Headers.h>\n\nint main(int argc, char** argv){\n" ++ ({} : CppExporter).toString e ++ cs! "\n}\n")
  | java {base : Str} (imports : Str) (h : Base x base) : Contains library x e (cs! "java") (imports ++ cs! "public class " ++ Op.validName base
      ++ cs! "{\npublic static void main(String[] args){\n" ++ ({} : JavaExporter).toString e ++ cs! "\n}\n}\n")
  | r {base t : Str} (h : Base x base) (h0 : e.inputs ≠ []) (ht : ({ library := library } : RScriptExporter).importing e 0
      (if e.inputs.length = 1 then 0 else 1) (base ++ cs! ".fld") (List.range e.outputs.length) = .ok t) : Contains library x e (cs! "R") t
  | fld {e' : Engine S} {rows : List (List S)}
      (h : ({} : FldExporter).write e 1024 .allVariables (e.inputs.map fun _ => true) = (e', rows, none)) :
      Contains library x e (cs! "fld") (({} : FldExporter).text e rows)

/-- The file `p` is the example `x` in a format: its name, and the engine of the source written in the format.  The engine is not changed
by writing and reading it in the formats that can be read. -/
structure IsExample (u : Setup S) (G : Registry S) (sp tp target x : Str) (p : Str × Str) : Prop where
  name : p.1 = tp ++ cs! "/" ++ x ++ cs! "." ++ target
  content : ∃ text e, u.world.files (sp ++ cs! "/" ++ x ++ cs! ".fll") = some text ∧ Imports G (cs! "fll") text e ∧
    RoundTrips G (cs! "fll") e ∧ RoundTrips G (cs! "fcl") e ∧ (¬ Excepted x → RoundTrips G (cs! "fis") e) ∧ Contains u.library x e target p.2

theorem exports_of {f : Str} {e : Engine S} {t : Str} (hf : f = cs! "fll" ∨ f = cs! "fcl" ∨ f = cs! "fis") (h : exportText f e = .ok t) :
    Exports f e t := by
  rcases hf with rfl | rfl | rfl
  · have := Except.ok.inj ((Exports.fll e).eq.1.symm.trans h)
    rw [← this]; exact .fll e
  · have := Except.ok.inj ((Exports.fcl e).eq.1.symm.trans h)
    rw [← this]; exact .fcl e
  · exact .fis h

omit [Heap S] in
theorem imports_of {G : Registry S} {f : Str} {e : Engine S} {t : Str} (hf : f = cs! "fll" ∨ f = cs! "fcl" ∨ f = cs! "fis")
    (h : importText G f t = .ok e) : Imports G f t e := by
  rcases hf with rfl | rfl | rfl
  exacts [.fll h, .fcl h, .fis h]

theorem sameAgain_ok {G : Registry S} {f : Str} {e : Engine S} (hf : f = cs! "fll" ∨ f = cs! "fcl" ∨ f = cs! "fis")
    (h : sameAgain G f e = .ok ()) : RoundTrips G f e := by
  unfold sameAgain at h
  cases h1 : exportText f e with
  | error err => simp only [h1, bind, Except.bind] at h; cases h
  | ok t =>
    simp only [h1, bind, Except.bind] at h
    cases h2 : importText G f t with
    | error err => simp only [h2] at h; cases h
    | ok e' =>
      simp only [h2] at h
      cases h3 : exportText f e' with
      | error err => simp only [h3] at h; cases h
      | ok t' =>
        simp only [h3] at h
        by_cases ht : t = t'
        · subst ht
          exact ⟨t, e', exports_of hf h1, imports_of hf h2, exports_of hf h3⟩
        · rw [if_neg ht] at h; cases h

theorem baseName_base (x : Str) : Base x (baseName x) := by
  unfold baseName
  refine ⟨?_, ?_⟩
  · have h := List.takeWhile_append_dropWhile (p := fun c : Char => decide (c ≠ '/')) (l := x.reverse)
    cases hd : x.reverse.dropWhile (fun c : Char => decide (c ≠ '/')) with
    | nil =>
      left
      rw [hd, List.append_nil] at h
      rw [h, List.reverse_reverse]
    | cons c r =>
      right
      have hc : c = '/' := by
        have := List.head?_dropWhile_not (fun c : Char => decide (c ≠ '/')) x.reverse
        rw [hd] at this
        simpa using this
      subst hc
      rw [hd] at h
      refine ⟨r.reverse, ?_⟩
      have := congrArg List.reverse h
      rw [List.reverse_reverse, List.reverse_append, List.reverse_cons, List.append_assoc] at this
      exact this.symm
  · intro hm
    have := List.all_eq_true.1 (List.all_takeWhile (p := fun c : Char => decide (c ≠ '/')) (l := x.reverse)) _ (List.mem_reverse.1 hm)
    simp at this

theorem tests_ok {G : Registry S} {x : Str} {e : Engine S} (h : tests G x e = .ok ()) :
    RoundTrips G (cs! "fll") e ∧ RoundTrips G (cs! "fcl") e ∧ (¬ Excepted x → RoundTrips G (cs! "fis") e) := by
  unfold tests at h
  cases h1 : sameAgain G (cs! "fll") e with
  | error err => simp only [h1, bind, Except.bind] at h; cases h
  | ok a =>
    simp only [h1, bind, Except.bind] at h
    refine ⟨sameAgain_ok (.inl rfl) h1, ?_⟩
    by_cases hx : x ∈ withoutFis
    · rw [if_pos hx] at h
      refine ⟨sameAgain_ok (.inr (.inl rfl)) h, fun hn => absurd ?_ hn⟩
      simpa [withoutFis, Excepted] using hx
    · rw [if_neg hx] at h
      cases h2 : sameAgain G (cs! "fis") e with
      | error err => simp only [h2] at h; cases h
      | ok a' =>
        simp only [h2] at h
        exact ⟨sameAgain_ok (.inr (.inl rfl)) h, fun _ => sameAgain_ok (.inr (.inr rfl)) h2⟩

theorem exampleText_ok {library target x : Str} {e : Engine S} {t : Str}
    (ht : target ∈ [cs! "fll", cs! "fld", cs! "fcl", cs! "fis", cs! "cpp", cs! "java", cs! "R"]) (h : exampleText library target x e = .ok t) :
    Contains library x e target t := by
  simp only [List.mem_cons, List.not_mem_nil, or_false] at ht
  have plain : ∀ f, f = cs! "fll" ∨ f = cs! "fcl" ∨ f = cs! "fis" → exampleText library f x e = .ok t → Contains library x e f t := by
    intro f hf h
    refine .plain hf (exports_of hf ?_)
    rcases hf with rfl | rfl | rfl <;> exact h
  rcases ht with rfl | rfl | rfl | rfl | rfl | rfl | rfl
  · exact plain _ (.inl rfl) h
  · have h' : (match ({} : FldExporter).write e 1024 .allVariables (e.inputs.map fun _ => true) with
      | (_, _, some err) => .error err
      | (_, rows, none) => .ok (({} : FldExporter).text e rows)) = (.ok t : Except Err Str) := h
    cases hw : ({} : FldExporter).write e 1024 .allVariables (e.inputs.map fun _ => true) with
    | mk e' q =>
      obtain ⟨rows, err⟩ := q
      rw [hw] at h'
      cases err with
      | some err => cases h'
      | none =>
        have := Except.ok.inj h'
        rw [← this]
        exact .fld hw
  · exact plain _ (.inr (.inl rfl)) h
  · exact plain _ (.inr (.inr rfl)) h
  · have := Except.ok.inj (show Except.ok _ = Except.ok t from h)
    rw [← this]
    exact .cpp
  · have := Except.ok.inj (show Except.ok (javaHead (baseName x) ++ ({} : JavaExporter).toString e ++ cs! "\n}\n}\n") = Except.ok t from h)
    rw [← this]
    have := Contains.java (library := library) (e := e) (cs! "import com.fuzzylite.*;\n" ++ cs! "import com.fuzzylite.activation.*\n" ++ cs! "import com.fuzzylite.defuzzifier.*;\n"
      ++ cs! "import com.fuzzylite.factory.*;\n" ++ cs! "import com.fuzzylite.hedge.*;\n" ++ cs! "import com.fuzzylite.imex.*;\n"
      ++ cs! "import com.fuzzylite.norm.*;\n" ++ cs! "import com.fuzzylite.norm.s.*;\n" ++ cs! "import com.fuzzylite.norm.t.*;\n"
      ++ cs! "import com.fuzzylite.rule.*;\n" ++ cs! "import com.fuzzylite.term.*;\n" ++ cs! "import com.fuzzylite.variable.*;\n\n") (baseName_base x)
    unfold javaHead
    rw [List.append_assoc _ (cs! "{\n") (cs! "public static void main(String[] args){\n")]
    exact this
  · have h' : (if e.inputs.isEmpty then .error .outOfRange
      else ({ library := library } : RScriptExporter).importing e 0 (1 % e.inputs.length) (baseName x ++ cs! ".fld") (List.range e.outputs.length)) = (.ok t : Except Err Str) := h
    cases hi : e.inputs with
    | nil => rw [hi] at h'; cases h'
    | cons v vs =>
      have hne : e.inputs ≠ [] := by rw [hi]; simp
      rw [if_neg (by rw [hi]; simp)] at h'
      refine .r (baseName_base x) hne ?_
      have : 1 % e.inputs.length = if e.inputs.length = 1 then 0 else 1 := by
        split
        · rename_i h1; rw [h1]
        · have : e.inputs.length ≠ 0 := by rw [hi]; simp
          exact Nat.mod_eq_of_lt (by omega)
      rw [← this]
      exact h'

/-- the name of the source of an example -/
def sourceOf (sp x : Str) : Str := sp ++ cs! "/" ++ x ++ cs! ".fll"
/-- the name of the file of an example -/
def targetOf (tp x f : Str) : Str := tp ++ cs! "/" ++ x ++ cs! "." ++ f

theorem lookup_none (files : List (Str × Str)) (k : Str) (h : ∀ p ∈ files, p.1 ≠ k) : files.lookup k = none := by
  induction files with
  | nil => rfl
  | cons p files ih =>
    obtain ⟨a, b⟩ := p
    have : (k == a) = false := by
      rw [beq_eq_false_iff_ne]
      exact fun e => h _ List.mem_cons_self e.symm
    rw [List.lookup_cons, this]
    exact ih fun p hp => h p (List.mem_cons_of_mem _ hp)

theorem exportExample_ok {u : Setup S} {G : Registry S} {target sp tp x : Str} {files files' : List (Str × Str)}
    (ht : target ∈ [cs! "fll", cs! "fld", cs! "fcl", cs! "fis", cs! "cpp", cs! "java", cs! "R"])
    (hc : u.world.creates (targetOf tp x target) = true) (hl : ∀ p ∈ files, p.1 ≠ sourceOf sp x)
    (h : exportExample u G (cs! "fll") target sp tp files x = (files', none)) :
    ∃ p, files' = p :: files ∧ IsExample u G sp tp target x p := by
  have hs : sp ++ cs! "/" ++ x ++ cs! "." ++ cs! "fll" = sourceOf sp x := by simp [sourceOf]
  unfold exportExample at h
  simp only at h
  rw [hs, lookup_none _ _ hl, Option.none_or] at h
  cases hf : u.world.files (sourceOf sp x) with
  | none => rw [hf] at h; cases h
  | some text =>
    rw [hf] at h
    simp only [import_newline] at h
    cases hi : importText G (cs! "fll") text with
    | error err => rw [hi] at h; cases h
    | ok e =>
      rw [hi] at h
      simp only at h
      cases hq : tests G x e with
      | error err => rw [hq] at h; cases h
      | ok a =>
        rw [hq] at h
        simp only at h
        rw [if_pos (show u.world.creates (tp ++ cs! "/" ++ x ++ cs! "." ++ target) = true from hc)] at h
        cases hx : exampleText u.library target x e with
        | error err => rw [hx] at h; cases h
        | ok t =>
          rw [hx] at h
          obtain ⟨k1, k2, k3⟩ := tests_ok hq
          refine ⟨_, (Prod.mk.inj h).1.symm, rfl, text, e, hf, .fll hi, k1, k2, k3, exampleText_ok ht hx⟩

theorem exportExamples_ok {u : Setup S} {G : Registry S} {target sp tp : Str} (xs : List Str) {files files' : List (Str × Str)}
    (ht : target ∈ [cs! "fll", cs! "fld", cs! "fcl", cs! "fis", cs! "cpp", cs! "java", cs! "R"])
    (hc : ∀ x ∈ xs, u.world.creates (targetOf tp x target) = true) (hl : ∀ x ∈ xs, ∀ p ∈ files, p.1 ≠ sourceOf sp x)
    (hd : ∀ x ∈ xs, ∀ y ∈ xs, targetOf tp y target ≠ sourceOf sp x)
    (h : exportExamples u G (cs! "fll") target sp tp files xs = (files', none)) :
    ∃ ps, files' = ps.reverse ++ files ∧ List.Forall₂ (IsExample u G sp tp target) xs ps := by
  induction xs generalizing files with
  | nil => cases h; exact ⟨[], rfl, .nil⟩
  | cons x xs ih =>
    unfold exportExamples at h
    cases h1 : exportExample u G (cs! "fll") target sp tp files x with
    | mk fs err =>
      rw [h1] at h
      cases err with
      | some err => cases h
      | none =>
        obtain ⟨p, rfl, hp⟩ := exportExample_ok ht (hc x List.mem_cons_self) (hl x List.mem_cons_self) h1
        simp only at h
        obtain ⟨ps, k1, k2⟩ := ih (fun y hy => hc y (List.mem_cons_of_mem _ hy)) (by
          intro y hy q hq
          rcases List.mem_cons.1 hq with rfl | hq
          · rw [hp.name]
            exact hd y (List.mem_cons_of_mem _ hy) x List.mem_cons_self
          · exact hl y (List.mem_cons_of_mem _ hy) q hq)
          (fun y hy z hz => hd y (List.mem_cons_of_mem _ hy) z (List.mem_cons_of_mem _ hz)) h
        exact ⟨p :: ps, by rw [k1]; simp, .cons hp k2⟩

/-- the examples in a format with a number of decimals -/
def AllExamples (u : Setup S) (G : Registry S) (sp tp : Str) (f : Int × Str) (ps : List (Str × Str)) : Prop :=
  letI : ScalarText S := printing (u.world.printed f.1)
  List.Forall₂ (IsExample u G sp tp f.2) examples ps

theorem forall₂_mem {α β : Type} {R : α → β → Prop} {as : List α} {bs : List β} (h : List.Forall₂ R as bs) {b : β} (hb : b ∈ bs) :
    ∃ a ∈ as, R a b := by
  induction h with
  | nil => cases hb
  | cons h1 _ ih =>
    rcases List.mem_cons.1 hb with rfl | hb
    · exact ⟨_, List.mem_cons_self, h1⟩
    · obtain ⟨a, ha, hr⟩ := ih hb
      exact ⟨a, List.mem_cons_of_mem _ ha, hr⟩

theorem exportFormats_ok {u : Setup S} {G : Registry S} {sp tp : Str} (fs : List (Int × Str)) {files files' : List (Str × Str)}
    (ht : ∀ f ∈ fs, f.2 ∈ [cs! "fll", cs! "fld", cs! "fcl", cs! "fis", cs! "cpp", cs! "java", cs! "R"])
    (hc : ∀ x ∈ examples, ∀ f ∈ fs, u.world.creates (targetOf tp x f.2) = true) (hl : ∀ x ∈ examples, ∀ p ∈ files, p.1 ≠ sourceOf sp x)
    (hd : ∀ x ∈ examples, ∀ y ∈ examples, ∀ f ∈ fs, targetOf tp y f.2 ≠ sourceOf sp x)
    (h : exportFormats u G sp tp files fs = (files', none)) :
    ∃ pss, files' = pss.flatten.reverse ++ files ∧ List.Forall₂ (AllExamples u G sp tp) fs pss := by
  induction fs generalizing files with
  | nil => cases h; exact ⟨[], rfl, .nil⟩
  | cons f fs ih =>
    obtain ⟨d, target⟩ := f
    unfold exportFormats at h
    cases h1 : (letI : ScalarText S := printing (u.world.printed d)
      exportAllExamples u G (cs! "fll") target sp tp files) with
    | mk fs' err =>
      rw [h1] at h
      cases err with
      | some err => cases h
      | none =>
        simp only at h
        have ht1 := ht _ List.mem_cons_self
        have h2 : (letI : ScalarText S := printing (u.world.printed d)
          exportExamples u G (cs! "fll") target sp tp files examples) = (fs', none) := by
          unfold exportAllExamples at h1
          rw [if_neg (by simp), if_neg (not_not_intro ht1)] at h1
          exact h1
        obtain ⟨ps, k1, k2⟩ := @exportExamples_ok S (printing (u.world.printed d)) _ _ u G target sp tp examples files fs' ht1
          (fun x hx => hc x hx _ List.mem_cons_self) hl (fun x hx y hy => hd x hx y hy _ List.mem_cons_self) h2
        have names : ∀ p ∈ ps, ∃ y ∈ examples, p.1 = targetOf tp y target := by
          intro p hp
          obtain ⟨y, hy, hq⟩ := forall₂_mem k2 hp
          exact ⟨y, hy, @IsExample.name S (printing (u.world.printed d)) _ _ u G sp tp target y p hq⟩
        obtain ⟨pss, j1, j2⟩ := ih (fun f hf => ht f (List.mem_cons_of_mem _ hf)) (fun x hx f hf => hc x hx f (List.mem_cons_of_mem _ hf)) (by
          intro x hx p hp
          rw [k1] at hp
          rcases List.mem_append.1 hp with hp | hp
          · obtain ⟨y, hy, e⟩ := names p (List.mem_reverse.1 hp)
            rw [e]
            exact hd x hx y hy _ List.mem_cons_self
          · exact hl x hx p hp) (fun x hx y hy f hf => hd x hx y hy f (List.mem_cons_of_mem _ hf)) h
        exact ⟨ps :: pss, by rw [j1, k1]; simp, .cons k2 j2⟩

/-- **C80.**  The examples are the engines in the directory `examples` of the library, each once. -/
theorem examples_listed : examples.Perm ([(cs! "mamdani", cs! "AllTerms Laundry ObstacleAvoidance SimpleDimmer SimpleDimmerChained SimpleDimmerInverse"),
    (cs! "mamdani/matlab", cs! "mam21 mam22 shower tank tank2 tipper tipper1"), (cs! "mamdani/octave", cs! "investment_portfolio mamdani_tip_calculator"),
    (cs! "takagi-sugeno", cs! "ObstacleAvoidance SimpleDimmer approximation"),
    (cs! "takagi-sugeno/matlab", cs! "fpeaks invkine1 invkine2 juggler membrn1 membrn2 slbb slcp slcp1 slcpp1 sltbu_fl sugeno1 tanksg tippersg"),
    (cs! "takagi-sugeno/octave", cs! "cubic_approximator heart_disease_risk linear_tip_calculator sugeno_tip_calculator"), (cs! "tsukamoto", cs! "tsukamoto"),
    (cs! "hybrid", cs! "ObstacleAvoidance tipper")].flatMap fun d => (d.2.splitOn ' ').map fun n => d.1 ++ cs! "/" ++ n) := by
  decide +kernel

/-- **C80.**  When `export-examples` succeeds, the 39 examples are there in all seven formats, each the engine of its source, and nothing is
printed.  Partial: all files can be created, and no source is overwritten. -/
theorem export_examples_partial (u : Setup S) (G : Registry S) (sp tp : Str) (more : List Str)
    (hc : ∀ x ∈ examples, ∀ f ∈ [cs! "fll", cs! "fld", cs! "fcl", cs! "fis", cs! "cpp", cs! "java", cs! "R"], u.world.creates (targetOf tp x f) = true)
    (hd : ∀ x ∈ examples, ∀ y ∈ examples, ∀ f ∈ [cs! "fll", cs! "fld", cs! "fcl", cs! "fis", cs! "cpp", cs! "java", cs! "R"],
      targetOf tp y f ≠ sourceOf sp x)
    (h : (program u G (cs! "export-examples" :: sp :: tp :: more)).error = none) :
    ∃ pss, program u G (cs! "export-examples" :: sp :: tp :: more) = ⟨pss.flatten.reverse, [], none⟩ ∧
      List.Forall₂ (AllExamples u G sp tp)
        [(3, cs! "fll"), (3, cs! "fcl"), (3, cs! "fis"), (3, cs! "cpp"), (3, cs! "java"), (3, cs! "R"), (9, cs! "fld")] pss ∧
      pss.flatten.length = 273 := by
  have hx : program u G (cs! "export-examples" :: sp :: tp :: more) =
      ⟨(exportFormats u G sp tp [] formats).1, [], (exportFormats u G sp tp [] formats).2⟩ := rfl
  rw [hx] at h ⊢
  have ht : ∀ f ∈ formats, f.2 ∈ [cs! "fll", cs! "fld", cs! "fcl", cs! "fis", cs! "cpp", cs! "java", cs! "R"] := by decide
  obtain ⟨pss, h1, h2⟩ := exportFormats_ok (u := u) (G := G) (sp := sp) (tp := tp) formats (files := [])
    (files' := (exportFormats u G sp tp [] formats).1) ht (fun x hx f hf => hc x hx _ (ht f hf)) (fun _ _ p hp => by cases hp)
    (fun x hx y hy f hf => hd x hx y hy _ (ht f hf)) (Prod.ext rfl h)
  refine ⟨pss, ?_, h2, ?_⟩
  · rw [h1, show (exportFormats u G sp tp [] formats).2 = none from h, List.append_nil]
  · have : ∀ (fs : List (Int × Str)) (pss : List (List (Str × Str))), List.Forall₂ (AllExamples u G sp tp) fs pss →
        pss.flatten.length = fs.length * 39 := by
      intro fs pss h
      induction h with
      | nil => rfl
      | cons h1 _ ih =>
        have := h1.length_eq
        rw [List.flatten_cons, List.length_append, ih, ← this, List.length_cons]
        simp only [examples, List.length_cons, List.length_nil]
        omega
    exact this _ _ h2

/-- **C80.**  Whatever happens, only files of examples are written. -/
theorem export_frame (u : Setup S) (G : Registry S) (sp tp : Str) (more : List Str) :
    ∀ p ∈ (program u G (cs! "export-examples" :: sp :: tp :: more)).files, ∃ x ∈ examples,
      ∃ f ∈ [cs! "fll", cs! "fcl", cs! "fis", cs! "cpp", cs! "java", cs! "R", cs! "fld"], p.1 = targetOf tp x f := by
  have one : ∀ (i : ScalarText S) (target : Str) (files : List (Str × Str)) (x : Str),
      ∀ p ∈ (@exportExample S i _ _ u G (cs! "fll") target sp tp files x).1, p ∈ files ∨ p.1 = targetOf tp x target := by
    intro i target files x p hp
    unfold exportExample at hp
    simp only at hp
    split at hp
    · exact .inl hp
    · split at hp
      · exact .inl hp
      · split at hp
        · exact .inl hp
        · split at hp
          · split at hp
            · rcases List.mem_cons.1 hp with rfl | hp
              exacts [.inr rfl, .inl hp]
            · rcases List.mem_cons.1 hp with rfl | hp
              exacts [.inr rfl, .inl hp]
          · exact .inl hp
  have many : ∀ (i : ScalarText S) (target : Str) (xs : List Str) (files : List (Str × Str)),
      ∀ p ∈ (@exportExamples S i _ _ u G (cs! "fll") target sp tp files xs).1, p ∈ files ∨ ∃ x ∈ xs, p.1 = targetOf tp x target := by
    intro i target xs
    induction xs with
    | nil => intro files p hp; exact .inl hp
    | cons x xs ih =>
      intro files p hp
      unfold exportExamples at hp
      have h1 := one i target files x
      cases hq : @exportExample S i _ _ u G (cs! "fll") target sp tp files x with
      | mk fs err =>
        rw [hq] at hp h1
        cases err with
        | some err =>
          rcases h1 p hp with h | h
          exacts [.inl h, .inr ⟨x, List.mem_cons_self, h⟩]
        | none =>
          rcases ih fs p hp with h | ⟨y, hy, h⟩
          · rcases h1 p h with h | h
            exacts [.inl h, .inr ⟨x, List.mem_cons_self, h⟩]
          · exact .inr ⟨y, List.mem_cons_of_mem _ hy, h⟩
  have all : ∀ (i : ScalarText S) (target : Str) (files : List (Str × Str)),
      ∀ p ∈ (@exportAllExamples S i _ _ u G (cs! "fll") target sp tp files).1, p ∈ files ∨ ∃ x ∈ examples, p.1 = targetOf tp x target := by
    intro i target files p hp
    unfold exportAllExamples at hp
    split at hp
    · exact .inl hp
    · split at hp
      · exact .inl hp
      · exact many i target examples files p hp
  have formats : ∀ (fs : List (Int × Str)) (files : List (Str × Str)),
      ∀ p ∈ (exportFormats u G sp tp files fs).1, p ∈ files ∨ ∃ x ∈ examples, ∃ f ∈ fs.map (·.2), p.1 = targetOf tp x f := by
    intro fs
    induction fs with
    | nil => intro files p hp; exact .inl hp
    | cons f fs ih =>
      obtain ⟨d, target⟩ := f
      intro files p hp
      unfold exportFormats at hp
      have h1 := all (printing (u.world.printed d)) target files
      cases hq : @exportAllExamples S (printing (u.world.printed d)) _ _ u G (cs! "fll") target sp tp files with
      | mk fs' err =>
        rw [hq] at hp h1
        cases err with
        | some err =>
          rcases h1 p hp with h | ⟨x, hx, h⟩
          exacts [.inl h, .inr ⟨x, hx, target, List.mem_cons_self, h⟩]
        | none =>
          rcases ih fs' p hp with h | ⟨x, hx, f, hf, h⟩
          · rcases h1 p h with h | ⟨x, hx, h⟩
            exacts [.inl h, .inr ⟨x, hx, target, List.mem_cons_self, h⟩]
          · exact .inr ⟨x, hx, f, List.mem_cons_of_mem _ hf, h⟩
  intro p hp
  rcases formats Console.formats [] p hp with h | h
  · cases h
  · exact h

/-- **C80.**  The names of the classes are those of the files, as Java demands; no two examples are in the same file. -/
theorem examples_named : examples.Nodup ∧ examples.length = 39 ∧ (∀ x ∈ examples, Op.validName (baseName x) = baseName x) ∧
    ∀ x, Excepted x → x ∈ examples := by
  refine ⟨by decide +kernel, by decide, by decide +kernel, ?_⟩
  rintro x (rfl | rfl | rfl | rfl | rfl) <;> decide +kernel

/-- **C80 is violated.**  The Java files do not compile: one of the imports is not ended by a semicolon. -/
theorem java_violated (library x : Str) (e : Engine S) : ∃ rest, exampleText library (cs! "java") x e =
    .ok (cs! "import com.fuzzylite.*;\nimport com.fuzzylite.activation.*\nimport com.fuzzylite.defuzzifier.*;\n" ++ rest) :=
  ⟨_, rfl⟩

end General

namespace CommandsDemo
open Demo
local instance : Heap (Ext Rat) := RuleBlock.stableHeap _

/-- numbers are written as they are elsewhere -/
def printer : Printer (Ext Rat) := ⟨fun _ => Decimal.str, Decimal.str, Decimal.str⟩

/-- files of an engine, of data and of lists; all can be created but `no` -/
def setup : Setup (Ext Rat) where
  world := { world with
    files := fun f =>
      if f = cs! "e.fll" ∨ f = cs! "s/x.fll" then some fll
      else if f = cs! "s/y.fll" then some (cs! "Engine: y\nInputVariable: a\n  range: 0.1234 1\nOutputVariable: z\n  range: 0 1")
      else if f = cs! "d.fld" then some (cs! "a z\n1 1\n2 3\n")
      else if f = cs! "l.fll" then some (cs! "# engines\ne.fll\n\n e.fll \ne.fll")
      else if f = cs! "l.fld" then some (cs! "data\nd.fld\n?\nd.fld")
      else none
    creates := fun f => f != cs! "no" && f != cs! "no/x.fcl" }
  clock := fun k i => .fin (10 * k + i + 1)
  printer := printer
  library := cs! "fl"

def lines (args : List Str) : List (List Str) := ((program setup registry args).out.splitOn '\n').map fun l => l.splitOn '\t'

/-- Non-vacuity of C80: two runs of a benchmark; the benchmarks of a list with a comment and a blank line.  (Roots are not computed here.) -/
example :
    (lines [cs! "benchmark", cs! "e.fll", cs! "d.fld", cs! "2"]).map (fun l => l.take 14) =
      [(TimedBenchmark.expectedNames true 2).take 14, [cs! "fl", cs! "e", cs! "1", cs! "1", cs! "1", cs! "1", cs! "2", cs! "2", cs! "z", cs! "2.000",
        cs! "0.000", cs! "1", cs! "0", cs! "1"], [[]]] ∧
    (lines [cs! "benchmark", cs! "e.fll", cs! "d.fld", cs! "2"]).map (fun l => l.drop 20) = [[cs! "t1", cs! "t2"], [cs! "1.000", cs! "2.000"], []] ∧
    (lines [cs! "benchmarks", cs! "l.fll", cs! "l.fld", cs! "1"]).map (fun l => l.drop 20) = [[cs! "t1"], [cs! "1.000"], [cs! "11.000"], []] := by
  decide +kernel

/-- the hypotheses of `benchmark_partial` hold there -/
example : ∃ e rs, Measured setup registry 0 (cs! "e.fll") (cs! "d.fld") 2 e rs ∧ TimedBenchmark.Fits '\t' rs ∧
    toInt (Ext Rat) (cs! "2") = .ok ((2 : Nat) : Int) := by
  have h : (match ({} : FllImporter).fromString registry fll with
    | .error _ => false
    | .ok e =>
      match (⟨some e, [], [], macheps⟩ : Benchmark (Ext Rat)).prepareText (cs! "a z\n1 1\n2 3\n") (-1) with
      | .error _ => false
      | .ok b =>
        match (⟨e.name, b, []⟩ : TimedBenchmark (Ext Rat)).run ((List.range 2).map (setup.clock 0)) with
        | (_, some _) => false
        | (b', none) =>
          match b'.results setup.library none .nanoSeconds true with
          | .error _ => false
          | .ok cells => b'.bench.canComputeErrors && (TimedBenchmark.texts printer cells).all fun r =>
              decide ('\t' ∉ r.1 ∧ '\t' ∉ r.2 ∧ '\n' ∉ r.1 ∧ '\n' ∉ r.2)) = true := by decide +kernel
  split at h
  · cases h
  · rename_i e he
    split at h
    · cases h
    · rename_i b hb
      split at h
      · cases h
      · rename_i b' hr
        split at h
        · cases h
        · rename_i cells hc
          rw [Bool.and_eq_true, List.all_eq_true] at h
          exact ⟨e, _, ⟨⟨fll, rfl, .fll he⟩, _, b, b', cells, rfl, hb, hr, h.1, hc, rfl⟩, fun r hm => of_decide_eq_true (h.2 r hm), by decide +kernel⟩

/-- an example in all formats that are quickly written -/
example : ∀ f ∈ [cs! "fll", cs! "fcl", cs! "fis", cs! "cpp", cs! "java", cs! "R"],
    (exportExample setup registry (cs! "fll") f (cs! "s") (cs! "t") [] (cs! "x")).2 = none ∧
    (exportExample setup registry (cs! "fll") f (cs! "s") (cs! "t") [] (cs! "x")).1.map (·.1) = [targetOf (cs! "t") (cs! "x") f] := by
  decide +kernel

/-- **C80 is violated.**  The last benchmark of the longer list is left out without notice. -/
theorem lists_violated : (program setup registry [cs! "benchmarks", cs! "l.fll", cs! "l.fld", cs! "1"]).error = none ∧
    ((setup.world.files (cs! "l.fll")).map fun t => (FllImporter.lines t).countP fun l => Op.trim l == cs! "e.fll") = some 3 ∧
    (lines [cs! "benchmarks", cs! "l.fll", cs! "l.fld", cs! "1"]).length = 1 + 2 + 1 := by decide +kernel

/-- **C80 is violated.**  Without runs there are fewer values than names. -/
theorem columns_violated : (program setup registry [cs! "benchmark", cs! "e.fll", cs! "d.fld", cs! "0"]).error = none ∧
    (lines [cs! "benchmark", cs! "e.fll", cs! "d.fld", cs! "0"]).map (·.length) = [20, 12, 1] := by decide +kernel

/-- **C80 is violated.**  If the table is written to the file of the engine, an empty engine is measured instead, without notice: the row has
no name and no variables.  Likewise, data are lost. -/
theorem emptied_violated :
    ((program setup registry [cs! "benchmark", cs! "e.fll", cs! "d.fld", cs! "1", cs! "e.fll"]).error = none ∧
    (program setup registry [cs! "benchmark", cs! "e.fll", cs! "d.fld", cs! "1", cs! "e.fll"]).files.map (fun f => (f.1, ((f.2.splitOn '\n').drop 1).map fun l => (l.splitOn '\t').take 8)) =
      [(cs! "e.fll", [[cs! "fl", [], cs! "0", cs! "0", cs! "0", cs! "0", cs! "1", cs! "2"], [[]]])]) ∧
    (program setup registry [cs! "benchmark", cs! "e.fll", cs! "d.fld", cs! "1", cs! "d.fld"]).error = none ∧
    (program setup registry [cs! "benchmark", cs! "e.fll", cs! "d.fld", cs! "1", cs! "d.fld"]).files.map (fun f => (f.1, ((f.2.splitOn '\n').drop 1).map fun l => (l.splitOn '\t').take 8)) =
      [(cs! "d.fld", [[cs! "fl", cs! "e", cs! "1", cs! "1", cs! "1", cs! "1", cs! "1", cs! "0"], [[]]])] := by decide +kernel

/-- **C80 is violated.**  A file that cannot be created is passed over without notice. -/
theorem missing_violated : exportExample setup registry (cs! "fll") (cs! "fcl") (cs! "s") (cs! "no") [] (cs! "x") = ([], none) := by
  decide +kernel

/-- **C80 is violated.**  Where the sources are the targets, the engines are first rounded to three decimals: they are others from then on. -/
theorem rounded_violated : ∃ text, (exportExample setup registry (cs! "fll") (cs! "fll") (cs! "s") (cs! "s") [] (cs! "y")) = ([(cs! "s/y.fll", text)], none) ∧
    ((importText registry (cs! "fll") text).toOption.map fun e => e.inputs.map fun v => v.minimum) = some [.fin (123 / 1000)] ∧
    (((setup.world.files (cs! "s/y.fll")).bind fun t => (importText registry (cs! "fll") t).toOption).map fun e => e.inputs.map fun v => v.minimum) =
      some [.fin (1234 / 10000)] := by
  refine ⟨cs! "Engine: y\nInputVariable: a\n  enabled: true\n  range: 0.123 1.000\n  lock-range: false\nOutputVariable: z\n  enabled: true\n  range: 0.000 1.000\n  lock-range: false\n  aggregation: none\n  defuzzifier: none\n  default: nan\n  lock-previous: false", ?_⟩
  decide +kernel

end CommandsDemo
end Console
end FL
