/-
The results of benchmarks and their tables.
-/
import Verif.Model.Results
import Verif.Props.Run

namespace FL
open Scalar

namespace TimedBenchmark

/-! ### names -/

section General
variable {S : Type}

/-- The names of the results, in order: of the engine, of the errors if they can be computed, of the times, and of each run. -/
def expectedNames (errors : Bool) (runs : Nat) : List Str :=
  [cs! "library", cs! "name", cs! "inputs", cs! "outputs", cs! "ruleBlocks", cs! "rules", cs! "runs", cs! "evaluations"]
    ++ (if errors then [cs! "outputVariable", cs! "range", cs! "tolerance", cs! "errors", cs! "nfErrors", cs! "accErrors",
      cs! "rmse", cs! "nrmse"] else [])
    ++ [cs! "units", cs! "sum(t)", cs! "mean(t)", cs! "sd(t)"]
    ++ (List.range runs).map fun i => 't' :: Nat.toDigits 10 (i + 1)

theorem singleTimes_names (unit : TimeUnit) (i : Nat) (ts : List S) :
    (singleTimes unit i ts).map (·.1) = (List.range ts.length).map fun j => 't' :: Nat.toDigits 10 (i + j + 1) := by
  induction ts generalizing i with
  | nil => rfl
  | cons t ts ih =>
    simp only [singleTimes, List.map_cons, ih, List.length_cons, List.range_succ_eq_map, List.map_map, Nat.add_zero]
    congr 1
    apply List.map_congr_left
    intro j _
    simp only [Function.comp]
    congr 2
    omega

theorem errorResults_names [Scalar S] (b : Benchmark S) (e : Engine S) (out : Option Nat) (rs : List (Result S))
    (h : errorResults b e out = .ok rs) :
    rs.map (·.1) = [cs! "outputVariable", cs! "range", cs! "tolerance", cs! "errors", cs! "nfErrors", cs! "accErrors",
      cs! "rmse", cs! "nrmse"] := by
  unfold errorResults at h
  cases h1 : b.meanSquaredError out with
  | error err => rw [h1] at h; cases h
  | ok mse =>
    cases h2 : sums b e.outputs out with
    | error err => rw [h1, h2] at h; cases h
    | ok s =>
      cases h3 : b.allErrors out with
      | error err => rw [h1, h2, h3] at h; cases h
      | ok n1 =>
        cases h4 : b.nonFiniteErrors out with
        | error err => rw [h1, h2, h3, h4] at h; cases h
        | ok n2 =>
          cases h5 : b.accuracyErrors out with
          | error err => rw [h1, h2, h3, h4, h5] at h; cases h
          | ok n3 =>
            rw [h1, h2, h3, h4, h5] at h
            cases h
            rfl

theorem results_ok [Scalar S] (b : TimedBenchmark S) (library : Str) (out : Option Nat) (unit : TimeUnit) (inc : Bool)
    (rs : List (Result S)) (h : b.results library out unit inc = .ok rs) :
    ∃ e errors, b.bench.engine = some e ∧ (b.bench.canComputeErrors = true → errorResults b.bench e out = .ok errors) ∧
      (b.bench.canComputeErrors = false → errors = []) ∧
      rs = b.engineResults library e ++ errors ++ timeResults b.times unit ++ if inc then singleTimes unit 0 b.times else [] := by
  unfold results at h
  cases he : b.bench.engine with
  | none => rw [he] at h; cases h
  | some e =>
    rw [he] at h
    simp only at h
    cases hc : b.bench.canComputeErrors with
    | false =>
      rw [hc] at h
      cases h
      exact ⟨e, [], rfl, by simp, fun _ => rfl, rfl⟩
    | true =>
      rw [hc] at h
      simp only [if_true] at h
      cases h1 : errorResults b.bench e out with
      | error err => rw [h1] at h; cases h
      | ok errors =>
        rw [h1] at h
        cases h
        exact ⟨e, errors, rfl, fun _ => h1, by simp, rfl⟩

/-- C79.  The names of the results, whatever the benchmark. -/
theorem results_names [Scalar S] (b : TimedBenchmark S) (library : Str) (out : Option Nat) (unit : TimeUnit) (inc : Bool)
    (rs : List (Result S)) (h : b.results library out unit inc = .ok rs) :
    rs.map (·.1) = expectedNames b.bench.canComputeErrors (if inc then b.times.length else 0) := by
  obtain ⟨e, errors, he, h1, h2, rfl⟩ := results_ok b library out unit inc rs h
  have key : (b.engineResults library e ++ errors ++ timeResults b.times unit
      ++ if inc then singleTimes unit 0 b.times else []).map (·.1) =
      [cs! "library", cs! "name", cs! "inputs", cs! "outputs", cs! "ruleBlocks", cs! "rules", cs! "runs", cs! "evaluations"]
        ++ errors.map (·.1) ++ [cs! "units", cs! "sum(t)", cs! "mean(t)", cs! "sd(t)"]
        ++ (List.range (if inc then b.times.length else 0)).map fun i => 't' :: Nat.toDigits 10 (i + 1) := by
    simp only [List.map_append]
    congr 1
    cases inc
    · rfl
    · simp only [if_true, singleTimes_names, Nat.zero_add]
  rw [key]
  cases hc : b.bench.canComputeErrors with
  | false => rw [h2 hc]; rfl
  | true => rw [errorResults_names _ _ _ _ (h1 hc)]; rfl

/-- C79.  The header lists the names of the results of as many runs. -/
theorem header_spec [Scalar S] (runs : Int) (errors : Bool) :
    header (S := S) runs errors = if runs < 0 then .error .outOfRange else .ok (expectedNames errors runs.toNat) := by
  unfold header
  split
  · rfl
  · cases h : (dummy (S := S) runs.toNat errors).results [] none .nanoSeconds true with
    | error err => cases errors <;> cases h
    | ok rs =>
      have := results_names _ _ _ _ _ _ h
      show Except.ok _ = _
      rw [this]
      have h1 : (dummy (S := S) runs.toNat errors).bench.canComputeErrors = errors := by cases errors <;> rfl
      have h2 : (dummy (S := S) runs.toNat errors).times.length = runs.toNat := List.length_replicate
      rw [h1, h2]
      rfl

/-- C79.  The results go with the header for the number of runs and for whether errors can be computed. -/
theorem results_header [Scalar S] (b : TimedBenchmark S) (library : Str) (out : Option Nat) (unit : TimeUnit)
    (rs : List (Result S)) (h : b.results library out unit true = .ok rs) :
    header (S := S) b.times.length b.bench.canComputeErrors = .ok (rs.map (·.1)) := by
  rw [header_spec, if_neg (by omega), results_names b library out unit true rs h]
  rfl

/-- C79.  No two results have the same name. -/
theorem expectedNames_nodup (errors : Bool) (runs : Nat) : (expectedNames errors runs).Nodup := by
  unfold expectedNames
  rw [List.nodup_append]
  refine ⟨by cases errors <;> decide, ?_, ?_⟩
  · refine List.Nodup.map ?_ List.nodup_range
    intro i j h
    injection h with _ h
    have := congrArg (Nat.ofDigitChars 10 · 0) h
    simpa [Nat.ofDigitChars_toDigits] using this
  · intro a ha c hc
    obtain ⟨i, -, rfl⟩ := List.mem_map.1 hc
    have hd : ∀ x ∈ Nat.toDigits 10 (i + 1), x.isDigit = true := fun x hx => Nat.isDigit_of_mem_toDigits (by omega) (by omega) hx
    have hne : Nat.toDigits 10 (i + 1) ≠ [] := Nat.toDigits_ne_nil
    intro heq
    subst heq
    have : ∀ s ∈ ([cs! "library", cs! "name", cs! "inputs", cs! "outputs", cs! "ruleBlocks", cs! "rules", cs! "runs", cs! "evaluations"]
      ++ (if errors then [cs! "outputVariable", cs! "range", cs! "tolerance", cs! "errors", cs! "nfErrors", cs! "accErrors",
        cs! "rmse", cs! "nrmse"] else [])
      ++ [cs! "units", cs! "sum(t)", cs! "mean(t)", cs! "sd(t)"]), (s.tail.head?.any Char.isDigit) = false := by
      cases errors <;> decide
    have h2 := this _ ha
    simp only [List.tail_cons] at h2
    cases hs : Nat.toDigits 10 (i + 1) with
    | nil => exact hne hs
    | cons x xs =>
      rw [hs] at h2
      have := hd x (by rw [hs]; simp)
      simp [this] at h2

/-! ### tables -/

theorem between_eq (sep : Str) (ts : List Str) : between sep ts = sep.intercalate ts := by
  induction ts with
  | nil => rfl
  | cons t ts ih =>
    unfold between
    cases ts with
    | nil => simp [between]
    | cons u us => rw [ih, if_neg (by simp), List.intercalate_cons_cons, List.append_assoc]

theorem intercalate_notMem (d c : Char) (hd : c ≠ d) (ts : List Str) (h : ∀ t ∈ ts, c ∉ t) : c ∉ [d].intercalate ts := by
  induction ts with
  | nil => simp
  | cons t ts ih =>
    cases ts with
    | nil => simpa using h t (by simp)
    | cons u us =>
      rw [List.intercalate_cons_cons]
      simp only [List.mem_append, List.mem_singleton, not_or]
      exact ⟨⟨h t (by simp), hd⟩, ih fun t ht => h t (by simp [ht])⟩

/-- Texts that can be put into a table: they hold neither the delimiter nor line feeds. -/
def Fits (d : Char) (results : List (Str × Str)) : Prop := ∀ r ∈ results, d ∉ r.1 ∧ d ∉ r.2 ∧ '\n' ∉ r.1 ∧ '\n' ∉ r.2

/-- C79.  A horizontal table has a line of the names and a line of the values, each with as many columns as there are
results, in order. -/
theorem format_horizontal (results : List (Str × Str)) (h0 : results ≠ []) (d : Char) (hd : d ≠ '\n') (hf : Fits d results) :
    (∃ header body, (format results .horizontal .headerAndBody [d]).splitOn '\n' = [header, body] ∧
      header.splitOn d = results.map (·.1) ∧ body.splitOn d = results.map (·.2)) ∧
    (format results .horizontal .header [d]).splitOn d = results.map (·.1) ∧
    (format results .horizontal .body [d]).splitOn d = results.map (·.2) ∧
    '\n' ∉ format results .horizontal .header [d] ∧ '\n' ∉ format results .horizontal .body [d] := by
  have h1 : ([d].intercalate (results.map (·.1))).splitOn d = results.map (·.1) :=
    List.splitOn_intercalate _ (by intro l hl; obtain ⟨r, hr, rfl⟩ := List.mem_map.1 hl; exact (hf r hr).1) (by simpa using h0)
  have h2 : ([d].intercalate (results.map (·.2))).splitOn d = results.map (·.2) :=
    List.splitOn_intercalate _ (by intro l hl; obtain ⟨r, hr, rfl⟩ := List.mem_map.1 hl; exact (hf r hr).2.1) (by simpa using h0)
  have n1 : '\n' ∉ [d].intercalate (results.map (·.1)) := intercalate_notMem d '\n' (Ne.symm hd) _
    (by intro l hl; obtain ⟨r, hr, rfl⟩ := List.mem_map.1 hl; exact (hf r hr).2.2.1)
  have n2 : '\n' ∉ [d].intercalate (results.map (·.2)) := intercalate_notMem d '\n' (Ne.symm hd) _
    (by intro l hl; obtain ⟨r, hr, rfl⟩ := List.mem_map.1 hl; exact (hf r hr).2.2.2)
  have e1 : format results .horizontal .header [d] = [d].intercalate (results.map (·.1)) := by
    simp [format, Contents.hasHeader, Contents.hasBody, between_eq]
  have e2 : format results .horizontal .body [d] = [d].intercalate (results.map (·.2)) := by
    simp [format, Contents.hasHeader, Contents.hasBody, between_eq]
  have e3 : format results .horizontal .headerAndBody [d] =
      ['\n'].intercalate [[d].intercalate (results.map (·.1)), [d].intercalate (results.map (·.2))] := by
    simp [format, Contents.hasHeader, Contents.hasBody, between_eq, List.intercalate_cons_cons]
  rw [e1, e2, e3]
  refine ⟨⟨_, _, List.splitOn_intercalate _ ?_ (by simp), h1, h2⟩, h1, h2, n1, n2⟩
  intro l hl
  simp only [List.mem_cons, List.not_mem_nil, or_false] at hl
  rcases hl with rfl | rfl
  · exact n1
  · exact n2

/-- C79.  A vertical table has a line for each result, with the name and the value. -/
theorem format_vertical (results : List (Str × Str)) (h0 : results ≠ []) (d : Char) (hd : d ≠ '\n') (hf : Fits d results) :
    ((format results .vertical .headerAndBody [d]).splitOn '\n').map (fun l => l.splitOn d) =
      results.map (fun r => [r.1, r.2]) ∧
    (format results .vertical .header [d]).splitOn '\n' = results.map (·.1) ∧
    (format results .vertical .body [d]).splitOn '\n' = results.map (·.2) := by
  refine ⟨?_, ?_, ?_⟩
  · have e : format results .vertical .headerAndBody [d] = ['\n'].intercalate (results.map fun r => [d].intercalate [r.1, r.2]) := by
      simp only [format, between_eq]
      congr 1
      apply List.map_congr_left
      intro r _
      simp [verticalLine, Contents.hasHeader, Contents.hasBody, List.intercalate_cons_cons]
    rw [e, List.splitOn_intercalate]
    · rw [List.map_map]
      apply List.map_congr_left
      intro r hr
      exact List.splitOn_intercalate _ (by
        intro l hl
        simp only [List.mem_cons, List.not_mem_nil, or_false] at hl
        rcases hl with rfl | rfl
        · exact (hf r hr).1
        · exact (hf r hr).2.1) (by simp)
    · intro l hl
      obtain ⟨r, hr, rfl⟩ := List.mem_map.1 hl
      apply intercalate_notMem d '\n' (Ne.symm hd)
      intro t ht
      simp only [List.mem_cons, List.not_mem_nil, or_false] at ht
      rcases ht with rfl | rfl
      · exact (hf r hr).2.2.1
      · exact (hf r hr).2.2.2
    · simpa using h0
  · have e : format results .vertical .header [d] = ['\n'].intercalate (results.map (·.1)) := by
      simp only [format, between_eq]
      congr 1
      apply List.map_congr_left
      intro r _
      simp [verticalLine, Contents.hasHeader, Contents.hasBody]
    rw [e, List.splitOn_intercalate _ (by intro l hl; obtain ⟨r, hr, rfl⟩ := List.mem_map.1 hl; exact (hf r hr).2.2.1)
      (by simpa using h0)]
  · have e : format results .vertical .body [d] = ['\n'].intercalate (results.map (·.2)) := by
      simp only [format, between_eq]
      congr 1
    rw [e, List.splitOn_intercalate _ (by intro l hl; obtain ⟨r, hr, rfl⟩ := List.mem_map.1 hl; exact (hf r hr).2.2.2)
      (by simpa using h0)]

/-! ### runs -/

theorem runOnce_config [Scalar S] [Heap S] (e : Engine S) (h : e.Memoryless) (b : Benchmark S) (e' : Engine S)
    (he : b.engine = some e') (hc : e'.config = e.config) :
    b.runOnce.1.obtained = (Benchmark.rows e b.expected).1 ∧ b.runOnce.2 = (Benchmark.rows e b.expected).2 ∧
    b.runOnce.1.expected = b.expected ∧ ∃ q, b.runOnce.1.engine = some q ∧ q.config = e.config := by
  obtain ⟨h1, h2⟩ := Benchmark.runRows_rows e h b.expected e'.restart
    (by rw [show e'.restart.config = e'.config from e'.act_config .restart, hc])
  unfold Benchmark.runOnce
  rw [he]
  simp only
  generalize Benchmark.runRows e'.restart b.expected = z at h1 h2 ⊢
  obtain ⟨z1, z2, z3⟩ := z
  simp only at h1 h2
  rw [← h1]
  exact ⟨rfl, rfl, trivial, z1, rfl, h2⟩

theorem go_config [Scalar S] [Heap S] (e : Engine S) (h : e.Memoryless) (times : List S) (b : Benchmark S) (e' : Engine S)
    (he : b.engine = some e') (hc : e'.config = e.config) :
    (times ≠ [] → (run.go b times).1.obtained = (Benchmark.rows e b.expected).1) ∧
    (run.go b times).1.expected = b.expected ∧
    (run.go b times).2 = if times = [] then none else (Benchmark.rows e b.expected).2 := by
  induction times generalizing b e' with
  | nil => exact ⟨fun h => absurd rfl h, rfl, by simp [run.go, he]⟩
  | cons t ts ih =>
    obtain ⟨h1, h2, h3, q, h4, h5⟩ := runOnce_config e h b e' he hc
    unfold run.go
    generalize b.runOnce = z at *
    obtain ⟨z1, z2⟩ := z
    simp only at h1 h2 h3 h4
    cases z2 with
    | some err => exact ⟨fun _ => h1, h3, by simp [← h2]⟩
    | none =>
      obtain ⟨i1, i2, i3⟩ := ih z1 q h4 h5
      simp only
      rw [h3] at i1 i2 i3
      refine ⟨fun _ => ?_, i2, ?_⟩
      · by_cases hts : ts = []
        · subst hts; exact h1
        · exact i1 hts
      · rw [i3, ← h2]
        simp

/-- C79.  Running several times obtains the same values as running once, and records the time of every run.
Partial: for engines without memory (C57). -/
theorem run_partial [Scalar S] [Heap S] (b : TimedBenchmark S) (e : Engine S) (he : b.bench.engine = some e) (h : e.Memoryless)
    (times : List S) (ht : times ≠ []) :
    (b.run times).1.bench.obtained = b.bench.runOnce.1.obtained ∧ (b.run times).2 = b.bench.runOnce.2 ∧
    (b.run times).1.bench.expected = b.bench.expected ∧ (b.run times).1.name = b.name ∧
    (b.run times).1.times = if b.bench.runOnce.2 = none then b.times ++ times else b.times := by
  obtain ⟨h1, h2, h3, -⟩ := runOnce_config e h b.bench e he rfl
  obtain ⟨k1, k2, k3⟩ := go_config e h times b.bench e he rfl
  rw [h1, h2]
  rw [if_neg ht] at k3
  unfold run
  generalize run.go b.bench times = z at *
  obtain ⟨z1, z2⟩ := z
  simp only at k1 k2 k3
  rw [← k3, ← k1 ht]
  cases z2 with
  | some err => exact ⟨rfl, rfl, k2, rfl, rfl⟩
  | none => exact ⟨rfl, rfl, k2, rfl, rfl⟩

/-- C79.  After a reset there are no times and no obtained values, and the expected values and the engine are kept. -/
theorem reset_spec [Scalar S] (b : TimedBenchmark S) :
    b.reset.times = [] ∧ b.reset.bench.obtained = [] ∧ b.reset.bench.expected = b.bench.expected ∧
    b.reset.bench.engine = b.bench.engine ∧ b.reset.bench.tolerance = b.bench.tolerance ∧ b.reset.name = b.name ∧
    b.reset.bench.canComputeErrors = false := by
  refine ⟨rfl, rfl, rfl, rfl, rfl, rfl, ?_⟩
  unfold Benchmark.canComputeErrors reset
  cases b.bench.engine <;> cases b.bench.expected <;> rfl

/-! ### values -/

/-- C79.  The results about the engine and the table. -/
theorem engine_results [Scalar S] (b : TimedBenchmark S) (library : Str) (out : Option Nat) (unit : TimeUnit) (inc : Bool)
    (rs : List (Result S)) (h : b.results library out unit inc = .ok rs) :
    ∃ e, b.bench.engine = some e ∧
      rs.lookup (cs! "library") = some (.text library) ∧ rs.lookup (cs! "name") = some (.text b.name) ∧
      rs.lookup (cs! "inputs") = some (.count e.inputs.length) ∧ rs.lookup (cs! "outputs") = some (.count e.outputs.length) ∧
      rs.lookup (cs! "ruleBlocks") = some (.count e.blocks.length) ∧
      rs.lookup (cs! "rules") = some (.count ((e.blocks.map fun bl => bl.rules.length).sum : Nat)) ∧
      rs.lookup (cs! "runs") = some (.count b.times.length) ∧
      rs.lookup (cs! "evaluations") = some (.count b.bench.expected.length) := by
  obtain ⟨e, errors, he, -, -, rfl⟩ := results_ok b library out unit inc rs h
  have hsum : ∀ (l : List (RuleBlock S)) (n : Nat), l.foldl (fun (n : Nat) bl => n + bl.rules.length) n =
      n + (l.map fun bl => bl.rules.length).sum := by
    intro l
    induction l with
    | nil => simp
    | cons a l ih => intro n; simp [ih, Nat.add_assoc]
  refine ⟨e, he, rfl, rfl, rfl, rfl, rfl, ?_, rfl, rfl⟩
  rw [show (e.blocks.map fun bl => bl.rules.length).sum = e.blocks.foldl (fun (n : Nat) bl => n + bl.rules.length) 0 by
    rw [hsum]; simp]
  rfl

end General

/-! ### times -/

section Times
variable [Tol ℝ]
open Ext

/-- the nanoseconds of a unit -/
noncomputable def _root_.FL.TimeUnit.nanos : TimeUnit → ℝ
  | .nanoSeconds => 1
  | .microSeconds => 1000
  | .milliSeconds => 1000000
  | .seconds => 1000000000
  | .minutes => 60 * 1000000000
  | .hours => 60 * 60 * 1000000000

theorem _root_.FL.TimeUnit.nanos_pos (u : TimeUnit) : 0 < u.nanos := by cases u <;> norm_num [TimeUnit.nanos]

/-- C79.  The names of the units say how long they are. -/
theorem unit_named (u : TimeUnit) : ∃ p ∈ [(cs! "nano", 1 / 10 ^ 9), (cs! "micro", 1 / 10 ^ 6), (cs! "milli", 1 / 10 ^ 3), ([], (1 : ℝ))],
    ∃ b ∈ [(cs! "seconds", (1 : ℝ)), (cs! "minutes", 60), (cs! "hours", 60 * 60)], u.text = p.1 ++ b.1 ∧ u.nanos = p.2 * b.2 * 10 ^ 9 := by
  cases u
  · exact ⟨_, .head _, _, .head _, rfl, by norm_num [TimeUnit.nanos]⟩
  · exact ⟨_, .tail _ (.head _), _, .head _, rfl, by norm_num [TimeUnit.nanos]⟩
  · exact ⟨_, .tail _ (.tail _ (.head _)), _, .head _, rfl, by norm_num [TimeUnit.nanos]⟩
  · exact ⟨_, .tail _ (.tail _ (.tail _ (.head _))), _, .head _, rfl, by norm_num [TimeUnit.nanos]⟩
  · exact ⟨_, .tail _ (.tail _ (.tail _ (.head _))), _, .tail _ (.head _), rfl, by norm_num [TimeUnit.nanos]⟩
  · exact ⟨_, .tail _ (.tail _ (.tail _ (.head _))), _, .tail _ (.tail _ (.head _)), rfl, by norm_num [TimeUnit.nanos]⟩

theorem factor_fin (u : TimeUnit) : (u.factor : Ext ℝ) = .fin (1 / u.nanos) := by
  cases u <;> simp [TimeUnit.factor, TimeUnit.nanos, Scalar.lit]
  all_goals first
    | (norm_num; done)
    | (rw [div_fin _ _ (by norm_num)]; congr 1; norm_num)

/-- C79.  Converting a time between units. -/
theorem convert_spec (x : ℝ) (u v : TimeUnit) : TimeUnit.convert (.fin x : Ext ℝ) u v = .fin (x * u.nanos / v.nanos) := by
  unfold TimeUnit.convert
  rw [factor_fin, factor_fin, mul_fin, div_fin _ _ (one_div_ne_zero u.nanos_pos.ne')]
  congr 1
  field_simp

/-- C79.  Converting there and back, or by way of another unit. -/
theorem convert_trans (x : ℝ) (u v w : TimeUnit) :
    TimeUnit.convert (TimeUnit.convert (.fin x : Ext ℝ) u v) v w = TimeUnit.convert (.fin x) u w ∧
    TimeUnit.convert (.fin x : Ext ℝ) u u = .fin x := by
  have hu := u.nanos_pos.ne'
  have hv := v.nanos_pos.ne'
  rw [convert_spec, convert_spec, convert_spec, convert_spec]
  constructor <;> congr 1 <;> field_simp

theorem sum_fin (ts : List ℝ) : Op.sum (ts.map Ext.fin) = .fin ts.sum := by
  have : ∀ (l : List ℝ) (a : ℝ), (l.map Ext.fin).foldl (fun acc y => acc + y) (.fin a) = Ext.fin (a + l.sum) := by
    intro l
    induction l with
    | nil => simp
    | cons x l ih => intro a; simp only [List.map_cons, List.foldl_cons, add_fin, ih, List.sum_cons]; congr 1; ring
  unfold Op.sum
  rw [show (lit 0 : Ext ℝ) = .fin 0 by simp, this]
  simp

theorem mean_fin (ts : List ℝ) (h : ts ≠ []) : Op.mean (ts.map Ext.fin) = .fin (ts.sum / ts.length) := by
  unfold Op.mean
  rw [sum_fin, List.length_map, show (lit (ts.length : ℚ) : Ext ℝ) = .fin (ts.length : ℝ) by simp, div_fin]
  simpa using h

theorem deviation_fin (ts : List ℝ) (h : ts ≠ []) : ∃ s, Op.standardDeviation (ts.map Ext.fin) = .fin s ∧ 0 ≤ s ∧
    s * s * (ts.length - 1) = (ts.map fun t => (t - ts.sum / ts.length) * (t - ts.sum / ts.length)).sum := by
  unfold Op.standardDeviation
  rw [mean_fin ts h]
  cases ts with
  | nil => exact absurd rfl h
  | cons t ts =>
    cases ts with
    | nil => exact ⟨0, by simp [Op.standardDeviationM], le_refl _, by simp⟩
    | cons u us =>
      set l := t :: u :: us with hl
      have hlen : (1 : ℝ) < l.length := by simp [hl]; positivity
      have hvar : Op.varianceM (l.map Ext.fin) (.fin (l.sum / l.length)) =
          .fin ((l.map fun t => (t - l.sum / l.length) * (t - l.sum / l.length)).sum / (l.length - 1)) := by
        have fold : ∀ (m : ℝ) (l : List ℝ) (a : ℝ), (l.map Ext.fin).foldl (fun acc y => acc + (y - .fin m) * (y - .fin m)) (.fin a)
            = Ext.fin (a + (l.map fun t => (t - m) * (t - m)).sum) := by
          intro m l
          induction l with
          | nil => simp
          | cons x l ih =>
            intro a
            simp only [List.map_cons, List.foldl_cons, sub_fin, mul_fin, add_fin, ih, List.sum_cons]
            congr 1; ring
        rw [show Op.varianceM (l.map Ext.fin) (.fin (l.sum / l.length)) =
          ((l.map Ext.fin).foldl (fun acc y => acc + (y - .fin (l.sum / l.length)) * (y - .fin (l.sum / l.length))) (lit 0))
            / lit (((l.map Ext.fin).length : ℚ) - 1) from rfl]
        rw [show (lit 0 : Ext ℝ) = .fin 0 by simp, fold, List.length_map,
          show (lit ((l.length : ℚ) - 1) : Ext ℝ) = .fin ((l.length : ℝ) - 1) by simp, div_fin _ _ (by linarith)]
        simp
      have hnn : 0 ≤ (l.map fun t => (t - l.sum / l.length) * (t - l.sum / l.length)).sum := by
        apply List.sum_nonneg
        intro x hx
        obtain ⟨t, -, rfl⟩ := List.mem_map.1 hx
        exact mul_self_nonneg _
      refine ⟨Real.sqrt ((l.map fun t => (t - l.sum / l.length) * (t - l.sum / l.length)).sum / (l.length - 1)), ?_, Real.sqrt_nonneg _, ?_⟩
      · rw [show Op.standardDeviationM (l.map Ext.fin) (.fin (l.sum / l.length)) =
          Scalar.sqrt (Op.varianceM (l.map Ext.fin) (.fin (l.sum / l.length))) from rfl, hvar, sqrt_fin]
        exact div_nonneg hnn (by linarith)
      · rw [Real.mul_self_sqrt (div_nonneg hnn (by linarith))]
        exact div_mul_cancel₀ _ (by linarith)

theorem lookup_skip {β : Type} (k : Str) (l m : List (Str × β)) (h : k ∉ l.map (·.1)) : (l ++ m).lookup k = m.lookup k := by
  induction l with
  | nil => rfl
  | cons p l ih =>
    obtain ⟨a, c⟩ := p
    simp only [List.map_cons, List.mem_cons, not_or] at h
    rw [List.cons_append, List.lookup_cons, beq_false_of_ne h.1]
    exact ih h.2

theorem lookup_time {S : Type} [Scalar S] (b : TimedBenchmark S) (library : Str) (out : Option Nat) (unit : TimeUnit) (inc : Bool)
    (rs : List (Result S)) (h : b.results library out unit inc = .ok rs) :
    rs.lookup (cs! "units") = some (.text unit.text) ∧
    rs.lookup (cs! "sum(t)") = some (.fixed (decimalsOf unit) (TimeUnit.convert (Op.sum b.times) .nanoSeconds unit)) ∧
    rs.lookup (cs! "mean(t)") = some (.fixed none (TimeUnit.convert (Op.mean b.times) .nanoSeconds unit)) ∧
    rs.lookup (cs! "sd(t)") = some (.fixed none (TimeUnit.convert (Op.standardDeviation b.times) .nanoSeconds unit)) := by
  obtain ⟨e, errors, he, h1, h2, rfl⟩ := results_ok b library out unit inc rs h
  have hn : errors.map (·.1) = [] ∨ errors.map (·.1) = [cs! "outputVariable", cs! "range", cs! "tolerance", cs! "errors",
      cs! "nfErrors", cs! "accErrors", cs! "rmse", cs! "nrmse"] := by
    cases hc : b.bench.canComputeErrors with
    | false => exact .inl (by rw [h2 hc]; rfl)
    | true => exact .inr (errorResults_names _ _ _ _ (h1 hc))
  have hk : ∀ k ∈ [cs! "units", cs! "sum(t)", cs! "mean(t)", cs! "sd(t)"],
      k ∉ (b.engineResults library e ++ errors).map (·.1) := by
    intro k hk
    rw [List.map_append, List.mem_append, show (b.engineResults library e).map (·.1) = [cs! "library", cs! "name", cs! "inputs",
      cs! "outputs", cs! "ruleBlocks", cs! "rules", cs! "runs", cs! "evaluations"] from rfl]
    revert k
    rcases hn with hn | hn <;> rw [hn] <;> decide
  refine ⟨?_, ?_, ?_, ?_⟩ <;> rw [List.append_assoc, lookup_skip _ _ _ (hk _ (by decide))] <;> rfl

/-- C79.  The times in the results: the sum, the mean and the standard deviation, in the unit asked for. -/
theorem time_results (b : TimedBenchmark (Ext ℝ)) (library : Str) (out : Option Nat) (unit : TimeUnit) (inc : Bool)
    (rs : List (Result (Ext ℝ))) (h : b.results library out unit inc = .ok rs) (ts : List ℝ) (h0 : ts ≠ [])
    (hts : b.times = ts.map Ext.fin) :
    rs.lookup (cs! "units") = some (.text unit.text) ∧
    ∃ sum mean sd : ℝ,
      rs.lookup (cs! "sum(t)") = some (.fixed (if unit = .nanoSeconds then some 0 else none) (.fin sum)) ∧
      rs.lookup (cs! "mean(t)") = some (.fixed none (.fin mean)) ∧ rs.lookup (cs! "sd(t)") = some (.fixed none (.fin sd)) ∧
      sum * unit.nanos = ts.sum ∧ mean * ts.length = sum ∧ 0 ≤ sd ∧
      sd * sd * (ts.length - 1) = (ts.map fun t => (t / unit.nanos - mean) * (t / unit.nanos - mean)).sum := by
  obtain ⟨h1, h2, h3, h4⟩ := lookup_time b library out unit inc rs h
  obtain ⟨s, hs1, hs2, hs3⟩ := deviation_fin ts h0
  have hu := unit.nanos_pos
  have hl : (0 : ℝ) < ts.length := by
    have := List.length_pos_iff.2 h0
    positivity
  refine ⟨h1, ts.sum / unit.nanos, ts.sum / ts.length / unit.nanos, s / unit.nanos, ?_, ?_, ?_, ?_, ?_, by positivity, ?_⟩
  · rw [h2, hts, sum_fin, convert_spec]
    simp only [TimeUnit.nanos, mul_one]
    rfl
  · rw [h3, hts, mean_fin ts h0, convert_spec]
    simp only [TimeUnit.nanos, mul_one]
  · rw [h4, hts, hs1, convert_spec]
    simp only [TimeUnit.nanos, mul_one]
  · field_simp
  · field_simp
  · rw [show s / unit.nanos * (s / unit.nanos) * ((ts.length : ℝ) - 1) = s * s * (ts.length - 1) / (unit.nanos * unit.nanos) by
      field_simp, hs3]
    rw [div_eq_mul_inv, ← List.sum_map_mul_right]
    congr 1
    apply List.map_congr_left
    intro t _
    field_simp

/-- C79.  The single times follow the other results, one for each run, in order.  They are always in nanoseconds,
see `times_violated`. -/
theorem single_times {S : Type} [Scalar S] (b : TimedBenchmark S) (library : Str) (out : Option Nat) (unit : TimeUnit)
    (rs : List (Result S)) (h : b.results library out unit true = .ok rs) :
    ∃ front, b.results library out unit false = .ok front ∧
      rs = front ++ b.times.mapIdx fun i t => ('t' :: Nat.toDigits 10 (i + 1), .fixed (if unit = .nanoSeconds then some 0 else none) t) := by
  have key : ∀ (ts : List S) (i : Nat), singleTimes unit i ts =
      ts.mapIdx fun j t => ('t' :: Nat.toDigits 10 (i + j + 1), .fixed (if unit = .nanoSeconds then some 0 else none) t) := by
    intro ts
    induction ts with
    | nil => intro i; rfl
    | cons t ts ih =>
      intro i
      rw [singleTimes, ih, List.mapIdx_cons]
      congr 1
      simp only [show ∀ j, i + 1 + j + 1 = i + (j + 1) + 1 from fun j => by omega]
  obtain ⟨e, errors, he, h1, h2, rfl⟩ := results_ok b library out unit true rs h
  refine ⟨b.engineResults library e ++ errors ++ timeResults b.times unit, ?_, ?_⟩
  · unfold results
    rw [he]
    simp only
    cases hc : b.bench.canComputeErrors with
    | false =>
      rw [h2 hc]
      show Except.ok _ = Except.ok _
      simp
    | true =>
      simp only [if_true]
      rw [h1 hc]
      show Except.ok _ = Except.ok _
      simp
  · rw [if_pos rfl, key]
    simp only [Nat.zero_add]

end Times

/-! ### errors -/

section Errors
variable [Tol ℝ]
open Ext

/-- the root of the mean of the squares -/
noncomputable def rootMeanSquare (ds : List ℝ) : ℝ := Real.sqrt ((ds.map fun d => d * d).sum / ds.length)

/-- the positions of the output variables chosen -/
def chosenOutputs (e : Engine (Ext ℝ)) (out : Option Nat) : List Nat :=
  (List.range e.outputs.length).filter fun i => Benchmark.chosen out i

theorem mse_root (b : Benchmark (Ext ℝ)) (e : Engine (Ext ℝ)) (he : b.engine = some e) (hc : b.canComputeErrors = true)
    (out : Option Nat) (hr : ∀ p ∈ b.pairs, Benchmark.Readable e out p) :
    ∃ m, b.meanSquaredError out = .ok m ∧ Scalar.sqrt m = .fin (rootMeanSquare (b.deviations e out)) := by
  refine ⟨_, by rw [Benchmark.meanSquaredError_eq b out e he hc, if_pos hr], ?_⟩
  rw [sqrt_fin]
  · rfl
  · apply div_nonneg
    · apply List.sum_nonneg
      intro x hx
      obtain ⟨d, -, rfl⟩ := List.mem_map.1 hx
      exact mul_self_nonneg d
    · positivity

theorem sums_eq (b : Benchmark (Ext ℝ)) (e : Engine (Ext ℝ)) (he : b.engine = some e) (hc : b.canComputeErrors = true)
    (out : Option Nat) (hr : ∀ p ∈ b.pairs, Benchmark.Readable e out p) (r : Nat → ℝ)
    (hrange : ∀ i y, e.outputs[i]? = some y → y.toVariable.range = .fin (r i) ∧ 0 < r i) :
    ∃ s, sums b e.outputs out = .ok s ∧ s.names = (chosenOutputs e out).map (fun i => ((e.outputs.map fun o => o.name)[i]?).getD []) ∧
      s.ranges = .fin ((chosenOutputs e out).map r).sum ∧
      s.nrmse = .fin ((chosenOutputs e out).map fun i => rootMeanSquare (b.deviations e (some i)) / r i).sum ∧
      s.weights = .fin ((chosenOutputs e out).map fun i => 1 / r i).sum := by
  have key : ∀ (l : List Nat) (n : List Str) (a1 a2 a3 : ℝ), (∀ i ∈ l, i < e.outputs.length) →
      ∃ s : Sums (Ext ℝ), l.foldlM (sumStep b e.outputs out) ⟨n, .fin a1, .fin a2, .fin a3⟩ = .ok s ∧
        s.names = n ++ (l.filter fun i => Benchmark.chosen out i).map (fun i => ((e.outputs.map fun o => o.name)[i]?).getD []) ∧
        s.ranges = .fin (a1 + ((l.filter fun i => Benchmark.chosen out i).map r).sum) ∧
        s.nrmse = .fin (a2 + ((l.filter fun i => Benchmark.chosen out i).map fun i => rootMeanSquare (b.deviations e (some i)) / r i).sum) ∧
        s.weights = .fin (a3 + ((l.filter fun i => Benchmark.chosen out i).map fun i => 1 / r i).sum) := by
    intro l
    induction l with
    | nil => intro n a1 a2 a3 _; exact ⟨_, rfl, by simp, by simp, by simp, by simp⟩
    | cons i l ih =>
      intro n a1 a2 a3 hl
      have hi := hl i (by simp)
      obtain ⟨y, hy⟩ : ∃ y, e.outputs[i]? = some y := ⟨e.outputs[i], by simp [hi]⟩
      rw [List.foldlM_cons]
      by_cases hch : Benchmark.chosen out i = true
      · obtain ⟨m, hm1, hm2⟩ := mse_root b e he hc (some i) (fun p hp k hk hck => by
          have : k = i := (Benchmark.chosen_some i k).1 hck
          subst this
          exact hr p hp k hk hch)
        obtain ⟨hr1, hr2⟩ := hrange i y hy
        have hstep : sumStep b e.outputs out ⟨n, .fin a1, .fin a2, .fin a3⟩ i = .ok ⟨n ++ [y.name], .fin (a1 + r i),
            .fin (a2 + rootMeanSquare (b.deviations e (some i)) * 1 / r i), .fin (a3 + 1 / r i)⟩ := by
          unfold sumStep
          rw [hy]
          simp only [hch, if_true]
          rw [hm1]
          show Except.ok _ = Except.ok _
          rw [hm2, hr1, show (lit 1 : Ext ℝ) = .fin 1 by simp, mul_fin, div_fin _ _ hr2.ne', div_fin _ _ hr2.ne',
            add_fin, add_fin, add_fin]
        rw [hstep]
        show ∃ s, (l.foldlM _ _ : Except Err (Sums (Ext ℝ))) = .ok s ∧ _
        obtain ⟨s, i1, i2, i3, i4, i5⟩ := ih (n ++ [y.name]) (a1 + r i)
          (a2 + rootMeanSquare (b.deviations e (some i)) * 1 / r i) (a3 + 1 / r i) (fun j hj => hl j (by simp [hj]))
        refine ⟨s, i1, ?_, ?_, ?_, ?_⟩
        · rw [i2, List.filter_cons_of_pos hch]
          simp [hy]
        · rw [i3, List.filter_cons_of_pos hch]; congr 1; simp [add_assoc]
        · rw [i4, List.filter_cons_of_pos hch]; congr 1; simp [add_assoc]
        · rw [i5, List.filter_cons_of_pos hch]; congr 1; simp [add_assoc]
      · have hstep : sumStep b e.outputs out ⟨n, .fin a1, .fin a2, .fin a3⟩ i = .ok ⟨n, .fin a1, .fin a2, .fin a3⟩ := by
          unfold sumStep
          rw [hy]
          simp only [hch, Bool.false_eq_true, if_false]
        rw [hstep]
        show ∃ s, (l.foldlM _ _ : Except Err (Sums (Ext ℝ))) = .ok s ∧ _
        rw [List.filter_cons_of_neg hch]
        exact ih n a1 a2 a3 (fun j hj => hl j (by simp [hj]))
  obtain ⟨s, k1, k2, k3, k4, k5⟩ := key (List.range e.outputs.length) [] 0 0 0 (fun i hi => List.mem_range.1 hi)
  simp only [List.nil_append, zero_add] at k2 k3 k4 k5
  refine ⟨s, ?_, k2, k3, k4, k5⟩
  rw [← k1]
  unfold sums
  rw [show (lit 0 : Ext ℝ) = .fin 0 by simp]

/-- C79.  The results about errors, for output variables of finite ranges: the counts (C48), the root of the mean of the squares of
the deviations, the mean of the ranges, and the mean of the roots weighted with the inverses of the ranges.
Partial: exact arithmetic; the mean of the squares is over the deviations and not over the evaluations, see
`mean_violated`, and `nrmse` is not normalised, see `nrmse_violated`. -/
theorem error_results_partial (b : TimedBenchmark (Ext ℝ)) (e : Engine (Ext ℝ)) (he : b.bench.engine = some e)
    (hc : b.bench.canComputeErrors = true) (out : Option Nat) (hr : ∀ p ∈ b.bench.pairs, Benchmark.Readable e out p)
    (library : Str) (unit : TimeUnit) (inc : Bool) (r : Nat → ℝ)
    (hrange : ∀ i y, e.outputs[i]? = some y → y.toVariable.range = .fin (r i) ∧ 0 < r i) (h0 : chosenOutputs e out ≠ []) :
    ∃ (rs : List (Result (Ext ℝ))) (nf acc : Nat), b.results library out unit inc = .ok rs ∧
      b.bench.nonFiniteErrors out = .ok (nf : Int) ∧ b.bench.accuracyErrors out = .ok (acc : Int) ∧
      rs.lookup (cs! "errors") = some (.count (nf + acc)) ∧ rs.lookup (cs! "nfErrors") = some (.count nf) ∧
      rs.lookup (cs! "accErrors") = some (.count acc) ∧ (b.bench.deviations e out).length = acc ∧
      rs.lookup (cs! "rmse") = some (.scientific (.fin (rootMeanSquare (b.bench.deviations e out)))) ∧
      rs.lookup (cs! "tolerance") = some (.general b.bench.tolerance) ∧
      rs.lookup (cs! "outputVariable") = some (.text (Op.join ((chosenOutputs e out).map
        (fun i => ((e.outputs.map fun o => o.name)[i]?).getD [])) (cs! ","))) ∧
      rs.lookup (cs! "range") = some (.fixed none (.fin (((chosenOutputs e out).map r).sum / (chosenOutputs e out).length))) ∧
      rs.lookup (cs! "nrmse") = some (.scientific (.fin
        (((chosenOutputs e out).map fun i => rootMeanSquare (b.bench.deviations e (some i)) / r i).sum
          / ((chosenOutputs e out).map fun i => 1 / r i).sum))) := by
  obtain ⟨m, hm1, hm2⟩ := mse_root b.bench e he hc out hr
  obtain ⟨s, k1, k2, k3, k4, k5⟩ := sums_eq b.bench e he hc out hr r hrange
  have hacc := Benchmark.accuracyErrors_eq b.bench out e he hc
  rw [if_pos hr] at hacc
  have hnf := Benchmark.numberOfErrors_eq b.bench .nonFinite out e he hc
  have hall := Benchmark.allErrors_partial b.bench out hc
  rw [if_pos hr] at hnf
  set nf := (b.bench.cells e out).countP fun c => Benchmark.counts b.bench.tolerance .nonFinite c.1 c.2 with hnfd
  have hw : (((chosenOutputs e out).map fun i => 1 / r i).sum) ≠ 0 := by
    apply ne_of_gt
    apply List.sum_pos
    · intro x hx
      obtain ⟨i, hi, rfl⟩ := List.mem_map.1 hx
      have hi' : i < e.outputs.length := List.mem_range.1 (List.mem_filter.1 hi).1
      have := (hrange i e.outputs[i] (by simp [hi'])).2
      positivity
    · simpa using h0
  have hlen : ((chosenOutputs e out).length : ℝ) ≠ 0 := by simpa using h0
  have hn : s.names.length = (chosenOutputs e out).length := by rw [k2, List.length_map]
  have hall' : b.bench.allErrors out = .ok ((nf : Int) + ((b.bench.deviations e out).length : Int)) := by
    rw [hall, hacc, show b.bench.nonFiniteErrors out = .ok (nf : Int) from hnf]
    rfl
  have herr : errorResults b.bench e out = .ok
      [(cs! "outputVariable", .text (Op.join s.names (cs! ","))),
      (cs! "range", .fixed none (s.ranges / lit (s.names.length : Rat))),
      (cs! "tolerance", .general b.bench.tolerance),
      (cs! "errors", .count ((nf : Int) + ((b.bench.deviations e out).length : Int))),
      (cs! "nfErrors", .count nf),
      (cs! "accErrors", .count ((b.bench.deviations e out).length : Int)),
      (cs! "rmse", .scientific (Scalar.sqrt m)),
      (cs! "nrmse", .scientific (s.nrmse / s.weights))] := by
    unfold errorResults
    rw [hm1, k1, hall', hacc, show b.bench.nonFiniteErrors out = .ok (nf : Int) from hnf]
    rfl
  rw [hm2, k2, k3, k4, k5, List.length_map, div_fin _ _ hw,
    show (lit ((chosenOutputs e out).length : ℚ) : Ext ℝ) = .fin ((chosenOutputs e out).length : ℝ) by simp, div_fin _ _ hlen] at herr
  refine ⟨b.engineResults library e ++ [(cs! "outputVariable", .text (Op.join ((chosenOutputs e out).map
        (fun i => ((e.outputs.map fun o => o.name)[i]?).getD [])) (cs! ","))),
      (cs! "range", .fixed none (.fin (((chosenOutputs e out).map r).sum / (chosenOutputs e out).length))),
      (cs! "tolerance", .general b.bench.tolerance),
      (cs! "errors", .count ((nf : Int) + ((b.bench.deviations e out).length : Int))),
      (cs! "nfErrors", .count nf),
      (cs! "accErrors", .count ((b.bench.deviations e out).length : Int)),
      (cs! "rmse", .scientific (.fin (rootMeanSquare (b.bench.deviations e out)))),
      (cs! "nrmse", .scientific (.fin (((chosenOutputs e out).map fun i => rootMeanSquare (b.bench.deviations e (some i)) / r i).sum
          / ((chosenOutputs e out).map fun i => 1 / r i).sum)))]
      ++ timeResults b.times unit ++ if inc then singleTimes unit 0 b.times else [],
    nf, (b.bench.deviations e out).length, ?_, hnf, hacc, ?_⟩
  · unfold results
    rw [he]
    simp only [hc, if_true]
    rw [herr]
    rfl
  · exact ⟨rfl, rfl, rfl, rfl, rfl, rfl, rfl, rfl, rfl⟩

/-- C79.  For a single output variable `nrmse` is `rmse`, whatever the range: it is not normalised. -/
theorem nrmse_violated (b : TimedBenchmark (Ext ℝ)) (e : Engine (Ext ℝ)) (he : b.bench.engine = some e)
    (hc : b.bench.canComputeErrors = true) (k : Nat) (hk : k < e.outputs.length)
    (hr : ∀ p ∈ b.bench.pairs, Benchmark.Readable e (some k) p)
    (library : Str) (unit : TimeUnit) (inc : Bool) (r : Nat → ℝ)
    (hrange : ∀ i y, e.outputs[i]? = some y → y.toVariable.range = .fin (r i) ∧ 0 < r i) :
    ∃ rs x, b.results library (some k) unit inc = .ok rs ∧ rs.lookup (cs! "nrmse") = some (.scientific x) ∧
      rs.lookup (cs! "rmse") = some (.scientific x) := by
  have hch : chosenOutputs e (some k) = [k] := by
    unfold chosenOutputs
    have h : ∀ n, (List.range n).filter (fun y => Benchmark.chosen (some k) y) = if k < n then [k] else [] := by
      intro n
      induction n with
      | zero => rfl
      | succ n ih =>
        rw [List.range_succ, List.filter_append, ih]
        by_cases h1 : k < n
        · have h2 : k < n + 1 := by omega
          have h3 : n ≠ k := by omega
          simp [h1, h2, Benchmark.chosen, h3]
        · by_cases h2 : n = k
          · subst h2; simp [Benchmark.chosen]
          · have h3 : ¬ k < n + 1 := by omega
            simp [h1, h3, Benchmark.chosen, h2]
    rw [h, if_pos hk]
  obtain ⟨rs, nf, acc, h1, -, -, -, -, -, -, h2, -, -, -, h3⟩ :=
    error_results_partial b e he hc (some k) hr library unit inc r hrange (by simp [hch])
  refine ⟨rs, _, h1, ?_, h2⟩
  rw [h3, hch]
  have := (hrange k e.outputs[k] (by simp [hk])).2
  congr 3
  simp
  field_simp

end Errors
end TimedBenchmark

/-! ### examples -/

namespace ResultsDemo
open TimedBenchmark

/-- two output variables with ranges 10 and 1, three rows and three runs; the second row of `y` deviates by 2 -/
def bench : TimedBenchmark (Ext Rat) :=
  ⟨cs! "demo", ⟨some ⟨[], [], [Variable.new (cs! "a") (.fin 0) (.fin 1) []],
      [OutputVariable.new (cs! "y") (.fin 0) (.fin 10) [], OutputVariable.new (cs! "z") (.fin 0) (.fin 1) []], []⟩,
    [[.fin 0, .fin 1, .fin 1], [.fin 0, .fin 4, .nan], [.fin 0, .fin 5, .fin 1]],
    [[.fin 0, .fin 1, .fin 1], [.fin 0, .fin 2, .fin 3], [.fin 0, .fin 5, .fin 1]], .fin (1 / 2)⟩,
    [.fin 1000, .fin 3000, .fin 2000]⟩

/-- the names and the integers of the results -/
def counts (rs : Except Err (List (Result (Ext Rat)))) : List (Str × Int) :=
  match rs with
  | .error _ => []
  | .ok rs => rs.filterMap fun r => match r.2 with | .count n => some (r.1, n) | _ => none

/-- the numbers among the results, with their names -/
def numbers (rs : Except Err (List (Result (Ext Rat)))) : List (Str × Ext Rat) :=
  match rs with
  | .error _ => []
  | .ok rs => rs.filterMap fun r => match r.2 with | .fixed _ x => some (r.1, x) | _ => none

/-- Non-vacuity of C79: the counts and the times. -/
example : counts (bench.results (cs! "fuzzylite 6") none .nanoSeconds true) =
      [(cs! "inputs", 1), (cs! "outputs", 2), (cs! "ruleBlocks", 0), (cs! "rules", 0), (cs! "runs", 3), (cs! "evaluations", 3),
        (cs! "errors", 2), (cs! "nfErrors", 1), (cs! "accErrors", 1)] ∧
    (numbers (bench.results (cs! "fuzzylite 6") none .microSeconds false)).take 3 =
      [(cs! "range", .fin (11 / 2)), (cs! "sum(t)", .fin 6), (cs! "mean(t)", .fin 2)] := by
  decide +kernel

/-- a table as text -/
example : format [(cs! "name", cs! "demo"), (cs! "runs", cs! "3")] .horizontal .headerAndBody (cs! "\t") = cs! "name\truns\ndemo\t3" ∧
    format [(cs! "name", cs! "demo"), (cs! "runs", cs! "3")] .vertical .headerAndBody (cs! "\t") = cs! "name\tdemo\nruns\t3" := by
  decide +kernel

/-- C79.  In microseconds the sum of the times is 6, but the times of the runs are 1000, 3000 and 2000: they are not
converted, although `units` says so. -/
theorem times_violated :
    (numbers (bench.results (cs! "fuzzylite 6") none .microSeconds true)).filter
      (fun r => r.1 ∈ [cs! "sum(t)", cs! "t1", cs! "t2", cs! "t3"]) =
    [(cs! "sum(t)", .fin 6), (cs! "t1", .fin 1000), (cs! "t2", .fin 3000), (cs! "t3", .fin 2000)] := by
  decide +kernel

/-- C79.  One of three evaluations deviates by 2: the mean of the squared errors is 4 and not 4/3, because only the deviations beyond the
tolerance are counted. -/
theorem mean_violated : bench.bench.meanSquaredError (some 0) = .ok (.fin 4) ∧
    ((bench.bench.expected.zip bench.bench.obtained).map fun p => (p.1.getD 1 .nan - p.2.getD 1 .nan) * (p.1.getD 1 .nan - p.2.getD 1 .nan)) =
      [.fin 0, .fin 4, .fin 0] := by
  decide +kernel

/-- C79.  How results are written: texts as they are, integers in decimal notation, and numbers as the printer writes them, with words for those that are not finite. -/
theorem cell_text (p : Printer (Ext Rat)) (s : Str) (n : Nat) (d : Nat) (x : Ext Rat) (q : Rat) :
    (Cell.text s).str p = s ∧ (Cell.count n).str p = Nat.toDigits 10 n ∧ (Cell.count (-(n + 1 : Nat))).str p = '-' :: Nat.toDigits 10 (n + 1) ∧
    (Cell.fixed none x).str p = ScalarText.str x ∧ (Cell.fixed (some d) x).str p = p.fixed d x ∧
    (∀ c ∈ [Cell.general, Cell.scientific], (c (.nan : Ext Rat)).str p = cs! "nan" ∧ (c .pinf).str p = cs! "inf" ∧ (c .ninf).str p = cs! "-inf") ∧
    (Cell.general (.fin q)).str p = p.general (.fin q) ∧ (1 / 10 ^ 6 ≤ |q| → (Cell.scientific (.fin q)).str p = p.scientific (.fin q)) := by
  have h2 : Op.isNaN (.fin q : Ext Rat) = false := by
    have : Scalar.eq (.fin q : Ext Rat) (.fin q) = true := by
      show decide (q = q) = true
      simp
    simp [Op.isNaN, this]
  have h3 : Op.isInf (.fin q : Ext Rat) = false := rfl
  refine ⟨rfl, ?_, ?_, rfl, rfl, ?_, by simp [Cell.str, h2, h3], fun h => ?_⟩
  · have : ¬ ((n : Int) < 0) := by omega
    simp [Cell.str, this]
  · have : (-((n + 1 : Nat) : Int)) < 0 := by omega
    simp only [Cell.str, this, if_true]
    rfl
  · simp only [List.forall_mem_cons, List.not_mem_nil, false_imp_iff, implies_true, and_true]
    exact ⟨⟨rfl, rfl, rfl⟩, rfl, rfl, rfl⟩
  · have h1 : Op.isEqT (lit (1 / 10 ^ 6) : Ext Rat) (.fin q) (lit 0) = false := by
      have h0 : q ≠ 0 := by
        rintro rfl
        norm_num at h
      have h1 : Scalar.lt (Scalar.abs ((.fin q : Ext Rat) - lit 0)) (lit (1 / 10 ^ 6)) = false := by
        show decide (|q + -0| < 1 / 10 ^ 6) = false
        simpa using h
      have h2 : Scalar.eq (.fin q : Ext Rat) (lit 0) = false := by
        show decide (q = 0) = false
        simpa using h0
      have h3 : Scalar.eq (.fin q : Ext Rat) (.fin q) = true := by
        show decide (q = q) = true
        simp
      unfold Op.isEqT
      rw [h1, h2, h3]
      rfl
    simp only [Cell.str, h1, h2, h3, Bool.false_eq_true, if_false]

/-- C79.  In scientific notation all numbers below a millionth are written as zero. -/
theorem small_violated (p : Printer (Ext Rat)) (q : Rat) (h : |q| < 1 / 10 ^ 6) :
    (Cell.scientific (.fin q : Ext Rat)).str p = (Cell.scientific (.fin 0 : Ext Rat)).str p := by
  have h1 : Op.isEqT (lit (1 / 10 ^ 6) : Ext Rat) (.fin q) (lit 0) = true := by
    have : Scalar.lt (Scalar.abs ((.fin q : Ext Rat) - lit 0)) (lit (1 / 10 ^ 6)) = true := by
      show decide (|q + -0| < 1 / 10 ^ 6) = true
      simpa using h
    unfold Op.isEqT
    rw [this]
    simp only [Bool.or_true, Bool.true_or]
  have h2 : Op.isEqT (lit (1 / 10 ^ 6) : Ext Rat) (.fin 0) (lit 0) = true := by decide +kernel
  have hn : ∀ x : Rat, Op.isNaN (.fin x : Ext Rat) = false ∧ Op.isInf (.fin x : Ext Rat) = false := by
    intro x
    constructor
    · show (!decide (x = x)) = false
      simp
    · rfl
  simp only [Cell.str]
  rw [h1, h2, (hn q).1, (hn q).2, (hn 0).1, (hn 0).2]
  rfl

/-- C79.  Without expected values of the output variables, the row of results has 8 columns fewer than the header that
the console writes. -/
theorem columns_violated : ∃ (b : TimedBenchmark (Ext Rat)) (rs : List (Result (Ext Rat))) (names : List Str),
    b.results [] none .nanoSeconds true = .ok rs ∧ header (S := Ext Rat) b.times.length true = .ok names ∧
    rs.length + 8 = names.length := by
  obtain ⟨rs, h⟩ : ∃ rs, ({ bench with bench := { bench.bench with expected := [[.fin 0]], obtained := [[.fin 0, .fin 1, .fin 1]] } } :
      TimedBenchmark (Ext Rat)).results [] none .nanoSeconds true = .ok rs := ⟨_, rfl⟩
  have h1 := results_names _ _ _ _ _ _ h
  refine ⟨_, rs, _, h, header_spec _ _, ?_⟩
  have h2 := congrArg List.length h1
  rw [List.length_map] at h2
  rw [h2]
  decide +kernel

end ResultsDemo
end FL
