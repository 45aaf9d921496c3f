/-
Data read from text, and data written to text and read again.
-/
import Verif.Model.Data
import Verif.Props.Run
import Verif.Props.Parameters
import Verif.Lemmas.Lines
import Verif.Lemmas.Decimal
import Verif.Lemmas.Antecedent

namespace FL
open Scalar

/-! ### text -/

theorem Op.words_prefix (b s : Str) (h : b.all isSpace = true) : Op.words (b ++ s) = Op.words s := by
  induction b with
  | nil => rfl
  | cons c b ih =>
    simp only [List.all_cons, Bool.and_eq_true] at h
    rw [List.cons_append, ← ih h.2]
    have := Op.words_blank [] (b ++ s) c h.1
    simpa [Op.words, Op.wordsAux] using this

theorem Op.words_suffix (s b : Str) (h : b.all isSpace = true) : Op.words (s ++ b) = Op.words s := by
  cases b with
  | nil => rw [List.append_nil]
  | cons c b =>
    simp only [List.all_cons, Bool.and_eq_true] at h
    rw [Op.words_blank s b c h.1, Op.words_blanks b h.2, List.append_nil]

/-- blanks at the ends do not change the words -/
theorem Op.words_trim (s : Str) : Op.words (Op.trim s) = Op.words s := by
  obtain ⟨l, r, h1, h2, h3⟩ := Op.trim_spec s
  conv => rhs; rw [h1]
  rw [Op.words_suffix _ r h3, Op.words_prefix l _ h2]

/-- words between blank separators -/
theorem Op.words_join_blank (sep : Str) (h0 : sep ≠ []) (hs : sep.all isSpace = true) (ts : List Str)
    (h : ∀ t ∈ ts, t ≠ [] ∧ Op.NoBlank t) : Op.words (Op.join ts sep) = ts := by
  induction ts with
  | nil => rfl
  | cons t ts ih =>
    obtain ⟨ht0, ht⟩ := h t (by simp)
    cases ts with
    | nil => exact Op.words_single t ht0 ht
    | cons u us =>
      cases sep with
      | nil => exact absurd rfl h0
      | cons c sep =>
        rw [Op.join_cons _ _ _ (by simp)]
        have hs' := hs
        simp only [List.all_cons, Bool.and_eq_true] at hs'
        have e : t ++ (c :: sep) ++ Op.join (u :: us) (c :: sep) = t ++ c :: (sep ++ Op.join (u :: us) (c :: sep)) := by simp
        rw [e, Op.words_blank _ _ _ hs'.1, Op.words_prefix _ _ hs'.2, ih fun z hz => h z (by simp [hz]),
          Op.words_single t ht0 ht]
        rfl

theorem Op.mem_of_mem_trim {s : Str} {c : Char} (h : c ∈ Op.trim s) : c ∈ s := by
  obtain ⟨l, r, h1, -, -⟩ := Op.trim_spec s
  rw [h1]
  simp [h]

theorem isComment_of_notMem {s : Str} (h : '#' ∉ s) : isComment (Op.trim s) = false := by
  unfold isComment
  cases hh : (Op.trim s).head? with
  | none => rfl
  | some c =>
    have : c ∈ s := Op.mem_of_mem_trim (List.mem_of_mem_head? hh)
    have hc : c ≠ '#' := fun e => h (e ▸ this)
    simpa using hc

/-- lines that end with a newline each -/
theorem lines_terminated (ls : List Str) (h : ∀ l ∈ ls, '\n' ∉ l) :
    FllImporter.lines (ls.flatMap fun l => l ++ ['\n']) = ls := by
  induction ls with
  | nil => rfl
  | cons l ls ih =>
    rw [List.flatMap_cons]
    have e : l ++ ['\n'] ++ ls.flatMap (fun l => l ++ ['\n']) = l ++ '\n' :: ls.flatMap (fun l => l ++ ['\n']) := by simp
    unfold FllImporter.lines at ih ⊢
    rw [e, FllImporter.linesAux_piece [] l _ (h l (by simp)), ih fun l hl => h l (by simp [hl])]
    rfl

section General
variable {S : Type} [ScalarText S]

/-! ### what is read -/

/-- the lines that hold data: neither blank nor comments, without the blanks around -/
def dataOf (ls : List Str) : List Str := (ls.map Op.trim).filter fun l => !l.isEmpty && !isComment l

/-- the line is a header: it is neither blank nor a comment, and has a word that is not a number -/
def IsHeader (S : Type) [ScalarText S] (l : Str) : Prop :=
  l.all isSpace = false ∧ isComment (Op.trim l) = false ∧ ∃ w ∈ Op.words l, (ScalarText.ofText w : Option S) = none

theorem Term.toScalars_error (ws : List Str) :
    (∃ w ∈ ws, (ScalarText.ofText w : Option S) = none) ↔ (Term.toScalars ws : Except Err (List S)) = .error .conversion := by
  induction ws with
  | nil => simp [toScalars, pure, Except.pure]
  | cons w ws ih =>
    have hc : (toScalars (w :: ws) : Except Err (List S)) = (match (ScalarText.ofText w : Option S) with
        | some x => .ok x
        | none => .error .conversion) >>= fun x => (toScalars ws : Except Err (List S)) >>= fun xs => .ok (x :: xs) := by
      unfold toScalars
      rw [List.mapM_cons]
      rfl
    rw [hc]
    simp only [List.mem_cons, exists_eq_or_imp, ih]
    cases hw : (ScalarText.ofText w : Option S) with
    | none => simp [bind, Except.bind]
    | some x =>
      cases hr : (toScalars ws : Except Err (List S)) with
      | error e => simp [bind, Except.bind]
      | ok xs => simp [bind, Except.bind]

theorem Term.toScalars_ok (ws : List Str) (h : ∀ w ∈ ws, (ScalarText.ofText w : Option S) ≠ none) :
    ∃ ys, (Term.toScalars ws : Except Err (List S)) = .ok ys := by
  induction ws with
  | nil => exact ⟨[], rfl⟩
  | cons w ws ih =>
    obtain ⟨ys, hy⟩ := ih fun w hw => h w (by simp [hw])
    obtain ⟨y, hw⟩ := Option.ne_none_iff_exists'.1 (h w (by simp))
    refine ⟨y :: ys, ?_⟩
    unfold Term.toScalars at hy ⊢
    rw [List.mapM_cons, hw, hy]
    rfl

theorem Op.toScalars_trim (l : Str) : (Op.toScalars (Op.trim l) : Except Err (List S)) = Op.toScalars l := by
  unfold Op.toScalars; rw [Op.words_trim]

theorem Benchmark.readLines_data (ls : List Str) :
    (Benchmark.readLines false ls : Except Err (List (List S))) = (dataOf ls).mapM Op.toScalars := by
  induction ls with
  | nil => rfl
  | cons l ls ih =>
    unfold readLines dataOf
    rw [List.map_cons, List.filter_cons]
    simp only
    by_cases h : ((Op.trim l).isEmpty || isComment (Op.trim l)) = true
    · rw [if_pos h, ih, if_neg]
      · rfl
      · simp only [Bool.or_eq_true] at h; rcases h with h | h <;> simp [h]
    · rw [if_neg h, if_pos, List.mapM_cons, ih]
      · cases hs : (Op.toScalars (Op.trim l) : Except Err (List S)) with
        | error e => rfl
        | ok xs =>
          show _ = (Except.ok xs >>= fun x => _)
          cases hr : (List.mapM Op.toScalars (dataOf ls) : Except Err (List (List S))) with
          | error e =>
            unfold dataOf at hr
            simp only [bind, Except.bind, hr]
          | ok rows =>
            unfold dataOf at hr
            simp only [bind, Except.bind, hr]
            rfl
      · simpa using h

/-- C59.  What a benchmark reads: the numbers of every line that is neither blank nor a comment; only
the first line of the text may be something else (a header), any other line that is not made of
numbers raises. -/
theorem Benchmark.readLines_spec (l : Str) (ls : List Str) :
    (IsHeader S l → (Benchmark.readLines true (l :: ls) : Except Err (List (List S))) = (dataOf ls).mapM Op.toScalars) ∧
    (¬ IsHeader S l → (Benchmark.readLines true (l :: ls) : Except Err (List (List S))) = (dataOf (l :: ls)).mapM Op.toScalars) := by
  have he : (Op.trim l).isEmpty = l.all isSpace := by
    cases h : l.all isSpace with
    | true => rw [(Op.trim_empty_iff l).2 h]; rfl
    | false =>
      rw [List.isEmpty_eq_false_iff]
      intro h'
      rw [(Op.trim_empty_iff l).1 h'] at h
      cases h
  constructor
  · rintro ⟨h1, h2, h3⟩
    have h4 := (Term.toScalars_error (S := S) (Op.words l)).1 h3
    unfold readLines
    simp only
    rw [if_neg (by rw [he, h1, h2]; simp), Op.toScalars_trim]
    unfold Op.toScalars
    rw [h4]
    simp only [if_true]
    exact readLines_data ls
  · intro h
    rw [← readLines_data]
    unfold readLines
    simp only
    by_cases h1 : ((Op.trim l).isEmpty || isComment (Op.trim l)) = true
    · rw [if_pos h1, if_pos h1]
    · rw [if_neg h1, if_neg h1]
      cases hs : (Op.toScalars (Op.trim l) : Except Err (List S)) with
      | ok xs => rfl
      | error e =>
        exfalso
        apply h
        simp only [Bool.or_eq_true, not_or, Bool.not_eq_true] at h1
        refine ⟨by rw [← he]; exact h1.1, h1.2, (Term.toScalars_error (S := S) (Op.words l)).2 ?_⟩
        rw [Op.toScalars_trim] at hs
        unfold Op.toScalars at hs
        by_contra hne
        have h5 := mt (Term.toScalars_error (S := S) (Op.words l)).1 hne
        push_neg at h5
        obtain ⟨ys, hy⟩ := Term.toScalars_ok (S := S) (Op.words l) h5
        rw [hy] at hs; cases hs

/-- C59.  The number of lines to read, when it is not negative, cuts the text. -/
theorem Benchmark.prepareText_spec (b : Benchmark S) (text : Str) (n : Int) :
    b.prepareText text n = (Benchmark.readLines true
      (if n < 0 then FllImporter.lines text else (FllImporter.lines text).take n.toNat)).map fun rows => { b with expected := rows } := by
  unfold prepareText
  simp only
  generalize (if n < 0 then FllImporter.lines text else (FllImporter.lines text).take n.toNat) = ls
  cases (Benchmark.readLines true ls : Except Err (List (List S))) <;> rfl

/-! ### what was written -/

theorem FldExporter.rowText_words [LawfulText S] (x : FldExporter) (h0 : x.separator ≠ []) (hs : x.separator.all isSpace = true)
    (row : List S) : Op.words (x.rowText row) = row.map ScalarText.str :=
  Op.words_join_blank _ h0 hs _ (Term.words_strs row)

theorem FldExporter.rowText_char [LawfulText S] (x : FldExporter) (hs : x.separator.all isSpace = true)
    (row : List S) : '#' ∉ x.rowText row := by
  intro h
  rcases Op.mem_join h with ⟨t, ht, hc⟩ | hc
  · obtain ⟨v, -, rfl⟩ := List.mem_map.1 ht
    exact (LawfulText.str_char v '#' hc).2 rfl
  · have := List.all_eq_true.1 hs _ hc
    revert this; decide

theorem FldExporter.rowText_line [LawfulText S] (x : FldExporter) (hn : '\n' ∉ x.separator)
    (row : List S) : '\n' ∉ x.rowText row := by
  intro h
  rcases Op.mem_join h with ⟨t, ht, hc⟩ | hc
  · obtain ⟨v, -, rfl⟩ := List.mem_map.1 ht
    have := (LawfulText.str_char v '\n' hc).1
    revert this; decide
  · exact hn hc

theorem FldExporter.dataOf_rows [LawfulText S] (x : FldExporter) (h0 : x.separator ≠ []) (hs : x.separator.all isSpace = true)
    (rows : List (List S)) :
    (dataOf (rows.map x.rowText)).mapM (Op.toScalars (S := S)) = .ok ((rows.filter fun r => !r.isEmpty).map fun r => r.map reread) := by
  induction rows with
  | nil => rfl
  | cons r rows ih =>
    unfold dataOf at ih ⊢
    rw [List.map_cons, List.map_cons, List.filter_cons, List.filter_cons]
    have hw := x.rowText_words h0 hs r
    have hcm := isComment_of_notMem (x.rowText_char hs r)
    have he : (Op.trim (x.rowText r)).isEmpty = r.isEmpty := by
      cases r with
      | nil => rfl
      | cons a r =>
        simp only [List.isEmpty_cons, List.isEmpty_eq_false_iff]
        intro h
        rw [Op.trim_empty_iff] at h
        rw [Op.words_blanks _ h] at hw
        simp at hw
    rw [he, hcm]
    cases hr : r.isEmpty with
    | true => simpa using ih
    | false =>
      simp only [Bool.not_false, Bool.and_self, if_true, List.mapM_cons, ih, List.map_cons]
      rw [Op.toScalars_trim]
      unfold Op.toScalars
      rw [hw, Term.toScalars_strs]
      rfl

/-- C59.  The data that an exporter writes is read by a benchmark: every row that is not empty, with
each number to its printed precision.  Partial: the separator is blank, names are single lines, and
the header is recognised as one; without these it fails (`csv_violated`, `header_violated`). -/
theorem FldExporter.prepareText_partial [LawfulText S] (x : FldExporter) (h0 : x.separator ≠ [])
    (hs : x.separator.all isSpace = true) (hn : '\n' ∉ x.separator) (e : Engine S)
    (hh : x.headers = true → '\n' ∉ x.header e ∧ (IsHeader S (x.header e) ∨ (x.header e).all isSpace = true ∨ isComment (Op.trim (x.header e)) = true))
    (rows : List (List S)) (b : Benchmark S) (n : Int) (hneg : n < 0) :
    b.prepareText (x.text e rows) n =
      .ok { b with expected := (rows.filter fun r => !r.isEmpty).map fun r => r.map reread } := by
  rw [Benchmark.prepareText_spec, if_pos hneg]
  have hrows := x.dataOf_rows h0 hs rows
  have hl : ∀ l ∈ rows.map x.rowText, '\n' ∉ l := by
    intro l hl
    obtain ⟨r, -, rfl⟩ := List.mem_map.1 hl
    exact x.rowText_line hn r
  have hfm : (rows.flatMap fun r => x.rowText r ++ ['\n']) = (rows.map x.rowText).flatMap fun l => l ++ ['\n'] := by
    rw [List.flatMap_map]
  cases hx : x.headers with
  | false =>
    unfold text
    rw [hx, hfm]
    simp only [Bool.false_eq_true, if_false, List.nil_append]
    rw [lines_terminated _ hl]
    cases rows with
    | nil => rfl
    | cons r rows =>
      rw [List.map_cons] at hrows ⊢
      have hnh : ¬ IsHeader S (x.rowText r) := by
        rintro ⟨-, -, w, hw, hnone⟩
        rw [x.rowText_words h0 hs] at hw
        obtain ⟨v, -, rfl⟩ := List.mem_map.1 hw
        obtain ⟨y, hy, -⟩ := LawfulText.reads v
        rw [hy] at hnone; cases hnone
      rw [(Benchmark.readLines_spec _ _).2 hnh, hrows]
      rfl
  | true =>
    obtain ⟨h1, h2⟩ := hh hx
    unfold text
    rw [hx, hfm]
    simp only [if_true]
    have : x.header e ++ ['\n'] ++ (rows.map x.rowText).flatMap (fun l => l ++ ['\n']) =
        (x.header e :: rows.map x.rowText).flatMap fun l => l ++ ['\n'] := by simp
    rw [this, lines_terminated _ (by
      simp only [List.mem_cons, forall_eq_or_imp]; exact ⟨h1, hl⟩)]
    rcases h2 with h2 | h2 | h2
    · rw [(Benchmark.readLines_spec _ _).1 h2, hrows]; rfl
    · rw [(Benchmark.readLines_spec _ _).2 (fun h => by rw [h.1] at h2; cases h2)]
      unfold dataOf at hrows ⊢
      rw [List.map_cons, List.filter_cons, if_neg, hrows]
      · rfl
      · rw [(Op.trim_empty_iff _).2 h2]; simp
    · rw [(Benchmark.readLines_spec _ _).2 (fun h => by rw [h.2.1] at h2; cases h2)]
      unfold dataOf at hrows ⊢
      rw [List.map_cons, List.filter_cons, if_neg, hrows]
      · rfl
      · rw [h2]; simp

/-! ### processing lines of text -/

/-- Reference semantics: every row is processed in order, up to the first exception. -/
def FldExporter.each [Heap S] (x : FldExporter) : Engine S → List (Except Err (List S)) → Engine S × List (List S) × Option Err
  | e, [] => (e, [], none)
  | e, .error err :: _ => (e, [], some err)
  | e, .ok values :: rest =>
    match x.writeRow e values (e.inputs.map fun _ => true) with
    | (e, .error err) => (e, [], some err)
    | (e, .ok r) => let z := FldExporter.each x e rest; (z.1, r :: z.2.1, z.2.2)

/-- the rows of the lines: comments are skipped, blank lines are empty rows -/
def rowsOf (S : Type) [ScalarText S] (ls : List Str) : List (Except Err (List S)) :=
  (ls.filter fun l => !isComment (Op.trim l)).map Op.toScalars

theorem FldExporter.parse_trim (l : Str) (h : isComment (Op.trim l) = false) :
    (parse (Op.trim l) : Except Err (List S)) = Op.toScalars l := by
  unfold parse
  rw [h, Bool.or_false]
  split
  · rename_i he
    have : Op.trim l = [] := by simpa using he
    rw [← Op.toScalars_trim, this]
    rfl
  · exact Op.toScalars_trim l

theorem FldExporter.writeLines_data [Heap S] (x : FldExporter) (e : Engine S) (ls : List Str) :
    x.writeLines false e ls = x.each e (rowsOf S ls) := by
  induction ls generalizing e with
  | nil => rfl
  | cons l ls ih =>
    unfold writeLines rowsOf
    rw [List.filter_cons]
    simp only
    cases hc : isComment (Op.trim l) with
    | true => rw [if_pos rfl, if_neg (by simp)]; exact ih e
    | false =>
      rw [if_neg (by simp), if_pos (by simp), List.map_cons, parse_trim l hc]
      cases hs : (Op.toScalars l : Except Err (List S)) with
      | error err => rfl
      | ok values =>
        simp only
        unfold each
        cases x.writeRow e values (e.inputs.map fun _ => true) with
        | mk e' r =>
          cases r with
          | error err => rfl
          | ok r =>
            simp only [ih]
            rfl

/-- C59.  The lines that are processed one after another: comments are skipped, blank lines are kept
as empty rows, only the first line of the text may be a header, and any other line that is not made
of numbers raises. -/
theorem FldExporter.writeReader_spec [Heap S] (x : FldExporter) (e : Engine S) (text : Str) (l : Str) (ls : List Str)
    (ht : FllImporter.lines text = l :: ls) :
    (IsHeader S l → x.writeReader e text = x.each e (rowsOf S ls)) ∧
    (¬ IsHeader S l → x.writeReader e text = x.each e (rowsOf S (l :: ls))) := by
  unfold writeReader
  rw [ht]
  constructor
  · rintro ⟨h1, h2, h3⟩
    have h4 := (Term.toScalars_error (S := S) (Op.words l)).1 h3
    rw [← writeLines_data]
    conv => lhs; unfold writeLines
    simp only
    rw [if_neg (by simp [h2]), parse_trim l h2]
    unfold Op.toScalars
    rw [h4]
    rfl
  · intro h
    rw [← writeLines_data]
    unfold writeLines
    simp only
    cases hc : isComment (Op.trim l) with
    | true => rfl
    | false =>
      simp only [Bool.false_eq_true, if_false]
      rw [parse_trim l hc]
      cases hs : (Op.toScalars l : Except Err (List S)) with
      | ok xs => rfl
      | error err =>
        exfalso
        apply h
        have hw : ∃ w ∈ Op.words l, (ScalarText.ofText w : Option S) = none := by
          by_contra hne
          push_neg at hne
          obtain ⟨ys, hy⟩ := Term.toScalars_ok (S := S) (Op.words l) hne
          unfold Op.toScalars at hs
          rw [hy] at hs; cases hs
        refine ⟨?_, hc, hw⟩
        cases hb : l.all isSpace with
        | false => rfl
        | true =>
          obtain ⟨w, hw, -⟩ := hw
          rw [Op.words_blanks l hb] at hw
          cases hw

end General

namespace DataDemo
local instance : Heap (Ext Rat) := RuleBlock.stableHeap _

def engine : Engine (Ext Rat) := MemoryDemo.engine (cs! "a") (.fin 1)

def bench : Benchmark (Ext Rat) := ⟨none, [], [], .fin 1⟩

/-- the rows read from a text, or the exception -/
def rowsRead (text : Str) (n : Int) : List (List (Ext Rat)) ⊕ Err :=
  match bench.prepareText text n with
  | .ok b => .inl b.expected
  | .error e => .inr e

theorem rowsRead_ok {text : Str} {n : Int} {rows : List (List (Ext Rat))} (h : rowsRead text n = .inl rows) :
    bench.prepareText text n = .ok { bench with expected := rows } := by
  rw [Benchmark.prepareText_spec]
  unfold rowsRead at h
  rw [Benchmark.prepareText_spec] at h
  revert h
  generalize (Benchmark.readLines true (if n < 0 then FllImporter.lines text else (FllImporter.lines text).take n.toNat) :
    Except Err (List (List (Ext Rat)))) = z
  cases z with
  | ok r => intro h; simp only [Except.map, Sum.inl.injEq] at h ⊢; rw [h]
  | error e => intro h; cases h

theorem rowsRead_error {text : Str} {n : Int} {err : Err} (h : rowsRead text n = .inr err) :
    bench.prepareText text n = .error err := by
  unfold rowsRead at h
  cases hz : bench.prepareText text n with
  | ok b => rw [hz] at h; cases h
  | error e => rw [hz] at h; simp only [Sum.inr.injEq] at h; rw [h]

/-- Non-vacuity of C59. -/
example : rowsRead (cs! "a y z\n# note\n 1.5\t2 \n\n-inf nan 3e2\n") (-1) =
      .inl [[.fin (3/2), .fin 2], [.ninf, .nan, .fin 300]] ∧
    rowsRead (cs! "1\n2\n3") 2 = .inl [[.fin 1], [.fin 2]] ∧
    rowsRead (cs! "1\na\n3") (-1) = .inr .conversion := by decide +kernel

example : (({} : FldExporter).writeReader engine (cs! "a y z\n# note\n 2 5\n\n3\n")).2 =
    ([[.fin 2, .fin 2, .fin 2], [], [.fin 3, .fin 3, .fin 3]], none) := by decide +kernel

example : IsHeader (Ext Rat) (({} : FldExporter).header engine) := ⟨by decide, by decide, cs! "a", by decide, by decide +kernel⟩

example : (({} : FldExporter).text engine [[.fin 1, .fin (2/3)], [], [.nan, .ninf]]) =
    cs! "a y z\n1.000 0.667\n\nnan -inf\n" := by decide +kernel

/-- C59 fails for separators that are not blanks: what the exporter writes with commas cannot be
read. -/
theorem csv_violated : bench.prepareText (({ separator := cs! "," } : FldExporter).text engine [[.fin 1, .fin 2]]) (-1)
    = .error .conversion := rowsRead_error (by decide +kernel)

/-- C59 fails when the names of all variables are numbers: the header is read as a row. -/
theorem header_violated : bench.prepareText (({ outputValues := false } : FldExporter).text
      { engine with inputs := [Variable.new (cs! "inf") (.fin 0) (.fin 1) []] } [[.fin 1]]) (-1)
    = .ok { bench with expected := [[.pinf], [.fin 1]] } := rowsRead_ok (by decide +kernel)

/-- C59 fails for a header that is not in the first line, also when only a comment precedes it. -/
theorem comment_first_violated : bench.prepareText (cs! "# data\na y z\n1 2 3\n") (-1) = .error .conversion :=
  rowsRead_error (by decide +kernel)

end DataDemo
end FL
