/-
Tokens and lines of the R that `RScriptExporter` writes.
-/
import Verif.Model.RScript
import Verif.Lemmas.Fcl
import Verif.Lemmas.CppExporter

namespace FL.R
open Scalar

/-! ### tokens -/

theorem run_append (m : Mode) (a b : Str) : run m (a ++ b) =
    (run m a).bind fun p => (run p.2 b).map fun q => (p.1 ++ q.1, q.2) := by
  induction a generalizing m with
  | nil => simp [run]
  | cons c a ih =>
    rw [List.cons_append, run, run]
    cases h : step m c with
    | none => rfl
    | some p =>
      show ((run p.2 (a ++ b)).bind fun q => some (p.1 ++ q.1, q.2)) =
        ((run p.2 a).bind fun q => some (p.1 ++ q.1, q.2)).bind _
      rw [ih]
      cases run p.2 a with
      | none => rfl
      | some q =>
        simp only [Option.bind_some]
        cases run q.2 b <;> simp [List.append_assoc]

/-- a text of complete tokens -/
def Whole (s : Str) (ts : List Token) : Prop := run .blank s = some (ts, .blank)

/-- characters that end a word -/
def isDelim (c : Char) : Bool := c ∈ cs! " \n(),="

/-- a text of tokens, the last of which may need a character after it to end -/
def Tokens (s : Str) (ts : List Token) : Prop :=
  ∀ c r, isDelim c = true → run .blank (s ++ c :: r) = (run .blank (c :: r)).map fun q => (ts ++ q.1, q.2)

theorem Whole.append {s s' : Str} {ts ts' : List Token} (h : Whole s ts) (h' : Whole s' ts') : Whole (s ++ s') (ts ++ ts') := by
  unfold Whole
  rw [run_append, h]
  simp only [Option.bind_some]
  rw [show run .blank s' = _ from h']
  rfl

theorem Whole.nil : Whole [] [] := rfl

theorem Tokens.whole {s s' : Str} {ts ts' : List Token} {c : Char} (h : Tokens s ts) (hc : isDelim c = true)
    (h' : Whole (c :: s') ts') : Whole (s ++ c :: s') (ts ++ ts') := by
  unfold Whole
  rw [h c s' hc, show run .blank (c :: s') = _ from h']
  rfl

theorem delim_facts {c : Char} (h : isDelim c = true) : isNameChar c = false := by
  have : ∀ d ∈ cs! " \n(),=", isNameChar d = false := by decide
  exact this c (by simpa [isDelim] using h)

theorem run_ends (t : Token) (m : Mode) (c : Char) (r : Str) (h : step m c = ends t c) :
    run m (c :: r) = (run .blank (c :: r)).map fun q => (t :: q.1, q.2) := by
  rw [run, run, h]
  show _ = (Option.bind (start c) fun p => _).map _
  unfold ends
  cases start c with
  | none => rfl
  | some p =>
    show (Option.bind (run p.2 r) fun q => some (t :: p.1 ++ q.1, q.2)) = (Option.bind (run p.2 r) fun q => some (p.1 ++ q.1, q.2)).map _
    cases run p.2 r <;> rfl

/-- names of R, reserved or not -/
def IsName (s : Str) : Prop := isName s = true ∧ ∀ c ∈ s, isNameChar c = true

instance (s : Str) : Decidable (IsName s) := inferInstanceAs (Decidable (_ ∧ _))

theorem run_name (a w : Str) (h : ∀ c ∈ w, isNameChar c = true) (r : Str) :
    run (.name a) (w ++ r) = run (.name (w.reverse ++ a)) r := by
  induction w generalizing a with
  | nil => rfl
  | cons c w ih =>
    rw [List.cons_append, run]
    have : step (.name a) c = some ([], .name (c :: a)) := by
      simp only [step]
      rw [if_pos (h c (by simp))]
    rw [this]
    show (Option.bind (run (.name (c :: a)) (w ++ r)) fun q => some ([] ++ q.1, q.2)) = _
    rw [ih (c :: a) fun d hd => h d (by simp [hd])]
    simp

theorem isName_head {c : Char} {w : Str} (h : isName (c :: w) = true) : (isLetter c || c == '.') = true := by
  unfold isName at h
  split at h
  · rename_i e; simp at e; simp [e.1]
  · rename_i e; simp at e; rw [e.1]; exact h
  · rename_i e; simp at e

theorem start_letter {c : Char} (h : (isLetter c || c == '.') = true) : start c = some ([], .name [c]) := by
  have k : ∀ d ∈ cs! "\n; ", (isLetter d || d == '.') = false := by decide
  have ne : ∀ d ∈ cs! "\n; ", c ≠ d := by
    rintro d hd rfl
    rw [k c hd] at h
    cases h
  unfold start
  rw [if_neg (by simp [ne '\n', ne ';']), if_neg (ne ' ' (by simp)), if_pos h]

theorem tokens_name {w : Str} (h : IsName w) : Tokens w [.name w] := by
  intro c r hc
  obtain ⟨h1, h2⟩ := h
  cases w with
  | nil => simp [isName] at h1
  | cons d w =>
    rw [List.cons_append, run]
    rw [show step .blank d = _ from start_letter (isName_head h1)]
    show (Option.bind (run (.name [d]) (w ++ c :: r)) fun q => some ([] ++ q.1, q.2)) = _
    rw [run_name _ _ fun b hb => h2 b (by simp [hb])]
    have hf := delim_facts hc
    rw [run_ends (.name (d :: w)) _ c r (by simp [step, hf, h1])]
    cases run .blank (c :: r) <;> simp

/-- texts that need no escape sequences -/
def Quotable (s : Str) : Prop := ∀ c ∈ s, c ≠ '"' ∧ c ≠ '\\' ∧ c ≠ '\x00'

instance (s : Str) : Decidable (Quotable s) := inferInstanceAs (Decidable (∀ c ∈ s, _))

theorem Quotable.append {s t : Str} (h : Quotable s) (h' : Quotable t) : Quotable (s ++ t) := fun c hc => by
  rcases List.mem_append.1 hc with hc | hc
  · exact h c hc
  · exact h' c hc

theorem IsName.quotable {s : Str} (h : IsName s) : Quotable s := fun c hc => by
  have := h.2 c hc
  have k : ∀ d ∈ cs! "\"\\\x00", isNameChar d = false := by decide
  refine ⟨?_, ?_, ?_⟩ <;> (rintro rfl; rw [k _ (by simp)] at this; cases this)

theorem run_text (a w : Str) (h : Quotable w) (r : Str) : run (.text a) (w ++ r) = run (.text (w.reverse ++ a)) r := by
  induction w generalizing a with
  | nil => rfl
  | cons c w ih =>
    rw [List.cons_append, run]
    have : step (.text a) c = some ([], .text (c :: a)) := by
      obtain ⟨h1, h2, h3⟩ := h c (by simp)
      simp only [step]
      rw [if_neg h1, if_neg h2, if_neg h3]
    rw [this]
    show (Option.bind (run (.text (c :: a)) (w ++ r)) fun q => some ([] ++ q.1, q.2)) = _
    rw [ih (c :: a) fun d hd => h d (by simp [hd])]
    simp

theorem whole_text {w : Str} (h : Quotable w) : Whole (cs! "\"" ++ w ++ cs! "\"") [.text w] := by
  unfold Whole
  show (Option.bind (run (.text []) (w ++ cs! "\"")) fun q => some ([] ++ q.1, q.2)) = _
  rw [run_text _ _ h]
  simp [run, step]

theorem run_comment (w : Str) (h : '\n' ∉ w) (r : Str) : run .comment (w ++ '\n' :: r) = (run .blank r).map fun q => (.newline :: q.1, q.2) := by
  induction w with
  | nil =>
    show (Option.bind (run .blank r) fun q => some ([Token.newline] ++ q.1, q.2)) = _
    cases run .blank r <;> rfl
  | cons c w ih =>
    rw [List.cons_append, run]
    have : step .comment c = some ([], .comment) := by
      simp only [step]
      rw [if_neg (by rintro rfl; simp at h)]
    rw [this]
    show (Option.bind (run .comment (w ++ '\n' :: r)) fun q => some ([] ++ q.1, q.2)) = _
    rw [ih fun hc => h (by simp [hc])]
    cases run .blank r <;> rfl

theorem whole_comment {w : Str} (h : '\n' ∉ w) : Whole (cs! "#" ++ w ++ cs! "\n") [.newline] := by
  unfold Whole
  show (Option.bind (run .comment (w ++ '\n' :: [])) fun q => some ([] ++ q.1, q.2)) = _
  rw [run_comment w h]
  rfl

/-! ### lines -/

/-- the lines of tokens -/
def linesOf (ts : List Token) : Option (List Line) := ((pieces (joined 0 false ts)).filter fun l => l ≠ []).mapM line

/-- a text is that of complete lines -/
def Lines (s : Str) (ls : List Line) : Prop := ∃ ts, Whole s ts ∧ ∀ r, linesOf (ts ++ r) = (linesOf r).map (ls ++ ·)

theorem Lines.append {s s' : Str} {ls ls' : List Line} (h : Lines s ls) (h' : Lines s' ls') : Lines (s ++ s') (ls ++ ls') := by
  obtain ⟨ts, h1, h2⟩ := h
  obtain ⟨ts', h1', h2'⟩ := h'
  refine ⟨ts ++ ts', h1.append h1', fun r => ?_⟩
  rw [List.append_assoc, h2, h2']
  cases linesOf r <;> simp [List.append_assoc]

theorem Lines.nil : Lines [] [] := ⟨[], rfl, fun r => by cases h : linesOf r <;> simp [h]⟩

theorem parse_lines {s : Str} {ls : List Line} (h : Lines s ls) : parse s = some ls := by
  obtain ⟨ts, h1, h2⟩ := h
  have h3 := h2 []
  rw [List.append_nil] at h3
  unfold parse lex
  rw [show run .blank s = _ from h1]
  show linesOf ts = _
  rw [h3]
  show Option.map _ (some []) = _
  simp

theorem pieces_ne (ts : List Token) : pieces ts ≠ [] := by
  cases ts with
  | nil => simp [pieces]
  | cons t ts => rw [pieces]; split_ifs <;> [simp; (split <;> simp)]

theorem pieces_line (l ts : List Token) (h : .newline ∉ l) : pieces (l ++ .newline :: ts) = l :: pieces ts := by
  induction l with
  | nil => simp [pieces]
  | cons t l ih =>
    rw [List.cons_append, pieces, if_neg (by rintro rfl; simp at h), ih fun hc => h (by simp [hc])]

/-- one line: its tokens after joining are `us` -/
theorem line_lines {s : Str} {ts us : List Token} {l : Line} (h : Whole s (ts ++ [.newline]))
    (hj : ∀ r, joined 0 false (ts ++ .newline :: r) = us ++ .newline :: joined 0 false r) (hn : .newline ∉ us) (hl : line us = some l) :
    Lines s [l] := by
  refine ⟨_, h, fun r => ?_⟩
  unfold linesOf
  rw [List.append_assoc, List.singleton_append, hj, pieces_line _ _ hn]
  have hne : us ≠ [] := by rintro rfl; cases hl
  rw [List.filter_cons_of_pos (by simpa using hne), List.mapM_cons, hl]
  show (Option.bind _ fun ls => some (l :: ls)) = _
  cases List.mapM line _ <;> rfl

/-- empty lines -/
theorem lines_blank {s : Str} (h : Whole s [.newline]) : Lines s [] := by
  refine ⟨_, h, fun r => ?_⟩
  unfold linesOf
  rw [List.singleton_append, joined, if_neg (by simp), show Token.newline :: joined 0 false r = [] ++ .newline :: joined 0 false r from rfl,
    pieces_line _ _ (by simp), List.filter_cons_of_neg (by simp)]
  cases List.mapM line _ <;> rfl

theorem Lines.blank {s : Str} {ls : List Line} (h : Lines s ls) : Lines (s ++ cs! "\n") ls := by
  have := h.append (lines_blank (s := cs! "\n") rfl)
  rwa [List.append_nil] at this

/-! ### the lines that are written -/

/-- names that may be variables -/
structure Column (s : Str) : Prop where
  name : IsName s
  free : s ∉ reserved

instance (s : Str) : Decidable (Column s) := decidable_of_iff (IsName s ∧ s ∉ reserved) ⟨fun h => ⟨h.1, h.2⟩, fun h => ⟨h.1, h.2⟩⟩

theorem Column.atom {s : Str} (h : Column s) : atom [.name s] = some (.name s) := by
  have h1 : s ≠ cs! "TRUE" := by rintro rfl; exact h.free (by decide)
  have h2 : s ≠ cs! "FALSE" := by rintro rfl; exact h.free (by decide)
  simp only [R.atom]
  rw [if_neg h1, if_neg h2, if_neg h.free]

/-- `x = "text"` -/
theorem lines_text {x w : Str} (hx : Column x) (h : Quotable w) : Lines (x ++ cs! " = \"" ++ w ++ cs! "\"\n") [.assign x [.atom (.text w)]] := by
  have k1 : Whole (cs! " = ") [.sign '='] := rfl
  have k2 : Whole (cs! "\n") [.newline] := rfl
  have := (tokens_name hx.name).whole (c := ' ') rfl (k1.append ((whole_text h).append k2))
  refine line_lines (ts := [.name x, .sign '=', .text w]) (us := [.name x, .sign '=', .text w]) (by simpa [List.append_assoc] using this)
    (fun r => rfl) (by simp) ?_
  show (if x ∈ reserved then none else _) = _
  rw [if_neg hx.free]
  rfl

/-- the line that reads the data -/
def readLine : Line :=
  .assign (cs! "engine.df") [.call (cs! "read.delim") [(none, .call (cs! "textConnection") [(none, .name (cs! "engine.fld"))]),
    (some (cs! "header"), .atom (.logical true)), (some (cs! "sep"), .atom (.text [' '])), (some (cs! "strip.white"), .atom (.logical true))]]

theorem lines_read : Lines (cs! "engine.df = read.delim(textConnection(engine.fld), header=TRUE, sep=\" \", strip.white=TRUE)\n") [readLine] := by
  refine line_lines (ts := [.name (cs! "engine.df"), .sign '=', .name (cs! "read.delim"), .sign '(', .name (cs! "textConnection"), .sign '(',
    .name (cs! "engine.fld"), .sign ')', .sign ',', .name (cs! "header"), .sign '=', .name (cs! "TRUE"), .sign ',', .name (cs! "sep"), .sign '=',
    .text [' '], .sign ',', .name (cs! "strip.white"), .sign '=', .name (cs! "TRUE"), .sign ')'])
    (us := [.name (cs! "engine.df"), .sign '=', .name (cs! "read.delim"), .sign '(', .name (cs! "textConnection"), .sign '(',
    .name (cs! "engine.fld"), .sign ')', .sign ',', .name (cs! "header"), .sign '=', .name (cs! "TRUE"), .sign ',', .name (cs! "sep"), .sign '=',
    .text [' '], .sign ',', .name (cs! "strip.white"), .sign '=', .name (cs! "TRUE"), .sign ')']) ?_ (fun r => rfl) (by simp) ?_
  · unfold Whole; decide +kernel
  · decide +kernel

theorem lines_library : Lines (cs! "library(ggplot2);\n") [.expr (.call (cs! "library") [(none, .atom (.name (cs! "ggplot2")))])] := by
  have h : Lines (cs! "library(ggplot2);") [.expr (.call (cs! "library") [(none, .atom (.name (cs! "ggplot2")))])] := by
    refine line_lines (ts := [.name (cs! "library"), .sign '(', .name (cs! "ggplot2"), .sign ')'])
      (us := [.name (cs! "library"), .sign '(', .name (cs! "ggplot2"), .sign ')']) ?_ (fun r => rfl) (by simp) (by decide +kernel)
    unfold Whole; decide +kernel
  exact h.blank

/-! ### calls -/

theorem enclosed_tokens (ts : List Token) : enclosed (.sign '(' :: (ts ++ [.sign ')'])) = some ts := by
  unfold enclosed
  simp

theorem item_call {f : Str} {ts : List Token} {as : Arguments Atom} (hf : f ∉ reserved) (h : arguments atom ts = some as) :
    item (.name f :: .sign '(' :: (ts ++ [.sign ')'])) = some (.call f as) := by
  show (if f ∈ reserved then none else (enclosed (.sign '(' :: (ts ++ [.sign ')']))).bind fun ts => (arguments atom ts).bind fun as => some (Item.call f as)) = _
  rw [if_neg hf, enclosed_tokens, Option.bind_some, h]
  rfl

theorem expr_call {f : Str} {ts : List Token} {as : Arguments Item} (hf : f ∉ reserved) (h : arguments item ts = some as) :
    expr (.name f :: .sign '(' :: (ts ++ [.sign ')'])) = some (.call f as) := by
  show (if f ∈ reserved then none else (enclosed (.sign '(' :: (ts ++ [.sign ')']))).bind fun ts => (arguments item ts).bind fun as => some (Expr.call f as)) = _
  rw [if_neg hf, enclosed_tokens, Option.bind_some, h]
  rfl

theorem arguments_parts {α : Type} {f : List Token → Option α} {ts : List Token} {ps : List (List Token)} {as : Arguments α} (h0 : ts ≠ [])
    (h : parts (.sign ',') 0 ts = ps) (h' : ps.mapM (argument f) = some as) : arguments f ts = some as := by
  unfold arguments
  rw [if_neg h0, h, h']

theorem argument_named {α : Type} {f : List Token → Option α} {n : Str} {ts : List Token} {a : α} (hn : n ∉ reserved) (h : f ts = some a) :
    argument f (.name n :: .sign '=' :: ts) = some (some n, a) := by
  show (if n ∈ reserved then none else (f ts).map fun a => (some n, a)) = _
  rw [if_neg hn, h]
  rfl

theorem argument_name {α : Type} {f : List Token → Option α} {n : Str} {a : α} (h : f [.name n] = some a) :
    argument f [.name n] = some (none, a) := by
  show (f [.name n]).map (fun a => (none, a)) = _
  rw [h]
  rfl

theorem argument_call {α : Type} {f : List Token → Option α} {n : Str} {ts : List Token} {a : α} (h : f (.name n :: .sign '(' :: ts) = some a) :
    argument f (.name n :: .sign '(' :: ts) = some (none, a) := by
  show (f (.name n :: .sign '(' :: ts)).map (fun a => (none, a)) = _
  rw [h]
  rfl

theorem argument_text {α : Type} {f : List Token → Option α} {w : Str} {a : α} (h : f [.text w] = some a) :
    argument f [.text w] = some (none, a) := by
  show (f [.text w]).map (fun a => (none, a)) = _
  rw [h]
  rfl

theorem item_name {n : Str} (h : Column n) : item [.name n] = some (.atom (.name n)) := by
  show (atom [.name n]).map Item.atom = _
  rw [h.atom]
  rfl

theorem item_text (w : Str) : item [.text w] = some (.atom (.text w)) := rfl

theorem item_number (w : Str) : item [.number w] = some (.atom (.number w)) := rfl

theorem mapM_two {α β : Type} {f : α → Option β} {a b : α} {a' b' : β} (h1 : f a = some a') (h2 : f b = some b') :
    [a, b].mapM f = some [a', b'] := by
  simp only [List.mapM_cons, h1, h2, List.mapM_nil]
  rfl

theorem mapM_three {α β : Type} {f : α → Option β} {a b c : α} {a' b' c' : β} (h1 : f a = some a') (h2 : f b = some b') (h3 : f c = some c') :
    [a, b, c].mapM f = some [a', b', c'] := by
  simp only [List.mapM_cons, h1, h2, h3, List.mapM_nil]
  rfl

theorem mapM_one {α β : Type} {f : α → Option β} {a : α} {a' : β} (h1 : f a = some a') : [a].mapM f = some [a'] := by
  simp only [List.mapM_cons, h1, List.mapM_nil]
  rfl

/-! ### plots -/

/-- `aes(a, b)` -/
theorem item_aes2 {a b : Str} (ha : Column a) (hb : Column b) :
    item [.name (cs! "aes"), .sign '(', .name a, .sign ',', .name b, .sign ')'] = some (.call (cs! "aes") [(none, .name a), (none, .name b)]) :=
  item_call (ts := [.name a, .sign ',', .name b]) (by decide) (arguments_parts (by simp) (ps := [[.name a], [.name b]]) rfl
    (mapM_two (argument_name ha.atom) (argument_name hb.atom)))

/-- `aes(n=a)` -/
theorem item_aes1 {n a : Str} (hn : n ∉ reserved) (ha : Column a) :
    item [.name (cs! "aes"), .sign '(', .name n, .sign '=', .name a, .sign ')'] = some (.call (cs! "aes") [(some n, .name a)]) :=
  item_call (ts := [.name n, .sign '=', .name a]) (by decide) (arguments_parts (by simp) (ps := [[.name n, .sign '=', .name a]]) rfl
    (mapM_one (argument_named hn ha.atom)))

/-- `aes(x=a, y=b, z=c)` -/
theorem item_aes3 {a b c : Str} (ha : Column a) (hb : Column b) (hc : Column c) :
    item [.name (cs! "aes"), .sign '(', .name (cs! "x"), .sign '=', .name a, .sign ',', .name (cs! "y"), .sign '=', .name b, .sign ',',
      .name (cs! "z"), .sign '=', .name c, .sign ')'] =
      some (.call (cs! "aes") [(some (cs! "x"), .name a), (some (cs! "y"), .name b), (some (cs! "z"), .name c)]) :=
  item_call (ts := [.name (cs! "x"), .sign '=', .name a, .sign ',', .name (cs! "y"), .sign '=', .name b, .sign ',', .name (cs! "z"), .sign '=', .name c])
    (by decide) (arguments_parts (by simp) (ps := [[.name (cs! "x"), .sign '=', .name a], [.name (cs! "y"), .sign '=', .name b],
      [.name (cs! "z"), .sign '=', .name c]]) rfl
    (mapM_three (argument_named (by decide) ha.atom) (argument_named (by decide) hb.atom) (argument_named (by decide) hc.atom)))

/-- the expressions of a plot -/
def ggplotExpr (a b : Str) : Expr :=
  .call (cs! "ggplot") [(none, .atom (.name (cs! "engine.df"))), (none, .call (cs! "aes") [(none, .name a), (none, .name b)])]
def tileExpr (z : Str) : Expr := .call (cs! "geom_tile") [(none, .call (cs! "aes") [(some (cs! "fill"), .name z)])]
def gradientExpr (f low high : Str) : Expr := .call f [(some (cs! "low"), .atom (.text low)), (some (cs! "high"), .atom (.text high))]
def contourExpr (a b z color : Str) : Expr :=
  .call (cs! "stat_contour") [(none, .call (cs! "aes") [(some (cs! "x"), .name a), (some (cs! "y"), .name b), (some (cs! "z"), .name z)]),
    (some (cs! "color"), .atom (.text color))]
def titleExpr (t : Str) : Expr := .call (cs! "ggtitle") [(none, .atom (.text t))]
def lineExpr (z : Str) : Expr :=
  .call (cs! "geom_line") [(none, .call (cs! "aes") [(some (cs! "color"), .name z)]), (some (cs! "size"), .atom (.number ['3'])),
    (some (cs! "lineend"), .atom (.text (cs! "round"))), (some (cs! "linejoin"), .atom (.text (cs! "mitre")))]
def flipExpr : Expr := .call (cs! "coord_flip") []

/-- and their tokens -/
def ggplotTokens (a b : Str) : List Token :=
  [.name (cs! "ggplot"), .sign '(', .name (cs! "engine.df"), .sign ',', .name (cs! "aes"), .sign '(', .name a, .sign ',', .name b, .sign ')', .sign ')']
def tileTokens (z : Str) : List Token :=
  [.name (cs! "geom_tile"), .sign '(', .name (cs! "aes"), .sign '(', .name (cs! "fill"), .sign '=', .name z, .sign ')', .sign ')']
def gradientTokens (f low high : Str) : List Token :=
  [.name f, .sign '(', .name (cs! "low"), .sign '=', .text low, .sign ',', .name (cs! "high"), .sign '=', .text high, .sign ')']
def contourTokens (a b z color : Str) : List Token :=
  [.name (cs! "stat_contour"), .sign '(', .name (cs! "aes"), .sign '(', .name (cs! "x"), .sign '=', .name a, .sign ',', .name (cs! "y"), .sign '=', .name b,
    .sign ',', .name (cs! "z"), .sign '=', .name z, .sign ')', .sign ',', .name (cs! "color"), .sign '=', .text color, .sign ')']
def titleTokens (t : Str) : List Token := [.name (cs! "ggtitle"), .sign '(', .text t, .sign ')']
def lineTokens (z : Str) : List Token :=
  [.name (cs! "geom_line"), .sign '(', .name (cs! "aes"), .sign '(', .name (cs! "color"), .sign '=', .name z, .sign ')', .sign ',', .name (cs! "size"),
    .sign '=', .number ['3'], .sign ',', .name (cs! "lineend"), .sign '=', .text (cs! "round"), .sign ',', .name (cs! "linejoin"), .sign '=',
    .text (cs! "mitre"), .sign ')']
def flipTokens : List Token := [.name (cs! "coord_flip"), .sign '(', .sign ')']

theorem expr_ggplot {a b : Str} (ha : Column a) (hb : Column b) : expr (ggplotTokens a b) = some (ggplotExpr a b) :=
  expr_call (ts := [.name (cs! "engine.df"), .sign ',', .name (cs! "aes"), .sign '(', .name a, .sign ',', .name b, .sign ')']) (by decide)
    (arguments_parts (by simp) (ps := [[.name (cs! "engine.df")], [.name (cs! "aes"), .sign '(', .name a, .sign ',', .name b, .sign ')']]) rfl
      (mapM_two (argument_name (item_name (by decide))) (argument_call (item_aes2 ha hb))))

theorem expr_tile {z : Str} (hz : Column z) : expr (tileTokens z) = some (tileExpr z) :=
  expr_call (ts := [.name (cs! "aes"), .sign '(', .name (cs! "fill"), .sign '=', .name z, .sign ')']) (by decide)
    (arguments_parts (by simp) (ps := [[.name (cs! "aes"), .sign '(', .name (cs! "fill"), .sign '=', .name z, .sign ')']]) rfl
      (mapM_one (argument_call (item_aes1 (by decide) hz))))

theorem expr_gradient {f : Str} (hf : f ∉ reserved) (low high : Str) : expr (gradientTokens f low high) = some (gradientExpr f low high) :=
  expr_call (ts := [.name (cs! "low"), .sign '=', .text low, .sign ',', .name (cs! "high"), .sign '=', .text high]) hf
    (arguments_parts (by simp) (ps := [[.name (cs! "low"), .sign '=', .text low], [.name (cs! "high"), .sign '=', .text high]]) rfl
      (mapM_two (argument_named (by decide) (item_text _)) (argument_named (by decide) (item_text _))))

theorem expr_contour {a b z : Str} (ha : Column a) (hb : Column b) (hz : Column z) (color : Str) :
    expr (contourTokens a b z color) = some (contourExpr a b z color) :=
  expr_call (ts := [.name (cs! "aes"), .sign '(', .name (cs! "x"), .sign '=', .name a, .sign ',', .name (cs! "y"), .sign '=', .name b,
      .sign ',', .name (cs! "z"), .sign '=', .name z, .sign ')', .sign ',', .name (cs! "color"), .sign '=', .text color]) (by decide)
    (arguments_parts (by simp) (ps := [[.name (cs! "aes"), .sign '(', .name (cs! "x"), .sign '=', .name a, .sign ',', .name (cs! "y"), .sign '=', .name b,
      .sign ',', .name (cs! "z"), .sign '=', .name z, .sign ')'], [.name (cs! "color"), .sign '=', .text color]]) rfl
      (mapM_two (argument_call (item_aes3 ha hb hz)) (argument_named (by decide) (item_text _))))

theorem expr_title (t : Str) : expr (titleTokens t) = some (titleExpr t) :=
  expr_call (ts := [.text t]) (by decide) (arguments_parts (by simp) (ps := [[.text t]]) rfl (mapM_one (argument_text (item_text _))))

theorem expr_line {z : Str} (hz : Column z) : expr (lineTokens z) = some (lineExpr z) :=
  expr_call (ts := [.name (cs! "aes"), .sign '(', .name (cs! "color"), .sign '=', .name z, .sign ')', .sign ',', .name (cs! "size"),
    .sign '=', .number ['3'], .sign ',', .name (cs! "lineend"), .sign '=', .text (cs! "round"), .sign ',', .name (cs! "linejoin"), .sign '=',
    .text (cs! "mitre")]) (by decide)
    (arguments_parts (by simp) (ps := [[.name (cs! "aes"), .sign '(', .name (cs! "color"), .sign '=', .name z, .sign ')'], [.name (cs! "size"),
    .sign '=', .number ['3']], [.name (cs! "lineend"), .sign '=', .text (cs! "round")], [.name (cs! "linejoin"), .sign '=',
    .text (cs! "mitre")]]) rfl (by
      have h1 := argument_call (item_aes1 (n := cs! "color") (by decide) hz)
      have h2 := argument_named (n := cs! "size") (by decide) (item_number ['3'])
      have h3 := argument_named (n := cs! "lineend") (by decide) (item_text (cs! "round"))
      have h4 := argument_named (n := cs! "linejoin") (by decide) (item_text (cs! "mitre"))
      simp only [List.mapM_cons, h1, h2, h3, h4, List.mapM_nil]
      rfl))

theorem expr_flip : expr flipTokens = some flipExpr := by decide +kernel

/-- a name before a text that begins with a character that ends it -/
theorem Whole.name {w : Str} {s : Str} {ts : List Token} (hw : IsName w) (h : Whole s ts) (hs : s.head?.any isDelim = true := by rfl) :
    Whole (w ++ s) (.name w :: ts) := by
  cases s with
  | nil => cases hs
  | cons c s => exact (tokens_name hw).whole (by simpa using hs) h

def surfaceTokens (x : RScriptExporter) (a b z : Str) (t : Str) (l : List Token) : List Token :=
  ggplotTokens a b ++ .sign '+' :: l ++ (tileTokens z ++ .sign '+' :: l) ++
    (gradientTokens (cs! "scale_fill_gradient") x.minimumColor x.maximumColor ++ .sign '+' :: l) ++
    (contourTokens a b z x.contourColor ++ .sign '+' :: l) ++ titleTokens t

/-- the line of a plot over two variables -/
def surfaceLine (x : RScriptExporter) (plot a b z : Str) : Line :=
  .assign plot [ggplotExpr a b, tileExpr z, gradientExpr (cs! "scale_fill_gradient") x.minimumColor x.maximumColor,
    contourExpr a b z x.contourColor, titleExpr (cs! "(" ++ a ++ cs! ", " ++ b ++ cs! ") = " ++ z)]

/-- colours that are texts -/
structure Colors (x : RScriptExporter) : Prop where
  minimum : Quotable x.minimumColor
  maximum : Quotable x.maximumColor
  contour : Quotable x.contourColor

set_option maxRecDepth 8000 in
theorem lines_surface {x : RScriptExporter} {plot a b z : Str} (hx : Colors x) (hp : Column plot) (ha : Column a) (hb : Column b) (hz : Column z) :
    Lines (x.surface plot a b z) [surfaceLine x plot a b z] := by
  have k1 : Whole (cs! " = ggplot(engine.df, aes(") [.sign '=', .name (cs! "ggplot"), .sign '(', .name (cs! "engine.df"), .sign ',', .name (cs! "aes"),
    .sign '('] := by unfold Whole; decide +kernel
  have k2 : Whole (cs! ", ") [.sign ','] := rfl
  have k3 : Whole (cs! ")) + \n") [.sign ')', .sign ')', .sign '+', .newline] := rfl
  have k4 : Whole (cs! "    geom_tile(aes(fill=") [.name (cs! "geom_tile"), .sign '(', .name (cs! "aes"), .sign '(', .name (cs! "fill"), .sign '='] := by
    unfold Whole; decide +kernel
  have k5 : Whole (cs! "    scale_fill_gradient(low=") [.name (cs! "scale_fill_gradient"), .sign '(', .name (cs! "low"), .sign '='] := by
    unfold Whole; decide +kernel
  have k6 : Whole (cs! ", high=") [.sign ',', .name (cs! "high"), .sign '='] := by unfold Whole; decide +kernel
  have k7 : Whole (cs! ") + \n") [.sign ')', .sign '+', .newline] := rfl
  have k8 : Whole (cs! "    stat_contour(aes(x=") [.name (cs! "stat_contour"), .sign '(', .name (cs! "aes"), .sign '(', .name (cs! "x"), .sign '='] := by
    unfold Whole; decide +kernel
  have k9 : Whole (cs! ", y=") [.sign ',', .name (cs! "y"), .sign '='] := rfl
  have k10 : Whole (cs! ", z=") [.sign ',', .name (cs! "z"), .sign '='] := rfl
  have k11 : Whole (cs! "), color=") [.sign ')', .sign ',', .name (cs! "color"), .sign '='] := by unfold Whole; decide +kernel
  have k12 : Whole (cs! "    ggtitle(") [.name (cs! "ggtitle"), .sign '('] := by unfold Whole; decide +kernel
  have k13 : Whole (cs! ")\n") [.sign ')', .newline] := rfl
  have q : Quotable (cs! "(" ++ a ++ cs! ", " ++ b ++ cs! ") = " ++ z) :=
    ((((show Quotable (cs! "(") by decide).append ha.name.quotable).append (show Quotable (cs! ", ") by decide)).append hb.name.quotable |>.append
      (show Quotable (cs! ") = ") by decide)).append hz.name.quotable
  have h1 := Whole.name hp.name (k1.append (Whole.name ha.name (k2.append (Whole.name hb.name k3))))
  have h2 := k4.append (Whole.name hz.name k3)
  have h3 := k5.append ((whole_text hx.minimum).append (k6.append ((whole_text hx.maximum).append k7)))
  have h4 := k8.append (Whole.name ha.name (k9.append (Whole.name hb.name (k10.append (Whole.name hz.name (k11.append
    ((whole_text hx.contour).append k7)))))))
  have h5 := k12.append ((whole_text q).append k13)
  have h := (((h1.append h2).append h3).append h4).append h5
  have : Lines (plot ++ cs! " = ggplot(engine.df, aes(" ++ a ++ cs! ", " ++ b ++ cs! ")) + \n"
      ++ (cs! "    geom_tile(aes(fill=" ++ z ++ cs! ")) + \n")
      ++ (cs! "    scale_fill_gradient(low=\"" ++ x.minimumColor ++ cs! "\", high=\"" ++ x.maximumColor ++ cs! "\") + \n")
      ++ (cs! "    stat_contour(aes(x=" ++ a ++ cs! ", y=" ++ b ++ cs! ", z=" ++ z ++ cs! "), color=\"" ++ x.contourColor ++ cs! "\") + \n")
      ++ (cs! "    ggtitle(\"(" ++ a ++ cs! ", " ++ b ++ cs! ") = " ++ z ++ cs! "\")\n")) [surfaceLine x plot a b z] := by
    refine line_lines (ts := .name plot :: .sign '=' :: surfaceTokens x a b z (cs! "(" ++ a ++ cs! ", " ++ b ++ cs! ") = " ++ z) [.newline])
      (us := .name plot :: .sign '=' :: surfaceTokens x a b z (cs! "(" ++ a ++ cs! ", " ++ b ++ cs! ") = " ++ z) []) ?_ (fun r => rfl) ?_ ?_
    · simpa [List.append_assoc, surfaceTokens, ggplotTokens, tileTokens, gradientTokens, contourTokens, titleTokens] using h
    · simp [surfaceTokens, ggplotTokens, tileTokens, gradientTokens, contourTokens, titleTokens]
    · show (if plot ∈ reserved then none else _) = _
      rw [if_neg hp.free]
      have : parts (.sign '+') 0 (surfaceTokens x a b z (cs! "(" ++ a ++ cs! ", " ++ b ++ cs! ") = " ++ z) []) =
        [ggplotTokens a b, tileTokens z, gradientTokens (cs! "scale_fill_gradient") x.minimumColor x.maximumColor, contourTokens a b z x.contourColor,
          titleTokens (cs! "(" ++ a ++ cs! ", " ++ b ++ cs! ") = " ++ z)] := rfl
      rw [this]
      simp only [List.mapM_cons, expr_ggplot ha hb, expr_tile hz, expr_gradient (f := cs! "scale_fill_gradient") (by decide),
        expr_contour ha hb hz, expr_title, List.mapM_nil]
      rfl
  have := this.blank
  simpa [RScriptExporter.surface, List.append_assoc] using this

/-- the part of a curve that flips the axes -/
def flipText (flip : Bool) : Str := if flip then cs! "    coord_flip() + \n" else []

def curveTokens (x : RScriptExporter) (a z : Str) (flip : Bool) (t : Str) (l : List Token) : List Token :=
  ggplotTokens a z ++ .sign '+' :: l ++ (lineTokens z ++ .sign '+' :: l) ++
    (gradientTokens (cs! "scale_color_gradient") x.minimumColor x.maximumColor ++ .sign '+' :: l) ++
    (if flip then flipTokens ++ .sign '+' :: l else []) ++ titleTokens t

/-- the line of a plot over one variable -/
def curveLine (x : RScriptExporter) (plot a z : Str) (flip : Bool) (t : Str) : Line :=
  .assign plot ([ggplotExpr a z, lineExpr z, gradientExpr (cs! "scale_color_gradient") x.minimumColor x.maximumColor] ++
    (if flip then [flipExpr] else []) ++ [titleExpr t])

set_option maxRecDepth 8000 in
theorem lines_curve {x : RScriptExporter} {plot a z t : Str} (flip : Bool) (hx : Colors x) (hp : Column plot) (ha : Column a) (hz : Column z)
    (q : Quotable t) : Lines (x.curve plot a z (flipText flip) t) [curveLine x plot a z flip t] := by
  have k1 : Whole (cs! " = ggplot(engine.df, aes(") [.sign '=', .name (cs! "ggplot"), .sign '(', .name (cs! "engine.df"), .sign ',', .name (cs! "aes"),
    .sign '('] := by unfold Whole; decide +kernel
  have k2 : Whole (cs! ", ") [.sign ','] := rfl
  have k3 : Whole (cs! ")) + \n") [.sign ')', .sign ')', .sign '+', .newline] := rfl
  have k4 : Whole (cs! "    geom_line(aes(color=") [.name (cs! "geom_line"), .sign '(', .name (cs! "aes"), .sign '(', .name (cs! "color"), .sign '='] := by
    unfold Whole; decide +kernel
  have k4' : Whole (cs! "), size=3, lineend=\"round\", linejoin=\"mitre\") + \n") [.sign ')', .sign ',', .name (cs! "size"),
    .sign '=', .number ['3'], .sign ',', .name (cs! "lineend"), .sign '=', .text (cs! "round"), .sign ',', .name (cs! "linejoin"), .sign '=',
    .text (cs! "mitre"), .sign ')', .sign '+', .newline] := by unfold Whole; decide +kernel
  have k5 : Whole (cs! "    scale_color_gradient(low=") [.name (cs! "scale_color_gradient"), .sign '(', .name (cs! "low"), .sign '='] := by
    unfold Whole; decide +kernel
  have k6 : Whole (cs! ", high=") [.sign ',', .name (cs! "high"), .sign '='] := by unfold Whole; decide +kernel
  have k7 : Whole (cs! ") + \n") [.sign ')', .sign '+', .newline] := rfl
  have k8 : Whole (flipText flip) (if flip then flipTokens ++ [.sign '+', .newline] else []) := by
    cases flip
    · rfl
    · unfold Whole; decide +kernel
  have k12 : Whole (cs! "    ggtitle(") [.name (cs! "ggtitle"), .sign '('] := by unfold Whole; decide +kernel
  have k13 : Whole (cs! ")\n") [.sign ')', .newline] := rfl
  have h1 := Whole.name hp.name (k1.append (Whole.name ha.name (k2.append (Whole.name hz.name k3))))
  have h2 := k4.append (Whole.name hz.name k4')
  have h3 := k5.append ((whole_text hx.minimum).append (k6.append ((whole_text hx.maximum).append k7)))
  have h5 := k12.append ((whole_text q).append k13)
  have h := (((h1.append h2).append h3).append k8).append h5
  have : Lines (plot ++ cs! " = ggplot(engine.df, aes(" ++ a ++ cs! ", " ++ z ++ cs! ")) + \n"
      ++ (cs! "    geom_line(aes(color=" ++ z ++ cs! "), size=3, lineend=\"round\", linejoin=\"mitre\") + \n")
      ++ (cs! "    scale_color_gradient(low=\"" ++ x.minimumColor ++ cs! "\", high=\"" ++ x.maximumColor ++ cs! "\") + \n")
      ++ flipText flip ++ (cs! "    ggtitle(\"" ++ t ++ cs! "\")\n")) [curveLine x plot a z flip t] := by
    refine line_lines (ts := .name plot :: .sign '=' :: curveTokens x a z flip t [.newline])
      (us := .name plot :: .sign '=' :: curveTokens x a z flip t []) ?_ (fun r => by cases flip <;> rfl) ?_ ?_
    · cases flip <;>
      simpa [List.append_assoc, curveTokens, ggplotTokens, lineTokens, gradientTokens, flipTokens, titleTokens] using h
    · cases flip <;> simp [curveTokens, ggplotTokens, lineTokens, gradientTokens, flipTokens, titleTokens]
    · show (if plot ∈ reserved then none else _) = _
      rw [if_neg hp.free]
      have : parts (.sign '+') 0 (curveTokens x a z flip t []) =
        [ggplotTokens a z, lineTokens z, gradientTokens (cs! "scale_color_gradient") x.minimumColor x.maximumColor] ++
          (if flip then [flipTokens] else []) ++ [titleTokens t] := by cases flip <;> rfl
      rw [this]
      cases flip
      · simp only [List.cons_append, List.nil_append, if_neg Bool.false_ne_true, List.mapM_cons, expr_ggplot ha hz, expr_line hz,
          expr_gradient (f := cs! "scale_color_gradient") (by decide), expr_title, List.mapM_nil]
        rfl
      · simp only [List.cons_append, List.nil_append, if_pos, List.mapM_cons, expr_ggplot ha hz, expr_line hz,
          expr_gradient (f := cs! "scale_color_gradient") (by decide), expr_title, expr_flip, List.mapM_nil]
        rfl
  have := this.blank
  simpa [RScriptExporter.curve, List.append_assoc] using this

/-! ### all plots -/

theorem digit_nameChar {c : Char} (h : c.isDigit = true) : isNameChar c = true := by
  have : '0' ≤ c ∧ c ≤ '9' := by simpa [Char.isDigit, Char.le_def] using h
  simp [isNameChar, isAlnum, this.1, this.2]

theorem intText_nameChar (n : Nat) : ∀ c ∈ intText n, isNameChar c = true := fun c hc =>
  digit_nameChar (Decimal.digits_isDigit n c hc)

/-- a name that begins like those that the exporter makes -/
theorem column_plot {w : Str} (h : ∀ c ∈ w, isNameChar c = true) : Column (cs! "engine.plot." ++ w) := by
  refine ⟨⟨rfl, ?_⟩, ?_⟩
  · intro c hc
    rcases List.mem_append.1 hc with hc | hc
    · exact (show ∀ c ∈ cs! "engine.plot.", isNameChar c = true by decide) c hc
    · exact h c hc
  · intro hm
    have : ∀ r ∈ reserved, ¬ cs! "engine.plot." <+: r := by decide
    exact this _ hm (List.prefix_append _ _)

theorem nameChar_append {u v : Str} (h : ∀ c ∈ u, isNameChar c = true) (h' : ∀ c ∈ v, isNameChar c = true) : ∀ c ∈ u ++ v, isNameChar c = true :=
  fun c hc => (List.mem_append.1 hc).elim (h c) (h' c)

theorem plotNames_column (same : Bool) (i : Nat) :
    Column (RScriptExporter.plotNames same i).1 ∧ Column (RScriptExporter.plotNames same i).2 := by
  have hi := intText_nameChar (i + 1)
  cases same
  · exact ⟨column_plot (w := cs! "i1i2_o" ++ intText (i + 1 : Nat)) (nameChar_append (by decide) hi),
      column_plot (w := cs! "i2i1_o" ++ intText (i + 1 : Nat)) (nameChar_append (by decide) hi)⟩
  · exact ⟨column_plot (w := cs! "i1_o" ++ intText (i + 1 : Nat)) (nameChar_append (by decide) hi),
      column_plot (w := cs! "o" ++ intText (i + 1 : Nat) ++ cs! "_i1") (nameChar_append (nameChar_append (by decide) hi) (by decide))⟩

theorem intText_injective {m n : Nat} (h : intText m = intText n) : m = n := by
  have h1 := Cpp.whole_digits m
  rw [show Nat.toDigits 10 m = Nat.toDigits 10 n from h, Cpp.whole_digits n] at h1
  exact (Option.some.inj h1).symm

/-- no two plots have the same name -/
theorem plotNames_injective {same : Bool} {i j : Nat} :
    ((RScriptExporter.plotNames same i).1 = (RScriptExporter.plotNames same j).1 → i = j) ∧
    ((RScriptExporter.plotNames same i).2 = (RScriptExporter.plotNames same j).2 → i = j) ∧
    (RScriptExporter.plotNames same i).1 ≠ (RScriptExporter.plotNames same j).2 := by
  cases same
  · refine ⟨fun h => ?_, fun h => ?_, fun h => ?_⟩
    · have := intText_injective (List.append_cancel_left h : intText (i + 1 : Nat) = intText (j + 1 : Nat))
      omega
    · have := intText_injective (List.append_cancel_left h : intText (i + 1 : Nat) = intText (j + 1 : Nat))
      omega
    · simp [RScriptExporter.plotNames] at h
  · refine ⟨fun h => ?_, fun h => ?_, fun h => ?_⟩
    · have := intText_injective (List.append_cancel_left h : intText (i + 1 : Nat) = intText (j + 1 : Nat))
      omega
    · have h' : cs! "engine.plot.o" ++ intText (i + 1 : Nat) ++ cs! "_i1" = cs! "engine.plot.o" ++ intText (j + 1 : Nat) ++ cs! "_i1" := h
      have := intText_injective (List.append_cancel_left (List.append_cancel_right h') : intText (i + 1 : Nat) = intText (j + 1 : Nat))
      omega
    · simp [RScriptExporter.plotNames] at h

/-- the line of a plot -/
def plotLines (x : RScriptExporter) (same : Bool) (a b : Str) (i : Nat) (z : Str) : List Line :=
  let n := RScriptExporter.plotNames same i
  if same then
    [curveLine x n.1 a z false (a ++ cs! " vs " ++ z), curveLine x n.2 a z true (z ++ cs! " vs " ++ a)]
  else [surfaceLine x n.1 a b z, surfaceLine x n.2 b a z]

def allLines (x : RScriptExporter) (same : Bool) (a b : Str) : Nat → List Str → List Line
  | _, [] => []
  | i, z :: zs => plotLines x same a b i z ++ allLines x same a b (i + 1) zs

theorem lines_plots {x : RScriptExporter} (same : Bool) {a b z : Str} (i : Nat) (hx : Colors x) (ha : Column a) (hb : Column b) (hz : Column z) :
    Lines (x.plots same a b i z) (plotLines x same a b i z) := by
  obtain ⟨h1, h2⟩ := plotNames_column same i
  have q : ∀ {a z : Str}, Column a → Column z → Quotable (a ++ cs! " vs " ++ z) := fun ha hz =>
    (ha.name.quotable.append (show Quotable (cs! " vs ") by decide)).append hz.name.quotable
  cases same
  · exact (lines_surface hx h1 ha hb hz).append (lines_surface hx h2 hb ha hz)
  · exact (lines_curve false hx h1 ha hz (q ha hz)).append (lines_curve true hx h2 ha hz (q hz ha))

theorem lines_allPlots {x : RScriptExporter} (same : Bool) {a b : Str} (hx : Colors x) (ha : Column a) (hb : Column b) (zs : List Str)
    (hz : ∀ z ∈ zs, Column z) (i : Nat) : Lines (x.allPlots same a b i zs) (allLines x same a b i zs) := by
  induction zs generalizing i with
  | nil => exact .nil
  | cons z zs ih => exact (lines_plots same i hx ha hb (hz z (by simp))).append (ih (fun z h => hz z (by simp [h])) (i + 1))

/-! ### the figure -/

def names (same : Bool) (i : Nat) : Nat → List Str
  | 0 => []
  | n + 1 => (RScriptExporter.plotNames same i).1 :: (RScriptExporter.plotNames same i).2 :: names same (i + 1) n

theorem names_mem {same : Bool} {p : Str} (n i : Nat) (h : p ∈ names same i n) :
    ∃ j, i ≤ j ∧ (p = (RScriptExporter.plotNames same j).1 ∨ p = (RScriptExporter.plotNames same j).2) := by
  induction n generalizing i with
  | zero => simp [names] at h
  | succ n ih =>
    rw [names, List.mem_cons, List.mem_cons] at h
    rcases h with h | h | h
    · exact ⟨i, le_refl _, .inl h⟩
    · exact ⟨i, le_refl _, .inr h⟩
    · obtain ⟨j, h1, h2⟩ := ih (i + 1) h
      exact ⟨j, by omega, h2⟩

theorem names_nodup (same : Bool) (n i : Nat) : (names same i n).Nodup := by
  induction n generalizing i with
  | zero => exact List.nodup_nil
  | succ n ih =>
    rw [names]
    refine List.nodup_cons.2 ⟨?_, List.nodup_cons.2 ⟨?_, ih (i + 1)⟩⟩
    · rw [List.mem_cons]
      rintro (h | h)
      · exact plotNames_injective.2.2 h
      · obtain ⟨j, h1, h2 | h2⟩ := names_mem n (i + 1) h
        · have := plotNames_injective.1 h2; omega
        · exact plotNames_injective.2.2 h2
    · intro h
      obtain ⟨j, h1, h2 | h2⟩ := names_mem n (i + 1) h
      · exact plotNames_injective.2.2 h2.symm
      · have := plotNames_injective.2.1 h2; omega

theorem names_column {same : Bool} {p : Str} (n i : Nat) (h : p ∈ names same i n) : Column p := by
  obtain ⟨j, -, h | h⟩ := names_mem n i h
  · exact h ▸ (plotNames_column same j).1
  · exact h ▸ (plotNames_column same j).2

def argTokens (ns : List Str) : List Token := ns.flatMap fun p => [.name p, .sign ',']

theorem whole_arranged (same : Bool) (n i : Nat) : Whole (RScriptExporter.arranged same i n) (argTokens (names same i n)) := by
  induction n generalizing i with
  | zero => rfl
  | succ n ih =>
    obtain ⟨h1, h2⟩ := plotNames_column same i
    have k : Whole (cs! ", ") [.sign ','] := rfl
    have := (Whole.name h1.name k).append ((Whole.name h2.name k).append (ih (i + 1)))
    simpa [RScriptExporter.arranged, names, argTokens, List.append_assoc] using this

theorem joined_args (ns : List Str) (r : List Token) : joined 1 false (argTokens ns ++ r) = argTokens ns ++ joined 1 false r := by
  induction ns with
  | nil => rfl
  | cons p ns ih =>
    show Token.name p :: .sign ',' :: joined 1 false (argTokens ns ++ r) = _
    rw [ih]
    rfl

theorem parts_none {sep : Token} (ts : List Token) (d : Nat) (h : sep ∉ ts) : parts sep d ts = [ts] := by
  induction ts generalizing d with
  | nil => rfl
  | cons t ts ih =>
    rw [parts, if_neg (by rintro ⟨rfl, -⟩; simp at h)]
    simp only
    rw [ih _ fun hc => h (by simp [hc])]

theorem parts_args (ns : List Str) (r : List Token) :
    parts (.sign ',') 0 (argTokens ns ++ r) = ns.map (fun p => [.name p]) ++ parts (.sign ',') 0 r := by
  induction ns with
  | nil => rfl
  | cons p ns ih =>
    show parts (.sign ',') 0 (.name p :: .sign ',' :: (argTokens ns ++ r)) = _
    rw [parts, if_neg (by simp)]
    simp only [if_neg (show ¬ Token.name p = .sign '(' by simp), if_neg (show ¬ Token.name p = .sign ')' by simp)]
    rw [parts, if_pos ⟨rfl, rfl⟩, ih]
    rfl

/-- the arguments of the figure -/
def grobArgs (ns : List Str) : Arguments Item :=
  ns.map (fun p => (none, .atom (.name p))) ++ [(some (cs! "ncol"), .atom (.number ['2'])), (some (cs! "top"), .atom (.name (cs! "engine.name")))]

def grobLine (ns : List Str) : Line := .assign (cs! "engine.plots") [.call (cs! "arrangeGrob") (grobArgs ns)]

theorem mapM_args (ns : List Str) (h : ∀ p ∈ ns, Column p) (ps : List (List Token)) (as : Arguments Item)
    (hp : ps.mapM (argument item) = some as) :
    (ns.map (fun p => [Token.name p]) ++ ps).mapM (argument item) = some (ns.map (fun p => (none, .atom (.name p))) ++ as) := by
  induction ns with
  | nil => exact hp
  | cons p ns ih =>
    simp only [List.map_cons, List.cons_append, List.mapM_cons]
    rw [argument_name (item_name (h p (by simp))), ih fun p hp => h p (by simp [hp])]
    rfl

theorem lines_grob (same : Bool) (n i : Nat) :
    Lines (cs! "    engine.plots = arrangeGrob(" ++ RScriptExporter.arranged same i n ++ cs! "ncol=2, top=engine.name)\n")
      [grobLine (names same i n)] := by
  have k1 : Whole (cs! "    engine.plots = arrangeGrob(") [.name (cs! "engine.plots"), .sign '=', .name (cs! "arrangeGrob"), .sign '('] := by
    unfold Whole; decide +kernel
  have k2 : Whole (cs! "ncol=2, top=engine.name)\n") [.name (cs! "ncol"), .sign '=', .number ['2'], .sign ',', .name (cs! "top"), .sign '=',
    .name (cs! "engine.name"), .sign ')', .newline] := by unfold Whole; decide +kernel
  have h := (k1.append (whole_arranged same n i)).append k2
  have hplus : ∀ ns, (.sign '+') ∉ argTokens ns ∧ .newline ∉ argTokens ns := by
    intro ns
    simp [argTokens]
  refine line_lines (ts := .name (cs! "engine.plots") :: .sign '=' :: .name (cs! "arrangeGrob") :: .sign '(' ::
      ((argTokens (names same i n) ++ [.name (cs! "ncol"), .sign '=', .number ['2'], .sign ',', .name (cs! "top"), .sign '=',
    .name (cs! "engine.name")]) ++ [.sign ')'])) (us := .name (cs! "engine.plots") :: .sign '=' :: .name (cs! "arrangeGrob") :: .sign '(' ::
      ((argTokens (names same i n) ++ [.name (cs! "ncol"), .sign '=', .number ['2'], .sign ',', .name (cs! "top"), .sign '=',
    .name (cs! "engine.name")]) ++ [.sign ')'])) ?_ (fun r => ?_) ?_ ?_
  · simpa [List.append_assoc] using h
  · show Token.name (cs! "engine.plots") :: .sign '=' :: .name (cs! "arrangeGrob") :: .sign '(' :: joined 1 false (_ ++ _) = _
    rw [List.append_assoc, List.append_assoc, joined_args]
    simp [joined]
  · simp [(hplus _).2]
  · show (if cs! "engine.plots" ∈ reserved then none else _) = _
    rw [if_neg (by decide), parts_none _ _ (by simp [(hplus _).1])]
    rw [mapM_one (expr_call (as := grobArgs (names same i n)) (by decide) (arguments_parts (by simp) (parts_args _ _) ?_))]
    · rfl
    · refine mapM_args _ (fun p hp => names_column n i hp) _ _ ?_
      decide +kernel

/-- the lines after that of the figure -/
def tailLines : List Line :=
  [.expr (.call (cs! "ggsave") [(none, .call (cs! "paste0") [(none, .name (cs! "engine.name")), (none, .text (cs! ".pdf"))]),
      (none, .atom (.name (cs! "engine.plots")))]),
    .whenRequired (cs! "grid"), .expr (.call (cs! "grid.newpage") []),
    .expr (.call (cs! "grid.draw") [(none, .atom (.name (cs! "engine.plots")))]), .close, .close]

/-- a line without names of the engine -/
theorem lines_fixed {s : Str} {l : Line} (us : List Token) (h : Whole s (us ++ [.newline]))
    (hj : ∀ r, joined 0 false (us ++ .newline :: r) = us ++ .newline :: joined 0 false r) (hl : line us = some l) (hn : .newline ∉ us := by decide) :
    Lines s [l] := line_lines h hj hn hl

theorem lines_tail : Lines (cs! "    ggsave(paste0(engine.name, \".pdf\"), engine.plots)\n" ++
    cs! "    if (require(grid)) {\n        grid.newpage()\n        grid.draw(engine.plots)\n    }\n}\n") tailLines := by
  have h1 : Lines (cs! "    ggsave(paste0(engine.name, \".pdf\"), engine.plots)\n") [.expr (.call (cs! "ggsave") [(none, .call (cs! "paste0")
      [(none, .name (cs! "engine.name")), (none, .text (cs! ".pdf"))]), (none, .atom (.name (cs! "engine.plots")))])] :=
    lines_fixed [.name (cs! "ggsave"), .sign '(', .name (cs! "paste0"), .sign '(', .name (cs! "engine.name"), .sign ',', .text (cs! ".pdf"), .sign ')',
      .sign ',', .name (cs! "engine.plots"), .sign ')'] (by unfold Whole; decide +kernel) (fun r => rfl) (by decide +kernel)
  have h2 : Lines (cs! "    if (require(grid)) {\n") [.whenRequired (cs! "grid")] :=
    lines_fixed [.name (cs! "if"), .sign '(', .name (cs! "require"), .sign '(', .name (cs! "grid"), .sign ')', .sign ')', .sign '{']
      (by unfold Whole; decide +kernel) (fun r => rfl) (by decide +kernel)
  have h3 : Lines (cs! "        grid.newpage()\n") [.expr (.call (cs! "grid.newpage") [])] :=
    lines_fixed [.name (cs! "grid.newpage"), .sign '(', .sign ')'] (by unfold Whole; decide +kernel) (fun r => rfl) (by decide +kernel)
  have h4 : Lines (cs! "        grid.draw(engine.plots)\n") [.expr (.call (cs! "grid.draw") [(none, .atom (.name (cs! "engine.plots")))])] :=
    lines_fixed [.name (cs! "grid.draw"), .sign '(', .name (cs! "engine.plots"), .sign ')'] (by unfold Whole; decide +kernel) (fun r => rfl)
      (by decide +kernel)
  have h5 : Lines (cs! "    }\n") [.close] := lines_fixed [.sign '}'] rfl (fun r => rfl) rfl
  have h6 : Lines (cs! "}\n") [.close] := lines_fixed [.sign '}'] rfl (fun r => rfl) rfl
  exact h1.append ((((h2.append h3).append h4).append h5).append h6)

theorem lines_require : Lines (cs! "if (require(gridExtra)) {\n") [.whenRequired (cs! "gridExtra")] :=
  lines_fixed [.name (cs! "if"), .sign '(', .name (cs! "require"), .sign '(', .name (cs! "gridExtra"), .sign ')', .sign ')', .sign '{']
    (by unfold Whole; decide +kernel) (fun r => rfl) (by decide +kernel)

theorem lines_scriptPlots {x : RScriptExporter} (same : Bool) {a b : Str} (hx : Colors x) (ha : Column a) (hb : Column b) (zs : List Str)
    (hz : ∀ z ∈ zs, Column z) :
    Lines (x.scriptPlots same a b zs)
      (allLines x same a b 0 zs ++ .whenRequired (cs! "gridExtra") :: grobLine (names same 0 zs.length) :: tailLines) := by
  have h := (lines_allPlots same hx ha hb zs hz 0).append (lines_require.append ((lines_grob same zs.length 0).append lines_tail))
  have e : x.scriptPlots same a b zs = x.allPlots same a b 0 zs ++ (cs! "if (require(gridExtra)) {\n" ++
    (cs! "    engine.plots = arrangeGrob(" ++ RScriptExporter.arranged same 0 zs.length ++ cs! "ncol=2, top=engine.name)\n" ++
    (cs! "    ggsave(paste0(engine.name, \".pdf\"), engine.plots)\n" ++
      cs! "    if (require(grid)) {\n        grid.newpage()\n        grid.draw(engine.plots)\n    }\n}\n"))) := by
    unfold RScriptExporter.scriptPlots
    simp only [List.append_assoc]
    rfl
  rw [e]
  exact h

/-! ### the header and the data -/

variable {S : Type} [ScalarText S]

def headerLines (e : Engine S) : List Line :=
  [.expr (.call (cs! "library") [(none, .atom (.name (cs! "ggplot2")))]), .assign (cs! "engine.name") [.atom (.text e.name)]] ++
  (if e.description.isEmpty then [] else [.assign (cs! "engine.description") [.atom (.text e.description)]]) ++
  [.assign (cs! "engine.fll") [.atom (.text (({} : FllExporter).toString e))]]

theorem lines_header {x : RScriptExporter} {e : Engine S} (hl : '\n' ∉ x.library) (h1 : Quotable e.name) (h2 : Quotable e.description)
    (h3 : Quotable (({} : FllExporter).toString e)) : Lines (x.scriptHeader e) (headerLines e) := by
  have k1 : Lines (cs! "#" ++ (cs! "Code automatically generated with " ++ x.library ++ cs! ".") ++ cs! "\n") [] :=
    lines_blank (whole_comment (by simp [hl]))
  have k2 := lines_text (x := cs! "engine.name") (by decide) h1
  have k3 : Lines (if e.description.isEmpty then [] else cs! "engine.description = \"" ++ e.description ++ cs! "\"\n")
      (if e.description.isEmpty then [] else [.assign (cs! "engine.description") [.atom (.text e.description)]]) := by
    split_ifs
    · exact .nil
    · exact lines_text (x := cs! "engine.description") (by decide) h2
  have k4 := (lines_text (x := cs! "engine.fll") (by decide) h3).blank
  have := ((k1.blank.append lines_library.blank).append k2).append k3 |>.append k4
  simpa [RScriptExporter.scriptHeader, headerLines, List.append_assoc] using this

def frameLines (data : Str) : List Line := [.assign (cs! "engine.fld") [.atom (.text data)], readLine]

theorem lines_frame {data : Str} (h : Quotable data) : Lines (RScriptExporter.frameText data) (frameLines data) := by
  have := (lines_text (x := cs! "engine.fld") (by decide) h).blank.append lines_read.blank
  have e : RScriptExporter.frameText data = cs! "engine.fld" ++ cs! " = \"" ++ data ++ cs! "\"\n" ++ cs! "\n" ++
      (cs! "engine.df = read.delim(textConnection(engine.fld), header=TRUE, sep=\" \", strip.white=TRUE)\n" ++ cs! "\n") := by
    unfold RScriptExporter.frameText
    simp only [List.append_assoc]
    rfl
  rw [e]
  exact this

/-- the lines that read a file -/
def importLines (path : Str) : List Line :=
  [.assign (cs! "engine.fldFile") [.atom (.text path)], .whenRequired (cs! "data.table"),
    .assign (cs! "engine.df") [.call (cs! "data.table::fread") [(none, .atom (.name (cs! "engine.fldFile"))), (some (cs! "sep"), .atom (.text (cs! "auto"))),
      (some (cs! "header"), .atom (.text (cs! "auto")))]], .otherwise,
    .assign (cs! "engine.df") [.call (cs! "read.table") [(none, .atom (.name (cs! "engine.fldFile"))), (some (cs! "header"), .atom (.logical true))]],
    .close]

theorem lines_import {path : Str} (h : Quotable path) :
    Lines (cs! "engine.fldFile = \"" ++ path ++ cs! "\"\nif (require(data.table)) {\n"
      ++ cs! "    engine.df = data.table::fread(engine.fldFile, sep=\"auto\", header=\"auto\")\n} else {\n"
      ++ cs! "    engine.df = read.table(engine.fldFile, header=TRUE)\n}\n\n") (importLines path) := by
  have h1 := lines_text (x := cs! "engine.fldFile") (by decide) h
  have h2 : Lines (cs! "if (require(data.table)) {\n") [.whenRequired (cs! "data.table")] :=
    lines_fixed [.name (cs! "if"), .sign '(', .name (cs! "require"), .sign '(', .name (cs! "data.table"), .sign ')', .sign ')', .sign '{']
      (by unfold Whole; decide +kernel) (fun r => rfl) (by decide +kernel)
  have h3 : Lines (cs! "    engine.df = data.table::fread(engine.fldFile, sep=\"auto\", header=\"auto\")\n") [.assign (cs! "engine.df")
      [.call (cs! "data.table::fread") [(none, .atom (.name (cs! "engine.fldFile"))), (some (cs! "sep"), .atom (.text (cs! "auto"))),
      (some (cs! "header"), .atom (.text (cs! "auto")))]]] :=
    lines_fixed [.name (cs! "engine.df"), .sign '=', .name (cs! "data.table"), .sign ':', .sign ':', .name (cs! "fread"), .sign '(',
      .name (cs! "engine.fldFile"), .sign ',', .name (cs! "sep"), .sign '=', .text (cs! "auto"), .sign ',', .name (cs! "header"), .sign '=',
      .text (cs! "auto"), .sign ')'] (by unfold Whole; decide +kernel) (fun r => rfl) (by decide +kernel)
  have h4 : Lines (cs! "} else {\n") [.otherwise] :=
    lines_fixed [.sign '}', .name (cs! "else"), .sign '{'] (by unfold Whole; decide +kernel) (fun r => rfl) (by decide +kernel)
  have h5 : Lines (cs! "    engine.df = read.table(engine.fldFile, header=TRUE)\n") [.assign (cs! "engine.df")
      [.call (cs! "read.table") [(none, .atom (.name (cs! "engine.fldFile"))), (some (cs! "header"), .atom (.logical true))]]] :=
    lines_fixed [.name (cs! "engine.df"), .sign '=', .name (cs! "read.table"), .sign '(', .name (cs! "engine.fldFile"), .sign ',',
      .name (cs! "header"), .sign '=', .name (cs! "TRUE"), .sign ')'] (by unfold Whole; decide +kernel) (fun r => rfl) (by decide +kernel)
  have h6 : Lines (cs! "}\n") [.close] := lines_fixed [.sign '}'] rfl (fun r => rfl) rfl
  have h := h1.append (h2.append (h3.append (h4.append (h5.append h6.blank))))
  have e : cs! "engine.fldFile = \"" ++ path ++ cs! "\"\nif (require(data.table)) {\n"
      ++ cs! "    engine.df = data.table::fread(engine.fldFile, sep=\"auto\", header=\"auto\")\n} else {\n"
      ++ cs! "    engine.df = read.table(engine.fldFile, header=TRUE)\n}\n\n" =
    cs! "engine.fldFile" ++ cs! " = \"" ++ path ++ cs! "\"\n" ++ (cs! "if (require(data.table)) {\n" ++
      (cs! "    engine.df = data.table::fread(engine.fldFile, sep=\"auto\", header=\"auto\")\n" ++ (cs! "} else {\n" ++
      (cs! "    engine.df = read.table(engine.fldFile, header=TRUE)\n" ++ (cs! "}\n" ++ cs! "\n"))))) := by
    simp only [List.append_assoc]
    rfl
  rw [e]
  exact h

end FL.R
