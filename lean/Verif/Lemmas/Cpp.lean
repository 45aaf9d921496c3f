/-
Tokens and syntax of the C++ that `CppExporter` writes.
-/
import Verif.Model.Cpp
import Verif.Model.CppExporter

namespace FL.Cpp
open Scalar

/-! ### tokens -/

theorem run_append (m : Mode) (a b : Str) : run m (a ++ b) =
    (run m a).bind fun p => (run p.2 b).map fun q => (p.1 ++ q.1, q.2) := by
  induction a generalizing m with
  | nil => simp [run]
  | cons c a ih =>
    rw [List.cons_append, run, run]
    cases h : step m c with
    | none => rfl
    | some p =>
      show ((run p.2 (a ++ b)).bind fun q => some (p.1 ++ q.1, q.2)) =
        ((run p.2 a).bind fun q => some (p.1 ++ q.1, q.2)).bind _
      rw [ih]
      cases run p.2 a with
      | none => rfl
      | some q =>
        simp only [Option.bind_some]
        cases run q.2 b <;> simp [List.append_assoc]

/-- a text of complete tokens -/
def Whole (s : Str) (ts : List Token) : Prop := run .blank s = some (ts, .blank)

/-- characters that end a word -/
def isDelim (c : Char) : Bool := c ∈ cs! " \n-:*(),;="

/-- a text of tokens, the last of which may need a character after it to end -/
def Tokens (s : Str) (ts : List Token) : Prop :=
  ∀ c r, isDelim c = true → run .blank (s ++ c :: r) = (run .blank (c :: r)).map fun q => (ts ++ q.1, q.2)

theorem Whole.tokens {s : Str} {ts : List Token} (h : Whole s ts) : Tokens s ts := by
  intro c r _
  rw [run_append, h]
  rfl

theorem Whole.append {s s' : Str} {ts ts' : List Token} (h : Whole s ts) (h' : Whole s' ts') : Whole (s ++ s') (ts ++ ts') := by
  unfold Whole
  rw [run_append, h]
  simp only [Option.bind_some]
  rw [show run .blank s' = _ from h']
  rfl

theorem Whole.tokens_append {s s' : Str} {ts ts' : List Token} (h : Whole s ts) (h' : Tokens s' ts') :
    Tokens (s ++ s') (ts ++ ts') := by
  intro c r hc
  rw [List.append_assoc, run_append, h]
  simp only [Option.bind_some]
  rw [h' c r hc]
  cases run .blank (c :: r) <;> simp [List.append_assoc]

theorem Tokens.whole {s s' : Str} {ts ts' : List Token} {c : Char} (h : Tokens s ts) (hc : isDelim c = true)
    (h' : Whole (c :: s') ts') : Whole (s ++ c :: s') (ts ++ ts') := by
  unfold Whole
  rw [h c s' hc, show run .blank (c :: s') = _ from h']
  rfl

theorem Tokens.append {s s' : Str} {ts ts' : List Token} {c : Char} (h : Tokens s ts) (hc : isDelim c = true)
    (h' : Tokens (c :: s') ts') : Tokens (s ++ c :: s') (ts ++ ts') := by
  intro d r hd
  rw [List.append_assoc, List.cons_append, h c _ hc, ← List.cons_append, h' d r hd]
  cases run .blank (d :: r) <;> simp [List.append_assoc]

/-- identifiers -/
def IsIdent (s : Str) : Prop := (∃ c, s.head? = some c ∧ isLetter c = true) ∧ ∀ c ∈ s, isLetter c = true ∨ isDigit c = true

instance (s : Str) : Decidable (IsIdent s) :=
  decidable_of_iff ((s.head?.map isLetter) = some true ∧ s.all (fun c => isLetter c || isDigit c) = true) (by
    unfold IsIdent
    cases s <;> simp)

theorem isSpace_letter {c : Char} (h : isLetter c = true ∨ isDigit c = true) : isSpace c = false := by
  have key : ∀ d ∈ cs! " \t\n\x0b\x0c\r", isLetter d = false ∧ isDigit d = false := by decide
  by_contra hc
  rw [Bool.not_eq_false] at hc
  have : c ∈ cs! " \t\n\x0b\x0c\r" := by simpa [isSpace, or_assoc] using hc
  obtain ⟨h1, h2⟩ := key c this
  rw [h1, h2] at h
  simp at h

theorem delim_facts {c : Char} (h : isDelim c = true) : isLetter c = false ∧ isDigit c = false ∧ c ≠ '.' ∧ c ≠ '"' := by
  have : ∀ d ∈ cs! " \n-:*(),;=", isLetter d = false ∧ isDigit d = false ∧ d ≠ '.' ∧ d ≠ '"' := by decide
  exact this c (by simpa [isDelim] using h)

theorem run_ends (t : Token) (m : Mode) (c : Char) (r : Str) (h : step m c = ends t c) :
    run m (c :: r) = (run .blank (c :: r)).map fun q => (t :: q.1, q.2) := by
  rw [run, run, h]
  show _ = (Option.bind (start c) fun p => _).map _
  unfold ends
  cases start c with
  | none => rfl
  | some p =>
    show (Option.bind (run p.2 r) fun q => some (t :: p.1 ++ q.1, q.2)) = (Option.bind (run p.2 r) fun q => some (p.1 ++ q.1, q.2)).map _
    cases run p.2 r <;> rfl

theorem run_ident (a w : Str) (h : ∀ c ∈ w, isLetter c = true ∨ isDigit c = true) (r : Str) :
    run (.ident a) (w ++ r) = run (.ident (w.reverse ++ a)) r := by
  induction w generalizing a with
  | nil => rfl
  | cons c w ih =>
    rw [List.cons_append, run]
    have : step (.ident a) c = some ([], .ident (c :: a)) := by
      have := h c (by simp)
      simp only [step]
      rw [if_pos (by simpa using this)]
    rw [this]
    show (Option.bind (run (.ident (c :: a)) (w ++ r)) fun q => some ([] ++ q.1, q.2)) = _
    rw [ih (c :: a) fun d hd => h d (by simp [hd])]
    simp

theorem tokens_ident {w : Str} (h : IsIdent w) : Tokens w [.ident w] := by
  intro c r hc
  obtain ⟨⟨d, hd, hl⟩, hw⟩ := h
  obtain ⟨w, rfl⟩ : ∃ v, w = d :: v := by
    cases w with
    | nil => simp at hd
    | cons b v => exact ⟨v, by rw [Option.some.inj (show some b = some d from hd)]⟩
  rw [List.cons_append, run]
  have h1 : step .blank d = some ([], .ident [d]) := by
    simp [step, start, isSpace_letter (.inl hl), hl]
  rw [h1]
  show (Option.bind (run (.ident [d]) (w ++ c :: r)) fun q => some ([] ++ q.1, q.2)) = _
  rw [run_ident _ _ fun b hb => hw b (by simp [hb])]
  obtain ⟨f1, f2, f3, f4⟩ := delim_facts hc
  rw [run_ends (.ident (d :: w)) _ c r (by simp [step, f1, f2, f4])]
  cases run .blank (c :: r) <;> simp

theorem run_number (a w : Str) (h : ∀ c ∈ w, isDigit c = true ∨ c = '.') (r : Str) :
    run (.number a) (w ++ r) = run (.number (w.reverse ++ a)) r := by
  induction w generalizing a with
  | nil => rfl
  | cons c w ih =>
    rw [List.cons_append, run]
    have : step (.number a) c = some ([], .number (c :: a)) := by
      have := h c (by simp)
      simp only [step]
      rw [if_pos (by rcases this with h | h <;> simp [h])]
    rw [this]
    show (Option.bind (run (.number (c :: a)) (w ++ r)) fun q => some ([] ++ q.1, q.2)) = _
    rw [ih (c :: a) fun d hd => h d (by simp [hd])]
    simp

theorem isDigit_letter {c : Char} (h : isDigit c = true) : isLetter c = false := by
  have : c ≠ '_' := by rintro rfl; revert h; decide
  simp [isLetter, h, this]

/-- texts of numbers without sign -/
def IsNumber (s : Str) : Prop := (∃ c, s.head? = some c ∧ isDigit c = true) ∧ ∀ c ∈ s, isDigit c = true ∨ c = '.'

theorem tokens_number {w : Str} (h : IsNumber w) : Tokens w [.number w] := by
  intro c r hc
  obtain ⟨⟨d, hd, hl⟩, hw⟩ := h
  obtain ⟨w, rfl⟩ : ∃ v, w = d :: v := by
    cases w with
    | nil => simp at hd
    | cons b v => exact ⟨v, by rw [Option.some.inj (show some b = some d from hd)]⟩
  rw [List.cons_append, run]
  have h1 : step .blank d = some ([], .number [d]) := by
    simp [step, start, isSpace_letter (.inr hl), hl, isDigit_letter hl]
  rw [h1]
  show (Option.bind (run (.number [d]) (w ++ c :: r)) fun q => some ([] ++ q.1, q.2)) = _
  rw [run_number _ _ fun b hb => hw b (by simp [hb])]
  obtain ⟨f1, f2, f3, f4⟩ := delim_facts hc
  rw [run_ends (.number (d :: w)) _ c r (by simp [step, f1, f2, f3])]
  cases run .blank (c :: r) <;> simp

/-- texts that stand for themselves between quotes -/
def Plain (s : Str) : Prop := ∀ c ∈ s, c ≠ '"' ∧ c ≠ '\\' ∧ c ≠ '\n' ∧ c ≠ '\x00'

instance (s : Str) : Decidable (Plain s) := by unfold Plain; infer_instance

theorem run_text (a w : Str) (h : Plain w) (r : Str) : run (.text a) (w ++ r) = run (.text (w.reverse ++ a)) r := by
  induction w generalizing a with
  | nil => rfl
  | cons c w ih =>
    rw [List.cons_append, run]
    have : step (.text a) c = some ([], .text (c :: a)) := by
      obtain ⟨h1, h2, h3, h4⟩ := h c (by simp)
      simp [step, h1, h2, h3, h4]
    rw [this]
    show (Option.bind (run (.text (c :: a)) (w ++ r)) fun q => some ([] ++ q.1, q.2)) = _
    rw [ih (c :: a) fun d hd => h d (by simp [hd])]
    simp

theorem whole_quoted {w : Str} (h : Plain w) : Whole (CppExporter.quoted w) [.text w] := by
  unfold Whole CppExporter.quoted
  rw [List.append_assoc, List.cons_append, List.nil_append, run]
  show (Option.bind (run (.text []) (w ++ cs! "\"")) fun q => some ([] ++ q.1, q.2)) = _
  rw [run_text [] w h]
  show (Option.bind (some ([Token.text (w.reverse ++ []).reverse] ++ [], Mode.blank)) fun q => some ([] ++ q.1, q.2)) = _
  simp

theorem tokens_minus {s : Str} {ts : List Token} {c : Char} (h : Tokens s ts) (hc : s.head? = some c) (h1 : c ≠ '>') (h2 : c ≠ '-') :
    Tokens ('-' :: s) (.sign (cs! "-") :: ts) := by
  intro d r hd
  obtain ⟨s, rfl⟩ : ∃ v, s = c :: v := by
    cases s with
    | nil => simp at hc
    | cons b v => exact ⟨v, by rw [Option.some.inj (show some b = some c from hc)]⟩
  rw [List.cons_append, run]
  have : step .blank '-' = some ([], .dash) := by decide
  rw [this]
  show (Option.bind (run .dash (c :: (s ++ d :: r))) fun q => some ([] ++ q.1, q.2)) = _
  rw [run_ends (.sign (cs! "-")) .dash c _ (by simp [step, h1, h2]), ← List.cons_append, h d r hd]
  cases run .blank (d :: r) <;> simp

/-! ### syntax -/

/-- the tokens of a name -/
def pathTokens (q : Bool) (s : Str) : List Token := (if q then [.ident (cs! "fl"), .sign (cs! "::")] else []) ++ [.ident s]

/-- the tokens of an atom -/
def Atom.tokens : Atom → List Token
  | .text s => [.text s]
  | .number n s => (if n then [.sign (cs! "-")] else []) ++ [.number s]
  | .name n q s => (if n then [.sign (cs! "-")] else []) ++ pathTokens q s

theorem path_tokens (q : Bool) (s : Str) (r : List Token) (h : ∀ t u, r = .sign (cs! "::") :: .ident t :: u → q = true) :
    path (pathTokens q s ++ r) = some (q, s, r) := by
  cases q with
  | true => rfl
  | false =>
    simp only [pathTokens, Bool.false_eq_true, if_false, List.nil_append, List.cons_append]
    unfold path
    split
    · rename_i heq
      obtain ⟨e1, e2⟩ := List.cons.inj heq
      exact absurd (h _ _ e2) (by simp)
    · rename_i heq
      obtain ⟨e1, e2⟩ := List.cons.inj heq
      rw [Token.ident.inj e1, e2]
    · rename_i hn
      exact absurd rfl (hn _ _)

theorem atom_tokens (a : Atom) : atom a.tokens = some a := by
  cases a with
  | text s => rfl
  | number n s => cases n <;> rfl
  | name n q s => cases n <;> cases q <;> rfl

theorem pieces_none (sep : Token) (p : List Token) (h : sep ∉ p) : pieces sep p = [p] := by
  induction p with
  | nil => rfl
  | cons t p ih =>
    rw [pieces, if_neg (by rintro rfl; simp at h), ih (by simp at h; exact h.2)]

theorem pieces_append (sep : Token) (p r : List Token) (h : sep ∉ p) : pieces sep (p ++ sep :: r) = p :: pieces sep r := by
  induction p with
  | nil => simp [pieces]
  | cons t p ih =>
    rw [List.cons_append, pieces, if_neg (by rintro rfl; simp at h), ih (by simp at h; exact h.2)]

/-- atoms separated by commas -/
def commaTokens : List Atom → List Token
  | [] => []
  | [a] => a.tokens
  | a :: as => a.tokens ++ .sign (cs! ",") :: commaTokens as

theorem sign_notMem (a : Atom) (s : Str) (h1 : s ≠ cs! "-") (h2 : s ≠ cs! "::") : Token.sign s ∉ a.tokens := by
  cases a with
  | text _ => simp [Atom.tokens]
  | number n _ => cases n <;> simp [Atom.tokens, h1]
  | name n q _ => cases n <;> cases q <;> simp [Atom.tokens, pathTokens, h1, h2]

theorem sign_notMem_comma (as : List Atom) (s : Str) (h1 : s ≠ cs! "-") (h2 : s ≠ cs! "::") (h3 : s ≠ cs! ",") :
    Token.sign s ∉ commaTokens as := by
  induction as with
  | nil => simp [commaTokens]
  | cons a as ih =>
    cases as with
    | nil => exact sign_notMem a s h1 h2
    | cons b as =>
      rw [commaTokens]
      · simp only [List.mem_append, List.mem_cons, Token.sign.injEq, not_or]
        exact ⟨sign_notMem a s h1 h2, h3, ih⟩
      · simp

theorem tokens_ne (a : Atom) : a.tokens ≠ [] := by
  cases a with
  | text _ => simp [Atom.tokens]
  | number n _ => cases n <;> simp [Atom.tokens]
  | name n q _ => cases n <;> cases q <;> simp [Atom.tokens, pathTokens]

theorem commaTokens_cons (a : Atom) (as : List Atom) : ∃ r, commaTokens (a :: as) = a.tokens ++ r ∧
    (r = [] ∨ ∃ u, r = .sign (cs! ",") :: u) := by
  cases as with
  | nil => exact ⟨[], by simp [commaTokens], .inl rfl⟩
  | cons b as => exact ⟨_, by rw [commaTokens]; simp, .inr ⟨_, rfl⟩⟩

theorem commaTokens_ne (a : Atom) (as : List Atom) : commaTokens (a :: as) ≠ [] := by
  obtain ⟨r, h, -⟩ := commaTokens_cons a as
  rw [h]
  simp [tokens_ne]

theorem atoms_tokens (as : List Atom) : atoms (commaTokens as) = some as := by
  cases as with
  | nil => rfl
  | cons a as =>
    unfold atoms
    rw [if_neg (commaTokens_ne a as)]
    induction as generalizing a with
    | nil =>
      rw [show commaTokens [a] = a.tokens from rfl, pieces_none _ _ (sign_notMem a _ (by decide) (by decide))]
      simp [atom_tokens]
    | cons b as ih =>
      rw [commaTokens, pieces_append _ _ _ (sign_notMem a _ (by decide) (by decide)), List.mapM_cons, atom_tokens, ih]
      · rfl
      · simp

/-- the tokens of arguments -/
def Args.tokens : Args → List Token
  | .atoms as => commaTokens as
  | .new q c as => .ident (cs! "new") :: pathTokens q c ++
      (if as = [] then [] else .sign (cs! "(") :: commaTokens as ++ [.sign (cs! ")")])
  | .call q c f as => pathTokens q c ++ .sign (cs! "::") :: .ident f :: .sign (cs! "(") :: commaTokens as ++ [.sign (cs! ")")]

theorem parenthesised_tokens (ts : List Token) : parenthesised (.sign (cs! "(") :: ts ++ [.sign (cs! ")")]) = some ts := by
  unfold parenthesised
  simp

/-- names that begin an expression -/
def Args.Fair : Args → Prop
  | .atoms as => ∀ q s, as.head? = some (.name false q s) → s ≠ cs! "new"
  | .new _ _ _ => True
  | .call _ c _ _ => c ≠ cs! "fl" ∧ c ≠ cs! "new"

theorem args_tokens (a : Args) (h : a.Fair) : args a.tokens = some a := by
  cases a with
  | atoms as =>
    have hpath : path (commaTokens as) = none ∨ ∃ q s r, path (commaTokens as) = some (q, s, r) ∧ s ≠ cs! "new" ∧
        (r = [] ∨ ∃ u, r = .sign (cs! ",") :: u) := by
      cases as with
      | nil => exact .inl rfl
      | cons a as =>
        obtain ⟨r, hr, hr'⟩ := commaTokens_cons a as
        rw [hr]
        cases a with
        | text s => exact .inl rfl
        | number n s => cases n <;> exact .inl rfl
        | name n q s =>
          cases n with
          | true => exact .inl rfl
          | false =>
            refine .inr ⟨q, s, r, ?_, h q s rfl, hr'⟩
            simp only [Atom.tokens, Bool.false_eq_true, if_false, List.nil_append]
            refine path_tokens q s r fun t u e => ?_
            rcases hr' with rfl | ⟨v, rfl⟩ <;> simp at e
    unfold args
    simp only [Args.tokens]
    rcases hpath with e | ⟨q, s, r, e, hs, hr⟩
    · rw [e]
      simp [atoms_tokens]
    · rw [e]
      simp only [hs, and_false, if_false]
      rcases hr with rfl | ⟨u, rfl⟩ <;> simp [atoms_tokens]
  | new q c as =>
    have e1 : path (Args.new q c as).tokens = some (false, cs! "new", pathTokens q c ++
        (if as = [] then [] else .sign (cs! "(") :: commaTokens as ++ [.sign (cs! ")")])) := by
      cases q <;> rfl
    unfold args
    rw [e1]
    simp only [and_self, if_true]
    cases as with
    | nil =>
      rw [if_pos rfl, path_tokens _ _ _ (by simp)]
    | cons a as =>
      rw [if_neg (by simp), path_tokens _ _ _ (by simp)]
      show ((parenthesised (.sign (cs! "(") :: commaTokens (a :: as) ++ [.sign (cs! ")")])).bind fun ts =>
        (atoms ts).bind fun as => some (Args.new q c as)) = _
      rw [parenthesised_tokens, Option.bind_some, atoms_tokens]
      rfl
  | call q c f as =>
    have e1 : path (Args.call q c f as).tokens = some (q, c, .sign (cs! "::") :: .ident f :: .sign (cs! "(") :: commaTokens as ++ [.sign (cs! ")")]) := by
      cases q with
      | true => rfl
      | false =>
        simp only [Args.tokens, pathTokens, Bool.false_eq_true, if_false, List.nil_append, List.cons_append]
        show (if c = cs! "fl" then _ else _) = _
        rw [if_neg h.1]
    unfold args
    rw [e1]
    simp only [h.2, and_false, if_false]
    rw [show (.sign (cs! "::") :: .ident f :: .sign (cs! "(") :: commaTokens as ++ [.sign (cs! ")")] : List Token) =
      .sign (cs! "::") :: .ident f :: (.sign (cs! "(") :: commaTokens as ++ [.sign (cs! ")")]) by simp]
    show ((parenthesised (.sign (cs! "(") :: commaTokens as ++ [.sign (cs! ")")])).bind fun ts =>
      (atoms ts).bind fun as => some (Args.call q c f as)) = _
    rw [parenthesised_tokens, Option.bind_some, atoms_tokens]
    rfl

/-! ### statements -/

def Stmt.tokens : Stmt → List Token
  | .usingNamespace => [.ident (cs! "using"), .ident (cs! "namespace"), .ident (cs! "fuzzylite")]
  | .declare q1 c1 x q2 c2 => pathTokens q1 c1 ++ .sign (cs! "*") :: .ident x :: .sign (cs! "=") :: .ident (cs! "new") :: pathTokens q2 c2
  | .call x m as => .ident x :: .sign (cs! "->") :: .ident m :: .sign (cs! "(") :: as.tokens ++ [.sign (cs! ")")]

def Stmt.Fair : Stmt → Prop
  | .usingNamespace => True
  | .declare _ _ _ _ _ => True
  | .call _ _ as => as.Fair

theorem stmt_tokens (st : Stmt) (h : st.Fair) : stmt st.tokens = some st := by
  cases st with
  | usingNamespace => rfl
  | declare q1 c1 x q2 c2 =>
    cases q1 <;> cases q2 <;> rfl
  | call x m as =>
    have : stmt (Stmt.call x m as).tokens = (parenthesised (.sign (cs! "(") :: as.tokens ++ [.sign (cs! ")")])).bind fun ts =>
        (args ts).bind fun a => some (.call x m a) := rfl
    rw [this, parenthesised_tokens, Option.bind_some, args_tokens as h]
    rfl

def semicolon : Token := .sign (cs! ";")

theorem semicolon_notMem (st : Stmt) : semicolon ∉ st.tokens := by
  have hp : ∀ q c, semicolon ∉ pathTokens q c := by intro q c; cases q <;> simp [pathTokens, semicolon]
  have hc : ∀ as, semicolon ∉ commaTokens as := fun as => sign_notMem_comma as _ (by decide) (by decide) (by decide)
  cases st with
  | usingNamespace => decide
  | declare q1 c1 x q2 c2 =>
    simp only [Stmt.tokens, List.mem_append, List.mem_cons, not_or]
    exact ⟨hp _ _, by decide, by simp [semicolon], by decide, by decide, hp _ _⟩
  | call x m as =>
    have ha : semicolon ∉ as.tokens := by
      cases as with
      | atoms as => exact hc as
      | new q c as =>
        simp only [Args.tokens, List.cons_append, List.mem_cons, List.mem_append, not_or]
        refine ⟨by decide, hp _ _, ?_⟩
        split_ifs
        · simp
        · simp only [List.mem_cons, List.mem_append, not_or]
          exact ⟨by decide, hc _, by decide, by simp⟩
      | call q c f as =>
        simp only [Args.tokens, List.cons_append, List.mem_cons, List.mem_append, not_or]
        exact ⟨⟨hp _ _, by decide, by simp [semicolon], by decide, hc _⟩, by decide, by simp⟩
    simp only [Stmt.tokens, List.cons_append, List.mem_cons, List.mem_append, not_or]
    exact ⟨by simp [semicolon], by decide, by simp [semicolon], by decide, ha, by decide, by simp⟩

/-- a text that consists of the statements -/
def Lines (s : Str) (sts : List Stmt) : Prop := Whole s (sts.flatMap fun st => st.tokens ++ [semicolon]) ∧ ∀ st ∈ sts, st.Fair

theorem Lines.append {s s' : Str} {a b : List Stmt} (h : Lines s a) (h' : Lines s' b) : Lines (s ++ s') (a ++ b) := by
  refine ⟨?_, ?_⟩
  · rw [List.flatMap_append]
    exact h.1.append h'.1
  · intro st hst
    rcases List.mem_append.1 hst with hst | hst
    · exact h.2 st hst
    · exact h'.2 st hst

theorem lines_nil : Lines [] [] := ⟨rfl, by simp⟩

theorem lines_newline : Lines (cs! "\n") [] := ⟨rfl, by simp⟩

theorem lines_flatMap {α : Type} (f : α → Str) (g : α → List Stmt) (as : List α) (h : ∀ a ∈ as, Lines (f a) (g a)) :
    Lines (as.flatMap f) (as.flatMap g) := by
  induction as with
  | nil => exact lines_nil
  | cons a as ih =>
    rw [List.flatMap_cons, List.flatMap_cons]
    exact (h a (by simp)).append (ih fun b hb => h b (by simp [hb]))

theorem program_tokens (sts : List Stmt) (h : ∀ st ∈ sts, st.Fair) :
    program (sts.flatMap fun st => st.tokens ++ [semicolon]) = some sts := by
  have : pieces semicolon (sts.flatMap fun st => st.tokens ++ [semicolon]) = sts.map Stmt.tokens ++ [[]] := by
    clear h
    induction sts with
    | nil => rfl
    | cons st sts ih =>
      rw [List.flatMap_cons, List.append_assoc, List.singleton_append, pieces_append _ _ _ (semicolon_notMem st), ih]
      rfl
  unfold program
  rw [show (Token.sign [';']) = semicolon from rfl, this]
  simp only [List.getLast?_append, List.getLast?_singleton, Option.some_or, if_true, List.dropLast_concat]
  induction sts with
  | nil => rfl
  | cons st sts ih =>
    rw [List.map_cons, List.mapM_cons, stmt_tokens st (h st (by simp)), ih (fun s hs => h s (by simp [hs]))]
    · rfl
    · clear this ih
      induction sts with
      | nil => rfl
      | cons st sts ih =>
        rw [List.flatMap_cons, List.append_assoc, List.singleton_append, pieces_append _ _ _ (semicolon_notMem st), ih]
        · rfl
        · intro s hs
          rcases List.mem_cons.1 hs with rfl | hs
          · exact h _ (by simp)
          · exact h s (by simp [hs])

theorem parse_lines {s : Str} {sts : List Stmt} (h : Lines s sts) : parse s = some sts := by
  unfold parse lex
  rw [show run .blank s = _ from h.1]
  show (program ((sts.flatMap fun st => st.tokens ++ [semicolon]) ++ [])) = _
  rw [List.append_nil, program_tokens sts h.2]

/-- a text is the text of arguments -/
def IsArgs (s : Str) (a : Args) : Prop := Tokens s a.tokens ∧ a.Fair

theorem line_call {x m s : Str} {a : Args} (hx : IsIdent x) (hm : IsIdent m) (ha : IsArgs s a) :
    Lines (CppExporter.call x m s) [.call x m a] := by
  refine ⟨?_, fun st hst => by rw [List.mem_singleton.1 hst]; exact ha.2⟩
  unfold CppExporter.call
  simp only [List.append_assoc, List.cons_append, List.nil_append]
  have h1 : Whole (cs! ");\n") [.sign (cs! ")"), semicolon] := rfl
  have h2 := ha.1.whole (c := ')') rfl h1
  have h3 : Whole (cs! "(") [.sign (cs! "(")] := rfl
  have h4 := (tokens_ident hm).whole (c := '(') rfl (h3.append h2)
  have h5 : Whole (cs! "->") [.sign (cs! "->")] := rfl
  have h6 := (tokens_ident hx).whole (c := '-') rfl (h5.append h4)
  simp only [Stmt.tokens, List.flatMap_cons, List.flatMap_nil, List.append_nil, List.append_assoc, List.cons_append, List.nil_append] at h6 ⊢
  exact h6

end FL.Cpp
