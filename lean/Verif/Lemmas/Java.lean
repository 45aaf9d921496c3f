/-
The statements that `JavaExporter` writes.
-/
import Verif.Model.Java
import Verif.Props.Cpp

namespace FL
open Scalar

namespace Java
open Cpp
variable {S : Type} [ScalarText S]

/-! ### tokens -/

theorem run_identDot {w : Str} (h : IsIdent w) (r : Str) :
    run .blank (w ++ '.' :: r) = (run .blank ('.' :: r)).map fun q => (.ident w :: q.1, q.2) := by
  obtain ⟨⟨d, hd, hl⟩, hw⟩ := h
  obtain ⟨w, rfl⟩ : ∃ v, w = d :: v := by
    cases w with
    | nil => simp at hd
    | cons b v => exact ⟨v, by rw [Option.some.inj (show some b = some d from hd)]⟩
  rw [List.cons_append, run]
  have h1 : step .blank d = some ([], .ident [d]) := by
    simp [step, start, isSpace_letter (.inl hl), hl]
  rw [h1]
  show (Option.bind (run (.ident [d]) (w ++ '.' :: r)) fun q => some ([] ++ q.1, q.2)) = _
  rw [run_ident _ _ fun b hb => hw b (by simp [hb])]
  rw [run_ends (.ident (d :: w)) _ '.' r (by
    have : isLetter '.' = false ∧ isDigit '.' = false := by decide
    simp [step, this.1, this.2])]
  cases run .blank ('.' :: r) <;> simp

theorem whole_identDot {w r : Str} {ts : List Token} (h : IsIdent w) (hr : Whole ('.' :: r) ts) : Whole (w ++ '.' :: r) (.ident w :: ts) := by
  unfold Whole
  rw [run_identDot h, show run .blank ('.' :: r) = _ from hr]
  rfl

/-! ### atoms -/

def comma : Token := .sign (cs! ",")

/-- a text is the text of an atom -/
def AtomText (s : Str) (a : Atom) : Prop := ∃ ts, Tokens s ts ∧ atom ts = some a

theorem atom_signs {ts : List Token} {a : Atom} (h : atom ts = some a) : ts ≠ [] ∧ comma ∉ ts ∧ semicolon ∉ ts := by
  unfold atom at h
  split at h
  · simp [comma, semicolon]
  · simp [comma, semicolon]
  · simp [comma, semicolon]
  · simp [comma, semicolon]
  · simp [comma, semicolon]
  · cases h

/-- a text is the text of atoms -/
def AtomsText (s : Str) (as : List Atom) : Prop := ∃ ts, Tokens s ts ∧ atoms ts = some as ∧ semicolon ∉ ts

theorem atoms_join (ss : List Str) (as : List Atom) (h : List.Forall₂ AtomText ss as) (hn : ss ≠ []) : AtomsText (Op.join ss (cs! ", ")) as := by
  have key : ∃ ts, Tokens (Op.join ss (cs! ", ")) ts ∧ ts ≠ [] ∧ (pieces comma ts).mapM atom = some as ∧ semicolon ∉ ts := by
    induction h with
    | nil => exact absurd rfl hn
    | @cons s a ss as h1 h2 ih =>
      obtain ⟨t1, k1, k2⟩ := h1
      obtain ⟨m1, m2, m3⟩ := atom_signs k2
      cases h2 with
      | nil =>
        refine ⟨t1, by simpa [Op.join] using k1, m1, ?_, m3⟩
        rw [pieces_none _ _ m2]
        simp [k2]
      | cons h3 h4 =>
        obtain ⟨t2, j1, j2, j3, j4⟩ := ih (by simp)
        have hw : Whole (cs! ", ") [comma] := rfl
        have := k1.append (c := ',') rfl (hw.tokens_append j1)
        refine ⟨t1 ++ comma :: t2, by simpa [Op.join] using this, by simp, ?_, ?_⟩
        · rw [pieces_append _ _ _ m2, List.mapM_cons, k2, j3]
          rfl
        · simp only [List.mem_append, List.mem_cons, not_or]
          exact ⟨m3, by decide, j4⟩
  obtain ⟨ts, k1, k2, k3, k4⟩ := key
  refine ⟨ts, k1, ?_, k4⟩
  unfold atoms
  rw [if_neg k2]
  exact k3

theorem atomsText_nil : AtomsText [] [] := ⟨[], by intro c r _; simp, rfl, by simp⟩

theorem atomText_text {s : Str} (h : Plain s) : AtomText (CppExporter.quoted s) (.text s) := ⟨_, tokens_text h, rfl⟩

theorem atomText_number (n : Bool) (t s : Str) (h : Tokens s (Atom.number n t).tokens) : AtomText s (.number n t) := by
  refine ⟨_, h, ?_⟩
  cases n <;> rfl

theorem atomText_int (n : Int) : AtomText (intText n) (intAtom n) := by
  have := tokens_int n
  cases n <;> exact atomText_number _ _ _ this

theorem atomText_finite [CppText S] (v : S) (h1 : Op.isNaN v = false) (h2 : Op.isInf v = false) : AtomText (ScalarText.str v) (numberAtom v) := by
  have h := tokens_numberAtom v h1 h2
  obtain ⟨n, t, y, e1, -⟩ := numberAtom_cases v h1 h2
  rw [e1] at h ⊢
  exact atomText_number _ _ _ h

theorem atomText_name {n : Str} (h : IsIdent n) (hk : n ≠ cs! "null") : AtomText n (.name false false n) :=
  ⟨_, tokens_ident h, by simp [atom, hk]⟩

theorem atomText_null : AtomText (cs! "null") (.name false true (cs! "null")) := ⟨_, tokens_ident (by decide), rfl⟩

theorem atomText_scalar [CppText S] (v : S) : AtomText (JavaExporter.scalar v) (scalarAtom v) := by
  have hd : Whole (cs! "Double.") [.ident (cs! "Double"), .sign (cs! ".")] := rfl
  unfold JavaExporter.scalar scalarAtom
  cases h1 : Op.isNaN v with
  | true => exact ⟨_, hd.tokens_append (tokens_ident (w := cs! "NaN") (by decide)), rfl⟩
  | false =>
    simp only [Bool.false_eq_true, if_false]
    cases h2 : Op.isInf v with
    | true =>
      simp only [if_true]
      cases gt v (lit 0) with
      | true => exact ⟨_, hd.tokens_append (tokens_ident (w := cs! "POSITIVE_INFINITY") (by decide)), rfl⟩
      | false => exact ⟨_, hd.tokens_append (tokens_ident (w := cs! "NEGATIVE_INFINITY") (by decide)), rfl⟩
    | false => exact atomText_finite v h1 h2

/-- `Op::str` writes a number of Java -/
def Finite (v : S) : Prop := Op.isNaN v = false ∧ Op.isInf v = false

theorem atomText_str [CppText S] (v : S) (h : Finite v) : AtomText (ScalarText.str v) (plainAtom v) := by
  unfold plainAtom
  rw [h.1, h.2]
  exact atomText_finite v h.1 h.2

theorem forall₂_str [CppText S] (xs : List S) (h : ∀ x ∈ xs, Finite x) :
    List.Forall₂ AtomText (xs.map ScalarText.str) (xs.map plainAtom) := by
  induction xs with
  | nil => exact .nil
  | cons x xs ih => exact .cons (atomText_str x (h x (by simp))) (ih fun y hy => h y (by simp [hy]))

/-! ### arguments -/

/-- a text is the text of arguments -/
def ArgsText (s : Str) (a : Args) : Prop := ∃ ts, Tokens s ts ∧ args ts = some a ∧ semicolon ∉ ts

theorem atoms_head {t : Token} {ts : List Token} {as : List Atom} (h : atoms (t :: ts) = some as) (ht : t ≠ comma) :
    ∃ p ps a, pieces comma ts = p :: ps ∧ atom (t :: p) = some a := by
  unfold atoms at h
  rw [if_neg (by simp), show Token.sign [','] = comma from rfl, pieces, if_neg ht] at h
  cases hp : pieces comma ts with
  | nil =>
    exfalso
    have : ∀ l : List Token, pieces comma l ≠ [] := by
      intro l
      cases l with
      | nil => simp [pieces]
      | cons a l => rw [pieces]; split_ifs <;> [simp; (split <;> simp)]
    exact this _ hp
  | cons p ps =>
    rw [hp] at h
    simp only [List.mapM_cons] at h
    cases ha : atom (t :: p) with
    | none => rw [ha] at h; cases h
    | some a => exact ⟨p, ps, a, rfl, ha⟩

theorem args_atoms {ts : List Token} {as : List Atom} (h : atoms ts = some as) : args ts = some (.atoms as) := by
  unfold args
  split
  · rename_i a c rest
    obtain ⟨p, ps, b, h1, h2⟩ := atoms_head h (by simp [comma])
    rw [pieces, if_neg (by simp [comma])] at h1
    split at h1
    · obtain ⟨rfl, -⟩ := List.cons.inj h1
      simp [atom] at h2
    · obtain ⟨rfl, -⟩ := List.cons.inj h1
      simp [atom] at h2
  · rename_i c f rest
    exfalso
    obtain ⟨p, ps, b, h1, h2⟩ := atoms_head h (by simp [comma])
    obtain ⟨q, hq⟩ : ∃ q, p = .sign ['.'] :: .ident f :: .sign ['('] :: q := by
      rw [pieces, if_neg (by simp [comma]), pieces, if_neg (by simp [comma]), pieces, if_neg (by simp [comma])] at h1
      cases hr : pieces comma rest with
      | nil => rw [hr] at h1; simp at h1; exact ⟨_, h1.1.symm⟩
      | cons => rw [hr] at h1; simp at h1; exact ⟨_, h1.1.symm⟩
    rw [hq] at h2
    simp [atom] at h2
  · rw [h]; rfl

theorem argsText_atoms {s : Str} {as : List Atom} (h : AtomsText s as) : ArgsText s (.atoms as) := by
  obtain ⟨ts, h1, h2, h3⟩ := h
  exact ⟨ts, h1, args_atoms h2, h3⟩

theorem argsText_atom {s : Str} {a : Atom} (h : AtomText s a) : ArgsText s (.atoms [a]) :=
  argsText_atoms (by simpa [Op.join] using atoms_join [s] [a] (.cons h .nil) (by simp))

theorem argsText_new (c s : Str) (as : List Atom) (hc : IsIdent c) (h : AtomsText s as) :
    ArgsText (cs! "new " ++ c ++ cs! "(" ++ s ++ cs! ")") (.new true c as) := by
  obtain ⟨ts, h1, h2, h3⟩ := h
  have k1 : Whole (cs! "new ") [.ident (cs! "new")] := rfl
  have k2 : Whole (cs! ")") [.sign (cs! ")")] := rfl
  have k3 : Whole (cs! "(") [.sign (cs! "(")] := rfl
  have := k1.append ((tokens_ident hc).whole (c := '(') rfl (k3.append (h1.whole (c := ')') rfl k2)))
  refine ⟨.ident (cs! "new") :: .ident c :: (.sign (cs! "(") :: ts ++ [.sign (cs! ")")]), ?_, ?_, ?_⟩
  · simpa [List.append_assoc] using this.tokens
  · show ((parenthesised (.sign (cs! "(") :: ts ++ [.sign (cs! ")")])).bind fun ts => (atoms ts).bind fun as => some (Args.new true c as)) = _
    rw [parenthesised_tokens, Option.bind_some, h2]
    rfl
  · simp [semicolon, h3] at h3 ⊢
    exact h3

theorem argsText_call (c f s : Str) (as : List Atom) (h : AtomsText s as)
    (hw : Whole (c ++ cs! "." ++ f ++ cs! "(") [.ident c, .sign (cs! "."), .ident f, .sign (cs! "(")]) :
    ArgsText (c ++ cs! "." ++ f ++ cs! "(" ++ s ++ cs! ")") (call c f as) := by
  obtain ⟨ts, h1, h2, h3⟩ := h
  have k2 : Whole (cs! ")") [.sign (cs! ")")] := rfl
  have := hw.append (h1.whole (c := ')') rfl k2)
  refine ⟨.ident c :: .sign (cs! ".") :: .ident f :: .sign (cs! "(") :: (ts ++ [.sign (cs! ")")]), ?_, ?_, ?_⟩
  · simpa [List.append_assoc] using this.tokens
  · show ((parenthesised (.sign (cs! "(") :: ts ++ [.sign (cs! ")")])).bind fun ts => (atoms ts).bind fun as => some (call c f as)) = _
    rw [parenthesised_tokens, Option.bind_some, h2]
    rfl
  · simp [semicolon, h3] at h3 ⊢
    exact h3

/-! ### components of engines -/

/-- the exporter to C++ whose statements are those of the exporter to Java: all names are qualified -/
def cpp (x : JavaExporter) : CppExporter := ⟨true, x.usingVariableNames, x.library⟩

@[simp] theorem cpp_usingNamespace (x : JavaExporter) : (cpp x).usingNamespace = true := rfl

theorem argsText_term [CppText S] (x : JavaExporter) (t : Term S) (h : TermText t) (hv : ∀ v ∈ termValues t, Finite v) :
    ArgsText (JavaExporter.term t) (termArgs (cpp x) t) := by
  have hq := atomText_text h.name
  have word : ∀ v : S, Op.NoBlank (ScalarText.str v) := fun v => (Fll.str_word v).2.1
  have he : AtomText (cs! "engine") (.name false false (cs! "engine")) := atomText_name (by decide) (by decide)
  unfold JavaExporter.term termArgs
  unfold termValues at hv
  cases hk : t.kind with
  | discrete xy =>
    rw [hk] at hv
    simp only [Term.className, hk]
    have hne : (Discrete.toVector xy).map ScalarText.str ≠ [] := by
      have : xy ≠ [] := by rintro rfl; exact h.discrete hk
      cases xy with
      | nil => exact absurd rfl this
      | cons p xy => simp [Discrete.toVector]
    have := argsText_call (cs! "Discrete") (cs! "create") _ _ (atoms_join _ _ (.cons hq (forall₂_str (Discrete.toVector xy) hv)) (by simp)) rfl
    rw [join_cons _ _ hne] at this
    have hl : (Discrete.toVector xy).length = xy.length * 2 := by
      clear * -
      induction xy with
      | nil => rfl
      | cons p xy ih => simp [Discrete.toVector] at ih ⊢; omega
    have e : call (cs! "Discrete") (cs! "create") (.text t.name :: (Discrete.toVector xy).map plainAtom) =
        .call true (cs! "Discrete") (cs! "create") (.text t.name :: intAtom (xy.length * 2 : Nat) :: (Discrete.toVector xy).map plainAtom) := by
      unfold call
      rw [if_pos ⟨rfl, rfl⟩]
      simp only [List.length_map, hl]
      rfl
    rw [e] at this
    simpa [List.append_assoc] using this
  | function f =>
    simp only [Term.className, hk]
    have := argsText_call (cs! "Function") (cs! "create") _ _
      (atoms_join _ _ (.cons hq (.cons (atomText_text (h.formula f hk)) (.cons he .nil))) (by simp)) rfl
    simpa [List.append_assoc, Op.join, call] using this
  | linear c b =>
    rw [hk] at hv
    simp only [Term.className, hk]
    have hne : c.map ScalarText.str ≠ [] := by
      cases c with
      | nil => exact absurd hk (h.linear b)
      | cons => simp
    have := argsText_call (cs! "Linear") (cs! "create") _ _ (atoms_join _ _ (.cons hq (.cons he (forall₂_str c hv))) (by simp)) rfl
    rw [join_cons _ _ (by simp), join_cons _ _ hne] at this
    simpa [List.append_assoc, call] using this
  | constant v =>
    rw [hk] at hv
    have hp : CppExporter.commas t.parameters = Op.join [ScalarText.str v] (cs! ", ") := by
      have := Op.commas_join [ScalarText.str v] (by simpa using word v)
      rw [← this]
      simp [CppExporter.commas, Term.parameters, hk, Op.join]
    simp only [Term.className, hk, hp]
    have := argsText_new (cs! "Constant") _ _ (by decide) (atoms_join _ _ (.cons hq (.cons (atomText_str v (hv v (by simp))) .nil)) (by simp))
    simpa [List.append_assoc, Op.join] using this
  | shape sh =>
    rw [hk] at hv
    have hne : (shapeValues t.height sh).map ScalarText.str ≠ [] := by simpa using shapeValues_ne t.height sh
    have hp : CppExporter.commas t.parameters = Op.join ((shapeValues t.height sh).map ScalarText.str) (cs! ", ") := by
      rw [← Op.commas_join _ (by intro w hw; obtain ⟨v, -, rfl⟩ := List.mem_map.1 hw; exact word v), shape_parameters t sh hk]
      rfl
    simp only [Term.className, hk, hp]
    have := argsText_new sh.className _ _ (shape_ident sh) (atoms_join _ _ (.cons hq (forall₂_str (shapeValues t.height sh) hv)) (by simp))
    rw [join_cons _ _ hne] at this
    simpa [List.append_assoc] using this

theorem argsText_null : ArgsText (cs! "null") nullArgs := argsText_atom atomText_null

theorem argsText_new0 (c : Str) (hc : IsIdent c) : ArgsText (cs! "new " ++ c ++ cs! "()") (.new true c []) := by
  have := argsText_new c [] [] hc atomsText_nil
  simpa [List.append_assoc] using this

theorem argsText_tnorm (x : JavaExporter) (k : Option (TNorm S)) : ArgsText (JavaExporter.tnorm k) (tnormArgs (cpp x) k) := by
  cases k with
  | none => exact argsText_null
  | some k =>
    refine argsText_new0 _ ?_
    cases k with
    | builtin k => simp only [TNorm.className]; cases k <;> decide
    | function f => simp only [TNorm.className]; decide

theorem argsText_snorm (x : JavaExporter) (k : Option (SNorm S)) : ArgsText (JavaExporter.snorm k) (snormArgs (cpp x) k) := by
  cases k with
  | none => exact argsText_null
  | some k =>
    refine argsText_new0 _ ?_
    cases k with
    | builtin k => simp only [SNorm.className]; cases k <;> decide
    | function f => simp only [SNorm.className]; decide

/-- the arguments for a defuzzifier: those of C++, but with the class of weighted defuzzifiers qualified -/
def defuzzifierArgs : Option Defuzzifier → Args
  | none => nullArgs
  | some (.integral k r) => .new true k.className [intAtom r]
  | some (.weighted k t) => .new true k.className [.text t.typeName]

theorem argsText_defuzzifier (d : Option Defuzzifier) : ArgsText (JavaExporter.defuzzifier d) (defuzzifierArgs d) := by
  have one : ∀ {s : Str} {a : Atom}, AtomText s a → AtomsText s [a] := fun h => by
    simpa [Op.join] using atoms_join _ _ (.cons h .nil) (by simp)
  rcases d with _ | ⟨k, r⟩ | ⟨k, t⟩
  · exact argsText_null
  · exact argsText_new _ _ _ (by cases k <;> decide) (one (atomText_int r))
  · exact argsText_new _ _ _ (by cases k <;> decide) (one (atomText_text (by cases t <;> decide)))

theorem argsText_activation [CppText S] (x : JavaExporter) (a : Option (Activation S)) (h : IntActivation a)
    (hv : ∀ n c v, a = some (.first n v) ∨ a = some (.last n v) ∨ a = some (.threshold c v) → Finite v) :
    ArgsText (JavaExporter.activation a) (activationArgs (cpp x) a) := by
  cases a with
  | none => exact argsText_null
  | some a =>
    have key : ∀ (ws : List Str) (as : List Atom), ws ≠ [] → a.parameters = Op.join ws (cs! " ") →
        (∀ w ∈ ws, w ≠ [] ∧ Op.NoBlank w) → as = activationAtoms a →
        List.Forall₂ AtomText (ws.map fun v => if (ScalarText.ofText v : Option S).isSome then v else CppExporter.quoted v) as →
        ArgsText (JavaExporter.activation (some a)) (activationArgs (cpp x) (some a)) := by
      intro ws as h0 hp hw ha hf
      subst ha
      have ht : Op.trim a.parameters = Op.join ws (cs! " ") := by rw [hp]; exact Op.trim_words ws hw
      have hne : Op.join ws (cs! " ") ≠ [] := Op.join_ne_nil _ _ h0 fun w hm => (hw w hm).1
      unfold JavaExporter.activation
      simp only [ht]
      rw [if_neg (by simpa using hne), Op.split_words _ h0 hw]
      exact argsText_new _ _ _ (activation_ident a) (atoms_join _ _ hf (by simpa using h0))
    have num : ∀ v : S, (if (ScalarText.ofText (ScalarText.str v) : Option S).isSome then ScalarText.str v
        else CppExporter.quoted (ScalarText.str v)) = ScalarText.str v := fun v => by rw [ofText_str]; rfl
    have int : ∀ n, Fll.IsInt n → (if (ScalarText.ofText (intText n) : Option S).isSome then intText n
        else CppExporter.quoted (intText n)) = intText n := fun n hn => by
      obtain ⟨y, hy⟩ := CppText.int (S := S) n hn.1 hn.2
      rw [hy]; rfl
    have wi : ∀ n, intText n ≠ [] ∧ Op.NoBlank (intText n) := fun n => ⟨(Fll.intText_word n).1, (Fll.intText_word n).2.1⟩
    have ws : ∀ v : S, ScalarText.str v ≠ [] ∧ Op.NoBlank (ScalarText.str v) := fun v => ⟨(Fll.str_word v).1, (Fll.str_word v).2.1⟩
    cases a with
    | general => exact argsText_new0 _ (activation_ident _)
    | proportional => exact argsText_new0 _ (activation_ident _)
    | first n t =>
      refine key [intText n, ScalarText.str t] _ (by simp) (by simp [Activation.parameters, Op.join]) (by simp [wi, ws]) rfl ?_
      simp only [List.map_cons, List.map_nil, num, int n (h n t (by simp))]
      exact .cons (atomText_int n) (.cons (atomText_str t (hv n .lessThan t (by simp))) .nil)
    | last n t =>
      refine key [intText n, ScalarText.str t] _ (by simp) (by simp [Activation.parameters, Op.join]) (by simp [wi, ws]) rfl ?_
      simp only [List.map_cons, List.map_nil, num, int n (h n t (by simp))]
      exact .cons (atomText_int n) (.cons (atomText_str t (hv n .lessThan t (by simp))) .nil)
    | highest n =>
      refine key [intText n] _ (by simp) (by simp [Activation.parameters, Op.join]) (by simp [wi]) rfl ?_
      simp only [List.map_cons, List.map_nil, int n (h n (lit 0) (by simp))]
      exact .cons (atomText_int n) .nil
    | lowest n =>
      refine key [intText n] _ (by simp) (by simp [Activation.parameters, Op.join]) (by simp [wi]) rfl ?_
      simp only [List.map_cons, List.map_nil, int n (h n (lit 0) (by simp))]
      exact .cons (atomText_int n) .nil
    | threshold c v =>
      have ho := Fll.operator_word c
      refine key [c.operator, ScalarText.str v] _ (by simp) (by simp [Activation.parameters, Op.join]) (by simp [ho, ws]) rfl ?_
      simp only [List.map_cons, List.map_nil, num, operator_quoted (S := S) c, Option.isSome_none, Bool.false_eq_true, if_false]
      exact .cons (atomText_text (by cases c <;> decide)) (.cons (atomText_str v (hv 0 c v (by simp))) .nil)

/-! ### statements -/

/-- a text that consists of the statements -/
def Lines (s : Str) (sts : List Stmt) : Prop := ∃ tss : List (List Token), Whole s (tss.flatMap fun ts => ts ++ [semicolon]) ∧
  List.Forall₂ (fun ts st => stmt ts = some st ∧ semicolon ∉ ts) tss sts

theorem Lines.append {s s' : Str} {a b : List Stmt} (h : Lines s a) (h' : Lines s' b) : Lines (s ++ s') (a ++ b) := by
  obtain ⟨t, h1, h2⟩ := h
  obtain ⟨t', h1', h2'⟩ := h'
  refine ⟨t ++ t', ?_, List.rel_append h2 h2'⟩
  rw [List.flatMap_append]
  exact h1.append h1'

theorem lines_nil : Lines [] [] := ⟨[], rfl, .nil⟩

theorem lines_newline : Lines (cs! "\n") [] := ⟨[], rfl, .nil⟩

theorem lines_map {α : Type} (f : α → Str) (g : α → Stmt) (as : List α) (h : ∀ a ∈ as, Lines (f a) [g a]) :
    Lines (as.flatMap f) (as.map g) := by
  induction as with
  | nil => exact lines_nil
  | cons a as ih =>
    rw [List.flatMap_cons, List.map_cons]
    exact (h a (by simp)).append (ih fun b hb => h b (by simp [hb]))

theorem lines_components {α : Type} (f : Nat → α → Str) (g : Nat → α → List Stmt) (as : List α) (i : Nat)
    (h : ∀ (j : Nat) (a : α), as[j]? = some a → Lines (f (i + j) a) (g (i + j) a)) :
    Lines (CppExporter.components f i as) (indexed g i as) := by
  induction as generalizing i with
  | nil => exact lines_nil
  | cons a as ih =>
    have h0 := h 0 a rfl
    have h1 := ih (i + 1) fun j b hb => by
      have := h (j + 1) b (by simpa using hb)
      rwa [show i + (j + 1) = i + 1 + j by omega] at this
    have := (h0.append lines_newline).append h1
    simpa [CppExporter.components, indexed] using this

theorem parse_lines {s : Str} {sts : List Stmt} (h : Lines s sts) : parse s = some sts := by
  obtain ⟨tss, h1, h2⟩ := h
  unfold parse lex
  rw [show run .blank s = _ from h1]
  show (program ((tss.flatMap fun ts => ts ++ [semicolon]) ++ [])) = _
  rw [List.append_nil]
  have hp : pieces semicolon (tss.flatMap fun ts => ts ++ [semicolon]) = tss ++ [[]] := by
    clear h1
    induction h2 with
    | nil => rfl
    | cons k _ ih =>
      rw [List.flatMap_cons, List.append_assoc, List.singleton_append, pieces_append _ _ _ k.2, ih]
      rfl
  unfold program
  rw [show (Token.sign [';']) = semicolon from rfl, hp]
  simp only [List.getLast?_append, List.getLast?_singleton, Option.some_or, if_true, List.dropLast_concat]
  clear hp h1
  induction h2 with
  | nil => rfl
  | cons k _ ih => rw [List.mapM_cons, k.1, ih]; rfl

theorem line_call {x m s : Str} {a : Args} (hx : IsIdent x) (hm : IsIdent m) (ha : ArgsText s a) :
    Lines (JavaExporter.call x m s) [.call x m a] := by
  obtain ⟨ts, h1, h2, h3⟩ := ha
  refine ⟨[.ident x :: .sign (cs! ".") :: .ident m :: (.sign (cs! "(") :: ts ++ [.sign (cs! ")")])], ?_, .cons ⟨?_, ?_⟩ .nil⟩
  · unfold JavaExporter.call
    have k1 : Whole (cs! ");\n") [.sign (cs! ")"), semicolon] := rfl
    have k3 : Whole (cs! "(") [.sign (cs! "(")] := rfl
    have k4 := (tokens_ident hm).whole (c := '(') rfl (k3.append (h1.whole (c := ')') rfl k1))
    have k5 : Whole (cs! ".") [.sign (cs! ".")] := rfl
    have := whole_identDot hx (k5.append k4)
    simpa [List.append_assoc] using this
  · show ((parenthesised (.sign (cs! "(") :: ts ++ [.sign (cs! ")")])).bind fun ts => (args ts).bind fun as => some (Stmt.call x m as)) = _
    rw [parenthesised_tokens, Option.bind_some, h2]
    rfl
  · simp [semicolon] at h3 ⊢
    exact h3

theorem lines_declaration (c n : Str) (hc : IsIdent c) (hn : IsIdent n) :
    Lines (JavaExporter.declaration c n) [.declare true c n true c] := by
  refine ⟨[[.ident c, .ident n, .sign (cs! "="), .ident (cs! "new"), .ident c, .sign (cs! "("), .sign (cs! ")")]], ?_, .cons ⟨rfl, ?_⟩ .nil⟩
  · have h1 : Whole (cs! "();\n") [.sign (cs! "("), .sign (cs! ")"), semicolon] := rfl
    have h2 : Whole (cs! " = new ") [.sign (cs! "="), .ident (cs! "new")] := rfl
    have h3 : Whole (cs! " ") [] := rfl
    have := (tokens_ident hc).whole (c := ' ') rfl (h3.append ((tokens_ident hn).whole (c := ' ') rfl
      (h2.append ((tokens_ident hc).whole (c := '(') rfl h1))))
    unfold JavaExporter.declaration
    simpa [List.append_assoc] using this
  · simp [semicolon]

theorem argsText_text {s : Str} (h : Plain s) : ArgsText (CppExporter.quoted s) (.atoms [.text s]) := argsText_atom (atomText_text h)

theorem argsText_bool (b : Bool) : ArgsText (FllExporter.bool b) (boolArgs b) := by
  cases b <;> exact argsText_atom (atomText_name (by decide) (by decide))

theorem argsText_name {n : Str} (h : IsIdent n) (hk : n ≠ cs! "null") : ArgsText n (.atoms [.name false false n]) :=
  argsText_atom (atomText_name h hk)

theorem argsText_range [CppText S] (a b : S) :
    ArgsText (JavaExporter.scalar a ++ cs! ", " ++ JavaExporter.scalar b) (.atoms [scalarAtom a, scalarAtom b]) := by
  have := argsText_atoms (atoms_join _ _ (.cons (atomText_scalar a) (.cons (atomText_scalar b) .nil)) (by simp))
  simpa [Op.join] using this

theorem lines_terms [CppText S] (x : JavaExporter) (n : Str) (hn : IsIdent n) (ts : List (Term S)) (h : ∀ t ∈ ts, TermText t)
    (hv : ∀ t ∈ ts, ∀ v ∈ termValues t, Finite v) :
    Lines (ts.flatMap fun t => JavaExporter.call n (cs! "addTerm") (JavaExporter.term t)) (ts.map fun t => .call n (cs! "addTerm") (termArgs (cpp x) t)) :=
  lines_map _ _ ts fun t ht => line_call hn (by decide) (argsText_term x t (h t ht) (hv t ht))

theorem lines_input [CppText S] (x : JavaExporter) (n : Str) (v : Variable S) (hn : IsIdent n) (hk : n ≠ cs! "null") (h1 : Plain v.name)
    (h2 : Plain v.description) (h3 : ∀ t ∈ v.terms, TermText t) (h4 : ∀ t ∈ v.terms, ∀ y ∈ termValues t, Finite y) :
    Lines (JavaExporter.inputVariable n v) (inputStmts (cpp x) n v) := by
  have := (((((((lines_declaration (cs! "InputVariable") n (by decide) hn).append
    (line_call hn (m := cs! "setName") (by decide) (argsText_text h1))).append
    (line_call hn (m := cs! "setDescription") (by decide) (argsText_text h2))).append
    (line_call hn (m := cs! "setEnabled") (by decide) (argsText_bool v.enabled))).append
    (line_call hn (m := cs! "setRange") (by decide) (argsText_range v.minimum v.maximum))).append
    (line_call hn (m := cs! "setLockValueInRange") (by decide) (argsText_bool v.lockRange))).append
    (lines_terms x n hn v.terms h3 h4)).append
    (line_call (x := cs! "engine") (m := cs! "addInputVariable") (by decide) (by decide) (argsText_name hn hk))
  exact this

theorem lines_output [CppText S] (x : JavaExporter) (n : Str) (v : OutputVariable S) (hn : IsIdent n) (hk : n ≠ cs! "null") (h1 : Plain v.name)
    (h2 : Plain v.description) (h3 : ∀ t ∈ v.terms, TermText t) (h4 : ∀ t ∈ v.terms, ∀ y ∈ termValues t, Finite y) :
    Lines (JavaExporter.outputVariable n v) (outputStmtsOf (cpp x) (defuzzifierArgs v.defuzzifier) n v) := by
  have := (((((((((((lines_declaration (cs! "OutputVariable") n (by decide) hn).append
    (line_call hn (m := cs! "setName") (by decide) (argsText_text h1))).append
    (line_call hn (m := cs! "setDescription") (by decide) (argsText_text h2))).append
    (line_call hn (m := cs! "setEnabled") (by decide) (argsText_bool v.enabled))).append
    (line_call hn (m := cs! "setRange") (by decide) (argsText_range v.minimum v.maximum))).append
    (line_call hn (m := cs! "setLockValueInRange") (by decide) (argsText_bool v.lockRange))).append
    (line_call hn (m := cs! "setAggregation") (by decide) (argsText_snorm x v.fuzzy.aggregation))).append
    (line_call hn (m := cs! "setDefuzzifier") (by decide) (argsText_defuzzifier v.defuzzifier))).append
    (line_call hn (m := cs! "setDefaultValue") (by decide) (argsText_atom (atomText_scalar v.default)))).append
    (line_call hn (m := cs! "setLockPreviousValue") (by decide) (argsText_bool v.lockPrevious))).append
    (lines_terms x n hn v.terms h3 h4)).append
    (line_call (x := cs! "engine") (m := cs! "addOutputVariable") (by decide) (by decide) (argsText_name hn hk))
  exact this

theorem argsText_rule (x : JavaExporter) (r : Rule S) (h : Plain r.text) :
    ArgsText (cs! "Rule.parse(" ++ CppExporter.quoted r.text ++ cs! ", engine)") (ruleArgs (cpp x) r) := by
  have he : AtomText (cs! "engine") (.name false false (cs! "engine")) := atomText_name (by decide) (by decide)
  have := argsText_call (cs! "Rule") (cs! "parse") _ _ (atoms_join _ _ (.cons (atomText_text h) (.cons he .nil)) (by simp)) rfl
  simpa [List.append_assoc, Op.join, ruleArgs, call] using this

theorem lines_block [CppText S] (x : JavaExporter) (n : Str) (b : RuleBlock S) (hn : IsIdent n) (hk : n ≠ cs! "null") (h1 : Plain b.name)
    (h2 : Plain b.description) (h3 : ∀ r ∈ b.rules, Plain r.text) (h4 : IntActivation b.activation)
    (h5 : ∀ n c v, b.activation = some (.first n v) ∨ b.activation = some (.last n v) ∨ b.activation = some (.threshold c v) → Finite v) :
    Lines (JavaExporter.ruleBlock n b) (blockStmts (cpp x) n b) := by
  have hr : Lines (b.rules.flatMap fun r => JavaExporter.call n (cs! "addRule") (cs! "Rule.parse(" ++ CppExporter.quoted r.text ++ cs! ", engine)"))
      (b.rules.map fun r => .call n (cs! "addRule") (ruleArgs (cpp x) r)) :=
    lines_map _ _ b.rules fun r hr => line_call hn (by decide) (argsText_rule x r (h3 r hr))
  have := (((((((((lines_declaration (cs! "RuleBlock") n (by decide) hn).append
    (line_call hn (m := cs! "setName") (by decide) (argsText_text h1))).append
    (line_call hn (m := cs! "setDescription") (by decide) (argsText_text h2))).append
    (line_call hn (m := cs! "setEnabled") (by decide) (argsText_bool b.enabled))).append
    (line_call hn (m := cs! "setConjunction") (by decide) (argsText_tnorm x b.conjunction))).append
    (line_call hn (m := cs! "setDisjunction") (by decide) (argsText_snorm x b.disjunction))).append
    (line_call hn (m := cs! "setImplication") (by decide) (argsText_tnorm x b.implication))).append
    (line_call hn (m := cs! "setActivation") (by decide) (argsText_activation x b.activation h4 h5))).append hr).append
    (line_call (x := cs! "engine") (m := cs! "addRuleBlock") (by decide) (by decide) (argsText_name hn hk))
  exact this

theorem lines_engine (x : JavaExporter) (e : Engine S) (hl : '\n' ∉ x.library) (h1 : Plain e.name) (h2 : Plain e.description) :
    Lines (cs! "//Code automatically generated with " ++ x.library ++ cs! ".\n\n"
      ++ cs! "Engine engine = new Engine();\n"
      ++ JavaExporter.call (cs! "engine") (cs! "setName") (CppExporter.quoted e.name)
      ++ JavaExporter.call (cs! "engine") (cs! "setDescription") (CppExporter.quoted e.description) ++ cs! "\n") (engineStmts (cpp x) e) := by
  have hc : Lines (cs! "//Code automatically generated with " ++ x.library ++ cs! ".\n\n") [] := by
    refine ⟨[], ?_, .nil⟩
    have e1 : cs! "//Code automatically generated with " ++ x.library ++ cs! ".\n\n" =
        cs! "//" ++ ((cs! "Code automatically generated with " ++ x.library ++ cs! ".") ++ cs! "\n" ++ cs! "\n") := by
      simp [List.append_assoc]
    unfold Whole
    rw [e1, run_append]
    show ((some ([], Mode.comment) : Option (List Token × Mode)).bind fun p => _) = _
    rw [Option.bind_some]
    simp only
    rw [run_comment]
    · rfl
    · simp only [List.mem_append, not_or]
      exact ⟨⟨by decide, hl⟩, by decide⟩
  have hd : Lines (cs! "Engine engine = new Engine();\n") [.declare true (cs! "Engine") (cs! "engine") true (cs! "Engine")] :=
    lines_declaration (cs! "Engine") (cs! "engine") (by decide) (by decide)
  have := (((hc.append hd).append
    ((line_call (x := cs! "engine") (by decide) (m := cs! "setName") (by decide) (argsText_text h1)).append
    (line_call (x := cs! "engine") (by decide) (m := cs! "setDescription") (by decide) (argsText_text h2)))).append lines_newline)
  simpa [engineStmts, cpp, List.append_assoc] using this

end Java
end FL
