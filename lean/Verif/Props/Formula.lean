/-
C23, C24, C25: formulas parse by precedence and associativity, evaluate compositionally, and
what their renderings preserve.
-/
import Verif.Lemmas.Build
import Verif.Model.Decimal

namespace FL
open Scalar
namespace Formula
variable {S : Type} [ScalarText S]

/-! ## C23: parsing -/

/-- C23.  A text whose tokens write an expression, with parentheses wherever precedence and
associativity require them and possibly more, loads as exactly the tree that the expression
denotes. -/
theorem parse_renders (F : ElementFactory S) (hF : Coherent F) (p : Int) (text : Str) (e : SExpr) (n : Node S)
    (hr : Renders F p (tokens text) e) (hd : Denotes F e n) : parse F text = .ok n :=
  (parse_ok_iff F hF text n).mpr ⟨e.postorder, shunt_correct hF hr, hd.spelled⟩

/-- parenthesise unless `b` -/
def wrapUnless (b : Bool) (ts : List Str) : List Str :=
  if b then ts else cs! "(" :: ts ++ [cs! ")"]

/-- The tokens of an expression with parentheses only where they are needed: around an operation
whose precedence is below `p`.  The operand on the side to which an operator associates is written
at the precedence of the operator, the other one strictly above it. -/
def minimal (F : ElementFactory S) : Int → SExpr → List Str
  | _, .leaf ts => ts
  | p, .un op a =>
    match F op with
    | some el => wrapUnless (decide (p ≤ el.precedence)) (op :: minimal F el.precedence a)
    | none => []
  | p, .bin op l r =>
    match F op with
    | some el =>
      let left := if el.associativity < 0 then el.precedence else el.precedence + 1
      let right := if el.associativity < 0 then el.precedence + 1 else el.precedence
      wrapUnless (decide (p ≤ el.precedence)) (minimal F left l ++ op :: minimal F right r)
    | none => []
  | _, .call1 f a => f :: cs! "(" :: minimal F 0 a ++ [cs! ")"]
  | _, .call2 f a b => f :: cs! "(" :: minimal F 0 a ++ cs! "," :: minimal F 0 b ++ [cs! ")"]

theorem renders_wrap {S : Type} (F : ElementFactory S) (p q : Int) (ts : List Str) (e : SExpr)
    (h : ∀ p', p' ≤ q → Renders F p' ts e) : Renders F p (wrapUnless (decide (p ≤ q)) ts) e := by
  unfold wrapUnless
  split_ifs with hp
  · exact h p (by simpa using hp)
  · exact .paren p q ts e (h q le_rfl)

/-- Every expression that denotes a tree has a rendering at every precedence. -/
theorem minimal_renders (F : ElementFactory S) (hF : Coherent F) (e : SExpr) (n : Node S) (hd : Denotes F e n) :
    ∀ p, Renders F p (minimal F p e) e := by
  induction hd with
  | const t c h hn => intro p; exact .leaf p [t] (by simp) (by simpa using h)
  | var t h hn => intro p; exact .leaf p [t] (by simp) (by simpa using h)
  | un op el f a n ho hop hf _ ih =>
    intro p
    simp only [minimal, ho]
    exact renders_wrap F p _ _ _ fun p' hp' =>
      .un p' op el _ a ho hop hp' (hF.prefixRight op el ho hop (by simp [Element.arity, hf])) (ih _)
  | bin op el f a b n m ho hop hf _ _ ih1 ih2 =>
    intro p
    simp only [minimal, ho]
    by_cases hl : el.associativity < 0
    · simp only [hl, if_true]
      exact renders_wrap F p _ _ _ fun p' hp' => .binLeft p' op el _ _ a b ho hop hp' hl (ih1 _) (ih2 _)
    · simp only [hl, if_false]
      exact renders_wrap F p _ _ _ fun p' hp' => .binRight p' op el _ _ a b ho hop hp' hl (ih1 _) (ih2 _)
  | call1 op el f a n ho hop hf _ ih => intro p; exact .call1 p 0 op el _ a ho hop (ih 0)
  | call2 op el f a b n m ho hop hf _ _ ih1 ih2 => intro p; exact .call2 p 0 0 op el _ _ a b ho hop (ih1 0) (ih2 0)

/-- the tokens of the leaves of an expression can be written in a text -/
def Writable : SExpr → Prop
  | .leaf ts => ∀ t ∈ ts, Lexeme t
  | .un _ a => Writable a
  | .bin _ l r => Writable l ∧ Writable r
  | .call1 _ a => Writable a
  | .call2 _ a b => Writable a ∧ Writable b

theorem lexeme_symbols : Lexeme (cs! "(") ∧ Lexeme (cs! ")") ∧ Lexeme (cs! ",") := by
  unfold Lexeme Op.NoBlank; decide

theorem minimal_lexemes {F : ElementFactory S} (hL : ∀ t e, F t = some e → Lexeme t) (e : SExpr) (n : Node S)
    (hd : Denotes F e n) : ∀ p, Writable e → ∀ t ∈ minimal F p e, Lexeme t := by
  obtain ⟨hl, hr, hc⟩ := lexeme_symbols
  have wrap : ∀ b ts, (∀ t ∈ ts, Lexeme t) → ∀ t ∈ wrapUnless b ts, Lexeme t := by
    intro b ts h t ht
    unfold wrapUnless at ht
    split_ifs at ht
    · exact h t ht
    · simp only [List.cons_append, List.mem_cons, List.mem_append, List.not_mem_nil, or_false] at ht
      rcases ht with rfl | ht | rfl
      · exact hl
      · exact h t ht
      · exact hr
  induction hd with
  | const t c h hn => intro p hw; exact hw
  | var t h hn => intro p hw; exact hw
  | un op el f a n ho hop hf _ ih =>
    intro p hw
    simp only [minimal, ho]
    refine wrap _ _ ?_
    intro t ht
    rcases List.mem_cons.mp ht with rfl | ht
    · exact hL _ _ ho
    · exact ih _ hw t ht
  | bin op el f a b n m ho hop hf _ _ ih1 ih2 =>
    intro p hw
    simp only [minimal, ho]
    refine wrap _ _ ?_
    intro t ht
    simp only [List.mem_append, List.mem_cons] at ht
    rcases ht with ht | rfl | ht
    · exact ih1 _ hw.1 t ht
    · exact hL _ _ ho
    · exact ih2 _ hw.2 t ht
  | call1 op el f a n ho hop hf _ ih =>
    intro p hw t ht
    simp only [minimal, List.cons_append, List.mem_append, List.mem_cons, List.not_mem_nil, or_false] at ht
    rcases ht with rfl | rfl | ht | rfl
    · exact hL _ _ ho
    · exact hl
    · exact ih _ hw t ht
    · exact hr
  | call2 op el f a b n m ho hop hf _ _ ih1 ih2 =>
    intro p hw t ht
    simp only [minimal, List.cons_append, List.mem_append, List.mem_cons, List.not_mem_nil, or_false] at ht
    rcases ht with rfl | rfl | (ht | rfl | ht) | rfl
    · exact hL _ _ ho
    · exact hl
    · exact ih1 _ hw.1 t ht
    · exact hc
    · exact ih2 _ hw.2 t ht
    · exact hr

/-- C23 with the default operators and functions: writing any expression with the minimal
parentheses and blanks between tokens, and loading it, gives its tree. -/
theorem parse_minimal (e : SExpr) (n : Node S) (hd : Denotes defaultFactory e n) (hw : Writable e) :
    parse defaultFactory (Op.join (minimal (defaultFactory : ElementFactory S) 0 e) (cs! " ")) = .ok n := by
  refine parse_renders _ default_coherent 0 _ e n ?_ hd
  rw [tokens_join _ (minimal_lexemes (S := S) default_lexeme e n hd 0 hw)]
  exact minimal_renders _ default_coherent e n hd 0

/-- Parentheses around a whole formula never change it. -/
theorem parse_redundant (F : ElementFactory S) (hF : Coherent F) (p : Int) (text : Str) (e : SExpr) (n : Node S)
    (hr : Renders F p (tokens text) e) (hd : Denotes F e n) :
    parse F (cs! "( " ++ text ++ cs! " )") = parse F text := by
  rw [parse_renders F hF p text e n hr hd]
  refine parse_renders F hF p _ e n ?_ hd
  have e1 : cs! "( " ++ text ++ cs! " )" = cs! "(" ++ ' ' :: (text ++ ' ' :: cs! ")") := by simp
  rw [e1, tokens_blank, tokens_blank, tokens_lexeme _ lexeme_symbols.1, tokens_lexeme _ lexeme_symbols.2.1]
  exact .paren p p _ e hr

/-- The grammar is unambiguous: two expressions with the same rendering denote the same tree. -/
theorem renders_unambiguous (F : ElementFactory S) (hF : Coherent F) (p p' : Int) (ts : List Str) (e e' : SExpr)
    (n n' : Node S) (h : Renders F p ts e) (h' : Renders F p' ts e') (hd : Denotes F e n) (hd' : Denotes F e' n') :
    n = n' := by
  have h1 := shunt_correct hF h
  have h2 := shunt_correct hF h'
  have hp : e.postorder = e'.postorder := by
    rw [h1] at h2; injection h2
  have hc := contents_of_shunt F hF ts _ h1
  have b1 := build_spelled hd.spelled hc []
  have b2 := build_spelled (hp ▸ hd'.spelled) hc []
  rw [b1] at b2
  injection b2 with h; injection h

/-! ## C24: evaluation -/

end Formula

namespace Node
variable {S : Type}

/-- the variables that occur in a tree -/
def vars : Node S → List Str
  | const _ => []
  | var t => [t]
  | un _ _ r => r.vars
  | bin _ _ l r => l.vars ++ r.vars

/-- C24.  Evaluation depends only on the variables that occur. -/
theorem evaluate_congr (n : Node S) (env env' : Env S) (h : ∀ t ∈ n.vars, env t = env' t) :
    n.evaluate env = n.evaluate env' := by
  induction n with
  | const c => rfl
  | var t => simp only [evaluate, h t (by simp [vars])]
  | un e f r ih => simp only [evaluate, ih h]
  | bin e f l r ihl ihr =>
    simp only [evaluate, ihl (fun t ht => h t (by simp [vars, ht])), ihr (fun t ht => h t (by simp [vars, ht]))]

/-- C24.  Evaluation succeeds exactly when all variables that occur have a value. -/
theorem evaluate_ok_iff (n : Node S) (env : Env S) :
    (∃ v, n.evaluate env = .ok v) ↔ ∀ t ∈ n.vars, ∃ v, env t = some v := by
  induction n with
  | const c => simp [evaluate, vars]
  | var t =>
    simp only [evaluate, vars, List.mem_singleton, forall_eq]
    cases env t <;> simp
  | un e f r ih =>
    simp only [evaluate, vars, ← ih]
    cases r.evaluate env <;> simp [bind, Except.bind]
  | bin e f l r ihl ihr =>
    simp only [evaluate, vars, List.mem_append, or_imp, forall_and, ← ihl, ← ihr]
    cases l.evaluate env <;> cases r.evaluate env <;> simp [bind, Except.bind]

/-- C24.  The only failure of an evaluation is a missing variable. -/
theorem evaluate_error (n : Node S) (env : Env S) (err : Err) (h : n.evaluate env = .error err) :
    err = .evaluation := by
  induction n with
  | const c => simp [evaluate] at h
  | var t =>
    simp only [evaluate] at h
    cases ht : env t <;> simp [ht] at h
    exact h.symm
  | un e f r ih =>
    simp only [evaluate] at h
    cases hr : r.evaluate env with
    | error e' => rw [hr] at h; simp only [bind, Except.bind, Except.error.injEq] at h; exact ih (h ▸ hr)
    | ok v => rw [hr] at h; simp [bind, Except.bind] at h
  | bin e f l r ihl ihr =>
    simp only [evaluate] at h
    cases hl : l.evaluate env with
    | error e' => rw [hl] at h; simp only [bind, Except.bind, Except.error.injEq] at h; exact ihl (h ▸ hl)
    | ok v =>
      cases hr : r.evaluate env with
      | error e' => rw [hl, hr] at h; simp only [bind, Except.bind, Except.error.injEq] at h; exact ihr (h ▸ hr)
      | ok v => rw [hl, hr] at h; simp [bind, Except.bind] at h

end Node

namespace Formula
variable {S : Type} [ScalarText S]

/-- the value of an expression: `none` when a variable is missing -/
def SExpr.value (F : ElementFactory S) (env : Env S) : SExpr → Option S
  | .leaf [t] =>
    match ScalarText.ofText t with
    | some c => some c
    | none => env t
  | .leaf _ => none
  | .un op a | .call1 op a => do
    let e ← F op
    let x ← a.value F env
    match e.fn with
    | .unary f => some (f x)
    | .binary _ => none
  | .bin op a b | .call2 op a b => do
    let e ← F op
    let x ← a.value F env
    let y ← b.value F env
    match e.fn with
    | .unary _ => none
    | .binary f => some (f x y)

/-- C23 and C24 together: loading a rendering of an expression and evaluating it gives the value
of the expression, or fails because a variable is missing. -/
theorem evaluate_renders (F : ElementFactory S) (hF : Coherent F) (p : Int) (text : Str) (e : SExpr) (n : Node S)
    (hr : Renders F p (tokens text) e) (hd : Denotes F e n) (env : Env S) :
    parse F text = .ok n ∧
    n.evaluate env = match e.value F env with
      | some v => .ok v
      | none => .error .evaluation := by
  refine ⟨parse_renders F hF p text e n hr hd, ?_⟩
  clear hr
  induction hd with
  | const t c h hn => simp [Node.evaluate, SExpr.value, hn]
  | var t h hn =>
    simp only [Node.evaluate, SExpr.value, hn]
    cases env t <;> rfl
  | un op el f a n ho hop hf _ ih | call1 op el f a n ho hop hf _ ih =>
    simp only [Node.evaluate, SExpr.value, ho, hf, ih, bind, Option.bind, Except.bind]
    cases a.value F env <;> rfl
  | bin op el f a b n m ho hop hf _ _ ih1 ih2 | call2 op el f a b n m ho hop hf _ _ ih1 ih2 =>
    simp only [Node.evaluate, SExpr.value, ho, hf, ih1, ih2, bind, Option.bind, Except.bind]
    cases a.value F env <;> cases b.value F env <;> rfl

/-- the number of operands that a token takes: 0 for numbers and variables -/
def arityOf {S : Type} (F : ElementFactory S) (t : Str) : Nat := ((F t).map Element.arity).getD 0

/-- C24 (load time).  A formula that loads has balanced parentheses with commas only inside them,
and as many operands as its operators and functions take: the arities add up to the number of
tokens minus one, and no token is lost or invented: the postfix form of the tree has exactly the
operands, operators and functions of the formula. -/
theorem parse_sound_partial (F : ElementFactory S) (hF : Coherent F) (text : Str) (n : Node S) (h : parse F text = .ok n) :
    depth 0 (tokens text) = some 0 ∧
    (∃ q, Spelled F n q ∧ q.Perm ((tokens text).filter isContent)) ∧
    (((tokens text).filter isContent).map (arityOf F)).sum + 1 = ((tokens text).filter isContent).length := by
  obtain ⟨q, hq, hs⟩ := (parse_ok_iff F hF text n).mp h
  obtain ⟨h1, h2⟩ := shunt_sound F hF _ q hq
  refine ⟨h1, ⟨q, hs, h2⟩, ?_⟩
  rw [← h2.length_eq, ← (h2.map (arityOf F)).sum_eq]
  clear h hq h1 h2
  induction hs with
  | const t c h hn => simp [arityOf, h]
  | var t h hn => simp [arityOf, h]
  | un op e f n q ho hf _ ih => simp [arityOf, ho, Element.arity, hf] at ih ⊢; omega
  | bin op e f n m q r ho hf _ _ ih1 ih2 => simp [arityOf, ho, Element.arity, hf] at ih1 ih2 ⊢; omega

/-- load a formula and evaluate it -/
def run (F : ElementFactory S) (text : Str) (env : Env S) : Except Err S := do
  let n ← parse F text
  n.evaluate env

/-- C24 is violated: operands and operators in an order that is not infix are accepted.
`2 3 +` and `(2) (3) +` load as `2 + 3`, and `1 max 2` as `max(1, 2)`. -/
theorem malformed_accepted_violated :
    run defaultFactory (cs! "2 3 +") (fun _ => none) = .ok (.fin 5 : Ext ℚ) ∧
    run defaultFactory (cs! "(2) (3) +") (fun _ => none) = .ok (.fin 5 : Ext ℚ) ∧
    run defaultFactory (cs! "1 max 2") (fun _ => none) = .ok (.fin 2 : Ext ℚ) := by
  decide +kernel

/-- Precedence, associativity and redundant parentheses on concrete formulas. -/
example :
    run defaultFactory (cs! "2+3*4") (fun _ => none) = .ok (.fin 14 : Ext ℚ) ∧
    run defaultFactory (cs! "(2+3)*4") (fun _ => none) = .ok (.fin 20 : Ext ℚ) ∧
    run defaultFactory (cs! "10-3-2") (fun _ => none) = .ok (.fin 5 : Ext ℚ) ∧
    run defaultFactory (cs! "10-(3-2)") (fun _ => none) = .ok (.fin 9 : Ext ℚ) ∧
    run defaultFactory (cs! "((10)-((3)-2))") (fun _ => none) = .ok (.fin 9 : Ext ℚ) ∧
    run defaultFactory (cs! "max(1+1, 2*2) / 8") (fun _ => none) = .ok (.fin (1/2) : Ext ℚ) ∧
    run defaultFactory (cs! "~y + 1") (fun t => if t = cs! "y" then some (.fin 3) else none) = .ok (.fin (-2) : Ext ℚ) ∧
    run defaultFactory (cs! "y + 1") (fun _ => none) = (.error .evaluation : Except Err (Ext ℚ)) := by
  decide +kernel

/-- Rejected: unbalanced parentheses, missing and surplus operands. -/
example :
    run defaultFactory (cs! "(2+3") (fun _ => none) = (.error .syntaxError : Except Err (Ext ℚ)) ∧
    run defaultFactory (cs! "2+3)") (fun _ => none) = (.error .syntaxError : Except Err (Ext ℚ)) ∧
    run defaultFactory (cs! "2+") (fun _ => none) = (.error .syntaxError : Except Err (Ext ℚ)) ∧
    run defaultFactory (cs! "2+3 4") (fun _ => none) = (.error .syntaxError : Except Err (Ext ℚ)) ∧
    run defaultFactory (cs! "1,2") (fun _ => none) = (.error .syntaxError : Except Err (Ext ℚ)) ∧
    run defaultFactory (cs! "max(1)") (fun _ => none) = (.error .syntaxError : Except Err (Ext ℚ)) := by
  decide +kernel

/-- the hypotheses of `parse_minimal` on `( x + 1 ) * ~ ( y - ( z - 2 ) )` -/
example :
    let e : SExpr := .bin (cs! "*") (.bin (cs! "+") (.leaf [cs! "x"]) (.leaf [cs! "1"]))
      (.un (cs! "~") (.bin (cs! "-") (.leaf [cs! "y"]) (.bin (cs! "-") (.leaf [cs! "z"]) (.leaf [cs! "2"]))))
    Op.join (minimal (defaultFactory : ElementFactory (Ext ℚ)) 0 e) (cs! " ")
      = cs! "( x + 1 ) * ~ ( y - ( z - 2 ) )" := by
  decide +kernel

/-! ## C25: renderings -/

/-- Every registered element is registered under its name, which can be written in a formula. -/
def Registered {S : Type} (F : ElementFactory S) : Prop := ∀ t e, F t = some e → e.name = t ∧ Lexeme t

theorem default_registered {S : Type} [Scalar S] : Registered (defaultFactory : ElementFactory S) :=
  fun t e h => ⟨(defaultFactory_mem t e h).2, default_lexeme t e h⟩

/-- how a token is printed back: numbers in the format of `Op::str` -/
def canonical (F : ElementFactory S) (t : Str) : Str :=
  if (F t).isSome then t
  else match (ScalarText.ofText t : Option S) with
  | some c => ScalarText.str c
  | none => t

/-- C25.  The postfix rendering of a loaded formula has exactly the tokens that the parser
consumed, with numbers printed in the format of the library. -/
theorem toPostfix_faithful (F : ElementFactory S) (hF : Coherent F) (hR : Registered F)
    (hstr : ∀ c : S, ScalarText.str c ≠ [] ∧ Op.NoBlank (ScalarText.str c))
    (text : Str) (n : Node S) (h : parse F text = .ok n) :
    ∃ q, shunt F (tokens text) = .ok q ∧ Op.words n.toPostfix = q.map (canonical F) := by
  obtain ⟨q, hq, hs⟩ := (parse_ok_iff F hF text n).mp h
  refine ⟨q, hq, ?_⟩
  have hw : ∀ t ∈ q, t ≠ [] ∧ Op.NoBlank t := fun t ht => tokens_mem text t (shunt_sub F _ q hq t ht)
  clear h hq
  have blank : ∀ a b : Str, Op.words (a ++ cs! " " ++ b) = Op.words a ++ Op.words b := by
    intro a b
    have : a ++ cs! " " ++ b = a ++ ' ' :: b := by simp
    rw [this]; exact Op.words_blank a b ' ' (by decide)
  induction hs with
  | const t c hn hc =>
    simp [Node.toPostfix, canonical, hn, hc, Op.words_single _ (hstr c).1 (hstr c).2]
  | var t hn hc =>
    obtain ⟨h0, hb⟩ := hw t (by simp)
    simp [Node.toPostfix, canonical, hn, hc, Op.words_single _ h0 hb]
  | un op e f n q ho hf _ ih =>
    obtain ⟨h1, h2⟩ := hR op e ho
    rw [Node.toPostfix, blank, ih (fun t ht => hw t (by simp [ht])), h1, Op.words_single _ h2.1 h2.2.1]
    simp [canonical, ho]
  | bin op e f n m q r ho hf _ _ ih1 ih2 =>
    obtain ⟨h1, h2⟩ := hR op e ho
    rw [Node.toPostfix, blank, blank, ih1 (fun t ht => hw t (by simp [ht])), ih2 (fun t ht => hw t (by simp [ht])),
      h1, Op.words_single _ h2.1 h2.2.1]
    simp [canonical, ho]

/-- Trees whose infix rendering needs no parentheses: every operand of an operator has a
precedence that is high enough, numbers are printed exactly and without sign, and functions of
two arguments have plain arguments. -/
inductive Plain (F : ElementFactory S) : Int → Node S → Prop
  | const (p : Int) (c : S) (hl : Lexeme (ScalarText.str c)) (ho : Operand F (ScalarText.str c))
      (ht : ScalarText.ofText (ScalarText.str c) = some c) (hn : Op.isNaN c = false) : Plain F p (.const c)
  | var (p : Int) (t : Str) (hl : Lexeme t) (ho : Operand F t) (hn : (ScalarText.ofText t : Option S) = none) :
      Plain F p (.var t)
  | un (p : Int) (e : Element S) (f : S → S) (n : Node S) (ho : F e.name = some e) (hop : e.isOperator = true)
      (hf : e.fn = .unary f) (hp : p ≤ e.precedence) (h : Plain F e.precedence n) : Plain F p (.un e f n)
  | binLeft (p : Int) (e : Element S) (f : S → S → S) (l r : Node S) (ho : F e.name = some e)
      (hop : e.isOperator = true) (hf : e.fn = .binary f) (hp : p ≤ e.precedence) (hl : e.associativity < 0)
      (h1 : Plain F e.precedence l) (h2 : Plain F (e.precedence + 1) r) : Plain F p (.bin e f l r)
  | binRight (p : Int) (e : Element S) (f : S → S → S) (l r : Node S) (ho : F e.name = some e)
      (hop : e.isOperator = true) (hf : e.fn = .binary f) (hp : p ≤ e.precedence) (hr : ¬ e.associativity < 0)
      (h1 : Plain F (e.precedence + 1) l) (h2 : Plain F e.precedence r) : Plain F p (.bin e f l r)
  | fun1 (p q : Int) (e : Element S) (f : S → S) (n : Node S) (ho : F e.name = some e) (hop : e.isOperator = false)
      (hf : e.fn = .unary f) (h : Plain F q n) : Plain F p (.un e f n)
  | fun2 (p q : Int) (e : Element S) (f : S → S → S) (l r : Node S) (ho : F e.name = some e)
      (hop : e.isOperator = false) (hf : e.fn = .binary f) (h1 : Plain F q l) (h2 : Plain F q r)
      (hl : l.treeSize = 0) (hr : r.treeSize = 0) : Plain F p (.bin e f l r)

/-- C25 (infix), for trees that need no parentheses: loading the infix rendering gives the same
tree. -/
theorem toInfix_faithful_partial (F : ElementFactory S) (hF : Coherent F) (hR : Registered F) (p : Int) (n : Node S)
    (h : Plain F p n) : parse F n.toInfix = .ok n := by
  have blank : ∀ a b : Str, tokens (a ++ cs! " " ++ b) = tokens a ++ tokens b := by
    intro a b
    have : a ++ cs! " " ++ b = a ++ ' ' :: b := by simp
    rw [this]; exact tokens_blank a b
  obtain ⟨lp, rp, _⟩ := lexeme_symbols
  have leaf : ∀ (q : Int) (n : Node S), Plain F q n → n.treeSize = 0 →
      ∃ t, tokens n.toInfix = [t] ∧ Operand F t ∧ Spelled F n [t] := by
    intro q n hn h0
    cases hn with
    | const _ c hl ho ht hn =>
      refine ⟨ScalarText.str c, ?_, ho, .const _ c ho.1 ht⟩
      rw [Node.toInfix]; simp only [hn, Bool.false_eq_true, if_false]
      exact tokens_lexeme _ hl
    | var _ t hl ho hn => exact ⟨t, tokens_lexeme t hl, ho, .var t ho.1 hn⟩
    | un => simp [Node.treeSize] at h0
    | binLeft => simp [Node.treeSize] at h0
    | binRight => simp [Node.treeSize] at h0
    | fun1 => simp [Node.treeSize] at h0
    | fun2 => simp [Node.treeSize] at h0
  have main : ∃ e, Renders F p (tokens n.toInfix) e ∧ Spelled F n e.postorder := by
    induction h with
    | const p c hl ho ht hn =>
      obtain ⟨t, h1, h2, h3⟩ := leaf p _ (.const p c hl ho ht hn) rfl
      exact ⟨.leaf [t], by rw [h1]; exact .leaf p [t] (by simp) (by simpa using h2), h3⟩
    | var p t hl ho hn =>
      obtain ⟨t, h1, h2, h3⟩ := leaf p _ (.var p t hl ho hn) rfl
      exact ⟨.leaf [t], by rw [h1]; exact .leaf p [t] (by simp) (by simpa using h2), h3⟩
    | un p e f n ho hop hf hp _ ih =>
      obtain ⟨x, h1, h2⟩ := ih
      refine ⟨.un e.name x, ?_, .un e.name e f n _ ho hf h2⟩
      simp only [Node.toInfix, Element.isFunction, hop, Bool.not_true, Bool.false_eq_true, if_false]
      rw [blank, tokens_lexeme _ (hR _ _ ho).2]
      exact .un p e.name e _ x ho hop hp (hF.prefixRight _ e ho hop (by simp [Element.arity, hf])) h1
    | binLeft p e f l r ho hop hf hp hl _ _ ih1 ih2 =>
      obtain ⟨x, h1, h2⟩ := ih1
      obtain ⟨y, h3, h4⟩ := ih2
      refine ⟨.bin e.name x y, ?_, .bin e.name e f l r _ _ ho hf h2 h4⟩
      simp only [Node.toInfix, Element.isFunction, hop, Bool.not_true, Bool.false_eq_true, if_false]
      rw [Op.join_cons _ _ _ (by simp)]
      have e1 : l.toInfix ++ (cs! " " ++ e.name ++ cs! " ") ++ Op.join [r.toInfix] (cs! " " ++ e.name ++ cs! " ")
          = l.toInfix ++ cs! " " ++ (e.name ++ cs! " " ++ r.toInfix) := by simp [Op.join]
      rw [e1, blank, blank, tokens_lexeme _ (hR _ _ ho).2]
      exact .binLeft p e.name e _ _ x y ho hop hp hl h1 h3
    | binRight p e f l r ho hop hf hp hr _ _ ih1 ih2 =>
      obtain ⟨x, h1, h2⟩ := ih1
      obtain ⟨y, h3, h4⟩ := ih2
      refine ⟨.bin e.name x y, ?_, .bin e.name e f l r _ _ ho hf h2 h4⟩
      simp only [Node.toInfix, Element.isFunction, hop, Bool.not_true, Bool.false_eq_true, if_false]
      rw [Op.join_cons _ _ _ (by simp)]
      have e1 : l.toInfix ++ (cs! " " ++ e.name ++ cs! " ") ++ Op.join [r.toInfix] (cs! " " ++ e.name ++ cs! " ")
          = l.toInfix ++ cs! " " ++ (e.name ++ cs! " " ++ r.toInfix) := by simp [Op.join]
      rw [e1, blank, blank, tokens_lexeme _ (hR _ _ ho).2]
      exact .binRight p e.name e _ _ x y ho hop hp hr h1 h3
    | fun1 p q e f n ho hop hf _ ih =>
      obtain ⟨x, h1, h2⟩ := ih
      refine ⟨.call1 e.name x, ?_, .un e.name e f n _ ho hf h2⟩
      simp only [Node.toInfix, Element.isFunction, hop, Bool.not_false, if_true]
      have e1 : e.name ++ cs! " ( " ++ n.toInfix ++ cs! " )"
          = e.name ++ cs! " " ++ (cs! "(" ++ cs! " " ++ (n.toInfix ++ cs! " " ++ cs! ")")) := by simp
      rw [e1, blank, blank, blank, tokens_lexeme _ (hR _ _ ho).2, tokens_lexeme _ lp, tokens_lexeme _ rp]
      exact .call1 p q e.name e _ x ho hop h1
    | fun2 p q e f l r ho hop hf hl' hr' hl hr _ _ =>
      obtain ⟨t, a1, a2, a3⟩ := leaf q l hl' hl
      obtain ⟨u, b1, b2, b3⟩ := leaf q r hr' hr
      refine ⟨.call1 e.name (.leaf [t, u]), ?_, ?_⟩
      · simp only [Node.toInfix, Element.isFunction, hop, Bool.not_false, if_true]
        rw [Op.join_cons _ _ _ (by simp)]
        have e1 : e.name ++ cs! " ( " ++ (l.toInfix ++ cs! " " ++ Op.join [r.toInfix] (cs! " ")) ++ cs! " )"
            = e.name ++ cs! " " ++ (cs! "(" ++ cs! " " ++ (l.toInfix ++ cs! " " ++ (r.toInfix ++ cs! " " ++ cs! ")"))) := by
          simp [Op.join]
        rw [e1, blank, blank, blank, blank, tokens_lexeme _ (hR _ _ ho).2, tokens_lexeme _ lp, tokens_lexeme _ rp, a1, b1]
        exact .call1 p q e.name e [t, u] _ ho hop (.leaf q [t, u] (by simp) (by simp [a2, b2]))
      · have := Spelled.bin e.name e f l r [t] [u] ho hf a3 b3
        simpa [SExpr.postorder] using this
  obtain ⟨e, h1, h2⟩ := main
  exact (parse_ok_iff F hF _ n).mpr ⟨_, shunt_correct hF h1, h2⟩

/-- load a formula, render it in infix, load the rendering and evaluate it -/
def runInfix (F : ElementFactory S) (text : Str) (env : Env S) : Except Err S := do
  let n ← parse F text
  run F n.toInfix env

/-- C25 is violated by the infix rendering: it writes no parentheses around operations, no comma
between arguments, and a NaN constant as nothing; signs and exponents of numbers are separated by
the spacing of operators. -/
theorem toInfix_unfaithful_violated :
    -- `(1 + 2) * 4` renders as `1.000 + 2.000 * 4.000`
    run defaultFactory (cs! "(1 + 2) * 4") (fun _ => none) = .ok (.fin 12 : Ext ℚ) ∧
    runInfix defaultFactory (cs! "(1 + 2) * 4") (fun _ => none) = .ok (.fin 9 : Ext ℚ) ∧
    -- `max(1 + 1, 5 * 2)` renders as `max ( 1.000 + 1.000 5.000 * 2.000 )`, which is `max(1, 1 + 5 * 2)`
    -- in postfix order
    run defaultFactory (cs! "max(1 + 1, 5 * 2)") (fun _ => none) = .ok (.fin 10 : Ext ℚ) ∧
    runInfix defaultFactory (cs! "max(1 + 1, 5 * 2)") (fun _ => none) = .ok (.fin 11 : Ext ℚ) ∧
    -- the constant NaN renders as nothing
    run defaultFactory (cs! "nan + 1") (fun _ => none) = .ok (.nan : Ext ℚ) ∧
    runInfix defaultFactory (cs! "nan + 1") (fun _ => none) = (.error .syntaxError : Except Err (Ext ℚ)) := by
  decide +kernel

example : ∃ n : Node (Ext ℚ), parse defaultFactory (cs! "a + 2 * b ^ ~c + sin(d - 1)") = .ok n ∧
    n.toInfix = cs! "a + 2.000 * b ^ ~ c + sin ( d - 1.000 )" ∧
    n.toPostfix = cs! "a 2.000 b c ~ ^ * + d 1.000 - sin +" := by
  have h : (match parse (S := Ext ℚ) defaultFactory (cs! "a + 2 * b ^ ~c + sin(d - 1)") with
    | .ok n => n.toInfix == cs! "a + 2.000 * b ^ ~ c + sin ( d - 1.000 )" &&
        n.toPostfix == cs! "a 2.000 b c ~ ^ * + d 1.000 - sin +"
    | .error _ => false) = true := by decide +kernel
  cases hp : parse (S := Ext ℚ) defaultFactory (cs! "a + 2 * b ^ ~c + sin(d - 1)") with
  | error e => rw [hp] at h; simp at h
  | ok n => rw [hp] at h; simp at h; exact ⟨n, rfl, h.1, h.2⟩

end Formula

/-! ## Function terms -/

namespace Fun
variable {S : Type}

theorem setAll_apply (env : Env S) (xs : List (Str × S)) (t : Str) :
    setAll env xs t = ((xs.reverse.find? fun p => p.1 = t).map Prod.snd).or (env t) := by
  unfold setAll
  induction xs generalizing env with
  | nil => simp
  | cons p xs ih =>
    rw [List.foldl_cons, ih, List.reverse_cons, List.find?_append]
    cases h : xs.reverse.find? fun q => q.1 = t with
    | some q => simp
    | none =>
      simp only [Option.map_none, Option.none_or, Env.set]
      by_cases hp : p.1 = t
      · simp [hp]
      · have : ¬ t = p.1 := fun e => hp e.symm
        simp [hp, this]

/-- The names that a function sees: `x` shadows variables of the engine called `x`, output
variables shadow input variables, and later variables shadow earlier ones of the same name. -/
theorem bind_apply (f : Fun S) (he : f.hasEngine = true) (ctx : Ctx S) (x : S) (t : Str) :
    f.bind ctx x t =
      if t = cs! "x" then some x
      else ((ctx.outputs.reverse.find? fun p => p.1 = t).map Prod.snd).or
        (((ctx.inputs.reverse.find? fun p => p.1 = t).map Prod.snd).or (f.vars t)) := by
  unfold bind
  simp only [he, if_true, Env.set, setAll_apply]

/-- C24, C42.  Evaluating a membership writes the variables it used back into the function, and
this never changes the value of a later membership as long as the engine keeps the names of its
variables: evaluation has no hidden state. -/
theorem membership_stateless (f : Fun S) (ctx ctx' : Ctx S) (x x' : S)
    (hi : ctx'.inputs.map Prod.fst = ctx.inputs.map Prod.fst)
    (ho : ctx'.outputs.map Prod.fst = ctx.outputs.map Prod.fst) :
    (f.membershipS ctx x).2.membership ctx' x' = f.membership ctx' x' := by
  unfold membership membershipS
  cases hr : f.root with
  | none => simp [hr]
  | some root =>
    simp only
    congr 1
    funext t
    have key : ∀ (xs ys : List (Str × S)), ys.map Prod.fst = xs.map Prod.fst → ∀ t,
        ((ys.reverse.find? fun p => p.1 = t).map Prod.snd) = none →
        ((xs.reverse.find? fun p => p.1 = t).map Prod.snd) = none := by
      intro xs ys h t hn
      simp only [Option.map_eq_none_iff, List.find?_eq_none, List.mem_reverse, decide_eq_true_eq] at hn ⊢
      intro p hp e
      have : t ∈ ys.map Prod.fst := by rw [h, ← e]; exact List.mem_map_of_mem hp
      obtain ⟨q, hq, hqt⟩ := List.mem_map.mp this
      exact hn q hq hqt
    cases he : f.hasEngine with
    | true =>
      rw [bind_apply _ (by simpa using he), bind_apply _ he]
      by_cases htx : t = cs! "x"
      · simp [htx]
      · simp only [htx, if_false]
        cases h1 : ((ctx'.outputs.reverse.find? fun p => p.1 = t).map Prod.snd) with
        | some v => rfl
        | none =>
          cases h2 : ((ctx'.inputs.reverse.find? fun p => p.1 = t).map Prod.snd) with
          | some v => rfl
          | none =>
            simp only [Option.none_or]
            rw [bind_apply _ he, if_neg htx, key _ _ ho t h1, key _ _ hi t h2]
            rfl
    | false =>
      simp only [bind, he, Bool.false_eq_true, if_false, Env.set]
      split_ifs <;> rfl

/-- An input variable named `x` is shadowed by the argument of the membership function. -/
example : ∃ f : Fun (Ext ℚ),
    f.membership ⟨[(cs! "x", .fin 7), (cs! "y", .fin 5)], []⟩ (.fin 1) = .ok (.fin 6) :=
  ⟨{ formula := cs! "x + y", root := some (.bin (defaultOperators[6]) (fun a b => a + b) (.var (cs! "x")) (.var (cs! "y"))),
     hasEngine := true, vars := fun _ => none }, by decide +kernel⟩

/-- A failed `load` keeps the tree of the previous formula, so that the function still evaluates
to the value of a formula that it no longer has. -/
theorem load_failure_keeps_root [ScalarText S] (F : ElementFactory S) (f : Fun S) (formula : Str) (hasEngine : Bool)
    (ctx : Ctx S) (e : Err) (h : Formula.parse F formula = .error e) :
    (f.load F formula hasEngine ctx).2 = some e ∧ (f.load F formula hasEngine ctx).1.root = f.root ∧
    (f.load F formula hasEngine ctx).1.formula = formula := by
  simp [load, h]

/-- A successful `load` evaluates to the value of its formula. -/
theorem load_ok [ScalarText S] (F : ElementFactory S) (f : Fun S) (formula : Str) (hasEngine : Bool) (ctx : Ctx S)
    (h : (f.load F formula hasEngine ctx).2 = none) :
    ∃ n, Formula.parse F formula = .ok n ∧ (f.load F formula hasEngine ctx).1.root = some n ∧
      ∀ x, ∃ v, (f.load F formula hasEngine ctx).1.membership ctx x = .ok v := by
  unfold load at h ⊢
  simp only at h ⊢
  cases hp : Formula.parse F formula with
  | error e => simp [hp] at h
  | ok n =>
    simp only [hp] at h ⊢
    generalize hf : ({ f with formula := formula, root := some n, hasEngine := hasEngine } : Fun S) = g at *
    have hroot : g.root = some n := by rw [← hf]
    have hm : ∀ x, g.membershipS ctx x = (n.evaluate (g.bind ctx x), { g with vars := g.bind ctx x }) := by
      intro x; simp [membershipS, hroot]
    rw [hm] at h ⊢
    cases hv : n.evaluate (g.bind ctx (Scalar.ofRat 0)) with
    | error e => simp [hv] at h
    | ok v =>
      simp only [hv]
      refine ⟨n, rfl, hroot, ?_⟩
      intro x
      have hst := membership_stateless g ctx ctx (Scalar.ofRat 0) x rfl rfl
      rw [hm] at hst
      rw [hst, membership, hm]
      rw [Node.evaluate_ok_iff]
      have h0 := (Node.evaluate_ok_iff n _).mp ⟨v, hv⟩
      intro t ht
      obtain ⟨w, hw⟩ := h0 t ht
      unfold bind Env.set at hw ⊢
      by_cases htx : t = cs! "x"
      · exact ⟨x, by simp [htx]⟩
      · exact ⟨w, by simpa [htx] using hw⟩

end Fun
end FL
