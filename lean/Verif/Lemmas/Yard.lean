/-
The operator grammar and the shunting-yard algorithm of `Function::toPostfix`.
-/
import Verif.Model.Formula
import Verif.Lemmas.Text

namespace FL
open Scalar
namespace Formula
variable {S : Type}

/-- Expression trees.  A leaf is a non-empty sequence of operand tokens (one token in formulas,
`variable is hedge ... term` in antecedents). -/
inductive SExpr
  | leaf (tokens : List Str)
  | un (op : Str) (a : SExpr)
  | bin (op : Str) (l r : SExpr)
  | call1 (f : Str) (a : SExpr)
  | call2 (f : Str) (a b : SExpr)

namespace SExpr
/-- postfix order -/
def postorder : SExpr → List Str
  | leaf ts => ts
  | un op a => a.postorder ++ [op]
  | bin op l r => l.postorder ++ r.postorder ++ [op]
  | call1 f a => a.postorder ++ [f]
  | call2 f a b => a.postorder ++ b.postorder ++ [f]
end SExpr

/-- Well-formed factory: parentheses and comma are not registered, operators of equal
precedence associate to the same side, and prefix operators associate to the right. -/
structure Coherent (F : ElementFactory S) : Prop where
  lparen : F (cs! "(") = none
  rparen : F (cs! ")") = none
  comma : F (cs! ",") = none
  sameSide : ∀ t u (a b : Element S), F t = some a → F u = some b → a.isOperator = true → b.isOperator = true →
    a.precedence = b.precedence → (a.associativity < 0 ↔ b.associativity < 0)
  prefixRight : ∀ t (a : Element S), F t = some a → a.isOperator = true → a.arity = 1 → ¬ a.associativity < 0

/-- an operand token -/
def Operand (F : ElementFactory S) (t : Str) : Prop :=
  F t = none ∧ t ≠ cs! "(" ∧ t ≠ cs! ")" ∧ t ≠ cs! ","

/-- `Renders F p ts e`: the token sequence `ts` writes the expression `e` so that every operator
outside parentheses has precedence at least `p`.  Parentheses may be added around any
subexpression; they are required around operands of lower precedence, or of equal precedence on
the side to which the operator does not associate. -/
inductive Renders (F : ElementFactory S) : Int → List Str → SExpr → Prop
  | leaf (p : Int) (ts : List Str) (h0 : ts ≠ []) (h : ∀ t ∈ ts, Operand F t) : Renders F p ts (.leaf ts)
  | paren (p q : Int) (ts : List Str) (e : SExpr) (h : Renders F q ts e) :
      Renders F p (cs! "(" :: ts ++ [cs! ")"]) e
  | un (p : Int) (op : Str) (el : Element S) (ts : List Str) (a : SExpr) (ho : F op = some el)
      (hop : el.isOperator = true) (hp : p ≤ el.precedence) (hr : ¬ el.associativity < 0)
      (h : Renders F el.precedence ts a) : Renders F p (op :: ts) (.un op a)
  | binLeft (p : Int) (op : Str) (el : Element S) (ts us : List Str) (l r : SExpr) (ho : F op = some el)
      (hop : el.isOperator = true) (hp : p ≤ el.precedence) (hl : el.associativity < 0)
      (h1 : Renders F el.precedence ts l) (h2 : Renders F (el.precedence + 1) us r) :
      Renders F p (ts ++ op :: us) (.bin op l r)
  | binRight (p : Int) (op : Str) (el : Element S) (ts us : List Str) (l r : SExpr) (ho : F op = some el)
      (hop : el.isOperator = true) (hp : p ≤ el.precedence) (hr : ¬ el.associativity < 0)
      (h1 : Renders F (el.precedence + 1) ts l) (h2 : Renders F el.precedence us r) :
      Renders F p (ts ++ op :: us) (.bin op l r)
  | call1 (p q : Int) (f : Str) (el : Element S) (ts : List Str) (a : SExpr) (ho : F f = some el)
      (hf : el.isOperator = false) (h : Renders F q ts a) :
      Renders F p (f :: cs! "(" :: ts ++ [cs! ")"]) (.call1 f a)
  | call2 (p q q' : Int) (f : Str) (el : Element S) (ts us : List Str) (a b : SExpr) (ho : F f = some el)
      (hf : el.isOperator = false) (h1 : Renders F q ts a) (h2 : Renders F q' us b) :
      Renders F p (f :: cs! "(" :: ts ++ cs! "," :: us ++ [cs! ")"]) (.call2 f a b)

/-- no operator of precedence at least `p` takes the top of the stack -/
def Safe (F : ElementFactory S) (p : Int) : List Str → Prop
  | [] => True
  | t :: _ => t = cs! "(" ∨ ∃ el, F t = some el ∧ el.isOperator = true ∧
      ∀ u o, F u = some o → o.isOperator = true → p ≤ o.precedence → pops o el = false

theorem foldlM_cons_ok {α β : Type} (f : β → α → Except Err β) (b b' : β) (a : α) (l : List α) (h : f b a = .ok b') :
    (a :: l).foldlM f b = l.foldlM f b' := by
  rw [List.foldlM_cons, h]; rfl

theorem foldlM_append_ok {α β : Type} (f : β → α → Except Err β) (b b' : β) (l m : List α) (h : l.foldlM f b = .ok b') :
    (l ++ m).foldlM f b = m.foldlM f b' := by
  rw [List.foldlM_append, h]; rfl

section steps
variable {F : ElementFactory S} (hF : Coherent F)
include hF

theorem ne_paren_of_some {t : Str} {el : Element S} (h : F t = some el) :
    t ≠ cs! "(" ∧ t ≠ cs! ")" ∧ t ≠ cs! "," := by
  refine ⟨?_, ?_, ?_⟩ <;> rintro rfl
  · rw [hF.lparen] at h; simp at h
  · rw [hF.rparen] at h; simp at h
  · rw [hF.comma] at h; simp at h

omit hF in
theorem step_operand (q st : List Str) (t : Str) (h : Operand F t) :
    shuntStep F ⟨q, st⟩ t = .ok ⟨q ++ [t], st⟩ := by
  obtain ⟨h1, h2, h3, h4⟩ := h
  simp [shuntStep, h1, h2, h3, h4]

omit hF in
theorem steps_operands (q st : List Str) (ts : List Str) (h : ∀ t ∈ ts, Operand F t) :
    ts.foldlM (shuntStep F) ⟨q, st⟩ = .ok ⟨q ++ ts, st⟩ := by
  induction ts generalizing q with
  | nil => simp [pure, Except.pure]
  | cons t ts ih =>
    rw [foldlM_cons_ok _ _ _ _ _ (step_operand q st t (h t (by simp))), ih _ (fun x hx => h x (List.mem_cons_of_mem _ hx))]
    simp

theorem step_operator (q st : List Str) (op : Str) (el : Element S) (ho : F op = some el) (hop : el.isOperator = true) :
    shuntStep F ⟨q, st⟩ op = .ok ⟨q ++ (popOperators F el st).1, op :: (popOperators F el st).2⟩ := by
  obtain ⟨_, _, h⟩ := ne_paren_of_some hF ho
  simp [shuntStep, ho, hop, h, Element.isFunction]

theorem step_function (q st : List Str) (f : Str) (el : Element S) (ho : F f = some el) (hop : el.isOperator = false) :
    shuntStep F ⟨q, st⟩ f = .ok ⟨q, f :: st⟩ := by
  simp [shuntStep, ho, hop, Element.isFunction]

theorem step_lparen (q st : List Str) : shuntStep F ⟨q, st⟩ (cs! "(") = .ok ⟨q, cs! "(" :: st⟩ := by
  simp [shuntStep, hF.lparen]

theorem popToParen_append (P st : List Str) (hP : ∀ t ∈ P, ∃ el, F t = some el) :
    popToParen (P ++ cs! "(" :: st) = (P, cs! "(" :: st) := by
  induction P with
  | nil => simp [popToParen]
  | cons t P ih =>
    obtain ⟨el, hel⟩ := hP t (by simp)
    have h := (ne_paren_of_some hF hel).1
    have := ih (fun x hx => hP x (List.mem_cons_of_mem _ hx))
    simp [popToParen, h, this]

theorem step_comma (q P st : List Str) (hP : ∀ t ∈ P, ∃ el, F t = some el) :
    shuntStep F ⟨q, P ++ cs! "(" :: st⟩ (cs! ",") = .ok ⟨q ++ P, cs! "(" :: st⟩ := by
  simp [shuntStep, hF.comma, popToParen_append hF P st hP]

theorem step_rparen (q P st : List Str) (p : Int) (hP : ∀ t ∈ P, ∃ el, F t = some el) (hs : Safe F p st) :
    shuntStep F ⟨q, P ++ cs! "(" :: st⟩ (cs! ")") = .ok ⟨q ++ P, st⟩ := by
  have hh : ∀ t rest, st = t :: rest → ((F t).map Element.isFunction).getD false = false := by
    rintro t rest rfl
    rcases hs with rfl | ⟨el, hel, hop, _⟩
    · simp [hF.lparen]
    · simp [hel, Element.isFunction, hop]
  cases st with
  | nil => simp [shuntStep, hF.rparen, popToParen_append hF P [] hP]
  | cons t rest =>
    have := hh t rest rfl
    simp [shuntStep, hF.rparen, popToParen_append hF P (t :: rest) hP, this]

theorem step_rparen_call (q P st : List Str) (f : Str) (el : Element S) (hf : F f = some el)
    (hop : el.isOperator = false) (hP : ∀ t ∈ P, ∃ el, F t = some el) :
    shuntStep F ⟨q, P ++ cs! "(" :: f :: st⟩ (cs! ")") = .ok ⟨q ++ P ++ [f], st⟩ := by
  simp [shuntStep, hF.rparen, popToParen_append hF P (f :: st) hP, hf, Element.isFunction, hop]

theorem popOperators_safe (p : Int) (st : List Str) (hs : Safe F p st) (op : Str) (el : Element S) (ho : F op = some el)
    (hop : el.isOperator = true) (hp : p ≤ el.precedence) : popOperators F el st = ([], st) := by
  cases st with
  | nil => rfl
  | cons t rest =>
    rcases hs with rfl | ⟨e2, he2, hop2, h⟩
    · simp [popOperators, hF.lparen]
    · have := h op el ho hop hp
      simp [popOperators, he2, this]

theorem popOperators_append (P st : List Str) (el : Element S) (p : Int) (hs : Safe F p st) (op : Str)
    (ho : F op = some el) (hop : el.isOperator = true) (hp : p ≤ el.precedence)
    (hP : ∀ t ∈ P, ∃ e2, F t = some e2 ∧ pops el e2 = true) :
    popOperators F el (P ++ st) = (P, st) := by
  induction P with
  | nil => exact popOperators_safe hF p st hs op el ho hop hp
  | cons t P ih =>
    obtain ⟨e2, he2, hpop⟩ := hP t (by simp)
    have := ih (fun x hx => hP x (List.mem_cons_of_mem _ hx))
    simp [popOperators, he2, hpop, this]

/-- Processing the tokens of an expression appends to the queue and to the stack two pieces that
together are its postfix form; the stacked piece only has operators of precedence at least `p`. -/
theorem shunt_renders {p : Int} {ts : List Str} {e : SExpr} (h : Renders F p ts e) :
    ∀ q st, Safe F p st → ∃ O P, ts.foldlM (shuntStep F) ⟨q, st⟩ = .ok ⟨q ++ O, P ++ st⟩ ∧
      O ++ P = e.postorder ∧
      ∀ t ∈ P, ∃ el, F t = some el ∧ el.isOperator = true ∧ p ≤ el.precedence := by
  induction h with
  | leaf p ts h0 h =>
    intro q st _
    exact ⟨ts, [], steps_operands q st ts h, by simp [SExpr.postorder], by simp⟩
  | paren p p' ts e _ ih =>
    intro q st hs
    obtain ⟨O, P, h1, h2, h3⟩ := ih q (cs! "(" :: st) (Or.inl rfl)
    refine ⟨O ++ P, [], ?_, by simpa using h2, by simp⟩
    rw [List.cons_append, foldlM_cons_ok _ _ _ _ _ (step_lparen hF q st), foldlM_append_ok _ _ _ _ _ h1,
      foldlM_cons_ok _ _ _ _ _ (step_rparen hF (q ++ O) P st p (fun t ht => (h3 t ht).imp fun _ h => h.1) hs)]
    simp [pure, Except.pure]
  | un p op el ts a ho hop hp hr _ ih =>
    intro q st hs
    have hs' : Safe F el.precedence (op :: st) := by
      refine Or.inr ⟨el, ho, hop, ?_⟩
      intro u o hu hou hpo
      have hside := hF.sameSide u op o el hu ho hou hop
      simp only [pops, Bool.or_eq_false_iff, Bool.and_eq_false_iff, decide_eq_false_iff_not]
      refine ⟨?_, by omega⟩
      by_cases hpe : o.precedence = el.precedence
      · exact Or.inl (fun h => hr ((hside hpe).mp h))
      · exact Or.inr hpe
    obtain ⟨O, P, h1, h2, h3⟩ := ih q (op :: st) hs'
    refine ⟨O, P ++ [op], ?_, ?_, ?_⟩
    · rw [foldlM_cons_ok _ _ _ _ _ (step_operator hF q st op el ho hop),
        popOperators_safe hF p st hs op el ho hop hp]
      simpa using h1
    · simp [SExpr.postorder, ← h2]
    · intro t ht
      rcases List.mem_append.mp ht with ht | ht
      · obtain ⟨e', a1, a2, a3⟩ := h3 t ht
        exact ⟨e', a1, a2, by omega⟩
      · obtain rfl : t = op := by simpa using ht
        exact ⟨el, ho, hop, hp⟩
  | binLeft p op el ts us l r ho hop hp hl _ _ ih1 ih2 =>
    intro q st hs
    have hsl : Safe F el.precedence st := by
      cases st with
      | nil => trivial
      | cons t rest =>
        rcases hs with h | ⟨e2, a1, a2, a3⟩
        · exact Or.inl h
        · exact Or.inr ⟨e2, a1, a2, fun u o hu ho' hpo => a3 u o hu ho' (by omega)⟩
    obtain ⟨O, P, h1, h2, h3⟩ := ih1 q st hsl
    have hs' : Safe F (el.precedence + 1) (op :: st) := by
      refine Or.inr ⟨el, ho, hop, ?_⟩
      intro u o hu hou hpo
      simp only [pops, Bool.or_eq_false_iff, Bool.and_eq_false_iff, decide_eq_false_iff_not]
      exact ⟨Or.inr (by omega), by omega⟩
    obtain ⟨O', P', h1', h2', h3'⟩ := ih2 (q ++ O ++ P) (op :: st) hs'
    have hpop : popOperators F el (P ++ st) = (P, st) := by
      refine popOperators_append hF P st el p hs op ho hop hp ?_
      intro t ht
      obtain ⟨e2, a1, a2, a3⟩ := h3 t ht
      refine ⟨e2, a1, ?_⟩
      simp only [pops, Bool.or_eq_true, Bool.and_eq_true, decide_eq_true_eq]
      by_cases heq : el.precedence = e2.precedence
      · exact Or.inl ⟨hl, heq⟩
      · exact Or.inr (by omega)
    refine ⟨O ++ P ++ O', P' ++ [op], ?_, ?_, ?_⟩
    · rw [foldlM_append_ok _ _ _ _ _ h1, foldlM_cons_ok _ _ _ _ _ (step_operator hF _ _ op el ho hop), hpop]
      simpa using h1'
    · simp [SExpr.postorder, ← h2, ← h2']
    · intro t ht
      rcases List.mem_append.mp ht with ht | ht
      · obtain ⟨e', a1, a2, a3⟩ := h3' t ht
        exact ⟨e', a1, a2, by omega⟩
      · obtain rfl : t = op := by simpa using ht
        exact ⟨el, ho, hop, hp⟩
  | binRight p op el ts us l r ho hop hp hr _ _ ih1 ih2 =>
    intro q st hs
    have hsl : Safe F (el.precedence + 1) st := by
      cases st with
      | nil => trivial
      | cons t rest =>
        rcases hs with h | ⟨e2, a1, a2, a3⟩
        · exact Or.inl h
        · exact Or.inr ⟨e2, a1, a2, fun u o hu ho' hpo => a3 u o hu ho' (by omega)⟩
    obtain ⟨O, P, h1, h2, h3⟩ := ih1 q st hsl
    have hs' : Safe F el.precedence (op :: st) := by
      refine Or.inr ⟨el, ho, hop, ?_⟩
      intro u o hu hou hpo
      have hside := hF.sameSide u op o el hu ho hou hop
      simp only [pops, Bool.or_eq_false_iff, Bool.and_eq_false_iff, decide_eq_false_iff_not]
      refine ⟨?_, by omega⟩
      by_cases hpe : o.precedence = el.precedence
      · exact Or.inl (fun h => hr ((hside hpe).mp h))
      · exact Or.inr hpe
    obtain ⟨O', P', h1', h2', h3'⟩ := ih2 (q ++ O ++ P) (op :: st) hs'
    have hpop : popOperators F el (P ++ st) = (P, st) := by
      refine popOperators_append hF P st el p hs op ho hop hp ?_
      intro t ht
      obtain ⟨e2, a1, a2, a3⟩ := h3 t ht
      refine ⟨e2, a1, ?_⟩
      simp only [pops, Bool.or_eq_true, Bool.and_eq_true, decide_eq_true_eq]
      exact Or.inr (by omega)
    refine ⟨O ++ P ++ O', P' ++ [op], ?_, ?_, ?_⟩
    · rw [foldlM_append_ok _ _ _ _ _ h1, foldlM_cons_ok _ _ _ _ _ (step_operator hF _ _ op el ho hop), hpop]
      simpa using h1'
    · simp [SExpr.postorder, ← h2, ← h2']
    · intro t ht
      rcases List.mem_append.mp ht with ht | ht
      · obtain ⟨e', a1, a2, a3⟩ := h3' t ht
        exact ⟨e', a1, a2, by omega⟩
      · obtain rfl : t = op := by simpa using ht
        exact ⟨el, ho, hop, hp⟩
  | call1 p p' f el ts a ho hf _ ih =>
    intro q st _
    obtain ⟨O, P, h1, h2, h3⟩ := ih q (cs! "(" :: f :: st) (Or.inl rfl)
    refine ⟨O ++ P ++ [f], [], ?_, by simp [SExpr.postorder, ← h2], by simp⟩
    rw [List.cons_append, List.cons_append, foldlM_cons_ok _ _ _ _ _ (step_function hF q st f el ho hf),
      foldlM_cons_ok _ _ _ _ _ (step_lparen hF q _), foldlM_append_ok _ _ _ _ _ h1,
      foldlM_cons_ok _ _ _ _ _ (step_rparen_call hF (q ++ O) P st f el ho hf (fun t ht => (h3 t ht).imp fun _ h => h.1))]
    simp [pure, Except.pure]
  | call2 p p' p'' f el ts us a b ho hf _ _ ih1 ih2 =>
    intro q st _
    obtain ⟨O, P, h1, h2, h3⟩ := ih1 q (cs! "(" :: f :: st) (Or.inl rfl)
    obtain ⟨O', P', h1', h2', h3'⟩ := ih2 (q ++ O ++ P) (cs! "(" :: f :: st) (Or.inl rfl)
    refine ⟨O ++ P ++ (O' ++ P') ++ [f], [], ?_, by simp [SExpr.postorder, ← h2, ← h2'], by simp⟩
    have e : f :: cs! "(" :: ts ++ cs! "," :: us ++ [cs! ")"] = f :: cs! "(" :: (ts ++ cs! "," :: (us ++ [cs! ")"])) := by
      simp
    rw [e, foldlM_cons_ok _ _ _ _ _ (step_function hF q st f el ho hf),
      foldlM_cons_ok _ _ _ _ _ (step_lparen hF q _), foldlM_append_ok _ _ _ _ _ h1,
      foldlM_cons_ok _ _ _ _ _ (step_comma hF (q ++ O) P (f :: st) (fun t ht => (h3 t ht).imp fun _ h => h.1)),
      foldlM_append_ok _ _ _ _ _ h1',
      foldlM_cons_ok _ _ _ _ _ (step_rparen_call hF (q ++ O ++ P ++ O') P' st f el ho hf
        (fun t ht => (h3' t ht).imp fun _ h => h.1))]
    simp [pure, Except.pure]

theorem shuntEnd_ok (P : List Str) (hP : ∀ t ∈ P, ∃ el, F t = some el) : shuntEnd P = .ok P := by
  induction P with
  | nil => rfl
  | cons t P ih =>
    obtain ⟨el, hel⟩ := hP t (by simp)
    obtain ⟨h1, h2, _⟩ := ne_paren_of_some hF hel
    have := ih (fun x hx => hP x (List.mem_cons_of_mem _ hx))
    simp [shuntEnd, h1, h2, this, bind, Except.bind]

/-- The shunting-yard algorithm turns every rendering of an expression into its postfix form. -/
theorem shunt_correct {p : Int} {ts : List Str} {e : SExpr} (h : Renders F p ts e) :
    shunt F ts = .ok e.postorder := by
  obtain ⟨O, P, h1, h2, h3⟩ := shunt_renders hF h [] [] trivial
  have h4 := shuntEnd_ok hF P (fun t ht => (h3 t ht).imp fun _ h => h.1)
  simp only [List.nil_append, List.append_nil] at h1
  simp [shunt, h1, h4, bind, Except.bind, h2]

end steps

/-! ### The queue only holds tokens of the formula -/

theorem popToParen_sub (l : List Str) : (∀ t ∈ (popToParen l).1, t ∈ l) ∧ (∀ t ∈ (popToParen l).2, t ∈ l) := by
  induction l with
  | nil => simp [popToParen]
  | cons t l ih =>
    unfold popToParen
    split_ifs
    · simp
    · constructor
      · intro u hu
        rcases List.mem_cons.mp hu with rfl | hu
        · simp
        · exact List.mem_cons_of_mem _ (ih.1 u hu)
      · intro u hu; exact List.mem_cons_of_mem _ (ih.2 u hu)

theorem popOperators_sub (F : ElementFactory S) (o : Element S) (l : List Str) :
    (∀ t ∈ (popOperators F o l).1, t ∈ l) ∧ (∀ t ∈ (popOperators F o l).2, t ∈ l) := by
  induction l with
  | nil => simp [popOperators]
  | cons t l ih =>
    unfold popOperators
    cases F t with
    | none => simp
    | some e =>
      simp only
      split_ifs
      · constructor
        · intro u hu
          rcases List.mem_cons.mp hu with rfl | hu
          · simp
          · exact List.mem_cons_of_mem _ (ih.1 u hu)
        · intro u hu; exact List.mem_cons_of_mem _ (ih.2 u hu)
      · simp

theorem shuntStep_sub (F : ElementFactory S) (y y' : Yard) (t : Str) (h : shuntStep F y t = .ok y') :
    ∀ u, u ∈ y'.queue ∨ u ∈ y'.stack → u ∈ y.queue ∨ u ∈ y.stack ∨ u = t := by
  obtain ⟨q, st⟩ := y
  have p1 := popToParen_sub st
  intro u hu
  unfold shuntStep at h
  simp only at h
  split_ifs at h with h1 h2 h3
  · cases h; simp at hu; tauto
  · cases h; simp at hu; tauto
  · split at h
    · cases h
    · cases h
      simp only [List.mem_append] at hu
      rcases hu with (hu | hu) | hu
      · exact Or.inl hu
      · exact Or.inr (Or.inl (p1.1 u hu))
      · exact Or.inr (Or.inl (p1.2 u hu))
  · split at h <;> rename_i hFt
    · rename_i op1
      cases h
      have p2 := popOperators_sub F op1 st
      simp only [List.mem_append, List.mem_cons] at hu
      rcases hu with (hu | hu) | (hu | hu)
      · exact Or.inl hu
      · exact Or.inr (Or.inl (p2.1 u hu))
      · exact Or.inr (Or.inr hu)
      · exact Or.inr (Or.inl (p2.2 u hu))
    · cases h; simp at hu; tauto
  · split at h <;> rename_i hFt
    · rename_i op1
      cases h
      have p2 := popOperators_sub F op1 st
      simp only [List.mem_append, List.mem_cons] at hu
      rcases hu with (hu | hu) | (hu | hu)
      · exact Or.inl hu
      · exact Or.inr (Or.inl (p2.1 u hu))
      · exact Or.inr (Or.inr hu)
      · exact Or.inr (Or.inl (p2.2 u hu))
    · split at h
      · cases h
      · rename_i a rest hrest
        have p1' : ∀ v ∈ rest, v ∈ st := fun v hv => p1.2 v (by rw [hrest]; exact List.mem_cons_of_mem _ hv)
        split at h
        · cases h
          simp only [List.mem_append, List.not_mem_nil, or_false] at hu
          rcases hu with hu | hu
          · exact Or.inl hu
          · exact Or.inr (Or.inl (p1.1 u hu))
        · split_ifs at h
          · cases h
            simp only [List.mem_append, List.mem_singleton] at hu
            rcases hu with ((hu | hu) | hu) | hu
            · exact Or.inl hu
            · exact Or.inr (Or.inl (p1.1 u hu))
            · exact Or.inr (Or.inl (p1' u (by rw [hu]; simp)))
            · exact Or.inr (Or.inl (p1' u (List.mem_cons_of_mem _ hu)))
          · cases h
            simp only [List.mem_append] at hu
            rcases hu with (hu | hu) | hu
            · exact Or.inl hu
            · exact Or.inr (Or.inl (p1.1 u hu))
            · exact Or.inr (Or.inl (p1' u hu))

theorem shuntSteps_sub (F : ElementFactory S) (ts : List Str) (y y' : Yard) (h : ts.foldlM (shuntStep F) y = .ok y') :
    ∀ u, u ∈ y'.queue ∨ u ∈ y'.stack → u ∈ y.queue ∨ u ∈ y.stack ∨ u ∈ ts := by
  induction ts generalizing y with
  | nil => cases h; intro u hu; tauto
  | cons t ts ih =>
    rw [List.foldlM_cons] at h
    cases hs : shuntStep F y t with
    | error e => rw [hs] at h; cases h
    | ok y1 =>
      rw [hs] at h
      intro u hu
      have := ih y1 h u hu
      have h2 := shuntStep_sub F y y1 t hs u
      simp only [List.mem_cons]
      tauto

theorem shuntEnd_eq (l r : List Str) (h : shuntEnd l = .ok r) : r = l := by
  induction l generalizing r with
  | nil => cases h; rfl
  | cons t l ih =>
    unfold shuntEnd at h
    split_ifs at h
    cases hs : shuntEnd l with
    | error e => rw [hs] at h; cases h
    | ok r1 => rw [hs] at h; cases h; rw [ih r1 hs]

theorem shunt_sub (F : ElementFactory S) (ts q : List Str) (h : shunt F ts = .ok q) : ∀ t ∈ q, t ∈ ts := by
  unfold shunt at h
  cases hy : ts.foldlM (shuntStep F) {} with
  | error e => rw [hy] at h; cases h
  | ok y =>
    rw [hy] at h
    cases hr : shuntEnd y.stack with
    | error e => simp [bind, Except.bind, hr] at h
    | ok r =>
      simp only [bind, Except.bind, hr, Except.ok.injEq] at h
      have := shuntEnd_eq _ _ hr
      subst this
      intro t ht
      rw [← h] at ht
      have := shuntSteps_sub F ts {} y hy t (by simpa using ht)
      simpa using this

/-! ### Parentheses -/

/-- the depth of nesting after the tokens `ts`, from depth `d`; `none` when a closing parenthesis
has no opening one, or a comma is outside parentheses -/
def depth : Nat → List Str → Option Nat
  | d, [] => some d
  | d, t :: ts =>
    if t = cs! "(" then depth (d + 1) ts
    else if t = cs! ")" then (if d = 0 then none else depth (d - 1) ts)
    else if t = cs! "," then (if d = 0 then none else depth d ts)
    else depth d ts

/-- operands, operators and functions -/
def isContent (t : Str) : Bool := t != cs! "(" && t != cs! ")" && t != cs! ","

theorem popToParen_split (l : List Str) : (popToParen l).1 ++ (popToParen l).2 = l := by
  induction l with
  | nil => rfl
  | cons t l ih =>
    unfold popToParen
    split_ifs
    · rfl
    · simpa using ih

theorem popToParen_fst (l : List Str) : cs! "(" ∉ (popToParen l).1 := by
  induction l with
  | nil => simp [popToParen]
  | cons t l ih =>
    unfold popToParen
    split_ifs with h
    · simp
    · simp only [List.mem_cons, not_or]
      exact ⟨fun e => h (by simp [← e]), ih⟩

theorem popToParen_head (l : List Str) (a : Str) (r : List Str) (h : (popToParen l).2 = a :: r) : a = cs! "(" := by
  induction l with
  | nil => simp [popToParen] at h
  | cons t l ih =>
    unfold popToParen at h
    split_ifs at h with h1
    · simp at h; rw [← h.1]; simpa using h1
    · exact ih h

theorem popOperators_split (F : ElementFactory S) (o : Element S) (l : List Str) :
    (popOperators F o l).1 ++ (popOperators F o l).2 = l := by
  induction l with
  | nil => rfl
  | cons t l ih =>
    unfold popOperators
    cases F t with
    | none => rfl
    | some e =>
      simp only
      split_ifs
      · simpa using ih
      · rfl

theorem popOperators_fst (F : ElementFactory S) (hF : Coherent F) (o : Element S) (l : List Str) :
    cs! "(" ∉ (popOperators F o l).1 := by
  induction l with
  | nil => simp [popOperators]
  | cons t l ih =>
    unfold popOperators
    cases h : F t with
    | none => simp
    | some e =>
      simp only
      split_ifs
      · simp only [List.mem_cons, not_or]
        refine ⟨?_, ih⟩
        rintro rfl
        rw [hF.lparen] at h; simp at h
      · simp

/-- What a state of the algorithm holds after the tokens `ts`: the stack has one opening
parenthesis per level of nesting, and queue and stack have together the contents of `ts`. -/
structure Holds (ts : List Str) (y : Yard) : Prop where
  nest : depth 0 ts = some (y.stack.count (cs! "("))
  queue : ∀ t ∈ y.queue, isContent t = true
  stack : ∀ t ∈ y.stack, t = cs! "(" ∨ isContent t = true
  perm : (y.queue ++ y.stack.filter isContent).Perm (ts.filter isContent)

theorem depth_snoc (d : Nat) (ts : List Str) (t : Str) :
    depth d (ts ++ [t]) = (depth d ts).bind fun d' => depth d' [t] := by
  induction ts generalizing d with
  | nil => rfl
  | cons u ts ih =>
    generalize hg : (fun d' => depth d' [t]) = g at *
    simp only [List.cons_append, depth]
    split_ifs <;> first | rfl | exact ih _

theorem count_zero_of_content (l : List Str) (h : cs! "(" ∉ l) : l.count (cs! "(") = 0 :=
  List.count_eq_zero_of_not_mem h

theorem filter_content (l : List Str) (h : ∀ t ∈ l, t = cs! "(" ∨ isContent t = true) (h0 : cs! "(" ∉ l) :
    l.filter isContent = l := by
  rw [List.filter_eq_self]
  intro t ht
  rcases h t ht with rfl | h
  · exact absurd ht h0
  · exact h

theorem shuntStep_holds (F : ElementFactory S) (hF : Coherent F) (ts : List Str) (y y' : Yard) (t : Str)
    (hy : Holds ts y) (h : shuntStep F y t = .ok y') : Holds (ts ++ [t]) y' := by
  obtain ⟨q, st⟩ := y
  obtain ⟨n1, n2, n3, n4⟩ := hy
  simp only at n1 n2 n3 n4
  have hcont : ∀ el, F t = some el → isContent t = true := by
    intro el hel
    obtain ⟨a, b, c⟩ := ne_paren_of_some hF hel
    simp [isContent, a, b, c]
  -- pushing a token
  have push : isContent t = true → Holds (ts ++ [t]) ⟨q, t :: st⟩ := by
    intro hc
    have hc' := hc
    simp only [isContent, Bool.and_eq_true, bne_iff_ne, ne_eq] at hc'
    obtain ⟨⟨c1, c2⟩, c3⟩ := hc'
    refine ⟨?_, n2, ?_, ?_⟩
    · rw [depth_snoc, n1]
      simp [depth, c1, c2, c3, List.count_cons]
    · intro u hu
      rcases List.mem_cons.mp hu with rfl | hu
      · exact Or.inr hc
      · exact n3 u hu
    · rw [List.filter_append, List.filter_cons_of_pos hc]
      simp only [List.filter_cons_of_pos hc, List.filter_nil]
      refine List.perm_middle.trans ?_
      refine (n4.cons t).trans ?_
      simpa using (List.perm_append_comm (l₁ := [t]) (l₂ := ts.filter isContent))
  have popped : ∀ (P r : List Str), P ++ r = st → cs! "(" ∉ P →
      (∀ u ∈ q ++ P, isContent u = true) ∧ (∀ u ∈ r, u = cs! "(" ∨ isContent u = true) ∧
      st.count (cs! "(") = r.count (cs! "(") ∧
      (q ++ P) ++ r.filter isContent = q ++ st.filter isContent := by
    intro P r e hP
    have hPc : ∀ u ∈ P, isContent u = true := by
      intro u hu
      rcases n3 u (by rw [← e]; simp [hu]) with rfl | h
      · exact absurd hu hP
      · exact h
    refine ⟨?_, ?_, ?_, ?_⟩
    · intro u hu
      rcases List.mem_append.mp hu with hu | hu
      · exact n2 u hu
      · exact hPc u hu
    · intro u hu; exact n3 u (by rw [← e]; simp [hu])
    · rw [← e, List.count_append, count_zero_of_content P hP]; simp
    · rw [← e, List.filter_append, List.filter_eq_self.mpr hPc]; simp
  unfold shuntStep at h
  simp only at h
  split_ifs at h with h1 h2 h3
  · cases h
    simp only [Bool.and_eq_true, bne_iff_ne, ne_eq, Option.isNone_iff_eq_none] at h1
    obtain ⟨⟨⟨_, c1⟩, c2⟩, c3⟩ := h1
    have hc : isContent t = true := by simp [isContent, c1, c2, c3]
    refine ⟨?_, ?_, n3, ?_⟩
    · rw [depth_snoc, n1]; simp [depth, c1, c2, c3]
    · intro u hu
      rcases List.mem_append.mp hu with hu | hu
      · exact n2 u hu
      · obtain rfl : u = t := by simpa using hu
        exact hc
    · rw [List.filter_append, List.filter_cons_of_pos hc]
      simp only [List.filter_nil, List.append_assoc]
      refine (List.perm_middle).trans ?_
      refine (n4.cons t).trans ?_
      simpa using (List.perm_append_comm (l₁ := [t]) (l₂ := ts.filter isContent))
  · cases h
    cases hFt : F t with
    | none => simp [hFt] at h2
    | some el => exact push (hcont el hFt)
  · obtain rfl : t = cs! "," := by simpa using h3
    split at h
    · cases h
    · rename_i a r hr
      cases h
      have ha := popToParen_head _ _ _ hr
      have e := popToParen_split st
      obtain ⟨g1, g2, g3, g4⟩ := popped _ _ e (popToParen_fst st)
      refine ⟨?_, g1, g2, ?_⟩
      · rw [depth_snoc, n1, g3]
        simp only [Option.bind_some]
        have : (popToParen st).2.count (cs! "(") ≠ 0 := by rw [hr, ha]; simp
        simp [depth, this]
      · simp only at g4 ⊢
        rw [g4]
        simpa [isContent] using n4
  · split at h <;> rename_i hFt
    · rename_i op1
      cases h
      have e := popOperators_split F op1 st
      obtain ⟨g1, g2, g3, g4⟩ := popped _ _ e (popOperators_fst F hF op1 st)
      have hc := hcont op1 hFt
      have hc' := hc
      simp only [isContent, Bool.and_eq_true, bne_iff_ne, ne_eq] at hc'
      obtain ⟨⟨c1, c2⟩, c3⟩ := hc'
      refine ⟨?_, g1, ?_, ?_⟩
      · rw [depth_snoc, n1, g3]
        simp [depth, c1, c2, c3, List.count_cons]
      · intro u hu
        rcases List.mem_cons.mp hu with rfl | hu
        · exact Or.inr hc
        · exact g2 u hu
      · simp only [List.filter_cons_of_pos hc, List.filter_append, List.filter_nil]
        refine List.perm_middle.trans ?_
        rw [g4]
        refine (n4.cons t).trans ?_
        simpa using (List.perm_append_comm (l₁ := [t]) (l₂ := ts.filter isContent))
    · rename_i hlp _
      obtain rfl : t = cs! "(" := by simpa using hlp
      cases h
      refine ⟨?_, n2, ?_, ?_⟩
      · rw [depth_snoc, n1]; simp [depth]
      · intro u hu
        rcases List.mem_cons.mp hu with rfl | hu
        · exact Or.inl rfl
        · exact n3 u hu
      · simpa [isContent] using n4
  · split at h <;> rename_i hFt
    · rename_i op1
      cases h
      have e := popOperators_split F op1 st
      obtain ⟨g1, g2, g3, g4⟩ := popped _ _ e (popOperators_fst F hF op1 st)
      have hc := hcont op1 hFt
      have hc' := hc
      simp only [isContent, Bool.and_eq_true, bne_iff_ne, ne_eq] at hc'
      obtain ⟨⟨c1, c2⟩, c3⟩ := hc'
      refine ⟨?_, g1, ?_, ?_⟩
      · rw [depth_snoc, n1, g3]
        simp [depth, c1, c2, c3, List.count_cons]
      · intro u hu
        rcases List.mem_cons.mp hu with rfl | hu
        · exact Or.inr hc
        · exact g2 u hu
      · simp only [List.filter_cons_of_pos hc, List.filter_append, List.filter_nil]
        refine List.perm_middle.trans ?_
        rw [g4]
        refine (n4.cons t).trans ?_
        simpa using (List.perm_append_comm (l₁ := [t]) (l₂ := ts.filter isContent))
    · rename_i hlp _
      obtain rfl : t = cs! ")" := by
        simp [hFt] at h1 hlp h3
        by_contra hc
        exact h3 (h1 hlp hc)
      split at h
      · cases h
      · rename_i a rest hrest
        have ha := popToParen_head _ _ _ hrest
        have e := popToParen_split st
        obtain ⟨g1, g2, g3, g4⟩ := popped _ _ e (popToParen_fst st)
        rw [hrest, ha] at g2 g3 g4
        have g2' : ∀ u ∈ rest, u = cs! "(" ∨ isContent u = true := fun u hu => g2 u (List.mem_cons_of_mem _ hu)
        have hd : depth 0 (ts ++ [cs! ")"]) = some (rest.count (cs! "(")) := by
          rw [depth_snoc, n1, g3]; simp [depth]
        have g4' : (q ++ (popToParen st).1) ++ rest.filter isContent = q ++ st.filter isContent := by
          rw [← g4]; simp [isContent]
        split at h
        · cases h
          refine ⟨hd, g1, by simp, ?_⟩
          simp only at g4' ⊢
          rw [g4']; simpa [isContent] using n4
        · rename_i top rest'
          split_ifs at h with hfun
          · cases h
            have htop : isContent top = true := by
              cases hFt' : F top with
              | none => simp [hFt'] at hfun
              | some el =>
                obtain ⟨a, b, c⟩ := ne_paren_of_some hF hFt'
                simp [isContent, a, b, c]
            have htop' : top ≠ cs! "(" := by
              rintro rfl; simp [isContent] at htop
            refine ⟨?_, ?_, fun u hu => g2' u (List.mem_cons_of_mem _ hu), ?_⟩
            · rw [hd]; simp [List.count_cons, htop']
            · intro u hu
              rcases List.mem_append.mp hu with hu | hu
              · exact g1 u hu
              · obtain rfl : u = top := by simpa using hu
                exact htop
            · rw [List.filter_cons_of_pos htop] at g4'
              have : (q ++ (popToParen st).1 ++ [top]) ++ rest'.filter isContent = q ++ st.filter isContent := by
                rw [← g4']; simp
              simp only at this ⊢
              rw [this]; simpa [isContent] using n4
          · cases h
            refine ⟨hd, g1, g2', ?_⟩
            simp only at g4' ⊢
            rw [g4']; simpa [isContent] using n4

theorem shuntSteps_holds (F : ElementFactory S) (hF : Coherent F) (us : List Str) :
    ∀ (ts : List Str) (y y' : Yard), Holds ts y → us.foldlM (shuntStep F) y = .ok y' → Holds (ts ++ us) y' := by
  induction us with
  | nil => intro ts y y' hy h; cases h; simpa using hy
  | cons t us ih =>
    intro ts y y' hy h
    rw [List.foldlM_cons] at h
    cases hs : shuntStep F y t with
    | error e => rw [hs] at h; cases h
    | ok y1 =>
      rw [hs] at h
      have := ih (ts ++ [t]) y1 y' (shuntStep_holds F hF ts y y1 t hy hs) h
      simpa using this

theorem shuntEnd_no_paren (l r : List Str) (h : shuntEnd l = .ok r) : cs! "(" ∉ l := by
  induction l generalizing r with
  | nil => simp
  | cons t l ih =>
    unfold shuntEnd at h
    split_ifs at h with h1
    cases hs : shuntEnd l with
    | error e => rw [hs] at h; cases h
    | ok r1 =>
      simp only [List.mem_cons, not_or]
      refine ⟨fun e => h1 (by simp [← e]), ih r1 hs⟩

/-- When the algorithm succeeds, the parentheses are balanced, commas are inside parentheses, and
the postfix form is a rearrangement of the operands, operators and functions. -/
theorem shunt_sound (F : ElementFactory S) (hF : Coherent F) (ts q : List Str) (h : shunt F ts = .ok q) :
    depth 0 ts = some 0 ∧ q.Perm (ts.filter isContent) := by
  unfold shunt at h
  cases hy : ts.foldlM (shuntStep F) {} with
  | error e => rw [hy] at h; cases h
  | ok y =>
    rw [hy] at h
    cases hr : shuntEnd y.stack with
    | error e => simp [bind, Except.bind, hr] at h
    | ok r =>
      simp only [bind, Except.bind, hr, Except.ok.injEq] at h
      have e := shuntEnd_eq _ _ hr
      have hn := shuntEnd_no_paren _ _ hr
      have := shuntSteps_holds F hF ts [] {} y ⟨rfl, by simp, by simp, by simp⟩ hy
      simp only [List.nil_append] at this
      refine ⟨by rw [this.nest, count_zero_of_content _ hn], ?_⟩
      rw [← h, e]
      have hp := this.perm
      rwa [filter_content _ this.stack hn] at hp

/-! ### Spacing -/

/-- the characters that `Function::space` surrounds with blanks -/
def symbolChars : List Char := ['(', ')', ',', '!', '%', '*', '+', '-', '/', '^', '~']

/-- surround the symbols with blanks -/
def pad (l : List Char) (c : Char) : Str := if c ∈ l then [' ', c, ' '] else [c]

theorem space_eq (s : Str) : space s = some (s.flatMap (pad symbolChars)) := by
  have one : ∀ (s : Str) (c : Char), spaceOne s [c] = some (s.flatMap (pad [c])) := by
    intro s c
    unfold spaceOne
    rw [Op.replace_char]
    congr 2
    funext x
    simp only [pad, List.mem_singleton]
    split_ifs with h
    · subst h; rfl
    · rfl
  have comp : ∀ (l : List Char) (c : Char) (s : Str), c ∉ l → c ≠ ' ' → ' ' ∉ l →
      (s.flatMap (pad l)).flatMap (pad [c]) = s.flatMap (pad (l ++ [c])) := by
    intro l c s hc hcs hl
    rw [List.flatMap_assoc]
    congr 1
    funext x
    by_cases hx : x ∈ l
    · have hxc : x ≠ c := by rintro rfl; exact hc hx
      simp [pad, hx, hxc, Ne.symm hcs]
    · by_cases hxc : x = c
      · simp [pad, hxc, hc]
      · simp [pad, hx, hxc]
  have fold : ∀ (cs l : List Char), (∀ c ∈ cs, c ≠ ' ' ∧ c ∉ l) → cs.Nodup → ' ' ∉ l →
      (cs.map fun c => [c]).foldlM spaceOne (s.flatMap (pad l)) = some (s.flatMap (pad (l ++ cs))) := by
    intro cs
    induction cs with
    | nil => intro l _ _ _; simp
    | cons c cs ih =>
      intro l h hn hl
      rw [List.map_cons, List.foldlM_cons, one]
      simp only [Option.bind_eq_bind, Option.bind_some]
      rw [comp l c s (h c (by simp)).2 (h c (by simp)).1 hl, ih]
      · simp
      · intro x hx
        refine ⟨(h x (by simp [hx])).1, ?_⟩
        simp only [List.mem_append, List.mem_singleton, not_or]
        refine ⟨(h x (by simp [hx])).2, ?_⟩
        rintro rfl
        exact (List.nodup_cons.mp hn).1 hx
      · exact (List.nodup_cons.mp hn).2
      · simp only [List.mem_append, List.mem_singleton, not_or]
        exact ⟨hl, fun h' => (h c (by simp)).1 h'.symm⟩
  have h := fold symbolChars [] (by decide) (by decide) (by simp)
  have e : s.flatMap (pad []) = s := by
    have : pad [] = fun c => [c] := by funext c; simp [pad]
    rw [this]; simp
  rw [e] at h
  exact h

/-- the tokens of a formula -/
def tokens (s : Str) : List Str := Op.words (s.flatMap (pad symbolChars))

/-- a token that can be written in a formula: not empty, no blank, and either one symbol or
without symbols -/
def Lexeme (t : Str) : Prop :=
  t ≠ [] ∧ Op.NoBlank t ∧ ((∃ c ∈ symbolChars, t = [c]) ∨ ∀ c ∈ t, c ∉ symbolChars)

theorem tokens_lexeme (t : Str) (h : Lexeme t) : tokens t = [t] := by
  obtain ⟨h0, hb, ⟨c, hc, rfl⟩ | hs⟩ := h
  · have hcb : isSpace c = false := hb c (by simp)
    have e : [c].flatMap (pad symbolChars) = [' ', c, ' '] := by simp [pad, hc]
    rw [tokens, e, Op.words]
    simp [Op.wordsAux, hcb, show isSpace ' ' = true from by decide]
  · have e : t.flatMap (pad symbolChars) = t := by
      clear h0 hb
      induction t with
      | nil => rfl
      | cons c t ih =>
        rw [List.flatMap_cons, ih (fun x hx => hs x (List.mem_cons_of_mem _ hx))]
        simp [pad, hs c (by simp)]
    rw [tokens, e, Op.words_single t h0 hb]

/-- a blank separates tokens -/
theorem tokens_blank (a b : Str) : tokens (a ++ ' ' :: b) = tokens a ++ tokens b := by
  unfold tokens
  rw [List.flatMap_append, List.flatMap_cons]
  have : pad symbolChars ' ' = [' '] := by decide
  rw [this]
  exact Op.words_blank _ _ ' ' (by decide)

theorem tokens_join (ts : List Str) (h : ∀ t ∈ ts, Lexeme t) : tokens (Op.join ts (cs! " ")) = ts := by
  induction ts with
  | nil => rfl
  | cons t ts ih =>
    have ht := tokens_lexeme t (h t (by simp))
    have hts := ih (fun x hx => h x (List.mem_cons_of_mem _ hx))
    cases ts with
    | nil => simpa [Op.join] using ht
    | cons u us =>
      rw [Op.join_cons _ _ _ (by simp)]
      have : t ++ cs! " " ++ Op.join (u :: us) (cs! " ") = t ++ ' ' :: Op.join (u :: us) (cs! " ") := by simp
      rw [this, tokens_blank, ht, hts]; rfl

theorem tokens_mem (s : Str) : ∀ t ∈ tokens s, t ≠ [] ∧ Op.NoBlank t := Op.words_mem _

/-- `Function::toPostfix` at the level of tokens -/
theorem toPostfix_tokens (F : ElementFactory S) (formula : Str) :
    (do let p ← toPostfix F formula; Except.ok (Op.words p)) = shunt F (tokens formula) := by
  unfold toPostfix
  rw [space_eq]
  simp only
  change (do let p ← (do let q ← shunt F (tokens formula); Except.ok (Op.join q (cs! " "))); Except.ok (Op.words p)) = _
  cases hq : shunt F (tokens formula) with
  | error e => rfl
  | ok q =>
    simp only [bind, Except.bind]
    rw [Op.words_join q (fun t ht => tokens_mem formula t (shunt_sub F _ q hq t ht))]

end Formula
end FL
