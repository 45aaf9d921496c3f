/-
Expressions, antecedents, consequents, rules and the loading of rule blocks (src/rule).
-/
import Verif.Model.Variable

namespace FL
open Scalar
variable {S : Type} [Scalar S]

/-- A pointer to a variable of the engine: its position among the inputs or the outputs. -/
inductive VarRef
  | input (i : Nat)
  | output (i : Nat)
  deriving DecidableEq, Repr

/-- the names that matter to the loading of rules: of the variables and of their terms -/
structure Vocabulary where
  inputs : List (Str × List Str)
  outputs : List (Str × List Str)
  deriving DecidableEq, Repr

def World.vocabulary (w : World S) : Vocabulary :=
  ⟨w.inputs.map fun v => (v.name, v.terms.map Term.name), w.outputs.map fun v => (v.name, v.terms.map Term.name)⟩

namespace Vocabulary

/-- `Engine::hasOutputVariable` and `Engine::getOutputVariable`, src/Engine.cpp:668-694: the first
match. -/
def findOutput (V : Vocabulary) (name : Str) : Option VarRef :=
  (V.outputs.findIdx? fun p => p.1 == name).map .output

/-- the lookup of a variable in an antecedent, src/rule/Antecedent.cpp:196-200: inputs first. -/
def find (V : Vocabulary) (name : Str) : Option VarRef :=
  match V.inputs.findIdx? fun p => p.1 == name with
  | some i => some (.input i)
  | none => V.findOutput name

/-- the names of the terms of a variable -/
def terms (V : Vocabulary) : VarRef → List Str
  | .input i => (V.inputs[i]?.map Prod.snd).getD []
  | .output i => (V.outputs[i]?.map Prod.snd).getD []

/-- `Variable::hasTerm` and `Variable::getTerm`, src/variable/Variable.cpp:229-247: the first match. -/
def findTerm (V : Vocabulary) (v : VarRef) (name : Str) : Option Nat :=
  (V.terms v).findIdx? fun t => t == name

end Vocabulary

/-- `Proposition`, src/rule/Expression.cpp:33-61; `term` is `none` after the hedge `any`. -/
structure Proposition (S : Type) where
  var : VarRef
  hedges : List (Hedge S)
  term : Option Nat

/-- `Expression`: a proposition, or the operators `and` and `or`. -/
inductive Expr (S : Type)
  | prop (p : Proposition S)
  | conj (left right : Expr S)
  | disj (left right : Expr S)

/-- names of registered hedges and the hedges constructed for them -/
abbrev HedgeFactory (S : Type) := Str → Option (Hedge S)

/-- `Hedge::name()`, src/hedge/Any.cpp:24-26 and likewise. -/
def HedgeKind.name : HedgeKind → Str
  | .any => cs! "any"
  | .extremely => cs! "extremely"
  | .not => cs! "not"
  | .seldom => cs! "seldom"
  | .somewhat => cs! "somewhat"
  | .very => cs! "very"

def Hedge.name : Hedge S → Str
  | .builtin k => k.name
  | .function n _ => n

/-- `dynamic_cast<Any*>(hedge)` -/
def Hedge.isAny : Hedge S → Bool
  | .builtin .any => true
  | _ => false

/-- the default `HedgeFactory`, src/factory/HedgeFactory.cpp:29-38. -/
def defaultHedges : HedgeFactory S := fun name =>
  ([HedgeKind.any, .extremely, .not, .seldom, .somewhat, .very].find? fun k => k.name == name).map .builtin

/-- `Rule::isKeyword()` etc., fuzzylite/rule/Rule.h:234-276 -/
def isKeyword : Str := cs! "is"
def ifKeyword : Str := cs! "if"
def thenKeyword : Str := cs! "then"
def andKeyword : Str := cs! "and"
def orKeyword : Str := cs! "or"
def withKeyword : Str := cs! "with"

/-- hedges are applied from the last (nearest to the term) to the first,
src/rule/Antecedent.cpp:80-84,96-102 and src/rule/Consequent.cpp:61-67. -/
def applyHedges (hs : List (Hedge S)) (x : S) : Except Err S := hs.reverse.foldlM (fun x h => h.hedge x) x

namespace Antecedent

/-- the state of the machine of `Antecedent::load`.  Simplified: a proposition under construction is
part of the state and is pushed when complete; in the code it is on the stack from the beginning,
which cannot be observed because no operator is accepted before it is complete. -/
inductive State (S : Type)
  | ready
  | expectIs (v : VarRef)
  | expectTerm (v : VarRef) (hedges : List (Hedge S))

structure Load (S : Type) where
  stack : List (Expr S)
  state : State S

/-- one iteration of the loop of `Antecedent::load`, src/rule/Antecedent.cpp:192-283.
The states `S_VARIABLE` and `S_VARIABLE bitor S_AND_OR` are one: in the former the stack is empty
and an operator is an error either way. -/
def step (H : HedgeFactory S) (V : Vocabulary) (s : Load S) (token : Str) : Except Err (Load S) :=
  match s.state with
  | .ready =>
    match V.find token with
    | some v => .ok ⟨s.stack, .expectIs v⟩
    | none =>
      if token = andKeyword then
        match s.stack with
        | r :: l :: rest => .ok ⟨.conj l r :: rest, .ready⟩
        | _ => .error .syntaxError
      else if token = orKeyword then
        match s.stack with
        | r :: l :: rest => .ok ⟨.disj l r :: rest, .ready⟩
        | _ => .error .syntaxError
      else .error .syntaxError
  | .expectIs v => if token = isKeyword then .ok ⟨s.stack, .expectTerm v []⟩ else .error .syntaxError
  | .expectTerm v hs =>
    match H token with
    | some h =>
      if h.isAny then .ok ⟨.prop ⟨v, hs ++ [h], none⟩ :: s.stack, .ready⟩
      else .ok ⟨s.stack, .expectTerm v (hs ++ [h])⟩
    | none =>
      match V.findTerm v token with
      | some j => .ok ⟨.prop ⟨v, hs, some j⟩ :: s.stack, .ready⟩
      | none => .error .syntaxError

/-- the loop and the checks after it, src/rule/Antecedent.cpp:192-311 -/
def build (H : HedgeFactory S) (V : Vocabulary) (postfixTokens : List Str) : Except Err (Expr S) := do
  let s ← postfixTokens.foldlM (step H V) ⟨[], .ready⟩
  match s.state, s.stack with
  | .ready, [e] => .ok e
  | _, _ => .error .syntaxError

/-- `Antecedent::load`, src/rule/Antecedent.cpp:160-320. -/
def load (F : ElementFactory S) (H : HedgeFactory S) (V : Vocabulary) (text : Str) : Except Err (Expr S) :=
  if (Op.trim text).isEmpty then .error .syntaxError
  else do
    let p ← Formula.toPostfix F text
    build H V (Op.words p)

end Antecedent

namespace Consequent

/-- the state of the machine of `Consequent::load` -/
inductive State (S : Type)
  | expectVariable
  | expectIs (v : VarRef)
  | expectTerm (v : VarRef) (hedges : List (Hedge S))
  | expectAnd

structure Load (S : Type) where
  conclusions : List (Proposition S)
  state : State S

/-- one iteration of the loop of `Consequent::load`, src/rule/Consequent.cpp:120-189; as for
antecedents, a conclusion is appended when complete. -/
def step (H : HedgeFactory S) (V : Vocabulary) (s : Load S) (token : Str) : Except Err (Load S) :=
  match s.state with
  | .expectVariable =>
    match V.findOutput token with
    | some v => .ok ⟨s.conclusions, .expectIs v⟩
    | none => .error .syntaxError
  | .expectIs v => if token = isKeyword then .ok ⟨s.conclusions, .expectTerm v []⟩ else .error .syntaxError
  | .expectTerm v hs =>
    match H token with
    | some h => .ok ⟨s.conclusions, .expectTerm v (hs ++ [h])⟩
    | none =>
      match V.findTerm v token with
      | some j => .ok ⟨s.conclusions ++ [⟨v, hs, some j⟩], .expectAnd⟩
      | none => .error .syntaxError
  | .expectAnd => if token = andKeyword then .ok ⟨s.conclusions, .expectVariable⟩ else .error .syntaxError

/-- `Consequent::load`, src/rule/Consequent.cpp:90-216. -/
def load (H : HedgeFactory S) (V : Vocabulary) (text : Str) : Except Err (List (Proposition S)) :=
  if (Op.trim text).isEmpty then .error .syntaxError
  else do
    let s ← (Op.words text).foldlM (step H V) ⟨[], .expectVariable⟩
    match s.state with
    | .expectAnd => .ok s.conclusions
    | _ => .error .syntaxError

end Consequent

/-- the registries consulted when rules are loaded -/
structure Registry (S : Type) where
  functions : ElementFactory S
  hedges : HedgeFactory S

def Registry.default : Registry S := ⟨defaultFactory, defaultHedges⟩

/-- `Rule`, src/rule/Rule.cpp:26-33, with its antecedent and consequent (never null here): the
antecedent is loaded when it has an expression, the consequent when it has conclusions. -/
structure Rule (S : Type) where
  enabled : Bool
  text : Str
  weight : S
  degree : S
  triggered : Bool
  antecedentText : Str
  antecedent : Option (Expr S)
  consequentText : Str
  conclusions : List (Proposition S)

namespace Rule

/-- constructor, src/rule/Rule.cpp:26-33 -/
def new (text : Str) : Rule S := ⟨true, text, lit 1, lit 0, false, [], none, [], []⟩

/-- `Rule::isLoaded`, src/rule/Rule.cpp:142-144. -/
def isLoaded (r : Rule S) : Bool := r.antecedent.isSome && !r.conclusions.isEmpty

/-- `Rule::deactivate`, src/rule/Rule.cpp:112-115. -/
def deactivate (r : Rule S) : Rule S := { r with degree := lit 0, triggered := false }

/-- `Rule::unload`, src/rule/Rule.cpp:146-152. -/
def unload (r : Rule S) : Rule S := { r.deactivate with antecedent := none, conclusions := [] }

/-- the state of the machine of `Rule::load` -/
inductive State
  | none | ifState | thenState | withState | endState
  deriving DecidableEq, Repr

structure Parts (S : Type) where
  state : State
  antecedent : Str
  consequent : Str
  weight : S

/-- one iteration of the loop of `Rule::load`, src/rule/Rule.cpp:171-216. -/
def step {S : Type} [ScalarText S] (s : Parts S) (token : Str) : Except Err (Parts S) :=
  match s.state with
  | .none => if token = ifKeyword then .ok { s with state := .ifState } else .error .syntaxError
  | .ifState =>
    if token = thenKeyword then .ok { s with state := .thenState }
    else .ok { s with antecedent := s.antecedent ++ token ++ [' '] }
  | .thenState =>
    if token = withKeyword then .ok { s with state := .withState }
    else .ok { s with consequent := s.consequent ++ token ++ [' '] }
  | .withState =>
    match ScalarText.ofText token with
    | some w => .ok { s with weight := w, state := .endState }
    | none => .error .conversion
  | .endState => .error .syntaxError

/-- the text up to a comment, src/rule/Rule.cpp:162 -/
def uncomment (text : Str) : Str := text.takeWhile fun c => c != '#'

/-- the loop of `Rule::load` and the checks after it, src/rule/Rule.cpp:162-230 -/
def parts {S : Type} [ScalarText S] (text : Str) : Except Err (Parts S) := do
  let s ← (Op.words (uncomment text)).foldlM step ⟨.none, [], [], lit 1⟩
  match s.state with
  | .thenState => .ok s
  | .endState => .ok s
  | _ => .error .syntaxError

/-- `Rule::load(text, engine)`, src/rule/Rule.cpp:158-239: the rule afterwards and the exception. -/
def load {S : Type} [ScalarText S] (G : Registry S) (V : Vocabulary) (r : Rule S) (text : Str) : Rule S × Option Err :=
  let r := { r.deactivate with enabled := true, text := text }
  match parts (S := S) text with
  | .error e => (r.unload, some e)
  | .ok s =>
    let r := { r with antecedentText := s.antecedent, antecedent := none }
    match Antecedent.load G.functions G.hedges V s.antecedent with
    | .error e => (r.unload, some e)
    | .ok a =>
      let r := { r with antecedent := some a, consequentText := s.consequent, conclusions := [] }
      match Consequent.load G.hedges V s.consequent with
      | .error e => (r.unload, some e)
      | .ok c => ({ r with conclusions := c, weight := s.weight }, none)

/-- `Rule::load(engine)`, src/rule/Rule.cpp:154-156. -/
def reload {S : Type} [ScalarText S] (G : Registry S) (V : Vocabulary) (r : Rule S) : Rule S × Option Err := r.load G V r.text

/-- copy constructor (`Rule::clone`), src/rule/Rule.cpp:35-42. -/
def clone (r : Rule S) : Rule S :=
  { r with triggered := false, antecedentText := [], antecedent := none, consequentText := [], conclusions := [] }

end Rule

/-- `RuleBlock::loadRules`, src/rule/RuleBlock.cpp:100-123: the rules afterwards and the exceptions
caught (an exception mentioning all is thrown if there are any). -/
def loadRules {S : Type} [ScalarText S] (G : Registry S) (V : Vocabulary) : List (Rule S) → List (Rule S) × List Err
  | [] => ([], [])
  | r :: rs =>
    let r := if r.isLoaded then r.unload else r
    let q := r.reload G V
    let qs := loadRules G V rs
    (q.1 :: qs.1, q.2.toList ++ qs.2)

/-- the world seen by a proposition: whether the variable is enabled, and the degree of its term -/
def World.isEnabled (w : World S) : VarRef → Option Bool
  | .input i => w.inputs[i]?.map Variable.enabled
  | .output i => w.outputs[i]?.map fun o => o.enabled

/-- the degree of a term of a variable, src/rule/Antecedent.cpp:87-94: membership of the value of an
input variable, or degree of the term in the fuzzy output of an output variable -/
def World.termDegree (w : World S) : VarRef → Nat → Except Err S
  | .input i, j =>
    match w.inputs[i]? with
    | none => .error .ub
    | some v =>
      match v.terms[j]? with
      | none => .error .ub
      | some t => t.membership w.ctx v.value
  | .output i, j =>
    match w.outputs[i]? with
    | none => .error .ub
    | some v => v.fuzzy.activationDegree j

/-- `Antecedent::activationDegree` on a proposition, src/rule/Antecedent.cpp:70-104.  A dangling
pointer is undefined behaviour. -/
def Proposition.degree (w : World S) (p : Proposition S) : Except Err S :=
  match w.isEnabled p.var with
  | none => .error .ub
  | some false => .ok (lit 0)
  | some true =>
    if (p.hedges.getLast?.map Hedge.isAny).getD false then applyHedges p.hedges nan
    else match p.term with
    | none => .error .ub
    | some j => do
      let x ← w.termDegree p.var j
      applyHedges p.hedges x

/-- `Antecedent::activationDegree`, src/rule/Antecedent.cpp:64-150.  The order in which C++
evaluates the two operands is unspecified; it can only affect which of two exceptions is thrown. -/
def Expr.degree (w : World S) (conjunction : Option (TNorm S)) (disjunction : Option (SNorm S)) :
    Expr S → Except Err S
  | .prop p => p.degree w
  | .conj l r =>
    match conjunction with
    | none => .error .missingConjunction
    | some k => do
      let a ← l.degree w conjunction disjunction
      let b ← r.degree w conjunction disjunction
      k.compute a b
  | .disj l r =>
    match disjunction with
    | none => .error .missingDisjunction
    | some k => do
      let a ← l.degree w conjunction disjunction
      let b ← r.degree w conjunction disjunction
      k.compute a b

/-- the loop of `Consequent::modify`, src/rule/Consequent.cpp:58-73: the variables afterwards and
the exception.  The degree is carried from one conclusion to the next. -/
def modifyLoop (implication : Option (TNorm S)) : World S → S → List (Proposition S) → World S × Option Err
  | w, _, [] => (w, none)
  | w, degree, p :: ps =>
    match p.var, p.term with
    | .output i, some j =>
      match w.outputs[i]? with
      | none => (w, some .ub)
      | some o =>
        if !o.enabled then modifyLoop implication w degree ps
        else match applyHedges p.hedges degree with
        | .error e => (w, some e)
        | .ok degree =>
          match o.terms[j]? with
          | none => (w, some .ub)
          | some t =>
            let o := { o with fuzzy := o.fuzzy.addTerm ⟨j, t, degree, implication⟩ }
            modifyLoop implication { w with outputs := w.outputs.set i o } degree ps
    | _, _ => (w, some .ub)

/-- `Consequent::modify`, src/rule/Consequent.cpp:55-74. -/
def modify (w : World S) (degree : S) (implication : Option (TNorm S)) (conclusions : List (Proposition S)) :
    World S × Option Err :=
  if conclusions.isEmpty then (w, some .notLoaded)
  else modifyLoop implication w degree conclusions

namespace Rule

/-- `Rule::activateWith`, src/rule/Rule.cpp:117-122: the rule afterwards and the exception. -/
def activateWith (w : World S) (conjunction : Option (TNorm S)) (disjunction : Option (SNorm S)) (r : Rule S) :
    Rule S × Option Err :=
  if !r.isLoaded then (r, some .notLoaded)
  else match r.antecedent with
  | none => (r, some .notLoaded)
  | some a =>
    match a.degree w conjunction disjunction with
    | .error e => (r, some e)
    | .ok d => ({ r with degree := r.weight * d }, none)

/-- `Rule::trigger`, src/rule/Rule.cpp:124-132: variables and rule afterwards, and the exception. -/
def trigger (w : World S) (implication : Option (TNorm S)) (r : Rule S) : World S × Rule S × Option Err :=
  if !r.isLoaded then (w, r, some .notLoaded)
  else if r.enabled && Op.isGt r.degree (lit 0) then
    match modify w r.degree implication r.conclusions with
    | (w, none) => (w, { r with triggered := true }, none)
    | (w, some e) => (w, r, some e)
  else (w, r, none)

end Rule
end FL
