/-
Formulas: `Function` terms (fuzzylite/term/Function.h, src/term/Function.cpp) and the registered
operators and functions (src/factory/FunctionFactory.cpp).
-/
import Verif.Model.Op
import Verif.Model.Text

namespace FL
open Scalar

/-- Failures.  `fl::Exception` and exceptions of the standard library are all constructors except
`ub`, which stands for undefined behaviour.  Messages are not modelled. -/
inductive Err
  /-- `[syntax error]`, `[parsing error]`, `[function error]` at load time -/
  | syntaxError
  /-- a number was expected (`Op::toScalar`) -/
  | conversion
  /-- missing variable, unloaded function or missing engine while evaluating a term -/
  | evaluation
  /-- rule, antecedent or consequent used before it was loaded -/
  | notLoaded
  | missingConjunction
  | missingDisjunction
  | missingImplication
  | missingAggregation
  | missingDefuzzifier
  /-- term without `tsukamoto`, mixed term types in weighted defuzzifiers -/
  | unsupported
  /-- `std::out_of_range`, lookups by unknown name -/
  | outOfRange
  /-- importer errors -/
  | importing
  /-- exporter and benchmark errors -/
  | exporting
  /-- undefined behaviour -/
  | ub
  deriving DecidableEq, Repr

/-- Conversion between text and scalars.
* `ofText` : `Op::toScalar`, fuzzylite/Operation.h:918-942 (`none` is the exception);
* `str` : `Op::str` with the default number of decimals, fuzzylite/Operation.h:1005-1022. -/
class ScalarText (S : Type) extends Scalar S where
  ofText : Str → Option S
  str : S → Str

/-- The function pointer of an element (`unary` or `binary`) and hence its arity,
fuzzylite/term/Function.h.  Simplified: elements without function pointer (arity 0) are not
modelled. -/
inductive ElemFn (S : Type)
  | unary (f : S → S)
  | binary (f : S → S → S)

/-- `Function::Element`, src/term/Function.cpp:35-91 (the description is not modelled). -/
structure Element (S : Type) where
  name : Str
  isOperator : Bool
  precedence : Int := 0
  associativity : Int := -1
  fn : ElemFn S

namespace Element
variable {S : Type}
def isFunction (e : Element S) : Bool := !e.isOperator
def arity (e : Element S) : Nat :=
  match e.fn with
  | .unary _ => 1
  | .binary _ => 2
end Element

/-- `FunctionFactory` as a map (`CloningFactory::getObject`, fuzzylite/factory/CloningFactory.h). -/
abbrev ElementFactory (S : Type) := Str → Option (Element S)

section default
variable {S : Type} [Scalar S]

/-- the operators registered by `FunctionFactory::registerOperators`,
src/factory/FunctionFactory.cpp:38-78. -/
def defaultOperators : List (Element S) :=
  [ { name := cs! "!", isOperator := true, precedence := 100, associativity := 1, fn := .unary Op.logicalNot },
    { name := cs! "~", isOperator := true, precedence := 100, associativity := 1, fn := .unary (fun a => - a) },
    { name := cs! "^", isOperator := true, precedence := 90, associativity := 1, fn := .binary (fn2 .pow) },
    { name := cs! "*", isOperator := true, precedence := 80, fn := .binary (fun a b => a * b) },
    { name := cs! "/", isOperator := true, precedence := 80, fn := .binary (fun a b => a / b) },
    { name := cs! "%", isOperator := true, precedence := 80, fn := .binary (fn2 .fmod) },
    { name := cs! "+", isOperator := true, precedence := 70, fn := .binary (fun a b => a + b) },
    { name := cs! "-", isOperator := true, precedence := 70, fn := .binary (fun a b => a - b) },
    { name := cs! "and", isOperator := true, precedence := 60, fn := .binary Op.logicalAnd },
    { name := cs! "or", isOperator := true, precedence := 50, fn := .binary Op.logicalOr } ]

/-- a registered unary function -/
def unaryFunction (name : Str) (f : S → S) : Element S :=
  { name := name, isOperator := false, fn := .unary f }
/-- a registered binary function -/
def binaryFunction (name : Str) (f : S → S → S) : Element S :=
  { name := name, isOperator := false, fn := .binary f }

/-- the functions registered by `FunctionFactory::registerFunctions`,
src/factory/FunctionFactory.cpp:80-152 (`Op::gt` etc. return a `bool` converted to `scalar`,
fuzzylite/Operation.h:736-758). -/
def defaultFunctions : List (Element S) :=
  [ unaryFunction (cs! "abs") (fn1 .abs), unaryFunction (cs! "acos") (fn1 .acos),
    unaryFunction (cs! "asin") (fn1 .asin), unaryFunction (cs! "atan") (fn1 .atan),
    binaryFunction (cs! "atan2") (fn2 .atan2), unaryFunction (cs! "ceil") (fn1 .ceil),
    unaryFunction (cs! "cos") (fn1 .cos), unaryFunction (cs! "cosh") (fn1 .cosh),
    binaryFunction (cs! "eq") (fun a b => Op.ofBool (Op.isEq a b)),
    unaryFunction (cs! "exp") (fn1 .exp), unaryFunction (cs! "fabs") (fn1 .abs),
    unaryFunction (cs! "floor") (fn1 .floor), binaryFunction (cs! "fmod") (fn2 .fmod),
    binaryFunction (cs! "ge") (fun a b => Op.ofBool (Op.isGE a b)),
    binaryFunction (cs! "gt") (fun a b => Op.ofBool (Op.isGt a b)),
    binaryFunction (cs! "le") (fun a b => Op.ofBool (Op.isLE a b)),
    unaryFunction (cs! "log") (fn1 .log), unaryFunction (cs! "log10") (fn1 .log10),
    binaryFunction (cs! "lt") (fun a b => Op.ofBool (Op.isLt a b)),
    binaryFunction (cs! "max") Op.max, binaryFunction (cs! "min") Op.min,
    binaryFunction (cs! "neq") (fun a b => Op.ofBool (!Op.isEq a b)),
    binaryFunction (cs! "pow") (fn2 .pow), unaryFunction (cs! "round") Op.round,
    unaryFunction (cs! "sin") (fn1 .sin), unaryFunction (cs! "sinh") (fn1 .sinh),
    unaryFunction (cs! "sqrt") (fn1 .sqrt), unaryFunction (cs! "tan") (fn1 .tan),
    unaryFunction (cs! "tanh") (fn1 .tanh), unaryFunction (cs! "acosh") (fn1 .acosh),
    unaryFunction (cs! "asinh") (fn1 .asinh), unaryFunction (cs! "atanh") (fn1 .atanh),
    unaryFunction (cs! "log1p") (fn1 .log1p) ]

/-- the factory as constructed -/
def defaultFactory : ElementFactory S := fun name =>
  (defaultOperators ++ defaultFunctions).find? fun e => e.name == name

end default

/-- `Function::Node`, src/term/Function.cpp:125-175.  Simplified: only the shapes that the parser
builds; a unary element has its operand in `right` (`left` is null). -/
inductive Node (S : Type)
  | const (c : S)
  | var (name : Str)
  | un (e : Element S) (f : S → S) (right : Node S)
  | bin (e : Element S) (f : S → S → S) (left right : Node S)

/-- `std::map<std::string, scalar>` -/
abbrev Env (S : Type) := Str → Option S

/-- `variables[name] = value` -/
def Env.set {S : Type} (env : Env S) (name : Str) (value : S) : Env S :=
  fun n => if n = name then some value else env n

namespace Node
variable {S : Type}

/-- `Node::evaluate`, src/term/Function.cpp:190-227. -/
def evaluate (env : Env S) : Node S → Except Err S
  | const c => .ok c
  | var name =>
    match env name with
    | some v => .ok v
    | none => .error .evaluation
  | un _ f r => do
    let x ← evaluate env r
    .ok (f x)
  | bin _ f l r => do
    let x ← evaluate env l
    let y ← evaluate env r
    .ok (f x y)

/-- `Node::value`, src/term/Function.cpp:179-188. -/
def value [ScalarText S] : Node S → Str
  | const c => ScalarText.str c
  | var name => name
  | un e _ _ => e.name
  | bin e _ _ _ => e.name

/-- `Node::toPrefix`, src/term/Function.cpp:263-278. -/
def toPrefix [ScalarText S] : Node S → Str
  | const c => ScalarText.str c
  | var name => name
  | un e _ r => e.name ++ cs! " " ++ toPrefix r
  | bin e _ l r => e.name ++ cs! " " ++ toPrefix l ++ cs! " " ++ toPrefix r

/-- `Node::toInfix`, src/term/Function.cpp:280-303 (a NaN constant is not recognised as a constant
and has no children, so it renders as the empty string). -/
def toInfix [ScalarText S] : Node S → Str
  | const c => if Op.isNaN c then [] else ScalarText.str c
  | var name => name
  | un e _ r =>
    if e.isFunction then e.name ++ cs! " ( " ++ toInfix r ++ cs! " )"
    else e.name ++ cs! " " ++ toInfix r
  | bin e _ l r =>
    if e.isFunction then e.name ++ cs! " ( " ++ Op.join [toInfix l, toInfix r] (cs! " ") ++ cs! " )"
    else Op.join [toInfix l, toInfix r] (cs! " " ++ e.name ++ cs! " ")

/-- `Node::toPostfix`, src/term/Function.cpp:305-320. -/
def toPostfix [ScalarText S] : Node S → Str
  | const c => ScalarText.str c
  | var name => name
  | un e _ r => toPostfix r ++ cs! " " ++ e.name
  | bin e _ l r => toPostfix l ++ cs! " " ++ toPostfix r ++ cs! " " ++ e.name

/-- `Node::treeSize`, src/term/Function.cpp:229-240: number of operators and functions. -/
def treeSize : Node S → Nat
  | const _ => 0
  | var _ => 0
  | un _ _ r => treeSize r + 1
  | bin _ _ l r => treeSize l + treeSize r + 1

end Node

namespace Formula
variable {S : Type}

/-- one iteration of the loop of `Function::space`, src/term/Function.cpp:499-500. -/
def spaceOne (text : Str) (c : Str) : Option Str :=
  Op.findReplace text c (cs! " " ++ c ++ cs! " ") true

/-- the symbols that `Function::space` surrounds with blanks with the default factory:
`( ) ,` and the operators in the order of the map, except `and` and `or`;
src/term/Function.cpp:488-496, src/factory/FunctionFactory.cpp:155-164. -/
def symbols : List Str :=
  [cs! "(", cs! ")", cs! ",", cs! "!", cs! "%", cs! "*", cs! "+", cs! "-", cs! "/", cs! "^", cs! "~"]

/-- `Function::space`, src/term/Function.cpp:487-502, with the default operators. -/
def space (formula : Str) : Option Str :=
  symbols.foldlM spaceOne formula

/-- state of `Function::toPostfix`: output queue and operator stack (top first) -/
structure Yard where
  queue : List Str := []
  stack : List Str := []
  deriving DecidableEq, Repr

/-- `while (not stack.empty() and stack.top() != "(")`, src/term/Function.cpp:530-533, 562-565:
the popped tokens and the rest of the stack. -/
def popToParen : List Str → List Str × List Str
  | [] => ([], [])
  | t :: ts => if t == cs! "(" then ([], t :: ts) else (t :: (popToParen ts).1, (popToParen ts).2)

/-- `op1` takes `op2` off the stack, src/term/Function.cpp:549-550. -/
def pops (op1 op2 : Element S) : Bool :=
  (decide (op1.associativity < 0) && decide (op1.precedence = op2.precedence))
    || decide (op1.precedence < op2.precedence)

/-- `for (;;)`, src/term/Function.cpp:542-555. -/
def popOperators (F : ElementFactory S) (op1 : Element S) : List Str → List Str × List Str
  | [] => ([], [])
  | t :: ts =>
    match F t with
    | none => ([], t :: ts)
    | some op2 =>
      if pops op1 op2 then (t :: (popOperators F op1 ts).1, (popOperators F op1 ts).2)
      else ([], t :: ts)

/-- one token of `Function::toPostfix`, src/term/Function.cpp:519-585. -/
def shuntStep (F : ElementFactory S) (y : Yard) (token : Str) : Except Err Yard :=
  let element := F token
  if element.isNone && token != cs! "(" && token != cs! ")" && token != cs! "," then
    .ok { y with queue := y.queue ++ [token] }
  else if (element.map Element.isFunction).getD false then
    .ok { y with stack := token :: y.stack }
  else if token == cs! "," then
    let p := popToParen y.stack
    match p.2 with
    | [] => .error .syntaxError
    | _ :: _ => .ok { queue := y.queue ++ p.1, stack := p.2 }
  else match element with
  | some op1 =>
    let p := popOperators F op1 y.stack
    .ok { queue := y.queue ++ p.1, stack := token :: p.2 }
  | none =>
    if token == cs! "(" then .ok { y with stack := token :: y.stack }
    else
      let p := popToParen y.stack
      match p.2 with
      | [] => .error .syntaxError
      | _ :: rest =>
        match rest with
        | [] => .ok { queue := y.queue ++ p.1, stack := [] }
        | top :: rest' =>
          if ((F top).map Element.isFunction).getD false then
            .ok { queue := y.queue ++ p.1 ++ [top], stack := rest' }
          else .ok { queue := y.queue ++ p.1, stack := rest }

/-- the final loop, src/term/Function.cpp:587-595. -/
def shuntEnd : List Str → Except Err (List Str)
  | [] => .ok []
  | t :: ts =>
    if t == cs! "(" || t == cs! ")" then .error .syntaxError
    else do
      let r ← shuntEnd ts
      .ok (t :: r)

/-- `Function::toPostfix` on tokens, src/term/Function.cpp:513-595. -/
def shunt (F : ElementFactory S) (tokens : List Str) : Except Err (List Str) := do
  let y ← tokens.foldlM (shuntStep F) {}
  let r ← shuntEnd y.stack
  .ok (y.queue ++ r)

/-- `Function::toPostfix`, src/term/Function.cpp:510-605: the queue is written separated by
blanks. -/
def toPostfix (F : ElementFactory S) (formula : Str) : Except Err Str :=
  match space formula with
  | none => .error .ub
  | some spaced => do
    let q ← shunt F (Op.words spaced)
    .ok (Op.join q (cs! " "))

/-- one token of the loop of `Function::parse`, src/term/Function.cpp:617-652; the stack has its
top first. -/
def buildStep [ScalarText S] (F : ElementFactory S) (stack : List (Node S)) (token : Str) :
    Except Err (List (Node S)) :=
  match F token with
  | some e =>
    match e.fn, stack with
    | .unary f, r :: st => .ok (.un e f r :: st)
    | .binary f, r :: l :: st => .ok (.bin e f l r :: st)
    | _, _ => .error .syntaxError
  | none =>
    if token != cs! "(" && token != cs! ")" && token != cs! "," then
      match ScalarText.ofText token with
      | some v => .ok (.const v :: stack)
      | none => .ok (.var token :: stack)
    else .ok stack

/-- `Function::parse`, src/term/Function.cpp:607-658. -/
def parse [ScalarText S] (F : ElementFactory S) (formula : Str) : Except Err (Node S) :=
  if formula.isEmpty then .error .syntaxError
  else do
    let postfix_ ← toPostfix F formula
    let stack ← (Op.words postfix_).foldlM (buildStep F) []
    match stack with
    | [n] => .ok n
    | _ => .error .syntaxError

end Formula

/-- The values that a term may read from its engine: names and values of the input and of the
output variables, in order. -/
structure Ctx (S : Type) where
  inputs : List (Str × S)
  outputs : List (Str × S)

/-- `Function` term, src/term/Function.cpp:325-376: formula, tree, whether the engine reference is
set, and the map `variables`. -/
structure Fun (S : Type) where
  formula : Str
  root : Option (Node S)
  hasEngine : Bool
  vars : Env S

namespace Fun
variable {S : Type}

/-- `variables[name] = value` for every pair, in order -/
def setAll (env : Env S) (xs : List (Str × S)) : Env S :=
  xs.foldl (fun e p => Env.set e p.1 p.2) env

/-- the variables in force when `membership(x)` evaluates, src/term/Function.cpp:382-392. -/
def bind (f : Fun S) (ctx : Ctx S) (x : S) : Env S :=
  let env := if f.hasEngine then setAll (setAll f.vars ctx.inputs) ctx.outputs else f.vars
  Env.set env (cs! "x") x

/-- `Function::membership`, src/term/Function.cpp:379-394, with the updated map `variables`
(declared `mutable`). -/
def membershipS (f : Fun S) (ctx : Ctx S) (x : S) : Except Err S × Fun S :=
  match f.root with
  | none => (.error .evaluation, f)
  | some root => (root.evaluate (f.bind ctx x), { f with vars := f.bind ctx x })

/-- the value of `Function::membership` -/
def membership (f : Fun S) (ctx : Ctx S) (x : S) : Except Err S := (f.membershipS ctx x).1

/-- `Function::evaluate(localVariables)`, src/term/Function.cpp:400-409. -/
def evaluate (f : Fun S) (locals : Option (List (Str × S))) : Except Err S × Fun S :=
  match f.root with
  | none => (.error .evaluation, f)
  | some root =>
    let f' := { f with vars := setAll f.vars (locals.getD []) }
    (root.evaluate f'.vars, f')

/-- `Function::load(formula, engine)`, src/term/Function.cpp:442-448: the resulting state and the
exception, if any.  A failed parse leaves the previous tree in place. -/
def load [ScalarText S] (F : ElementFactory S) (f : Fun S) (formula : Str) (hasEngine : Bool) (ctx : Ctx S) :
    Fun S × Option Err :=
  let f := { f with formula := formula, hasEngine := hasEngine }
  match Formula.parse F formula with
  | .error e => (f, some e)
  | .ok root =>
    let r := membershipS { f with root := some root } ctx (Scalar.ofRat 0)
    match r.1 with
    | .ok _ => (r.2, none)
    | .error e => (r.2, some e)

/-- `Function::unload`, src/term/Function.cpp:429-432. -/
def unload (f : Fun S) : Fun S := { f with root := none, vars := fun _ => none }

/-- `Function::updateReference`, src/term/Function.cpp:478-485. -/
def updateReference [ScalarText S] (F : ElementFactory S) (f : Fun S) (ctx : Ctx S) : Fun S :=
  (f.load F f.formula true ctx).1

end Fun
end FL
