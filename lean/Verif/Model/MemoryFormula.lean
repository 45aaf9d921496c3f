/-
Ownership of the trees of formulas: parsing, copying, assignment, loading and deletion of `Function` terms in
an explicit memory.
-/
import Verif.Model.Memory
import Verif.Model.Formula

namespace FL.Own.Function

/-- addresses -/
local notation "Ptr" => Nat

/-- the arities of the operators and functions that are registered -/
abbrev Elements := Str → Option Nat

/-- one iteration of the loop of `Function::parse`, src/term/Function.cpp:617-652; the stack has its top first;
`none` if an exception is thrown.  Nodes are objects with `a` the left node, `b` the right node, `c` the element,
and as text the token of a variable or constant.  The top of an empty stack is undefined. -/
def step (A : Elements) (stack : List Ptr) (token : Str) : M (Option (List Ptr)) :=
  match A token with
  | some arity =>
    if stack.length < arity then pure none
    else do
      let x ← alloc { cls := .leaf, text := token }
      let n ← alloc { cls := .operator, c := [x] }
      match stack with
      | [] => fun _ => none
      | r :: rest =>
        modify n fun o => { o with b := [r] }
        if arity = 2 then
          match rest with
          | [] => fun _ => none
          | l :: rest =>
            modify n fun o => { o with a := [l] }
            pure (some (n :: rest))
        else pure (some (n :: rest))
  | none =>
    if token ≠ cs! "(" ∧ token ≠ cs! ")" ∧ token ≠ cs! "," then do
      let n ← alloc { cls := .operator, text := token }
      pure (some (n :: stack))
    else pure (some stack)

/-- the loop, src/term/Function.cpp:617-652: the stack, and whether no exception is thrown -/
def run (A : Elements) (stack : List Ptr) : List Str → M (List Ptr × Bool)
  | [] => pure (stack, true)
  | t :: ts => do
    match ← step A stack t with
    | none => pure (stack, false)
    | some stack => run A stack ts

/-- `Function::parse`, src/term/Function.cpp:607-658, for the tokens of the postfix text; there is no such text
if the formula is empty or `toPostfix` throws.  The stack holds plain pointers: nothing is deleted when an
exception is thrown, src/term/Function.cpp:612. -/
def parse (A : Elements) : Option (List Str) → M (Option Ptr)
  | none => pure none
  | some ts => do
    match ← run A [] ts with
    | ([n], true) => pure (some n)
    | _ => pure none

/-- `Function::unload`, src/term/Function.cpp:429-432 -/
def unload (t : Ptr) : M Unit := do
  let o ← read t
  modify t fun o => { o with a := [] }
  delete o.a

/-- the objects that `Function::membership` reads besides its tree, src/term/Function.cpp:382-391: the engine and
its variables -/
def visit (t : Ptr) : M Unit := do
  let o ← read t
  let _ ← each (fun e => do
    let e ← read e
    let _ ← each read e.a
    each read e.b) o.refs
  pure ()

/-- `Function::load(formula, engine)`, src/term/Function.cpp:442-448; `false` if parsing throws.  The exception
that `membership(0.0)` may throw afterwards does not change the memory and is left out. -/
def load (A : Elements) (t : Ptr) (engine : Option Ptr) (tokens : Option (List Str)) : M Bool := do
  modify t fun o => { o with refs := engine.toList }
  match ← parse A tokens with
  | none => pure false
  | some root =>
    let o ← read t
    modify t fun o => { o with a := [root] }
    delete o.a
    visit t
    pure true

/-- `Node::clone`, src/term/Function.cpp:152-175,255-257.  The number bounds the depth of the tree. -/
def cloneN : Nat → Ptr → M Ptr
  | 0, _ => fun _ => none
  | k + 1, p => do
    let o ← read p
    let c ← each clone o.c
    let a ← each (cloneN k) o.a
    let b ← each (cloneN k) o.b
    alloc { cls := o.cls, text := o.text, a := a, b := b, c := c }

def cloneNode (p : Ptr) : M Ptr := fun m => cloneN m.cells.length p m

/-- copy constructor, src/term/Function.cpp:349-358 -/
def copy (p : Ptr) : M Ptr := do
  let o ← read p
  let a ← each cloneNode o.a
  alloc { cls := o.cls, text := o.text, a := a, refs := o.refs }

/-- `Function::operator=`, src/term/Function.cpp:360-371 -/
def assign (t p : Ptr) : M Unit := do
  if t ≠ p then
    let o ← read t
    modify t fun o => { o with a := [] }
    delete o.a
    let q ← read p
    modify t fun o => { o with text := q.text, refs := q.refs }
    let a ← each cloneNode q.a
    modify t fun o => { o with a := a }

/-- the tokens of the postfix text of a formula, src/term/Function.cpp:608-615 -/
def tokens {S : Type} (F : ElementFactory S) (formula : Str) : Option (List Str) :=
  if formula.isEmpty then none
  else match Formula.toPostfix F formula with
    | .ok text => some (Op.words text)
    | .error _ => none

/-- the arities of a factory -/
def arities {S : Type} (F : ElementFactory S) : Elements := fun token => (F token).map fun e =>
  match e.fn with
  | .unary _ => 1
  | .binary _ => 2

end FL.Own.Function
