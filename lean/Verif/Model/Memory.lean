/-
Ownership of objects: construction, copying, assignment, loading and deletion of engines and their parts
in an explicit memory.

Objects are cells at addresses.  Pointers that an object deletes in its destructor are in its slots; other
pointers are its references.  The types of pointers are left to the compiler: a cell has the same slots
whatever its class.  Terms, norms, hedges, defuzzifiers and activation methods own nothing here (the trees
of formulas are part of their terms).  Addresses are never used again, so that every use of a deleted
object is seen.
-/
import Verif.Model.Rule

namespace FL.Own

/-- addresses -/
local notation "Ptr" => Nat

/-- classes of objects.  `linear` stands for the terms with a reference to the engine, `Linear` and
`Function`; `leaf` for norms, hedges, defuzzifiers and activation methods. -/
inductive Cls
  | leaf | term | linear | aggregated | input | output | proposition | operator | antecedent | consequent | rule | block | engine
  deriving DecidableEq, Repr

/-- the slots of objects for the pointers they own -/
inductive Slot
  | a | b | c | d | e
  deriving DecidableEq, Repr

/-- an object: its name or text, the pointers it owns, and its references.

* variables: `a` terms; output variables: `b` the fuzzy output, `c` the defuzzifier
* fuzzy output (`Aggregated`): `a` aggregation; references: the terms of its activated terms and their implications
* propositions: `a` hedges; references: the variable, the term
* operators: `a` left, `b` right
* antecedents: `a` expression; consequents: `a` conclusions
* rules: `a` antecedent, `b` consequent
* rule blocks: `a` rules, `b` conjunction, `c` disjunction, `d` implication, `e` activation
* engines: `a` input variables, `b` output variables, `c` rule blocks -/
structure Obj where
  cls : Cls
  text : Str := []
  a : List Ptr := []
  b : List Ptr := []
  c : List Ptr := []
  d : List Ptr := []
  e : List Ptr := []
  refs : List Ptr := []
  deriving DecidableEq, Repr

namespace Obj

def get (o : Obj) : Slot → List Ptr
  | .a => o.a | .b => o.b | .c => o.c | .d => o.d | .e => o.e

def set (o : Obj) : Slot → List Ptr → Obj
  | .a, l => { o with a := l } | .b, l => { o with b := l } | .c, l => { o with c := l } | .d, l => { o with d := l }
  | .e, l => { o with e := l }

/-- What destructors delete: src/Engine.cpp:115-122, src/rule/RuleBlock.cpp:83-87, src/rule/Rule.cpp:57-62,
src/rule/Antecedent.cpp:36-38, src/rule/Consequent.cpp:33-37, src/rule/Expression.cpp:34-38,65-70,
src/variable/Variable.cpp:67-70, and the members of type `FL_unique_ptr`. -/
def owned (o : Obj) : List Ptr := o.a ++ o.b ++ o.c ++ o.d ++ o.e

end Obj

/-- memory: the objects that exist, and the next address -/
structure Mem where
  cells : List (Ptr × Obj)
  next : Ptr
  deriving DecidableEq, Repr

namespace Mem

def empty : Mem := ⟨[], 0⟩

def get (m : Mem) (p : Ptr) : Option Obj := m.cells.lookup p

/-- deleting one object, not what it owns -/
def free (m : Mem) (p : Ptr) : Mem := { m with cells := m.cells.filter fun c => !(c.1 == p) }

def put (m : Mem) (p : Ptr) (o : Obj) : Mem := { m with cells := (p, o) :: (m.free p).cells }

end Mem

/-- Computations with memory; `none` is undefined behaviour: the use of an object that does not exist. -/
abbrev M := StateT Mem Option

def read (p : Ptr) : M Obj := fun m => (m.get p).map fun o => (o, m)

def write (p : Ptr) (o : Obj) : M Unit := fun m => (m.get p).map fun _ => ((), m.put p o)

def alloc (o : Obj) : M Ptr := fun m => some (m.next, ⟨(m.next, o) :: m.cells, m.next + 1⟩)

def modify (p : Ptr) (f : Obj → Obj) : M Unit := do
  let o ← read p
  write p (f o)

/-- the destructors of objects and of what they own.  The number bounds the objects that are left. -/
def destroyN : Nat → List Ptr → Mem → Option Mem
  | _, [], m => some m
  | 0, _ :: _, _ => none
  | n + 1, p :: ps, m =>
    match m.get p with
    | none => none
    | some o => destroyN n (o.owned ++ ps) (m.free p)

/-- `delete` of each pointer of a list -/
def delete (ps : List Ptr) : M Unit := fun m => (destroyN m.cells.length ps m).map fun m => ((), m)

/-- a loop that collects results -/
def each {α : Type} (f : Ptr → M α) : List Ptr → M (List α)
  | [] => pure []
  | p :: ps => do
    let x ← f p
    let xs ← each f ps
    pure (x :: xs)

/-- `clone` of norms, hedges, defuzzifiers, activation methods and terms; `Linear` and `Function` keep the
reference to the engine, src/term/Function.cpp:349-357 -/
def clone (p : Ptr) : M Ptr := do
  let o ← read p
  alloc { cls := o.cls, text := o.text, refs := o.refs }

namespace Aggregated

/-- copy constructor, src/term/Aggregated.cpp:36-61: activated terms are copied with the pointers they hold -/
def copy (p : Ptr) : M Ptr := do
  let o ← read p
  let a ← each clone o.a
  alloc { cls := o.cls, text := o.text, a := a, refs := o.refs }

end Aggregated

namespace Variable

/-- copy constructor, src/variable/Variable.cpp:41-65 -/
def copy (p : Ptr) : M Ptr := do
  let o ← read p
  let ts ← each clone o.a
  alloc { cls := o.cls, text := o.text, a := ts }

/-- `Variable::operator=`, src/variable/Variable.cpp:45-53 -/
def assign (v p : Ptr) : M Unit := do
  if v ≠ p then
    let o ← read v
    delete o.a
    modify v fun o => { o with a := [] }
    let q ← read p
    let ts ← each clone q.a
    modify v fun o => { o with text := q.text, a := o.a ++ ts }

end Variable

namespace OutputVariable

/-- copy constructor, src/variable/OutputVariable.cpp:33-35,50-57 -/
def copy (p : Ptr) : M Ptr := do
  let o ← read p
  let ts ← each clone o.a
  let f ← each Aggregated.copy o.b
  let z ← each clone o.c
  alloc { cls := o.cls, text := o.text, a := ts, b := f, c := z }

/-- `OutputVariable::operator=`, src/variable/OutputVariable.cpp:37-46 -/
def assign (v p : Ptr) : M Unit := do
  if v ≠ p then
    let o ← read v
    delete o.b
    modify v fun o => { o with b := [] }
    delete o.c
    modify v fun o => { o with c := [] }
    Variable.assign v p
    let q ← read p
    let f ← each Aggregated.copy q.b
    modify v fun o => { o with b := f }
    let z ← each clone q.c
    modify v fun o => { o with c := z }

end OutputVariable

namespace Rule

/-- copy constructor, src/rule/Rule.cpp:35-42: the antecedent and the consequent are not copied -/
def copy (p : Ptr) : M Ptr := do
  let o ← read p
  let a ← alloc { cls := .antecedent }
  let c ← alloc { cls := .consequent }
  alloc { cls := o.cls, text := o.text, a := [a], b := [c] }

/-- `Rule::operator=`, src/rule/Rule.cpp:44-55; `reset` deletes the old object after the new one is set -/
def assign (r p : Ptr) : M Unit := do
  if r ≠ p then
    let q ← read p
    let a ← alloc { cls := .antecedent }
    let o ← read r
    modify r fun o => { o with text := q.text, a := [a] }
    delete o.a
    let c ← alloc { cls := .consequent }
    let o ← read r
    modify r fun o => { o with b := [c] }
    delete o.b

end Rule

namespace RuleBlock

/-- `RuleBlock::copyFrom`, src/rule/RuleBlock.cpp:67-81; the object is allocated last, or given -/
def copy (p : Ptr) : M Ptr := do
  let o ← read p
  let b ← each clone o.b
  let c ← each clone o.c
  let d ← each clone o.d
  let e ← each clone o.e
  let rs ← each Rule.copy o.a
  alloc { cls := o.cls, text := o.text, a := rs, b := b, c := c, d := d, e := e }

/-- `RuleBlock::operator=`, src/rule/RuleBlock.cpp:52-65 -/
def assign (r p : Ptr) : M Unit := do
  if r ≠ p then
    let o ← read r
    delete o.a
    modify r fun o => { o with a := [] }
    delete o.b
    modify r fun o => { o with b := [] }
    delete o.c
    modify r fun o => { o with c := [] }
    delete o.d
    modify r fun o => { o with d := [] }
    delete o.e
    modify r fun o => { o with e := [] }
    let q ← read p
    let b ← each clone q.b
    modify r fun o => { o with b := b }
    let c ← each clone q.c
    modify r fun o => { o with c := c }
    let d ← each clone q.d
    modify r fun o => { o with d := d }
    let e ← each clone q.e
    modify r fun o => { o with e := e }
    let rs ← each Rule.copy q.a
    modify r fun o => { o with text := q.text, a := o.a ++ rs }

end RuleBlock

/-! ### Loading -/

/-- the first object of a name, src/Engine.cpp:540-552,668-694 and src/variable/Variable.cpp:229-247 -/
def findNamed (name : Str) : List Ptr → M (Option Ptr)
  | [] => pure none
  | p :: ps => do
    let o ← read p
    if o.text = name then pure (some p) else findNamed name ps

/-- registered hedges, and which of them are `any` -/
abbrev Hedges := Str → Option Bool

namespace Antecedent

/-- `Antecedent::unload`, src/rule/Antecedent.cpp:152-154 -/
def unload (p : Ptr) : M Unit := do
  let o ← read p
  modify p fun o => { o with a := [] }
  delete o.a

/-- the states of `Antecedent::load`, src/rule/Antecedent.cpp:183; the proposition is the last one made -/
inductive State
  | variable
  | is (proposition : Ptr)
  | hedgeTerm (proposition : Ptr)
  | variableAndOr
  deriving DecidableEq, Repr

/-- the lookup of a variable, src/rule/Antecedent.cpp:195-199 -/
def find (engine : Ptr) (token : Str) : M (Option Ptr) := do
  let e ← read engine
  match ← findNamed token e.a with
  | some v => pure (some v)
  | none => findNamed token e.b

/-- one iteration of the loop, src/rule/Antecedent.cpp:192-283; `none` if an exception is thrown -/
def step (H : Hedges) (engine : Ptr) (stack : List Ptr) (state : State) (token : Str) : M (Option (List Ptr × State)) :=
  match state with
  | .variable | .variableAndOr => do
    match ← find engine token with
    | some v =>
      let q ← alloc { cls := .proposition, refs := [v] }
      pure (some (q :: stack, .is q))
    | none =>
      if state = .variableAndOr ∧ (token = andKeyword ∨ token = orKeyword) then
        match stack with
        | r :: l :: rest =>
          let q ← alloc { cls := .operator, text := token, a := [l], b := [r] }
          pure (some (q :: rest, .variableAndOr))
        | _ => pure none
      else pure none
  | .is q => pure (if token = isKeyword then some (stack, .hedgeTerm q) else none)
  | .hedgeTerm q => do
    match H token with
    | some any =>
      let h ← alloc { cls := .leaf, text := token }
      modify q fun o => { o with a := o.a ++ [h] }
      pure (some (stack, if any then .variableAndOr else .hedgeTerm q))
    | none =>
      let o ← read q
      let v ← read (o.refs.headD 0)
      match ← findNamed token v.a with
      | some t =>
        modify q fun o => { o with refs := o.refs ++ [t] }
        pure (some (stack, .variableAndOr))
      | none => pure none

/-- the loop, src/rule/Antecedent.cpp:191-283: the stack and the state, no state if an exception is thrown -/
def run (H : Hedges) (engine : Ptr) (stack : List Ptr) (state : State) : List Str → M (List Ptr × Option State)
  | [] => pure (stack, some state)
  | t :: ts => do
    match ← step H engine stack state t with
    | none => pure (stack, none)
    | some (stack, state) => run H engine stack state ts

/-- the handler of exceptions, src/rule/Antecedent.cpp:311-316: the size of the stack decreases while the
counter increases -/
def discard (i : Nat) : List Ptr → M Unit
  | [] => pure ()
  | p :: ps => if i < ps.length + 1 then do delete [p]; discard (i + 1) ps else pure ()

/-- the expressions that are too many, src/rule/Antecedent.cpp:299-304 -/
def deleteMany : List Ptr → M (List Ptr)
  | p :: q :: rest => do delete [p]; deleteMany (q :: rest)
  | stack => pure stack

/-- `Antecedent::load`, src/rule/Antecedent.cpp:160-319.  No tokens: the text is blank or has no postfix. The
result is whether no exception is thrown. -/
def load (H : Hedges) (engine p : Ptr) (tokens : Option (List Str)) : M Bool := do
  unload p
  match tokens with
  | none => pure false
  | some ts =>
    let (stack, state) ← run H engine [] .variable ts
    match state with
    | some .variable | some .variableAndOr =>
      match stack with
      | [q] =>
        modify p fun o => { o with a := [q] }
        pure true
      | _ =>
        let stack ← deleteMany stack
        discard 0 stack
        pure false
    | _ =>
      discard 0 stack
      pure false

end Antecedent

namespace Consequent

/-- `Consequent::unload`, src/rule/Consequent.cpp:80-84 -/
def unload (p : Ptr) : M Unit := do
  let o ← read p
  delete o.a
  modify p fun o => { o with a := [] }

/-- the states of `Consequent::load`, src/rule/Consequent.cpp:108 -/
inductive State
  | variable
  | is (proposition : Ptr)
  | hedgeTerm (proposition : Ptr)
  | andWith
  deriving DecidableEq, Repr

/-- one iteration of the loop, src/rule/Consequent.cpp:118-189 -/
def step (H : Hedges) (engine p : Ptr) (state : State) (token : Str) : M (Option State) :=
  match state with
  | .variable => do
    let e ← read engine
    match ← findNamed token e.b with
    | some v =>
      let q ← alloc { cls := .proposition, refs := [v] }
      modify p fun o => { o with a := o.a ++ [q] }
      pure (some (.is q))
    | none => pure none
  | .is q => pure (if token = isKeyword then some (.hedgeTerm q) else none)
  | .hedgeTerm q => do
    match H token with
    | some _ =>
      let h ← alloc { cls := .leaf, text := token }
      modify q fun o => { o with a := o.a ++ [h] }
      pure (some (.hedgeTerm q))
    | none =>
      let o ← read q
      let v ← read (o.refs.headD 0)
      match ← findNamed token v.a with
      | some t =>
        modify q fun o => { o with refs := o.refs ++ [t] }
        pure (some .andWith)
      | none => pure none
  | .andWith => pure (if token = andKeyword then some .variable else none)

def run (H : Hedges) (engine p : Ptr) (state : State) : List Str → M (Option State)
  | [] => pure (some state)
  | t :: ts => do
    match ← step H engine p state t with
    | none => pure none
    | some state => run H engine p state ts

/-- `Consequent::load`, src/rule/Consequent.cpp:90-216.  No tokens: the text is blank. -/
def load (H : Hedges) (engine p : Ptr) (tokens : List Str) : M Bool := do
  unload p
  if tokens = [] then pure false
  else
    match ← run H engine p .variable tokens with
    | some .andWith => pure true
    | _ =>
      unload p
      pure false

end Consequent

/-- how texts of rules are split: nothing if they are no rules, otherwise the tokens of the antecedent in postfix
(if it has one) and of the consequent -/
abbrev Reader := Str → Option (Option (List Str) × List Str)

/-- the reader of `Rule::load`, `Antecedent::load` and `Consequent::load`, src/rule/Rule.cpp:162-230,
src/rule/Antecedent.cpp:164-171 and src/rule/Consequent.cpp:94-99 -/
def reader {S : Type} [ScalarText S] (G : Registry S) : Reader := fun text =>
  match Rule.parts (S := S) text with
  | .error _ => none
  | .ok s =>
    let antecedent := if (Op.trim s.antecedent).isEmpty then none else
      match Formula.toPostfix G.functions s.antecedent with
      | .error _ => none
      | .ok p => some (Op.words p)
    some (antecedent, if (Op.trim s.consequent).isEmpty then [] else Op.words s.consequent)

/-- the hedges of a registry -/
def hedges {S : Type} [Scalar S] (G : Registry S) : Hedges := fun name => (G.hedges name).map Hedge.isAny

namespace Rule

/-- `Rule::unload`, src/rule/Rule.cpp:146-152 -/
def unload (r : Ptr) : M Unit := do
  let o ← read r
  let _ ← each Antecedent.unload o.a
  let _ ← each Consequent.unload o.b
  pure ()

/-- `Rule::isLoaded`, src/rule/Rule.cpp:142-144 -/
def isLoaded (r : Ptr) : M Bool := do
  let o ← read r
  let a ← each read o.a
  let b ← each read o.b
  pure ((a.any fun o => !o.a.isEmpty) && (b.any fun o => !o.a.isEmpty))

/-- `Rule::load(engine)`, src/rule/Rule.cpp:154-239, of a rule with an antecedent and a consequent -/
def load (R : Reader) (H : Hedges) (engine r : Ptr) : M Bool := do
  let o ← read r
  match R o.text, o.a, o.b with
  | some (as, cs), [a], [c] =>
    if ← Antecedent.load H engine a as then
      if ← Consequent.load H engine c cs then pure true
      else
        unload r
        pure false
    else
      unload r
      pure false
  | _, _, _ =>
    unload r
    pure false

end Rule

namespace RuleBlock

/-- the loop of `RuleBlock::loadRules`, src/rule/RuleBlock.cpp:103-113; the results tell which rules are loaded -/
def loadRules (R : Reader) (H : Hedges) (engine b : Ptr) : M (List Bool) := do
  let o ← read b
  each (fun r => do
    if ← Rule.isLoaded r then Rule.unload r
    Rule.load R H engine r) o.a

end RuleBlock

/-! ### Engines -/

namespace Engine

/-- `Term::updateReference`, src/term/Linear.cpp:100-102 and src/term/Function.cpp:478-485 -/
def updateReference (engine t : Ptr) : M Unit :=
  modify t fun o => if o.cls = .linear then { o with refs := [engine] } else o

/-- `Engine::updateReferences`, src/Engine.cpp:106-113 -/
def updateReferences (engine : Ptr) : M Unit := do
  let o ← read engine
  let _ ← each (fun v => do
    let o ← read v
    each (updateReference engine) o.a) (o.a ++ o.b)
  pure ()

/-- the copy of a rule block in `Engine::copyFrom`, src/Engine.cpp:95-102 -/
def copyBlock (R : Reader) (H : Hedges) (engine b : Ptr) : M (Ptr × List Bool) := do
  let b ← RuleBlock.copy b
  let loaded ← RuleBlock.loadRules R H engine b
  pure (b, loaded)

/-- `Engine::copyFrom`, src/Engine.cpp:85-104.  The pointers to the copies are stored together and not one by one. The
result tells which rules are loaded; the code ignores it. -/
def copyFrom (R : Reader) (H : Hedges) (engine p : Ptr) : M (List (List Bool)) := do
  let o ← read p
  let is ← each Variable.copy o.a
  modify engine fun e => { e with text := o.text, a := e.a ++ is }
  let os ← each OutputVariable.copy o.b
  modify engine fun e => { e with b := e.b ++ os }
  updateReferences engine
  let bs ← each (copyBlock R H engine) o.c
  modify engine fun e => { e with c := e.c ++ bs.map Prod.fst }
  pure (bs.map Prod.snd)

/-- copy constructor, src/Engine.cpp:64-66, and `Engine::clone`, src/Engine.cpp:500-502 -/
def copy (R : Reader) (H : Hedges) (p : Ptr) : M (Ptr × List (List Bool)) := do
  let engine ← alloc { cls := .engine }
  let loaded ← copyFrom R H engine p
  pure (engine, loaded)

/-- `Engine::operator=`, src/Engine.cpp:68-83 -/
def assign (R : Reader) (H : Hedges) (engine p : Ptr) : M (List (List Bool)) := do
  if engine = p then pure []
  else
    let o ← read engine
    delete o.c
    modify engine fun o => { o with c := [] }
    delete o.b
    modify engine fun o => { o with b := [] }
    delete o.a
    modify engine fun o => { o with a := [] }
    copyFrom R H engine p

end Engine

/-! ### Containers and pointers -/

/-- `add…`, for instance src/Engine.cpp:527-529 -/
def add (s : Slot) (r p : Ptr) : M Unit := modify r fun o => o.set s (o.get s ++ [p])

/-- `insert…`, for instance src/Engine.cpp:537-539; undefined beyond the end -/
def insert (s : Slot) (r p : Ptr) (i : Nat) : M Unit := do
  let o ← read r
  if i ≤ (o.get s).length then write r (o.set s ((o.get s).take i ++ p :: (o.get s).drop i)) else fun _ => none

/-- `set…(p, index)`, for instance src/Engine.cpp:531-535; no result if `std::out_of_range` is thrown -/
def replace (s : Slot) (r p : Ptr) (i : Nat) : M (Option Ptr) := do
  let o ← read r
  match (o.get s)[i]? with
  | none => pure none
  | some q =>
    write r (o.set s ((o.get s).set i p))
    pure (some q)

/-- `remove…(index)`, for instance src/Engine.cpp:560-564 -/
def remove (s : Slot) (r : Ptr) (i : Nat) : M (Option Ptr) := do
  let o ← read r
  match (o.get s)[i]? with
  | none => pure none
  | some q =>
    write r (o.set s ((o.get s).eraseIdx i))
    pure (some q)

/-- setters by `FL_unique_ptr::reset`, for instance `RuleBlock::setImplication`, src/rule/RuleBlock.cpp:162-164 -/
def reset (s : Slot) (r : Ptr) (p : Option Ptr) : M Unit := do
  let o ← read r
  write r (o.set s p.toList)
  delete (o.get s)

/-- a setter with a clone, src/Engine.cpp:163-166 -/
def resetClone (s : Slot) (r : Ptr) : Option Ptr → M Unit
  | some p => do
    let q ← clone p
    reset s r (some q)
  | none => reset s r none

/-- `Engine::configure` with pointers, src/Engine.cpp:153-190 -/
def Engine.configure (engine : Ptr) (conjunction disjunction implication aggregation defuzzifier activation : Option Ptr) : M Unit := do
  let o ← read engine
  let _ ← each (fun b => do
    resetClone .b b conjunction
    resetClone .c b disjunction
    resetClone .d b implication
    match activation with
    | some _ => resetClone .e b activation
    | none => do
      let g ← alloc { cls := .leaf }
      reset .e b (some g)) o.c
  let _ ← each (fun v => do
    resetClone .c v defuzzifier
    let o ← read v
    each (fun f => resetClone .a f aggregation) o.b) o.b
  delete (defuzzifier.toList ++ aggregation.toList ++ implication.toList ++ disjunction.toList ++ conjunction.toList ++ activation.toList)

/-- `Consequent::modify`, src/rule/Consequent.cpp:56-78, with the memory of an enabled variable: the fuzzy output refers to the
term and to the implication -/
def Consequent.modify (p : Ptr) (implication : Option Ptr) : M Unit := do
  let o ← read p
  let _ ← each (fun q => do
    let q ← read q
    let v ← read (q.refs.headD 0)
    let _ ← each (fun f => Own.modify f fun f => { f with refs := f.refs ++ q.refs.drop 1 ++ implication.toList }) v.b
    pure ()) o.a
  pure ()

/-- What `OutputVariable::defuzzify` and the texts of the fuzzy output read: the objects of the fuzzy output
and those it refers to, src/term/Activated.cpp:44-56 -/
def OutputVariable.visit (v : Ptr) : M Unit := do
  let o ← read v
  let _ ← each (fun f => do
    let f ← read f
    each read f.refs) o.b
  pure ()

end FL.Own
