/-
The lists of components of engines, variables and rule blocks (src/Engine.cpp:516-736,
src/variable/Variable.cpp:217-269, src/rule/RuleBlock.cpp:193-225).

The code repeats the same functions for every kind of component.  They are written once here, over a
description of where the list is kept, and instantiated below.  Simplified: components are values
instead of pointers, so ownership is not modelled.
-/
import Verif.Model.Engine

namespace FL
variable {S : Type}

/-- where an object of type `O` keeps its list of components of type `A`, and their names -/
structure Slot (O A : Type) where
  list : O → List A
  setList : O → List A → O
  name : A → Str

namespace Slot
variable {O A : Type} (s : Slot O A)

/-- the loop `for i < size: if at(i)->getName() == name return …`: the index at which it returns,
given the components not yet visited and the index of the first of them -/
def scan (name : Str) : Nat → List A → Option Nat
  | _, [] => none
  | i, a :: as => if s.name a = name then some i else scan name (i + 1) as

/-- `addX`, src/Engine.cpp:532-534, 605-607, 673-675, src/variable/Variable.cpp:217-219,
src/rule/RuleBlock.cpp:193-195. -/
def add (o : O) (a : A) : O := s.setList o (s.list o ++ [a])

/-- `setX(component, index)`, src/Engine.cpp:536-540, 609-613, 677-681: the previous component and
the object afterwards. -/
def set (o : O) (a : A) (i : Nat) : Except Err (A × O) :=
  match (s.list o)[i]? with
  | none => .error .outOfRange
  | some old => .ok (old, s.setList o ((s.list o).set i a))

/-- `insertX(component, index)`, src/Engine.cpp:542-544, 615-617, 683-685,
src/variable/Variable.cpp:221-223, src/rule/RuleBlock.cpp:197-199: `begin() + index` is undefined
beyond the end. -/
def insert (o : O) (a : A) (i : Nat) : Except Err O :=
  if i ≤ (s.list o).length then .ok (s.setList o ((s.list o).insertIdx i a)) else .error .ub

/-- `getX(index)`, src/Engine.cpp:546-548, 619-621, 687-689, src/variable/Variable.cpp:225-227,
src/rule/RuleBlock.cpp:201-203. -/
def getAt (o : O) (i : Nat) : Except Err A :=
  match (s.list o)[i]? with
  | none => .error .outOfRange
  | some a => .ok a

/-- `getX(name)`, src/Engine.cpp:550-555, 623-628, 691-696, src/variable/Variable.cpp:229-240. -/
def get (o : O) (name : Str) : Except Err A :=
  match s.scan name 0 (s.list o) with
  | none => .error .outOfRange
  | some i => s.getAt o i

/-- `hasX(name)`, src/Engine.cpp:557-562, 630-635, 698-703, src/variable/Variable.cpp:242-247. -/
def has (o : O) (name : Str) : Bool := (s.scan name 0 (s.list o)).isSome

/-- `removeX(index)`, src/Engine.cpp:564-568, 637-641, 705-709, src/variable/Variable.cpp:249-253,
src/rule/RuleBlock.cpp:205-209. -/
def removeAt (o : O) (i : Nat) : Except Err (A × O) :=
  match (s.list o)[i]? with
  | none => .error .outOfRange
  | some a => .ok (a, s.setList o ((s.list o).eraseIdx i))

/-- `removeX(name)`, src/Engine.cpp:570-579, 643-652, 711-720. -/
def remove (o : O) (name : Str) : Except Err (A × O) :=
  match s.scan name 0 (s.list o) with
  | none => .error .outOfRange
  | some i => s.removeAt o i

end Slot

/-- `Engine::inputVariables` -/
def Engine.inputSlot : Slot (Engine S) (Variable S) :=
  ⟨Engine.inputs, fun e l => { e with inputs := l }, Variable.name⟩
/-- `Engine::outputVariables` -/
def Engine.outputSlot : Slot (Engine S) (OutputVariable S) :=
  ⟨Engine.outputs, fun e l => { e with outputs := l }, fun o => o.name⟩
/-- `Engine::ruleBlocks` -/
def Engine.blockSlot : Slot (Engine S) (RuleBlock S) :=
  ⟨Engine.blocks, fun e l => { e with blocks := l }, RuleBlock.name⟩
/-- `Variable::terms` -/
def Variable.termSlot : Slot (Variable S) (Term S) :=
  ⟨Variable.terms, fun v l => { v with terms := l }, Term.name⟩
/-- `RuleBlock::rules`; rules have no name, and the functions taking names do not exist for them -/
def RuleBlock.ruleSlot : Slot (RuleBlock S) (Rule S) :=
  ⟨RuleBlock.rules, fun b l => { b with rules := l }, fun _ => []⟩

/-- `Engine::variables`, src/Engine.cpp:516-522. -/
def Engine.variables (e : Engine S) : List (Variable S) := e.inputs ++ e.outputs.map OutputVariable.toVariable

/-- `Engine::getOutputValue(name)`, src/Engine.cpp:600-603. -/
def Engine.getOutputValue (e : Engine S) (name : Str) : Except Err S :=
  match Engine.outputSlot.get e name with
  | .error err => .error err
  | .ok o => .ok o.value

end FL
