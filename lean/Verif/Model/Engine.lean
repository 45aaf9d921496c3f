/-
Engine (src/Engine.cpp).
-/
import Verif.Model.Activation

namespace FL
open Scalar
variable {S : Type} [Scalar S]

/-- `Engine`, src/Engine.cpp:42-62. -/
structure Engine (S : Type) where
  name : Str
  description : Str
  inputs : List (Variable S)
  outputs : List (OutputVariable S)
  blocks : List (RuleBlock S)

namespace Engine

def world (e : Engine S) : World S := ⟨e.inputs, e.outputs⟩
def setWorld (e : Engine S) (w : World S) : Engine S := { e with inputs := w.inputs, outputs := w.outputs }

/-- `Engine::restart`, src/Engine.cpp:290-295. -/
def restart (e : Engine S) : Engine S :=
  { e with inputs := e.inputs.map fun v => v.setValue nan, outputs := e.outputs.map OutputVariable.clear }

/-- the second loop of `Engine::process`, src/Engine.cpp:316-323 -/
def activateBlocks [Heap S] : World S → List (RuleBlock S) → World S × List (RuleBlock S) × Option Err
  | w, [] => (w, [], none)
  | w, b :: bs =>
    if !b.enabled then
      match activateBlocks w bs with
      | (w, bs, e) => (w, b :: bs, e)
    else match b.activate w with
    | (w, b, some e) => (w, b :: bs, some e)
    | (w, b, none) =>
      match activateBlocks w bs with
      | (w, bs, e) => (w, b :: bs, e)

/-- the third loop of `Engine::process`, src/Engine.cpp:325-326: the variables `done` have been
defuzzified, those in the list are next.  Function terms read the values of all variables. -/
def defuzzifyAll (inputs : List (Variable S)) :
    List (OutputVariable S) → List (OutputVariable S) → List (OutputVariable S) × Option Err
  | done, [] => (done, none)
  | done, o :: os =>
    match o.defuzzify (World.ctx ⟨inputs, done ++ o :: os⟩) with
    | .error e => (done ++ o :: os, some e)
    | .ok o => defuzzifyAll inputs (done ++ [o]) os

/-- `Engine::process`, src/Engine.cpp:297-350 (without the debugging output): the engine afterwards
and the exception. -/
def process [Heap S] (e : Engine S) : Engine S × Option Err :=
  let cleared := e.outputs.map fun o => { o with fuzzy := o.fuzzy.clear }
  match activateBlocks ⟨e.inputs, cleared⟩ e.blocks with
  | (w, bs, some err) => ({ e with inputs := w.inputs, outputs := w.outputs, blocks := bs }, some err)
  | (w, bs, none) =>
    match defuzzifyAll w.inputs [] w.outputs with
    | (os, err) => ({ e with inputs := w.inputs, outputs := os, blocks := bs }, err)

/-- `Engine::setInputValue(name, value)`, src/Engine.cpp:527-530. -/
def setInputValue (e : Engine S) (name : Str) (x : S) : Except Err (Engine S) :=
  match e.inputs.findIdx? fun v => v.name == name with
  | none => .error .outOfRange
  | some i => .ok { e with inputs := e.inputs.modify i fun v => v.setValue x }

/-- set the values of the input variables, in order -/
def setInputs (e : Engine S) (xs : List S) : Engine S :=
  { e with inputs := List.zipWith (fun v x => v.setValue x) e.inputs xs ++ e.inputs.drop xs.length }

/-- the values of the output variables -/
def outputValues (e : Engine S) : List S := e.outputs.map fun o => o.value

/-- `text.find(pattern)`: the position of the first occurrence -/
def position (pattern text : Str) : Option Nat := (Op.search pattern text).map fun p => p.1.length

/-- `index != npos and index < thenIndex`, src/Engine.cpp:239-246 -/
def before (i thenIndex : Option Nat) : Bool :=
  match i, thenIndex with
  | none, _ => false
  | some _, none => true
  | some i, some t => decide (i < t)

/-- `requiresConjunction` of a rule, src/Engine.cpp:239-244: decided from the text of the rule -/
def textRequires (keyword : Str) (text : Str) : Bool :=
  before (position (cs! " " ++ keyword ++ cs! " ") text) (position (cs! " " ++ thenKeyword ++ cs! " ") text)

/-- the defuzzifier is an `IntegralDefuzzifier` -/
def isIntegral : Option Defuzzifier → Bool
  | some (.integral _ _) => true
  | _ => false

/-- `requiresImplication` of a rule, src/Engine.cpp:247-258 -/
def ruleRequiresImplication (outputs : List (OutputVariable S)) (r : Rule S) : Bool :=
  r.isLoaded && r.conclusions.any fun p =>
    match p.var with
    | .output i => (outputs[i]?.map fun o => isIntegral o.defuzzifier).getD false
    | .input _ => false

/-- no message about a rule block, src/Engine.cpp:222-284 -/
def blockReady (outputs : List (OutputVariable S)) (b : RuleBlock S) : Bool :=
  !b.rules.isEmpty
    && (b.conjunction.isSome || !b.rules.any fun r => textRequires andKeyword r.text)
    && (b.disjunction.isSome || !b.rules.any fun r => textRequires orKeyword r.text)
    && (b.implication.isSome || !b.rules.any fun r => ruleRequiresImplication outputs r)

/-- no message about an output variable, src/Engine.cpp:204-219 -/
def outputReady (o : OutputVariable S) : Bool :=
  !o.terms.isEmpty && o.defuzzifier.isSome && (o.fuzzy.aggregation.isSome || !isIntegral o.defuzzifier)

/-- `Engine::isReady`, src/Engine.cpp:189-288.  Simplified: components are never null.
The text of the status is in Model/Status.lean. -/
def isReady (e : Engine S) : Bool :=
  !e.inputs.isEmpty && !e.outputs.isEmpty && e.outputs.all outputReady
    && !e.blocks.isEmpty && e.blocks.all (blockReady e.outputs)

/-- `Term::updateReference` of every class -/
def updateTerm {S : Type} [ScalarText S] (F : ElementFactory S) (ctx : Ctx S) (t : Term S) : Term S :=
  match t.kind with
  | .linear c _ => { t with kind := .linear c true }
  | .function f => { t with kind := .function (f.updateReference F ctx) }
  | _ => t

/-- `Engine::updateReferences`, src/Engine.cpp:106-113. -/
def updateReferences {S : Type} [ScalarText S] (F : ElementFactory S) (w : World S) : World S :=
  ⟨w.inputs.map fun v => { v with terms := v.terms.map (updateTerm F w.ctx) },
   w.outputs.map fun v => { v with terms := v.terms.map (updateTerm F w.ctx) }⟩

/-- the copy of the fuzzy output of a variable, src/variable/OutputVariable.cpp:51: the copied
activated terms keep pointing at the terms of the original variable, which are not terms of the
copy (`id` beyond the last). -/
def cloneOutput (o : OutputVariable S) : OutputVariable S :=
  { o with fuzzy := { o.fuzzy with terms := o.fuzzy.terms.map fun a => { a with id := a.id + o.terms.length } } }

/-- `Engine::copyFrom`, src/Engine.cpp:85-104 (`Engine::clone`, copy constructor and assignment):
exceptions while loading rules are ignored. -/
def clone {S : Type} [ScalarText S] (G : Registry S) (e : Engine S) : Engine S :=
  let w := updateReferences G.functions ⟨e.inputs, e.outputs.map cloneOutput⟩
  ⟨e.name, e.description, w.inputs, w.outputs, e.blocks.map fun b => (b.clone.loadRules G w.vocabulary).1⟩

end Engine
end FL
