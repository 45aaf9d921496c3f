/-
Kinds of engines, configuration of engines and sorting of terms (src/Engine.cpp, src/variable/Variable.cpp).
-/
import Verif.Model.Fll

namespace FL
open Scalar
variable {S : Type} [Scalar S]

/-! ### Engine::type -/

/-- `Engine::Type`, fuzzylite/Engine.h:197-219 -/
inductive EngineType
  | mamdani | larsen | takagiSugeno | tsukamoto | inverseTsukamoto | hybrid | unknown
  deriving DecidableEq, Repr

/-- what `Engine::type` stores into `*name`, src/Engine.cpp:372-510 -/
def EngineType.name : EngineType → Str
  | .mamdani => cs! "Mamdani"
  | .larsen => cs! "Larsen"
  | .takagiSugeno => cs! "Takagi-Sugeno"
  | .tsukamoto => cs! "Tsukamoto"
  | .inverseTsukamoto => cs! "Inverse Tsukamoto"
  | .hybrid => cs! "Hybrid"
  | .unknown => cs! "Unknown"

namespace Engine

/-- `dynamic_cast<const AlgebraicProduct*>(implication)` -/
def isProduct : Option (TNorm S) → Bool
  | some (.builtin .algebraicProduct) => true
  | _ => false

/-- `dynamic_cast<WeightedDefuzzifier*>(defuzzifier)` and its type -/
def weightedType : Option Defuzzifier → Option WeightedType
  | some (.weighted _ t) => some t
  | _ => none

/-- the checks on an output variable for Takagi-Sugeno, src/Engine.cpp:419-437 -/
def suitsTakagiSugeno (o : OutputVariable S) : Bool :=
  match weightedType o.defuzzifier with
  | none => false
  | some w => (w == .automatic || w == .takagiSugeno) && o.terms.all fun t => Weighted.inferTerm t == .takagiSugeno

/-- the checks on an output variable for Tsukamoto, src/Engine.cpp:449-466 -/
def suitsTsukamoto (o : OutputVariable S) : Bool :=
  match weightedType o.defuzzifier with
  | none => false
  | some w => (w == .automatic || w == .tsukamoto) && o.terms.all Term.isMonotonic

/-- `Engine::type`, src/Engine.cpp:372-510.  Simplified: the text `*reason` is not modelled. -/
def type (e : Engine S) : EngineType :=
  if e.outputs.isEmpty then .unknown
  else
    let mamdani := e.outputs.all fun o => isIntegral o.defuzzifier
    let larsen := mamdani && !e.blocks.isEmpty && e.blocks.all fun b => isProduct b.implication
    if larsen then .larsen
    else if mamdani then .mamdani
    else if e.outputs.all suitsTakagiSugeno then .takagiSugeno
    else if e.outputs.all suitsTsukamoto then .tsukamoto
    else if e.outputs.all fun o => (weightedType o.defuzzifier).isSome then .inverseTsukamoto
    else if e.outputs.all fun o => o.defuzzifier.isSome then .hybrid
    else .unknown

/-! ### Engine::configure -/

/-- `Engine::configure` with objects, src/Engine.cpp:154-187.  Simplified: objects are values, so that
cloning and deleting them cannot be observed. -/
def configure (e : Engine S) (conjunction : Option (TNorm S)) (disjunction : Option (SNorm S))
    (implication : Option (TNorm S)) (aggregation : Option (SNorm S)) (defuzzifier : Option Defuzzifier)
    (activation : Option (Activation S)) : Engine S :=
  { e with
    blocks := e.blocks.map fun b =>
      { b with
        conjunction := conjunction, disjunction := disjunction, implication := implication,
        activation := some (activation.getD .general) }
    outputs := e.outputs.map fun o =>
      { o with defuzzifier := defuzzifier, fuzzy := { o.fuzzy with aggregation := aggregation } } }

/-- `ConstructionFactory::constructObject`, fuzzylite/factory/ConstructionFactory.h:172-182, for the
default factories: the empty name makes null, names of registered classes make objects, and others raise. -/
def construct {α : Type} (registered : List α) (className : α → Str) (key : Str) : Except Err (Option α) :=
  if key.isEmpty then .ok none
  else match registered.find? fun a => className a == key with
  | some a => .ok (some a)
  | none => .error .outOfRange

/-- `Engine::configure` with names, src/Engine.cpp:124-152, for the given
`IntegralDefuzzifier::defaultResolution()`.  Simplified: objects constructed before an exception leak,
which is not modelled. -/
def configureNames (resolution : Int) (e : Engine S) (conjunction disjunction implication aggregation defuzzifier
    activation : Str) : Except Err (Engine S) := do
  let c ← construct TNormKind.registered TNormKind.className conjunction
  let d ← construct SNormKind.registered SNormKind.className disjunction
  let i ← construct TNormKind.registered TNormKind.className implication
  let a ← construct SNormKind.registered SNormKind.className aggregation
  let z ← construct (Defuzzifier.registered resolution) Defuzzifier.className defuzzifier
  let m ← construct (Activation.registered (S := S)) Activation.className activation
  .ok (e.configure (c.map .builtin) (d.map .builtin) (i.map .builtin) (a.map .builtin) z m)

end Engine

/-! ### Variable::sort -/

namespace Variable

/-- the centroid of a term, src/variable/Variable.cpp:192-203: `membership(0)` of a `Constant` or `Linear`
term, the centroid of another over the range of the variable with the default resolution, and infinity
in case of an exception (undefined behaviour is passed on). -/
def centroid (resolution : Int) (ctx : Ctx S) (mn mx : S) (t : Term S) : Except Err S :=
  let r := match t.kind with
    | .constant _ => t.membership ctx (lit 0)
    | .linear _ _ => t.membership ctx (lit 0)
    | _ => Integral.defuzzify .centroid resolution (t.membership ctx) mn mx
  match r with
  | .ok z => .ok z
  | .error .ub => .error .ub
  | .error _ => .ok inf

/-- `Variable::sort`, src/variable/Variable.cpp:189-215.  `Ascending` compares with `>`, so that the least
centroid leaves the queue first.  Simplified: rules refer to the terms of variables by position in the
model and by address in the code, so that the model of sorting is about variables alone. -/
def sort [Heap S] (resolution : Int) (ctx : Ctx S) (v : Variable S) : Except Err (Variable S) := do
  let cs ← v.terms.mapM (centroid resolution ctx v.minimum v.maximum)
  .ok { v with terms := (Heap.pops (fun a b => gt a b) cs).filterMap fun i => v.terms[i]? }

end Variable
end FL
