/-
The status that `Engine::isReady` writes: one line per missing component.
-/
import Verif.Model.Engine
import Verif.Model.Decimal

namespace FL

variable {S : Type} [Scalar S]

namespace Engine

/-- the three counters of src/Engine.cpp:229-231 -/
structure Counters where
  conjunction : Nat
  disjunction : Nat
  implication : Nat
  deriving DecidableEq, Repr

/-- the body of the loop over the rules of a block, src/Engine.cpp:232-259.  Simplified: rules are never null. -/
def countRule (outputs : List (OutputVariable S)) (c : Counters) (r : Rule S) : Counters :=
  let c := if textRequires andKeyword r.text then { c with conjunction := c.conjunction + 1 } else c
  let c := if textRequires orKeyword r.text then { c with disjunction := c.disjunction + 1 } else c
  if ruleRequiresImplication outputs r then { c with implication := c.implication + 1 } else c

/-- `"- Rule block " << (i + 1) << " <" << ruleblock->getName()`, src/Engine.cpp:228 -/
def blockHead (i : Nat) (b : RuleBlock S) : Str :=
  cs! "- Rule block " ++ Decimal.digits (i + 1) ++ cs! " <" ++ b.name

/-- the two lines about a missing operator, src/Engine.cpp:260-283 -/
def operatorText (i : Nat) (b : RuleBlock S) (required : Nat) (present : Bool) (operator : Str) : Str :=
  if 0 < required && !present then
    blockHead i b ++ cs! "> has no " ++ operator ++ cs! " operator\n"
      ++ (blockHead i b ++ cs! "> has " ++ Decimal.digits required ++ cs! " rules that require " ++ operator
        ++ cs! " operator\n")
  else []

/-- what is written about the rule block of index `i`, src/Engine.cpp:223-284.  Simplified: rule blocks are
never null. -/
def blockText (outputs : List (OutputVariable S)) (i : Nat) (b : RuleBlock S) : Str :=
  let c := b.rules.foldl (countRule outputs) ⟨0, 0, 0⟩
  (if b.rules.isEmpty then blockHead i b ++ cs! "> has no rules\n" else [])
    ++ operatorText i b c.conjunction b.conjunction.isSome (cs! "conjunction")
    ++ operatorText i b c.disjunction b.disjunction.isSome (cs! "disjunction")
    ++ operatorText i b c.implication b.implication.isSome (cs! "implication")

/-- what is written about an output variable, src/Engine.cpp:206-217.  Simplified: variables are never null. -/
def outputText (o : OutputVariable S) : Str :=
  (if o.terms.isEmpty then cs! "- Output variable <" ++ o.name ++ cs! "> has no terms\n" else [])
    ++ (if o.defuzzifier.isNone then cs! "- Output variable <" ++ o.name ++ cs! "> has no defuzzifier\n" else [])
    ++ (if o.fuzzy.aggregation.isNone && isIntegral o.defuzzifier
        then cs! "- Output variable <" ++ o.name ++ cs! "> has no aggregation operator\n" else [])

/-- the status of `Engine::isReady`, src/Engine.cpp:189-288 -/
def status (e : Engine S) : Str :=
  (if e.inputs.isEmpty then cs! "- Engine <" ++ e.name ++ cs! "> has no input variables\n" else [])
    ++ (if e.outputs.isEmpty then cs! "- Engine <" ++ e.name ++ cs! "> has no output variables\n" else [])
    ++ (e.outputs.map outputText).flatten
    ++ (if e.blocks.isEmpty then cs! "- Engine <" ++ e.name ++ cs! "> has no rule blocks\n" else [])
    ++ (e.blocks.mapIdx fun i b => blockText e.outputs i b).flatten

end Engine
end FL
