/-
Variables (src/variable).
-/
import Verif.Model.Defuzzifier

namespace FL
open Scalar
variable {S : Type} [Scalar S]

/-- `Variable` and `InputVariable`, src/variable/Variable.cpp:31-39. -/
structure Variable (S : Type) where
  name : Str
  description : Str
  terms : List (Term S)
  value : S
  minimum : S
  maximum : S
  enabled : Bool
  lockRange : Bool

namespace Variable

/-- constructor, src/variable/Variable.cpp:31-39 -/
def new (name : Str) (minimum maximum : S) (terms : List (Term S)) : Variable S :=
  ⟨name, [], terms, nan, minimum, maximum, true, false⟩

/-- `Variable::setValue`, src/variable/Variable.cpp:88-90. -/
def setValue (v : Variable S) (x : S) : Variable S :=
  { v with value := if v.lockRange then Op.bound x v.minimum v.maximum else x }

/-- `Variable::setMinimum`, src/variable/Variable.cpp:105-107. -/
def setMinimum (v : Variable S) (x : S) : Variable S := { v with minimum := x }
/-- `Variable::setMaximum`, src/variable/Variable.cpp:113-115. -/
def setMaximum (v : Variable S) (x : S) : Variable S := { v with maximum := x }
/-- `Variable::setRange`, src/variable/Variable.cpp:96-99. -/
def setRange (v : Variable S) (mn mx : S) : Variable S := (v.setMinimum mn).setMaximum mx
/-- `Variable::setLockValueInRange`, src/variable/Variable.cpp:129-131. -/
def setLockRange (v : Variable S) (b : Bool) : Variable S := { v with lockRange := b }

/-- `Variable::activations`, src/variable/Variable.cpp:141-153: exceptions become NaN.
Undefined behaviour is passed on. -/
def activations (ctx : Ctx S) (v : Variable S) (x : S) : Except Err (List (Activated S)) :=
  (List.range v.terms.length).zip v.terms |>.mapM fun (p : Nat × Term S) =>
    match p.2.membership ctx x with
    | .ok y => .ok ⟨p.1, p.2, y, none⟩
    | .error .ub => .error .ub
    | .error _ => .ok ⟨p.1, p.2, nan, none⟩

/-- `Variable::maxActivations`, src/variable/Variable.cpp:159-161. -/
def maxActivations (ctx : Ctx S) (v : Variable S) (x : S) : Except Err (List (Activated S)) := do
  let ts ← v.activations ctx x
  .ok (Aggregated.maximallyActivatedTerms ⟨[], nan, nan, none, ts⟩)

/-- `Variable::highestMembership`, src/variable/Variable.cpp:163-171: the term (`none` is a null
pointer) and its degree. -/
def highestMembership (ctx : Ctx S) (v : Variable S) (x : S) : Except Err (Option (Activated S) × S) := do
  let m ← v.maxActivations ctx x
  .ok (match m with
    | [] => (none, nan)
    | a :: _ => (some a, a.degree))

/-- `Variable::hasTerm`, src/variable/Variable.cpp:242-247. -/
def hasTerm (v : Variable S) (name : Str) : Bool := v.terms.any fun t => t.name == name

/-- `Variable::getTerm(name)`, src/variable/Variable.cpp:229-240. -/
def getTerm (v : Variable S) (name : Str) : Except Err (Term S) :=
  match v.terms.find? fun t => t.name == name with
  | some t => .ok t
  | none => .error .outOfRange

/-- `Variable::getTerm(index)`, src/variable/Variable.cpp:225-227. -/
def getTermAt (v : Variable S) (i : Nat) : Except Err (Term S) :=
  match v.terms[i]? with
  | some t => .ok t
  | none => .error .outOfRange

/-- `Variable::addTerm`, src/variable/Variable.cpp:217-219. -/
def addTerm (v : Variable S) (t : Term S) : Variable S := { v with terms := v.terms ++ [t] }

/-- `Variable::insertTerm`, src/variable/Variable.cpp:221-223: undefined beyond the end. -/
def insertTerm (v : Variable S) (t : Term S) (i : Nat) : Except Err (Variable S) :=
  if i ≤ v.terms.length then .ok { v with terms := v.terms.insertIdx i t } else .error .ub

/-- `Variable::removeTerm`, src/variable/Variable.cpp:249-253. -/
def removeTerm (v : Variable S) (i : Nat) : Except Err (Term S × Variable S) :=
  match v.terms[i]? with
  | some t => .ok (t, { v with terms := v.terms.eraseIdx i })
  | none => .error .outOfRange

end Variable

/-- `OutputVariable`, src/variable/OutputVariable.cpp:24-31. -/
structure OutputVariable (S : Type) extends Variable S where
  fuzzy : Aggregated S
  defuzzifier : Option Defuzzifier
  previous : S
  default : S
  lockPrevious : Bool

namespace OutputVariable

/-- constructor, src/variable/OutputVariable.cpp:24-31 -/
def new (name : Str) (minimum maximum : S) (terms : List (Term S)) : OutputVariable S :=
  { Variable.new name minimum maximum terms with
    fuzzy := ⟨name, minimum, maximum, none, []⟩, defuzzifier := none, previous := nan, default := nan,
    lockPrevious := false }

/-- `setValue` on an output variable -/
def setValue (v : OutputVariable S) (x : S) : OutputVariable S :=
  { v with toVariable := v.toVariable.setValue x }

/-- `OutputVariable::setName`, src/variable/OutputVariable.cpp:59-62. -/
def setName (v : OutputVariable S) (n : Str) : OutputVariable S :=
  { v with name := n, fuzzy := { v.fuzzy with name := n } }
/-- `OutputVariable::setMinimum`, src/variable/OutputVariable.cpp:68-71. -/
def setMinimum (v : OutputVariable S) (x : S) : OutputVariable S :=
  { v with minimum := x, fuzzy := { v.fuzzy with minimum := x } }
/-- `OutputVariable::setMaximum`, src/variable/OutputVariable.cpp:73-76. -/
def setMaximum (v : OutputVariable S) (x : S) : OutputVariable S :=
  { v with maximum := x, fuzzy := { v.fuzzy with maximum := x } }

/-- `OutputVariable::defuzzify`, src/variable/OutputVariable.cpp:122-140. -/
def defuzzify (ctx : Ctx S) (v : OutputVariable S) : Except Err (OutputVariable S) :=
  if !v.enabled then .ok v
  else match v.defuzzifier with
  | none => .error .missingDefuzzifier
  | some d => do
    let z ← d.defuzzify ctx v.fuzzy v.minimum v.maximum
    let z := if v.lockPrevious && Op.isNaN z then v.previous else z
    let z := if Op.isNaN z then v.default else z
    .ok (({ v with previous := v.value } : OutputVariable S).setValue z)

/-- `OutputVariable::defuzzify_v6`, src/variable/OutputVariable.cpp:142-184 (undefined behaviour is
passed on without effect). -/
def defuzzifyV6 (ctx : Ctx S) (v : OutputVariable S) : OutputVariable S × Option Err :=
  if !v.enabled then (v, none)
  else
    let v : OutputVariable S := if Op.isFinite v.value then { v with previous := v.value } else v
    let fallback := if v.lockPrevious && !Op.isNaN v.previous then v.previous else v.default
    if v.fuzzy.terms.isEmpty then (v.setValue fallback, none)
    else match v.defuzzifier with
    | none => (v.setValue fallback, some .missingDefuzzifier)
    | some d =>
      match d.defuzzify ctx v.fuzzy v.minimum v.maximum with
      | .ok z => (v.setValue z, none)
      | .error .ub => (v, some .ub)
      | .error e => (v.setValue fallback, some e)

/-- `OutputVariable::clear`, src/variable/OutputVariable.cpp:197-201. -/
def clear (v : OutputVariable S) : OutputVariable S :=
  { ({ v with fuzzy := v.fuzzy.clear } : OutputVariable S).setValue nan with previous := nan }

end OutputVariable

/-- the variables of an engine, as seen by rules -/
structure World (S : Type) where
  inputs : List (Variable S)
  outputs : List (OutputVariable S)

/-- the values that terms may read -/
def World.ctx (w : World S) : Ctx S :=
  ⟨w.inputs.map fun v => (v.name, v.value), w.outputs.map fun v => (v.name, v.value)⟩

end FL
