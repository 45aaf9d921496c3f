/-
Terms of all classes, norms and hedges including the ones defined by formulas, activated terms and
aggregated fuzzy sets.
-/
import Verif.Model.Norm
import Verif.Model.Hedge
import Verif.Model.Shape
import Verif.Model.Formula

namespace FL
open Scalar
variable {S : Type} [Scalar S]

/-- T-Norms: built-in classes, or `TNormFunction` (src/norm/t/TNormFunction.cpp). -/
inductive TNorm (S : Type)
  | builtin (k : TNormKind)
  | function (f : Fun S)

/-- S-Norms: built-in classes, or `SNormFunction` (src/norm/s/SNormFunction.cpp). -/
inductive SNorm (S : Type)
  | builtin (k : SNormKind)
  | function (f : Fun S)

/-- Hedges: built-in classes, or `HedgeFunction` (src/hedge/HedgeFunction.cpp). -/
inductive Hedge (S : Type)
  | builtin (k : HedgeKind)
  | function (name : Str) (f : Fun S)

/-- `TNormFunction::compute` and `SNormFunction::compute`, src/norm/t/TNormFunction.cpp:33-37 and
src/norm/s/SNormFunction.cpp:33-37: the variables `a` and `b` are set and the formula evaluated.
Simplified: the update of the map of variables is not kept; it cannot be observed because `a` and
`b` are set again before every evaluation. -/
def normFunction (f : Fun S) (a b : S) : Except Err S :=
  (({ f with vars := (f.vars.set (cs! "a") a).set (cs! "b") b } : Fun S).evaluate none).1

/-- `TNorm::compute` -/
def TNorm.compute : TNorm S → S → S → Except Err S
  | .builtin k, a, b => .ok (k.compute a b)
  | .function f, a, b => normFunction f a b

/-- `SNorm::compute` -/
def SNorm.compute : SNorm S → S → S → Except Err S
  | .builtin k, a, b => .ok (k.compute a b)
  | .function f, a, b => normFunction f a b

/-- `Hedge::hedge`; `HedgeFunction::hedge`, src/hedge/HedgeFunction.cpp:35-38.
Simplified: the function of a hedge has no engine (no member of the library sets one). -/
def Hedge.hedge : Hedge S → S → Except Err S
  | .builtin k, x => .ok (k.hedge x)
  | .function _ f, x => f.membership ⟨[], []⟩ x

/-- Classes of terms: parametric shapes (`Verif.Model.Shape`), `Discrete`, `Constant`, `Linear` and
`Function`.  Simplified: the engine of a `Linear` term, when set, is the engine in which the term is
evaluated. -/
inductive TermKind (S : Type)
  | shape (s : Shape S)
  | discrete (xy : List (S × S))
  | constant (value : S)
  | linear (coefficients : List S) (hasEngine : Bool)
  | function (f : Fun S)

/-- `Term`: src/term/Term.cpp:25-42. -/
structure Term (S : Type) where
  name : Str
  height : S
  kind : TermKind S

namespace Discrete

/-- precondition of `std::lower_bound` and `std::upper_bound`: elements satisfying `p` come first -/
def partitioned {α : Type} (p : α → Bool) (l : List α) : Bool := (l.dropWhile p).all fun a => !p a

/-- `Discrete::membership`, src/term/Discrete.cpp:44-75.  Undefined behaviour: searching a list that
is not partitioned, dereferencing `end()`, decrementing `begin()`. -/
def membership (height : S) (xy : List (S × S)) (x : S) : Except Err S :=
  if Op.isNaN x then .ok nan
  else match xy.head?, xy.getLast? with
  | some first, some last =>
    if Op.isLE x first.1 then .ok (height * first.2)
    else if Op.isGE x last.1 then .ok (height * last.2)
    else
      let below : S × S → Bool := fun p => lt p.1 x
      let notAbove : S × S → Bool := fun p => !lt x p.1
      if !partitioned below xy then .error .ub
      else match (xy.dropWhile below).head? with
      | none => .error .ub
      | some lower =>
        if Op.isEq x lower.1 then .ok (height * lower.2)
        else if !partitioned notAbove xy then .error .ub
        else match (xy.takeWhile below).getLast?, (xy.dropWhile notAbove).head? with
        | some lower, some upper => .ok (height * Op.scale x lower.1 upper.1 lower.2 upper.2)
        | _, _ => .error .ub
  | _, _ => .error .evaluation

/-- `Discrete::toPairs`, src/term/Discrete.cpp:154-167. -/
def toPairs : List S → Except Err (List (S × S))
  | [] => .ok []
  | [_] => .error .syntaxError
  | x :: y :: rest => do
    let ps ← toPairs rest
    .ok ((x, y) :: ps)

/-- `Discrete::toPairs(xy, missingValue)`, src/term/Discrete.cpp:169-175. -/
def toPairsFill (xy : List S) (missing : S) : Except Err (List (S × S)) :=
  if xy.length % 2 = 0 then toPairs xy else toPairs (xy ++ [missing])

/-- `Discrete::toVector`, src/term/Discrete.cpp:177-184. -/
def toVector (ps : List (S × S)) : List S := ps.flatMap fun p => [p.1, p.2]

end Discrete

/-- `Linear::membership`, src/term/Linear.cpp:35-54. -/
def linearMembership (coefficients : List S) (hasEngine : Bool) (inputs : List S) : Except Err S :=
  if !hasEngine then .error .evaluation
  else
    let result := ((List.range inputs.length).filter fun i => decide (i < coefficients.length)).foldl
      (fun acc i => acc + coefficients.getD i (lit 0) * inputs.getD i (lit 0)) (lit 0)
    .ok (if coefficients.length > inputs.length then result + coefficients.getLast?.getD (lit 0) else result)

namespace Term

/-- `Term::membership` of every class; `Constant::membership`, src/term/Constant.cpp:30-33. -/
def membership (ctx : Ctx S) (t : Term S) (x : S) : Except Err S :=
  match t.kind with
  | .shape s => .ok (s.membership t.height x)
  | .discrete xy => Discrete.membership t.height xy x
  | .constant v => .ok v
  | .linear c e => linearMembership c e (ctx.inputs.map Prod.snd)
  | .function f => f.membership ctx x

/-- `Term::isMonotonic`, src/term/Term.cpp:60-62 and overrides. -/
def isMonotonic (t : Term S) : Bool :=
  match t.kind with
  | .shape s => s.isMonotonic
  | _ => false

/-- `Term::tsukamoto`, src/term/Term.cpp:55-58 and overrides. -/
def tsukamoto (t : Term S) (y : S) : Except Err S :=
  match t.kind with
  | .shape s =>
    match s.tsukamoto t.height y with
    | some z => .ok z
    | none => .error .unsupported
  | _ => .error .unsupported

end Term

/-- `Discrete::discretize`, src/term/Discrete.cpp:203-215 (`resolution + 1` points). -/
def Discrete.discretize (ctx : Ctx S) (t : Term S) (start stop : S) (resolution : Nat) (bounded : Bool) :
    Except Err (List (S × S)) :=
  let dx := (stop - start) / lit (resolution : Rat)
  (List.range (resolution + 1)).mapM fun (i : Nat) => do
    let x := start + lit (i : Rat) * dx
    let y ← t.membership ctx x
    .ok (x, if bounded then Op.bound y (lit 0) (lit 1) else y)

/-- `Activated`, src/term/Activated.cpp:22-27: the degree is stored as the height of the term.
`id` stands for the address of the term: it identifies the term in the variable it belongs to.
Simplified: an activated term always has a term. -/
structure Activated (S : Type) where
  id : Nat
  term : Term S
  degree : S
  implication : Option (TNorm S)

namespace Activated

/-- `Activated::membership`, src/term/Activated.cpp:43-56. -/
def membership (ctx : Ctx S) (a : Activated S) (x : S) : Except Err S :=
  if Op.isNaN x then .ok nan
  else match a.implication with
  | none => .error .missingImplication
  | some imp => do
    let mu ← a.term.membership ctx x
    imp.compute mu a.degree

end Activated

/-- `Aggregated`, src/term/Aggregated.cpp:26-65. -/
structure Aggregated (S : Type) where
  name : Str
  minimum : S
  maximum : S
  aggregation : Option (SNorm S)
  terms : List (Activated S)

namespace Aggregated

/-- `Aggregated::membership`, src/term/Aggregated.cpp:67-83. -/
def membership (ctx : Ctx S) (g : Aggregated S) (x : S) : Except Err S :=
  if Op.isNaN x then .ok nan
  else match g.aggregation with
  | none => if g.terms.isEmpty then .ok (lit 0) else .error .missingAggregation
  | some agg => g.terms.foldlM (fun mu a => do
      let y ← a.membership ctx x
      agg.compute mu y) (lit 0)

/-- `Aggregated::activationDegree`, src/term/Aggregated.cpp:85-97. -/
def activationDegree (g : Aggregated S) (id : Nat) : Except Err S :=
  g.terms.foldlM (fun result a =>
    if a.id = id then
      match g.aggregation with
      | some agg => agg.compute result a.degree
      | none => .ok (result + a.degree)
    else .ok result) (lit 0)

/-- one iteration of `Aggregated::maximallyActivatedTerms`, src/term/Aggregated.cpp:109-118: the
list and the greatest degree so far. -/
def maximalStep (s : List (Activated S) × S) (a : Activated S) : List (Activated S) × S :=
  if lt s.2 a.degree then ([a], a.degree)
  else if lt (lit 0) s.2 && Scalar.eq s.2 a.degree then (s.1 ++ [a], s.2)
  else s

/-- `Aggregated::maximallyActivatedTerms`, src/term/Aggregated.cpp:106-120. -/
def maximallyActivatedTerms (g : Aggregated S) : List (Activated S) :=
  (g.terms.foldl maximalStep ([], lit 0)).1

/-- `Aggregated::highestActivatedTerm`, src/term/Aggregated.cpp:99-104 (`none` is an activated term
without term). -/
def highestActivatedTerm (g : Aggregated S) : Option (Activated S) :=
  g.maximallyActivatedTerms.head?

/-- `std::map<std::string, Activated>` as an association list without repeated keys -/
abbrev Groups (S : Type) := List (Str × Activated S)

/-- one iteration of the first loop of `Aggregated::grouped`, src/term/Aggregated.cpp:130-140. -/
def groupStep (agg : SNorm S) (groups : Groups S) (a : Activated S) : Except Err (Groups S) :=
  match groups.find? fun p => p.1 == a.term.name with
  | none => .ok (groups ++ [(a.term.name, a)])
  | some p => do
    let d ← agg.compute p.2.degree a.degree
    .ok (groups.map fun q => if q.1 == a.term.name then (q.1, { q.2 with degree := d }) else q)

/-- one iteration of the second loop of `Aggregated::grouped`, src/term/Aggregated.cpp:145-152: the
activations so far and the remaining groups. -/
def ungroupStep (s : List (Activated S) × Groups S) (a : Activated S) : List (Activated S) × Groups S :=
  match s.2.find? fun p => p.1 == a.term.name with
  | some p => (s.1 ++ [p.2], s.2.filter fun q => !(q.1 == a.term.name))
  | none => s

/-- `Aggregated::grouped`, src/term/Aggregated.cpp:126-158. -/
def grouped (g : Aggregated S) : Except Err (Aggregated S) := do
  let agg := g.aggregation.getD (.builtin .unboundedSum)
  let groups ← g.terms.foldlM (groupStep agg) []
  .ok { g with terms := (g.terms.foldl ungroupStep ([], groups)).1 }

/-- `Aggregated::addTerm`, src/term/Aggregated.cpp:230-238. -/
def addTerm (g : Aggregated S) (a : Activated S) : Aggregated S := { g with terms := g.terms ++ [a] }

/-- `Aggregated::clear`, src/term/Aggregated.cpp:246-248. -/
def clear (g : Aggregated S) : Aggregated S := { g with terms := [] }

/-- `Aggregated::removeTerm`, src/term/Aggregated.cpp:240-244: the fuzzy set afterwards and the
result.  The reference to the erased element is returned after `erase` has invalidated it. -/
def removeTerm (g : Aggregated S) (i : Nat) : Aggregated S × Except Err (Activated S) :=
  if i < g.terms.length then ({ g with terms := g.terms.eraseIdx i }, .error .ub)
  else (g, .error .outOfRange)

/-- what the storage designated by the result of `removeTerm` holds: `std::vector::erase` moves the
following elements one position down, and destroys the last one (`none`). -/
def removedStorage (g : Aggregated S) (i : Nat) : Option (Activated S) :=
  (g.removeTerm i).1.terms[i]?

end Aggregated
end FL
