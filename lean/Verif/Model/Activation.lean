/-
Activation methods and rule blocks (src/activation, src/rule/RuleBlock.cpp).
-/
import Verif.Model.Rule

namespace FL
open Scalar
variable {S : Type} [Scalar S]

/-- `Threshold::Comparison` -/
inductive Comparison
  | lessThan | lessThanOrEqualTo | equalTo | notEqualTo | greaterThanOrEqualTo | greaterThan
  deriving DecidableEq, Repr

namespace Comparison

def all : List Comparison :=
  [.lessThan, .lessThanOrEqualTo, .equalTo, .notEqualTo, .greaterThanOrEqualTo, .greaterThan]

/-- `Threshold::comparisonOperator`, src/activation/Threshold.cpp:75-92. -/
def operator : Comparison → Str
  | .lessThan => cs! "<"
  | .lessThanOrEqualTo => cs! "<="
  | .equalTo => cs! "=="
  | .notEqualTo => cs! "!="
  | .greaterThanOrEqualTo => cs! ">="
  | .greaterThan => cs! ">"

/-- `Threshold::parseComparison`, src/activation/Threshold.cpp:105-119. -/
def parse (name : Str) : Except Err Comparison :=
  if name = cs! "<" then .ok .lessThan
  else if name = cs! "<=" then .ok .lessThanOrEqualTo
  else if name = cs! "==" then .ok .equalTo
  else if name = cs! "!=" then .ok .notEqualTo
  else if name = cs! ">=" then .ok .greaterThanOrEqualTo
  else if name = cs! ">" then .ok .greaterThan
  else .error .syntaxError

/-- `Threshold::activatesWith`, src/activation/Threshold.cpp:139-156. -/
def activates (c : Comparison) (degree value : S) : Bool :=
  match c with
  | .lessThan => Op.isLt degree value
  | .lessThanOrEqualTo => Op.isLE degree value
  | .equalTo => Op.isEq degree value
  | .notEqualTo => !Op.isEq degree value
  | .greaterThanOrEqualTo => Op.isGE degree value
  | .greaterThan => Op.isGt degree value

end Comparison

/-- Activation methods -/
inductive Activation (S : Type)
  | general
  | first (n : Int) (threshold : S)
  | last (n : Int) (threshold : S)
  | highest (n : Int)
  | lowest (n : Int)
  | proportional
  | threshold (c : Comparison) (value : S)

/-- `std::priority_queue`: `pops less keys` lists the positions of `keys` in the order in which
their elements leave the queue when compared with `less` (the greatest first).  The standard leaves
the order of equivalent keys unspecified. -/
class Heap (S : Type) where
  pops : (S → S → Bool) → List S → List Nat

/-- what the standard specifies: every element leaves once, and no element leaves before a greater
one, provided that `less` is a strict weak order on the keys -/
class LawfulHeap (S : Type) [Heap S] : Prop where
  perm : ∀ (less : S → S → Bool) (keys : List S), (Heap.pops less keys).Perm (List.range keys.length)
  sorted : ∀ (less : S → S → Bool) (keys : List S),
    (∀ a ∈ keys, less a a = false) →
    (∀ a ∈ keys, ∀ b ∈ keys, ∀ c ∈ keys, less a b = true → less b c = true → less a c = true) →
    (∀ a ∈ keys, ∀ b ∈ keys, ∀ c ∈ keys, less a b = false → less b c = false → less a c = false) →
    (Heap.pops less keys).Pairwise fun i j =>
      ∀ a b, keys[i]? = some a → keys[j]? = some b → less a b = false

/-- `RuleBlock`, src/rule/RuleBlock.cpp:28-45. -/
structure RuleBlock (S : Type) where
  name : Str
  description : Str
  enabled : Bool
  conjunction : Option (TNorm S)
  disjunction : Option (SNorm S)
  implication : Option (TNorm S)
  activation : Option (Activation S)
  rules : List (Rule S)

namespace RuleBlock

/-- constructor, src/rule/RuleBlock.cpp:28-45 -/
def new (name : Str) : RuleBlock S := ⟨name, [], true, none, none, none, none, []⟩

/-- a loop over the rules, with a state, until an exception -/
def eachRule {σ : Type} (f : σ → Rule S → σ × Rule S × Option Err) :
    σ → List (Rule S) → σ × List (Rule S) × Option Err
  | s, [] => (s, [], none)
  | s, r :: rs =>
    match f s r with
    | (s, r, some e) => (s, r :: rs, some e)
    | (s, r, none) =>
      match eachRule f s rs with
      | (s, rs, e) => (s, r :: rs, e)

/-- the body of the loops of `General`, `First`, `Last` and `Threshold`: the rule is deactivated
and, if loaded, its degree is computed and it is triggered if `choose` says so.  The state consists
of the variables and the number of rules triggered so far. -/
def selectStep (b : RuleBlock S) (choose : Nat → S → Bool) (s : World S × Nat) (r : Rule S) :
    (World S × Nat) × Rule S × Option Err :=
  let r := r.deactivate
  if !r.isLoaded then (s, r, none)
  else match r.activateWith s.1 b.conjunction b.disjunction with
  | (r, some e) => (s, r, some e)
  | (r, none) =>
    if choose s.2 r.degree then
      match r.trigger s.1 b.implication with
      | (w, r, some e) => ((w, s.2), r, some e)
      | (w, r, none) => ((w, s.2 + 1), r, none)
    else (s, r, none)

/-- `General::activate`, src/activation/General.cpp:42-57. -/
def activateGeneral (b : RuleBlock S) (w : World S) : World S × List (Rule S) × Option Err :=
  match eachRule (b.selectStep fun _ _ => true) (w, 0) b.rules with
  | (s, rs, e) => (s.1, rs, e)

/-- the condition of `First` and `Last`, src/activation/First.cpp:69-70. -/
def firstChoice (n : Int) (t : S) (activated : Nat) (d : S) : Bool :=
  decide ((activated : Int) < n) && Op.isGt d (lit 0) && Op.isGE d t

/-- `First::activate`, src/activation/First.cpp:56-76. -/
def activateFirst (b : RuleBlock S) (n : Int) (t : S) (w : World S) : World S × List (Rule S) × Option Err :=
  match eachRule (b.selectStep (firstChoice n t)) (w, 0) b.rules with
  | (s, rs, e) => (s.1, rs, e)

/-- `Last::activate`, src/activation/Last.cpp:72-94. -/
def activateLast (b : RuleBlock S) (n : Int) (t : S) (w : World S) : World S × List (Rule S) × Option Err :=
  match eachRule (b.selectStep (firstChoice n t)) (w, 0) b.rules.reverse with
  | (s, rs, e) => (s.1, rs.reverse, e)

/-- `Threshold::activate`, src/activation/Threshold.cpp:158-173. -/
def activateThreshold (b : RuleBlock S) (c : Comparison) (v : S) (w : World S) :
    World S × List (Rule S) × Option Err :=
  match eachRule (b.selectStep fun _ d => c.activates d v) (w, 0) b.rules with
  | (s, rs, e) => (s.1, rs, e)

/-- the body of the first loop of `Highest`, `Lowest` and `Proportional`: the rule is deactivated
and, if loaded, its degree is computed. -/
def degreeStep (b : RuleBlock S) (w : World S) (r : Rule S) : World S × Rule S × Option Err :=
  let r := r.deactivate
  if !r.isLoaded then (w, r, none)
  else match r.activateWith w b.conjunction b.disjunction with
  | (r, e) => (w, r, e)

/-- the rules with indices `is` are triggered in turn -/
def triggerAll (implication : Option (TNorm S)) : World S → List (Rule S) → List Nat →
    World S × List (Rule S) × Option Err
  | w, rs, [] => (w, rs, none)
  | w, rs, i :: is =>
    match rs[i]? with
    | none => (w, rs, some .ub)
    | some r =>
      match r.trigger w implication with
      | (w, r, some e) => (w, rs.set i r, some e)
      | (w, r, none) => triggerAll implication w (rs.set i r) is

/-- the rules pushed to the queue by `Highest` and `Lowest`: index and degree -/
def candidates (rs : List (Rule S)) : List (Nat × S) :=
  ((List.range rs.length).zip rs).filterMap fun p =>
    if p.2.isLoaded && Op.isGt p.2.degree (lit 0) then some (p.1, p.2.degree) else none

/-- `Highest::activate`, src/activation/Highest.cpp:61-84 and `Lowest::activate`,
src/activation/Lowest.cpp:61-85.  Simplified: the rules to push are determined after all degrees
have been computed; the code pushes in the same loop. -/
def activateOrdered [Heap S] (b : RuleBlock S) (less : S → S → Bool) (n : Int) (w : World S) :
    World S × List (Rule S) × Option Err :=
  match eachRule b.degreeStep w b.rules with
  | (w, rs, some e) => (w, rs, some e)
  | (w, rs, none) =>
    let cs := candidates rs
    let order := (Heap.pops less (cs.map Prod.snd)).filterMap fun i => cs[i]?.map Prod.fst
    triggerAll b.implication w rs (order.take n.toNat)

/-- the sum of the degrees computed by `Proportional` -/
def degreeSum (rs : List (Rule S)) : S :=
  (rs.filter Rule.isLoaded).foldl (fun s r => s + r.degree) (lit 0)

/-- the body of the second loop of `Proportional`, src/activation/Proportional.cpp:60-65. -/
def proportionalStep (b : RuleBlock S) (sum : S) (w : World S) (r : Rule S) : World S × Rule S × Option Err :=
  if !r.isLoaded then (w, r, none)
  else
    let d := r.degree / sum
    { r with degree := if Op.isNaN d then lit 0 else d }.trigger w b.implication

/-- `Proportional::activate`, src/activation/Proportional.cpp:41-66.  Simplified: the sum is computed
after the loop. -/
def activateProportional (b : RuleBlock S) (w : World S) : World S × List (Rule S) × Option Err :=
  match eachRule b.degreeStep w b.rules with
  | (w, rs, some e) => (w, rs, some e)
  | (w, rs, none) => eachRule (b.proportionalStep (degreeSum rs)) w rs

/-- `Activation::activate` -/
def activateBy [Heap S] (b : RuleBlock S) (a : Activation S) (w : World S) :
    World S × List (Rule S) × Option Err :=
  match a with
  | .general => b.activateGeneral w
  | .first n t => b.activateFirst n t w
  | .last n t => b.activateLast n t w
  | .highest n => b.activateOrdered (fun x y => lt x y) n w
  | .lowest n => b.activateOrdered (fun x y => lt y x) n w
  | .proportional => b.activateProportional w
  | .threshold c v => b.activateThreshold c v w

/-- `RuleBlock::activate`, src/rule/RuleBlock.cpp:89-93: the activation method is General when none
is set, and remains set. -/
def activate [Heap S] (b : RuleBlock S) (w : World S) : World S × RuleBlock S × Option Err :=
  let a := b.activation.getD .general
  match b.activateBy a w with
  | (w, rs, e) => (w, { b with activation := some a, rules := rs }, e)

/-- `RuleBlock::loadRules`, src/rule/RuleBlock.cpp:100-123. -/
def loadRules {S : Type} [ScalarText S] (G : Registry S) (V : Vocabulary) (b : RuleBlock S) : RuleBlock S × List Err :=
  let q := FL.loadRules G V b.rules
  ({ b with rules := q.1 }, q.2)

/-- `RuleBlock::unloadRules`, src/rule/RuleBlock.cpp:95-98. -/
def unloadRules (b : RuleBlock S) : RuleBlock S := { b with rules := b.rules.map Rule.unload }

/-- copy constructor, src/rule/RuleBlock.cpp:47-81 -/
def clone (b : RuleBlock S) : RuleBlock S := { b with rules := b.rules.map Rule.clone }

end RuleBlock
end FL
