/-
The texts of fuzzy values: `fuzzyValue` of activated terms and of fuzzy sets, `Variable::fuzzify` and
`OutputVariable::fuzzyOutputValue`.
-/
import Verif.Model.Variable

namespace FL
open Scalar
variable {S : Type}

/-- the sign of `Activated::fuzzyValue`, src/term/Activated.cpp:113 -/
def Activated.sign [Scalar S] (a : Activated S) : Char :=
  if ge a.degree (lit 0) || Op.isNaN a.degree then '+' else '-'

variable [ScalarText S]

/-- `Activated::fuzzyValue`, src/term/Activated.cpp:110-115. -/
def Activated.fuzzyValue (a : Activated S) : Str :=
  a.sign :: (ScalarText.str (abs a.degree) ++ cs! "/" ++ a.term.name)

/-- an iteration of `Aggregated::fuzzyValue`, src/term/Aggregated.cpp:277-284: what the term at a
position adds to the text -/
def Aggregated.fuzzyValuePart (i : Nat) (fuzzyValue : Str) : Str :=
  let sign := fuzzyValue.take 1
  let value := fuzzyValue.drop 1
  (if i = 0 ∧ sign = cs! "-" then sign else []) ++ (if 0 < i then cs! " " ++ sign ++ cs! " " else []) ++ value

/-- `Aggregated::fuzzyValue`, src/term/Aggregated.cpp:274-287. -/
def Aggregated.fuzzyValue (g : Aggregated S) : Str :=
  g.terms.zipIdx.flatMap fun p => Aggregated.fuzzyValuePart p.2 p.1.fuzzyValue

/-- `Variable::fuzzify`, src/variable/Variable.cpp:155-157. -/
def Variable.fuzzify (ctx : Ctx S) (v : Variable S) (x : S) : Except Err Str := do
  let ts ← v.activations ctx x
  .ok (Aggregated.fuzzyValue ⟨[], nan, nan, none, ts⟩)

/-- `InputVariable::fuzzyInputValue`, src/variable/InputVariable.cpp:31-33. -/
def Variable.fuzzyInputValue (ctx : Ctx S) (v : Variable S) : Except Err Str := v.fuzzify ctx v.value

/-- `OutputVariable::fuzzyOutputValue`, src/variable/OutputVariable.cpp:186-195.  The terms of the variable
come first with degree zero. -/
def OutputVariable.fuzzyOutputValue (o : OutputVariable S) : Except Err Str := do
  let zeros : List (Activated S) := o.terms.zipIdx.map fun p => ⟨p.2, p.1, lit 0, none⟩
  let g ← o.fuzzy.grouped
  let r ← Aggregated.grouped ⟨[], nan, nan, none, zeros ++ g.terms⟩
  .ok r.fuzzyValue

end FL
