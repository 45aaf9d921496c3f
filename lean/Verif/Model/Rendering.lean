/-
The texts of the trees of rules: src/rule/Expression.cpp, src/rule/Antecedent.cpp and
src/rule/Consequent.cpp.
-/
import Verif.Model.Rule

namespace FL
variable {S : Type}

/-- `Variable::getName` of the variable a proposition points to.  The pointer of a proposition made by
the loaders is never null, so the text `?` of src/rule/Expression.cpp:48 is not modelled; a pointer
to nothing in the engine dangles. -/
def Vocabulary.nameAt (V : Vocabulary) : VarRef → Except Err Str
  | .input i => match V.inputs[i]? with
    | some v => .ok v.1
    | none => .error .ub
  | .output i => match V.outputs[i]? with
    | some v => .ok v.1
    | none => .error .ub

/-- `Term::getName` of the term a proposition points to -/
def Vocabulary.termAt (V : Vocabulary) (v : VarRef) (j : Nat) : Except Err Str :=
  match (V.terms v)[j]? with
  | some t => .ok t
  | none => .error .ub

/-- `Proposition::toString`, src/rule/Expression.cpp:43-63. -/
def Proposition.toString (V : Vocabulary) (p : Proposition S) : Except Err Str := do
  let x ← V.nameAt p.var
  let hs := if p.hedges.isEmpty then []
    else cs! " " ++ isKeyword ++ cs! " " ++ p.hedges.flatMap fun h => h.name ++ cs! " "
  match p.term with
  | none => .ok (x ++ hs)
  | some j => do
    let t ← V.termAt p.var j
    .ok (x ++ hs ++ (if p.hedges.isEmpty then cs! " " ++ isKeyword ++ cs! " " else []) ++ t)

namespace Expr

/-- `Antecedent::toPrefix` of a node, src/rule/Antecedent.cpp:332-341.  Operators are named by the
keywords `and` and `or`, src/rule/Antecedent.cpp:246, and both operands of an operator exist,
src/rule/Antecedent.cpp:247-250. -/
def toPrefix (V : Vocabulary) : Expr S → Except Err Str
  | .prop p => p.toString V
  | .conj l r => do
    let a ← l.toPrefix V
    let b ← r.toPrefix V
    .ok (andKeyword ++ cs! " " ++ a ++ cs! " " ++ b ++ cs! " ")
  | .disj l r => do
    let a ← l.toPrefix V
    let b ← r.toPrefix V
    .ok (orKeyword ++ cs! " " ++ a ++ cs! " " ++ b ++ cs! " ")

/-- `Antecedent::toInfix` of a node, src/rule/Antecedent.cpp:349-358. -/
def toInfix (V : Vocabulary) : Expr S → Except Err Str
  | .prop p => p.toString V
  | .conj l r => do
    let a ← l.toInfix V
    let b ← r.toInfix V
    .ok (a ++ cs! " " ++ andKeyword ++ cs! " " ++ b ++ cs! " ")
  | .disj l r => do
    let a ← l.toInfix V
    let b ← r.toInfix V
    .ok (a ++ cs! " " ++ orKeyword ++ cs! " " ++ b ++ cs! " ")

/-- `Antecedent::toPostfix` of a node, src/rule/Antecedent.cpp:366-375. -/
def toPostfix (V : Vocabulary) : Expr S → Except Err Str
  | .prop p => p.toString V
  | .conj l r => do
    let a ← l.toPostfix V
    let b ← r.toPostfix V
    .ok (a ++ cs! " " ++ b ++ cs! " " ++ andKeyword ++ cs! " ")
  | .disj l r => do
    let a ← l.toPostfix V
    let b ← r.toPostfix V
    .ok (a ++ cs! " " ++ b ++ cs! " " ++ orKeyword ++ cs! " ")

end Expr

namespace Antecedent

/-- `Antecedent::toPrefix()`, src/rule/Antecedent.cpp:326-342: refused unless loaded -/
def toPrefix (V : Vocabulary) : Option (Expr S) → Except Err Str
  | none => .error .notLoaded
  | some e => e.toPrefix V

/-- `Antecedent::toInfix()`, src/rule/Antecedent.cpp:344-359 -/
def toInfix (V : Vocabulary) : Option (Expr S) → Except Err Str
  | none => .error .notLoaded
  | some e => e.toInfix V

/-- `Antecedent::toPostfix()`, src/rule/Antecedent.cpp:361-376 -/
def toPostfix (V : Vocabulary) : Option (Expr S) → Except Err Str
  | none => .error .notLoaded
  | some e => e.toPostfix V

/-- `Antecedent::toString`, src/rule/Antecedent.cpp:322-324 -/
def toString (V : Vocabulary) (e : Option (Expr S)) : Except Err Str := toInfix V e

end Antecedent

/-- `Consequent::toString`, src/rule/Consequent.cpp:216-224. -/
def Consequent.toString (V : Vocabulary) : List (Proposition S) → Except Err Str
  | [] => .ok []
  | [p] => p.toString V
  | p :: q :: ps => do
    let a ← p.toString V
    let b ← Consequent.toString V (q :: ps)
    .ok (a ++ cs! " " ++ andKeyword ++ cs! " " ++ b)

end FL
