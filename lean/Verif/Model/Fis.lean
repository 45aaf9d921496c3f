/-
The format of the Fuzzy Logic Toolbox of MATLAB (FIS): `FisExporter` (src/imex/FisExporter.cpp) and
`FisImporter` (src/imex/FisImporter.cpp).

Simplified: as in `Verif.Model.Fll`.
-/
import Verif.Model.Fcl
import Verif.Model.Configure

namespace FL
open Scalar
variable {S : Type}

/-! ### FisExporter -/

/-- `toString(const TNorm*)`, src/imex/FisExporter.cpp:268-286 -/
def TNormKind.fis : TNormKind → Str
  | .minimum => cs! "min"
  | .algebraicProduct => cs! "prod"
  | .boundedDifference => cs! "bounded_difference"
  | .drasticProduct => cs! "drastic_product"
  | .einsteinProduct => cs! "einstein_product"
  | .hamacherProduct => cs! "hamacher_product"
  | .nilpotentMinimum => cs! "nilpotent_minimum"

/-- `toString(const SNorm*)`, src/imex/FisExporter.cpp:288-310 -/
def SNormKind.fis : SNormKind → Str
  | .maximum => cs! "max"
  | .algebraicSum => cs! "probor"
  | .boundedSum => cs! "bounded_sum"
  | .normalizedSum => cs! "normalized_sum"
  | .drasticSum => cs! "drastic_sum"
  | .einsteinSum => cs! "einstein_sum"
  | .hamacherSum => cs! "hamacher_sum"
  | .nilpotentMaximum => cs! "nilpotent_maximum"
  | .unboundedSum => cs! "sum"

def TNorm.fis : TNorm S → Str
  | .builtin k => k.fis
  | .function _ => cs! "TNormFunction"

def SNorm.fis : SNorm S → Str
  | .builtin k => k.fis
  | .function _ => cs! "SNormFunction"

/-- `toString(const Defuzzifier*)`, src/imex/FisExporter.cpp:312-330 -/
def Defuzzifier.fis : Defuzzifier → Str
  | .integral .centroid _ => cs! "centroid"
  | .integral .bisector _ => cs! "bisector"
  | .integral .largestOfMaximum _ => cs! "lom"
  | .integral .meanOfMaximum _ => cs! "mom"
  | .integral .smallestOfMaximum _ => cs! "som"
  | .weighted .average _ => cs! "wtaver"
  | .weighted .sum _ => cs! "wtsum"

/-- the value of `Type`, src/imex/FisExporter.cpp:52-65 -/
def EngineType.fis : EngineType → Str
  | .mamdani => cs! "mamdani"
  | .larsen => cs! "mamdani"
  | .takagiSugeno => cs! "sugeno"
  | .tsukamoto => cs! "tsukamoto"
  | .inverseTsukamoto => cs! "inverse tsukamoto"
  | .hybrid => cs! "hybrid"
  | .unknown => cs! "unknown"

namespace FisExporter

/-- `fuzzylite::version()`, fuzzylite/fuzzylite.h:415-418 -/
def version : Str := cs! "7.0.0"

/-- the text written for a class, with its quotes, and the values written after it: `toString(const
Term*)`, src/imex/FisExporter.cpp:332-445, on shapes.  The text of `Binary` lacks a quote. -/
def shape : Shape S → Str × List S
  | .bell c w s => (cs! "'gbellmf'", [w, s, c])
  | .binary s d => (cs! "'binarymf", [s, d])
  | .concave i e => (cs! "'concavemf'", [i, e])
  | .cosine c w => (cs! "'cosinemf'", [c, w])
  | .gaussian m s => (cs! "'gaussmf'", [s, m])
  | .gaussianProduct ma sa mb sb => (cs! "'gauss2mf'", [sa, ma, sb, mb])
  | .piShape bl tl tr br => (cs! "'pimf'", [bl, tl, tr, br])
  | .ramp s e => (cs! "'rampmf'", [s, e])
  | .rectangle s e => (cs! "'rectmf'", [s, e])
  | .sigmoidDifference l r f t => (cs! "'dsigmf'", [r, l, f, t])
  | .sigmoid i s => (cs! "'sigmf'", [s, i])
  | .sigmoidProduct l r f t => (cs! "'psigmf'", [r, l, f, t])
  | .sShape s e => (cs! "'smf'", [s, e])
  | .spike c w => (cs! "'spikemf'", [c, w])
  | .trapezoid a b c d => (cs! "'trapmf'", [a, b, c, d])
  | .triangle a b c => (cs! "'trimf'", [a, b, c])
  | .zShape s e => (cs! "'zmf'", [s, e])

/-- `toString(const Term*)`, src/imex/FisExporter.cpp:332-445 -/
def term [ScalarText S] (t : Term S) : Str :=
  match t.kind with
  | .shape s => (shape s).1 ++ cs! ",[" ++ Op.join ((shape s).2.map ScalarText.str) (cs! " ") ++ cs! "]"
  | .constant v => cs! "'constant',[" ++ ScalarText.str v ++ cs! "]"
  | .discrete xy => cs! "'discretemf',[" ++ Op.join ((Discrete.toVector xy).map ScalarText.str) (cs! " ") ++ cs! "]"
  | .function f => cs! "'function',[" ++ f.formula ++ cs! "]"
  | .linear c _ => cs! "'linear',[" ++ Op.join (c.map ScalarText.str) (cs! " ") ++ cs! "]"

/-- the first object that is not null, src/imex/FisExporter.cpp:74-83 and 91-97 -/
def firstOf {α β : Type} (f : α → Option β) (xs : List α) : Option β := xs.findSome? f

/-- `exportSystem`, src/imex/FisExporter.cpp:47-102, by lines -/
def system [Scalar S] (e : Engine S) : List Str :=
  [cs! "#Code automatically generated with " ++ FclExporter.library ++ cs! ".", [],
   cs! "[System]",
   cs! "Name='" ++ e.name ++ cs! "'",
   cs! "Type='" ++ e.type.fis ++ cs! "'",
   cs! "Version=" ++ version,
   cs! "NumInputs=" ++ Nat.toDigits 10 e.inputs.length,
   cs! "NumOutputs=" ++ Nat.toDigits 10 e.outputs.length,
   cs! "NumRules=" ++ Nat.toDigits 10 (e.blocks.map fun b => b.rules.length).sum,
   cs! "AndMethod='" ++ ((firstOf RuleBlock.conjunction e.blocks).map TNorm.fis).getD (cs! "min") ++ cs! "'",
   cs! "OrMethod='" ++ ((firstOf RuleBlock.disjunction e.blocks).map SNorm.fis).getD (cs! "max") ++ cs! "'",
   cs! "ImpMethod='" ++ ((firstOf RuleBlock.implication e.blocks).map TNorm.fis).getD (cs! "min") ++ cs! "'",
   cs! "AggMethod='" ++ ((firstOf (fun o => o.fuzzy.aggregation) e.outputs).map SNorm.fis).getD (cs! "max") ++ cs! "'",
   cs! "DefuzzMethod='" ++ ((firstOf OutputVariable.defuzzifier e.outputs).map Defuzzifier.fis).getD [] ++ cs! "'"]

/-- the lines of the terms, src/imex/FisExporter.cpp:112-115 and 129-132; `n` is the number of the next
term -/
def terms [ScalarText S] : Nat → List (Term S) → List Str
  | _, [] => []
  | n, t :: ts =>
    (cs! "MF" ++ Nat.toDigits 10 n ++ cs! "='" ++ Op.validName t.name ++ cs! "':" ++ term t) :: terms (n + 1) ts

/-- the lines of a variable, src/imex/FisExporter.cpp:108-117 and 125-134 -/
def varLines [ScalarText S] (title : Str) (n : Nat) (v : Variable S) : List Str :=
  [cs! "[" ++ title ++ Nat.toDigits 10 n ++ cs! "]",
   cs! "Name='" ++ Op.validName v.name ++ cs! "'",
   cs! "Range=[" ++ Op.join [ScalarText.str v.minimum, ScalarText.str v.maximum] (cs! " ") ++ cs! "]",
   cs! "NumMFs=" ++ Nat.toDigits 10 v.terms.length]
  ++ terms 1 v.terms ++ [[]]

/-- the loops of `exportInputs` and `exportOutputs`, src/imex/FisExporter.cpp:104-136 -/
def allLines [ScalarText S] (title : Str) : Nat → List (Variable S) → List Str
  | _, [] => []
  | n, v :: vs => varLines title n v ++ allLines title (n + 1) vs

/-- the number of expressions in a tree -/
def _root_.FL.Expr.size : Expr S → Nat
  | .prop _ => 1
  | .conj l r => l.size + r.size + 1
  | .disj l r => l.size + r.size + 1

/-- the breadth-first traversal of `exportRule`, src/imex/FisExporter.cpp:160-173: the propositions and
the operators (whether each is `and`) from a queue.  The first argument bounds the number of iterations
(the number of expressions in the queue is enough). -/
def traverse : Nat → List (Expr S) → List (Proposition S) × List Bool
  | 0, _ => ([], [])
  | _, [] => ([], [])
  | n + 1, .prop p :: q => let r := traverse n q; (p :: r.1, r.2)
  | n + 1, .conj a b :: q => let r := traverse n (q ++ [a, b]); (r.1, true :: r.2)
  | n + 1, .disj a b :: q => let r := traverse n (q ++ [a, b]); (r.1, false :: r.2)

/-- the hedges of a proposition: `plusHedge` and whether `negated` is -1, src/imex/FisExporter.cpp:232-253 -/
def hedgeStep [Scalar S] (s : S × Bool) (h : Hedge S) : S × Bool :=
  if h.name = HedgeKind.not.name then (s.1, !s.2)
  else if h.name = HedgeKind.extremely.name then (s.1 + lit (3 / 10), s.2)
  else if h.name = HedgeKind.very.name then (s.1 + lit (2 / 10), s.2)
  else if h.name = HedgeKind.somewhat.name then (s.1 + lit (5 / 100), s.2)
  else if h.name = HedgeKind.seldom.name then (s.1 + lit (1 / 100), s.2)
  else if h.name = HedgeKind.any.name then (s.1 + lit (99 / 100), s.2)
  else (nan, s.2)

/-- the code of a variable with `n` terms, for the first proposition about it, src/imex/FisExporter.cpp:216-263.
A term that is not among those of the variable has no position. -/
def code [ScalarText S] (n : Nat) (p : Option (Proposition S)) : Str :=
  let index := match p.bind Proposition.term with
    | some j => if j < n then j + 1 else 0
    | none => 0
  let s := ((p.map Proposition.hedges).getD []).foldl hedgeStep (lit 0, false)
  (if s.2 then cs! "-" else []) ++
    (if Op.isNaN s.1 then Nat.toDigits 10 index ++ cs! ".?" else ScalarText.str (lit index + s.1)) ++ cs! " "

/-- `translate`, src/imex/FisExporter.cpp:211-266, for variables given by position and number of terms -/
def translate [ScalarText S] (ps : List (Proposition S)) (vs : List (VarRef × Nat)) : Str :=
  vs.flatMap fun v => code v.2 (ps.find? fun p => p.var == v.1)

/-- the input variables of an engine -/
def inputRefs (e : Engine S) : List (VarRef × Nat) := e.inputs.mapIdx fun i v => (.input i, v.terms.length)
/-- the output variables of an engine -/
def outputRefs (e : Engine S) : List (VarRef × Nat) := e.outputs.mapIdx fun i v => (.output i, v.terms.length)

/-- neighbours are equal, src/imex/FisExporter.cpp:175-181 -/
def equalOperators : List Bool → Bool
  | a :: b :: os => a == b && equalOperators (b :: os)
  | _ => true

/-- `exportRule`, src/imex/FisExporter.cpp:154-209, on a loaded rule with the given antecedent -/
def rule [ScalarText S] (e : Engine S) (r : Rule S) (a : Expr S) : Except Err Str :=
  let (ps, os) := traverse a.size [a]
  if equalOperators os then
    .ok (translate ps (inputRefs e) ++ cs! ", " ++ translate r.conclusions (outputRefs e) ++ cs! "("
      ++ ScalarText.str r.weight ++ cs! ") : " ++ (match os with
        | false :: _ => cs! "2"
        | _ => cs! "1"))
  else .error .exporting

/-- the lines of the rules of a block, src/imex/FisExporter.cpp:145-149: only loaded rules -/
def rules [ScalarText S] (e : Engine S) : List (Rule S) → Except Err (List Str)
  | [] => .ok []
  | r :: rs =>
    match r.antecedent with
    | none => rules e rs
    | some a =>
      if r.conclusions.isEmpty then rules e rs
      else do
        let l ← rule e r a
        let ls ← rules e rs
        .ok (l :: ls)

/-- the lines of the rule blocks, src/imex/FisExporter.cpp:141-150 -/
def blocks [ScalarText S] (e : Engine S) : List (RuleBlock S) → Except Err (List Str)
  | [] => .ok []
  | b :: bs => do
    let ls ← rules e b.rules
    let rest ← blocks e bs
    .ok ((if e.blocks.length > 1 then [cs! "# RuleBlock " ++ b.name] else []) ++ ls ++ rest)

/-- `toString`, src/imex/FisExporter.cpp:34-45 -/
def toString [ScalarText S] (e : Engine S) : Except Err Str := do
  let ls ← blocks e e.blocks
  .ok (FclExporter.text (system e ++ [[]] ++ allLines (cs! "Input") 1 e.inputs
    ++ allLines (cs! "Output") 1 (e.outputs.map OutputVariable.toVariable) ++ [cs! "[Rules]"] ++ ls))

end FisExporter

/-! ### FisImporter -/

/-- `FisImporter`, with the value of `IntegralDefuzzifier::defaultResolution()` -/
structure FisImporter where
  resolution : Int := 1000

namespace FisImporter

/-- the line without comments and blanks around, src/imex/FisImporter.cpp:43-45 -/
def clean (raw : Str) : Str :=
  let line := (Op.split raw (cs! "//") false).headD []
  let line := (Op.split line (cs! "#") false).headD []
  Op.trim line

/-- the line starts a section, src/imex/FisImporter.cpp:51-54 -/
def isTitle (line : Str) : Bool :=
  (cs! "[System]").isPrefixOf line || (cs! "[Input").isPrefixOf line || (cs! "[Output").isPrefixOf line
    || (cs! "[Rules]").isPrefixOf line

/-- `sections.at(sections.size() - 1) += "\n" + line` -/
def extend (sections : List Str) (line : Str) : Except Err (List Str) :=
  match sections.getLast? with
  | none => .error .importing
  | some s => .ok (sections.dropLast ++ [s ++ cs! "\n" ++ line])

/-- one line of the first loop of `fromString`, src/imex/FisImporter.cpp:40-65 -/
def sectionStep (sections : List Str) (raw : Str) : Except Err (List Str) :=
  let line := clean raw
  if line = [] ∨ line.head? = some '%' then .ok sections
  else
    let line := (Op.findReplace line (cs! "'") [] true).getD []
    if isTitle line then .ok (sections ++ [line]) else extend sections line

/-- the names of norms and of the defuzzifier, src/imex/FisImporter.cpp:66 -/
structure Methods where
  conjunction : Str := []
  disjunction : Str := []
  implication : Str := []
  aggregation : Str := []
  defuzzifier : Str := []

/-- one line of `importSystem`, src/imex/FisImporter.cpp:101-126: the pieces between the signs `=` after
the first are put together -/
def systemStep (s : Str × Methods) (line : Str) : Except Err (Str × Methods) :=
  match Op.split line (cs! "=") true with
  | [] => .error .outOfRange
  | k :: vs =>
    let key := Op.trim k
    let value := Op.trim vs.flatten
    if key = cs! "Name" then .ok (value, s.2)
    else if key = cs! "AndMethod" then .ok (s.1, { s.2 with conjunction := value })
    else if key = cs! "OrMethod" then .ok (s.1, { s.2 with disjunction := value })
    else if key = cs! "ImpMethod" then .ok (s.1, { s.2 with implication := value })
    else if key = cs! "AggMethod" then .ok (s.1, { s.2 with aggregation := value })
    else if key = cs! "DefuzzMethod" then .ok (s.1, { s.2 with defuzzifier := value })
    else if key = cs! "Type" ∨ key = cs! "Version" ∨ key = cs! "NumInputs" ∨ key = cs! "NumOutputs"
      ∨ key = cs! "NumRules" ∨ key = cs! "NumMFs" then .ok s
    else .error .importing

/-- the lines of a section after the first, src/imex/FisImporter.cpp:98-101 and likewise -/
def body (section_ : Str) : List Str := (FllImporter.lines section_).tail

/-- `parseRange`, src/imex/FisImporter.cpp:432-453 -/
def parseRange [ScalarText S] (range : Str) : Except Err (S × S) :=
  match Op.split range (cs! " ") true with
  | [b, e] =>
    if b.head? = some '[' ∧ e.getLast? = some ']' then do
      let x ← toScalar b.tail
      let y ← toScalar e.dropLast
      .ok (x, y)
    else .error .syntaxError
  | _ => .error .syntaxError

/-- the map `mapping`, src/imex/FisImporter.cpp:490-511, and the class that it gives, 543-548 -/
def termClass (name : Str) : Str :=
  if name = cs! "binarymf" then cs! "Binary"
  else if name = cs! "concavemf" then cs! "Concave"
  else if name = cs! "constant" then cs! "Constant"
  else if name = cs! "cosinemf" then cs! "Cosine"
  else if name = cs! "discretemf" then cs! "Discrete"
  else if name = cs! "function" then cs! "Function"
  else if name = cs! "gbellmf" then cs! "Bell"
  else if name = cs! "gaussmf" then cs! "Gaussian"
  else if name = cs! "gauss2mf" then cs! "GaussianProduct"
  else if name = cs! "linear" then cs! "Linear"
  else if name = cs! "pimf" then cs! "PiShape"
  else if name = cs! "rampmf" then cs! "Ramp"
  else if name = cs! "rectmf" then cs! "Rectangle"
  else if name = cs! "smf" then cs! "SShape"
  else if name = cs! "sigmf" then cs! "Sigmoid"
  else if name = cs! "dsigmf" then cs! "SigmoidDifference"
  else if name = cs! "psigmf" then cs! "SigmoidProduct"
  else if name = cs! "spikemf" then cs! "Spike"
  else if name = cs! "trapmf" then cs! "Trapezoid"
  else if name = cs! "trimf" then cs! "Triangle"
  else if name = cs! "zmf" then cs! "ZShape"
  else name

/-- the order of the parameters, src/imex/FisImporter.cpp:513-541 -/
def sortParameters (name : Str) (ps : List Str) : List Str :=
  match ps with
  | a :: b :: c :: d :: rest =>
    if name = cs! "gbellmf" then c :: a :: b :: d :: rest
    else if name = cs! "gaussmf" ∨ name = cs! "sigmf" then b :: a :: c :: d :: rest
    else if name = cs! "gauss2mf" then b :: a :: d :: c :: rest
    else if name = cs! "dsigmf" ∨ name = cs! "psigmf" then b :: a :: c :: d :: rest
    else ps
  | [a, b, c] =>
    if name = cs! "gbellmf" then [c, a, b]
    else if name = cs! "gaussmf" ∨ name = cs! "sigmf" then [b, a, c]
    else ps
  | [a, b] => if name = cs! "gaussmf" ∨ name = cs! "sigmf" then [b, a] else ps
  | _ => ps

/-- `createInstance`, src/imex/FisImporter.cpp:487-558, for an engine with the values `ctx`.  The empty
class gives a null pointer, which is dereferenced. -/
def createInstance [ScalarText S] (F : ElementFactory S) (ctx : Ctx S) (cls name : Str) (ps : List Str) :
    Except Err (Term S) :=
  if termClass cls = [] then .error .ub
  else match (Term.registered (S := S)).find? fun t => t.className == termClass cls with
  | none => .error .outOfRange
  | some t =>
    let t := { Engine.updateTerm F ctx t with name := Op.validName name }
    let separator := match t.kind with
      | .function _ => []
      | _ => cs! " "
    match t.configure F ctx (Op.join (sortParameters cls ps) separator) with
    | (t, none) => .ok t
    | (_, some e) => .error e

/-- `parseTerm`, src/imex/FisImporter.cpp:455-485 -/
def parseTerm [ScalarText S] (F : ElementFactory S) (ctx : Ctx S) (fis : Str) : Except Err (Term S) :=
  let line := fis.filter fun c => !(c = '[' ∨ c = ']')
  match Op.split line (cs! ":") true with
  | [name, t] =>
    match Op.split t (cs! ",") true with
    | [cls, ps] => createInstance F ctx (Op.trim cls) (Op.trim name) ((Op.split ps (cs! " ") true).map Op.trim)
    | _ => .error .syntaxError
  | _ => .error .syntaxError

/-- `key = value`: exactly two pieces, src/imex/FisImporter.cpp:138-146 and 171-180 -/
def keyValue (line : Str) : Except Err (Str × Str) :=
  match Op.split line (cs! "=") true with
  | [k, v] => .ok (Op.trim k, Op.trim v)
  | _ => .error .syntaxError

/-- `Op::isEq(Op::toScalar(value), 1.0)` -/
def flag (S : Type) [ScalarText S] (value : Str) : Except Err Bool := do
  let x ← toScalar (S := S) value
  .ok (Op.isEq x (lit 1))

/-- one line of `importInput`, src/imex/FisImporter.cpp:137-163.  The variable belongs to the engine
already, so that its name and value are known to the terms. -/
def inputStep [ScalarText S] (F : ElementFactory S) (e : Engine S) (v : Variable S) (line : Str) :
    Except Err (Variable S) := do
  let (key, value) ← keyValue line
  if key = cs! "Name" then .ok { v with name := Op.validName value }
  else if key = cs! "Enabled" then do
    let b ← flag S value
    .ok { v with enabled := b }
  else if key = cs! "Range" then do
    let r ← parseRange value
    .ok ((v.setMinimum r.1).setMaximum r.2)
  else if key.take 2 = cs! "MF" then do
    let t ← parseTerm F ({ e with inputs := e.inputs ++ [v] } : Engine S).world.ctx value
    .ok (v.addTerm t)
  else if key = cs! "NumMFs" then .ok v
  else .error .importing

/-- `importInput`, src/imex/FisImporter.cpp:129-165 -/
def importInput [ScalarText S] (F : ElementFactory S) (lines : List Str) (e : Engine S) : Except Err (Engine S) := do
  let v ← lines.foldlM (inputStep F e) (Variable.new [] ninf inf [])
  .ok { e with inputs := e.inputs ++ [v] }

/-- one line of `importOutput`, src/imex/FisImporter.cpp:174-208 -/
def outputStep [ScalarText S] (F : ElementFactory S) (e : Engine S) (v : OutputVariable S) (line : Str) :
    Except Err (OutputVariable S) := do
  let (key, value) ← keyValue line
  if key = cs! "Name" then .ok (v.setName (Op.validName value))
  else if key = cs! "Enabled" then do
    let b ← flag S value
    .ok { v with enabled := b }
  else if key = cs! "Range" then do
    let r ← parseRange value
    .ok ((v.setMinimum r.1).setMaximum r.2)
  else if key.take 2 = cs! "MF" then do
    let t ← parseTerm F ({ e with outputs := e.outputs ++ [v] } : Engine S).world.ctx value
    .ok { v with terms := v.terms ++ [t] }
  else if key = cs! "Default" then do
    let x ← toScalar value
    .ok { v with default := x }
  else if key = cs! "LockPrevious" then do
    let b ← flag S value
    .ok { v with lockPrevious := b }
  else if key = cs! "LockRange" then do
    let b ← flag S value
    .ok { v with lockRange := b }
  else if key = cs! "NumMFs" then .ok v
  else .error .importing

/-- `importOutput`, src/imex/FisImporter.cpp:167-209 -/
def importOutput [ScalarText S] (F : ElementFactory S) (lines : List Str) (e : Engine S) : Except Err (Engine S) := do
  let v ← lines.foldlM (outputStep F e) (OutputVariable.new [] ninf inf [])
  .ok { e with outputs := e.outputs ++ [v] }

/-- the hedges of a fraction, src/imex/FisImporter.cpp:349-362 -/
def hedgeText [Scalar S] (fraction : S) : Except Err Str :=
  if Op.isEq fraction (lit (1 / 100)) then .ok (cs! "seldom ")
  else if Op.isEq fraction (lit (5 / 100)) then .ok (cs! "somewhat ")
  else if Op.isEq fraction (lit (2 / 10)) then .ok (cs! "very ")
  else if Op.isEq fraction (lit (3 / 10)) then .ok (cs! "extremely ")
  else if Op.isEq fraction (lit (4 / 10)) then .ok (cs! "very very ")
  else if Op.isEq fraction (lit (99 / 100)) then .ok (cs! "any ")
  else if Op.isEq fraction (lit 0) then .ok []
  else .error .syntaxError

/-- `translateProposition`, src/imex/FisImporter.cpp:333-366, for a variable with terms of these names.
The conversion to `int` may be undefined. -/
def translateProposition [Scalar S] [Truncate S] (c : S) (terms : List Str) : Except Err Str :=
  match Truncate.toInt (fn1 .floor (abs c)) with
  | none => .error .ub
  | some n =>
    if n - 1 ≥ terms.length then .error .syntaxError
    else do
      let h ← hedgeText (fn2 .fmod (abs c) (lit 1))
      .ok ((if lt c (lit 0) then cs! "not " else []) ++ h ++ (if n - 1 < 0 then [] else terms[(n - 1).toNat]?.getD []))

/-- the propositions for the codes of variables given by name and names of terms, src/imex/FisImporter.cpp:269-287 -/
def propositions [ScalarText S] [Truncate S] : List Str → List (Str × List Str) → Except Err (List Str)
  | c :: cs, v :: vs => do
    let x ← toScalar (S := S) c
    if Op.isEq x (lit 0) then propositions cs vs
    else do
      let t ← translateProposition x v.2
      let rest ← propositions cs vs
      .ok ((v.1 ++ cs! " is " ++ t) :: rest)
  | _, _ => .ok []

/-- the antecedent of a rule, src/imex/FisImporter.cpp:291-303: the connector matters between propositions -/
def connect (connector : Str) (ps : List Str) : Except Err Str :=
  if ps.length ≤ 1 then .ok ps.flatten
  else if connector = cs! "1" then .ok (Op.join ps (cs! " and "))
  else if connector = cs! "2" then .ok (Op.join ps (cs! " or "))
  else .error .syntaxError

/-- the text of a rule, src/imex/FisImporter.cpp:219-322.  The last of the outputs is the weight; without
any, `at` raises. -/
def ruleText [ScalarText S] [Truncate S] (V : Vocabulary) (line : Str) : Except Err Str :=
  match Op.split line (cs! ",") true with
  | [l, r] =>
    match Op.split r (cs! ":") true with
    | [o, k] =>
      let inputs := Op.split l (cs! " ") true
      let outputs := Op.split o (cs! " ") true
      match outputs.getLast? with
      | none => .error .outOfRange
      | some w =>
        let outputs := outputs.dropLast
        if inputs.length ≠ V.inputs.length then .error .syntaxError
        else if outputs.length ≠ V.outputs.length then .error .syntaxError
        else do
          let a ← propositions (S := S) inputs V.inputs
          let c ← propositions (S := S) outputs V.outputs
          let a ← connect (Op.trim k) a
          let x ← toScalar (S := S) (w.filter fun c => !(c = '(' ∨ c = ')' ∨ c = ' '))
          .ok (cs! "if " ++ a ++ cs! " then " ++ Op.join c (cs! " and ")
            ++ (if Op.isEq x (lit 1) then [] else cs! " with " ++ ScalarText.str x))
    | _ => .error .syntaxError
  | _ => .error .syntaxError

/-- one line of `importRules`, src/imex/FisImporter.cpp:219-330; exceptions while loading a rule are
ignored -/
def rulesStep [ScalarText S] [Truncate S] (G : Registry S) (V : Vocabulary) (b : RuleBlock S) (line : Str) :
    Except Err (RuleBlock S) := do
  let t ← ruleText (S := S) V line
  .ok { b with rules := b.rules ++ [((Rule.new t).reload G V).1] }

/-- `importRules`, src/imex/FisImporter.cpp:211-331 -/
def importRules [ScalarText S] [Truncate S] (G : Registry S) (lines : List Str) (e : Engine S) : Except Err (Engine S) := do
  let b ← lines.foldlM (rulesStep G e.world.vocabulary) (RuleBlock.new [])
  .ok { e with blocks := e.blocks ++ [b] }

/-- one section, src/imex/FisImporter.cpp:67-77 -/
def process [ScalarText S] [Truncate S] (G : Registry S) (s : Engine S × Methods) (section_ : Str) :
    Except Err (Engine S × Methods) :=
  if (cs! "[System]").isPrefixOf section_ then do
    let p ← (body section_).foldlM systemStep (s.1.name, s.2)
    .ok ({ s.1 with name := p.1 }, p.2)
  else if (cs! "[Input").isPrefixOf section_ then do
    let e ← importInput G.functions (body section_) s.1
    .ok (e, s.2)
  else if (cs! "[Output").isPrefixOf section_ then do
    let e ← importOutput G.functions (body section_) s.1
    .ok (e, s.2)
  else if (cs! "[Rules]").isPrefixOf section_ then do
    let e ← importRules G (body section_) s.1
    .ok (e, s.2)
  else .error .importing

/-- `translateTNorm`, src/imex/FisImporter.cpp:368-386 -/
def tnormClass (name : Str) : Str :=
  if name = cs! "min" then TNormKind.minimum.className
  else if name = cs! "prod" then TNormKind.algebraicProduct.className
  else if name = cs! "bounded_difference" then TNormKind.boundedDifference.className
  else if name = cs! "drastic_product" then TNormKind.drasticProduct.className
  else if name = cs! "einstein_product" then TNormKind.einsteinProduct.className
  else if name = cs! "hamacher_product" then TNormKind.hamacherProduct.className
  else if name = cs! "nilpotent_minimum" then TNormKind.nilpotentMinimum.className
  else name

/-- `translateSNorm`, src/imex/FisImporter.cpp:388-410 -/
def snormClass (name : Str) : Str :=
  if name = cs! "max" then SNormKind.maximum.className
  else if name = cs! "probor" then SNormKind.algebraicSum.className
  else if name = cs! "bounded_sum" then SNormKind.boundedSum.className
  else if name = cs! "normalized_sum" then SNormKind.normalizedSum.className
  else if name = cs! "drastic_sum" then SNormKind.drasticSum.className
  else if name = cs! "einstein_sum" then SNormKind.einsteinSum.className
  else if name = cs! "hamacher_sum" then SNormKind.hamacherSum.className
  else if name = cs! "nilpotent_maximum" then SNormKind.nilpotentMaximum.className
  else if name = cs! "sum" then SNormKind.unboundedSum.className
  else name

/-- `translateDefuzzifier`, src/imex/FisImporter.cpp:412-430 -/
def defuzzifierClass (name : Str) : Str :=
  if name = cs! "centroid" then IntegralKind.centroid.className
  else if name = cs! "bisector" then IntegralKind.bisector.className
  else if name = cs! "lom" then IntegralKind.largestOfMaximum.className
  else if name = cs! "mom" then IntegralKind.meanOfMaximum.className
  else if name = cs! "som" then IntegralKind.smallestOfMaximum.className
  else if name = cs! "wtaver" then WeightedKind.average.className
  else if name = cs! "wtsum" then WeightedKind.sum.className
  else name

/-- `fromString`, src/imex/FisImporter.cpp:32-87 -/
def fromString [ScalarText S] [Truncate S] (x : FisImporter) (G : Registry S) (fis : Str) : Except Err (Engine S) := do
  let sections ← (FllImporter.lines fis).foldlM sectionStep []
  let s ← sections.foldlM (process G) (⟨[], [], [], [], []⟩, {})
  s.1.configureNames x.resolution (tnormClass s.2.conjunction) (snormClass s.2.disjunction)
    (tnormClass s.2.implication) (snormClass s.2.aggregation) (defuzzifierClass s.2.defuzzifier) (cs! "General")

end FisImporter
end FL
