/-
The FuzzyLite Language: `FllExporter` (src/imex/FllExporter.cpp) and `FllImporter`
(src/imex/FllImporter.cpp).

Simplified: `Op::str` uses the default number of decimals (`ScalarText.str`); warnings are not
logged.  The factories are the ones constructed by default, except that functions and hedges are
parameters (`Registry`).
-/
import Verif.Model.Parameters
import Verif.Model.Benchmark

namespace FL
open Scalar
variable {S : Type}

/-! ### class names and the factories -/

/-- `className()` of T-Norms, src/norm/t/AlgebraicProduct.cpp and likewise -/
def TNormKind.className : TNormKind → Str
  | .algebraicProduct => cs! "AlgebraicProduct"
  | .boundedDifference => cs! "BoundedDifference"
  | .drasticProduct => cs! "DrasticProduct"
  | .einsteinProduct => cs! "EinsteinProduct"
  | .hamacherProduct => cs! "HamacherProduct"
  | .minimum => cs! "Minimum"
  | .nilpotentMinimum => cs! "NilpotentMinimum"

/-- the constructors registered in `TNormFactory`, src/factory/TNormFactory.cpp:31-38, besides the
null constructor of the empty name -/
def TNormKind.registered : List TNormKind :=
  [.algebraicProduct, .boundedDifference, .drasticProduct, .einsteinProduct, .hamacherProduct, .minimum,
   .nilpotentMinimum]

/-- `className()` of S-Norms, src/norm/s/AlgebraicSum.cpp and likewise -/
def SNormKind.className : SNormKind → Str
  | .algebraicSum => cs! "AlgebraicSum"
  | .boundedSum => cs! "BoundedSum"
  | .drasticSum => cs! "DrasticSum"
  | .einsteinSum => cs! "EinsteinSum"
  | .hamacherSum => cs! "HamacherSum"
  | .maximum => cs! "Maximum"
  | .nilpotentMaximum => cs! "NilpotentMaximum"
  | .normalizedSum => cs! "NormalizedSum"
  | .unboundedSum => cs! "UnboundedSum"

/-- the constructors registered in `SNormFactory`, src/factory/SNormFactory.cpp:33-42 -/
def SNormKind.registered : List SNormKind :=
  [.algebraicSum, .boundedSum, .drasticSum, .einsteinSum, .hamacherSum, .maximum, .nilpotentMaximum,
   .normalizedSum, .unboundedSum]

/-- `className()` of T-Norms including `TNormFunction` -/
def TNorm.className : TNorm S → Str
  | .builtin k => k.className
  | .function _ => cs! "TNormFunction"

/-- `className()` of S-Norms including `SNormFunction` -/
def SNorm.className : SNorm S → Str
  | .builtin k => k.className
  | .function _ => cs! "SNormFunction"

/-- `className()` of defuzzifiers, src/defuzzifier/Bisector.cpp and likewise -/
def IntegralKind.className : IntegralKind → Str
  | .bisector => cs! "Bisector"
  | .centroid => cs! "Centroid"
  | .largestOfMaximum => cs! "LargestOfMaximum"
  | .smallestOfMaximum => cs! "SmallestOfMaximum"
  | .meanOfMaximum => cs! "MeanOfMaximum"

def WeightedKind.className : WeightedKind → Str
  | .average => cs! "WeightedAverage"
  | .sum => cs! "WeightedSum"

/-- `WeightedDefuzzifier::typeName`, src/defuzzifier/WeightedDefuzzifier.cpp:60-72 -/
def WeightedType.typeName : WeightedType → Str
  | .automatic => cs! "Automatic"
  | .takagiSugeno => cs! "TakagiSugeno"
  | .tsukamoto => cs! "Tsukamoto"

/-- `className()` of a defuzzifier -/
def Defuzzifier.className : Defuzzifier → Str
  | .integral k _ => k.className
  | .weighted k _ => k.className

/-- the objects made by the constructors registered in `DefuzzifierFactory`,
src/factory/DefuzzifierFactory.cpp:31-38, for the given `IntegralDefuzzifier::defaultResolution()` -/
def Defuzzifier.registered (resolution : Int) : List Defuzzifier :=
  [.integral .bisector resolution, .integral .centroid resolution, .integral .largestOfMaximum resolution,
   .integral .meanOfMaximum resolution, .integral .smallestOfMaximum resolution,
   .weighted .average .automatic, .weighted .sum .automatic]

/-- `className()` of activation methods, src/activation/First.cpp and likewise -/
def Activation.className : Activation S → Str
  | .general => cs! "General"
  | .first _ _ => cs! "First"
  | .last _ _ => cs! "Last"
  | .highest _ => cs! "Highest"
  | .lowest _ => cs! "Lowest"
  | .proportional => cs! "Proportional"
  | .threshold _ _ => cs! "Threshold"

/-- the objects made by the constructors registered in `ActivationFactory`,
src/factory/ActivationFactory.cpp:31-38, and the default arguments of the constructors,
fuzzylite/activation/First.h:44 and likewise -/
def Activation.registered [Scalar S] : List (Activation S) :=
  [.first 1 (lit 0), .general, .highest 1, .last 1 (lit 0), .lowest 1, .proportional,
   .threshold .greaterThanOrEqualTo (lit 0)]

/-- the objects made by the constructors registered in `TermFactory`, src/factory/TermFactory.cpp:45-66 -/
def Term.registered [Scalar S] : List (Term S) :=
  [.shape (.bell nan nan nan), .shape (.binary nan nan), .shape (.concave nan nan), .constant nan,
   .shape (.cosine nan nan), .discrete [], .function ⟨[], none, false, fun _ => none⟩,
   .shape (.gaussian nan nan), .shape (.gaussianProduct nan nan nan nan), .linear [] false,
   .shape (.piShape nan nan nan nan), .shape (.ramp nan nan), .shape (.rectangle nan nan),
   .shape (.sShape nan nan), .shape (.sigmoid nan nan), .shape (.sigmoidDifference nan nan nan nan),
   .shape (.sigmoidProduct nan nan nan nan), .shape (.spike nan nan), .shape (.trapezoid nan nan nan nan),
   .shape (.triangle nan nan nan), .shape (.zShape nan nan)].map fun k => ⟨[], lit 1, k⟩

/-! ### numbers of type int -/

/-- `Op::str(int)`, fuzzylite/Operation.h:1005-1022 -/
def intText : Int → Str
  | .ofNat n => Nat.toDigits 10 n
  | .negSucc n => '-' :: Nat.toDigits 10 (n + 1)

/-- what is assumed of the conversions between integers and text: a number of type `int` is read
back as a scalar that converts to it -/
class LawfulInt (S : Type) [ScalarText S] [Truncate S] : Prop where
  reads : ∀ n : Int, -2147483648 ≤ n → n ≤ 2147483647 →
    ∃ x : S, ScalarText.ofText (intText n) = some x ∧ Truncate.toInt x = some n

/-- `parameters()` of the activation methods, src/activation/First.cpp:37-39 and likewise -/
def Activation.parameters [ScalarText S] : Activation S → Str
  | .general => []
  | .first n t => intText n ++ cs! " " ++ ScalarText.str t
  | .last n t => intText n ++ cs! " " ++ ScalarText.str t
  | .highest n => intText n
  | .lowest n => intText n
  | .proportional => []
  | .threshold c v => c.operator ++ cs! " " ++ ScalarText.str v

/-- `Op::toScalar` -/
def toScalar [ScalarText S] (text : Str) : Except Err S :=
  match ScalarText.ofText text with
  | some x => .ok x
  | none => .error .conversion

/-- `(int) Op::toScalar(text)` -/
def toInt (S : Type) [ScalarText S] [Truncate S] (text : Str) : Except Err Int :=
  match (ScalarText.ofText text : Option S) with
  | none => .error .conversion
  | some x =>
    match Truncate.toInt x with
    | none => .error .ub
    | some n => .ok n

/-- `configure()` of the activation methods, src/activation/First.cpp:41-54,
src/activation/Last.cpp:41-54, src/activation/Highest.cpp:39-45, src/activation/Lowest.cpp:39-45,
src/activation/Threshold.cpp:48-61, src/activation/General.cpp:38-40,
src/activation/Proportional.cpp:37-39.  Simplified: the state after an exception is not modelled. -/
def Activation.configure [ScalarText S] [Truncate S] (a : Activation S) (text : Str) : Except Err (Activation S) :=
  if text.isEmpty then .ok a
  else
    let values := Op.split text (cs! " ") true
    match a with
    | .general => .ok .general
    | .proportional => .ok .proportional
    | .first _ _ =>
      match values with
      | v :: w :: _ => do
        let n ← toInt S v
        let t ← toScalar w
        .ok (.first n t)
      | _ => .error .syntaxError
    | .last _ _ =>
      match values with
      | v :: w :: _ => do
        let n ← toInt S v
        let t ← toScalar w
        .ok (.last n t)
      | _ => .error .syntaxError
    | .highest m =>
      match values with
      | v :: _ => do
        let n ← toInt S v
        .ok (.highest n)
      | [] => .ok (.highest m)
    | .lowest m =>
      match values with
      | v :: _ => do
        let n ← toInt S v
        .ok (.lowest n)
      | [] => .ok (.lowest m)
    | .threshold _ _ =>
      match values with
      | v :: w :: _ => do
        let c ← Comparison.parse v
        let t ← toScalar w
        .ok (.threshold c t)
      | _ => .error .syntaxError

/-! ### FllExporter -/

/-- `FllExporter`, src/imex/FllExporter.cpp:24-28, with the value of
`IntegralDefuzzifier::defaultResolution()` (static, src/defuzzifier/IntegralDefuzzifier.cpp:22-31). -/
structure FllExporter where
  indent : Str := cs! "  "
  separator : Str := cs! "\n"
  resolution : Int := 1000

namespace FllExporter

/-- `(… ? "true" : "false")` -/
def bool (b : Bool) : Str := if b then cs! "true" else cs! "false"

/-- `toString(const Term*)`, src/imex/FllExporter.cpp:162-170 -/
def term [ScalarText S] (t : Term S) : Str :=
  Op.join ([cs! "term:", Op.validName t.name, t.className] ++ if t.parameters.isEmpty then [] else [t.parameters])
    (cs! " ")

/-- `toString(const Norm*)`, src/imex/FllExporter.cpp:172-176, on a T-Norm -/
def tnorm : Option (TNorm S) → Str
  | some k => k.className
  | none => cs! "none"

/-- `toString(const Norm*)`, src/imex/FllExporter.cpp:172-176, on an S-Norm -/
def snorm : Option (SNorm S) → Str
  | some k => k.className
  | none => cs! "none"

/-- `toString(const Activation*)`, src/imex/FllExporter.cpp:178-184 -/
def activation [ScalarText S] : Option (Activation S) → Str
  | none => cs! "none"
  | some a => if a.parameters.isEmpty then a.className else a.className ++ cs! " " ++ a.parameters

/-- `toString(const Defuzzifier*)`, src/imex/FllExporter.cpp:186-200 -/
def defuzzifier (x : FllExporter) : Option Defuzzifier → Str
  | none => cs! "none"
  | some (.integral k r) => if r = x.resolution then k.className else k.className ++ cs! " " ++ intText r
  | some (.weighted k t) => if t = .automatic then k.className else k.className ++ cs! " " ++ t.typeName

/-- the line of the description, if there is one -/
def description (x : FllExporter) (d : Str) : List Str :=
  if d.isEmpty then [] else [x.indent ++ cs! "description: " ++ d]

/-- `toString(const InputVariable*)`, src/imex/FllExporter.cpp:107-120 -/
def inputVariable [ScalarText S] (x : FllExporter) (v : Variable S) : Str :=
  Op.join ([cs! "InputVariable: " ++ Op.validName v.name] ++ x.description v.description
    ++ [x.indent ++ cs! "enabled: " ++ bool v.enabled,
        x.indent ++ cs! "range: " ++ Op.join [ScalarText.str v.minimum, ScalarText.str v.maximum] (cs! " "),
        x.indent ++ cs! "lock-range: " ++ bool v.lockRange]
    ++ v.terms.map fun t => x.indent ++ term t) x.separator

/-- `toString(const OutputVariable*)`, src/imex/FllExporter.cpp:122-139 -/
def outputVariable [ScalarText S] (x : FllExporter) (v : OutputVariable S) : Str :=
  Op.join ([cs! "OutputVariable: " ++ Op.validName v.name] ++ x.description v.description
    ++ [x.indent ++ cs! "enabled: " ++ bool v.enabled,
        x.indent ++ cs! "range: " ++ Op.join [ScalarText.str v.minimum, ScalarText.str v.maximum] (cs! " "),
        x.indent ++ cs! "lock-range: " ++ bool v.lockRange,
        x.indent ++ cs! "aggregation: " ++ snorm v.fuzzy.aggregation,
        x.indent ++ cs! "defuzzifier: " ++ x.defuzzifier v.defuzzifier,
        x.indent ++ cs! "default: " ++ ScalarText.str v.default,
        x.indent ++ cs! "lock-previous: " ++ bool v.lockPrevious]
    ++ v.terms.map fun t => x.indent ++ term t) x.separator

/-- `toString(const RuleBlock*)` and `toString(const Rule*)`, src/imex/FllExporter.cpp:141-160 -/
def ruleBlock [ScalarText S] (x : FllExporter) (b : RuleBlock S) : Str :=
  Op.join ([cs! "RuleBlock: " ++ b.name] ++ x.description b.description
    ++ [x.indent ++ cs! "enabled: " ++ bool b.enabled,
        x.indent ++ cs! "conjunction: " ++ tnorm b.conjunction,
        x.indent ++ cs! "disjunction: " ++ snorm b.disjunction,
        x.indent ++ cs! "implication: " ++ tnorm b.implication,
        x.indent ++ cs! "activation: " ++ activation b.activation]
    ++ b.rules.map fun r => x.indent ++ (cs! "rule: " ++ r.text)) x.separator

/-- `toString(const Engine*)`, src/imex/FllExporter.cpp:51-63 -/
def toString [ScalarText S] (x : FllExporter) (e : Engine S) : Str :=
  Op.join ([cs! "Engine: " ++ e.name]
    ++ (if e.description.isEmpty then [] else [cs! "description: " ++ e.description])
    ++ e.inputs.map x.inputVariable ++ e.outputs.map x.outputVariable ++ e.blocks.map x.ruleBlock) x.separator

end FllExporter

/-! ### FllImporter -/

/-- `FllImporter`, src/imex/FllImporter.cpp:25-27, with the value of
`IntegralDefuzzifier::defaultResolution()`. -/
structure FllImporter where
  separator : Str := cs! "\n"
  resolution : Int := 1000

namespace FllImporter

/-- `while (std::getline(reader, line))`: the text before each line feed, and the text after the last
one unless it is empty; `acc` is the line read so far, reversed. -/
def linesAux : Str → Str → List Str
  | acc, [] => if acc.isEmpty then [] else [acc.reverse]
  | acc, c :: cs => if c = '\n' then acc.reverse :: linesAux [] cs else linesAux (c :: acc) cs

def lines (text : Str) : List Str := linesAux [] text

/-- `text.substr(0, p)` and `text.substr(p + 1)` for `p = text.find_first_of(c)`; `none` when the
character does not occur -/
def cut (c : Char) : Str → Option (Str × Str)
  | [] => none
  | d :: ds => if d = c then some ([], ds) else (cut c ds).map fun p => (d :: p.1, p.2)

/-- `parseKeyValue`, src/imex/FllImporter.cpp:334-348 -/
def parseKeyValue (text : Str) (separator : Char) : Except Err (Str × Str) :=
  match cut separator text with
  | none => .error .syntaxError
  | some p => .ok p

/-- `parseBoolean`, src/imex/FllImporter.cpp:321-332 -/
def parseBoolean (text : Str) : Except Err Bool :=
  if text = cs! "true" then .ok true
  else if text = cs! "false" then .ok false
  else .error .syntaxError

/-- `parseRange`, src/imex/FllImporter.cpp:316-319.  The order in which C++ evaluates the two
conversions is unspecified; both raise the same exception. -/
def parseRange [ScalarText S] (text : Str) : Except Err (S × S) := do
  let p ← parseKeyValue text ' '
  let a ← toScalar p.1
  let b ← toScalar p.2
  .ok (a, b)

/-- `parseTNorm`, src/imex/FllImporter.cpp:261-265 -/
def parseTNorm (name : Str) : Except Err (Option (TNorm S)) :=
  if name = cs! "none" ∨ name = [] then .ok none
  else match TNormKind.registered.find? fun k => k.className == name with
  | some k => .ok (some (.builtin k))
  | none => .error .outOfRange

/-- `parseSNorm`, src/imex/FllImporter.cpp:267-271 -/
def parseSNorm (name : Str) : Except Err (Option (SNorm S)) :=
  if name = cs! "none" ∨ name = [] then .ok none
  else match SNormKind.registered.find? fun k => k.className == name with
  | some k => .ok (some (.builtin k))
  | none => .error .outOfRange

/-- `parseActivation`, src/imex/FllImporter.cpp:273-287.  An empty class name gives a null pointer,
which is dereferenced. -/
def parseActivation [ScalarText S] [Truncate S] (name : Str) : Except Err (Option (Activation S)) :=
  if name = cs! "none" then .ok none
  else match Op.split name (cs! " ") true with
  | [] => .error .ub
  | token :: tokens =>
    if token = [] then .error .ub
    else match (Activation.registered (S := S)).find? fun a => a.className == token with
    | none => .error .outOfRange
    | some a => do
      let a ← a.configure (Op.join tokens (cs! " "))
      .ok (some a)

/-- the parameter of a defuzzifier, src/imex/FllImporter.cpp:295-312 -/
def configureDefuzzifier (S : Type) [ScalarText S] [Truncate S] (d : Defuzzifier) (parameter : Str) :
    Except Err Defuzzifier :=
  match d with
  | .integral k _ => do
    let n ← toInt S parameter
    .ok (.integral k n)
  | .weighted k _ =>
    if parameter = cs! "Automatic" then .ok (.weighted k .automatic)
    else if parameter = cs! "TakagiSugeno" then .ok (.weighted k .takagiSugeno)
    else if parameter = cs! "Tsukamoto" then .ok (.weighted k .tsukamoto)
    else .error .syntaxError

/-- `parseDefuzzifier`, src/imex/FllImporter.cpp:289-314.  With an empty class name the null pointer
is returned (no `dynamic_cast` succeeds). -/
def parseDefuzzifier (S : Type) [ScalarText S] [Truncate S] (x : FllImporter) (text : Str) :
    Except Err (Option Defuzzifier) :=
  match Op.split text (cs! " ") true with
  | [] => .error .outOfRange
  | name :: parameters =>
    if name = cs! "none" ∨ name = [] then .ok none
    else match (Defuzzifier.registered x.resolution).find? fun d => d.className == name with
    | none => .error .outOfRange
    | some d =>
      match parameters with
      | [] => .ok (some d)
      | p :: _ => do
        let d ← configureDefuzzifier S d p
        .ok (some d)

/-- `parseTerm`, src/imex/FllImporter.cpp:234-259, for an engine with the values `ctx`.  An empty
class name gives a null pointer, which is dereferenced. -/
def parseTerm [ScalarText S] (F : ElementFactory S) (ctx : Ctx S) (text : Str) : Except Err (Term S) :=
  match Op.split text (cs! " ") true with
  | name :: cls :: parameters =>
    if cls = [] then .error .ub
    else match (Term.registered (S := S)).find? fun t => t.className == cls with
    | none => .error .outOfRange
    | some t =>
      let t := { Engine.updateTerm F ctx t with name := Op.validName name }
      match t.configure F ctx (Op.join parameters (cs! " ")) with
      | (t, none) => .ok t
      | (_, some e) => .error e
  | _ => .error .syntaxError

/-- one line of `processInputVariable`, src/imex/FllImporter.cpp:95-119 -/
def inputStep [ScalarText S] (F : ElementFactory S) (ctx : Ctx S) (v : Variable S) (line : Str) :
    Except Err (Variable S) := do
  let p ← parseKeyValue line ':'
  if p.1 = cs! "InputVariable" then .ok { v with name := Op.validName p.2 }
  else if p.1 = cs! "description" then .ok { v with description := p.2 }
  else if p.1 = cs! "enabled" then do
    let b ← parseBoolean p.2
    .ok { v with enabled := b }
  else if p.1 = cs! "range" then do
    let r ← parseRange p.2
    .ok (v.setRange r.1 r.2)
  else if p.1 = cs! "lock-range" then do
    let b ← parseBoolean p.2
    .ok { v with lockRange := b }
  else if p.1 = cs! "term" then do
    let t ← parseTerm F ctx p.2
    .ok (v.addTerm t)
  else .error .importing

/-- `processInputVariable`, src/imex/FllImporter.cpp:91-121 -/
def processInputVariable [ScalarText S] (G : Registry S) (block : Str) (e : Engine S) : Except Err (Engine S) := do
  let v ← (lines block).foldlM (inputStep G.functions e.world.ctx) (Variable.new [] ninf inf [])
  .ok { e with inputs := e.inputs ++ [v] }

/-- one line of `processOutputVariable`, src/imex/FllImporter.cpp:127-173 -/
def outputStep [ScalarText S] [Truncate S] (x : FllImporter) (F : ElementFactory S) (ctx : Ctx S)
    (v : OutputVariable S) (line : Str) : Except Err (OutputVariable S) := do
  let p ← parseKeyValue line ':'
  if p.1 = cs! "OutputVariable" then .ok (v.setName (Op.validName p.2))
  else if p.1 = cs! "description" then .ok { v with description := p.2 }
  else if p.1 = cs! "enabled" then do
    let b ← parseBoolean p.2
    .ok { v with enabled := b }
  else if p.1 = cs! "range" then do
    let r ← parseRange p.2
    .ok ((v.setMinimum r.1).setMaximum r.2)
  else if p.1 = cs! "default" then do
    let d ← toScalar p.2
    .ok { v with default := d }
  else if p.1 = cs! "lock-previous" ∨ p.1 = cs! "lock-valid" then do
    let b ← parseBoolean p.2
    .ok { v with lockPrevious := b }
  else if p.1 = cs! "lock-range" then do
    let b ← parseBoolean p.2
    .ok { v with lockRange := b }
  else if p.1 = cs! "defuzzifier" then do
    let d ← x.parseDefuzzifier S p.2
    .ok { v with defuzzifier := d }
  else if p.1 = cs! "aggregation" ∨ p.1 = cs! "accumulation" then do
    let k ← parseSNorm p.2
    .ok { v with fuzzy := { v.fuzzy with aggregation := k } }
  else if p.1 = cs! "term" then do
    let t ← parseTerm F ctx p.2
    .ok { v with terms := v.terms ++ [t] }
  else .error .importing

/-- `processOutputVariable`, src/imex/FllImporter.cpp:123-175 -/
def processOutputVariable [ScalarText S] [Truncate S] (x : FllImporter) (G : Registry S) (block : Str)
    (e : Engine S) : Except Err (Engine S) := do
  let v ← (lines block).foldlM (x.outputStep G.functions e.world.ctx) (OutputVariable.new [] ninf inf [])
  .ok { e with outputs := e.outputs ++ [v] }

/-- one line of `processRuleBlock`, src/imex/FllImporter.cpp:181-228: `activation` with the name of a
T-Norm (or nothing) sets the implication operator. -/
def blockStep [ScalarText S] [Truncate S] (G : Registry S) (V : Vocabulary) (b : RuleBlock S) (line : Str) :
    Except Err (RuleBlock S) := do
  let p ← parseKeyValue line ':'
  if p.1 = cs! "RuleBlock" then .ok { b with name := p.2 }
  else if p.1 = cs! "description" then .ok { b with description := p.2 }
  else if p.1 = cs! "enabled" then do
    let y ← parseBoolean p.2
    .ok { b with enabled := y }
  else if p.1 = cs! "conjunction" then do
    let k ← parseTNorm p.2
    .ok { b with conjunction := k }
  else if p.1 = cs! "disjunction" then do
    let k ← parseSNorm p.2
    .ok { b with disjunction := k }
  else if p.1 = cs! "implication" then do
    let k ← parseTNorm p.2
    .ok { b with implication := k }
  else if p.1 = cs! "activation" then
    if p.2 = [] ∨ (TNormKind.registered.any fun k => k.className == p.2) = true then do
      let k ← parseTNorm p.2
      .ok { b with implication := k }
    else do
      let a ← parseActivation p.2
      .ok { b with activation := a }
  else if p.1 = cs! "rule" then
    .ok { b with rules := b.rules ++ [((Rule.new p.2).reload G V).1] }
  else .error .importing

/-- `processRuleBlock`, src/imex/FllImporter.cpp:177-232 -/
def processRuleBlock [ScalarText S] [Truncate S] (G : Registry S) (block : Str) (e : Engine S) :
    Except Err (Engine S) := do
  let b ← (lines block).foldlM (blockStep G e.world.vocabulary) (RuleBlock.new [])
  .ok { e with blocks := e.blocks ++ [{ b with activation := some (b.activation.getD .general) }] }

/-- `process`, src/imex/FllImporter.cpp:77-89 -/
def process [ScalarText S] [Truncate S] (x : FllImporter) (G : Registry S) (tag block : Str) (e : Engine S) :
    Except Err (Engine S) :=
  if tag = [] then .ok e
  else if tag = cs! "InputVariable" then processInputVariable G block e
  else if tag = cs! "OutputVariable" then x.processOutputVariable G block e
  else if tag = cs! "RuleBlock" then processRuleBlock G block e
  else .error .importing

/-- the variables of the loop of `fromString`: the engine so far, `tag` and `block` -/
structure State (S : Type) where
  engine : Engine S
  tag : Str
  block : List Str

/-- the chain of conditions in the loop of `fromString`, src/imex/FllImporter.cpp:58-72 -/
def keyStep [ScalarText S] [Truncate S] (x : FllImporter) (G : Registry S) (s : State S) (key value : Str) :
    Except Err (State S) :=
  if key = cs! "Engine" then .ok { s with engine := { s.engine with name := value } }
  else if key = cs! "description" ∧ s.block = [] then
    .ok { s with engine := { s.engine with description := value } }
  else if key = cs! "InputVariable" ∨ key = cs! "OutputVariable" ∨ key = cs! "RuleBlock" then do
    let e ← x.process G s.tag (Op.join s.block (cs! "\n")) s.engine
    .ok ⟨e, key, [key ++ cs! ":" ++ value]⟩
  else if s.tag = [] then .error .importing
  else .ok { s with block := s.block ++ [key ++ cs! ":" ++ value] }

/-- one line of `fromString`, src/imex/FllImporter.cpp:51-73 -/
def step [ScalarText S] [Truncate S] (x : FllImporter) (G : Registry S) (s : State S) (raw : Str) :
    Except Err (State S) :=
  let line := Op.trim ((Op.split raw (cs! "#") false).headD [])
  if line.isEmpty then .ok s
  else match cut ':' line with
  | none => .error .importing
  | some p => x.keyStep G s (Op.trim p.1) (Op.trim p.2)

/-- `fromString`, src/imex/FllImporter.cpp:42-75 -/
def fromString [ScalarText S] [Truncate S] (x : FllImporter) (G : Registry S) (code : Str) :
    Except Err (Engine S) := do
  let fll := Op.join (Op.split code x.separator true) (cs! "\n")
  let s ← (lines fll).foldlM (x.step G) ⟨⟨[], [], [], [], []⟩, [], []⟩
  x.process G s.tag (Op.join s.block (cs! "\n")) s.engine

end FllImporter
end FL
