/-
The Fuzzy Control Language: `FclExporter` (src/imex/FclExporter.cpp) and `FclImporter`
(src/imex/FclImporter.cpp).

Simplified: as in `Verif.Model.Fll`, and a block is the list of its lines instead of a text that is
split again (the lines have no line feeds).
-/
import Verif.Model.Fll

namespace FL
open Scalar
variable {S : Type}

/-! ### FclExporter -/

/-- `toString(const Norm*)`, src/imex/FclExporter.cpp:128-168, on T-Norms -/
def TNormKind.fcl : TNormKind → Str
  | .minimum => cs! "MIN"
  | .algebraicProduct => cs! "PROD"
  | .boundedDifference => cs! "BDIF"
  | .drasticProduct => cs! "DPROD"
  | .einsteinProduct => cs! "EPROD"
  | .hamacherProduct => cs! "HPROD"
  | .nilpotentMinimum => cs! "NMIN"

/-- `toString(const Norm*)`, src/imex/FclExporter.cpp:128-168, on S-Norms; `UnboundedSum` keeps the
name of its class -/
def SNormKind.fcl : SNormKind → Str
  | .maximum => cs! "MAX"
  | .algebraicSum => cs! "ASUM"
  | .normalizedSum => cs! "NSUM"
  | .boundedSum => cs! "BSUM"
  | .drasticSum => cs! "DSUM"
  | .einsteinSum => cs! "ESUM"
  | .hamacherSum => cs! "HSUM"
  | .nilpotentMaximum => cs! "NMAX"
  | .unboundedSum => cs! "UnboundedSum"

def TNorm.fcl : TNorm S → Str
  | .builtin k => k.fcl
  | .function _ => cs! "TNormFunction"

def SNorm.fcl : SNorm S → Str
  | .builtin k => k.fcl
  | .function _ => cs! "SNormFunction"

/-- `toString(const Defuzzifier*)`, src/imex/FclExporter.cpp:170-188 -/
def Defuzzifier.fcl : Defuzzifier → Str
  | .integral .centroid _ => cs! "COG"
  | .integral .bisector _ => cs! "COA"
  | .integral .smallestOfMaximum _ => cs! "LM"
  | .integral .largestOfMaximum _ => cs! "RM"
  | .integral .meanOfMaximum _ => cs! "MM"
  | .weighted .average _ => cs! "COGS"
  | .weighted .sum _ => cs! "COGSS"

structure FclExporter where
  indent : Str := cs! "  "

namespace FclExporter

/-- `fuzzylite::library()`, fuzzylite/fuzzylite.h:407-418 -/
def library : Str := cs! "fuzzylite 7.0.0"

/-- lines written with `<< … << "\n"` -/
def text (ls : List Str) : Str := ls.flatMap fun l => l ++ cs! "\n"

/-- `toString(const Term*)`, src/imex/FclExporter.cpp:190-209 -/
def term [ScalarText S] (t : Term S) : Str :=
  match t.kind with
  | .discrete xy =>
    Op.join (xy.map fun p => cs! "(" ++ ScalarText.str p.1 ++ cs! ", " ++ ScalarText.str p.2 ++ cs! ")") (cs! " ")
  | .constant v => ScalarText.str v
  | _ => t.className ++ cs! " " ++ t.parameters

/-- the line of a range, src/imex/FclExporter.cpp:77-78 and 91-92 -/
def range [ScalarText S] (x : FclExporter) (v : Variable S) : Str :=
  x.indent ++ cs! "RANGE := (" ++ Op.join [ScalarText.str v.minimum, ScalarText.str v.maximum] (cs! " .. ") ++ cs! ");"

/-- the line of a term, src/imex/FclExporter.cpp:80-83 and 94-97 -/
def termLine [ScalarText S] (x : FclExporter) (t : Term S) : Str :=
  x.indent ++ cs! "TERM " ++ Op.validName t.name ++ cs! " := " ++ term t ++ cs! ";"

/-- `toString(const InputVariable*)`, src/imex/FclExporter.cpp:74-86 -/
def inputVariable [ScalarText S] (x : FclExporter) (v : Variable S) : List Str :=
  [cs! "FUZZIFY " ++ Op.validName v.name, x.range v] ++ v.terms.map x.termLine ++ [cs! "END_FUZZIFY"]

/-- `toString(const OutputVariable*)`, src/imex/FclExporter.cpp:88-110 -/
def outputVariable [ScalarText S] (x : FclExporter) (v : OutputVariable S) : List Str :=
  [cs! "DEFUZZIFY " ++ Op.validName v.name, x.range v.toVariable] ++ v.terms.map x.termLine
    ++ (match v.defuzzifier with
      | some d => [x.indent ++ cs! "METHOD : " ++ d.fcl ++ cs! ";"]
      | none => [])
    ++ (match v.fuzzy.aggregation with
      | some k => [x.indent ++ cs! "ACCU : " ++ k.fcl ++ cs! ";"]
      | none => [])
    ++ [x.indent ++ cs! "DEFAULT := " ++ ScalarText.str v.default ++ (if v.lockPrevious then cs! " | NC" else []) ++ cs! ";",
        cs! "END_DEFUZZIFY"]

/-- the lines of the rules, src/imex/FclExporter.cpp:123-124; `n` is the number of the next rule -/
def ruleLines (x : FclExporter) : Nat → List (Rule S) → List Str
  | _, [] => []
  | n, r :: rs => (x.indent ++ cs! "RULE " ++ Nat.toDigits 10 n ++ cs! " : " ++ r.text) :: ruleLines x (n + 1) rs

/-- `toString(const RuleBlock*)`, src/imex/FclExporter.cpp:112-128 -/
def ruleBlock (x : FclExporter) (b : RuleBlock S) : List Str :=
  [cs! "RULEBLOCK " ++ b.name]
    ++ (match b.conjunction with
      | some k => [x.indent ++ cs! "AND : " ++ k.fcl ++ cs! ";"]
      | none => [])
    ++ (match b.disjunction with
      | some k => [x.indent ++ cs! "OR : " ++ k.fcl ++ cs! ";"]
      | none => [])
    ++ (match b.implication with
      | some k => [x.indent ++ cs! "ACT : " ++ k.fcl ++ cs! ";"]
      | none => [])
    ++ x.ruleLines 1 b.rules ++ [cs! "END_RULEBLOCK"]

/-- `toString(const Engine*)`, src/imex/FclExporter.cpp:40-72 -/
def toString [ScalarText S] (x : FclExporter) (e : Engine S) : Str :=
  text ([cs! "//Code automatically generated with " ++ library ++ cs! ".", [],
         cs! "FUNCTION_BLOCK " ++ e.name, [], cs! "VAR_INPUT"]
    ++ (e.inputs.map fun v => x.indent ++ Op.validName v.name ++ cs! ": REAL;")
    ++ [cs! "END_VAR", [], cs! "VAR_OUTPUT"]
    ++ (e.outputs.map fun v => x.indent ++ Op.validName v.name ++ cs! ": REAL;")
    ++ [cs! "END_VAR", []]
    ++ (e.inputs.flatMap fun v => x.inputVariable v ++ [[]])
    ++ (e.outputs.flatMap fun v => x.outputVariable v ++ [[]])
    ++ (e.blocks.flatMap fun b => x.ruleBlock b ++ [[]])
    ++ [cs! "END_FUNCTION_BLOCK"])

end FclExporter

/-! ### FclImporter -/

/-- `FclImporter`, with the value of `IntegralDefuzzifier::defaultResolution()` -/
structure FclImporter where
  resolution : Int := 1000

namespace FclImporter

/-- the value of a line `key : value`: `Op::split(line, ":")` has two elements -/
def value (line separator : Str) : Except Err Str :=
  match Op.split line separator true with
  | [_, v] => .ok v
  | _ => .error .syntaxError

/-- the class of a T-Norm, src/imex/FclImporter.cpp:318-335 -/
def tnormClass (name : Str) : Str :=
  if name = cs! "NONE" then []
  else if name = cs! "MIN" then TNormKind.minimum.className
  else if name = cs! "PROD" then TNormKind.algebraicProduct.className
  else if name = cs! "BDIF" then TNormKind.boundedDifference.className
  else if name = cs! "DPROD" then TNormKind.drasticProduct.className
  else if name = cs! "EPROD" then TNormKind.einsteinProduct.className
  else if name = cs! "HPROD" then TNormKind.hamacherProduct.className
  else if name = cs! "NMIN" then TNormKind.nilpotentMinimum.className
  else name

/-- `parseTNorm`, src/imex/FclImporter.cpp:311-338.  The factory returns a null pointer for the empty
name. -/
def parseTNorm (line : Str) : Except Err (Option (TNorm S)) := do
  let v ← value line (cs! ":")
  let cls := tnormClass (Op.trim v)
  if cls = [] then .ok none
  else match TNormKind.registered.find? fun k => k.className == cls with
  | some k => .ok (some (.builtin k))
  | none => .error .outOfRange

/-- the class of an S-Norm, src/imex/FclImporter.cpp:347-366 -/
def snormClass (name : Str) : Str :=
  if name = cs! "NONE" then []
  else if name = cs! "MAX" then SNormKind.maximum.className
  else if name = cs! "ASUM" then SNormKind.algebraicSum.className
  else if name = cs! "BSUM" then SNormKind.boundedSum.className
  else if name = cs! "NSUM" then SNormKind.normalizedSum.className
  else if name = cs! "DSUM" then SNormKind.drasticSum.className
  else if name = cs! "ESUM" then SNormKind.einsteinSum.className
  else if name = cs! "HSUM" then SNormKind.hamacherSum.className
  else if name = cs! "NMAX" then SNormKind.nilpotentMaximum.className
  else name

/-- `parseSNorm`, src/imex/FclImporter.cpp:340-369 -/
def parseSNorm (line : Str) : Except Err (Option (SNorm S)) := do
  let v ← value line (cs! ":")
  let cls := snormClass (Op.trim v)
  if cls = [] then .ok none
  else match SNormKind.registered.find? fun k => k.className == cls with
  | some k => .ok (some (.builtin k))
  | none => .error .outOfRange

/-- the class of a defuzzifier, src/imex/FclImporter.cpp:447-464 -/
def defuzzifierClass (name : Str) : Str :=
  if name = cs! "NONE" then []
  else if name = cs! "COG" then IntegralKind.centroid.className
  else if name = cs! "COA" then IntegralKind.bisector.className
  else if name = cs! "LM" then IntegralKind.smallestOfMaximum.className
  else if name = cs! "RM" then IntegralKind.largestOfMaximum.className
  else if name = cs! "MM" then IntegralKind.meanOfMaximum.className
  else if name = cs! "COGS" then WeightedKind.average.className
  else if name = cs! "COGSS" then WeightedKind.sum.className
  else name

/-- `parseDefuzzifier`, src/imex/FclImporter.cpp:439-467 -/
def parseDefuzzifier (x : FclImporter) (line : Str) : Except Err (Option Defuzzifier) := do
  let v ← value line (cs! ":")
  let cls := defuzzifierClass (Op.trim v)
  if cls = [] then .ok none
  else match (Defuzzifier.registered x.resolution).find? fun d => d.className == cls with
  | some d => .ok (some d)
  | none => .error .outOfRange

/-- the spacing of `parseTerm`, src/imex/FclImporter.cpp:372-382 -/
def spaced (line : Str) : Str :=
  line.flatMap fun c =>
    if c = '(' ∨ c = ')' ∨ c = ',' then [' ', c, ' ']
    else if c = ':' then [' ', ':']
    else if c = '=' then ['=', ' ']
    else [c]

/-- the states of `parseTerm`, src/imex/FclImporter.cpp:384 -/
inductive Fsm
  | kwTerm | name | assign | termClass | parameters
  deriving DecidableEq

/-- the variables of the loop of `parseTerm`; `stop` after `break` -/
structure TermState where
  state : Fsm
  name : Str
  termClass : Str
  parameters : List Str
  stop : Bool

/-- one token, src/imex/FclImporter.cpp:391-423 -/
def termStep (S : Type) [ScalarText S] (s : TermState) (token : Str) : TermState :=
  if s.stop then s
  else match s.state with
  | .kwTerm => if token = cs! "TERM" then { s with state := .name } else s
  | .name => { s with name := token, state := .assign }
  | .assign => if token = cs! ":=" then { s with state := .termClass } else s
  | .termClass =>
    if (ScalarText.ofText token : Option S).isSome then
      { s with termClass := cs! "Constant", parameters := s.parameters ++ [token], state := .parameters }
    else if token = cs! "(" then { s with termClass := cs! "Discrete", state := .parameters }
    else { s with termClass := token, state := .parameters }
  | .parameters =>
    if s.termClass ≠ cs! "Function" ∧ (token = cs! "(" ∨ token = cs! ")" ∨ token = cs! ",") then s
    else if token = cs! ";" then { s with stop := true }
    else { s with parameters := s.parameters ++ [Op.trim token] }

/-- `parseTerm`, src/imex/FclImporter.cpp:371-437, for an engine with the values `ctx`.  Only the class
`Function` is a `Function`. -/
def parseTerm [ScalarText S] (F : ElementFactory S) (ctx : Ctx S) (line : Str) : Except Err (Term S) :=
  let s := (Op.words (spaced line)).foldl (termStep S) ⟨.kwTerm, [], [], [], false⟩
  if s.state ≠ .parameters then .error .syntaxError
  else match (Term.registered (S := S)).find? fun t => t.className == s.termClass with
  | none => .error .outOfRange
  | some t =>
    let t := { Engine.updateTerm F ctx t with name := Op.validName s.name }
    let separator := match t.kind with
      | .function _ => []
      | _ => cs! " "
    match t.configure F ctx (Op.join s.parameters separator) with
    | (t, none) => .ok t
    | (_, some e) => .error e

/-- `parseDefaultValue`, src/imex/FclImporter.cpp:469-508; `values.front()` of an empty vector is
undefined.  Any exception of the conversion becomes a syntax error. -/
def parseDefaultValue [ScalarText S] (line : Str) : Except Err (S × Bool) := do
  let v ← value line (cs! ":=")
  match Op.split v (cs! "|") true with
  | [] => .error .ub
  | d :: rest =>
    let nc := match rest with
      | [n] => Op.trim n
      | _ => []
    match ScalarText.ofText (Op.trim d) with
    | none => .error .syntaxError
    | some x => if nc = cs! "NC" ∨ nc = [] then .ok (x, nc = cs! "NC") else .error .syntaxError

/-- `parseRange`, src/imex/FclImporter.cpp:510-547 -/
def parseRange [ScalarText S] (line : Str) : Except Err (S × S) := do
  let v ← value line (cs! ":=")
  let range := v.filter fun c => !(c = '(' ∨ c = ')' ∨ c = ' ' ∨ c = ';')
  match Op.split range (cs! "..") true with
  | [a, b] =>
    match ScalarText.ofText a, ScalarText.ofText b with
    | some x, some y => .ok (x, y)
    | _, _ => .error .syntaxError
  | _ => .error .syntaxError

/-- `parseLocks`, src/imex/FclImporter.cpp:549-598: previous value and range -/
def parseLocks (line : Str) : Except Err (Bool × Bool) :=
  match FllImporter.cut ':' line with
  | none => .error .syntaxError
  | some (_, v) =>
    match Op.split v (cs! "|") true with
    | [f] =>
      let output : Bool := Op.trim f = cs! "PREVIOUS"
      let range : Bool := Op.trim f = cs! "RANGE"
      if output || range then .ok (output, range) else .error .syntaxError
    | [f, g] =>
      let output : Bool := Op.trim f = cs! "PREVIOUS" || Op.trim g = cs! "PREVIOUS"
      let range : Bool := Op.trim f = cs! "RANGE" || Op.trim g = cs! "RANGE"
      if output && range then .ok (output, range) else .error .syntaxError
    | _ => .error .syntaxError

/-- `parseEnabled`, src/imex/FclImporter.cpp:600-614 -/
def parseEnabled (line : Str) : Except Err Bool := do
  let v ← value line (cs! ":")
  if Op.trim v = cs! "TRUE" then .ok true
  else if Op.trim v = cs! "FALSE" then .ok false
  else .error .syntaxError

/-- `tokenizer >> firstToken` -/
def first (line : Str) : Str := (Op.words line).headD []

/-- one line of `processVar`, src/imex/FclImporter.cpp:142-160 -/
def varStep [Scalar S] (tag : Str) (e : Engine S) (line : Str) : Except Err (Engine S) :=
  match Op.split line (cs! ":") true with
  | [n, _] =>
    if tag = cs! "VAR_INPUT" then .ok { e with inputs := e.inputs ++ [Variable.new (Op.validName n) ninf inf []] }
    else if tag = cs! "VAR_OUTPUT" then
      .ok { e with outputs := e.outputs ++ [OutputVariable.new (Op.validName n) ninf inf []] }
    else .error .syntaxError
  | _ => .error .syntaxError

/-- one line of `processFuzzify`, src/imex/FclImporter.cpp:185-210 -/
def inputStep [ScalarText S] (F : ElementFactory S) (ctx : Ctx S) (v : Variable S) (line : Str) :
    Except Err (Variable S) :=
  if first line = cs! "RANGE" then do
    let r ← parseRange line
    .ok ((v.setMinimum r.1).setMaximum r.2)
  else if first line = cs! "ENABLED" then do
    let b ← parseEnabled line
    .ok { v with enabled := b }
  else if first line = cs! "TERM" then do
    let t ← parseTerm F ctx line
    .ok (v.addTerm t)
  else .error .syntaxError

/-- `processFuzzify`, src/imex/FclImporter.cpp:163-211: the first variable with the name.  The values and
names of the variables do not change meanwhile. -/
def processFuzzify [ScalarText S] (F : ElementFactory S) (e : Engine S) (head : Str) (lines : List Str) :
    Except Err (Engine S) :=
  match FllImporter.cut ' ' head with
  | none => .error .syntaxError
  | some (_, n) =>
    match e.inputs.findIdx? fun v => v.name == Op.validName n with
    | none => .error .syntaxError
    | some i =>
      match e.inputs[i]? with
      | none => .error .ub
      | some v => do
        let v ← lines.foldlM (inputStep F e.world.ctx) v
        .ok { e with inputs := e.inputs.set i v }

/-- one line of `processDefuzzify`, src/imex/FclImporter.cpp:233-264 -/
def outputStep [ScalarText S] (x : FclImporter) (F : ElementFactory S) (ctx : Ctx S) (v : OutputVariable S)
    (line : Str) : Except Err (OutputVariable S) :=
  let line := Op.trim line
  if first line = cs! "TERM" then do
    let t ← parseTerm F ctx line
    .ok { v with terms := v.terms ++ [t] }
  else if first line = cs! "METHOD" then do
    let d ← x.parseDefuzzifier line
    .ok { v with defuzzifier := d }
  else if first line = cs! "ACCU" then do
    let k ← parseSNorm line
    .ok { v with fuzzy := { v.fuzzy with aggregation := k } }
  else if first line = cs! "DEFAULT" then do
    let p ← parseDefaultValue line
    .ok { v with default := p.1, lockPrevious := p.2 || v.lockPrevious }
  else if first line = cs! "RANGE" then do
    let r ← parseRange line
    .ok ((v.setMinimum r.1).setMaximum r.2)
  else if first line = cs! "LOCK" then do
    let p ← parseLocks line
    .ok { v with lockPrevious := p.1, lockRange := p.2 }
  else if first line = cs! "ENABLED" then do
    let b ← parseEnabled line
    .ok { v with enabled := b }
  else .error .syntaxError

/-- `processDefuzzify`, src/imex/FclImporter.cpp:213-265 -/
def processDefuzzify [ScalarText S] (x : FclImporter) (F : ElementFactory S) (e : Engine S) (head : Str)
    (lines : List Str) : Except Err (Engine S) :=
  match FllImporter.cut ' ' head with
  | none => .error .syntaxError
  | some (_, n) =>
    match e.outputs.findIdx? fun v => v.name == Op.validName n with
    | none => .error .syntaxError
    | some i =>
      match e.outputs[i]? with
      | none => .error .ub
      | some v => do
        let v ← lines.foldlM (x.outputStep F e.world.ctx) v
        .ok { e with outputs := e.outputs.set i v }

/-- the text of a rule, src/imex/FclImporter.cpp:290-294: `substr` beyond the end raises -/
def ruleText (line : Str) : Except Err Str :=
  match FllImporter.cut ':' line with
  | some (_, r) => .ok (Op.trim r)
  | none => if line.length < 5 then .error .outOfRange else .ok (Op.trim (line.drop 5))

/-- one line of `processRuleBlock`, src/imex/FclImporter.cpp:279-308; exceptions while loading a rule are
ignored -/
def blockStep [ScalarText S] (G : Registry S) (V : Vocabulary) (b : RuleBlock S) (line : Str) :
    Except Err (RuleBlock S) :=
  let token := line.takeWhile (· ≠ ' ')
  if token = cs! "AND" then do
    let k ← parseTNorm line
    .ok { b with conjunction := k }
  else if token = cs! "OR" then do
    let k ← parseSNorm line
    .ok { b with disjunction := k }
  else if token = cs! "ACT" then do
    let k ← parseTNorm line
    .ok { b with implication := k }
  else if token = cs! "ENABLED" then do
    let y ← parseEnabled line
    .ok { b with enabled := y }
  else if token = cs! "RULE" then do
    let t ← ruleText line
    .ok { b with rules := b.rules ++ [((Rule.new t).reload G V).1] }
  else .error .syntaxError

/-- the text after the last blank, src/imex/FclImporter.cpp:273-275 -/
def lastWord (line : Str) : Str :=
  if ' ' ∈ line then (line.reverse.takeWhile (· ≠ ' ')).reverse else []

/-- `processRuleBlock`, src/imex/FclImporter.cpp:267-309 -/
def processRuleBlock [ScalarText S] (G : Registry S) (e : Engine S) (head : Str) (lines : List Str) :
    Except Err (Engine S) := do
  let b ← lines.foldlM (blockStep G e.world.vocabulary) { RuleBlock.new (lastWord head) with activation := some .general }
  .ok { e with blocks := e.blocks ++ [b] }

/-- `processBlock`, src/imex/FclImporter.cpp:122-136 -/
def processBlock [ScalarText S] (x : FclImporter) (G : Registry S) (tag : Str) (block : List Str) (e : Engine S) :
    Except Err (Engine S) :=
  let head := block.headD []
  let lines := block.tail
  if tag = cs! "VAR_INPUT" ∨ tag = cs! "VAR_OUTPUT" then lines.foldlM (varStep tag) e
  else if tag = cs! "FUZZIFY" then processFuzzify G.functions e head lines
  else if tag = cs! "DEFUZZIFY" then x.processDefuzzify G.functions e head lines
  else if tag = cs! "RULEBLOCK" then processRuleBlock G e head lines
  else .error .syntaxError

/-- the map `tags`, src/imex/FclImporter.cpp:35-41 -/
def closing (tag : Str) : Option Str :=
  if tag = cs! "VAR_INPUT" then some (cs! "END_VAR")
  else if tag = cs! "VAR_OUTPUT" then some (cs! "END_VAR")
  else if tag = cs! "FUZZIFY" then some (cs! "END_FUZZIFY")
  else if tag = cs! "DEFUZZIFY" then some (cs! "END_DEFUZZIFY")
  else if tag = cs! "RULEBLOCK" then some (cs! "END_RULEBLOCK")
  else none

/-- the line without comments and semicolons, src/imex/FclImporter.cpp:51-53 -/
def clean (raw : Str) : Str :=
  let line := (Op.split raw (cs! "//") false).headD []
  let line := (Op.split line (cs! "#") false).headD []
  Op.trim ((Op.findReplace line (cs! ";") [] true).getD [])

/-- the variables of the loop of `fromString` -/
structure State (S : Type) where
  engine : Engine S
  tag : Str
  block : List Str

/-- the loop of `fromString`, src/imex/FclImporter.cpp:49-107 -/
def readLines [ScalarText S] (x : FclImporter) (G : Registry S) : State S → List Str → Except Err (State S)
  | s, [] => .ok s
  | s, raw :: ls =>
    let line := clean raw
    if line = [] ∨ line.head? = some '%' then readLines x G s ls
    else if first line = cs! "FUNCTION_BLOCK" then
      let name := (Op.words line).tail
      readLines x G (if name = [] then s else { s with engine := { s.engine with name := Op.join name (cs! " ") } }) ls
    else if first line = cs! "END_FUNCTION_BLOCK" then .ok s
    else if s.tag = [] then
      match closing (first line) with
      | none => .error .syntaxError
      | some _ => readLines x G { s with tag := first line, block := [line] } ls
    else if closing s.tag = some (first line) then
      match x.processBlock G s.tag s.block s.engine with
      | .error e => .error e
      | .ok e => readLines x G { s with engine := e, tag := [] } ls
    else if (closing (first line)).isSome then .error .syntaxError
    else readLines x G { s with block := s.block ++ [line] } ls

/-- `fromString`, src/imex/FclImporter.cpp:32-120 -/
def fromString [ScalarText S] (x : FclImporter) (G : Registry S) (fcl : Str) : Except Err (Engine S) := do
  let s ← x.readLines G ⟨⟨[], [], [], [], []⟩, [], []⟩ (FllImporter.lines fcl)
  if s.tag = [] then .ok s.engine else .error .syntaxError

end FclImporter
end FL
