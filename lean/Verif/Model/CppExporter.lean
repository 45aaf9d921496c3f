/-
The exporter to C++ (src/imex/CppExporter.cpp).

Simplified: null terms do not occur; `toString(const Hedge*)`, which no other method calls, is left out.
-/
import Verif.Model.Fll

namespace FL
open Scalar
variable {S : Type}

/-- `CppExporter`, src/imex/CppExporter.cpp:24-27 and fuzzylite/imex/CppExporter.h:50, with the text of
`fuzzylite::library()`. -/
structure CppExporter where
  usingNamespace : Bool := false
  usingVariableNames : Bool := true
  library : Str := cs! "fuzzylite 7.0.0"

namespace CppExporter

/-- `fl(clazz)`, src/imex/CppExporter.cpp:35-37 -/
def fl (x : CppExporter) (c : Str) : Str := if x.usingNamespace then cs! "fl::" ++ c else c

/-- `"\"" + text + "\""` -/
def quoted (s : Str) : Str := cs! "\"" ++ s ++ cs! "\""

/-- `toString(scalar)`, src/imex/CppExporter.cpp:171-177 -/
def scalar [ScalarText S] (v : S) : Str :=
  if Op.isNaN v then cs! "fl::nan"
  else if Op.isInf v then (if gt v (lit 0) then cs! "fl::inf" else cs! "-fl::inf")
  else ScalarText.str v

/-- `Op::findReplace(text, " ", ", ")`; it terminates -/
def commas (text : Str) : Str := (Op.findReplace text (cs! " ") (cs! ", ") true).getD []

/-- `toString(const Term*)`, src/imex/CppExporter.cpp:179-209 -/
def term [ScalarText S] (x : CppExporter) (t : Term S) : Str :=
  match t.kind with
  | .discrete xy => x.fl t.className ++ cs! "::create(" ++ quoted t.name ++ cs! ", " ++ intText (xy.length * 2 : Nat) ++ cs! ", "
      ++ Op.join ((Discrete.toVector xy).map ScalarText.str) (cs! ", ") ++ cs! ")"
  | .function f => x.fl t.className ++ cs! "::create(" ++ quoted t.name ++ cs! ", " ++ quoted f.formula ++ cs! ", engine)"
  | .linear c _ => x.fl t.className ++ cs! "::create(" ++ quoted t.name ++ cs! ", engine, "
      ++ Op.join (c.map ScalarText.str) (cs! ", ") ++ cs! ")"
  | _ => cs! "new " ++ x.fl t.className ++ cs! "(" ++ quoted t.name ++ cs! ", " ++ commas t.parameters ++ cs! ")"

/-- `toString(const Norm*)`, src/imex/CppExporter.cpp:227-231, on a T-Norm -/
def tnorm (x : CppExporter) : Option (TNorm S) → Str
  | none => cs! "fl::null"
  | some k => cs! "new " ++ x.fl k.className

/-- `toString(const Norm*)`, src/imex/CppExporter.cpp:227-231, on an S-Norm -/
def snorm (x : CppExporter) : Option (SNorm S) → Str
  | none => cs! "fl::null"
  | some k => cs! "new " ++ x.fl k.className

/-- `toString(const Defuzzifier*)`, src/imex/CppExporter.cpp:233-243: the class of weighted defuzzifiers is
never prefixed. -/
def defuzzifier (x : CppExporter) : Option Defuzzifier → Str
  | none => cs! "fl::null"
  | some (.integral k r) => cs! "new " ++ x.fl k.className ++ cs! "(" ++ intText r ++ cs! ")"
  | some (.weighted k t) => cs! "new " ++ k.className ++ cs! "(" ++ quoted t.typeName ++ cs! ")"

/-- `toString(const Activation*)`, src/imex/CppExporter.cpp:245-258 -/
def activation [ScalarText S] (x : CppExporter) : Option (Activation S) → Str
  | none => cs! "fl::null"
  | some a =>
    let parameters := Op.trim a.parameters
    if parameters.isEmpty then cs! "new " ++ x.fl a.className
    else
      let values := (Op.split parameters (cs! " ") true).map fun v =>
        if (ScalarText.ofText v : Option S).isSome then v else quoted v
      cs! "new " ++ x.fl a.className ++ cs! "(" ++ Op.join values (cs! ", ") ++ cs! ")"

/-- `"inputVariable"`, followed by its number if there are several, src/imex/CppExporter.cpp:83-90 and
likewise -/
def numbered (kind : Str) (count i : Nat) : Str := if count > 1 then kind ++ intText (i + 1 : Nat) else kind

/-- the name of the variable for the `i`-th input variable, src/imex/CppExporter.cpp:79-91 -/
def inputName (x : CppExporter) (e : Engine S) (i : Nat) (v : Variable S) : Str :=
  if x.usingVariableNames then Op.validName v.name else numbered (cs! "inputVariable") e.inputs.length i

/-- the name of the variable for the `i`-th output variable, src/imex/CppExporter.cpp:107-119 -/
def outputName (x : CppExporter) (e : Engine S) (i : Nat) (v : OutputVariable S) : Str :=
  if x.usingVariableNames then Op.validName v.name else numbered (cs! "outputVariable") e.outputs.length i

/-- the name of the variable for the `i`-th rule block, src/imex/CppExporter.cpp:139-152 -/
def blockName (x : CppExporter) (e : Engine S) (i : Nat) (b : RuleBlock S) : Str :=
  if x.usingVariableNames && !b.name.isEmpty then Op.validName b.name
  else numbered (cs! "ruleBlock") e.blocks.length i

/-- `name->method(argument);` and the end of the line -/
def call (name method argument : Str) : Str := name ++ cs! "->" ++ method ++ cs! "(" ++ argument ++ cs! ");\n"

/-- `Class* name = new Class;` and the end of the line -/
def declaration (x : CppExporter) (c name : Str) : Str :=
  x.fl (c ++ cs! "* ") ++ name ++ cs! " = new " ++ x.fl (c ++ cs! ";\n")

/-- `toString(const InputVariable*, const Engine*)`, src/imex/CppExporter.cpp:92-103 -/
def inputVariable [ScalarText S] (x : CppExporter) (name : Str) (v : Variable S) : Str :=
  x.declaration (cs! "InputVariable") name
  ++ call name (cs! "setName") (quoted v.name)
  ++ call name (cs! "setDescription") (quoted v.description)
  ++ call name (cs! "setEnabled") (FllExporter.bool v.enabled)
  ++ call name (cs! "setRange") (scalar v.minimum ++ cs! ", " ++ scalar v.maximum)
  ++ call name (cs! "setLockValueInRange") (FllExporter.bool v.lockRange)
  ++ v.terms.flatMap (fun t => call name (cs! "addTerm") (x.term t))
  ++ call (cs! "engine") (cs! "addInputVariable") name

/-- `toString(const OutputVariable*, const Engine*)`, src/imex/CppExporter.cpp:120-135 -/
def outputVariable [ScalarText S] (x : CppExporter) (name : Str) (v : OutputVariable S) : Str :=
  x.declaration (cs! "OutputVariable") name
  ++ call name (cs! "setName") (quoted v.name)
  ++ call name (cs! "setDescription") (quoted v.description)
  ++ call name (cs! "setEnabled") (FllExporter.bool v.enabled)
  ++ call name (cs! "setRange") (scalar v.minimum ++ cs! ", " ++ scalar v.maximum)
  ++ call name (cs! "setLockValueInRange") (FllExporter.bool v.lockRange)
  ++ call name (cs! "setAggregation") (x.snorm v.fuzzy.aggregation)
  ++ call name (cs! "setDefuzzifier") (x.defuzzifier v.defuzzifier)
  ++ call name (cs! "setDefaultValue") (scalar v.default)
  ++ call name (cs! "setLockPreviousValue") (FllExporter.bool v.lockPrevious)
  ++ v.terms.flatMap (fun t => call name (cs! "addTerm") (x.term t))
  ++ call (cs! "engine") (cs! "addOutputVariable") name

/-- `toString(const RuleBlock*, const Engine*)`, src/imex/CppExporter.cpp:154-168 -/
def ruleBlock [ScalarText S] (x : CppExporter) (name : Str) (b : RuleBlock S) : Str :=
  x.declaration (cs! "RuleBlock") name
  ++ call name (cs! "setName") (quoted b.name)
  ++ call name (cs! "setDescription") (quoted b.description)
  ++ call name (cs! "setEnabled") (FllExporter.bool b.enabled)
  ++ call name (cs! "setConjunction") (x.tnorm b.conjunction)
  ++ call name (cs! "setDisjunction") (x.snorm b.disjunction)
  ++ call name (cs! "setImplication") (x.tnorm b.implication)
  ++ call name (cs! "setActivation") (x.activation b.activation)
  ++ b.rules.flatMap (fun r => call name (cs! "addRule") (x.fl (cs! "Rule") ++ cs! "::parse(" ++ quoted r.text ++ cs! ", engine)"))
  ++ call (cs! "engine") (cs! "addRuleBlock") name

/-- the components of a kind, each followed by an empty line; `i` is the position of the first -/
def components {α : Type} (f : Nat → α → Str) : Nat → List α → Str
  | _, [] => []
  | i, a :: as => f i a ++ cs! "\n" ++ components f (i + 1) as

/-- `toString(const Engine*)`, src/imex/CppExporter.cpp:55-76 -/
def toString [ScalarText S] (x : CppExporter) (e : Engine S) : Str :=
  cs! "//Code automatically generated with " ++ x.library ++ cs! ".\n\n"
  ++ (if x.usingNamespace then [] else cs! "using namespace fuzzylite;\n\n")
  ++ x.fl (cs! "Engine* ") ++ cs! "engine = new " ++ x.fl (cs! "Engine;\n")
  ++ call (cs! "engine") (cs! "setName") (quoted e.name)
  ++ call (cs! "engine") (cs! "setDescription") (quoted e.description)
  ++ cs! "\n"
  ++ components (fun i v => x.inputVariable (x.inputName e i v) v) 0 e.inputs
  ++ components (fun i v => x.outputVariable (x.outputName e i v) v) 0 e.outputs
  ++ components (fun i b => x.ruleBlock (x.blockName e i b) b) 0 e.blocks

end CppExporter
end FL
