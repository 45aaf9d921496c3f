/-
The exporter to Java (src/imex/JavaExporter.cpp), and the Java that it writes: the statements of
C++ that it stands for.

Simplified: null terms do not occur.
-/
import Verif.Model.CppExporter
import Verif.Model.Cpp

namespace FL
open Scalar
variable {S : Type}

/-- `JavaExporter`, src/imex/JavaExporter.cpp:24, with the text of `fuzzylite::library()` -/
structure JavaExporter where
  usingVariableNames : Bool := true
  library : Str := cs! "fuzzylite 7.0.0"

namespace JavaExporter
open CppExporter (quoted numbered components commas)

/-- `toString(scalar)`, src/imex/JavaExporter.cpp:219-225 -/
def scalar [ScalarText S] (v : S) : Str :=
  if Op.isNaN v then cs! "Double.NaN"
  else if Op.isInf v then (if gt v (lit 0) then cs! "Double.POSITIVE_INFINITY" else cs! "Double.NEGATIVE_INFINITY")
  else ScalarText.str v

/-- `toString(const Term*)`, src/imex/JavaExporter.cpp:153-183 -/
def term [ScalarText S] (t : Term S) : Str :=
  match t.kind with
  | .discrete xy => t.className ++ cs! ".create(" ++ quoted t.name ++ cs! ", "
      ++ Op.join ((Discrete.toVector xy).map ScalarText.str) (cs! ", ") ++ cs! ")"
  | .function f => t.className ++ cs! ".create(" ++ quoted t.name ++ cs! ", " ++ quoted f.formula ++ cs! ", engine)"
  | .linear c _ => t.className ++ cs! ".create(" ++ quoted t.name ++ cs! ", engine, "
      ++ Op.join (c.map ScalarText.str) (cs! ", ") ++ cs! ")"
  | _ => cs! "new " ++ t.className ++ cs! "(" ++ quoted t.name ++ cs! ", " ++ commas t.parameters ++ cs! ")"

/-- `toString(const Norm*)`, src/imex/JavaExporter.cpp:198-202, on a T-Norm -/
def tnorm : Option (TNorm S) → Str
  | none => cs! "null"
  | some k => cs! "new " ++ k.className ++ cs! "()"

/-- `toString(const Norm*)`, src/imex/JavaExporter.cpp:198-202, on an S-Norm -/
def snorm : Option (SNorm S) → Str
  | none => cs! "null"
  | some k => cs! "new " ++ k.className ++ cs! "()"

/-- `toString(const Defuzzifier*)`, src/imex/JavaExporter.cpp:185-196 -/
def defuzzifier : Option Defuzzifier → Str
  | none => cs! "null"
  | some (.integral k r) => cs! "new " ++ k.className ++ cs! "(" ++ intText r ++ cs! ")"
  | some (.weighted k t) => cs! "new " ++ k.className ++ cs! "(" ++ quoted t.typeName ++ cs! ")"

/-- `toString(const Activation*)`, src/imex/JavaExporter.cpp:204-217 -/
def activation [ScalarText S] : Option (Activation S) → Str
  | none => cs! "null"
  | some a =>
    let parameters := Op.trim a.parameters
    if parameters.isEmpty then cs! "new " ++ a.className ++ cs! "()"
    else
      let values := (Op.split parameters (cs! " ") true).map fun v =>
        if (ScalarText.ofText v : Option S).isSome then v else quoted v
      cs! "new " ++ a.className ++ cs! "(" ++ Op.join values (cs! ", ") ++ cs! ")"

/-- the name of the variable for the `i`-th input variable, src/imex/JavaExporter.cpp:62-74 -/
def inputName (x : JavaExporter) (e : Engine S) (i : Nat) (v : Variable S) : Str :=
  if x.usingVariableNames then Op.validName v.name else numbered (cs! "inputVariable") e.inputs.length i

/-- the name of the variable for the `i`-th output variable, src/imex/JavaExporter.cpp:90-102 -/
def outputName (x : JavaExporter) (e : Engine S) (i : Nat) (v : OutputVariable S) : Str :=
  if x.usingVariableNames then Op.validName v.name else numbered (cs! "outputVariable") e.outputs.length i

/-- the name of the variable for the `i`-th rule block, src/imex/JavaExporter.cpp:122-135 -/
def blockName (x : JavaExporter) (e : Engine S) (i : Nat) (b : RuleBlock S) : Str :=
  if x.usingVariableNames && !b.name.isEmpty then Op.validName b.name
  else numbered (cs! "ruleBlock") e.blocks.length i

/-- `name.method(argument);` and the end of the line -/
def call (name method argument : Str) : Str := name ++ cs! "." ++ method ++ cs! "(" ++ argument ++ cs! ");\n"

/-- `Class name = new Class();` and the end of the line -/
def declaration (c name : Str) : Str := c ++ cs! " " ++ name ++ cs! " = new " ++ c ++ cs! "();\n"

/-- `toString(const InputVariable*, const Engine*)`, src/imex/JavaExporter.cpp:75-85 -/
def inputVariable [ScalarText S] (name : Str) (v : Variable S) : Str :=
  declaration (cs! "InputVariable") name
  ++ call name (cs! "setName") (quoted v.name)
  ++ call name (cs! "setDescription") (quoted v.description)
  ++ call name (cs! "setEnabled") (FllExporter.bool v.enabled)
  ++ call name (cs! "setRange") (scalar v.minimum ++ cs! ", " ++ scalar v.maximum)
  ++ call name (cs! "setLockValueInRange") (FllExporter.bool v.lockRange)
  ++ v.terms.flatMap (fun t => call name (cs! "addTerm") (term t))
  ++ call (cs! "engine") (cs! "addInputVariable") name

/-- `toString(const OutputVariable*, const Engine*)`, src/imex/JavaExporter.cpp:103-117 -/
def outputVariable [ScalarText S] (name : Str) (v : OutputVariable S) : Str :=
  declaration (cs! "OutputVariable") name
  ++ call name (cs! "setName") (quoted v.name)
  ++ call name (cs! "setDescription") (quoted v.description)
  ++ call name (cs! "setEnabled") (FllExporter.bool v.enabled)
  ++ call name (cs! "setRange") (scalar v.minimum ++ cs! ", " ++ scalar v.maximum)
  ++ call name (cs! "setLockValueInRange") (FllExporter.bool v.lockRange)
  ++ call name (cs! "setAggregation") (snorm v.fuzzy.aggregation)
  ++ call name (cs! "setDefuzzifier") (defuzzifier v.defuzzifier)
  ++ call name (cs! "setDefaultValue") (scalar v.default)
  ++ call name (cs! "setLockPreviousValue") (FllExporter.bool v.lockPrevious)
  ++ v.terms.flatMap (fun t => call name (cs! "addTerm") (term t))
  ++ call (cs! "engine") (cs! "addOutputVariable") name

/-- `toString(const RuleBlock*, const Engine*)`, src/imex/JavaExporter.cpp:137-150 -/
def ruleBlock [ScalarText S] (name : Str) (b : RuleBlock S) : Str :=
  declaration (cs! "RuleBlock") name
  ++ call name (cs! "setName") (quoted b.name)
  ++ call name (cs! "setDescription") (quoted b.description)
  ++ call name (cs! "setEnabled") (FllExporter.bool b.enabled)
  ++ call name (cs! "setConjunction") (tnorm b.conjunction)
  ++ call name (cs! "setDisjunction") (snorm b.disjunction)
  ++ call name (cs! "setImplication") (tnorm b.implication)
  ++ call name (cs! "setActivation") (activation b.activation)
  ++ b.rules.flatMap (fun r => call name (cs! "addRule") (cs! "Rule.parse(" ++ quoted r.text ++ cs! ", engine)"))
  ++ call (cs! "engine") (cs! "addRuleBlock") name

/-- `toString(const Engine*)`, src/imex/JavaExporter.cpp:40-58 -/
def toString [ScalarText S] (x : JavaExporter) (e : Engine S) : Str :=
  cs! "//Code automatically generated with " ++ x.library ++ cs! ".\n\n"
  ++ cs! "Engine engine = new Engine();\n"
  ++ call (cs! "engine") (cs! "setName") (quoted e.name)
  ++ call (cs! "engine") (cs! "setDescription") (quoted e.description)
  ++ cs! "\n"
  ++ components (fun i v => inputVariable (x.inputName e i v) v) 0 e.inputs
  ++ components (fun i v => outputVariable (x.outputName e i v) v) 0 e.outputs
  ++ components (fun i b => ruleBlock (x.blockName e i b) b) 0 e.blocks

end JavaExporter

/-! ### the Java that is written

Statements are `T x = new T();` and `x.method(…);`, in the body of a method of a class that imports the classes of
jfuzzylite.  They are read as the statements of C++ that do the same with the classes of fuzzylite, whose names are
qualified because in Java no variable hides a class after `new`.  That jfuzzylite has the same classes is assumed, not
modelled. -/

namespace Java
open Cpp (Token Atom Args Stmt Fault)

/-- a string, a number or a name; the constants of `Double`, and `null`, are the values of the library.  The names `inf`
and `nan` mean nothing: no variable for them has a number as its value. -/
def atom : List Token → Option Atom
  | [.text s] => some (.text s)
  | [.number s] => some (.number false s)
  | [.sign ['-'], .number s] => some (.number true s)
  | [.ident d, .sign ['.'], .ident s] =>
    if d = cs! "Double" ∧ s = cs! "NaN" then some (.name false true (cs! "nan"))
    else if d = cs! "Double" ∧ s = cs! "POSITIVE_INFINITY" then some (.name false true (cs! "inf"))
    else if d = cs! "Double" ∧ s = cs! "NEGATIVE_INFINITY" then some (.name true true (cs! "inf"))
    else none
  | [.ident s] => if s = cs! "null" then some (.name false true s) else some (.name false false s)
  | _ => none

/-- atoms separated by commas -/
def atoms (ts : List Token) : Option (List Atom) :=
  if ts = [] then some [] else (Cpp.pieces (.sign [',']) ts).mapM atom

/-- `Class.function(…)`; the number of values is no argument of `Discrete.create(name, values…)` -/
def call (cls function : Str) (as : List Atom) : Args :=
  if cls = cs! "Discrete" ∧ function = cs! "create" then
    match as with
    | n :: vs => .call true cls function (n :: .number false (Nat.toDigits 10 vs.length) :: vs)
    | [] => .call true cls function []
  else .call true cls function as

/-- the arguments of a method: atoms, `new Class(…)`, or `Class.function(…)` -/
def args (ts : List Token) : Option Args :=
  match ts with
  | .ident a :: .ident c :: rest =>
    if a = cs! "new" then do
      let ts ← Cpp.parenthesised rest
      let as ← atoms ts
      some (.new true c as)
    else none
  | .ident c :: .sign ['.'] :: .ident f :: .sign ['('] :: rest => do
    let ts ← Cpp.parenthesised (.sign ['('] :: rest)
    let as ← atoms ts
    some (call c f as)
  | ts => (atoms ts).map .atoms

def stmt (ts : List Token) : Option Stmt :=
  match ts with
  | .ident x :: .sign ['.'] :: .ident m :: rest => do
    let ts ← Cpp.parenthesised rest
    let as ← args ts
    some (.call x m as)
  | [.ident c1, .ident x, .sign ['='], .ident n, .ident c2, .sign ['('], .sign [')']] =>
    if n = cs! "new" then some (.declare true c1 x true c2) else none
  | _ => none

/-- statements end with semicolons -/
def program (ts : List Token) : Option (List Stmt) :=
  let ps := Cpp.pieces (.sign [';']) ts
  if ps.getLast? = some [] then ps.dropLast.mapM stmt else none

/-- the statements of a text; Java has the tokens of the fragment of C++ -/
def parse (code : Str) : Option (List Stmt) := do
  let ts ← Cpp.lex code
  program ts

/-- keywords and literals of Java that are not keywords of C++ -/
def keywords : List Str :=
  [cs! "abstract", cs! "assert", cs! "boolean", cs! "byte", cs! "extends", cs! "final", cs! "finally", cs! "implements",
   cs! "import", cs! "instanceof", cs! "interface", cs! "native", cs! "package", cs! "strictfp", cs! "super",
   cs! "synchronized", cs! "throws", cs! "transient", cs! "null", cs! "_"]

/-- the class whose name is before a point in an atom -/
def typesOf : Atom → List Str
  | .name _ true s => if s = cs! "nan" ∨ s = cs! "inf" then [cs! "Double"] else []
  | _ => []

/-- the classes whose names are before a point in arguments -/
def types : Args → List Str
  | .atoms as => as.flatMap typesOf
  | .new _ _ as => as.flatMap typesOf
  | .call _ c _ as => c :: as.flatMap typesOf

/-- No variable has a keyword as its name, and before a point the name of a class does not mean one of the variables declared
so far.  Simplified: keywords of C++ are refused as well when the statements are executed, and reading coefficients of
`Linear.create` that are not there remains undefined behaviour. -/
def accepted : List Str → List Stmt → Bool
  | _, [] => true
  | D, .usingNamespace :: ss => accepted D ss
  | D, .declare _ _ x _ _ :: ss => x ∉ keywords && accepted (x :: D) ss
  | D, .call _ _ as :: ss => (types as).all (fun c => c ∉ D) && accepted D ss

/-- the engine that the variable `engine` refers to after the statements of a text -/
def execute [ScalarText S] (G : Registry S) (code : Str) : Except Fault (Engine S) := do
  let ss ← Cpp.orReject (parse code)
  if accepted [] ss then
    let s ← ss.foldlM (Cpp.exec G) (⟨false, []⟩ : Cpp.Scope S)
    Cpp.orReject (s.engine (cs! "engine"))
  else .error .rejected

end Java
end FL
