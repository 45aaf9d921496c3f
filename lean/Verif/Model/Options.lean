/-
The options of the console and the conversion of files (src/Console.cpp:30-333, 465-602, 951-1062).
-/
import Verif.Model.Console
import Verif.Model.Fcl
import Verif.Model.Fis
import Verif.Model.CppExporter
import Verif.Model.Cpp
import Verif.Model.Java

namespace FL
open Scalar
variable {S : Type}

namespace Console

/-- a `std::map` of texts, one entry for each key -/
abbrev Options := List (Str × Str)

/-- `options.find(key)` -/
def Options.find (o : Options) (key : Str) : Option Str := List.lookup key o

/-- `options[key] = value`; the order of the entries is not modelled -/
def Options.set : Options → Str → Str → Options
  | [], k, v => [(k, v)]
  | (k', v') :: o, k, v => if k = k' then (k, v) :: o else (k', v') :: Options.set o k v

/-- `Console::availableOptions`, src/Console.cpp:31-42, 50-79: key, value and description -/
def availableOptions : List (Str × Str × Str) :=
  [(cs! "-i", cs! "inputfile", cs! "file to import your engine from"),
   (cs! "-if", cs! "format", cs! "format of the file to import (fll | fis | fcl)"),
   (cs! "-o", cs! "outputfile", cs! "file to export your engine to"),
   (cs! "-of", cs! "format", cs! "format of the file to export (fll | fld | cpp | java | fis | fcl)"),
   (cs! "-example", cs! "letter", cs! "if not inputfile, built-in example to use as engine: (m)amdani or (t)akagi-sugeno"),
   (cs! "-decimals", cs! "number", cs! "number of decimals to write floating-poing values"),
   (cs! "-d", cs! "file", cs! "if exporting to fld, FLD file of input values to evaluate your engine on"),
   (cs! "-values", cs! "number",
     cs! "if exporting to fld without datafile, number of results to export within scope (default: EachVariable)"),
   (cs! "-scope", cs! "scope", cs! "if exporting to fld without datafile, scope of -values: [EachVariable|AllVariables]"),
   (cs! "-dheader", cs! "boolean", cs! "if true and exporting to fld, include headers"),
   (cs! "-dinputs", cs! "boolean", cs! "if true and exporting to fld, include input values")]

/-- a text copied over `n` blanks, src/Console.cpp:99-105; undefined behaviour when it is longer -/
def padded (n : Nat) (s : Str) : Except Err Str :=
  if s.length ≤ n then .ok (s ++ List.replicate (n - s.length) ' ') else .error .ub

/-- the line of an option, src/Console.cpp:99-109 -/
def usageLine (o : Str × Str × Str) : Except Err Str := do
  let k ← padded 12 o.1
  let v ← padded 13 o.2.1
  .ok (k ++ v ++ o.2.2 ++ cs! "\n")

/-- the text before the lines of options, src/Console.cpp:85-97 -/
def usageHead : Str :=
  cs! "========================================\n" ++
  cs! "fuzzylite: a fuzzy logic control library\n" ++
  cs! "version: 7.0.0\n" ++
  cs! "author: Juan Rada-Vilela, Ph.D.\n" ++
  cs! "license: FuzzyLite License\n" ++
  cs! "========================================\n\n" ++
  cs! "usage: fuzzylite inputfile outputfile\n" ++
  cs! "   or: fuzzylite benchmark engine.fll input.fld runs [output.tsv]\n" ++
  cs! "   or: fuzzylite benchmarks fllFiles.txt fldFiles.txt runs [output.tsv]\n" ++
  cs! "   or: fuzzylite " ++
  (availableOptions.flatMap fun o => cs! "[" ++ o.1 ++ cs! " " ++ o.2.1 ++ cs! "] ") ++
  cs! "\n\nwhere:\n"

/-- the text after the lines of options, src/Console.cpp:112-115 -/
def usageTail : Str :=
  cs! "\nVisit http://www.fuzzylite.com/ for more information.\n\n" ++
  cs! "Copyright (C) 2010-2017 by FuzzyLite Limited.\n" ++
  cs! "All rights reserved."

/-- `Console::usage`, src/Console.cpp:81-118 -/
def usage : Except Err Str := do
  let ls ← availableOptions.mapM usageLine
  .ok (usageHead ++ ls.flatten ++ usageTail)

/-- the loop of `Console::parse`, src/Console.cpp:124-128, over the arguments -/
def pairs : Options → List Str → Options
  | o, k :: v :: as => pairs (o.set k v) as
  | o, _ => o

/-- `Console::parse`, src/Console.cpp:120-152, for the arguments after the name of the program -/
def parse (args : List Str) : Except Err Options :=
  if args.length % 2 ≠ 0 then .error .unsupported
  else match pairs [] args with
    | [(k, v)] =>
      match k with
      | [] => .error .outOfRange
      | c :: _ => if c ≠ '-' then .ok (Options.set (Options.set [(k, v)] (cs! "-i") k) (cs! "-o") v) else .ok [(k, v)]
    | o => if o.all fun p => availableOptions.any fun q => q.1 == p.1 then .ok o else .error .unsupported

/-- What the program finds: the contents of the files that can be opened, the files that can be
created, the characters typed, the messages of exceptions, and the text of a scalar for each number of decimals. -/
structure World (S : Type) where
  files : Str → Option Str
  creates : Str → Bool
  keys : List Char
  message : Err → Str
  printed : Int → S → Str

/-- What the program leaves: the contents of the output file if it was created, the text written to `std::cout`,
and the exception. -/
structure Run where
  file : Option Str
  out : Str
  error : Option Err
  deriving DecidableEq

/-- `fuzzylite::setDecimals`, fuzzylite/fuzzylite.h:444-446: the scalars are printed by `f` from now on -/
@[reducible] def printing [T : ScalarText S] (f : S → Str) : ScalarText S := { T with str := f }

/-- the statements of `Console::mamdani`, src/Console.cpp:466-507, which is in the namespace `fuzzylite` -/
def mamdaniCode : Str :=
  cs! "using namespace fuzzylite;\n" ++
  cs! "Engine* engine = new Engine;\n" ++
  cs! "engine->setName(\"simple-dimmer\");\n" ++
  cs! "engine->setDescription(\"\");\n" ++
  cs! "\n" ++
  cs! "InputVariable* ambient = new InputVariable;\n" ++
  cs! "ambient->setName(\"ambient\");\n" ++
  cs! "ambient->setDescription(\"\");\n" ++
  cs! "ambient->setEnabled(true);\n" ++
  cs! "ambient->setRange(0.000, 1.000);\n" ++
  cs! "ambient->setLockValueInRange(false);\n" ++
  cs! "ambient->addTerm(new Triangle(\"DARK\", 0.000, 0.250, 0.500));\n" ++
  cs! "ambient->addTerm(new Triangle(\"MEDIUM\", 0.250, 0.500, 0.750));\n" ++
  cs! "ambient->addTerm(new Triangle(\"BRIGHT\", 0.500, 0.750, 1.000));\n" ++
  cs! "engine->addInputVariable(ambient);\n" ++
  cs! "\n" ++
  cs! "OutputVariable* power = new OutputVariable;\n" ++
  cs! "power->setName(\"power\");\n" ++
  cs! "power->setDescription(\"\");\n" ++
  cs! "power->setEnabled(true);\n" ++
  cs! "power->setRange(0.000, 2.000);\n" ++
  cs! "power->setLockValueInRange(false);\n" ++
  cs! "power->setAggregation(new Maximum);\n" ++
  cs! "power->setDefuzzifier(new Centroid(200));\n" ++
  cs! "power->setDefaultValue(fl::nan);\n" ++
  cs! "power->setLockPreviousValue(false);\n" ++
  cs! "power->addTerm(new Triangle(\"LOW\", 0.000, 0.500, 1.000));\n" ++
  cs! "power->addTerm(new Triangle(\"MEDIUM\", 0.500, 1.000, 1.500));\n" ++
  cs! "power->addTerm(new Triangle(\"HIGH\", 1.000, 1.500, 2.000));\n" ++
  cs! "engine->addOutputVariable(power);\n" ++
  cs! "\n" ++
  cs! "RuleBlock* ruleBlock = new RuleBlock;\n" ++
  cs! "ruleBlock->setName(\"\");\n" ++
  cs! "ruleBlock->setDescription(\"\");\n" ++
  cs! "ruleBlock->setEnabled(true);\n" ++
  cs! "ruleBlock->setConjunction(fl::null);\n" ++
  cs! "ruleBlock->setDisjunction(fl::null);\n" ++
  cs! "ruleBlock->setImplication(new Minimum);\n" ++
  cs! "ruleBlock->setActivation(new General);\n" ++
  cs! "ruleBlock->addRule(Rule::parse(\"if ambient is DARK then power is HIGH\", engine));\n" ++
  cs! "ruleBlock->addRule(Rule::parse(\"if ambient is MEDIUM then power is MEDIUM\", engine));\n" ++
  cs! "ruleBlock->addRule(Rule::parse(\"if ambient is BRIGHT then power is LOW\", engine));\n" ++
  cs! "engine->addRuleBlock(ruleBlock);\n"

/-- the statements of `Console::takagiSugeno`, src/Console.cpp:513-599, which is in the namespace `fuzzylite` -/
def takagiSugenoCode : Str :=
  cs! "using namespace fuzzylite;\n" ++
  cs! "Engine* engine = new Engine;\n" ++
  cs! "engine->setName(\"approximation\");\n" ++
  cs! "engine->setDescription(\"approximation of sin(x)/x\");\n" ++
  cs! "\n" ++
  cs! "InputVariable* inputX = new InputVariable;\n" ++
  cs! "inputX->setName(\"inputX\");\n" ++
  cs! "inputX->setDescription(\"value of x\");\n" ++
  cs! "inputX->setEnabled(true);\n" ++
  cs! "inputX->setRange(0.000, 10.000);\n" ++
  cs! "inputX->setLockValueInRange(false);\n" ++
  cs! "inputX->addTerm(new Triangle(\"NEAR_1\", 0.000, 1.000, 2.000));\n" ++
  cs! "inputX->addTerm(new Triangle(\"NEAR_2\", 1.000, 2.000, 3.000));\n" ++
  cs! "inputX->addTerm(new Triangle(\"NEAR_3\", 2.000, 3.000, 4.000));\n" ++
  cs! "inputX->addTerm(new Triangle(\"NEAR_4\", 3.000, 4.000, 5.000));\n" ++
  cs! "inputX->addTerm(new Triangle(\"NEAR_5\", 4.000, 5.000, 6.000));\n" ++
  cs! "inputX->addTerm(new Triangle(\"NEAR_6\", 5.000, 6.000, 7.000));\n" ++
  cs! "inputX->addTerm(new Triangle(\"NEAR_7\", 6.000, 7.000, 8.000));\n" ++
  cs! "inputX->addTerm(new Triangle(\"NEAR_8\", 7.000, 8.000, 9.000));\n" ++
  cs! "inputX->addTerm(new Triangle(\"NEAR_9\", 8.000, 9.000, 10.000));\n" ++
  cs! "engine->addInputVariable(inputX);\n" ++
  cs! "\n" ++
  cs! "OutputVariable* outputFx = new OutputVariable;\n" ++
  cs! "outputFx->setName(\"outputFx\");\n" ++
  cs! "outputFx->setDescription(\"value of the approximation of x\");\n" ++
  cs! "outputFx->setEnabled(true);\n" ++
  cs! "outputFx->setRange(-1.000, 1.000);\n" ++
  cs! "outputFx->setLockValueInRange(false);\n" ++
  cs! "outputFx->setAggregation(fl::null);\n" ++
  cs! "outputFx->setDefuzzifier(new WeightedAverage(\"Automatic\"));\n" ++
  cs! "outputFx->setDefaultValue(fl::nan);\n" ++
  cs! "outputFx->setLockPreviousValue(true);\n" ++
  cs! "outputFx->addTerm(new Constant(\"f1\", 0.840));\n" ++
  cs! "outputFx->addTerm(new Constant(\"f2\", 0.450));\n" ++
  cs! "outputFx->addTerm(new Constant(\"f3\", 0.040));\n" ++
  cs! "outputFx->addTerm(new Constant(\"f4\", -0.180));\n" ++
  cs! "outputFx->addTerm(new Constant(\"f5\", -0.190));\n" ++
  cs! "outputFx->addTerm(new Constant(\"f6\", -0.040));\n" ++
  cs! "outputFx->addTerm(new Constant(\"f7\", 0.090));\n" ++
  cs! "outputFx->addTerm(new Constant(\"f8\", 0.120));\n" ++
  cs! "outputFx->addTerm(new Constant(\"f9\", 0.040));\n" ++
  cs! "engine->addOutputVariable(outputFx);\n" ++
  cs! "\n" ++
  cs! "OutputVariable* trueValue = new OutputVariable;\n" ++
  cs! "trueValue->setName(\"trueValue\");\n" ++
  cs! "trueValue->setDescription(\"value of f(x)=sin(x)/x\");\n" ++
  cs! "trueValue->setEnabled(true);\n" ++
  cs! "trueValue->setRange(-1.060, 1.000);\n" ++
  cs! "trueValue->setLockValueInRange(false);\n" ++
  cs! "trueValue->setAggregation(fl::null);\n" ++
  cs! "trueValue->setDefuzzifier(new WeightedAverage(\"Automatic\"));\n" ++
  cs! "trueValue->setDefaultValue(fl::nan);\n" ++
  cs! "trueValue->setLockPreviousValue(true);\n" ++
  cs! "trueValue->addTerm(Function::create(\"fx\", \"sin(inputX)/inputX\", engine));\n" ++
  cs! "engine->addOutputVariable(trueValue);\n" ++
  cs! "\n" ++
  cs! "OutputVariable* difference = new OutputVariable;\n" ++
  cs! "difference->setName(\"difference\");\n" ++
  cs! "difference->setDescription(\"error e=f(x) - f'(x)\");\n" ++
  cs! "difference->setEnabled(true);\n" ++
  cs! "difference->setRange(-1.000, 1.000);\n" ++
  cs! "difference->setLockValueInRange(false);\n" ++
  cs! "difference->setAggregation(fl::null);\n" ++
  cs! "difference->setDefuzzifier(new WeightedAverage(\"Automatic\"));\n" ++
  cs! "difference->setDefaultValue(fl::nan);\n" ++
  cs! "difference->setLockPreviousValue(false);\n" ++
  cs! "difference->addTerm(Function::create(\"error\", \"outputFx-trueValue\", engine));\n" ++
  cs! "engine->addOutputVariable(difference);\n" ++
  cs! "\n" ++
  cs! "RuleBlock* ruleBlock = new RuleBlock;\n" ++
  cs! "ruleBlock->setName(\"\");\n" ++
  cs! "ruleBlock->setDescription(\"\");\n" ++
  cs! "ruleBlock->setEnabled(true);\n" ++
  cs! "ruleBlock->setConjunction(fl::null);\n" ++
  cs! "ruleBlock->setDisjunction(fl::null);\n" ++
  cs! "ruleBlock->setImplication(new AlgebraicProduct);\n" ++
  cs! "ruleBlock->setActivation(new General);\n" ++
  cs! "ruleBlock->addRule(Rule::parse(\"if inputX is NEAR_1 then outputFx is f1\", engine));\n" ++
  cs! "ruleBlock->addRule(Rule::parse(\"if inputX is NEAR_2 then outputFx is f2\", engine));\n" ++
  cs! "ruleBlock->addRule(Rule::parse(\"if inputX is NEAR_3 then outputFx is f3\", engine));\n" ++
  cs! "ruleBlock->addRule(Rule::parse(\"if inputX is NEAR_4 then outputFx is f4\", engine));\n" ++
  cs! "ruleBlock->addRule(Rule::parse(\"if inputX is NEAR_5 then outputFx is f5\", engine));\n" ++
  cs! "ruleBlock->addRule(Rule::parse(\"if inputX is NEAR_6 then outputFx is f6\", engine));\n" ++
  cs! "ruleBlock->addRule(Rule::parse(\"if inputX is NEAR_7 then outputFx is f7\", engine));\n" ++
  cs! "ruleBlock->addRule(Rule::parse(\"if inputX is NEAR_8 then outputFx is f8\", engine));\n" ++
  cs! "ruleBlock->addRule(Rule::parse(\"if inputX is NEAR_9 then outputFx is f9\", engine));\n" ++
  cs! "ruleBlock->addRule(Rule::parse(\"if inputX is any then trueValue is fx and difference is error\", engine));\n" ++
  cs! "engine->addRuleBlock(ruleBlock);\n"

/-- the statements of `Console::hybrid`, src/Console.cpp:605-694, which is in the namespace `fuzzylite`; the command does not
offer this example -/
def hybridCode : Str :=
  cs! "using namespace fuzzylite;\n" ++
  cs! "Engine* engine = new Engine;\n" ++
  cs! "engine->setName(\"tipper\");\n" ++
  cs! "engine->setDescription(\"(service and food) -> (tip)\");\n" ++
  cs! "\n" ++
  cs! "InputVariable* service = new InputVariable;\n" ++
  cs! "service->setName(\"service\");\n" ++
  cs! "service->setDescription(\"quality of service\");\n" ++
  cs! "service->setEnabled(true);\n" ++
  cs! "service->setRange(0.000, 10.000);\n" ++
  cs! "service->setLockValueInRange(true);\n" ++
  cs! "service->addTerm(new Trapezoid(\"poor\", 0.000, 0.000, 2.500, 5.000));\n" ++
  cs! "service->addTerm(new Triangle(\"good\", 2.500, 5.000, 7.500));\n" ++
  cs! "service->addTerm(new Trapezoid(\"excellent\", 5.000, 7.500, 10.000, 10.000));\n" ++
  cs! "engine->addInputVariable(service);\n" ++
  cs! "\n" ++
  cs! "InputVariable* food = new InputVariable;\n" ++
  cs! "food->setName(\"food\");\n" ++
  cs! "food->setDescription(\"quality of food\");\n" ++
  cs! "food->setEnabled(true);\n" ++
  cs! "food->setRange(0.000, 10.000);\n" ++
  cs! "food->setLockValueInRange(true);\n" ++
  cs! "food->addTerm(new Trapezoid(\"rancid\", 0.000, 0.000, 2.500, 7.500));\n" ++
  cs! "food->addTerm(new Trapezoid(\"delicious\", 2.500, 7.500, 10.000, 10.000));\n" ++
  cs! "engine->addInputVariable(food);\n" ++
  cs! "\n" ++
  cs! "OutputVariable* mTip = new OutputVariable;\n" ++
  cs! "mTip->setName(\"mTip\");\n" ++
  cs! "mTip->setDescription(\"tip based on Mamdani inference\");\n" ++
  cs! "mTip->setEnabled(true);\n" ++
  cs! "mTip->setRange(0.000, 30.000);\n" ++
  cs! "mTip->setLockValueInRange(false);\n" ++
  cs! "mTip->setAggregation(new Maximum);\n" ++
  cs! "mTip->setDefuzzifier(new Centroid(100));\n" ++
  cs! "mTip->setDefaultValue(fl::nan);\n" ++
  cs! "mTip->setLockPreviousValue(false);\n" ++
  cs! "mTip->addTerm(new Triangle(\"cheap\", 0.000, 5.000, 10.000));\n" ++
  cs! "mTip->addTerm(new Triangle(\"average\", 10.000, 15.000, 20.000));\n" ++
  cs! "mTip->addTerm(new Triangle(\"generous\", 20.000, 25.000, 30.000));\n" ++
  cs! "engine->addOutputVariable(mTip);\n" ++
  cs! "\n" ++
  cs! "OutputVariable* tsTip = new OutputVariable;\n" ++
  cs! "tsTip->setName(\"tsTip\");\n" ++
  cs! "tsTip->setDescription(\"tip based on Takagi-Sugeno inference\");\n" ++
  cs! "tsTip->setEnabled(true);\n" ++
  cs! "tsTip->setRange(0.000, 30.000);\n" ++
  cs! "tsTip->setLockValueInRange(false);\n" ++
  cs! "tsTip->setAggregation(fl::null);\n" ++
  cs! "tsTip->setDefuzzifier(new WeightedAverage(\"TakagiSugeno\"));\n" ++
  cs! "tsTip->setDefaultValue(fl::nan);\n" ++
  cs! "tsTip->setLockPreviousValue(false);\n" ++
  cs! "tsTip->addTerm(new Constant(\"cheap\", 5.000));\n" ++
  cs! "tsTip->addTerm(new Constant(\"average\", 15.000));\n" ++
  cs! "tsTip->addTerm(new Constant(\"generous\", 25.000));\n" ++
  cs! "engine->addOutputVariable(tsTip);\n" ++
  cs! "\n" ++
  cs! "RuleBlock* mamdaniRuleBlock = new RuleBlock;\n" ++
  cs! "mamdaniRuleBlock->setName(\"mamdani\");\n" ++
  cs! "mamdaniRuleBlock->setDescription(\"Mamdani inference\");\n" ++
  cs! "mamdaniRuleBlock->setEnabled(true);\n" ++
  cs! "mamdaniRuleBlock->setConjunction(new AlgebraicProduct);\n" ++
  cs! "mamdaniRuleBlock->setDisjunction(new AlgebraicSum);\n" ++
  cs! "mamdaniRuleBlock->setImplication(new Minimum);\n" ++
  cs! "mamdaniRuleBlock->setActivation(new General);\n" ++
  cs! "mamdaniRuleBlock->addRule(Rule::parse(\"if service is poor or food is rancid then mTip is cheap\", engine));\n" ++
  cs! "mamdaniRuleBlock->addRule(Rule::parse(\"if service is good then mTip is average\", engine));\n" ++
  cs! "mamdaniRuleBlock->addRule(Rule::parse(\"if service is excellent or food is delicious then mTip is generous with 0.5\", engine));\n" ++
  cs! "mamdaniRuleBlock->addRule(Rule::parse(\"if service is excellent and food is delicious then mTip is generous with 1.0\", engine));\n" ++
  cs! "engine->addRuleBlock(mamdaniRuleBlock);\n" ++
  cs! "\n" ++
  cs! "RuleBlock* takagiSugenoRuleBlock = new RuleBlock;\n" ++
  cs! "takagiSugenoRuleBlock->setName(\"takagiSugeno\");\n" ++
  cs! "takagiSugenoRuleBlock->setDescription(\"Takagi-Sugeno inference\");\n" ++
  cs! "takagiSugenoRuleBlock->setEnabled(true);\n" ++
  cs! "takagiSugenoRuleBlock->setConjunction(new AlgebraicProduct);\n" ++
  cs! "takagiSugenoRuleBlock->setDisjunction(new AlgebraicSum);\n" ++
  cs! "takagiSugenoRuleBlock->setImplication(fl::null);\n" ++
  cs! "takagiSugenoRuleBlock->setActivation(new General);\n" ++
  cs! "takagiSugenoRuleBlock->addRule(Rule::parse(\"if service is poor or food is rancid then tsTip is cheap\", engine));\n" ++
  cs! "takagiSugenoRuleBlock->addRule(Rule::parse(\"if service is good then tsTip is average\", engine));\n" ++
  cs! "takagiSugenoRuleBlock->addRule(Rule::parse(\"if service is excellent or food is delicious then tsTip is generous with 0.5\", engine));\n" ++
  cs! "takagiSugenoRuleBlock->addRule(Rule::parse(\"if service is excellent and food is delicious then tsTip is generous with 1.0\", engine));\n" ++
  cs! "engine->addRuleBlock(takagiSugenoRuleBlock);\n"

/-- the engine built by statements; these are accepted (`accepted` in Props/Options.lean) -/
def build [ScalarText S] (G : Registry S) (code : Str) : Except Err (Engine S) :=
  match Cpp.execute G code with
  | .ok e => .ok e
  | .error (.raised err) => .error err
  | .error .rejected => .error .ub

/-- the name of the example, src/Console.cpp:172-177 -/
def exampleCode (example_ : Str) : Option Str :=
  if example_ = cs! "m" ∨ example_ = cs! "mamdani" then some mamdaniCode
  else if example_ = cs! "t" ∨ example_ = cs! "ts" ∨ example_ = cs! "takagi-sugeno" then some takagiSugenoCode
  else none

/-- the text after the last dot, src/Console.cpp:199-203, 216-220 -/
def extension (filename : Str) : Option Str :=
  if '.' ∈ filename then some (filename.reverse.takeWhile (· ≠ '.')).reverse else none

/-- the lines of a text with a line feed after each, src/Console.cpp:190-191 -/
def endLines (text : Str) : Str := (FllImporter.lines text).flatMap fun l => l ++ ['\n']

/-- the choice of the importer and `fromString`, src/Console.cpp:247-263 -/
def importText [ScalarText S] [Truncate S] (G : Registry S) (format text : Str) : Except Err (Engine S) :=
  if format = cs! "fll" then ({} : FllImporter).fromString G text
  else if format = cs! "fcl" then ({} : FclImporter).fromString G text
  else if format = cs! "fis" then ({} : FisImporter).fromString G text
  else .error .unsupported

/-- the choice of the exporter and `toString`, src/Console.cpp:313-331 -/
def exportText [ScalarText S] (format : Str) (e : Engine S) : Except Err Str :=
  if format = cs! "fll" then .ok (({} : FllExporter).toString e)
  else if format = cs! "fcl" then .ok (({} : FclExporter).toString e)
  else if format = cs! "fis" then FisExporter.toString e
  else if format = cs! "cpp" then .ok (({} : CppExporter).toString e)
  else if format = cs! "java" then .ok (({} : JavaExporter).toString e)
  else .error .unsupported

/-- the exporter of data, src/Console.cpp:268-277 -/
def dataExporter (o : Options) : FldExporter :=
  { separator := cs! " "
    headers := (o.find (cs! "-dheader")).all (· == cs! "true")
    inputValues := (o.find (cs! "-dinputs")).all (· == cs! "true") }

/-- the scope of values, src/Console.cpp:292-300 -/
def scope (o : Options) : Option Scope :=
  match o.find (cs! "-scope") with
  | none => some .eachVariable
  | some s => if s = cs! "AllVariables" then some .allVariables else if s = cs! "EachVariable" then some .eachVariable else none

/-- the data of an engine, src/Console.cpp:265-312: the text written, the text copied to `std::cout` when the
writer is another stream, and the exception.  Simplified: when the interactive console throws an exception, what
it wrote is not given. -/
def writeData [ScalarText S] [Truncate S] [Heap S] (w : World S) (e : Engine S) (o : Options) : Str × Str × Option Err :=
  let x := dataExporter o
  match o.find (cs! "-d") with
  | some d =>
    match w.files d with
    | none => ([], [], some .unsupported)
    | some text => let r := x.writeReader e text; (x.text e r.2.1, [], r.2.2)
  | none =>
    match o.find (cs! "-values") with
    | some n =>
      match toInt S n with
      | .error err => ([], [], some err)
      | .ok values =>
        match scope o with
        | none => ([], [], some .unsupported)
        | some s => let r := x.write e values s (e.inputs.map fun _ => true); (x.text e r.2.1, [], r.2.2)
    | none =>
      let head := cs! "#FuzzyLite Interactive Console (press H for help)\n" ++ x.header e ++ cs! "\n"
      match interactive w.message e w.keys with
      | .error err => (head, head, some err)
      | .ok (_, text) => (head ++ text, head ++ text.dropLast, none)

/-- `Console::process(input, writer, inputFormat, outputFormat, options)`, src/Console.cpp:236-333: the text
written, the text copied to `std::cout`, and the exception -/
def convert [ScalarText S] [Truncate S] [Heap S] (w : World S) (G : Registry S) (input inputFormat outputFormat : Str) (o : Options) :
    Str × Str × Option Err :=
  match importText G inputFormat input with
  | .error err => ([], [], some err)
  | .ok e =>
    if outputFormat = cs! "fld" then writeData w e o
    else match exportText outputFormat e with
      | .error err => ([], [], some err)
      | .ok text => (text, [], none)

/-- the text of the engine and its format, src/Console.cpp:161-205 -/
def source [ScalarText S] (w : World S) (G : Registry S) (o : Options) : Except Err (Str × Str) :=
  match o.find (cs! "-example") with
  | some x =>
    match exampleCode x with
    | none => .error .unsupported
    | some code => do
      let e ← build G code
      .ok (({} : FllExporter).toString e, cs! "fll")
  | none =>
    match o.find (cs! "-i") with
    | none => .error .unsupported
    | some i =>
      match w.files i with
      | none => .error .unsupported
      | some text =>
        match o.find (cs! "-if") with
        | some format => .ok (endLines text, format)
        | none =>
          match extension i with
          | some format => .ok (endLines text, format)
          | none => .error .unsupported

/-- `Console::process(options)` after the number of decimals is set, src/Console.cpp:161-233.  The output file is
emptied before the engine is imported and the data are read. -/
def processWith [ScalarText S] [Truncate S] [Heap S] (w : World S) (G : Registry S) (o : Options) : Run :=
  match source w G o with
  | .error err => ⟨none, [], some err⟩
  | .ok (input, inputFormat) =>
    let outputFile := (o.find (cs! "-o")).getD []
    match (o.find (cs! "-of")).or (extension outputFile) with
    | none => ⟨none, [], some .unsupported⟩
    | some outputFormat =>
      if outputFile = [] then
        let r := convert w G input inputFormat outputFormat o
        ⟨none, r.1, r.2.2⟩
      else if w.creates outputFile then
        let w' := { w with files := fun f => if f = outputFile then some [] else w.files f }
        let r := convert w' G input inputFormat outputFormat o
        ⟨some r.1, r.2.1, r.2.2⟩
      else ⟨none, [], some .unsupported⟩

/-- `Console::process(options)`, src/Console.cpp:154-234 -/
def process [ScalarText S] [Truncate S] [Heap S] (w : World S) (G : Registry S) (o : Options) : Run :=
  match o.find (cs! "-decimals") with
  | none => processWith w G o
  | some d =>
    match toInt S d with
    | .error err => ⟨none, [], some err⟩
    | .ok n =>
      letI : ScalarText S := printing (w.printed n)
      processWith w G o

/-- `Console::main`, src/Console.cpp:951-1062, for the arguments after the name of the program: the usage is shown
for fewer than two.  The status is `EXIT_SUCCESS` when there is no exception.  Simplified: what is logged (the usage
and the messages of exceptions) is not given.  Not modelled: the commands `export-examples`, `benchmark` and
`benchmarks` (`none`). -/
def main [ScalarText S] [Truncate S] [Heap S] (w : World S) (G : Registry S) (args : List Str) : Option Run :=
  match args with
  | [] => some ⟨none, [], none⟩
  | [_] => some ⟨none, [], none⟩
  | a :: _ =>
    if a = cs! "export-examples" ∨ a = cs! "benchmark" ∨ a = cs! "benchmarks" then none
    else match parse args with
      | .error err => some ⟨none, [], some err⟩
      | .ok o => some (process w G o)

end Console
end FL
