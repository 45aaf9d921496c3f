/-
The commands `benchmark`, `benchmarks` and `export-examples` of the console (src/Console.cpp:699-1043).
-/
import Verif.Model.Options
import Verif.Model.Results
import Verif.Model.RScript

namespace FL
open Scalar
variable {S : Type}

namespace Console

/-- What the commands find besides the files: the time that the clock measures in each run of each benchmark, how scalars are written, and
the text of `fuzzylite::library()`. -/
structure Setup (S : Type) where
  world : World S
  clock : Nat → Nat → S
  printer : Printer S
  library : Str

/-- What the commands leave: the files created with their contents, the latest first, what is written to `std::cout` as a result, and
the exception. -/
structure Outcome where
  files : List (Str × Str)
  out : Str
  error : Option Err
  deriving DecidableEq

/-! ### benchmarks -/

/-- the loop over the runs, src/Console.cpp:905-906 -/
def runs [ScalarText S] [Heap S] (clock : Nat → S) : Nat → Nat → TimedBenchmark S → TimedBenchmark S × Option Err
  | _, 0, b => (b, none)
  | i, n + 1, b =>
    match b.run [clock i] with
    | (b, some err) => (b, some err)
    | (b, none) => runs clock (i + 1) n b

/-- the engine and the data of a benchmark, src/Console.cpp:897-902, src/imex/Importer.cpp:30-40 -/
def prepared [ScalarText S] [Truncate S] (w : World S) (G : Registry S) (fll fld : Str) : Except Err (TimedBenchmark S) :=
  match w.files fll with
  | none => .error .importing
  | some text => do
    let e ← ({} : FllImporter).fromString G (endLines text)
    match w.files fld with
    | none => .error .importing
    | some data => do
      let b ← (⟨some e, [], [], macheps⟩ : Benchmark S).prepareText data (-1)
      .ok ⟨e.name, b, []⟩

/-- `Console::benchmark`, src/Console.cpp:895-913: the row of results; `k` benchmarks precede -/
def benchmarkRow [ScalarText S] [Truncate S] [Heap S] (u : Setup S) (G : Registry S) (k : Nat) (fll fld : Str) (n : Int) : Except Err Str := do
  let b ← prepared u.world G fll fld
  match runs (u.clock k) 0 n.toNat b with
  | (_, some err) => .error err
  | (b, none) => do
    let rs ← b.results u.library none .nanoSeconds true
    .ok (TimedBenchmark.format (TimedBenchmark.texts u.printer rs) .horizontal .body (cs! "\t"))

/-- the line of the header, src/Console.cpp:940, 1013 -/
def headerLine [ScalarText S] (n : Int) : Except Err Str := do
  let names ← TimedBenchmark.header (S := S) n true
  .ok (Op.join names (cs! "\t") ++ cs! "\n")

/-- the rows of several benchmarks, up to the first exception, src/Console.cpp:944-948 -/
def benchmarkRows [ScalarText S] [Truncate S] [Heap S] (u : Setup S) (G : Registry S) (n : Int) : Nat → List (Str × Str) → Str × Option Err
  | _, [] => ([], none)
  | k, (fll, fld) :: ps =>
    match benchmarkRow u G k fll fld n with
    | .error err => ([], some err)
    | .ok row =>
      match benchmarkRows u G n (k + 1) ps with
      | (text, err) => (row ++ ['\n'] ++ text, err)

/-- the pairs of files, src/Console.cpp:928-936: the lists are read side by side until one ends; blank lines and comments of the
first are left out, with the same line of the second -/
def filePairs : List Str → List Str → List (Str × Str)
  | a :: as, b :: bs =>
    let fll := Op.trim a
    if fll.isEmpty || fll.head? == some '#' then filePairs as bs else (fll, Op.trim b) :: filePairs as bs
  | _, _ => []

/-- the table of a list of benchmarks: the header and the rows -/
def benchmarkTable [ScalarText S] [Truncate S] [Heap S] (u : Setup S) (G : Registry S) (n : Int) (ps : List (Str × Str)) : Str × Option Err :=
  match headerLine (S := S) n with
  | .error err => ([], some err)
  | .ok head =>
    match benchmarkRows u G n 0 ps with
    | (text, err) => (head ++ text, err)

/-- `Console::benchmarks`, src/Console.cpp:915-949 -/
def benchmarks [ScalarText S] [Truncate S] [Heap S] (u : Setup S) (G : Registry S) (n : Int) (flls flds : Str) : Str × Option Err :=
  match u.world.files flls with
  | none => ([], some .importing)
  | some a =>
    match u.world.files flds with
    | none => ([], some .importing)
    | some b => benchmarkTable u G n (filePairs (FllImporter.lines a) (FllImporter.lines b))

/-- the destination of a table, src/Console.cpp:1004-1018, 1030-1042: the file is emptied before anything is read -/
def toDestination (u : Setup S) (file : Option Str) (write : Setup S → Str × Option Err) : Outcome :=
  match file with
  | none => let r := write u; ⟨[], r.1, r.2⟩
  | some f =>
    if u.world.creates f then
      let r := write { u with world := { u.world with files := fun g => if g = f then some [] else u.world.files g } }
      ⟨[(f, r.1)], [], r.2⟩
    else ⟨[], [], some .unsupported⟩

/-- the command `benchmark`, src/Console.cpp:995-1022, for the arguments after it.  Simplified: what is logged is not given. -/
def benchmarkCommand [ScalarText S] [Truncate S] [Heap S] (u : Setup S) (G : Registry S) : List Str → Outcome
  | fll :: fld :: n :: rest =>
    match toInt S n with
    | .error err => ⟨[], [], some err⟩
    | .ok n => toDestination u rest.head? fun u => benchmarkTable u G n [(fll, fld)]
  | _ => ⟨[], [], some .unsupported⟩

/-- the command `benchmarks`, src/Console.cpp:1024-1048 -/
def benchmarksCommand [ScalarText S] [Truncate S] [Heap S] (u : Setup S) (G : Registry S) : List Str → Outcome
  | flls :: flds :: n :: rest =>
    match toInt S n with
    | .error err => ⟨[], [], some err⟩
    | .ok n => toDestination u rest.head? fun u => benchmarks u G n flls flds
  | _ => ⟨[], [], some .unsupported⟩

/-! ### the examples -/

/-- the names of the examples, src/Console.cpp:706-745 -/
def examples : List Str :=
  [cs! "mamdani/AllTerms", cs! "mamdani/SimpleDimmer", cs! "mamdani/Laundry", cs! "mamdani/ObstacleAvoidance",
    cs! "mamdani/SimpleDimmerChained", cs! "mamdani/SimpleDimmerInverse", cs! "mamdani/matlab/mam21", cs! "mamdani/matlab/mam22",
    cs! "mamdani/matlab/shower", cs! "mamdani/matlab/tank", cs! "mamdani/matlab/tank2", cs! "mamdani/matlab/tipper",
    cs! "mamdani/matlab/tipper1", cs! "mamdani/octave/investment_portfolio", cs! "mamdani/octave/mamdani_tip_calculator",
    cs! "takagi-sugeno/approximation", cs! "takagi-sugeno/ObstacleAvoidance", cs! "takagi-sugeno/SimpleDimmer",
    cs! "takagi-sugeno/matlab/fpeaks", cs! "takagi-sugeno/matlab/invkine1", cs! "takagi-sugeno/matlab/invkine2",
    cs! "takagi-sugeno/matlab/juggler", cs! "takagi-sugeno/matlab/membrn1", cs! "takagi-sugeno/matlab/membrn2",
    cs! "takagi-sugeno/matlab/slbb", cs! "takagi-sugeno/matlab/slcp", cs! "takagi-sugeno/matlab/slcp1",
    cs! "takagi-sugeno/matlab/slcpp1", cs! "takagi-sugeno/matlab/sltbu_fl", cs! "takagi-sugeno/matlab/sugeno1",
    cs! "takagi-sugeno/matlab/tanksg", cs! "takagi-sugeno/matlab/tippersg", cs! "takagi-sugeno/octave/cubic_approximator",
    cs! "takagi-sugeno/octave/heart_disease_risk", cs! "takagi-sugeno/octave/linear_tip_calculator",
    cs! "takagi-sugeno/octave/sugeno_tip_calculator", cs! "tsukamoto/tsukamoto", cs! "hybrid/tipper", cs! "hybrid/ObstacleAvoidance"]

/-- the examples that are not tested with FIS, src/Console.cpp:799-801 -/
def withoutFis : List Str :=
  [cs! "mamdani/Laundry", cs! "mamdani/SimpleDimmerInverse", cs! "mamdani/SimpleDimmerChained", cs! "hybrid/tipper",
    cs! "hybrid/ObstacleAvoidance"]

/-- the text after the last slash, src/Console.cpp:835, 855 -/
def baseName (example_ : Str) : Str := (example_.reverse.takeWhile (· ≠ '/')).reverse

/-- a test of a format, src/Console.cpp:806-823: the text of the engine read from the text of the engine is the same text -/
def sameAgain [ScalarText S] [Truncate S] (G : Registry S) (format : Str) (e : Engine S) : Except Err Unit := do
  let exported ← exportText format e
  let e' ← importText G format exported
  let imported ← exportText format e'
  if exported = imported then .ok () else .error .exporting

/-- the tests of an example, src/Console.cpp:798-824 -/
def tests [ScalarText S] [Truncate S] (G : Registry S) (example_ : Str) (e : Engine S) : Except Err Unit := do
  sameAgain G (cs! "fll") e
  if example_ ∈ withoutFis then .ok () else sameAgain G (cs! "fis") e
  sameAgain G (cs! "fcl") e

/-- what is written before and after the Java code, src/Console.cpp:836-850 -/
def javaHead (className : Str) : Str :=
  cs! "import com.fuzzylite.*;\n" ++ cs! "import com.fuzzylite.activation.*\n" ++ cs! "import com.fuzzylite.defuzzifier.*;\n"
  ++ cs! "import com.fuzzylite.factory.*;\n" ++ cs! "import com.fuzzylite.hedge.*;\n" ++ cs! "import com.fuzzylite.imex.*;\n"
  ++ cs! "import com.fuzzylite.norm.*;\n" ++ cs! "import com.fuzzylite.norm.s.*;\n" ++ cs! "import com.fuzzylite.norm.t.*;\n"
  ++ cs! "import com.fuzzylite.rule.*;\n" ++ cs! "import com.fuzzylite.term.*;\n" ++ cs! "import com.fuzzylite.variable.*;\n\n"
  ++ cs! "public class " ++ Op.validName className ++ cs! "{\n" ++ cs! "public static void main(String[] args){\n"

/-- the text of an example, src/Console.cpp:830-861, and whether something was written when there is an exception.
Simplified: the part of an R script before the exception is not given. -/
def exampleText [ScalarText S] [Truncate S] [Heap S] (library : Str) (target example_ : Str) (e : Engine S) : Except Err Str :=
  if target = cs! "cpp" then do
    let code ← exportText target e
    .ok (cs! "#include <fl/Headers.h>\n\nint main(int argc, char** argv){\n" ++ code ++ cs! "\n}\n")
  else if target = cs! "java" then do
    let code ← exportText target e
    .ok (javaHead (baseName example_) ++ code ++ cs! "\n}\n}\n")
  else if target = cs! "R" then
    if e.inputs.isEmpty then .error .outOfRange
    else ({ library := library } : RScriptExporter).importing e 0 (1 % e.inputs.length) (baseName example_ ++ cs! ".fld") (List.range e.outputs.length)
  else if target = cs! "fld" then
    match ({} : FldExporter).write e 1024 .allVariables (e.inputs.map fun _ => true) with
    | (_, _, some err) => .error err
    | (_, rows, none) => .ok (({} : FldExporter).text e rows)
  else exportText target e

/-- an example in one format, src/Console.cpp:779-867: the files created until then come first, and hold what was written.
Files that cannot be created are passed over. -/
def exportExample [ScalarText S] [Truncate S] [Heap S] (u : Setup S) (G : Registry S) (source target sourcePath targetPath : Str)
    (files : List (Str × Str)) (example_ : Str) : List (Str × Str) × Option Err :=
  let input := sourcePath ++ cs! "/" ++ example_ ++ cs! "." ++ source
  match (files.lookup input).or (u.world.files input) with
  | none => (files, some .importing)
  | some text =>
    match importText G source (text ++ ['\n']) with
    | .error err => (files, some err)
    | .ok e =>
      match tests G example_ e with
      | .error err => (files, some err)
      | .ok () =>
        let output := targetPath ++ cs! "/" ++ example_ ++ cs! "." ++ target
        if u.world.creates output then
          match exampleText u.library target example_ e with
          | .error err => ((output, []) :: files, some err)
          | .ok text => ((output, text) :: files, none)
        else (files, none)

/-- `Console::exportAllExamples`, src/Console.cpp:703-893, after the formats are checked -/
def exportExamples [ScalarText S] [Truncate S] [Heap S] (u : Setup S) (G : Registry S) (source target sourcePath targetPath : Str) :
    List (Str × Str) → List Str → List (Str × Str) × Option Err
  | files, [] => (files, none)
  | files, x :: xs =>
    match exportExample u G source target sourcePath targetPath files x with
    | (files, some err) => (files, some err)
    | (files, none) => exportExamples u G source target sourcePath targetPath files xs

/-- the formats that can be read and written, src/Console.cpp:747-773 -/
def exportAllExamples [ScalarText S] [Truncate S] [Heap S] (u : Setup S) (G : Registry S) (source target sourcePath targetPath : Str)
    (files : List (Str × Str)) : List (Str × Str) × Option Err :=
  if source ∉ [cs! "fll", cs! "fis", cs! "fcl"] then (files, some .unsupported)
  else if target ∉ [cs! "fll", cs! "fld", cs! "fcl", cs! "fis", cs! "cpp", cs! "java", cs! "R"] then (files, some .unsupported)
  else exportExamples u G source target sourcePath targetPath files examples

/-- the formats of the command, in order, with the number of decimals: src/Console.cpp:970-986 -/
def formats : List (Int × Str) :=
  [(3, cs! "fll"), (3, cs! "fcl"), (3, cs! "fis"), (3, cs! "cpp"), (3, cs! "java"), (3, cs! "R"), (9, cs! "fld")]

/-- the conversions of the command, src/Console.cpp:970-986 -/
def exportFormats [ScalarText S] [Truncate S] [Heap S] (u : Setup S) (G : Registry S) (sourcePath targetPath : Str) :
    List (Str × Str) → List (Int × Str) → List (Str × Str) × Option Err
  | files, [] => (files, none)
  | files, (d, target) :: fs =>
    match (letI : ScalarText S := printing (u.world.printed d)
      exportAllExamples u G (cs! "fll") target sourcePath targetPath files) with
    | (files, some err) => (files, some err)
    | (files, none) => exportFormats u G sourcePath targetPath files fs

/-- the command `export-examples`, src/Console.cpp:961-993, for the arguments after it -/
def exportCommand [ScalarText S] [Truncate S] [Heap S] (u : Setup S) (G : Registry S) (args : List Str) : Outcome :=
  let r := exportFormats u G ((args[0]?).getD (cs! ".")) ((args[1]?).getD (cs! "/tmp/")) [] formats
  ⟨r.1, [], r.2⟩

/-- `Console::main`, src/Console.cpp:951-1062, with all commands.  The status is `EXIT_SUCCESS` when there is no exception. -/
def program [ScalarText S] [Truncate S] [Heap S] (u : Setup S) (G : Registry S) (args : List Str) : Outcome :=
  match args with
  | [] => ⟨[], [], none⟩
  | [_] => ⟨[], [], none⟩
  | a :: rest =>
    if a = cs! "export-examples" then exportCommand u G rest
    else if a = cs! "benchmark" then benchmarkCommand u G rest
    else if a = cs! "benchmarks" then benchmarksCommand u G rest
    else match parse args with
      | .error err => ⟨[], [], some err⟩
      | .ok o =>
        let r := process u.world G o
        ⟨(match r.file with | none => [] | some text => [((o.find (cs! "-o")).getD [], text)]), r.out, r.error⟩

end Console
end FL
