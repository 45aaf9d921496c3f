/-
Data read from and written to text: the readers of FldExporter and Benchmark.
-/
import Verif.Model.Benchmark
import Verif.Model.Fll

namespace FL
open Scalar
variable {S : Type}

/-- `Operation::toScalars(x)`, fuzzylite/Operation.h:974-981. -/
def Op.toScalars [ScalarText S] (text : Str) : Except Err (List S) := Term.toScalars (Op.words text)

/-- the text is not empty and its first character is a hash -/
def isComment (line : Str) : Bool := line.head? == some '#'

/-- the loop of `Benchmark::prepare(reader, numberOfLines)`, src/Benchmark.cpp:124-136, over the lines
still to read; `first` says whether the next one is the first line.  Simplified: after an exception
the expected values are not given (the code keeps the rows read until then). -/
def Benchmark.readLines [ScalarText S] : Bool → List Str → Except Err (List (List S))
  | _, [] => .ok []
  | first, l :: ls =>
    let line := Op.trim l
    if line.isEmpty || isComment line then Benchmark.readLines false ls
    else
      match (Op.toScalars line : Except Err (List S)) with
      | .error err => if first then Benchmark.readLines false ls else .error err
      | .ok xs =>
        match Benchmark.readLines false ls with
        | .error err => .error err
        | .ok rows => .ok (xs :: rows)

/-- `Benchmark::prepare(reader, numberOfLines)`, src/Benchmark.cpp:120-137; a negative number reads all
the lines. -/
def Benchmark.prepareText [ScalarText S] (b : Benchmark S) (text : Str) (numberOfLines : Int) :
    Except Err (Benchmark S) :=
  let ls := FllImporter.lines text
  match Benchmark.readLines true (if numberOfLines < 0 then ls else ls.take numberOfLines.toNat) with
  | .error err => .error err
  | .ok rows => .ok { b with expected := rows }

namespace FldExporter

/-- `FldExporter::parse`, src/imex/FldExporter.cpp:176-181. -/
def parse [ScalarText S] (text : Str) : Except Err (List S) :=
  if text.isEmpty || isComment text then .ok [] else Op.toScalars text

/-- the loop of `FldExporter::write(engine, writer, reader)`, src/imex/FldExporter.cpp:246-267 (the same
in `toString` and `toFile`, lines 117-135 and 155-173): the engine afterwards, the rows written and
the exception. -/
def writeLines [ScalarText S] [Heap S] (x : FldExporter) :
    Bool → Engine S → List Str → Engine S × List (List S) × Option Err
  | _, e, [] => (e, [], none)
  | first, e, l :: ls =>
    let line := Op.trim l
    if isComment line then writeLines x false e ls
    else
      match (parse line : Except Err (List S)) with
      | .error err => if first then writeLines x false e ls else (e, [], some err)
      | .ok values =>
        match x.writeRow e values (e.inputs.map fun _ => true) with
        | (e, .error err) => (e, [], some err)
        | (e, .ok r) =>
          match writeLines x false e ls with
          | (e, rs, err) => (e, r :: rs, err)

/-- `FldExporter::write(engine, writer, reader)`, src/imex/FldExporter.cpp:242-268, without the
header. -/
def writeReader [ScalarText S] [Heap S] (x : FldExporter) (e : Engine S) (text : Str) :
    Engine S × List (List S) × Option Err :=
  x.writeLines true e (FllImporter.lines text)

/-- a row as it is written, src/imex/FldExporter.cpp:322, 278 -/
def rowText [ScalarText S] (x : FldExporter) (row : List S) : Str :=
  Op.join (row.map ScalarText.str) x.separator

/-- the text of the header and of the rows, src/imex/FldExporter.cpp:190-191, 322 -/
def text [ScalarText S] (x : FldExporter) (e : Engine S) (rows : List (List S)) : Str :=
  (if x.headers then x.header e ++ ['\n'] else []) ++ rows.flatMap fun r => x.rowText r ++ ['\n']

end FldExporter
end FL
