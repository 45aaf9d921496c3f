/-
The results of a benchmark (src/Benchmark.cpp:139-201, 302-467).
-/
import Verif.Model.Data

namespace FL
open Scalar
variable {S : Type}

/-- `Benchmark` with its name and the run times, src/Benchmark.cpp:34-37 -/
structure TimedBenchmark (S : Type) where
  name : Str
  bench : Benchmark S
  times : List S

/-- `Benchmark::TimeUnit`, fuzzylite/Benchmark.h:51 -/
inductive TimeUnit
  | nanoSeconds
  | microSeconds
  | milliSeconds
  | seconds
  | minutes
  | hours
  deriving DecidableEq, Repr

namespace TimeUnit

/-- `Benchmark::stringOf`, src/Benchmark.cpp:302-316 -/
def text : TimeUnit → Str
  | .nanoSeconds => cs! "nanoseconds"
  | .microSeconds => cs! "microseconds"
  | .milliSeconds => cs! "milliseconds"
  | .seconds => cs! "seconds"
  | .minutes => cs! "minutes"
  | .hours => cs! "hours"

/-- `Benchmark::factorOf`, src/Benchmark.cpp:318-332 -/
def factor [Scalar S] : TimeUnit → S
  | .nanoSeconds => lit 1
  | .microSeconds => lit (1 / 10 ^ 3)
  | .milliSeconds => lit (1 / 10 ^ 6)
  | .seconds => lit (1 / 10 ^ 9)
  | .minutes => lit (1 / 10 ^ 9) / lit 60
  | .hours => lit (1 / 10 ^ 9) / lit 3600

/-- `Benchmark::convert`, src/Benchmark.cpp:334-336 -/
def convert [Scalar S] (x : S) (source target : TimeUnit) : S := x * target.factor / source.factor

end TimeUnit

/-- The value of a result before it is written: a text, an integer, or a scalar with the arguments of `Op::str`
(`fixed none` for the default number of decimals). -/
inductive Cell (S : Type)
  | text (s : Str)
  | count (n : Int)
  | fixed (decimals : Option Nat) (x : S)
  | general (x : S)
  | scientific (x : S)
  deriving DecidableEq

/-- How scalars are written: `fixed d` is `Op::str` with `d` decimals in fixed notation; the others are what
`std::ostream` writes for finite numbers without flags and in scientific notation with six decimals. -/
structure Printer (S : Type) where
  fixed : Nat → S → Str
  general : S → Str
  scientific : S → Str

/-- `Op::str`, fuzzylite/Operation.h:1005-1022 -/
def Cell.str [ScalarText S] (p : Printer S) : Cell S → Str
  | .text s => s
  | .count n => if n < 0 then '-' :: Nat.toDigits 10 n.natAbs else Nat.toDigits 10 n.natAbs
  | .fixed none x => ScalarText.str x
  | .fixed (some d) x => p.fixed d x
  | .general x =>
    if Op.isNaN x then cs! "nan" else if Op.isInf x then (if lt x (lit 0) then cs! "-inf" else cs! "inf")
    else p.general x
  | .scientific x =>
    if Op.isNaN x then cs! "nan" else if Op.isInf x then (if lt x (lit 0) then cs! "-inf" else cs! "inf")
    else if Op.isEqT (lit (1 / 10 ^ 6)) x (lit 0) then p.scientific (lit 0)
    else p.scientific x

/-- `Benchmark::Result`, fuzzylite/Benchmark.h:64 -/
abbrev Result (S : Type) := Str × Cell S

namespace TimedBenchmark

/-- `Benchmark::run`, src/Benchmark.cpp:143-196: `times` is what the clock measures in each run.  After an
exception no times are kept. -/
def run [Scalar S] [Heap S] (b : TimedBenchmark S) (times : List S) : TimedBenchmark S × Option Err :=
  match go b.bench times with
  | (bench, some err) => ({ b with bench := bench }, some err)
  | (bench, none) => ({ b with bench := bench, times := b.times ++ times }, none)
where
  go (bench : Benchmark S) : List S → Benchmark S × Option Err
    | [] => (bench, if bench.engine.isNone then some .exporting else none)
    | _ :: times =>
      match bench.runOnce with
      | (bench, some err) => (bench, some err)
      | (bench, none) => go bench times

/-- `Benchmark::reset`, src/Benchmark.cpp:198-201 -/
def reset (b : TimedBenchmark S) : TimedBenchmark S := { b with bench := { b.bench with obtained := [] }, times := [] }

/-- the numbers gathered over the output variables, src/Benchmark.cpp:386-396 -/
structure Sums (S : Type) where
  names : List Str
  ranges : S
  nrmse : S
  weights : S

/-- the body of the loop over the output variables, src/Benchmark.cpp:387-395 -/
def sumStep [Scalar S] (b : Benchmark S) (outputs : List (OutputVariable S)) (out : Option Nat) (s : Sums S) (i : Nat) :
    Except Err (Sums S) :=
  match outputs[i]? with
  | none => .error .outOfRange
  | some y =>
    if Benchmark.chosen out i then do
      let mse ← b.meanSquaredError (some i)
      .ok ⟨s.names ++ [y.name], s.ranges + y.toVariable.range, s.nrmse + sqrt mse * lit 1 / y.toVariable.range,
        s.weights + lit 1 / y.toVariable.range⟩
    else .ok s

/-- the loop over the output variables, src/Benchmark.cpp:386-396 -/
def sums [Scalar S] (b : Benchmark S) (outputs : List (OutputVariable S)) (out : Option Nat) : Except Err (Sums S) :=
  (List.range outputs.length).foldlM (sumStep b outputs out) ⟨[], lit 0, lit 0, lit 0⟩

/-- the results about errors, src/Benchmark.cpp:380-413 -/
def errorResults [Scalar S] (b : Benchmark S) (e : Engine S) (out : Option Nat) : Except Err (List (Result S)) := do
  let mse ← b.meanSquaredError out
  let s ← sums b e.outputs out
  let all ← b.allErrors out
  let nonFinite ← b.nonFiniteErrors out
  let accuracy ← b.accuracyErrors out
  .ok [(cs! "outputVariable", .text (Op.join s.names (cs! ","))),
    (cs! "range", .fixed none (s.ranges / lit (s.names.length : Rat))),
    (cs! "tolerance", .general b.tolerance),
    (cs! "errors", .count all),
    (cs! "nfErrors", .count nonFinite),
    (cs! "accErrors", .count accuracy),
    (cs! "rmse", .scientific (sqrt mse)),
    (cs! "nrmse", .scientific (s.nrmse / s.weights))]

/-- the results about the engine, src/Benchmark.cpp:368-379 -/
def engineResults [Scalar S] (b : TimedBenchmark S) (library : Str) (e : Engine S) : List (Result S) :=
  [(cs! "library", .text library),
    (cs! "name", .text b.name),
    (cs! "inputs", .count e.inputs.length),
    (cs! "outputs", .count e.outputs.length),
    (cs! "ruleBlocks", .count e.blocks.length),
    (cs! "rules", .count (e.blocks.foldl (fun (n : Nat) bl => n + bl.rules.length) 0 : Nat)),
    (cs! "runs", .count b.times.length),
    (cs! "evaluations", .count b.bench.expected.length)]

/-- the number of decimals of the sum and of the times, src/Benchmark.cpp:405, 412 -/
def decimalsOf (unit : TimeUnit) : Option Nat := if unit = .nanoSeconds then some 0 else none

/-- the results about the times, src/Benchmark.cpp:402-408 -/
def timeResults [Scalar S] (times : List S) (unit : TimeUnit) : List (Result S) :=
  [(cs! "units", .text unit.text),
    (cs! "sum(t)", .fixed (decimalsOf unit) (TimeUnit.convert (Op.sum times) .nanoSeconds unit)),
    (cs! "mean(t)", .fixed none (TimeUnit.convert (Op.mean times) .nanoSeconds unit)),
    (cs! "sd(t)", .fixed none (TimeUnit.convert (Op.standardDeviation times) .nanoSeconds unit))]

/-- the single times, src/Benchmark.cpp:410-416: `i` of them precede -/
def singleTimes (unit : TimeUnit) : Nat → List S → List (Result S)
  | _, [] => []
  | i, t :: ts => ('t' :: Nat.toDigits 10 (i + 1), .fixed (decimalsOf unit) t) :: singleTimes unit (i + 1) ts

/-- `Benchmark::results`, src/Benchmark.cpp:357-419 -/
def results [Scalar S] (b : TimedBenchmark S) (library : Str) (out : Option Nat) (unit : TimeUnit) (includeTimes : Bool) :
    Except Err (List (Result S)) :=
  match b.bench.engine with
  | none => .error .exporting
  | some e => do
    let errors ← if b.bench.canComputeErrors then errorResults b.bench e out else .ok []
    .ok (b.engineResults library e ++ errors ++ timeResults b.times unit
      ++ if includeTimes then singleTimes unit 0 b.times else [])

/-- the benchmark that `Benchmark::header` makes, src/Benchmark.cpp:339-351 -/
def dummy [Scalar S] (runs : Nat) (includeErrors : Bool) : TimedBenchmark S :=
  let table : List (List S) := if includeErrors then [[nan]] else []
  ⟨[], ⟨some ⟨[], [], [], [OutputVariable.new [] ninf inf []], []⟩, table, table, macheps⟩, List.replicate runs nan⟩

/-- `Benchmark::header`, src/Benchmark.cpp:338-357; for a negative number the constructor of the vector throws -/
def header [Scalar S] (runs : Int) (includeErrors : Bool) : Except Err (List Str) :=
  if runs < 0 then .error .outOfRange
  else do
    let rs ← (dummy (S := S) runs.toNat includeErrors).results [] none .nanoSeconds true
    .ok (rs.map (·.1))

/-- `Benchmark::TableShape`, fuzzylite/Benchmark.h:56 -/
inductive Shape
  | horizontal
  | vertical
  deriving DecidableEq

/-- `Benchmark::TableContents`, fuzzylite/Benchmark.h:61 -/
inductive Contents
  | header
  | body
  | headerAndBody
  deriving DecidableEq

/-- `contents bitand Header` -/
def Contents.hasHeader (c : Contents) : Bool := c ≠ .body
/-- `contents bitand Body` -/
def Contents.hasBody (c : Contents) : Bool := c ≠ .header

/-- a line of a vertical table, src/Benchmark.cpp:428-434 -/
def verticalLine (contents : Contents) (delimiter : Str) (r : Str × Str) : Str :=
  (if contents.hasHeader then r.1 else []) ++ (if contents = .headerAndBody then delimiter else [])
    ++ if contents.hasBody then r.2 else []

/-- the texts with the separator between them, as the loops write them: src/Benchmark.cpp:435-436, 444-450 -/
def between (sep : Str) : List Str → Str
  | [] => []
  | t :: ts => t ++ (if ts = [] then [] else sep) ++ between sep ts

/-- `Benchmark::format`, src/Benchmark.cpp:421-463 -/
def format (results : List (Str × Str)) (shape : Shape) (contents : Contents) (delimiter : Str) : Str :=
  match shape with
  | .vertical => between ['\n'] (results.map (verticalLine contents delimiter))
  | .horizontal =>
    (if contents.hasHeader then between delimiter (results.map (·.1)) else [])
      ++ (if contents = .headerAndBody then ['\n'] else [])
      ++ if contents.hasBody then between delimiter (results.map (·.2)) else []

/-- the results as texts -/
def texts [ScalarText S] (p : Printer S) (rs : List (Result S)) : List (Str × Str) := rs.map fun r => (r.1, r.2.str p)

end TimedBenchmark
end FL
