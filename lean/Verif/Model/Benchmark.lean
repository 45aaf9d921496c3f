/-
Data export on a grid (src/imex/FldExporter.cpp) and benchmarks (src/Benchmark.cpp).
-/
import Verif.Model.Engine
import Verif.Model.Ext

namespace FL
open Scalar
variable {S : Type} [Scalar S]

/-! ### the grid -/

/-- The conversion `(int) x` of a scalar: truncation toward zero; `none` is undefined behaviour (not
finite, or beyond the range of `int`). -/
class Truncate (S : Type) where
  toInt : S → Option Int

/-- `(int) x` for a number truncated to `n` -/
def intOf (n : Int) : Option Int := if -2147483648 ≤ n ∧ n ≤ 2147483647 then some n else none

noncomputable instance : Truncate (Ext ℝ) :=
  ⟨fun x => match x with
    | .fin a => intOf (if 0 ≤ a then ⌊a⌋ else ⌈a⌉)
    | _ => none⟩

instance : Truncate (Ext ℚ) :=
  ⟨fun x => match x with
    | .fin a => intOf (if 0 ≤ a then a.floor else a.ceil)
    | _ => none⟩

/-- `FldExporter::ScopeOfValues`, fuzzylite/imex/FldExporter.h:53-58. -/
inductive Scope
  | eachVariable
  | allVariables
  deriving DecidableEq, Repr

/-- `resolution`, src/imex/FldExporter.cpp:207-211 and src/Benchmark.cpp:93-97; `none` is undefined
behaviour.  Simplified: `values - 1` does not overflow. -/
def Scope.resolution [Truncate S] (n : Nat) (values : Int) : Scope → Option Int
  | .allVariables =>
    (Truncate.toInt (Op.stdMax (lit 1) (pow (lit values) (lit 1 / lit n) : S))).map fun k => -1 + k
  | .eachVariable => some (values - 1)

/-- The vectors that a loop `do … while (Op::increment(x, min, max))` visits, starting at `x`:
src/imex/FldExporter.cpp:224-236, src/Benchmark.cpp:106-117.  `none` is an exception of `increment`
or the end of the fuel, which is shown to suffice. -/
def odometer (mn mx : List Int) : Nat → List Int → Option (List (List Int))
  | 0, _ => none
  | n + 1, x =>
    match Op.increment x mn mx with
    | none => none
    | some (_, false) => some [x]
    | some (y, true) => (odometer mn mx n y).map fun l => x :: l

/-- number of steps of the odometer from zero to `mx` -/
def fuelFor (mx : List Int) : Nat := (mx.map fun m => (m + 1).toNat + 1).foldr (· * ·) 1

/-- `Variable::range`, src/variable/Variable.cpp:101-103. -/
def Variable.range (v : Variable S) : S := v.maximum - v.minimum

/-- a coordinate of the grid, src/imex/FldExporter.cpp:229-230, src/Benchmark.cpp:112-113 -/
def Variable.sample (v : Variable S) (resolution k : Int) : S :=
  v.minimum + lit k * v.range / lit (max 1 resolution : Int)

/-- `inputValues`, src/imex/FldExporter.cpp:225-234: `active` says at each position whether the
given variable is the variable of the engine. -/
def gridInput (resolution : Int) : List (Variable S) → List Bool → List Int → List S
  | v :: vs, a :: as, k :: ks =>
    (if a then v.sample resolution k else v.value) :: gridInput resolution vs as ks
  | _, _, _ => []

/-- `maxSampleValues`, src/imex/FldExporter.cpp:213-221 -/
def gridLimits (resolution : Int) (active : List Bool) : List Int :=
  active.map fun a => if a then resolution else 0

/-! ### FldExporter -/

/-- `FldExporter`, src/imex/FldExporter.cpp:30-36. -/
structure FldExporter where
  separator : Str := cs! " "
  headers : Bool := true
  inputValues : Bool := true
  outputValues : Bool := true

namespace FldExporter

/-- `FldExporter::header`, src/imex/FldExporter.cpp:76-91. -/
def header (x : FldExporter) (e : Engine S) : Str :=
  Op.join ((if x.inputValues then e.inputs.map (fun v => v.name) else [])
    ++ (if x.outputValues then e.outputs.map (fun o => o.name) else [])) x.separator

/-- the value given to each input variable, src/imex/FldExporter.cpp:298-308 -/
def given : List (Variable S) → List Bool → List S → List S
  | v :: vs, a :: as, x :: xs => (if a then x else v.value) :: given vs as xs
  | _, _, _ => []

/-- `FldExporter::write(engine, writer, inputValues, activeVariables)`,
src/imex/FldExporter.cpp:274-323: the engine afterwards and the values of the line, or the exception.
An empty line is written for empty values, without processing. -/
def writeRow [Heap S] (x : FldExporter) (e : Engine S) (values : List S) (active : List Bool) :
    Engine S × Except Err (List S) :=
  if values.isEmpty then (e, .ok [])
  else if values.length < e.inputs.length then (e, .error .exporting)
  else if active.length ≠ e.inputs.length then (e, .error .exporting)
  else
    let g := given e.inputs active values
    match (e.setInputs g).process with
    | (e, some err) => (e, .error err)
    | (e, none) => (e, .ok ((if x.inputValues then g else []) ++ (if x.outputValues then e.outputValues else [])))

/-- the loop over the grid, src/imex/FldExporter.cpp:224-236, for the vectors still to visit: the
engine afterwards, the lines and the exception -/
def writeRows [Heap S] (x : FldExporter) (resolution : Int) (active : List Bool) :
    Engine S → List (List Int) → Engine S × List (List S) × Option Err
  | e, [] => (e, [], none)
  | e, s :: ss =>
    match x.writeRow e (gridInput resolution e.inputs active s) active with
    | (e, .error err) => (e, [], some err)
    | (e, .ok r) =>
      match writeRows x resolution active e ss with
      | (e, rs, err) => (e, r :: rs, err)

/-- `FldExporter::write(engine, writer, values, scope, activeVariables)`,
src/imex/FldExporter.cpp:187-237, once the resolution is known: the engine afterwards, the lines
after the header and the exception. -/
def writeGrid [Heap S] (x : FldExporter) (e : Engine S) (resolution : Int) (active : List Bool) :
    Engine S × List (List S) × Option Err :=
  if active.length ≠ e.inputs.length then (e, [], some .exporting)
  else
    let mx := gridLimits resolution active
    let mn := active.map fun _ => (0 : Int)
    match odometer mn mx (fuelFor mx) mn with
    | none => (e, [], some .outOfRange)
    | some samples => x.writeRows resolution active e samples

/-- `FldExporter::write(engine, writer, values, scope, activeVariables)`,
src/imex/FldExporter.cpp:187-237. -/
def write [Heap S] [Truncate S] (x : FldExporter) (e : Engine S) (values : Int) (scope : Scope) (active : List Bool) :
    Engine S × List (List S) × Option Err :=
  if active.length ≠ e.inputs.length then (e, [], some .exporting)
  else match scope.resolution (S := S) e.inputs.length values with
    | none => (e, [], some .ub)
    | some resolution => x.writeGrid e resolution active

end FldExporter

/-! ### Benchmark -/

/-- `Benchmark`, src/Benchmark.cpp:28-36.  Simplified: the name and the run times are not modelled. -/
structure Benchmark (S : Type) where
  engine : Option (Engine S)
  expected : List (List S)
  obtained : List (List S)
  tolerance : S

namespace Benchmark

/-- `Benchmark::prepare(values, scope)`, src/Benchmark.cpp:90-118. -/
def prepare [Truncate S] (b : Benchmark S) (values : Int) (scope : Scope) : Except Err (Benchmark S) :=
  match b.engine with
  | none => .error .exporting
  | some e =>
    match scope.resolution (S := S) e.inputs.length values with
    | none => .error .ub
    | some resolution =>
      let mx := e.inputs.map fun _ => resolution
      let mn := e.inputs.map fun _ => (0 : Int)
      match odometer mn mx (fuelFor mx) mn with
      | none => .error .outOfRange
      | some samples =>
        .ok { b with expected := samples.map (gridInput resolution e.inputs (e.inputs.map fun _ => true)) }

/-- the loop over the evaluations, src/Benchmark.cpp:160-184 -/
def runRows [Heap S] : Engine S → List (List S) → Engine S × List (List S) × Option Err
  | e, [] => (e, [], none)
  | e, row :: rows =>
    if row.length < e.inputs.length then (e, [], some .exporting)
    else
      match (e.setInputs (row.take e.inputs.length)).process with
      | (e, some err) => (e, [], some err)
      | (e, none) =>
        match runRows e rows with
        | (e', os, err) => (e', (row.take e.inputs.length ++ e.outputValues) :: os, err)

/-- `Benchmark::runOnce`, src/Benchmark.cpp:139-196: the obtained values (up to the first exception)
and the exception.  Simplified: after an exception the remaining rows are zeros. -/
def runOnce [Heap S] (b : Benchmark S) : Benchmark S × Option Err :=
  match b.engine with
  | none => (b, some .exporting)
  | some e =>
    match runRows e.restart b.expected with
    | (e, os, err) => ({ b with engine := some e, obtained := os }, err)

/-- `Benchmark::canComputeErrors`, src/Benchmark.cpp:203-209. -/
def canComputeErrors (b : Benchmark S) : Bool :=
  match b.engine, b.expected, b.obtained with
  | some e, x :: xs, y :: ys =>
    decide (xs.length = ys.length) && decide (x.length = y.length)
      && decide (x.length = e.inputs.length + e.outputs.length)
  | _, _, _ => false

/-- `Benchmark::ErrorType`, fuzzylite/Benchmark.h:66. -/
inductive ErrorType
  | nonFinite
  | accuracy
  | all
  deriving DecidableEq, Repr

/-- `vector::at` -/
def get (row : List S) (i : Nat) : Except Err S :=
  match row[i]? with
  | none => .error .outOfRange
  | some x => .ok x

/-- whether a pair of values is counted, src/Benchmark.cpp:285-293 -/
def counts (tolerance : S) (ty : ErrorType) (e o : S) : Bool :=
  if !Op.isEqT tolerance e o then
    if ty == .accuracy && Op.isFinite (e - o) then true
    else if ty == .nonFinite && !Op.isFinite (e - o) then true
    else if ty == .all then true
    else false
  else false

/-- `outputVariable == fl::null or outputVariable == _engine->getOutputVariable(y)`; `none` is the
null pointer and `some k` the output variable at position `k`. -/
def chosen (out : Option Nat) (y : Nat) : Bool :=
  match out with
  | none => true
  | some k => y == k

/-- `Benchmark::numberOfErrors(errorType, outputVariable)`, src/Benchmark.cpp:272-300.
Simplified: the counter does not overflow. -/
def numberOfErrors (b : Benchmark S) (ty : ErrorType) (out : Option Nat) : Except Err Int :=
  match b.engine with
  | none => .ok (-1)
  | some en =>
    if !b.canComputeErrors then .ok (-1)
    else
      (b.expected.zip b.obtained).foldlM (init := (0 : Int)) fun n (e, o) =>
        (List.range en.outputs.length).foldlM (init := n) fun n y =>
          if chosen out y then do
            let ev ← get e (y + en.inputs.length)
            let ov ← get o (y + en.inputs.length)
            pure (if counts b.tolerance ty ev ov then n + 1 else n)
          else pure n

def allErrors (b : Benchmark S) (out : Option Nat) : Except Err Int := b.numberOfErrors .all out
def nonFiniteErrors (b : Benchmark S) (out : Option Nat) : Except Err Int := b.numberOfErrors .nonFinite out
def accuracyErrors (b : Benchmark S) (out : Option Nat) : Except Err Int := b.numberOfErrors .accuracy out

/-- `Benchmark::meanSquaredError(outputVariable)`, src/Benchmark.cpp:215-242. -/
def meanSquaredError (b : Benchmark S) (out : Option Nat) : Except Err S :=
  match b.engine with
  | none => .ok nan
  | some en =>
    if !b.canComputeErrors then .ok nan
    else do
      let (mse, errors) ← (b.expected.zip b.obtained).foldlM (init := ((lit 0 : S), (0 : Nat))) fun s (e, o) =>
        (List.range en.outputs.length).foldlM (init := s) fun s y =>
          if chosen out y then do
            let ev ← get e (en.inputs.length + y)
            let ov ← get o (en.inputs.length + y)
            let d := ev - ov
            pure (if Op.isFinite d && !Op.isEqT b.tolerance d (lit 0) then (s.1 + d * d, s.2 + 1) else s)
          else pure s
      pure (if errors > 0 then mse / lit errors else mse)

end Benchmark
end FL
