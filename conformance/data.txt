import Verif.Model.Options
import Verif.Model.Decimal
import Verif.Props.Activation
open FL FL.Console

/-
Not part of the proofs: runs the model on the examples of the library and compares with the recorded data.

  cd /verif/lean
  lake env lean --run ../conformance/data.txt $(find /repo/examples -name "*.fll" -not -path "*original*")

Scalars are the floats of Lean, which are doubles with the functions of the C library; values are printed with nine
decimals, as in the recorded data.  Every engine is evaluated on the grid of `FldExporter` for 1024 values.
-/

def ratToFloat (q : Rat) : Float :=
  -- exact when both fit; literals of the source are of this kind
  let d := q.den
  let f := Float.ofNat q.num.natAbs / Float.ofNat d
  if q.num < 0 then -f else f
def myRat (f : Float) : Rat :=
  let b : Nat := f.toBits.toNat
  let e : Nat := (b / 2^52) % 2048
  let m : Nat := b % 2^52
  let m : Nat := if e = 0 then m else m + 2^52
  let x : Int := (if e = 0 then 1 else e : Nat) - (1075 : Int)
  let m : Int := if b / 2^63 = 1 then -(m : Int) else m
  if 0 ≤ x then (m * (2 ^ x.toNat : Nat) : Int) else mkRat m (2 ^ (-x).toNat)
instance : Scalar Float where
  nan := 0.0 / 0.0
  inf := 1.0 / 0.0
  ofRat := ratToFloat
  add := Float.add
  sub := Float.sub
  mul := Float.mul
  div := Float.div
  neg := Float.neg
  fn1
    | .abs => Float.abs | .sqrt => Float.sqrt | .exp => Float.exp | .log => Float.log | .cos => Float.cos
    | .sin => Float.sin | .tan => Float.tan | .acos => Float.acos | .asin => Float.asin | .atan => Float.atan
    | .cosh => Float.cosh | .sinh => Float.sinh | .tanh => Float.tanh | .acosh => Float.acosh | .asinh => Float.asinh
    | .atanh => Float.atanh | .ceil => Float.ceil | .floor => Float.floor | .log10 => Float.log10 | .log1p => fun x => Float.log (1 + x)
  fn2
    | .pow => Float.pow | .atan2 => Float.atan2 | .fmod => fun a b => a - b * (if a / b < 0 then (a / b).ceil else (a/b).floor)
  lt a b := a < b
  eq a b := a == b
  macheps := 1e-6

def readU (s : Str) : Option Float :=
  let whole := s.takeWhile Char.isDigit
  let rest := s.dropWhile Char.isDigit
  let frac := match rest with | '.' :: r => r.takeWhile Char.isDigit | _ => []
  let rest' := match rest with | '.' :: r => r.dropWhile Char.isDigit | _ => rest
  if whole.isEmpty && frac.isEmpty then none
  else
    let m := Decimal.readNat (Decimal.readNat 0 whole) frac
    match rest' with
    | [] => some (Float.ofScientific m true frac.length)
    | c :: e =>
      if c == 'e' || c == 'E' then
        match Decimal.readExp e with
        | some k => let x := k - frac.length
                    some (if x < 0 then Float.ofScientific m true (-x).toNat else Float.ofScientific m false x.toNat)
        | none => none
      else none
def rd (s : Str) : Option Float :=
  if s = cs! "nan" then some (0.0/0.0)
  else if s = cs! "inf" then some (1.0/0.0)
  else if s = cs! "-inf" then some (-1.0/0.0)
  else match s with
  | '-' :: r => (readU r).map fun q => -q
  | '+' :: r => readU r
  | s => readU s
def fixed (d : Nat) (n : Nat) : Str :=
  let t := Nat.toDigits 10 n
  let t := List.replicate (d + 1 - t.length) '0' ++ t
  t.take (t.length - d) ++ cs! "." ++ t.drop (t.length - d)
def showF (d : Nat) (x : Float) : Str :=
  if x.isNaN then cs! "nan" else if x.isInf then (if x < 0 then cs! "-inf" else cs! "inf")
  else if x.abs < Float.ofScientific 1 true d then fixed d 0
  else
    let q := myRat x
    let n := Decimal.nearest (|q| * (10 ^ d : Nat))
    if x < 0 then '-' :: fixed d n else fixed d n
instance : ScalarText Float where
  ofText := rd
  str := showF 9
instance : Truncate Float := ⟨fun x => if x.isNaN || x.isInf then none else
  let t := if x < 0 then x.ceil else x.floor
  some (if t < 0 then -(((-t).toUInt64.toNat : Nat) : Int) else (t.toUInt64.toNat : Int))⟩
instance : Heap Float := RuleBlock.stableHeap _
def G : Registry Float := Registry.default

def absDiff (a b : String) : Float :=
  let f (s : String) := (s.splitOn " ").map fun w => (rd w.toList).getD (0.0/0.0)
  ((f a).zip (f b)).foldl (fun m (x, y) =>
    if x.isNaN && y.isNaN then m else if x.isNaN || y.isNaN then 1e99
    else if x.isInf || y.isInf then (if x == y then m else 1e99) else if (x-y).abs > m then (x-y).abs else m) 0

def main (args : List String) : IO Unit := do
  for f in args do
    let base := (f.dropEnd 4).toString
    let text ← IO.FS.readFile f
    let p : System.FilePath := base ++ ".fld"
    if ← p.pathExists then
     match ({} : FllImporter).fromString G text.toList with
     | .error e => IO.println s!"{base}: IMPORT FAILED {repr e}"
     | .ok e =>
      let x : FldExporter := {}
      let want ← IO.FS.readFile p
      let r := x.write e 1024 .allVariables (e.inputs.map fun _ => true)
      let got := String.ofList (x.text e r.2.1)
      let lg := got.splitOn "\n"; let lw := want.splitOn "\n"
      let mut bad := 0
      let mut mx : Float := 0
      let mut ex := ""
      for (a, b) in lg.zip lw do
        if a != b then
          if bad == 0 then ex := s!"\n   got  {a}\n   want {b}"
          bad := bad + 1
          let d := absDiff a b
          if d > mx then mx := d
      IO.println s!"{base}.fld: lines {lg.length}/{lw.length} differing {bad} max {mx} err {repr r.2.2} {ex}"
