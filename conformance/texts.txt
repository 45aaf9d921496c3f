import Verif.Model.Options
import Verif.Model.RScript
import Verif.Model.Decimal
open FL FL.Console

/-
Not part of the proofs: runs the importers and exporters of the model on the examples of the library and compares
with the recorded texts, up to the number of the version in them.

  cd /verif/lean
  lake env lean --run ../conformance/texts.txt $(find /repo/examples -name "*.fll" -not -path "*original*")

For each example: FLL to FLL, FCL, FIS, C++, Java and R; FCL to FCL; FIS to FIS; C++ and Java (interpreted) to FLL; the R script
is run with the recorded data.
-/
def G : Registry (Ext ℚ) := Registry.default
def firstDiff (a b : String) : String := Id.run do
  let la := a.splitOn "\n"; let lb := b.splitOn "\n"
  let mut i := 0
  for (x, y) in la.zip lb do
    i := i + 1
    if x != y then return s!"line {i}:\n   got  {x}\n   want {y}"
  return s!"lengths {la.length} {lb.length}"
def main (args : List String) : IO Unit := do
  for f in args do
    let base := (f.dropEnd 4).toString
    let text ← IO.FS.readFile f
    match ({} : FllImporter).fromString G text.toList with
    | .error e => IO.println s!"{base}: IMPORT FAILED {repr e}"
    | .ok e =>
      let chk (ext : String) (got : Except Err Str) (pre post : String) : IO Unit := do
        let p : System.FilePath := base ++ ext
        if ← p.pathExists then
          let want := (← IO.FS.readFile p) |>.replace "fuzzylite 6.0." "fuzzylite 7.0.0." |>.replace "Version=6.0\n" "Version=7.0.0\n"
          match got with
          | .error err => IO.println s!"{base}{ext}: EXPORT FAILED {repr err}"
          | .ok t =>
            let g := pre ++ String.ofList t ++ post
            if g != want then IO.println s!"{base}{ext}: DIFF {firstDiff g want}" else IO.println s!"{base}{ext}: same"
      chk ".fll" (.ok (({} : FllExporter).toString e)) "" ""
      chk ".fcl" (.ok (({} : FclExporter).toString e)) "" ""
      chk ".fis" (FisExporter.toString e) "" ""
      chk ".cpp" (.ok (({} : CppExporter).toString e)) "#include <fl/Headers.h>\n\nint main(int argc, char** argv){\n" "\n}\n"

      let cls := (base.splitOn "/").getLast!
      let java := "import com.fuzzylite.*;\nimport com.fuzzylite.activation.*\nimport com.fuzzylite.defuzzifier.*;\nimport com.fuzzylite.factory.*;\n"
        ++ "import com.fuzzylite.hedge.*;\nimport com.fuzzylite.imex.*;\nimport com.fuzzylite.norm.*;\nimport com.fuzzylite.norm.s.*;\n"
        ++ "import com.fuzzylite.norm.t.*;\nimport com.fuzzylite.rule.*;\nimport com.fuzzylite.term.*;\nimport com.fuzzylite.variable.*;\n\n"
        ++ "public class " ++ cls ++ "{\npublic static void main(String[] args){\n"
      chk ".java" (.ok (({} : JavaExporter).toString e)) java "\n}\n}\n"
      let rd (ext : String) : IO (Option String) := do
        let p : System.FilePath := base ++ ext
        if ← p.pathExists then return some (← IO.FS.readFile p) else return none
      if let some t ← rd ".fcl" then
        chk ".fcl" ((({} : FclImporter).fromString G t.toList).map fun e => ({} : FclExporter).toString e) "" ""
      if let some t ← rd ".fis" then
        chk ".fis" ((({} : FisImporter).fromString G t.toList).bind fun e => FisExporter.toString e) "" ""
      if let some t ← rd ".cpp" then
        let pre := "#include <fl/Headers.h>\n\nint main(int argc, char** argv){\n"
        let code := ((t.drop pre.length).dropEnd 3).toString
        let code := code.replace "using namespace fl;" "using namespace fuzzylite;"
        chk ".fll" ((build G code.toList).map fun e => ({} : FllExporter).toString e) "" ""
      if let some t ← rd ".java" then
        let code := ((t.drop java.length).dropEnd 5).toString
        chk ".fll" (match Java.execute G code.toList with
          | .ok e => .ok (({} : FllExporter).toString e)
          | .error _ => .error .ub) "" ""
      let n := e.inputs.length
      if n ≠ 0 then
        chk ".R" (({} : RScriptExporter).importing e 0 (1 % n) (cls ++ ".fld").toList (List.range e.outputs.length)) "" ""
        if let some t ← rd ".R" then
          if let some d ← rd ".fld" then
            match R.execute ["ggplot2".toList, "gridExtra".toList, "grid".toList] [((cls ++ ".fld").toList, d.toList)] t.toList with
            | some s => IO.println s!"{base}.R: runs, {s.files.map fun f => (String.ofList f.1, f.2.plots.length, f.2.plots.map fun p => p.frame.rows.length)}"
            | none => IO.println s!"{base}.R: DOES NOT RUN"
