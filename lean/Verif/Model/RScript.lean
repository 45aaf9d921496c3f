/-
The exporter to R (src/imex/RScriptExporter.cpp), and the fragment of R that it writes.

A script assigns texts, reads a table from a text, makes plots of its columns and saves them.  What is drawn
is not modelled: a plot is its table, the columns that it shows, and its layers.
-/
import Verif.Model.Data
import Verif.Model.Fll
import Verif.Model.Cpp

namespace FL
open Scalar
variable {S : Type}

/-- `RScriptExporter`, src/imex/RScriptExporter.cpp:29-33, with the text of `fuzzylite::library()` -/
structure RScriptExporter where
  minimumColor : Str := cs! "yellow"
  maximumColor : Str := cs! "red"
  contourColor : Str := cs! "black"
  library : Str := cs! "fuzzylite 7.0.0"

namespace RScriptExporter

/-- `writeScriptHeader`, src/imex/RScriptExporter.cpp:211-219 -/
def scriptHeader [ScalarText S] (x : RScriptExporter) (e : Engine S) : Str :=
  cs! "#Code automatically generated with " ++ x.library ++ cs! ".\n\nlibrary(ggplot2);\n\n"
  ++ (cs! "engine.name = \"" ++ e.name ++ cs! "\"\n")
  ++ (if e.description.isEmpty then [] else cs! "engine.description = \"" ++ e.description ++ cs! "\"\n")
  ++ (cs! "engine.fll = \"" ++ ({} : FllExporter).toString e ++ cs! "\"\n\n")

/-- the two plots of an output variable over two input variables, src/imex/RScriptExporter.cpp:229-247 -/
def surface (x : RScriptExporter) (plot a b z : Str) : Str :=
  plot ++ cs! " = ggplot(engine.df, aes(" ++ a ++ cs! ", " ++ b ++ cs! ")) + \n"
  ++ (cs! "    geom_tile(aes(fill=" ++ z ++ cs! ")) + \n")
  ++ (cs! "    scale_fill_gradient(low=\"" ++ x.minimumColor ++ cs! "\", high=\"" ++ x.maximumColor ++ cs! "\") + \n")
  ++ (cs! "    stat_contour(aes(x=" ++ a ++ cs! ", y=" ++ b ++ cs! ", z=" ++ z ++ cs! "), color=\"" ++ x.contourColor ++ cs! "\") + \n")
  ++ (cs! "    ggtitle(\"(" ++ a ++ cs! ", " ++ b ++ cs! ") = " ++ z ++ cs! "\")\n\n")

/-- a plot of an output variable over one input variable, src/imex/RScriptExporter.cpp:250-265 -/
def curve (x : RScriptExporter) (plot a z flip title : Str) : Str :=
  plot ++ cs! " = ggplot(engine.df, aes(" ++ a ++ cs! ", " ++ z ++ cs! ")) + \n"
  ++ (cs! "    geom_line(aes(color=" ++ z ++ cs! "), size=3, lineend=\"round\", linejoin=\"mitre\") + \n")
  ++ (cs! "    scale_color_gradient(low=\"" ++ x.minimumColor ++ cs! "\", high=\"" ++ x.maximumColor ++ cs! "\") + \n")
  ++ flip ++ (cs! "    ggtitle(\"" ++ title ++ cs! "\")\n\n")

/-- the names of the two plots of the `i`-th output variable, src/imex/RScriptExporter.cpp:229, 239, 250, 258 -/
def plotNames (same : Bool) (i : Nat) : Str × Str :=
  if same then (cs! "engine.plot.i1_o" ++ intText (i + 1 : Nat), cs! "engine.plot.o" ++ intText (i + 1 : Nat) ++ cs! "_i1")
  else (cs! "engine.plot.i1i2_o" ++ intText (i + 1 : Nat), cs! "engine.plot.i2i1_o" ++ intText (i + 1 : Nat))

/-- the plots of the `i`-th output variable `z` over the input variables `a` and `b`, which may be the `same` one,
src/imex/RScriptExporter.cpp:228-267 -/
def plots (x : RScriptExporter) (same : Bool) (a b : Str) (i : Nat) (z : Str) : Str :=
  let n := plotNames same i
  if same then
    x.curve n.1 a z [] (a ++ cs! " vs " ++ z) ++ x.curve n.2 a z (cs! "    coord_flip() + \n") (z ++ cs! " vs " ++ a)
  else x.surface n.1 a b z ++ x.surface n.2 b a z

/-- the loop over the output variables, src/imex/RScriptExporter.cpp:226-268, from the `i`-th -/
def allPlots (x : RScriptExporter) (same : Bool) (a b : Str) : Nat → List Str → Str
  | _, [] => []
  | i, z :: zs => x.plots same a b i z ++ x.allPlots same a b (i + 1) zs

/-- the arguments for the plots, src/imex/RScriptExporter.cpp:248, 266 -/
def arranged (same : Bool) (i n : Nat) : Str :=
  match n with
  | 0 => []
  | n + 1 => (plotNames same i).1 ++ cs! ", " ++ (plotNames same i).2 ++ cs! ", " ++ arranged same (i + 1) n

/-- `writeScriptPlots`, src/imex/RScriptExporter.cpp:221-278, for the names of the variables -/
def scriptPlots (x : RScriptExporter) (same : Bool) (a b : Str) (zs : List Str) : Str :=
  x.allPlots same a b 0 zs
  ++ cs! "if (require(gridExtra)) {\n    engine.plots = arrangeGrob(" ++ arranged same 0 zs.length ++ cs! "ncol=2, top=engine.name)\n"
  ++ cs! "    ggsave(paste0(engine.name, \".pdf\"), engine.plots)\n"
  ++ cs! "    if (require(grid)) {\n        grid.newpage()\n        grid.draw(engine.plots)\n    }\n}\n"

/-- the text around the data, src/imex/RScriptExporter.cpp:182-186, 201-206 -/
def frameText (data : Str) : Str :=
  cs! "engine.fld = \"" ++ data ++ cs! "\"\n\n"
  ++ cs! "engine.df = read.delim(textConnection(engine.fld), header=TRUE, sep=\" \", strip.white=TRUE)\n\n"

/-- the names of the variables in a script for the input variables at the positions `a` and `b` and the output variables
at the positions `zs`, or the exception of `at` -/
def named (e : Engine S) (a b : Nat) (zs : List Nat) : Except Err (Str × Str × List Str) :=
  match e.inputs[a]?, e.inputs[b]?, zs.mapM (fun i => e.outputs[i]?) with
  | some a, some b, some zs => .ok (a.name, b.name, zs.map fun z => z.name)
  | _, _, _ => .error .outOfRange

/-- `writeScriptImportingDataFrame`, src/imex/RScriptExporter.cpp:146-165.  Here and below variables are given by their
positions in the engine. -/
def importing [ScalarText S] (x : RScriptExporter) (e : Engine S) (a b : Nat) (path : Str) (zs : List Nat) : Except Err Str :=
  match named e a b zs with
  | .error err => .error err
  | .ok (p, q, os) =>
    .ok (x.scriptHeader e ++ (cs! "engine.fldFile = \"" ++ path ++ cs! "\"\nif (require(data.table)) {\n"
      ++ cs! "    engine.df = data.table::fread(engine.fldFile, sep=\"auto\", header=\"auto\")\n} else {\n"
      ++ cs! "    engine.df = read.table(engine.fldFile, header=TRUE)\n}\n\n") ++ x.scriptPlots (a == b) p q os)

/-- the script around data that have been written with the exception `err`; exceptions end `toString` -/
def script [ScalarText S] (x : RScriptExporter) (e : Engine S) (a b : Nat) (zs : List Nat) (rows : List (List S)) (err : Option Err) :
    Except Err Str :=
  match err with
  | some err => .error err
  | none =>
    match named e a b zs with
    | .error err => .error err
    | .ok (p, q, os) => .ok (x.scriptHeader e ++ frameText (({} : FldExporter).text e rows) ++ x.scriptPlots (a == b) p q os)

/-- `writeScriptExportingDataFrame(engine, writer, a, b, values, scope, outputVariables)`,
src/imex/RScriptExporter.cpp:167-189, and `toString` with the same arguments, lines 79-90: the engine afterwards and the text -/
def exporting [ScalarText S] [Truncate S] [Heap S] (x : RScriptExporter) (e : Engine S) (a b : Nat) (values : Int) (scope : Scope)
    (zs : List Nat) : Engine S × Except Err Str :=
  match ({} : FldExporter).write e values scope (e.inputs.mapIdx fun i _ => i == a || i == b) with
  | (e', rows, err) => (e', x.script e a b zs rows err)

/-- `writeScriptExportingDataFrame(engine, writer, a, b, reader, outputVariables)`,
src/imex/RScriptExporter.cpp:191-209, and `toString` with the same arguments, lines 92-102 -/
def exportingReader [ScalarText S] [Heap S] (x : RScriptExporter) (e : Engine S) (a b : Nat) (text : Str) (zs : List Nat) :
    Engine S × Except Err Str :=
  match ({} : FldExporter).writeReader e text with
  | (e', rows, err) => (e', x.script e a b zs rows err)

/-- `toString(const Engine*)`, src/imex/RScriptExporter.cpp:69-77: the engine afterwards, whose constness is cast away, and
the text -/
def toString [ScalarText S] [Truncate S] [Heap S] (x : RScriptExporter) (e : Engine S) : Engine S × Except Err Str :=
  if e.inputs.isEmpty || e.outputs.isEmpty then (e, .error .exporting)
  else x.exporting e 0 (1 % e.inputs.length) 1024 .allVariables (List.range e.outputs.length)

end RScriptExporter

/-! ### the fragment of R

A script is a list of lines; a line ends with the line of the text unless parentheses are open or it ends with `+`.  Lines are
assignments of texts, tables, plots and figures, calls of a few functions, and `if (require(package)) { … } else { … }`. -/

namespace R

inductive Token
  | text (s : Str)
  | number (s : Str)
  | name (s : Str)
  | sign (c : Char)
  | newline
  deriving DecidableEq

/-- what is being read; characters so far are reversed -/
inductive Mode
  | blank
  | comment
  | name (acc : Str)
  | number (acc : Str)
  | text (acc : Str)
  | escape (acc : Str)
  deriving DecidableEq

def isLetter (c : Char) : Bool := isAlnum c && !Cpp.isDigit c

/-- characters of names -/
def isNameChar (c : Char) : Bool := isAlnum c || c == '.' || c == '_'

/-- the first character of a token -/
def start (c : Char) : Option (List Token × Mode) :=
  if c = '\n' ∨ c = ';' then some ([.newline], .blank)
  else if c = ' ' then some ([], .blank)
  else if isLetter c || c == '.' then some ([], .name [c])
  else if Cpp.isDigit c then some ([], .number [c])
  else if c = '"' then some ([], .text [])
  else if c = '#' then some ([], .comment)
  else if c ∈ cs! "=+(){},:" then some ([.sign c], .blank)
  else none

/-- a token ends before a character -/
def ends (t : Token) (c : Char) : Option (List Token × Mode) := (start c).map fun p => (t :: p.1, p.2)

/-- a word is a name if it is not a number -/
def isName : Str → Bool
  | '.' :: c :: _ => !Cpp.isDigit c
  | c :: _ => isLetter c || c == '.'
  | [] => false

/-- one character.  Not in the fragment: numbers other than those of digits, escape sequences with numbers, null characters. -/
def step : Mode → Char → Option (List Token × Mode)
  | .blank, c => start c
  | .comment, c => some (if c = '\n' then ([.newline], .blank) else ([], .comment))
  | .name a, c =>
    if isNameChar c then some ([], .name (c :: a))
    else if isName a.reverse then ends (.name a.reverse) c
    else none
  | .number a, c =>
    if Cpp.isDigit c then some ([], .number (c :: a))
    else if isNameChar c then none
    else ends (.number a.reverse) c
  | .text a, c =>
    if c = '"' then some ([.text a.reverse], .blank)
    else if c = '\\' then some ([], .escape a)
    else if c = '\x00' then none
    else some ([], .text (c :: a))
  | .escape a, c => (Cpp.escaped c).map fun d => ([], .text (d :: a))

def run : Mode → Str → Option (List Token × Mode)
  | m, [] => some ([], m)
  | m, c :: cs => do
    let p ← step m c
    let q ← run p.2 cs
    some (p.1 ++ q.1, q.2)

/-- the tokens of a text that ends with a line -/
def lex (code : Str) : Option (List Token) :=
  match run .blank code with
  | some (ts, .blank) => some ts
  | _ => none

/-- the tokens without the ends of lines that end no line of the script: those in parentheses, of which `depth` are open, and
those after `+` -/
def joined : Nat → Bool → List Token → List Token
  | _, _, [] => []
  | depth, plus, .newline :: ts => if depth ≠ 0 ∨ plus = true then joined depth plus ts else .newline :: joined depth false ts
  | depth, _, .sign '(' :: ts => .sign '(' :: joined (depth + 1) false ts
  | depth, _, .sign ')' :: ts => .sign ')' :: joined (depth - 1) false ts
  | depth, _, .sign '+' :: ts => .sign '+' :: joined depth true ts
  | depth, _, t :: ts => t :: joined depth false ts

/-- the parts of a list between ends of lines -/
def pieces : List Token → List (List Token)
  | [] => [[]]
  | t :: ts =>
    if t = .newline then [] :: pieces ts
    else match pieces ts with
      | p :: ps => (t :: p) :: ps
      | [] => [[t]]

/-- the parts of a list between the tokens `sep` outside of parentheses, of which `depth` are open -/
def parts (sep : Token) : Nat → List Token → List (List Token)
  | _, [] => [[]]
  | depth, t :: ts =>
    if t = sep ∧ depth = 0 then [] :: parts sep 0 ts
    else
      let d := if t = .sign '(' then depth + 1 else if t = .sign ')' then depth - 1 else depth
      match parts sep d ts with
      | p :: ps => (t :: p) :: ps
      | [] => [[t]]

def reserved : List Str :=
  [cs! "if", cs! "else", cs! "repeat", cs! "while", cs! "function", cs! "for", cs! "next", cs! "break", cs! "TRUE", cs! "FALSE",
   cs! "NULL", cs! "Inf", cs! "NaN", cs! "NA", cs! "NA_integer_", cs! "NA_real_", cs! "NA_complex_", cs! "NA_character_", cs! "in"]

inductive Atom
  | text (s : Str)
  | number (s : Str)
  | name (s : Str)
  | logical (b : Bool)
  deriving DecidableEq

/-- arguments with their names if they have one -/
abbrev Arguments (α : Type) := List (Option Str × α)

/-- what an argument may be: calls are nested at most twice -/
inductive Item
  | atom (a : Atom)
  | call (function : Str) (arguments : Arguments Atom)
  deriving DecidableEq

inductive Expr
  | atom (a : Atom)
  | call (function : Str) (arguments : Arguments Item)
  deriving DecidableEq

inductive Line
  | assign (x : Str) (sum : List Expr)
  | expr (e : Expr)
  /-- `if (require(package)) {` -/
  | whenRequired (package : Str)
  /-- `} else {` -/
  | otherwise
  /-- `}` -/
  | close
  deriving DecidableEq

def atom : List Token → Option Atom
  | [.text s] => some (.text s)
  | [.number s] => some (.number s)
  | [.name s] =>
    if s = cs! "TRUE" then some (.logical true)
    else if s = cs! "FALSE" then some (.logical false)
    else if s ∈ reserved then none
    else some (.name s)
  | _ => none

/-- the tokens between the first parenthesis and the last token, which closes it -/
def enclosed : List Token → Option (List Token)
  | .sign '(' :: ts => if ts.getLast? = some (.sign ')') then some ts.dropLast else none
  | _ => none

/-- an argument with its name -/
def argument {α : Type} (f : List Token → Option α) : List Token → Option (Option Str × α)
  | .name n :: .sign '=' :: ts => if n ∈ reserved then none else (f ts).map fun a => (some n, a)
  | ts => (f ts).map fun a => (none, a)

/-- arguments between commas -/
def arguments {α : Type} (f : List Token → Option α) (ts : List Token) : Option (Arguments α) :=
  if ts = [] then some [] else (parts (.sign ',') 0 ts).mapM (argument f)

def item : List Token → Option Item
  | .name f :: .sign '(' :: ts => do
    if f ∈ reserved then none
    else
      let ts ← enclosed (.sign '(' :: ts)
      let as ← arguments atom ts
      some (.call f as)
  | ts => (atom ts).map .atom

def expr : List Token → Option Expr
  | .name f :: .sign '(' :: ts => do
    if f ∈ reserved then none
    else
      let ts ← enclosed (.sign '(' :: ts)
      let as ← arguments item ts
      some (.call f as)
  | .name p :: .sign ':' :: .sign ':' :: .name f :: .sign '(' :: ts => do
    if p ∈ reserved ∨ f ∈ reserved then none
    else
      let ts ← enclosed (.sign '(' :: ts)
      let as ← arguments item ts
      some (.call (p ++ cs! "::" ++ f) as)
  | ts => (atom ts).map .atom

def line : List Token → Option Line
  | [.sign '}'] => some .close
  | [.sign '}', .name k, .sign '{'] => if k = cs! "else" then some .otherwise else none
  | [.name k, .sign '(', .name r, .sign '(', .name p, .sign ')', .sign ')', .sign '{'] =>
    if k = cs! "if" ∧ r = cs! "require" then some (.whenRequired p) else none
  | .name x :: .sign '=' :: ts =>
    if x ∈ reserved then none else ((parts (.sign '+') 0 ts).mapM expr).map (.assign x)
  | ts => (expr ts).map .expr

/-- a line opens or closes a brace, after which another line may follow in R; here the line ends there -/
def parse (code : Str) : Option (List Line) := do
  let ts ← lex code
  ((pieces (joined 0 false ts)).filter fun l => l ≠ []).mapM line

/-! ### values -/

/-- a table of texts; that R converts columns of numbers to numbers is not modelled -/
structure Frame where
  columns : List Str
  rows : List (List Str)
  deriving DecidableEq

/-- a layer of a plot: the function that adds it, the columns that it shows by aesthetic, and its other arguments -/
structure Layer where
  function : Str
  aesthetics : List (Str × Str)
  parameters : List (Str × Atom)
  deriving DecidableEq

structure Plot where
  frame : Frame
  x : Str
  y : Str
  layers : List Layer
  deriving DecidableEq

/-- plots in columns, with a title -/
structure Figure where
  plots : List Plot
  ncol : Str
  top : Str
  deriving DecidableEq

inductive Value
  | text (s : Str)
  | frame (f : Frame)
  | plot (p : Plot)
  | figure (f : Figure)
  deriving DecidableEq

structure State where
  /-- the files that can be read -/
  data : List (Str × Str) := []
  env : List (Str × Value) := []
  packages : List Str := []
  /-- the files written, and the figures drawn on a page of their own -/
  files : List (Str × Figure) := []
  drawn : List Figure := []
  page : Bool := false
  /-- for each open brace, whether its lines are executed -/
  blocks : List Bool := []

def State.get (s : State) (x : Str) : Option Value := s.env.lookup x

/-- the lines of a text that are not empty -/
def textLines (text : Str) : List Str := (FllImporter.lines text).filter fun l => !l.isEmpty

/-- the parts of a line between blanks -/
def cells : Str → List Str
  | [] => [[]]
  | c :: cs =>
    if c = ' ' then [] :: cells cs
    else match cells cs with
      | w :: ws => (c :: w) :: ws
      | [] => [[c]]

/-- names that R leaves as they are -/
def isColumn (s : Str) : Bool := isName s && s.all isNameChar && !(s ∈ reserved : Bool)

/-- `read.delim(textConnection(text), header=TRUE, sep=" ", strip.white=TRUE)`.  Simplified: headers that R would change, because
they are no names or not distinct, and lines with more or fewer cells than the header are rejected. -/
def readDelim (text : Str) : Option Frame :=
  match textLines text with
  | [] => none
  | h :: ls =>
    let columns := cells h
    if columns.all isColumn && decide columns.Nodup && ls.all (fun l => (cells l).length == columns.length) then
      some ⟨columns, ls.map cells⟩
    else none

/-- the aesthetics of `aes(…)`: the first two without names are `x` and `y` -/
def aes : Item → Option (List (Str × Str))
  | .call f as =>
    if f = cs! "aes" then
      match as with
      | [(none, .name a), (none, .name b)] => some [(cs! "x", a), (cs! "y", b)]
      | as => as.mapM fun p => match p with
        | (some n, .name a) => some (n, a)
        | _ => none
    else none
  | _ => none

/-- arguments with names -/
def parameters (as : Arguments Item) : Option (List (Str × Atom)) :=
  as.mapM fun p => match p with
    | (some _, .atom (.name _)) => none
    | (some n, .atom a) => some (n, a)
    | _ => none

/-- the layers that show columns -/
def geometries : List Str := [cs! "geom_tile", cs! "stat_contour", cs! "geom_line"]

/-- the layers that do not -/
def settings : List Str := [cs! "scale_fill_gradient", cs! "scale_color_gradient", cs! "coord_flip"]

def layer : Expr → Option Layer
  | .call f as =>
    if f ∈ geometries then
      match as with
      | (none, m) :: as => do
        let ms ← aes m
        let ps ← parameters as
        some ⟨f, ms, ps⟩
      | _ => none
    else if f ∈ settings then (parameters as).map fun ps => ⟨f, [], ps⟩
    else if f = cs! "ggtitle" then
      match as with
      | [(none, .atom (.text t))] => some ⟨f, [], [(cs! "label", .text t)]⟩
      | _ => none
    else none
  | _ => none

/-- the columns that a plot shows -/
def Plot.shown (p : Plot) : List Str := p.x :: p.y :: p.layers.flatMap fun l => l.aesthetics.map fun a => a.2

/-- the arguments of `arrangeGrob`: plots, all of whose columns are in their table, then `ncol` and `top` -/
def grob (s : State) : Arguments Item → Option Figure
  | [(some n, .atom (.number k)), (some t, .atom (.name top))] =>
    if n = cs! "ncol" ∧ t = cs! "top" then
      match s.get top with
      | some (.text top) => some ⟨[], k, top⟩
      | _ => none
    else none
  | (none, .atom (.name p)) :: as => do
    match s.get p with
    | some (.plot p) =>
      if p.shown.all (fun c => c ∈ p.frame.columns) then
        let f ← grob s as
        some { f with plots := p :: f.plots }
      else none
    | _ => none
  | _ => none

/-- the table in the file whose name is the value of a variable -/
def stored (s : State) (x : Str) : Option Value :=
  match s.get x with
  | some (.text path) => ((s.data.lookup path).bind readDelim).map .frame
  | _ => none

/-- the value of an assignment; plots and figures need their packages.  Simplified: `fread` and `read.table` read the same tables as
`read.delim` above. -/
def value (installed : List Str) (s : State) : List Expr → Option Value
  | [.atom (.text t)] => some (.text t)
  | .call f as :: ls =>
    if f = cs! "read.delim" then
      match as, ls with
      | [(none, .call c [(none, .name t)]), (some n1, .atom (.logical true)), (some n2, .atom (.text [' '])), (some n3, .atom (.logical true))], [] =>
        if c = cs! "textConnection" ∧ n1 = cs! "header" ∧ n2 = cs! "sep" ∧ n3 = cs! "strip.white" then
          match s.get t with
          | some (.text t) => (readDelim t).map .frame
          | _ => none
        else none
      | _, _ => none
    else if f = cs! "data.table::fread" ∧ cs! "data.table" ∈ installed then
      match as, ls with
      | [(none, .atom (.name x)), (some n1, .atom (.text t1)), (some n2, .atom (.text t2))], [] =>
        if n1 = cs! "sep" ∧ t1 = cs! "auto" ∧ n2 = cs! "header" ∧ t2 = cs! "auto" then stored s x else none
      | _, _ => none
    else if f = cs! "read.table" then
      match as, ls with
      | [(none, .atom (.name x)), (some n1, .atom (.logical true))], [] => if n1 = cs! "header" then stored s x else none
      | _, _ => none
    else if f = cs! "ggplot" ∧ cs! "ggplot2" ∈ s.packages then
      match as with
      | [(none, .atom (.name d)), (none, m)] =>
        match s.get d, aes m with
        | some (.frame fr), some [(n1, x), (n2, y)] =>
          if n1 = cs! "x" ∧ n2 = cs! "y" then (ls.mapM layer).map fun ls => .plot ⟨fr, x, y, ls⟩ else none
        | _, _ => none
      | _ => none
    else if f = cs! "arrangeGrob" ∧ cs! "gridExtra" ∈ s.packages ∧ ls = [] then (grob s as).map .figure
    else none
  | _ => none

/-- the lines that are calls -/
def effect (installed : List Str) (s : State) : Expr → Option State
  | .call f as =>
    if f = cs! "library" then
      match as with
      | [(none, .atom (.name p))] => if p ∈ installed then some { s with packages := p :: s.packages } else none
      | _ => none
    else if f = cs! "ggsave" ∧ cs! "ggplot2" ∈ s.packages then
      match as with
      | [(none, .call c [(none, .name n), (none, .text suffix)]), (none, .atom (.name g))] =>
        match s.get n, s.get g with
        | some (.text n), some (.figure g) => if c = cs! "paste0" then some { s with files := s.files ++ [(n ++ suffix, g)] } else none
        | _, _ => none
      | _ => none
    else if f = cs! "grid.newpage" ∧ cs! "grid" ∈ s.packages then if as = [] then some { s with page := true } else none
    else if f = cs! "grid.draw" ∧ cs! "grid" ∈ s.packages then
      match as with
      | [(none, .atom (.name g))] =>
        match s.get g with
        | some (.figure g) => if s.page then some { s with drawn := s.drawn ++ [g], page := false } else none
        | _ => none
      | _ => none
    else none
  | _ => none

/-- a line of a script, when the packages in the list are installed; nothing where R would stop with an error -/
def exec (installed : List Str) (s : State) : Line → Option State
  | .close =>
    match s.blocks with
    | [] => none
    | _ :: bs => some { s with blocks := bs }
  | .whenRequired p =>
    if s.blocks.all id && decide (p ∈ installed) then some { s with blocks := true :: s.blocks, packages := p :: s.packages }
    else some { s with blocks := false :: s.blocks }
  | .otherwise =>
    match s.blocks with
    | [] => none
    | b :: bs => some { s with blocks := (bs.all id && !b) :: bs }
  | .assign x sum =>
    if s.blocks.all id then (value installed s sum).map fun v => { s with env := (x, v) :: s.env } else some s
  | .expr e => if s.blocks.all id then effect installed s e else some s

/-- the state after a script in which braces are closed, in a directory with the given files; nothing if the script is not in the fragment
or stops with an error -/
def execute (installed : List Str) (data : List (Str × Str)) (code : Str) : Option State := do
  let ls ← parse code
  let s ← ls.foldlM (exec installed) { data := data }
  if s.blocks = [] then some s else none

end R
end FL
