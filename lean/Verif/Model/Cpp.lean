/-
The fragment of C++ that `CppExporter` writes: its tokens, its syntax, and what executing it does
to the classes of the library.

Statements are `using namespace fuzzylite;`, `T* x = new T;` and `x->method(…);`, in the body of a
function that includes fuzzylite/Headers.h.  A text is rejected when it is not a program of this
fragment or a compiler would not accept it; names of macros and of the functions of the C library
other than `nan` are not modelled.
-/
import Verif.Model.Fll

namespace FL.Cpp
open Scalar
variable {S : Type}

/-! ### tokens -/

inductive Token
  | ident (s : Str)
  | number (s : Str)
  | text (s : Str)
  | sign (s : Str)
  deriving DecidableEq

/-- what is being read; characters so far are reversed -/
inductive Mode
  | blank
  | ident (acc : Str)
  | number (acc : Str)
  | text (acc : Str)
  | escape (acc : Str)
  | slash
  | comment
  | dash
  | colon
  deriving DecidableEq

def isDigit (c : Char) : Bool := '0' ≤ c && c ≤ '9'
def isLetter (c : Char) : Bool := c == '_' || (isAlnum c && !isDigit c)

/-- the first character of a token; no program of the fragment has the sign `.`, but see Model/Java.lean -/
def start (c : Char) : Option (List Token × Mode) :=
  if isSpace c then some ([], .blank)
  else if isLetter c then some ([], .ident [c])
  else if isDigit c then some ([], .number [c])
  else if c = '"' then some ([], .text [])
  else if c = '/' then some ([], .slash)
  else if c = '-' then some ([], .dash)
  else if c = ':' then some ([], .colon)
  else if c ∈ cs! "*=(),;." then some ([.sign [c]], .blank)
  else none

/-- a token ends before a character -/
def ends (t : Token) (c : Char) : Option (List Token × Mode) := (start c).map fun p => (t :: p.1, p.2)

/-- the character that an escape sequence stands for -/
def escaped (c : Char) : Option Char :=
  if c = 'n' then some '\n' else if c = 't' then some '\t'
  else if c = '"' ∨ c = '\\' ∨ c = '\'' ∨ c = '?' then some c
  else none

/-- one character.  A null character would end the string that a literal stands for.  A quote after an identifier begins a literal with a prefix, which is not in the
fragment, nor are escape sequences with numbers, comments other than `//`, exponents with a sign, and
trigraphs. -/
def step : Mode → Char → Option (List Token × Mode)
  | .blank, c => start c
  | .ident a, c =>
    if isLetter c || isDigit c then some ([], .ident (c :: a))
    else if c = '"' then none
    else ends (.ident a.reverse) c
  | .number a, c =>
    if isLetter c || isDigit c || c == '.' then some ([], .number (c :: a))
    else ends (.number a.reverse) c
  | .text a, c =>
    if c = '"' then some ([.text a.reverse], .blank)
    else if c = '\\' then some ([], .escape a)
    else if c = '\n' ∨ c = '\x00' then none
    else some ([], .text (c :: a))
  | .escape a, c => (escaped c).map fun d => ([], .text (d :: a))
  | .slash, c => if c = '/' then some ([], .comment) else none
  | .comment, c => some ([], if c = '\n' then .blank else .comment)
  | .dash, c =>
    if c = '>' then some ([.sign (cs! "->")], .blank)
    else if c = '-' then none
    else ends (.sign (cs! "-")) c
  | .colon, c => if c = ':' then some ([.sign (cs! "::")], .blank) else none

def run : Mode → Str → Option (List Token × Mode)
  | m, [] => some ([], m)
  | m, c :: cs => do
    let p ← step m c
    let q ← run p.2 cs
    some (p.1 ++ q.1, q.2)

/-- the token that ends with the text -/
def finish : Mode → Option (List Token)
  | .blank => some []
  | .ident a => some [.ident a.reverse]
  | .number a => some [.number a.reverse]
  | .dash => some [.sign (cs! "-")]
  | .comment => some []
  | _ => none

def lex (code : Str) : Option (List Token) := do
  let p ← run .blank code
  let ts ← finish p.2
  some (p.1 ++ ts)

/-! ### syntax -/

/-- a string, a number or a name, these with or without a minus sign; a name may be qualified with
`fl::` -/
inductive Atom
  | text (s : Str)
  | number (negative : Bool) (s : Str)
  | name (negative qualified : Bool) (s : Str)
  deriving DecidableEq

/-- the arguments of a method: atoms, `new Class(…)`, or `Class::function(…)` -/
inductive Args
  | atoms (as : List Atom)
  | new (qualified : Bool) (cls : Str) (as : List Atom)
  | call (qualified : Bool) (cls function : Str) (as : List Atom)
  deriving DecidableEq

inductive Stmt
  /-- `using namespace fuzzylite` -/
  | usingNamespace
  /-- `T* x = new U` -/
  | declare (q1 : Bool) (c1 : Str) (x : Str) (q2 : Bool) (c2 : Str)
  /-- `x->method(…)` -/
  | call (x method : Str) (args : Args)
  deriving DecidableEq

/-- the pieces between the occurrences of a token; always at least one -/
def pieces (sep : Token) : List Token → List (List Token)
  | [] => [[]]
  | t :: ts =>
    if t = sep then [] :: pieces sep ts
    else match pieces sep ts with
    | p :: ps => (t :: p) :: ps
    | [] => [[t]]

/-- a name, with or without `fl::`, at the beginning -/
def path : List Token → Option (Bool × Str × List Token)
  | .ident a :: .sign [':', ':'] :: .ident b :: rest =>
    if a = cs! "fl" then some (true, b, rest) else some (false, a, .sign [':', ':'] :: .ident b :: rest)
  | .ident a :: rest => some (false, a, rest)
  | _ => none

def atom : List Token → Option Atom
  | [.text s] => some (.text s)
  | [.number s] => some (.number false s)
  | [.sign ['-'], .number s] => some (.number true s)
  | .sign ['-'] :: ts =>
    match path ts with
    | some (q, s, []) => some (.name true q s)
    | _ => none
  | ts =>
    match path ts with
    | some (q, s, []) => some (.name false q s)
    | _ => none

def atoms (ts : List Token) : Option (List Atom) :=
  if ts = [] then some [] else (pieces (.sign [',']) ts).mapM atom

/-- what is between parentheses, up to the end -/
def parenthesised : List Token → Option (List Token)
  | .sign ['('] :: ts => if ts.getLast? = some (.sign [')']) then some ts.dropLast else none
  | _ => none

def args (ts : List Token) : Option Args :=
  match path ts with
  | some (q, a, rest) =>
    if q = false ∧ a = cs! "new" then
      match path rest with
      | some (q, c, []) => some (.new q c [])
      | some (q, c, rest) => do
        let ts ← parenthesised rest
        let as ← atoms ts
        some (.new q c as)
      | none => none
    else match rest with
    | .sign [':', ':'] :: .ident f :: rest => do
      let ts ← parenthesised rest
      let as ← atoms ts
      some (.call q a f as)
    | _ => (atoms ts).map .atoms
  | none => (atoms ts).map .atoms

def stmt (ts : List Token) : Option Stmt :=
  match ts with
  | [.ident u, .ident n, .ident f] =>
    if u = cs! "using" ∧ n = cs! "namespace" ∧ f = cs! "fuzzylite" then some .usingNamespace else none
  | .ident x :: .sign ['-', '>'] :: .ident m :: rest => do
    let ts ← parenthesised rest
    let as ← args ts
    some (.call x m as)
  | ts =>
    match path ts with
    | some (q1, c1, .sign ['*'] :: .ident x :: .sign ['='] :: .ident n :: rest) =>
      match path rest with
      | some (q2, c2, []) => if n = cs! "new" then some (.declare q1 c1 x q2 c2) else none
      | _ => none
    | _ => none

/-- statements end with semicolons -/
def program (ts : List Token) : Option (List Stmt) :=
  let ps := pieces (.sign [';']) ts
  if ps.getLast? = some [] then ps.dropLast.mapM stmt else none

def parse (code : Str) : Option (List Stmt) := do
  let ts ← lex code
  program ts

/-! ### execution -/

inductive Fault
  /-- not a program of the fragment, or the compiler does not accept it -/
  | rejected
  /-- an exception, or undefined behaviour -/
  | raised (e : Err)
  deriving DecidableEq

/-- what a local variable points to; an engine holds the names of the local variables that point to
its components -/
inductive Obj (S : Type)
  | engine (name description : Str) (inputs outputs blocks : List Str)
  | input (v : Variable S)
  | output (v : OutputVariable S)
  | block (b : RuleBlock S)

/-- whether the namespace is used, and the local variables -/
structure Scope (S : Type) where
  opened : Bool
  locals : List (Str × Obj S)

namespace Scope

def find (s : Scope S) (x : Str) : Option (Obj S) := s.locals.lookup x

def declared (s : Scope S) (x : Str) : Bool := (s.find x).isSome

def set (s : Scope S) (x : Str) (o : Obj S) : Scope S :=
  { s with locals := s.locals.map fun p => if p.1 = x then (x, o) else p }

def input (s : Scope S) (x : Str) : Option (Variable S) :=
  match s.find x with
  | some (.input v) => some v
  | _ => none

def output (s : Scope S) (x : Str) : Option (OutputVariable S) :=
  match s.find x with
  | some (.output v) => some v
  | _ => none

def block (s : Scope S) (x : Str) : Option (RuleBlock S) :=
  match s.find x with
  | some (.block v) => some v
  | _ => none

/-- the engine that a local variable points to -/
def engine (s : Scope S) (x : Str) : Option (Engine S) :=
  match s.find x with
  | some (.engine n d is os bs) => some ⟨n, d, is.filterMap s.input, os.filterMap s.output, bs.filterMap s.block⟩
  | _ => none

/-- a name of the library is found: qualified, or through `using namespace` unless a local variable
hides it -/
def finds (s : Scope S) (qualified : Bool) (name : Str) : Bool := qualified || (s.opened && !s.declared name)

/-- before `::`, variables do not hide classes -/
def findsClass (s : Scope S) (qualified : Bool) : Bool := qualified || s.opened

end Scope

/-- keywords and alternative tokens of C++11 -/
def keywords : List Str :=
  [cs! "alignas", cs! "alignof", cs! "and", cs! "and_eq", cs! "asm", cs! "auto", cs! "bitand", cs! "bitor",
   cs! "bool", cs! "break", cs! "case", cs! "catch", cs! "char", cs! "char16_t", cs! "char32_t", cs! "class",
   cs! "compl", cs! "const", cs! "constexpr", cs! "const_cast", cs! "continue", cs! "decltype", cs! "default",
   cs! "delete", cs! "do", cs! "double", cs! "dynamic_cast", cs! "else", cs! "enum", cs! "explicit",
   cs! "export", cs! "extern", cs! "false", cs! "float", cs! "for", cs! "friend", cs! "goto", cs! "if",
   cs! "inline", cs! "int", cs! "long", cs! "mutable", cs! "namespace", cs! "new", cs! "noexcept", cs! "not",
   cs! "not_eq", cs! "nullptr", cs! "operator", cs! "or", cs! "or_eq", cs! "private", cs! "protected",
   cs! "public", cs! "register", cs! "reinterpret_cast", cs! "return", cs! "short", cs! "signed",
   cs! "sizeof", cs! "static", cs! "static_assert", cs! "static_cast", cs! "struct", cs! "switch",
   cs! "template", cs! "this", cs! "thread_local", cs! "throw", cs! "true", cs! "try", cs! "typedef",
   cs! "typeid", cs! "typename", cs! "union", cs! "unsigned", cs! "using", cs! "virtual", cs! "void",
   cs! "volatile", cs! "wchar_t", cs! "while", cs! "xor", cs! "xor_eq"]

/-- the value of a decimal integer literal: not beginning with `0`, which would be octal -/
def whole (s : Str) : Option Nat :=
  if s.all isDigit && (s.length == 1 || s.head? != some '0') && !s.isEmpty then
    some (s.foldl (fun n c => 10 * n + (c.toNat - '0'.toNat)) 0)
  else none

/-- a decimal floating literal without exponent and suffix, with digits before the point -/
def isFloating (s : Str) : Bool :=
  let p := s.takeWhile isDigit
  let r := s.dropWhile isDigit
  !p.isEmpty && r.head? == some '.' && r.tail.all isDigit

/-- the value of an atom of type `int` -/
def intOf : Atom → Option Int
  | .number n s => do
    let k ← whole s
    let i : Int := if n then -(k : Int) else k
    if -2147483648 ≤ i ∧ i ≤ 2147483647 then some i else none
  | _ => none

/-- the value of an atom that converts to `scalar`.  `nan` without `fl::` is ambiguous: it is also a
function of the C library. -/
def scalarOf [ScalarText S] (s : Scope S) : Atom → Option S
  | .number n t =>
    if isFloating t || (whole t).isSome then (ScalarText.ofText t).map fun x : S => if n then -x else x else none
  | .name n q t =>
    if t = cs! "inf" ∧ s.finds q t = true then some (if n then -inf else inf)
    else if t = cs! "nan" ∧ q = true then some (if n then -nan else nan)
    else none
  | .text _ => none

/-- an atom of type `scalar` (`double`), as variable arguments need -/
def isScalar : Atom → Bool
  | .number _ t => isFloating t
  | .name _ _ _ => true
  | .text _ => false

def boolOf : Atom → Option Bool
  | .name false false t => if t = cs! "true" then some true else if t = cs! "false" then some false else none
  | _ => none

def isNull (s : Scope S) : Atom → Bool
  | .name false q t => t == cs! "null" && s.finds q t
  | _ => false

/-! ### constructors of the library -/

/-- constructors of the parametric shapes with their default arguments: the shape, given the values of
the parameters in order, and the number of parameters before `height`.  fuzzylite/term/Bell.h:43-49,
Binary.h:56-58, Concave.h:41-43, Cosine.h:42-44, Gaussian.h:42-44, GaussianProduct.h:44-51,
PiShape.h:44-51, Ramp.h:50, Rectangle.h:41-43, SShape.h:41-43, Sigmoid.h:52-54,
SigmoidDifference.h:44-51, SigmoidProduct.h:44-51, Spike.h:41-43, Trapezoid.h:41-48 and
src/term/Trapezoid.cpp:22-36, Triangle.h:43-49 and src/term/Triangle.cpp:22-31, ZShape.h:42-44. -/
def shapeOf [Scalar S] (cls : Str) (p : Nat → S) : Option (Shape S × Nat) :=
  if cls = cs! "Bell" then some (.bell (p 0) (p 1) (p 2), 3)
  else if cls = cs! "Binary" then some (.binary (p 0) (p 1), 2)
  else if cls = cs! "Concave" then some (.concave (p 0) (p 1), 2)
  else if cls = cs! "Cosine" then some (.cosine (p 0) (p 1), 2)
  else if cls = cs! "Gaussian" then some (.gaussian (p 0) (p 1), 2)
  else if cls = cs! "GaussianProduct" then some (.gaussianProduct (p 0) (p 1) (p 2) (p 3), 4)
  else if cls = cs! "PiShape" then some (.piShape (p 0) (p 1) (p 2) (p 3), 4)
  else if cls = cs! "Ramp" then some (.ramp (p 0) (p 1), 2)
  else if cls = cs! "Rectangle" then some (.rectangle (p 0) (p 1), 2)
  else if cls = cs! "SShape" then some (.sShape (p 0) (p 1), 2)
  else if cls = cs! "Sigmoid" then some (.sigmoid (p 0) (p 1), 2)
  else if cls = cs! "SigmoidDifference" then some (.sigmoidDifference (p 0) (p 1) (p 2) (p 3), 4)
  else if cls = cs! "SigmoidProduct" then some (.sigmoidProduct (p 0) (p 1) (p 2) (p 3), 4)
  else if cls = cs! "Spike" then some (.spike (p 0) (p 1), 2)
  else if cls = cs! "Trapezoid" then
    some (if Op.isNaN (p 2) && Op.isNaN (p 3) then
        .trapezoid (p 0) (p 0 + (p 1 - p 0) * lit 1 / lit 5) (p 0 + (p 1 - p 0) * lit 4 / lit 5) (p 1)
      else .trapezoid (p 0) (p 1) (p 2) (p 3), 4)
  else if cls = cs! "Triangle" then
    some (if Op.isNaN (p 2) then .triangle (p 0) (lit (1/2) * (p 0 + p 1)) (p 1)
      else .triangle (p 0) (p 1) (p 2), 3)
  else if cls = cs! "ZShape" then some (.zShape (p 0) (p 1), 2)
  else none

/-- `new Class(name, values…)` for a term; fuzzylite/term/Constant.h:39 has no height -/
def newTerm [Scalar S] (cls name : Str) (xs : List S) : Option (Term S) :=
  if cls = cs! "Constant" then
    if xs.length ≤ 1 then some ⟨name, lit 1, .constant (xs.getD 0 nan)⟩ else none
  else match shapeOf cls fun i => xs.getD i nan with
  | some (sh, k) => if xs.length ≤ k + 1 then some ⟨name, xs.getD k (lit 1), .shape sh⟩ else none
  | none => none

/-- the values that `va_arg` reads after the first: all must have the type of the first -/
def variable_ [ScalarText S] (s : Scope S) (n : Nat) (as : List Atom) : Except Fault (List S) :=
  match as.mapM (scalarOf s) with
  | none => .error .rejected
  | some xs =>
    if as.length < n then .error (.raised .ub)
    else if (as.take n).all fun a => isScalar a == isScalar (as.headD a) then .ok (xs.take n)
    else .error (.raised .ub)

/-- `Discrete::create(name, argc, x1, y1, …)`, fuzzylite/term/Discrete.h:266-286.  `x1` and `y1` must
be of one type. -/
def createDiscrete [ScalarText S] (s : Scope S) (name : Str) (argc : Int) (as : List Atom) :
    Except Fault (Term S) :=
  match as with
  | a :: b :: _ =>
    if isScalar a != isScalar b ∨ argc < 0 then .error .rejected
    else if argc < 2 then .error (.raised .outOfRange)
    else do
      let xs ← variable_ s argc.toNat as
      let h : S := if xs.length % 2 ≠ 0 then xs.getLastD (lit 1) else lit 1
      let xs := if xs.length % 2 ≠ 0 then xs.dropLast else xs
      match Discrete.toPairs xs with
      | .ok xy => .ok ⟨name, h, .discrete xy⟩
      | .error e => .error (.raised e)
  | _ => .error .rejected

/-- `Linear::create(name, engine, c1, …)`, fuzzylite/term/Linear.h:164-187 -/
def createLinear [ScalarText S] (s : Scope S) (name : Str) (e : Engine S) (as : List Atom) : Except Fault (Term S) :=
  match as with
  | [] => .error .rejected
  | _ => do
    let xs ← variable_ s (e.inputs.length + 1) as
    .ok ⟨name, lit 1, .linear xs true⟩

/-- `Function::create(name, formula, engine)`, src/term/Function.cpp:419-423 -/
def createFunction [ScalarText S] (F : ElementFactory S) (name formula : Str) (e : Engine S) : Except Fault (Term S) :=
  match (⟨[], none, false, fun _ => none⟩ : Fun S).load F formula true e.world.ctx with
  | (f, none) => .ok ⟨name, lit 1, .function f⟩
  | (_, some err) => .error (.raised err)

/-- `Rule::parse(text, engine)`, src/rule/Rule.cpp:249-253 -/
def parseRule [ScalarText S] (G : Registry S) (text : Str) (e : Engine S) : Except Fault (Rule S) :=
  match (Rule.new []).load G e.world.vocabulary text with
  | (r, none) => .ok r
  | (_, some err) => .error (.raised err)

def orReject {α : Type} : Option α → Except Fault α
  | some a => .ok a
  | none => .error .rejected

/-- an argument of type `Term*` -/
def termArg [ScalarText S] (F : ElementFactory S) (s : Scope S) : Args → Except Fault (Term S)
  | .new q c (.text n :: as) =>
    if s.finds q c then
      match as.mapM (scalarOf s) with
      | some xs => orReject (newTerm c n xs)
      | none => .error .rejected
    else .error .rejected
  | .call q c f (.text n :: as) =>
    if s.findsClass q = true ∧ f = cs! "create" then
      if c = cs! "Discrete" then
        match as with
        | k :: as =>
          match intOf k with
          | some argc => createDiscrete s n argc as
          | none => .error .rejected
        | [] => .error .rejected
      else if c = cs! "Linear" then
        match as with
        | .name false false x :: as =>
          match s.engine x with
          | some e => createLinear s n e as
          | none => .error .rejected
        | _ => .error .rejected
      else if c = cs! "Function" then
        match as with
        | [.text formula, .name false false x] =>
          match s.engine x with
          | some e => createFunction F n formula e
          | none => .error .rejected
        | _ => .error .rejected
      else .error .rejected
    else .error .rejected
  | _ => .error .rejected

/-- an argument of type `Rule*` -/
def ruleArg [ScalarText S] (G : Registry S) (s : Scope S) : Args → Except Fault (Rule S)
  | .call q c f [.text t, .name false false x] =>
    if s.findsClass q = true ∧ f = cs! "parse" ∧ c = cs! "Rule" then
      match s.engine x with
      | some e => parseRule G t e
      | none => .error .rejected
    else .error .rejected
  | _ => .error .rejected

/-- an argument of type `TNorm*`; the default argument of `TNormFunction` is the empty formula,
fuzzylite/norm/t/TNormFunction.h:44 -/
def tnormArg [Scalar S] (s : Scope S) : Args → Except Fault (Option (TNorm S))
  | .atoms [a] => if isNull s a then .ok none else .error .rejected
  | .new q c [] =>
    if s.finds q c then
      if c = cs! "TNormFunction" then .ok (some (.function ⟨[], none, false, fun _ => none⟩))
      else match TNormKind.registered.find? fun k => k.className == c with
      | some k => .ok (some (.builtin k))
      | none => .error .rejected
    else .error .rejected
  | _ => .error .rejected

/-- an argument of type `SNorm*`, fuzzylite/norm/s/SNormFunction.h:44 -/
def snormArg [Scalar S] (s : Scope S) : Args → Except Fault (Option (SNorm S))
  | .atoms [a] => if isNull s a then .ok none else .error .rejected
  | .new q c [] =>
    if s.finds q c then
      if c = cs! "SNormFunction" then .ok (some (.function ⟨[], none, false, fun _ => none⟩))
      else match SNormKind.registered.find? fun k => k.className == c with
      | some k => .ok (some (.builtin k))
      | none => .error .rejected
    else .error .rejected
  | _ => .error .rejected

/-- `WeightedDefuzzifier(const std::string& type)`, src/defuzzifier/WeightedDefuzzifier.cpp:38-42 -/
def weightedType (t : Str) : WeightedType :=
  if t = cs! "TakagiSugeno" then .takagiSugeno
  else if t = cs! "Tsukamoto" then .tsukamoto
  else .automatic

/-- an argument of type `Defuzzifier*` -/
def defuzzifierArg (s : Scope S) : Args → Except Fault (Option Defuzzifier)
  | .atoms [a] => if isNull s a then .ok none else .error .rejected
  | .new q c [a] =>
    if s.finds q c then
      match (Defuzzifier.registered 0).find? fun d => d.className == c with
      | some (.integral k _) =>
        match intOf a with
        | some r => .ok (some (.integral k r))
        | none => .error .rejected
      | some (.weighted k _) =>
        match a with
        | .text t => .ok (some (.weighted k (weightedType t)))
        | _ => .error .rejected
      | none => .error .rejected
    else .error .rejected
  | _ => .error .rejected

/-- an argument of type `Activation*`: fuzzylite/activation/First.h:44, Last.h:45, Highest.h:42,
Lowest.h:42, src/activation/Threshold.cpp:31-34 -/
def activationArg [ScalarText S] (s : Scope S) : Args → Except Fault (Option (Activation S))
  | .atoms [a] => if isNull s a then .ok none else .error .rejected
  | .new q c as =>
    if s.finds q c then
      match (Activation.registered (S := S)).find? fun d => d.className == c with
      | none => .error .rejected
      | some d =>
        match d, as with
        | .general, [] => .ok (some .general)
        | .proportional, [] => .ok (some .proportional)
        | .first _ _, [a, b] =>
          match intOf a, scalarOf s b with
          | some n, some t => .ok (some (.first n t))
          | _, _ => .error .rejected
        | .last _ _, [a, b] =>
          match intOf a, scalarOf s b with
          | some n, some t => .ok (some (.last n t))
          | _, _ => .error .rejected
        | .highest _, [a] =>
          match intOf a with
          | some n => .ok (some (.highest n))
          | none => .error .rejected
        | .lowest _, [a] =>
          match intOf a with
          | some n => .ok (some (.lowest n))
          | none => .error .rejected
        | .threshold _ _, [.text c, b] =>
          match scalarOf s b with
          | some t =>
            match Comparison.parse c with
            | .ok c => .ok (some (.threshold c t))
            | .error e => .error (.raised e)
          | none => .error .rejected
        | _, _ => .error .rejected
    else .error .rejected
  | _ => .error .rejected

def textArg : Args → Except Fault Str
  | .atoms [.text t] => .ok t
  | _ => .error .rejected

def boolArg : Args → Except Fault Bool
  | .atoms [a] => orReject (boolOf a)
  | _ => .error .rejected

def scalarArg [ScalarText S] (s : Scope S) : Args → Except Fault S
  | .atoms [a] => orReject (scalarOf s a)
  | _ => .error .rejected

def rangeArg [ScalarText S] (s : Scope S) : Args → Except Fault (S × S)
  | .atoms [a, b] => do
    let x ← orReject (scalarOf s a)
    let y ← orReject (scalarOf s b)
    .ok (x, y)
  | _ => .error .rejected

def nameArg : Args → Except Fault Str
  | .atoms [.name false false x] => .ok x
  | _ => .error .rejected

/-! ### methods -/

/-- methods of `InputVariable`: src/variable/Variable.cpp:80-131 and 217-219 -/
def inputCall [ScalarText S] (G : Registry S) (s : Scope S) (v : Variable S) (m : Str) (as : Args) :
    Except Fault (Variable S) :=
  if m = cs! "setName" then do
    let t ← textArg as
    .ok { v with name := t }
  else if m = cs! "setDescription" then do
    let t ← textArg as
    .ok { v with description := t }
  else if m = cs! "setEnabled" then do
    let b ← boolArg as
    .ok { v with enabled := b }
  else if m = cs! "setRange" then do
    let r ← rangeArg s as
    .ok (v.setRange r.1 r.2)
  else if m = cs! "setLockValueInRange" then do
    let b ← boolArg as
    .ok (v.setLockRange b)
  else if m = cs! "addTerm" then do
    let t ← termArg G.functions s as
    .ok (v.addTerm t)
  else .error .rejected

/-- methods of `OutputVariable`: src/variable/OutputVariable.cpp:63-120 and those of `Variable`; `setRange`
calls the virtual methods `setMinimum` and `setMaximum` -/
def outputCall [ScalarText S] (G : Registry S) (s : Scope S) (v : OutputVariable S) (m : Str) (as : Args) :
    Except Fault (OutputVariable S) :=
  if m = cs! "setName" then do
    let t ← textArg as
    .ok (v.setName t)
  else if m = cs! "setDescription" then do
    let t ← textArg as
    .ok { v with description := t }
  else if m = cs! "setEnabled" then do
    let b ← boolArg as
    .ok { v with enabled := b }
  else if m = cs! "setRange" then do
    let r ← rangeArg s as
    .ok ((v.setMinimum r.1).setMaximum r.2)
  else if m = cs! "setLockValueInRange" then do
    let b ← boolArg as
    .ok { v with lockRange := b }
  else if m = cs! "setAggregation" then do
    let k ← snormArg s as
    .ok { v with fuzzy := { v.fuzzy with aggregation := k } }
  else if m = cs! "setDefuzzifier" then do
    let d ← defuzzifierArg s as
    .ok { v with defuzzifier := d }
  else if m = cs! "setDefaultValue" then do
    let x ← scalarArg s as
    .ok { v with default := x }
  else if m = cs! "setLockPreviousValue" then do
    let b ← boolArg as
    .ok { v with lockPrevious := b }
  else if m = cs! "addTerm" then do
    let t ← termArg G.functions s as
    .ok { v with terms := v.terms ++ [t] }
  else .error .rejected

/-- methods of `RuleBlock`: src/rule/RuleBlock.cpp:125-187 and fuzzylite/rule/RuleBlock.h -/
def blockCall [ScalarText S] (G : Registry S) (s : Scope S) (b : RuleBlock S) (m : Str) (as : Args) :
    Except Fault (RuleBlock S) :=
  if m = cs! "setName" then do
    let t ← textArg as
    .ok { b with name := t }
  else if m = cs! "setDescription" then do
    let t ← textArg as
    .ok { b with description := t }
  else if m = cs! "setEnabled" then do
    let y ← boolArg as
    .ok { b with enabled := y }
  else if m = cs! "setConjunction" then do
    let k ← tnormArg s as
    .ok { b with conjunction := k }
  else if m = cs! "setDisjunction" then do
    let k ← snormArg s as
    .ok { b with disjunction := k }
  else if m = cs! "setImplication" then do
    let k ← tnormArg s as
    .ok { b with implication := k }
  else if m = cs! "setActivation" then do
    let a ← activationArg s as
    .ok { b with activation := a }
  else if m = cs! "addRule" then do
    let r ← ruleArg G s as
    .ok { b with rules := b.rules ++ [r] }
  else .error .rejected

/-- methods of `Engine`: src/Engine.cpp:504-518, 532-534, 631-633, 723-725 -/
def engineCall (s : Scope S) (n d : Str) (is os bs : List Str) (m : Str) (as : Args) : Except Fault (Obj S) :=
  if m = cs! "setName" then do
    let t ← textArg as
    .ok (.engine t d is os bs)
  else if m = cs! "setDescription" then do
    let t ← textArg as
    .ok (.engine n t is os bs)
  else if m = cs! "addInputVariable" then do
    let x ← nameArg as
    if (s.input x).isSome then .ok (.engine n d (is ++ [x]) os bs) else .error .rejected
  else if m = cs! "addOutputVariable" then do
    let x ← nameArg as
    if (s.output x).isSome then .ok (.engine n d is (os ++ [x]) bs) else .error .rejected
  else if m = cs! "addRuleBlock" then do
    let x ← nameArg as
    if (s.block x).isSome then .ok (.engine n d is os (bs ++ [x])) else .error .rejected
  else .error .rejected

/-- `new Class` for the classes of local variables: src/Engine.cpp:27-34, src/variable/Variable.cpp:31-39,
src/variable/OutputVariable.cpp:24-31, src/rule/RuleBlock.cpp:28-45; the default range is the real line,
fuzzylite/variable/Variable.h:62 -/
def newObj [Scalar S] (cls : Str) : Option (Obj S) :=
  if cls = cs! "Engine" then some (.engine [] [] [] [] [])
  else if cls = cs! "InputVariable" then some (.input (Variable.new [] ninf inf []))
  else if cls = cs! "OutputVariable" then some (.output (OutputVariable.new [] ninf inf []))
  else if cls = cs! "RuleBlock" then some (.block (RuleBlock.new []))
  else none

/-- one statement.  In `T* x = new U`, the name `x` is declared when `U` is looked up. -/
def exec [ScalarText S] (G : Registry S) (s : Scope S) : Stmt → Except Fault (Scope S)
  | .usingNamespace => .ok { s with opened := true }
  | .declare q1 c1 x q2 c2 =>
    if s.finds q1 c1 = true ∧ s.finds q2 c2 = true ∧ (q2 = true ∨ c2 ≠ x) ∧ c1 = c2 ∧ x ∉ keywords ∧ s.declared x = false then
      match newObj c1 with
      | some o => .ok { s with locals := s.locals ++ [(x, o)] }
      | none => .error .rejected
    else .error .rejected
  | .call x m as =>
    match s.find x with
    | some (.engine n d is os bs) => do
      let o ← engineCall s n d is os bs m as
      .ok (s.set x o)
    | some (.input v) => do
      let v ← inputCall G s v m as
      .ok (s.set x (.input v))
    | some (.output v) => do
      let v ← outputCall G s v m as
      .ok (s.set x (.output v))
    | some (.block b) => do
      let b ← blockCall G s b m as
      .ok (s.set x (.block b))
    | none => .error .rejected

/-- the engine that the local variable `engine` points to after the statements of a text.  Simplified: the
first fault in the order of the statements is the outcome, so a text whose outcome is an exception may
still be rejected for a later statement. -/
def execute [ScalarText S] (G : Registry S) (code : Str) : Except Fault (Engine S) := do
  let ss ← orReject (parse code)
  let s ← ss.foldlM (exec G) (⟨false, []⟩ : Scope S)
  orReject (s.engine (cs! "engine"))

end FL.Cpp
