/-
The interactive console (src/Console.cpp:351-463).
-/
import Verif.Model.Data

namespace FL
open Scalar
variable {S : Type}

/-- `std::isgraph` in the C locale -/
def isGraph (c : Char) : Bool := '!' ≤ c && c ≤ '~'

namespace Console

/-- the separator of values, src/Console.cpp:355 -/
def space : Str := cs! "\t"

/-- The variables of the loop of `Console::interactive`, src/Console.cpp:352-358: the engine,
`inputValues`, `inputValue` and `buffer`, and the text that was written. -/
structure Session (S : Type) where
  engine : Engine S
  values : List S
  typed : Str
  buffer : Str
  written : Str

/-- `Console::interactiveHelp`, src/Console.cpp:454-463. -/
def interactiveHelp : Str :=
  cs! "#Special Keys\n" ++
  cs! "#=============\n" ++
  cs! "#\tR\tRestart engine and discard current inputs\n" ++
  cs! "#\tD\tDiscard current inputs\n" ++
  cs! "#\tP\tProcess engine\n" ++
  cs! "#\tQ\tQuit interactive console\n" ++
  cs! "#\tH\tShow this help\n" ++
  cs! "#=============\n"

/-- src/Console.cpp:428-434: the engine is processed, and every output variable is defuzzified once
more. -/
def evaluate [Scalar S] [Heap S] (e : Engine S) : Engine S × Option Err :=
  match e.process with
  | (e, some err) => (e, some err)
  | (e, none) =>
    match Engine.defuzzifyAll e.inputs [] e.outputs with
    | (os, err) => ({ e with outputs := os }, err)

/-- the case `'P'`, src/Console.cpp:408-439.  Undefined behaviour is not an exception, and is passed
on.  Messages are not modelled elsewhere, so `message` gives that of every exception. -/
def press [ScalarText S] [Heap S] (message : Err → Str) (s : Session S) : Except Err (Session S) :=
  let e := s.engine.setInputs s.values
  let missing := (e.inputs.drop s.values.length).map fun v => v.value
  let shown := s.buffer ++ Op.join (missing.map ScalarText.str) space
    ++ (if missing.isEmpty then [] else space) ++ cs! "=" ++ space
  match evaluate e with
  | (_, some .ub) => .error .ub
  | (e, some err) =>
    .ok { s with engine := e, values := [], typed := [], buffer := shown ++ cs! "#[Error: " ++ message err ++ cs! "]" }
  | (e, none) =>
    .ok { s with engine := e, values := [], typed := [],
                 buffer := shown ++ Op.join (e.outputValues.map ScalarText.str) space ++ cs! "\n>" }

/-- the `switch`, src/Console.cpp:392-450, for a character with `isgraph`: the session afterwards, and
whether the loop goes on -/
def command [ScalarText S] [Heap S] (message : Err → Str) (s : Session S) (c : Char) :
    Except Err (Session S × Bool) :=
  if c = 'r' ∨ c = 'R' then
    .ok ({ s with engine := s.engine.restart, buffer := s.buffer ++ cs! "#[Restart]" }, true)
  else if c = 'd' ∨ c = 'D' then
    .ok ({ s with values := [], typed := [], buffer := s.buffer ++ cs! "#[Discard]\n>" }, true)
  else if c = 'p' ∨ c = 'P' then do
    let s ← press message s
    .ok (s, true)
  else if c = 'q' ∨ c = 'Q' then
    .ok ({ s with buffer := s.buffer ++ cs! "#[Quit]\n" }, false)
  else if c = 'h' ∨ c = 'H' then
    .ok ({ s with typed := [], buffer := s.buffer ++ cs! "\n>" ++ interactiveHelp ++ cs! "\n>" }, true)
  else .ok ({ s with typed := s.typed ++ [c], buffer := s.buffer ++ [c] }, true)

/-- one iteration of the loop, src/Console.cpp:360-450, for the character `c` read: the session
afterwards, and whether the loop goes on -/
def step [ScalarText S] [Heap S] (message : Err → Str) (s : Session S) (c : Char) :
    Except Err (Session S × Bool) :=
  let s : Session S := { s with written := s.written ++ s.buffer, buffer := [] }
  if isSpace c then
    match s.engine.inputs[s.values.length]? with
    | none => .error .outOfRange
    | some v =>
      let s : Session S :=
        match (ScalarText.ofText s.typed : Option S) with
        | some x => { s with values := s.values ++ [x], typed := [], buffer := space }
        | none => { s with values := s.values ++ [v.value], typed := [],
                           buffer := cs! "[" ++ ScalarText.str v.value ++ cs! "]" ++ space }
      if s.values.length = s.engine.inputs.length then command message s 'P'
      else .ok (s, true)
  else if !isGraph c then .ok (s, c != '\x04')
  else command message s c

/-- the loop, for the characters that `readCharacter` will return (then `EOF`): the session
afterwards, and whether the loop goes on.  `buffer` is written at the beginning of an iteration, also of
that which meets `EOF`. -/
def loop [ScalarText S] [Heap S] (message : Err → Str) : Session S → List Char → Except Err (Session S × Bool)
  | s, [] => .ok (s, true)
  | s, c :: cs =>
    match step message s c with
    | .error err => .error err
    | .ok (s, false) => .ok (s, false)
    | .ok (s, true) => loop message s cs

/-- the session before the loop, src/Console.cpp:352-358 -/
def start (e : Engine S) : Session S := ⟨e, [], [], cs! ">", []⟩

/-- `Console::interactive`, src/Console.cpp:351-452, for the characters typed: the engine afterwards
and the text written, or the exception.  Simplified: the copy of the text for `std::cout` is not modelled
(it is the same text without the last line feed). -/
def interactive [ScalarText S] [Heap S] (message : Err → Str) (e : Engine S) (keys : List Char) :
    Except Err (Engine S × Str) :=
  match loop message (start e) keys with
  | .error err => .error err
  | .ok (s, true) => .ok (s.engine, s.written ++ s.buffer ++ cs! "\n")
  | .ok (s, false) => .ok (s.engine, s.written ++ cs! "\n")

end Console
end FL
