/-
Text part of `Operation` (alias `Op`), fuzzylite/Operation.h.

`std::string` is a list of characters.  Simplified: the character classes are
those of the C locale on ASCII; for other characters `std::isspace(char)` and
`isalnum(char)` depend on the locale (and are undefined for negative `char`),
and are taken to be false here.
-/
import Verif.Model.Scalar

namespace FL

/-- `std::string` -/
abbrev Str := List Char

/-- explicit character list of a string literal -/
macro "cs!" s:str : term => do
  let cs := s.getString.toList.map fun c => Lean.Syntax.mkCharLit c
  `([$(cs.toArray),*])

/-- `std::isspace` in the C locale -/
def isSpace (c : Char) : Bool :=
  c == ' ' || c == '\t' || c == '\n' || c == '\x0b' || c == '\x0c' || c == '\r'

/-- `isalnum` in the C locale -/
def isAlnum (c : Char) : Bool :=
  ('0' ≤ c && c ≤ '9') || ('a' ≤ c && c ≤ 'z') || ('A' ≤ c && c ≤ 'Z')

namespace Op

/-- `std::search` / `std::string::find` for the first occurrence of `d`: the text before it
and the text after it; `none` when it does not occur. -/
def search (d : Str) : Str → Option (Str × Str)
  | [] => if d.isEmpty then some ([], []) else none
  | c :: cs =>
    if d.isPrefixOf (c :: cs) then some ([], (c :: cs).drop d.length)
    else match search d cs with
      | some (p, r) => some (c :: p, r)
      | none => none

/-- the loop of `Operation::split`, fuzzylite/Operation.h:876-884; the first argument bounds the
number of iterations (one more than the length of the text is enough, every iteration but the last
consumes the non-empty delimiter). -/
def splitLoop (d : Str) (ignoreEmpty : Bool) : Nat → Str → List Str
  | 0, _ => []
  | n + 1, s =>
    match search d s with
    | none => if s.isEmpty && ignoreEmpty then [] else [s]
    | some (p, r) =>
      (if p.isEmpty && ignoreEmpty then [] else [p]) ++ splitLoop d ignoreEmpty n r

/-- `Operation::split`, fuzzylite/Operation.h:869-886. -/
def split (s d : Str) (ignoreEmpty : Bool) : List Str :=
  if s.isEmpty || d.isEmpty then [s] else splitLoop d ignoreEmpty (s.length + 1) s

/-- `Operation::join` on strings, fuzzylite/Operation.h:1042-1051. -/
def join (xs : List Str) (sep : Str) : Str :=
  match xs with
  | [] => []
  | [x] => x
  | x :: y :: ys => x ++ sep ++ join (y :: ys) sep

/-- `Operation::trim`, fuzzylite/Operation.h:888-902.  Simplified: the two index loops are
`dropWhile` from the left and from the right. -/
def trim (text : Str) : Str :=
  match text with
  | [] => text
  | c :: cs =>
    if !(isSpace c || isSpace ((c :: cs).getLast (by simp))) then text
    else (((text.dropWhile isSpace).reverse).dropWhile isSpace).reverse

/-- `c == '_' or c == '.' or isalnum(c)`, fuzzylite/Operation.h:838. -/
def isNameChar (c : Char) : Bool := c == '_' || c == '.' || isAlnum c

/-- `Operation::validName`, fuzzylite/Operation.h:832-842. -/
def validName (name : Str) : Str :=
  if (trim name).isEmpty then cs! "_" else name.filter isNameChar

/-- the loop of `Operation::findReplace`, fuzzylite/Operation.h:844-857, with a bound on the
number of iterations; `none` when the bound is exhausted. -/
def findReplaceLoop (find replace : Str) (replaceAll : Bool) : Nat → Str → Option Str
  | 0, _ => none
  | n + 1, s =>
    match search find s with
    | none => some s
    | some (p, r) =>
      if replaceAll then
        (findReplaceLoop find replace replaceAll n r).map fun t => p ++ replace ++ t
      else some (p ++ replace)

/-- `Operation::findReplace`, fuzzylite/Operation.h:844-857; `none` stands for non-termination
(see `findReplace_diverges`: with an empty `find` and `replaceAll` the loop never ends). -/
def findReplace (s find replace : Str) (replaceAll : Bool) : Option Str :=
  findReplaceLoop find replace replaceAll (s.length + 1) s

/-- `Operation::format`, fuzzylite/Operation.h:904-916. -/
def format (text : Str) (matchesChar : Char → Bool) (replacement : Str) : Str :=
  text.flatMap fun c => if matchesChar c then [c] else replacement

/-- tokens of `std::istringstream >> token`: maximal blank-free pieces -/
def wordsAux : Str → Str → List Str
  | acc, [] => if acc.isEmpty then [] else [acc.reverse]
  | acc, c :: cs =>
    if isSpace c then (if acc.isEmpty then wordsAux [] cs else acc.reverse :: wordsAux [] cs)
    else wordsAux (c :: acc) cs

/-- `std::istringstream tokenizer(text); while (tokenizer >> token)` -/
def words (text : Str) : List Str := wordsAux [] text

/-- `Operation::increment(x, position, min, max)` for `position >= 0`,
fuzzylite/Operation.h:768-783; `none` is the exception of `std::vector::at`. -/
def incrementAt (mn mx : List Int) : List Int → Nat → Option (List Int × Bool)
  | x, p =>
    match x[p]?, mx[p]? with
    | some xp, some mp =>
      if xp < mp then some (x.set p (xp + 1), true)
      else
        match mn[p]? with
        | none => none
        | some lo =>
          match p with
          | 0 => some (x.set 0 lo, false)
          | q + 1 => incrementAt mn mx (x.set (q + 1) lo) q
    | _, _ => none

/-- `Operation::increment(x, min, max)`, fuzzylite/Operation.h:764-766. -/
def increment (x mn mx : List Int) : Option (List Int × Bool) :=
  match x.length with
  | 0 => some (x, false)
  | n + 1 => incrementAt mn mx x n

end Op
end FL
