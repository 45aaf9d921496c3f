/-
Decimal text of rational scalars: an executable instance of `ScalarText`, used for concrete
examples and to show that the hypotheses on conversions in the theorems can be met.
-/
import Verif.Model.Ext
import Verif.Model.Formula

namespace FL
namespace Decimal

/-- value of a digit -/
def digit (c : Char) : Nat := c.toNat - '0'.toNat

/-- the number written by digits, after `acc` -/
def readNat (acc : Nat) (s : Str) : Nat := s.foldl (fun a c => a * 10 + digit c) acc

/-- an exponent `[+-]digits`; `none` when malformed -/
def readExp : Str → Option Int
  | [] => none
  | '-' :: s => if s.isEmpty || !s.all Char.isDigit then none else some (- (readNat 0 s : Int))
  | '+' :: s => if s.isEmpty || !s.all Char.isDigit then none else some (readNat 0 s : Int)
  | s => if s.all Char.isDigit then some (readNat 0 s : Int) else none

/-- `std::istream >> double` followed by the check that nothing is left: digits with an optional
fraction and exponent. -/
def readUnsigned (s : Str) : Option ℚ :=
  let whole := s.takeWhile Char.isDigit
  let rest := s.dropWhile Char.isDigit
  let frac := match rest with | '.' :: r => r.takeWhile Char.isDigit | _ => []
  let rest' := match rest with | '.' :: r => r.dropWhile Char.isDigit | _ => rest
  if whole.isEmpty && frac.isEmpty then none
  else
    let mantissa : ℚ := (readNat (readNat 0 whole) frac : ℚ) / (10 ^ frac.length : ℕ)
    match rest' with
    | [] => some mantissa
    | c :: e =>
      if c == 'e' || c == 'E' then
        match readExp e with
        | some (Int.ofNat k) => some (mantissa * (10 ^ k : ℕ))
        | some (Int.negSucc k) => some (mantissa / (10 ^ (k + 1) : ℕ))
        | none => none
      else none

/-- `Op::toScalar`, fuzzylite/Operation.h:918-942. -/
def ofText (s : Str) : Option (Ext ℚ) :=
  if s = cs! "nan" then some .nan
  else if s = cs! "inf" then some .pinf
  else if s = cs! "-inf" then some .ninf
  else match s with
  | '-' :: r => (readUnsigned r).map fun q => .fin (-q)
  | '+' :: r => (readUnsigned r).map .fin
  | s => (readUnsigned s).map .fin

/-- decimal digits of `n` -/
def digits (n : Nat) : Str := Nat.toDigits 10 n

/-- `n` thousandths with three decimals -/
def thousandths (n : Nat) : Str :=
  digits (n / 1000) ++ cs! "." ++ digits (n % 1000 / 100) ++ digits (n % 100 / 10) ++ digits (n % 10)

/-- the integer nearest to a non-negative rational, ties to even -/
def nearest (q : ℚ) : Nat :=
  let n := q.floor.toNat
  let d := q - n
  if d < 1/2 then n else if 1/2 < d then n + 1 else if n % 2 = 0 then n else n + 1

/-- `Op::str` with three decimals, fuzzylite/Operation.h:1005-1022. -/
def str : Ext ℚ → Str
  | .nan => cs! "nan"
  | .pinf => cs! "inf"
  | .ninf => cs! "-inf"
  | .fin q =>
    if |q| < 1/1000 then cs! "0.000"
    else if q < 0 then '-' :: thousandths (nearest (-q * 1000))
    else thousandths (nearest (q * 1000))

end Decimal

instance instScalarTextRat : ScalarText (Ext ℚ) where
  ofText := Decimal.ofText
  str := Decimal.str

end FL
