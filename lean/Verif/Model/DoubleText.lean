/-
Text of numbers in rounded arithmetic: `Op::str` and `Op::toScalar` of `double`, for every number of
decimals, and the conversion to `int`.
-/
import Verif.Model.Binary64
import Verif.Model.Decimal
import Verif.Model.Benchmark

namespace FL
open Scalar

/-- `fuzzylite::decimals()`, src/fuzzylite.cpp:22 and fuzzylite/fuzzylite.h:440-446.
Simplified: from 0 to 300 (a negative number selects another format, Operation.h:1010-1011, and beyond 323
the tolerance of `Op::str` underflows). -/
class Decimals where
  decimals : Nat
  bound : decimals ≤ 300

/-- the default is three decimals, src/fuzzylite.cpp:22 -/
@[instance_reducible] def Decimals.default : Decimals := ⟨3, by decide⟩

namespace Decimal

/-- the last `k` decimal digits of `n` -/
def padded : Nat → Nat → Str
  | 0, _ => []
  | k + 1, n => (n / 10 ^ k % 10).digitChar :: padded k n

/-- the number `n / 10 ^ d` with `d` decimals -/
def fixed (d n : Nat) : Str :=
  digits (n / 10 ^ d) ++ (if d = 0 then [] else '.' :: padded d n)

end Decimal

namespace Flt
variable {ρ : Format}

/-- `Op::str`, fuzzylite/Operation.h:1005-1022: numbers nearer to zero than one unit of the last decimal are
written as zero, and the others with rounding of the exact value to nearest, ties to even.
Simplified: `std::pow(10.0, -decimals)` is rounded correctly. -/
def str [Decimals] (x : Flt ρ) : Str :=
  if Op.isNaN x then cs! "nan"
  else if Op.isInf x then (if lt x (lit 0) then cs! "-inf" else cs! "inf")
  else if Op.isEqT (lit (1 / 10 ^ Decimals.decimals)) x (lit 0) then Decimal.fixed Decimals.decimals 0
  else match x.val with
    | .fin q =>
      if q < 0 then '-' :: Decimal.fixed Decimals.decimals (Decimal.nearest (-q * 10 ^ Decimals.decimals))
      else Decimal.fixed Decimals.decimals (Decimal.nearest (q * 10 ^ Decimals.decimals))
    | _ => []

/-- `Op::toScalar`, fuzzylite/Operation.h:918-942: a number in decimal is rounded, and one that overflows is
rejected (`operator>>` sets `failbit`). -/
def ofText (s : Str) : Option (Flt ρ) :=
  match Decimal.ofText s with
  | some (.fin q) => match ρ.rnd q with
    | .fin _ => some (mk' ρ (.fin q))
    | _ => none
  | some x => some (mk' ρ x)
  | none => none

instance instScalarText [Decimals] : ScalarText (Flt ρ) where
  ofText := ofText
  str := str

/-- `(int) x` -/
instance instTruncate : Truncate (Flt ρ) := ⟨fun x => Truncate.toInt x.val⟩

end Flt
end FL
