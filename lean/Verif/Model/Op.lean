/-
Numeric part of `Operation` (alias `Op`), fuzzylite/Operation.h.
-/
import Verif.Model.Scalar

namespace FL
open Scalar
variable {S : Type} [Scalar S]

namespace Op

/-- `Operation::isNaN`, fuzzylite/Operation.h:644-647: `x != x`. -/
def isNaN (x : S) : Bool := !(Scalar.eq x x)

/-- `Operation::isInf`, fuzzylite/Operation.h:639-642. -/
def isInf (x : S) : Bool := Scalar.eq x inf || Scalar.eq x ninf

/-- `Operation::isFinite`, fuzzylite/Operation.h:649-652. -/
def isFinite (x : S) : Bool := !(!(Scalar.eq x x) || Scalar.eq x inf || Scalar.eq x ninf)

/-- `std::min(a, b)` is `(b < a) ? b : a`. -/
def stdMin (a b : S) : S := if lt b a then b else a
/-- `std::max(a, b)` is `(a < b) ? b : a`. -/
def stdMax (a b : S) : S := if lt a b then b else a

/-- `Operation::min`, fuzzylite/Operation.h:609-614. -/
def min (a b : S) : S := if isNaN a || isNaN b then nan else stdMin a b

/-- `Operation::max`, fuzzylite/Operation.h:616-621. -/
def max (a b : S) : S := if isNaN a || isNaN b then nan else stdMax a b

/-- `Operation::bound`, fuzzylite/Operation.h:623-630. -/
def bound (x mn mx : S) : S :=
  if gt x mx then mx else if lt x mn then mn else x

/-- `a == b or std::abs(a - b) < macheps or (a != a and b != b)`:
`Operation::isEq` (and `isClose`) with explicit tolerance,
fuzzylite/Operation.h:662-664, 674-676. -/
def isEqT (eps a b : S) : Bool :=
  Scalar.eq a b || lt (abs (a - b)) eps || (!(Scalar.eq a a) && !(Scalar.eq b b))

/-- `Operation::isLt`, fuzzylite/Operation.h:654-656. -/
def isLtT (eps a b : S) : Bool :=
  !(Scalar.eq a b || lt (abs (a - b)) eps || (!(Scalar.eq a a) && !(Scalar.eq b b))) && lt a b

/-- `Operation::isLE`, fuzzylite/Operation.h:658-660. -/
def isLET (eps a b : S) : Bool :=
  Scalar.eq a b || lt (abs (a - b)) eps || (!(Scalar.eq a a) && !(Scalar.eq b b)) || lt a b

/-- `Operation::isGt`, fuzzylite/Operation.h:666-668. -/
def isGtT (eps a b : S) : Bool :=
  !(Scalar.eq a b || lt (abs (a - b)) eps || (!(Scalar.eq a a) && !(Scalar.eq b b))) && gt a b

/-- `Operation::isGE`, fuzzylite/Operation.h:670-672. -/
def isGET (eps a b : S) : Bool :=
  Scalar.eq a b || lt (abs (a - b)) eps || (!(Scalar.eq a a) && !(Scalar.eq b b)) || gt a b

/-- The comparisons with the default tolerance argument `fuzzylite::_macheps`
(declarations in fuzzylite/Operation.h:110-180). -/
def isEq (a b : S) : Bool := isEqT macheps a b
def isLt (a b : S) : Bool := isLtT macheps a b
def isLE (a b : S) : Bool := isLET macheps a b
def isGt (a b : S) : Bool := isGtT macheps a b
def isGE (a b : S) : Bool := isGET macheps a b

/-- `Operation::in`, fuzzylite/Operation.h:632-637. -/
def inRange (x mn mx : S) (geq leq : Bool) : Bool :=
  (if geq then isGE x mn else isGt x mn) && (if leq then isLE x mx else isLt x mx)

/-- `Operation::midpoints`, fuzzylite/Operation.h:678-685.
Simplified: `resolution` is a natural number (a negative `int` yields the empty
vector in the code, after a `reserve` of a huge size; not modelled). -/
def midpoints (start stop : S) (resolution : Nat) : List S :=
  let dx := (stop - start) / lit (resolution : Rat)
  (List.range resolution).map fun (i : Nat) => start + (lit (i : Rat) + lit (1/2)) * dx

/-- `Operation::scale`, fuzzylite/Operation.h:687-689. -/
def scale (x fromMin fromMax toMin toMax : S) : S :=
  (toMax - toMin) / (fromMax - fromMin) * (x - fromMin) + toMin

/-- `Operation::scale` with `bounded`, fuzzylite/Operation.h:691-694. -/
def scaleBounded (x fromMin fromMax toMin toMax : S) (bounded : Bool) : S :=
  let result := (toMax - toMin) / (fromMax - fromMin) * (x - fromMin) + toMin
  if bounded then bound result toMin toMax else result

/-- `Operation::logicalAnd`, fuzzylite/Operation.h:716-718. -/
def logicalAnd (a b : S) : S := if isEq a (lit 1) && isEq b (lit 1) then lit 1 else lit 0
/-- `Operation::logicalOr`, fuzzylite/Operation.h:720-722. -/
def logicalOr (a b : S) : S := if isEq a (lit 1) || isEq b (lit 1) then lit 1 else lit 0
/-- `Operation::logicalNot`, fuzzylite/Operation.h:724-726. -/
def logicalNot (a : S) : S := if isEq a (lit 1) then lit 0 else lit 1
/-- `Operation::round`, fuzzylite/Operation.h:732-734. -/
def round (x : S) : S :=
  if gt x (lit 0) then fn1 .floor (x + lit (1/2)) else fn1 .ceil (x - lit (1/2))

/-- conversion of `bool` to `scalar` -/
def ofBool (b : Bool) : S := if b then lit 1 else lit 0

/-- `Operation::sum`, fuzzylite/Operation.h:785-791. -/
def sum (x : List S) : S := x.foldl (fun acc y => acc + y) (lit 0)

/-- `Operation::mean`, fuzzylite/Operation.h:793-796 (0/0 for an empty vector). -/
def mean (x : List S) : S := sum x / lit (x.length : Rat)

/-- `Operation::variance(x, mean)`, fuzzylite/Operation.h:814-828. -/
def varianceM (x : List S) (m : S) : S :=
  match x with
  | [] => nan
  | [_] => lit 0
  | _ => (x.foldl (fun acc y => acc + (y - m) * (y - m)) (lit 0)) / lit ((x.length : Rat) - 1)

/-- `Operation::variance(x)`, fuzzylite/Operation.h:812-815. -/
def variance (x : List S) : S := varianceM x (mean x)

/-- `Operation::standardDeviation(x, mean)`, fuzzylite/Operation.h:803-810. -/
def standardDeviationM (x : List S) (m : S) : S :=
  match x with
  | [] => nan
  | [_] => lit 0
  | _ => sqrt (varianceM x m)

/-- `Operation::standardDeviation(x)`, fuzzylite/Operation.h:798-801. -/
def standardDeviation (x : List S) : S := standardDeviationM x (mean x)

end Op
end FL
