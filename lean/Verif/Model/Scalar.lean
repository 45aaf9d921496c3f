/-
The scalar layer.

`fl::scalar` is `double` (fuzzylite/fuzzylite.h:100-110, 140-144).  The class
`Scalar S` names the operations that the code uses, without any law, so that
the whole model is polymorphic in the scalar type.
-/
import Mathlib.Data.Rat.Defs

namespace FL

/-- Unary functions of `<cmath>` that the code calls
(`std::abs`, `std::sqrt`, ...; registered for formulas in
src/factory/FunctionFactory.cpp:80-152). -/
inductive Fn1
  | abs | sqrt | exp | log | cos | sin | tan | acos | asin | atan
  | cosh | sinh | tanh | acosh | asinh | atanh | ceil | floor | log10 | log1p
  deriving DecidableEq, Repr

/-- Binary functions of `<cmath>` that the code calls. -/
inductive Fn2
  | pow | atan2 | fmod
  deriving DecidableEq, Repr

/-- The operations on `fl::scalar` used by the code; no laws.
* `nan`, `inf` : fuzzylite/fuzzylite.h:140-144 (`fl::nan`, `fl::inf`);
* `ofRat` : numeric literals and `int`/`size_t` to `scalar` conversions;
* `lt`, `eq` : the built-in `<` and `==`;
* `macheps` : `fuzzylite::_macheps` (src/fuzzylite.cpp:22-28), the default
  tolerance argument of the comparisons of `Operation`. -/
class Scalar (S : Type) where
  nan : S
  inf : S
  ofRat : Rat → S
  add : S → S → S
  sub : S → S → S
  mul : S → S → S
  div : S → S → S
  neg : S → S
  fn1 : Fn1 → S → S
  fn2 : Fn2 → S → S → S
  lt : S → S → Bool
  eq : S → S → Bool
  macheps : S

namespace Scalar
variable {S : Type} [Scalar S]

scoped instance (priority := low) instAddS : Add S := ⟨Scalar.add⟩
scoped instance (priority := low) instSubS : Sub S := ⟨Scalar.sub⟩
scoped instance (priority := low) instMulS : Mul S := ⟨Scalar.mul⟩
scoped instance (priority := low) instDivS : Div S := ⟨Scalar.div⟩
scoped instance (priority := low) instNegS : Neg S := ⟨Scalar.neg⟩

/-- A numeric literal of the source text. -/
abbrev lit (q : Rat) : S := Scalar.ofRat q

/-- `a > b` -/
abbrev gt (a b : S) : Bool := lt b a
/-- `a <= b`; for IEEE comparison this is `a < b or a == b`. -/
def le (a b : S) : Bool := lt a b || eq a b
/-- `a >= b` -/
abbrev ge (a b : S) : Bool := le b a
/-- `-fl::inf` -/
def ninf : S := - (inf : S)

abbrev abs (x : S) : S := fn1 .abs x
abbrev sqrt (x : S) : S := fn1 .sqrt x
abbrev exp (x : S) : S := fn1 .exp x
abbrev log (x : S) : S := fn1 .log x
abbrev cos (x : S) : S := fn1 .cos x
abbrev pow (x y : S) : S := fn2 .pow x y

end Scalar
end FL
