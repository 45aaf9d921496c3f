/-
The membership functions of the parametric terms (src/term).  The remaining
term classes (Discrete, Constant, Linear, Function, Activated, Aggregated) are
modelled in their own files.
-/
import Verif.Model.Op

namespace FL
open Scalar

/-- Parameters of each parametric term class, in the order of the constructor
arguments (and of `parameters()`), fuzzylite/term/*.h.  The height is kept
apart (`Term::_height`, fuzzylite/term/Term.h). -/
inductive Shape (S : Type)
  | bell (center width slope : S)
  | binary (start direction : S)
  | concave (inflection end_ : S)
  | cosine (center width : S)
  | gaussian (mean standardDeviation : S)
  | gaussianProduct (meanA standardDeviationA meanB standardDeviationB : S)
  | piShape (bottomLeft topLeft topRight bottomRight : S)
  | ramp (start end_ : S)
  | rectangle (start end_ : S)
  | sigmoid (inflection slope : S)
  | sigmoidDifference (left rising falling right : S)
  | sigmoidProduct (left rising falling right : S)
  | spike (center width : S)
  | sShape (start end_ : S)
  | trapezoid (a b c d : S)
  | triangle (a b c : S)
  | zShape (start end_ : S)
  deriving DecidableEq, Repr

variable {S : Type} [Scalar S]

/-- `const scalar pi = 4.0 * std::atan(1.0)`, src/term/Cosine.cpp:59. -/
def piConst : S := lit 4 * fn1 .atan (lit 1)

namespace Shape

/-- `membership(x)` of each class with height `h`.  Lines (all in src/term):
Bell.cpp:34-38, Binary.cpp:33-41, Concave.cpp:33-44, Cosine.cpp:54-61,
Gaussian.cpp:33-37, GaussianProduct.cpp:42-53, PiShape.cpp:37-62,
Ramp.cpp:33-50, Rectangle.cpp:33-39, Sigmoid.cpp:33-37,
SigmoidDifference.cpp:37-44, SigmoidProduct.cpp:37-43, Spike.cpp:33-37,
SShape.cpp:33-47, Trapezoid.cpp:44-68, Triangle.cpp:39-57, ZShape.cpp:33-47. -/
def membership (h : S) : Shape S → S → S
  | bell c w s, x =>
    if Op.isNaN x then nan
    else h * (lit 1 / (lit 1 + pow (abs ((x - c) / w)) (lit 2 * s)))
  | binary start dir, x =>
    if Op.isNaN x then nan
    else if gt dir start && Op.isGE x start then h * lit 1
    else if lt dir start && Op.isLE x start then h * lit 1
    else h * lit 0
  | concave i e, x =>
    if Op.isNaN x then nan
    else if Op.isLE i e then
      (if Op.isLt x e then h * (e - i) / (lit 2 * e - i - x) else h * lit 1)
    else
      (if Op.isGt x e then h * (i - e) / (i - lit 2 * e + x) else h * lit 1)
  | cosine c w, x =>
    if Op.isNaN x then nan
    else if Op.isLt x (c - lit (1/2) * w) || Op.isGt x (c + lit (1/2) * w) then h * lit 0
    else h * (lit (1/2) * (lit 1 + cos (lit 2 / w * piConst * (x - c))))
  | gaussian m sd, x =>
    if Op.isNaN x then nan
    else h * exp ((-(x - m) * (x - m)) / (lit 2 * sd * sd))
  | gaussianProduct mA sA mB sB, x =>
    if Op.isNaN x then nan
    else
      let a := if Op.isLt x mA then exp ((-(x - mA) * (x - mA)) / (lit 2 * sA * sA)) else lit 1
      let b := if Op.isGt x mB then exp ((-(x - mB) * (x - mB)) / (lit 2 * sB * sB)) else lit 1
      h * a * b
  | piShape bl tl tr br, x =>
    if Op.isNaN x then nan
    else
      let s :=
        if Op.isLE x bl then lit 0
        else if Op.isLE x (lit (1/2) * (bl + tl)) then lit 2 * pow ((x - bl) / (tl - bl)) (lit 2)
        else if Op.isLt x tl then lit 1 - lit 2 * pow ((x - tl) / (tl - bl)) (lit 2)
        else lit 1
      let z :=
        if Op.isLE x tr then lit 1
        else if Op.isLE x (lit (1/2) * (tr + br)) then lit 1 - lit 2 * pow ((x - tr) / (br - tr)) (lit 2)
        else if Op.isLt x br then lit 2 * pow ((x - br) / (br - tr)) (lit 2)
        else lit 0
      h * s * z
  | ramp s e, x =>
    if Op.isNaN x || Op.isEq s e then nan
    else if Op.isLt s e then
      (if Op.isLE x s then h * lit 0
       else if Op.isGE x e then h * lit 1
       else h * (x - s) / (e - s))
    else
      (if Op.isGE x s then h * lit 0
       else if Op.isLE x e then h * lit 1
       else h * (s - x) / (s - e))
  | rectangle s e, x =>
    if Op.isNaN x then nan
    else if Op.isGE x s && Op.isLE x e then h * lit 1 else h * lit 0
  | sigmoid i s, x =>
    if Op.isNaN x then nan
    else h * lit 1 / (lit 1 + exp (-s * (x - i)))
  | sigmoidDifference l r f rt, x =>
    if Op.isNaN x then nan
    else
      let a := lit 1 / (lit 1 + exp (-r * (x - l)))
      let b := lit 1 / (lit 1 + exp (-f * (x - rt)))
      h * abs (a - b)
  | sigmoidProduct l r f rt, x =>
    if Op.isNaN x then nan
    else
      let a := lit 1 + exp (-r * (x - l))
      let b := lit 1 + exp (-f * (x - rt))
      h * lit 1 / (a * b)
  | spike c w, x =>
    if Op.isNaN x then nan
    else h * exp (-abs (lit 10 / w * (x - c)))
  | sShape s e, x =>
    if Op.isNaN x then nan
    else if Op.isLE x s then h * lit 0
    else if Op.isLE x (lit (1/2) * (s + e)) then h * (lit 2 * pow ((x - s) / (e - s)) (lit 2))
    else if Op.isLt x e then h * (lit 1 - lit 2 * pow ((x - e) / (e - s)) (lit 2))
    else h * lit 1
  | trapezoid a b c d, x =>
    if Op.isNaN x then nan
    else if Op.isLt x a || Op.isGt x d then h * lit 0
    else if Op.isLt x b then
      (if Scalar.eq a ninf then h * lit 1
       else h * Op.min (lit 1) ((x - a) / (b - a)))
    else if Op.isLE x c then h * lit 1
    else if Op.isLt x d then
      (if Scalar.eq d inf then h * lit 1
       else h * (d - x) / (d - c))
    else if Scalar.eq d inf then h * lit 1
    else h * lit 0
  | triangle a b c, x =>
    if Op.isNaN x then nan
    else if Op.isLt x a || Op.isGt x c then h * lit 0
    else if Op.isEq x b then h * lit 1
    else if Op.isLt x b then
      (if Scalar.eq a ninf then h * lit 1
       else h * (x - a) / (b - a))
    else if Scalar.eq c inf then h * lit 1
    else h * (c - x) / (c - b)
  | zShape s e, x =>
    if Op.isNaN x then nan
    else if Op.isLE x s then h * lit 1
    else if Op.isLE x (lit (1/2) * (s + e)) then h * (lit 1 - lit 2 * pow ((x - s) / (e - s)) (lit 2))
    else if Op.isLt x e then h * (lit 2 * pow ((x - e) / (e - s)) (lit 2))
    else h * lit 0

/-- `isMonotonic()`: src/term/Term.cpp:60-62 (false by default), overridden by
Concave.cpp:54-56, Ramp.cpp:60-62, Sigmoid.cpp:47-49, SShape.cpp:61-63, ZShape.cpp:61-63. -/
def isMonotonic : Shape S → Bool
  | concave .. | ramp .. | sigmoid .. | sShape .. | zShape .. => true
  | _ => false

/-- `tsukamoto(y)`; `none` is the exception thrown by the default
implementation src/term/Term.cpp:55-58.  Overrides: Concave.cpp:46-52,
Ramp.cpp:52-58, Sigmoid.cpp:39-45, SShape.cpp:49-59, ZShape.cpp:49-59. -/
def tsukamoto (h : S) : Shape S → S → Option S
  | concave i e, y => some (h * (i - e) / y + lit 2 * e - i)
  | ramp s e, y => some (s + (e - s) * y / h)
  | sigmoid i s, y => some (i + log (h / y - lit 1) / (-s))
  | sShape s e, y => some <|
    if le y (h / lit 2) then s + (e - s) * sqrt (y / (lit 2 * h))
    else e - (e - s) * sqrt ((h - y) / (lit 2 * h))
  | zShape s e, y => some <|
    if le y (h / lit 2) then e - (e - s) * sqrt (y / (lit 2 * h))
    else s + (e - s) * sqrt ((h - y) / (lit 2 * h))
  | _, _ => none

end Shape

/-- Sign returned by `direction()` of Ramp.cpp:102-111 and Sigmoid.cpp:89-97. -/
inductive Direction | positive | negative | zero
  deriving DecidableEq, Repr

/-- `Ramp::direction`, src/term/Ramp.cpp:102-111. -/
def rampDirection (s e : S) : Direction :=
  let range := e - s
  if !(Op.isFinite range) || Op.isEq range (lit 0) then .zero
  else if Op.isGt range (lit 0) then .positive else .negative

/-- `Sigmoid::direction`, src/term/Sigmoid.cpp:89-97. -/
def sigmoidDirection (slope : S) : Direction :=
  if !(Op.isFinite slope) || Op.isEq slope (lit 0) then .zero
  else if Op.isGt slope (lit 0) then .positive else .negative

end FL
