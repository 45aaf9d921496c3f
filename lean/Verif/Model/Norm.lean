/-
Built-in T-Norms and S-Norms (src/norm/t, src/norm/s).
`TNormFunction`/`SNormFunction` are modelled in `Verif.Model.Term`.
-/
import Verif.Model.Op

namespace FL
open Scalar

/-- The built-in T-Norm classes, src/factory/TNormFactory.cpp:30-39. -/
inductive TNormKind
  | algebraicProduct | boundedDifference | drasticProduct | einsteinProduct
  | hamacherProduct | minimum | nilpotentMinimum
  deriving DecidableEq, Repr

/-- The built-in S-Norm classes, src/factory/SNormFactory.cpp. -/
inductive SNormKind
  | algebraicSum | boundedSum | drasticSum | einsteinSum
  | hamacherSum | maximum | nilpotentMaximum | normalizedSum | unboundedSum
  deriving DecidableEq, Repr

variable {S : Type} [Scalar S]

/-- `compute` of each T-Norm:
AlgebraicProduct.cpp:26-28, BoundedDifference.cpp:28-30, DrasticProduct.cpp:28-32,
EinsteinProduct.cpp:26-28, HamacherProduct.cpp:28-32, Minimum.cpp:28-30,
NilpotentMinimum.cpp:28-32 (all in src/norm/t). -/
def TNormKind.compute : TNormKind → S → S → S
  | .algebraicProduct, a, b => a * b
  | .boundedDifference, a, b => Op.max (lit 0) (a + b - lit 1)
  | .drasticProduct, a, b =>
    if Op.isEq (Op.max a b) (lit 1) then Op.min a b else lit 0
  | .einsteinProduct, a, b => (a * b) / (lit 2 - (a + b - a * b))
  | .hamacherProduct, a, b =>
    if Op.isEq (a + b) (lit 0) then lit 0 else (a * b) / (a + b - a * b)
  | .minimum, a, b => Op.min a b
  | .nilpotentMinimum, a, b =>
    if Op.isGt (a + b) (lit 1) then Op.min a b else lit 0

/-- `compute` of each S-Norm:
AlgebraicSum.cpp:26-28, BoundedSum.cpp:28-30, DrasticSum.cpp:28-32,
EinsteinSum.cpp:26-28, HamacherSum.cpp:28-32, Maximum.cpp:28-30,
NilpotentMaximum.cpp:28-32, NormalizedSum.cpp:28-30, UnboundedSum.cpp:28-30
(all in src/norm/s). -/
def SNormKind.compute : SNormKind → S → S → S
  | .algebraicSum, a, b => a + b - (a * b)
  | .boundedSum, a, b => Op.min (lit 1) (a + b)
  | .drasticSum, a, b =>
    if Op.isEq (Op.min a b) (lit 0) then Op.max a b else lit 1
  | .einsteinSum, a, b => (a + b) / (lit 1 + a * b)
  | .hamacherSum, a, b =>
    if Op.isEq (a * b) (lit 1) then lit 1 else (a + b - lit 2 * a * b) / (lit 1 - a * b)
  | .maximum, a, b => Op.max a b
  | .nilpotentMaximum, a, b =>
    if Op.isLt (a + b) (lit 1) then Op.max a b else lit 1
  | .normalizedSum, a, b => (a + b) / Op.max (lit 1) (a + b)
  | .unboundedSum, a, b => a + b

end FL
