/-
Built-in hedges (src/hedge).
`HedgeFunction` is modelled in `Verif.Model.Term`.
-/
import Verif.Model.Op

namespace FL
open Scalar

/-- The built-in hedge classes, src/factory/HedgeFactory.cpp:29-38. -/
inductive HedgeKind
  | any | extremely | not | seldom | somewhat | very
  deriving DecidableEq, Repr

variable {S : Type} [Scalar S]

/-- `hedge` of each class: Any.cpp:30-33, Extremely.cpp:28-30, Not.cpp:26-28,
Seldom.cpp:28-30, Somewhat.cpp:26-28, Very.cpp:26-28 (all in src/hedge). -/
def HedgeKind.hedge : HedgeKind → S → S
  | .any, _ => lit 1
  | .extremely, x =>
    if Op.isLE x (lit (1/2)) then lit 2 * x * x
    else lit 1 - lit 2 * (lit 1 - x) * (lit 1 - x)
  | .not, x => lit 1 - x
  | .seldom, x =>
    if Op.isLE x (lit (1/2)) then sqrt (lit (1/2) * x)
    else lit 1 - sqrt (lit (1/2) * (lit 1 - x))
  | .somewhat, x => sqrt x
  | .very, x => x * x

end FL
