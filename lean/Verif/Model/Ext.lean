/-
Extended exact numbers: the elements of an ordered field `K` together with
`nan`, `+inf` and `-inf` as distinct outcomes, with the arithmetic rules of
IEEE 754 for the special values.  This is the interpretation of `fl::scalar`
used by the arithmetic theorems.

Simplified with respect to `double`: arithmetic on `fin` values is exact
(no rounding, overflow or underflow) and zero has no sign, hence `x / 0` is
`+inf` for positive `x` (as for a divisor `+0.0`).
-/
import Verif.Model.Scalar
import Mathlib.Algebra.Order.Field.Basic
import Mathlib.Algebra.Order.AbsoluteValue.Basic
import Mathlib.Analysis.SpecialFunctions.Pow.Real
import Mathlib.Analysis.SpecialFunctions.Trigonometric.Inverse
import Mathlib.Analysis.SpecialFunctions.Trigonometric.Arctan
import Mathlib.Analysis.SpecialFunctions.Arsinh
import Mathlib.Analysis.SpecialFunctions.Complex.Arg

namespace FL

/-- Extended numbers over `K`. -/
inductive Ext (K : Type)
  | nan
  | ninf
  | fin (x : K)
  | pinf
  deriving DecidableEq, Repr

/-- The machine epsilon in force: any positive number.
The shipped value is `Tol.default` (src/fuzzylite.cpp:22-28). -/
class Tol (K : Type) [Field K] [LinearOrder K] where
  eps : K
  eps_pos : 0 < eps

namespace Ext
variable {K : Type}

section Arith
variable [Field K] [LinearOrder K]

/-- IEEE addition on special values. -/
def add : Ext K → Ext K → Ext K
  | nan, _ => nan
  | _, nan => nan
  | pinf, ninf => nan
  | ninf, pinf => nan
  | pinf, _ => pinf
  | _, pinf => pinf
  | ninf, _ => ninf
  | _, ninf => ninf
  | fin a, fin b => fin (a + b)

def neg : Ext K → Ext K
  | nan => nan
  | pinf => ninf
  | ninf => pinf
  | fin a => fin (-a)

def sub (a b : Ext K) : Ext K := add a (neg b)

/-- an infinity with the sign of `a`, or `nan` when `a = 0` (`0 * inf`). -/
def signInf (a : K) : Ext K := if 0 < a then pinf else if a < 0 then ninf else nan

def mul : Ext K → Ext K → Ext K
  | nan, _ => nan
  | _, nan => nan
  | pinf, pinf => pinf
  | pinf, ninf => ninf
  | ninf, pinf => ninf
  | ninf, ninf => pinf
  | pinf, fin b => signInf b
  | fin a, pinf => signInf a
  | ninf, fin b => signInf (-b)
  | fin a, ninf => signInf (-a)
  | fin a, fin b => fin (a * b)

def div : Ext K → Ext K → Ext K
  | nan, _ => nan
  | _, nan => nan
  | pinf, pinf => nan
  | pinf, ninf => nan
  | ninf, pinf => nan
  | ninf, ninf => nan
  | pinf, fin b => if b < 0 then ninf else pinf
  | ninf, fin b => if b < 0 then pinf else ninf
  | fin _, pinf => fin 0
  | fin _, ninf => fin 0
  | fin a, fin b => if b = 0 then signInf a else fin (a / b)

def lt : Ext K → Ext K → Bool
  | nan, _ => false
  | _, nan => false
  | ninf, ninf => false
  | ninf, _ => true
  | _, ninf => false
  | pinf, _ => false
  | _, pinf => true
  | fin a, fin b => decide (a < b)

def eq : Ext K → Ext K → Bool
  | ninf, ninf => true
  | pinf, pinf => true
  | fin a, fin b => decide (a = b)
  | _, _ => false

def abs : Ext K → Ext K
  | nan => nan
  | pinf => pinf
  | ninf => pinf
  | fin a => fin |a|

end Arith

section RealInst

/-- `std::sqrt`: NaN for negative arguments. -/
noncomputable def sqrtR : Ext ℝ → Ext ℝ
  | nan => nan
  | pinf => pinf
  | ninf => nan
  | fin a => if a < 0 then nan else fin (Real.sqrt a)

noncomputable def expR : Ext ℝ → Ext ℝ
  | nan => nan
  | pinf => pinf
  | ninf => fin 0
  | fin a => fin (Real.exp a)

noncomputable def logR : Ext ℝ → Ext ℝ
  | nan => nan
  | pinf => pinf
  | ninf => nan
  | fin a => if a < 0 then nan else if a = 0 then ninf else fin (Real.log a)

/-- a function defined on all finite numbers and NaN elsewhere -/
noncomputable def onFin (f : ℝ → ℝ) : Ext ℝ → Ext ℝ
  | fin a => fin (f a)
  | _ => nan

/-- a function defined on finite numbers satisfying `p`, NaN elsewhere.
Simplified: limits at infinities are not modelled for these. -/
noncomputable def onFinIf (p : ℝ → Prop) [DecidablePred p] (f : ℝ → ℝ) : Ext ℝ → Ext ℝ
  | fin a => if p a then fin (f a) else nan
  | _ => nan

/-- `std::floor`, `std::ceil`: identity on special values. -/
noncomputable def keepInf (f : ℝ → ℝ) : Ext ℝ → Ext ℝ
  | fin a => fin (f a)
  | x => x

noncomputable def fn1R : Fn1 → Ext ℝ → Ext ℝ
  | .abs => Ext.abs
  | .sqrt => sqrtR
  | .exp => expR
  | .log => logR
  | .cos => onFin Real.cos
  | .sin => onFin Real.sin
  | .tan => onFin Real.tan
  | .acos => onFinIf (fun a => |a| ≤ 1) Real.arccos
  | .asin => onFinIf (fun a => |a| ≤ 1) Real.arcsin
  | .atan => onFin Real.arctan
  | .cosh => onFin Real.cosh
  | .sinh => onFin Real.sinh
  | .tanh => onFin Real.tanh
  | .acosh => onFinIf (fun a => 1 ≤ a) (fun a => Real.log (a + Real.sqrt (a ^ 2 - 1)))
  | .asinh => onFin Real.arsinh
  | .atanh => onFinIf (fun a => |a| < 1) (fun a => Real.log ((1 + a) / (1 - a)) / 2)
  | .ceil => keepInf (fun a => (⌈a⌉ : ℝ))
  | .floor => keepInf (fun a => (⌊a⌋ : ℝ))
  | .log10 => fun x => div (logR x) (fin (Real.log 10))
  | .log1p => fun x => logR (add (fin 1) x)

/-- `std::pow` (C11 F.10.4.4).  A negative base needs an integer exponent. -/
noncomputable def powR (x y : Ext ℝ) : Ext ℝ :=
  if y = fin 0 then fin 1
  else if x = fin 1 then fin 1
  else match x, y with
  | nan, _ => nan
  | _, nan => nan
  | fin a, fin b =>
    if 0 < a then fin (a ^ b)
    else if a = 0 then (if 0 < b then fin 0 else pinf)
    else if b = (⌊b⌋ : ℝ) then fin (a ^ ⌊b⌋) else nan
  | fin a, pinf => if |a| < 1 then fin 0 else if |a| = 1 then fin 1 else pinf
  | fin a, ninf => if |a| < 1 then pinf else if |a| = 1 then fin 1 else fin 0
  | pinf, fin b => if 0 < b then pinf else fin 0
  | pinf, pinf => pinf
  | pinf, ninf => fin 0
  -- an infinite negative base with an odd integer exponent is not distinguished
  | ninf, fin b => if 0 < b then pinf else fin 0
  | ninf, pinf => pinf
  | ninf, ninf => fin 0

/-- `fmod`: remainder truncated toward zero. -/
noncomputable def fmodR : Ext ℝ → Ext ℝ → Ext ℝ
  | fin a, fin b =>
    if b = 0 then nan
    else fin (a - b * (if 0 ≤ a / b then (⌊a / b⌋ : ℝ) else (⌈a / b⌉ : ℝ)))
  | fin a, pinf => fin a
  | fin a, ninf => fin a
  | _, _ => nan

/-- `atan2(y, x)` on finite arguments; infinities are not modelled (NaN). -/
noncomputable def atan2R : Ext ℝ → Ext ℝ → Ext ℝ
  | fin y, fin x => fin (Complex.arg ⟨x, y⟩)
  | _, _ => nan

noncomputable def fn2R : Fn2 → Ext ℝ → Ext ℝ → Ext ℝ
  | .pow => powR
  | .atan2 => atan2R
  | .fmod => fmodR

noncomputable instance instScalarReal [Tol ℝ] : Scalar (Ext ℝ) where
  nan := nan
  inf := pinf
  ofRat q := fin (q : ℝ)
  add := add
  sub := sub
  mul := mul
  div := div
  neg := neg
  fn1 := fn1R
  fn2 := fn2R
  lt := lt
  eq := eq
  macheps := fin Tol.eps

/-- The shipped machine epsilon, 1e-6 (src/fuzzylite.cpp:24). -/
@[instance_reducible] noncomputable def _root_.FL.Tol.default : Tol ℝ := ⟨1 / 1000000, by norm_num⟩

end RealInst

section RatInst

/-- Executable instance over the rationals, used only for the concrete examples
of theorems that hold for every `Scalar`.  Square roots and transcendental
functions are *not* interpreted (they return NaN). -/
def fn1Q : Fn1 → Ext ℚ → Ext ℚ
  | .abs, x => Ext.abs x
  | .floor, fin a => fin (a.floor : ℚ)
  | .ceil, fin a => fin (a.ceil : ℚ)
  | _, _ => nan

def fn2Q : Fn2 → Ext ℚ → Ext ℚ → Ext ℚ
  | .fmod, fin a, fin b =>
    if b = 0 then nan else fin (a - b * (if 0 ≤ a / b then ((a / b).floor : ℚ) else ((a / b).ceil : ℚ)))
  | _, _, _ => nan

instance instScalarRat : Scalar (Ext ℚ) where
  nan := nan
  inf := pinf
  ofRat q := fin q
  add := add
  sub := sub
  mul := mul
  div := div
  neg := neg
  fn1 := fn1Q
  fn2 := fn2Q
  lt := lt
  eq := eq
  macheps := fin (1 / 1000000)

end RatInst
end Ext
end FL
