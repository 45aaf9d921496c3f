/-
Rounded arithmetic: the interpretation of `fl::scalar` in which the result of every operation is rounded.

A `Format` is any way of rounding that is monotone, odd and keeps the numbers that need no rounding, among
them the integers of 32 bits, 1/2 and the doubles of numbers of moderate size.
Overflow to infinities and underflow are part of it.  `binary64` (Verif/Model/Binary64.lean) is the
format of `double` with rounding to nearest.

Simplified with respect to `double`: zero has no sign.
-/
import Verif.Model.Ext
import Mathlib.Data.Rat.Floor

namespace FL

namespace Ext

/-- a number, not NaN, that is at most another one -/
def Le : Ext ℚ → Ext ℚ → Prop
  | nan, _ => False
  | _, nan => False
  | ninf, _ => True
  | _, pinf => True
  | fin a, fin b => a ≤ b
  | _, _ => False

end Ext

open Ext in
/-- A format of floating-point numbers.  `rnd` rounds exact numbers, `lib1` and `lib2` are the functions
of `<cmath>`, whose results are rounded too, and `eps` is `fuzzylite::macheps`. -/
structure Format where
  rnd : ℚ → Ext ℚ
  rnd_ne_nan : ∀ x, rnd x ≠ nan
  rnd_idem : ∀ x y, rnd x = fin y → rnd y = fin y
  rnd_mono : ∀ x y, x ≤ y → Le (rnd x) (rnd y)
  rnd_neg : ∀ x, rnd (-x) = neg (rnd x)
  rnd_int : ∀ n : ℤ, |n| ≤ 2147483648 → rnd n = fin (n : ℚ)
  rnd_half : rnd (1 / 2) = fin (1 / 2)
  rnd_double : ∀ x, |x| ≤ 1073741824 → rnd x = fin x → rnd (2 * x) = fin (2 * x)
  lib1 : Fn1 → Ext ℚ → Ext ℚ
  lib2 : Fn2 → Ext ℚ → Ext ℚ → Ext ℚ
  eps : ℚ
  eps_pos : 0 < eps
  eps_rnd : rnd eps = fin eps

namespace Format
open Ext

/-- rounding of extended numbers -/
def round (ρ : Format) : Ext ℚ → Ext ℚ
  | fin x => ρ.rnd x
  | x => x

theorem round_round (ρ : Format) (x : Ext ℚ) : ρ.round (ρ.round x) = ρ.round x := by
  cases x with
  | fin x =>
    show ρ.round (ρ.rnd x) = ρ.rnd x
    cases h : ρ.rnd x with
    | fin y => exact ρ.rnd_idem x y h
    | _ => rfl
  | _ => rfl

end Format

/-- the numbers of a format -/
@[ext] structure Flt (ρ : Format) where
  val : Ext ℚ
  rounded : ρ.round val = val

namespace Flt
variable {ρ : Format}

/-- the number of the format for an extended number -/
def mk' (ρ : Format) (x : Ext ℚ) : Flt ρ := ⟨ρ.round x, ρ.round_round x⟩

/-- functions of `<cmath>`; the exact ones are not left to the library -/
def fn1 : Fn1 → Flt ρ → Flt ρ
  | .abs, x => mk' ρ (Ext.abs x.1)
  | f, x => mk' ρ (ρ.lib1 f x.1)

/-- Rounded arithmetic: every operation is the exact one followed by rounding (IEEE 754).  Literals are
rounded.  Comparisons are exact. -/
instance instScalar : Scalar (Flt ρ) where
  nan := ⟨.nan, rfl⟩
  inf := ⟨.pinf, rfl⟩
  ofRat q := mk' ρ (.fin q)
  add a b := mk' ρ (Ext.add a.1 b.1)
  sub a b := mk' ρ (Ext.sub a.1 b.1)
  mul a b := mk' ρ (Ext.mul a.1 b.1)
  div a b := mk' ρ (Ext.div a.1 b.1)
  neg a := mk' ρ (Ext.neg a.1)
  fn1 := fn1
  fn2 f a b := mk' ρ (ρ.lib2 f a.1 b.1)
  lt a b := Ext.lt a.1 b.1
  eq a b := Ext.eq a.1 b.1
  macheps := ⟨.fin ρ.eps, ρ.eps_rnd⟩

instance : DecidableEq (Flt ρ) := fun a b => decidable_of_iff (a.1 = b.1) Flt.ext_iff.symm

end Flt
end FL
