/-
Rounded arithmetic: laws of the order and computation lemmas.
-/
import Verif.Model.Binary64
import Verif.Lemmas.ScalarOrd

namespace FL
open Scalar

namespace Format
open Ext
variable (ρ : Format)

theorem rnd_zero : ρ.rnd 0 = fin 0 := by simpa using ρ.rnd_int 0 (by norm_num)
theorem rnd_one : ρ.rnd 1 = fin 1 := by simpa using ρ.rnd_int 1 (by norm_num)
theorem rnd_two : ρ.rnd 2 = fin 2 := by simpa using ρ.rnd_int 2 (by norm_num)

/-- a number that needs no rounding -/
def Rep (x : ℚ) : Prop := ρ.rnd x = fin x

/-- numbers of moderate size, which do not overflow -/
def Small (x : ℚ) : Prop := |x| ≤ 2147483648

/-- rounding of numbers that do not overflow -/
def r (x : ℚ) : ℚ := match ρ.rnd x with
  | fin y => y
  | _ => 0

variable {ρ}

theorem rnd_small {x : ℚ} (h : Small x) : ρ.rnd x = fin (ρ.r x) := by
  have h1 := ρ.rnd_mono x 2147483648 (abs_le.1 h).2
  have h2 := ρ.rnd_mono (-2147483648) x (abs_le.1 h).1
  have e1 : ρ.rnd 2147483648 = fin 2147483648 := by simpa using ρ.rnd_int 2147483648 (by norm_num)
  have e2 : ρ.rnd (-2147483648) = fin (-2147483648) := by simpa using ρ.rnd_int (-2147483648) (by norm_num)
  rw [e1] at h1
  rw [e2] at h2
  unfold r
  cases hr : ρ.rnd x <;> simp_all [Le]

theorem r_rep (x : ℚ) : ρ.Rep (ρ.r x) := by
  unfold Rep r
  cases hr : ρ.rnd x with
  | fin y => exact ρ.rnd_idem x y hr
  | _ => exact ρ.rnd_zero

theorem r_of_rep {x : ℚ} (h : ρ.Rep x) : ρ.r x = x := by
  unfold r
  rw [show ρ.rnd x = fin x from h]

theorem r_mono {x y : ℚ} (hx : Small x) (hy : Small y) (h : x ≤ y) : ρ.r x ≤ ρ.r y := by
  have := ρ.rnd_mono x y h
  rw [rnd_small hx, rnd_small hy] at this
  exact this

theorem r_le {x y : ℚ} (hx : Small x) (hy : Small y) (hr : ρ.Rep y) (h : x ≤ y) : ρ.r x ≤ y := by
  have := r_mono (ρ := ρ) hx hy h
  rwa [r_of_rep hr] at this

theorem le_r {x y : ℚ} (hx : Small x) (hy : Small y) (hr : ρ.Rep x) (h : x ≤ y) : x ≤ ρ.r y := by
  have := r_mono (ρ := ρ) hx hy h
  rwa [r_of_rep hr] at this

theorem rep_int (n : ℤ) (h : |n| ≤ 2147483648) : ρ.Rep n := ρ.rnd_int n h
theorem rep_zero : ρ.Rep 0 := ρ.rnd_zero
theorem rep_one : ρ.Rep 1 := ρ.rnd_one
theorem rep_two : ρ.Rep 2 := ρ.rnd_two
theorem rep_half : ρ.Rep (1 / 2) := ρ.rnd_half

theorem r_neg (x : ℚ) : ρ.r (-x) = -ρ.r x := by
  unfold r
  rw [ρ.rnd_neg]
  cases ρ.rnd x <;> simp [Ext.neg]

theorem rep_neg {x : ℚ} (h : ρ.Rep x) : ρ.Rep (-x) := by
  unfold Rep at *
  rw [ρ.rnd_neg, h]
  rfl

theorem small_of {x : ℚ} (h1 : -4 ≤ x) (h2 : x ≤ 4) : Small x := abs_le.2 ⟨by linarith, by linarith⟩

end Format

namespace Flt
open Ext
variable {ρ : Format}

/-- a number that needs no rounding, as a number of the format -/
def of (x : ℚ) (h : ρ.Rep x) : Flt ρ := ⟨fin x, h⟩

theorem mk'_fin {x : ℚ} (h : Format.Small x) : mk' ρ (fin x) = of (ρ.r x) (Format.r_rep x) :=
  Flt.ext (Format.rnd_small h)

theorem mk'_rep {x : ℚ} (h : ρ.Rep x) : mk' ρ (fin x) = of x h := Flt.ext h

theorem lit_rep {q : ℚ} (h : ρ.Rep q) : (lit q : Flt ρ) = of q h := mk'_rep h

@[simp] theorem lt_of (x y : ℚ) (hx : ρ.Rep x) (hy : ρ.Rep y) : lt (of x hx) (of y hy) = decide (x < y) := rfl
@[simp] theorem eq_of (x y : ℚ) (hx : ρ.Rep x) (hy : ρ.Rep y) : Scalar.eq (of x hx) (of y hy) = decide (x = y) := rfl
@[simp] theorem le_of (x y : ℚ) (hx : ρ.Rep x) (hy : ρ.Rep y) : le (of x hx) (of y hy) = decide (x ≤ y) := by
  simp [Scalar.le, le_iff_lt_or_eq]

theorem of_inj {x y : ℚ} {hx : ρ.Rep x} {hy : ρ.Rep y} : of x hx = of y hy ↔ x = y := by
  rw [Flt.ext_iff]
  show fin x = fin y ↔ _
  rw [fin.injEq]

theorem add_of {x y : ℚ} (hx : ρ.Rep x) (hy : ρ.Rep y) (h : Format.Small (x + y)) :
    of x hx + of y hy = of (ρ.r (x + y)) (Format.r_rep _) := mk'_fin h

theorem sub_of {x y : ℚ} (hx : ρ.Rep x) (hy : ρ.Rep y) (h : Format.Small (x - y)) :
    of x hx - of y hy = of (ρ.r (x - y)) (Format.r_rep _) := by
  rw [← mk'_fin h]
  show mk' ρ (fin (x + -y)) = _
  rw [sub_eq_add_neg]

theorem mul_of {x y : ℚ} (hx : ρ.Rep x) (hy : ρ.Rep y) (h : Format.Small (x * y)) :
    of x hx * of y hy = of (ρ.r (x * y)) (Format.r_rep _) := mk'_fin h

theorem div_of {x y : ℚ} (hx : ρ.Rep x) (hy : ρ.Rep y) (h0 : y ≠ 0) (h : Format.Small (x / y)) :
    of x hx / of y hy = of (ρ.r (x / y)) (Format.r_rep _) := by
  rw [← mk'_fin h]
  show mk' ρ (if y = 0 then signInf x else fin (x / y)) = _
  rw [if_neg h0]

theorem neg_of {x : ℚ} (hx : ρ.Rep x) : -(of x hx) = of (-x) (Format.rep_neg hx) := mk'_rep (Format.rep_neg hx)

theorem abs_of {x : ℚ} (hx : ρ.Rep x) : Scalar.abs (of x hx) = of |x| (by
    rcases abs_choice x with h | h <;> rw [h]
    · exact hx
    · exact Format.rep_neg hx) := by
  apply mk'_rep

/-- rounded arithmetic has the order of IEEE 754 -/
instance instOrd : ScalarOrd (Flt ρ) where
  toScalar := instScalar
  eq_iff := by
    rintro ⟨a, ha⟩ ⟨b, hb⟩
    rw [Ne, Flt.ext_iff, Flt.ext_iff]
    show Ext.eq a b = true ↔ a = b ∧ ¬ a = Ext.nan
    cases a <;> cases b <;> simp [Ext.eq]
  lt_irrefl := by
    rintro ⟨a, ha⟩
    show Ext.lt a a = false
    cases a <;> simp [Ext.lt]
  lt_trans := by
    rintro ⟨a, ha⟩ ⟨b, hb⟩ ⟨c, hc⟩
    show Ext.lt a b = true → Ext.lt b c = true → Ext.lt a c = true
    cases a <;> cases b <;> cases c <;> simp [Ext.lt]
    exact _root_.lt_trans
  lt_nan := by
    rintro ⟨a, ha⟩
    show Ext.lt a Ext.nan = false ∧ Ext.lt Ext.nan a = false
    cases a <;> simp [Ext.lt]
  lt_total := by
    rintro ⟨a, ha⟩ ⟨b, hb⟩
    rw [Ne, Ne, Flt.ext_iff, Flt.ext_iff, Flt.ext_iff]
    show ¬ a = Ext.nan → ¬ b = Ext.nan → Ext.lt a b = true ∨ a = b ∨ Ext.lt b a = true
    cases a <;> cases b <;> simp [Ext.lt]
    exact lt_trichotomy _ _
  lit_ne_nan := by
    intro q h
    have : ρ.rnd q = Ext.nan := congrArg Flt.val h
    exact ρ.rnd_ne_nan q this

theorem add_comm (a b : Flt ρ) : a + b = b + a := by
  apply Flt.ext
  show ρ.round (Ext.add a.1 b.1) = ρ.round (Ext.add b.1 a.1)
  congr 1
  cases a.1 <;> cases b.1 <;> simp [Ext.add, _root_.add_comm]

theorem mul_comm (a b : Flt ρ) : a * b = b * a := by
  apply Flt.ext
  show ρ.round (Ext.mul a.1 b.1) = ρ.round (Ext.mul b.1 a.1)
  congr 1
  cases a.1 <;> cases b.1 <;> simp [Ext.mul, _root_.mul_comm]

/-- the distance is symmetric -/
theorem abs_sub_comm (a b : Flt ρ) : Scalar.abs (a - b) = Scalar.abs (b - a) := by
  have key : ∀ x : Ext ℚ, ρ.round (Ext.neg x) = Ext.neg (ρ.round x) := by
    intro x
    cases x with
    | fin x => exact ρ.rnd_neg x
    | _ => rfl
  have h : Ext.sub b.1 a.1 = Ext.neg (Ext.sub a.1 b.1) := by
    cases a.1 <;> cases b.1 <;> simp [Ext.sub, Ext.add, Ext.neg]
  apply Flt.ext
  show ρ.round (Ext.abs (ρ.round (Ext.sub a.1 b.1))) = ρ.round (Ext.abs (ρ.round (Ext.sub b.1 a.1)))
  rw [h, key]
  congr 1
  cases ρ.round (Ext.sub a.1 b.1) <;> simp [Ext.abs, Ext.neg]

end Flt
end FL
