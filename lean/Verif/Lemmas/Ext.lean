/-
Computation lemmas for the extended real numbers.
-/
import Verif.Model.Ext
import Verif.Model.Op
import Mathlib.Tactic.Linarith
import Mathlib.Tactic.NormNum
import Mathlib.Tactic.Ring
import Mathlib.Tactic.FieldSimp
import Mathlib.Tactic.Positivity
import Mathlib.Tactic.LinearCombination

namespace FL
open Scalar
namespace Ext
variable [Tol ℝ]

/-- the tolerance as a real number -/
noncomputable abbrev tol : ℝ := Tol.eps

theorem tol_pos : 0 < (tol : ℝ) := Tol.eps_pos

@[simp] theorem add_fin (a b : ℝ) : (fin a + fin b : Ext ℝ) = fin (a + b) := rfl
@[simp] theorem sub_fin (a b : ℝ) : (fin a - fin b : Ext ℝ) = fin (a - b) := by
  change fin (a + -b) = _
  rw [sub_eq_add_neg]
@[simp] theorem mul_fin (a b : ℝ) : (fin a * fin b : Ext ℝ) = fin (a * b) := rfl
@[simp] theorem neg_fin (a : ℝ) : (-fin a : Ext ℝ) = fin (-a) := rfl
theorem div_fin (a b : ℝ) (h : b ≠ 0) : (fin a / fin b : Ext ℝ) = fin (a / b) := by
  change (if b = 0 then signInf a else fin (a / b)) = _
  simp [h]
theorem div_fin_zero (a : ℝ) : (fin a / fin 0 : Ext ℝ) = signInf a := by
  change (if (0:ℝ) = 0 then signInf a else fin (a / 0)) = _
  simp
@[simp] theorem div_zero_zero : (fin 0 / fin 0 : Ext ℝ) = nan := by
  rw [div_fin_zero]; simp [signInf]
@[simp] theorem abs_fin (a : ℝ) : (Scalar.abs (fin a) : Ext ℝ) = fin |a| := rfl
theorem sqrt_fin (a : ℝ) (h : 0 ≤ a) : (Scalar.sqrt (fin a) : Ext ℝ) = fin (Real.sqrt a) := by
  change (if a < 0 then nan else fin (Real.sqrt a)) = _
  simp [not_lt.mpr h]
@[simp] theorem exp_fin (a : ℝ) : (Scalar.exp (fin a) : Ext ℝ) = fin (Real.exp a) := rfl
theorem log_fin (a : ℝ) (h : 0 < a) : (Scalar.log (fin a) : Ext ℝ) = fin (Real.log a) := by
  change (if a < 0 then nan else if a = 0 then ninf else fin (Real.log a)) = _
  simp [not_lt.mpr h.le, h.ne']
@[simp] theorem cos_fin (a : ℝ) : (Scalar.cos (fin a) : Ext ℝ) = fin (Real.cos a) := rfl

@[simp] theorem nan_def : (Scalar.nan : Ext ℝ) = nan := rfl
@[simp] theorem inf_def : (Scalar.inf : Ext ℝ) = pinf := rfl
@[simp] theorem ninf_def : (Scalar.ninf : Ext ℝ) = ninf := rfl
@[simp] theorem ofRat_def (q : ℚ) : (Scalar.ofRat q : Ext ℝ) = fin (q : ℝ) := rfl
@[simp] theorem macheps_def : (Scalar.macheps : Ext ℝ) = fin tol := rfl

@[simp] theorem lt_fin (a b : ℝ) : Scalar.lt (fin a) (fin b) = decide (a < b) := rfl
@[simp] theorem eq_fin (a b : ℝ) : Scalar.eq (fin a) (fin b) = decide (a = b) := rfl
@[simp] theorem lt_nan_left (x : Ext ℝ) : Scalar.lt nan x = false := rfl
@[simp] theorem lt_nan_right (x : Ext ℝ) : Scalar.lt x nan = false := by cases x <;> rfl
@[simp] theorem eq_nan_left (x : Ext ℝ) : Scalar.eq nan x = false := rfl
@[simp] theorem eq_nan_right (x : Ext ℝ) : Scalar.eq x nan = false := by cases x <;> rfl
@[simp] theorem eq_pinf_pinf : Scalar.eq (pinf : Ext ℝ) pinf = true := rfl
@[simp] theorem eq_ninf_ninf : Scalar.eq (ninf : Ext ℝ) ninf = true := rfl
@[simp] theorem eq_pinf_ninf : Scalar.eq (pinf : Ext ℝ) ninf = false := rfl
@[simp] theorem eq_ninf_pinf : Scalar.eq (ninf : Ext ℝ) pinf = false := rfl
@[simp] theorem eq_fin_pinf (a : ℝ) : Scalar.eq (fin a) pinf = false := rfl
@[simp] theorem eq_fin_ninf (a : ℝ) : Scalar.eq (fin a) ninf = false := rfl
@[simp] theorem eq_pinf_fin (a : ℝ) : Scalar.eq pinf (fin a) = false := rfl
@[simp] theorem eq_ninf_fin (a : ℝ) : Scalar.eq ninf (fin a) = false := rfl
@[simp] theorem lt_pinf_left (x : Ext ℝ) : Scalar.lt pinf x = false := by cases x <;> rfl
@[simp] theorem lt_ninf_right (x : Ext ℝ) : Scalar.lt x ninf = false := by cases x <;> rfl
@[simp] theorem lt_fin_pinf (a : ℝ) : Scalar.lt (fin a) pinf = true := rfl
@[simp] theorem lt_ninf_pinf : Scalar.lt (ninf : Ext ℝ) pinf = true := rfl
@[simp] theorem lt_ninf_fin (a : ℝ) : Scalar.lt ninf (fin a) = true := rfl

@[simp] theorem le_fin (a b : ℝ) : Scalar.le (fin a) (fin b) = decide (a ≤ b) := by
  simp [Scalar.le, le_iff_lt_or_eq]

/-! special values in arithmetic -/
@[simp] theorem nan_add (x : Ext ℝ) : nan + x = nan := rfl
@[simp] theorem add_nan (x : Ext ℝ) : x + nan = nan := by cases x <;> rfl
@[simp] theorem nan_sub (x : Ext ℝ) : nan - x = nan := rfl
@[simp] theorem sub_nan (x : Ext ℝ) : x - nan = nan := by cases x <;> rfl
@[simp] theorem nan_mul (x : Ext ℝ) : nan * x = nan := rfl
@[simp] theorem mul_nan (x : Ext ℝ) : x * nan = nan := by cases x <;> rfl
@[simp] theorem nan_div (x : Ext ℝ) : nan / x = nan := rfl
@[simp] theorem div_nan (x : Ext ℝ) : x / nan = nan := by cases x <;> rfl
@[simp] theorem pinf_sub_fin (a : ℝ) : pinf - fin a = pinf := rfl
@[simp] theorem ninf_sub_fin (a : ℝ) : ninf - fin a = ninf := rfl
@[simp] theorem fin_sub_pinf (a : ℝ) : fin a - pinf = ninf := rfl
@[simp] theorem fin_sub_ninf (a : ℝ) : fin a - ninf = pinf := rfl
@[simp] theorem pinf_add_fin (a : ℝ) : pinf + fin a = pinf := rfl
@[simp] theorem ninf_add_fin (a : ℝ) : ninf + fin a = ninf := rfl
@[simp] theorem fin_add_pinf (a : ℝ) : fin a + pinf = pinf := rfl
@[simp] theorem fin_add_ninf (a : ℝ) : fin a + ninf = ninf := rfl
@[simp] theorem neg_pinf : (-pinf : Ext ℝ) = ninf := rfl
@[simp] theorem neg_ninf : (-ninf : Ext ℝ) = pinf := rfl
@[simp] theorem pinf_sub_pinf : (pinf - pinf : Ext ℝ) = nan := rfl
@[simp] theorem ninf_sub_ninf : (ninf - ninf : Ext ℝ) = nan := rfl
@[simp] theorem pinf_sub_ninf : (pinf - ninf : Ext ℝ) = pinf := rfl
@[simp] theorem ninf_sub_pinf : (ninf - pinf : Ext ℝ) = ninf := rfl
@[simp] theorem abs_nan : (Scalar.abs nan : Ext ℝ) = nan := rfl
@[simp] theorem abs_pinf : (Scalar.abs pinf : Ext ℝ) = pinf := rfl
@[simp] theorem abs_ninf : (Scalar.abs ninf : Ext ℝ) = pinf := rfl
@[simp] theorem fin_div_pinf (a : ℝ) : (fin a / pinf : Ext ℝ) = fin 0 := rfl
@[simp] theorem fin_div_ninf (a : ℝ) : (fin a / ninf : Ext ℝ) = fin 0 := rfl
@[simp] theorem exp_pinf : (Scalar.exp pinf : Ext ℝ) = pinf := rfl
@[simp] theorem exp_ninf : (Scalar.exp ninf : Ext ℝ) = fin 0 := rfl
theorem fin_mul_pinf (a : ℝ) (h : 0 < a) : (fin a * pinf : Ext ℝ) = pinf := by
  change signInf a = _
  simp [signInf, h]
theorem fin_mul_ninf (a : ℝ) (h : 0 < a) : (fin a * ninf : Ext ℝ) = ninf := by
  change signInf (-a) = _
  have : ¬ (0 < -a) := by linarith
  simp [signInf, h, this]
theorem fin_mul_pinf_neg (a : ℝ) (h : a < 0) : (fin a * pinf : Ext ℝ) = ninf := by
  change signInf a = _
  simp [signInf, h, not_lt.mpr h.le]
theorem fin_mul_ninf_neg (a : ℝ) (h : a < 0) : (fin a * ninf : Ext ℝ) = pinf := by
  change signInf (-a) = _
  simp [signInf, h]
theorem pinf_mul_fin (a : ℝ) (h : 0 < a) : (pinf * fin a : Ext ℝ) = pinf := by
  change signInf a = _
  simp [signInf, h]
theorem pinf_mul_fin_neg (a : ℝ) (h : a < 0) : (pinf * fin a : Ext ℝ) = ninf := by
  change signInf a = _
  simp [signInf, h, not_lt.mpr h.le]
theorem ninf_mul_fin (a : ℝ) (h : 0 < a) : (ninf * fin a : Ext ℝ) = ninf := by
  change signInf (-a) = _
  have : ¬ (0 < -a) := by linarith
  simp [signInf, h, this]
theorem pinf_div_fin (a : ℝ) (h : 0 ≤ a) : (pinf / fin a : Ext ℝ) = pinf := by
  change (if a < 0 then ninf else pinf) = _
  simp [not_lt.mpr h]
theorem pinf_div_fin_neg (a : ℝ) (h : a < 0) : (pinf / fin a : Ext ℝ) = ninf := by
  change (if a < 0 then ninf else pinf) = _
  simp [h]
theorem ninf_div_fin (a : ℝ) (h : 0 ≤ a) : (ninf / fin a : Ext ℝ) = ninf := by
  change (if a < 0 then pinf else ninf) = _
  simp [not_lt.mpr h]
theorem ninf_div_fin_neg (a : ℝ) (h : a < 0) : (ninf / fin a : Ext ℝ) = pinf := by
  change (if a < 0 then pinf else ninf) = _
  simp [h]

/-! `Op` on extended reals -/
@[simp] theorem isNaN_fin (a : ℝ) : Op.isNaN (fin a) = false := by simp [Op.isNaN]
@[simp] theorem isNaN_nan : Op.isNaN (nan : Ext ℝ) = true := by simp [Op.isNaN]
@[simp] theorem isNaN_pinf : Op.isNaN (pinf : Ext ℝ) = false := by simp [Op.isNaN]
@[simp] theorem isNaN_ninf : Op.isNaN (ninf : Ext ℝ) = false := by simp [Op.isNaN]
@[simp] theorem isFinite_fin (a : ℝ) : Op.isFinite (fin a) = true := by simp [Op.isFinite]
@[simp] theorem isFinite_nan : Op.isFinite (nan : Ext ℝ) = false := by simp [Op.isFinite]
@[simp] theorem isFinite_pinf : Op.isFinite (pinf : Ext ℝ) = false := by simp [Op.isFinite]
@[simp] theorem isFinite_ninf : Op.isFinite (ninf : Ext ℝ) = false := by simp [Op.isFinite]

theorem isNaN_iff (x : Ext ℝ) : Op.isNaN x = true ↔ x = nan := by cases x <;> simp

@[simp] theorem stdMin_fin (a b : ℝ) : Op.stdMin (fin a) (fin b) = fin (Min.min a b) := by
  simp only [Op.stdMin, lt_fin, decide_eq_true_eq]
  split_ifs with h
  · rw [min_eq_right h.le]
  · rw [min_eq_left (not_lt.mp h)]
@[simp] theorem stdMax_fin (a b : ℝ) : Op.stdMax (fin a) (fin b) = fin (Max.max a b) := by
  simp only [Op.stdMax, lt_fin, decide_eq_true_eq]
  split_ifs with h
  · rw [max_eq_right h.le]
  · rw [max_eq_left (not_lt.mp h)]
@[simp] theorem min_fin (a b : ℝ) : Op.min (fin a) (fin b) = fin (Min.min a b) := by
  simp [Op.min]
@[simp] theorem max_fin (a b : ℝ) : Op.max (fin a) (fin b) = fin (Max.max a b) := by
  simp [Op.max]
@[simp] theorem min_nan_left (x : Ext ℝ) : Op.min nan x = nan := by simp [Op.min]
@[simp] theorem min_nan_right (x : Ext ℝ) : Op.min x nan = nan := by simp [Op.min]
@[simp] theorem max_nan_left (x : Ext ℝ) : Op.max nan x = nan := by simp [Op.max]
@[simp] theorem max_nan_right (x : Ext ℝ) : Op.max x nan = nan := by simp [Op.max]

theorem isEqT_fin (e a b : ℝ) (he : 0 < e) :
    Op.isEqT (fin e) (fin a) (fin b) = decide (|a - b| < e) := by
  have h : (a = b ∨ |a - b| < e) ↔ |a - b| < e := by
    constructor
    · rintro (rfl | h)
      · simpa using he
      · exact h
    · exact Or.inr
  simp [Op.isEqT, ← Bool.decide_or, h]

theorem isLtT_fin (e a b : ℝ) (he : 0 < e) :
    Op.isLtT (fin e) (fin a) (fin b) = decide (a + e ≤ b) := by
  have h := isEqT_fin e a b he
  simp only [Op.isEqT] at h
  rw [Op.isLtT, h]
  simp only [lt_fin, ← decide_not, ← Bool.decide_and]
  congr 1
  rw [eq_iff_iff, not_lt, le_abs]
  constructor
  · rintro ⟨h1 | h1, h2⟩ <;> linarith
  · intro h; exact ⟨Or.inr (by linarith), by linarith⟩

theorem isGtT_fin (e a b : ℝ) (he : 0 < e) :
    Op.isGtT (fin e) (fin a) (fin b) = decide (b + e ≤ a) := by
  have h := isEqT_fin e a b he
  simp only [Op.isEqT] at h
  rw [Op.isGtT, h]
  simp only [Scalar.gt, lt_fin, ← decide_not, ← Bool.decide_and]
  congr 1
  rw [eq_iff_iff, not_lt, le_abs]
  constructor
  · rintro ⟨h1 | h1, h2⟩ <;> linarith
  · intro h; exact ⟨Or.inl (by linarith), by linarith⟩

theorem isLET_fin (e a b : ℝ) (he : 0 < e) :
    Op.isLET (fin e) (fin a) (fin b) = decide (a < b + e) := by
  have h := isEqT_fin e a b he
  simp only [Op.isEqT] at h
  rw [Op.isLET, h]
  simp only [lt_fin, ← Bool.decide_or]
  congr 1
  rw [eq_iff_iff, abs_lt]
  constructor
  · rintro (⟨h1, h2⟩ | h2) <;> linarith
  · intro h
    by_cases hab : a < b
    · exact Or.inr hab
    · exact Or.inl ⟨by linarith, by linarith⟩

theorem isGET_fin (e a b : ℝ) (he : 0 < e) :
    Op.isGET (fin e) (fin a) (fin b) = decide (b < a + e) := by
  have h := isEqT_fin e a b he
  simp only [Op.isEqT] at h
  rw [Op.isGET, h]
  simp only [Scalar.gt, lt_fin, ← Bool.decide_or]
  congr 1
  rw [eq_iff_iff, abs_lt]
  constructor
  · rintro (⟨h1, h2⟩ | h2) <;> linarith
  · intro h
    by_cases hab : b < a
    · exact Or.inr hab
    · exact Or.inl ⟨by linarith, by linarith⟩

@[simp] theorem isEq_fin (a b : ℝ) : Op.isEq (fin a) (fin b) = decide (|a - b| < tol) :=
  isEqT_fin _ _ _ tol_pos
@[simp] theorem isLt_fin (a b : ℝ) : Op.isLt (fin a) (fin b) = decide (a + tol ≤ b) :=
  isLtT_fin _ _ _ tol_pos
@[simp] theorem isGt_fin (a b : ℝ) : Op.isGt (fin a) (fin b) = decide (b + tol ≤ a) :=
  isGtT_fin _ _ _ tol_pos
@[simp] theorem isLE_fin (a b : ℝ) : Op.isLE (fin a) (fin b) = decide (a < b + tol) :=
  isLET_fin _ _ _ tol_pos
@[simp] theorem isGE_fin (a b : ℝ) : Op.isGE (fin a) (fin b) = decide (b < a + tol) :=
  isGET_fin _ _ _ tol_pos

/-! tolerant comparisons with infinities and NaN -/
theorem isEq_special (a : ℝ) :
    Op.isEq (fin a) pinf = false ∧ Op.isEq (fin a) ninf = false ∧
    Op.isEq pinf (fin a) = false ∧ Op.isEq ninf (fin a) = false := by
  refine ⟨?_, ?_, ?_, ?_⟩ <;> simp [Op.isEq, Op.isEqT]
@[simp] theorem isLt_fin_pinf (a : ℝ) : Op.isLt (fin a) pinf = true := by
  simp [Op.isLt, Op.isLtT]
@[simp] theorem isLt_fin_ninf (a : ℝ) : Op.isLt (fin a) ninf = false := by
  simp [Op.isLt, Op.isLtT]
@[simp] theorem isLt_pinf_fin (a : ℝ) : Op.isLt pinf (fin a) = false := by
  simp [Op.isLt, Op.isLtT]
@[simp] theorem isLt_ninf_fin (a : ℝ) : Op.isLt ninf (fin a) = true := by
  simp [Op.isLt, Op.isLtT]
@[simp] theorem isGt_fin_pinf (a : ℝ) : Op.isGt (fin a) pinf = false := by
  simp [Op.isGt, Op.isGtT]
@[simp] theorem isGt_fin_ninf (a : ℝ) : Op.isGt (fin a) ninf = true := by
  simp [Op.isGt, Op.isGtT, Scalar.gt]
@[simp] theorem isGt_pinf_fin (a : ℝ) : Op.isGt pinf (fin a) = true := by
  simp [Op.isGt, Op.isGtT, Scalar.gt]
@[simp] theorem isGt_ninf_fin (a : ℝ) : Op.isGt ninf (fin a) = false := by
  simp [Op.isGt, Op.isGtT]
@[simp] theorem isLE_fin_pinf (a : ℝ) : Op.isLE (fin a) pinf = true := by
  simp [Op.isLE, Op.isLET]
@[simp] theorem isLE_fin_ninf (a : ℝ) : Op.isLE (fin a) ninf = false := by
  simp [Op.isLE, Op.isLET]
@[simp] theorem isLE_pinf_fin (a : ℝ) : Op.isLE pinf (fin a) = false := by
  simp [Op.isLE, Op.isLET]
@[simp] theorem isLE_ninf_fin (a : ℝ) : Op.isLE ninf (fin a) = true := by
  simp [Op.isLE, Op.isLET]
@[simp] theorem isGE_fin_pinf (a : ℝ) : Op.isGE (fin a) pinf = false := by
  simp [Op.isGE, Op.isGET]
@[simp] theorem isGE_fin_ninf (a : ℝ) : Op.isGE (fin a) ninf = true := by
  simp [Op.isGE, Op.isGET, Scalar.gt]
@[simp] theorem isGE_pinf_fin (a : ℝ) : Op.isGE pinf (fin a) = true := by
  simp [Op.isGE, Op.isGET, Scalar.gt]
@[simp] theorem isGE_ninf_fin (a : ℝ) : Op.isGE ninf (fin a) = false := by
  simp [Op.isGE, Op.isGET]
@[simp] theorem isEq_fin_pinf (a : ℝ) : Op.isEq (fin a) pinf = false := (isEq_special a).1
@[simp] theorem isEq_fin_ninf (a : ℝ) : Op.isEq (fin a) ninf = false := (isEq_special a).2.1
@[simp] theorem isEq_pinf_fin (a : ℝ) : Op.isEq pinf (fin a) = false := (isEq_special a).2.2.1
@[simp] theorem isEq_ninf_fin (a : ℝ) : Op.isEq ninf (fin a) = false := (isEq_special a).2.2.2

@[simp] theorem isGt_nan_left (x : Ext ℝ) : Op.isGt nan x = false := by
  simp [Op.isGt, Op.isGtT]
@[simp] theorem isLt_nan_left (x : Ext ℝ) : Op.isLt nan x = false := by
  simp [Op.isLt, Op.isLtT]

theorem sqrt_fin' (a : ℝ) (h : 0 ≤ a) : Ext.sqrtR (fin a) = fin (Real.sqrt a) := sqrt_fin a h

end Ext
end FL
