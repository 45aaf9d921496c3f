/-
Closed forms of the norms on the unit square, over the real numbers.
-/
import Verif.Model.Norm
import Verif.Lemmas.Ext

namespace FL
open Scalar Ext
variable [Tol ℝ]

/-- Real closed form of the T-Norms on `[0,1]²`. -/
noncomputable def TNormKind.real : TNormKind → ℝ → ℝ → ℝ
  | .algebraicProduct, a, b => a * b
  | .boundedDifference, a, b => max 0 (a + b - 1)
  | .drasticProduct, a, b => if 1 - tol < max a b then min a b else 0
  | .einsteinProduct, a, b => (a * b) / (2 - (a + b - a * b))
  | .hamacherProduct, a, b => if a + b < tol then 0 else (a * b) / (a + b - a * b)
  | .minimum, a, b => min a b
  | .nilpotentMinimum, a, b => if 1 + tol ≤ a + b then min a b else 0

noncomputable def SNormKind.real : SNormKind → ℝ → ℝ → ℝ
  | .algebraicSum, a, b => a + b - a * b
  | .boundedSum, a, b => min 1 (a + b)
  | .drasticSum, a, b => if min a b < tol then max a b else 1
  | .einsteinSum, a, b => (a + b) / (1 + a * b)
  | .hamacherSum, a, b => if 1 - tol < a * b then 1 else (a + b - 2 * a * b) / (1 - a * b)
  | .maximum, a, b => max a b
  | .nilpotentMaximum, a, b => if a + b + tol ≤ 1 then max a b else 1
  | .normalizedSum, a, b => min 1 (a + b)
  | .unboundedSum, a, b => a + b

theorem TNormKind.compute_fin (k : TNormKind) (a b : ℝ) (ha : 0 ≤ a) (ha1 : a ≤ 1)
    (hb : 0 ≤ b) (hb1 : b ≤ 1) : k.compute (fin a) (fin b) = fin (k.real a b) := by
  have ht := tol_pos
  have hab : a * b ≤ 1 := mul_le_one₀ ha1 hb hb1
  cases k <;> simp only [TNormKind.compute, TNormKind.real, mul_fin, add_fin, sub_fin, ofRat_def,
    Rat.cast_zero, Rat.cast_one, max_fin, min_fin, isEq_fin, isGt_fin, decide_eq_true_eq, sub_zero]
  case drasticProduct =>
    have : |max a b - 1| < tol ↔ 1 - tol < max a b := by
      have : max a b ≤ 1 := max_le ha1 hb1
      rw [abs_lt]; constructor
      · intro h; linarith [h.1]
      · intro h; constructor <;> linarith
    simp only [this]
    split <;> rfl
  case einsteinProduct =>
    rw [div_fin]
    · norm_num
    · norm_num; nlinarith
  case hamacherProduct =>
    rw [abs_of_nonneg (by linarith)]
    split_ifs with h
    · rfl
    · rw [div_fin]
      nlinarith
  case nilpotentMinimum => split <;> rfl

theorem SNormKind.compute_fin (k : SNormKind) (a b : ℝ) (ha : 0 ≤ a) (ha1 : a ≤ 1)
    (hb : 0 ≤ b) (hb1 : b ≤ 1) : k.compute (fin a) (fin b) = fin (k.real a b) := by
  have ht := tol_pos
  have hab : a * b ≤ 1 := mul_le_one₀ ha1 hb hb1
  have hab0 : 0 ≤ a * b := mul_nonneg ha hb
  cases k <;> simp only [SNormKind.compute, SNormKind.real, mul_fin, add_fin, sub_fin, ofRat_def,
    Rat.cast_zero, Rat.cast_one, max_fin, min_fin, isEq_fin, isLt_fin, decide_eq_true_eq, sub_zero]
  case drasticSum =>
    rw [abs_of_nonneg (le_min ha hb)]
    split <;> rfl
  case einsteinSum =>
    rw [div_fin]
    positivity
  case hamacherSum =>
    have : |a * b - 1| < tol ↔ 1 - tol < a * b := by
      rw [abs_lt]; constructor
      · intro h; linarith [h.1]
      · intro h; constructor <;> linarith
    simp only [this]
    split_ifs with h
    · rfl
    · rw [div_fin]
      · norm_num
      · linarith
  case nilpotentMaximum => split <;> rfl
  case normalizedSum =>
    rw [div_fin _ _ (by positivity)]
    congr 1
    rcases le_total 1 (a + b) with h | h
    · rw [max_eq_right h, min_eq_left h, div_self]; linarith
    · rw [max_eq_left h, min_eq_right h, div_one]

end FL
