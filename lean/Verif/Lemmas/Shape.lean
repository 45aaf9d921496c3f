/-
Closed forms of the membership functions for finite parameters.
-/
import Verif.Model.Shape
import Verif.Lemmas.Ext
import Mathlib.Tactic.Push

namespace FL
open Scalar Ext

namespace Ext
variable [Tol ℝ]

theorem pow_two_fin (a : ℝ) : (Scalar.pow (fin a) (fin (2 : ℝ)) : Ext ℝ) = fin (a ^ 2) := by
  change powR (fin a) (fin 2) = _
  have h2 : (⌊(2:ℝ)⌋ : ℤ) = 2 := by norm_num
  simp only [powR, Ext.fin.injEq, two_ne_zero, if_false]
  split_ifs with h1 h3 h4 h5
  · subst h1; norm_num
  · congr 1; exact Real.rpow_two a
  · subst h4; norm_num
  · exact absurd (by norm_num) h5
  · congr 1; rw [h2]; norm_cast
  · rename_i h6; rw [h2] at h6; norm_num at h6

theorem pow_fin_pos (a b : ℝ) (ha : 0 < a) : (Scalar.pow (fin a) (fin b) : Ext ℝ) = fin (a ^ b) := by
  change powR (fin a) (fin b) = _
  simp only [powR, Ext.fin.injEq]
  split_ifs with h1 h2
  · subst h1; simp
  · subst h2; simp
  · rfl

theorem pow_fin_zero (b : ℝ) (hb : 0 ≤ b) : (Scalar.pow (fin 0) (fin b) : Ext ℝ) = fin (0 ^ b) := by
  change powR (fin 0) (fin b) = _
  simp only [powR, Ext.fin.injEq]
  split_ifs with h1 h2 h3 h4
  · subst h1; simp
  · norm_num at h2
  · norm_num at h3
  · congr 1; rw [Real.zero_rpow h1]
  · exact absurd (lt_of_le_of_ne hb (Ne.symm h1)) h4

theorem pow_fin_zero_neg (b : ℝ) (hb : b < 0) : (Scalar.pow (fin 0) (fin b) : Ext ℝ) = pinf := by
  change powR (fin 0) (fin b) = _
  simp [powR, hb.ne, not_lt.mpr hb.le]

theorem pow_pinf (b : ℝ) : (Scalar.pow pinf (fin b) : Ext ℝ) =
    if b = 0 then fin 1 else if 0 < b then pinf else fin 0 := by
  change powR pinf (fin b) = _
  simp [powR]

theorem pi_fin : (piConst : Ext ℝ) = fin Real.pi := by
  have : (fn1 .atan (fin 1) : Ext ℝ) = fin (Real.arctan 1) := rfl
  simp only [piConst, ofRat_def, Rat.cast_one, this, mul_fin, Real.arctan_one]
  congr 1; push_cast; ring

@[simp] theorem isEq_nan_fin' (a : ℝ) : Op.isEq (nan) (fin a) = false := by
  simp [Op.isEq, Op.isEqT]

end Ext

namespace Shape

/-- apply a function to every parameter -/
def map {A B : Type} (f : A → B) : Shape A → Shape B
  | bell a b c => bell (f a) (f b) (f c)
  | binary a b => binary (f a) (f b)
  | concave a b => concave (f a) (f b)
  | cosine a b => cosine (f a) (f b)
  | gaussian a b => gaussian (f a) (f b)
  | gaussianProduct a b c d => gaussianProduct (f a) (f b) (f c) (f d)
  | piShape a b c d => piShape (f a) (f b) (f c) (f d)
  | ramp a b => ramp (f a) (f b)
  | rectangle a b => rectangle (f a) (f b)
  | sigmoid a b => sigmoid (f a) (f b)
  | sigmoidDifference a b c d => sigmoidDifference (f a) (f b) (f c) (f d)
  | sigmoidProduct a b c d => sigmoidProduct (f a) (f b) (f c) (f d)
  | spike a b => spike (f a) (f b)
  | sShape a b => sShape (f a) (f b)
  | trapezoid a b c d => trapezoid (f a) (f b) (f c) (f d)
  | triangle a b c => triangle (f a) (f b) (f c)
  | zShape a b => zShape (f a) (f b)

variable [Tol ℝ]

/-- Parameters for which the class is documented to be used: positive (non-zero) widths
and deviations, ordered vertices, a ramp whose ends differ beyond the tolerance,
and a non-zero slope. -/
def Ordered : Shape ℝ → Prop
  | bell _ w _ => w ≠ 0
  | binary _ _ => True
  | concave _ _ => True
  | cosine _ w => w ≠ 0
  | gaussian _ s => s ≠ 0
  | gaussianProduct _ sA _ sB => sA ≠ 0 ∧ sB ≠ 0
  | piShape bl tl tr br => bl ≤ tl ∧ tl ≤ tr ∧ tr ≤ br
  | ramp s e => tol ≤ |s - e|
  | rectangle _ _ => True
  | sigmoid _ s => s ≠ 0
  | sigmoidDifference _ r f _ => r ≠ 0 ∧ f ≠ 0
  | sigmoidProduct _ r f _ => r ≠ 0 ∧ f ≠ 0
  | spike _ w => w ≠ 0
  | sShape _ _ => True
  | trapezoid a b c d => a ≤ b ∧ b ≤ c ∧ c ≤ d
  | triangle a b c => a ≤ b ∧ b ≤ c
  | zShape _ _ => True

/-- increasing half of SShape and PiShape -/
noncomputable def sUnit (s e x : ℝ) : ℝ :=
  if x < s + tol then 0
  else if x < 1/2 * (s + e) + tol then 2 * ((x - s) / (e - s)) ^ 2
  else if x + tol ≤ e then 1 - 2 * ((x - e) / (e - s)) ^ 2
  else 1

/-- decreasing half of ZShape and PiShape -/
noncomputable def zUnit (s e x : ℝ) : ℝ :=
  if x < s + tol then 1
  else if x < 1/2 * (s + e) + tol then 1 - 2 * ((x - s) / (e - s)) ^ 2
  else if x + tol ≤ e then 2 * ((x - e) / (e - s)) ^ 2
  else 0

theorem zUnit_eq (s e x : ℝ) : zUnit s e x = 1 - sUnit s e x := by
  unfold zUnit sUnit; split_ifs <;> ring

/-- membership degree of finite `x` for height 1 -/
noncomputable def unit : Shape ℝ → ℝ → ℝ
  | bell c w s, x =>
    if x = c ∧ s < 0 then 0 else 1 / (1 + |(x - c) / w| ^ (2 * s))
  | binary s d, x =>
    if (s < d ∧ s < x + tol) ∨ (d < s ∧ x < s + tol) then 1 else 0
  | concave i e, x =>
    if i < e + tol then (if x + tol ≤ e then (e - i) / (2 * e - i - x) else 1)
    else (if e + tol ≤ x then (i - e) / (i - 2 * e + x) else 1)
  | cosine c w, x =>
    if x + tol ≤ c - 1/2 * w ∨ c + 1/2 * w + tol ≤ x then 0
    else 1/2 * (1 + Real.cos (2 / w * Real.pi * (x - c)))
  | gaussian m s, x => Real.exp (-(x - m) * (x - m) / (2 * s * s))
  | gaussianProduct mA sA mB sB, x =>
    (if x + tol ≤ mA then Real.exp (-(x - mA) * (x - mA) / (2 * sA * sA)) else 1) *
    (if mB + tol ≤ x then Real.exp (-(x - mB) * (x - mB) / (2 * sB * sB)) else 1)
  | piShape bl tl tr br, x => sUnit bl tl x * zUnit tr br x
  | ramp s e, x =>
    if s + tol ≤ e then (if x < s + tol then 0 else if e < x + tol then 1 else (x - s) / (e - s))
    else (if s < x + tol then 0 else if x < e + tol then 1 else (s - x) / (s - e))
  | rectangle s e, x => if s < x + tol ∧ x < e + tol then 1 else 0
  | sigmoid i s, x => 1 / (1 + Real.exp (-s * (x - i)))
  | sigmoidDifference l r f rt, x =>
    |1 / (1 + Real.exp (-r * (x - l))) - 1 / (1 + Real.exp (-f * (x - rt)))|
  | sigmoidProduct l r f rt, x =>
    1 / ((1 + Real.exp (-r * (x - l))) * (1 + Real.exp (-f * (x - rt))))
  | spike c w, x => Real.exp (-|10 / w * (x - c)|)
  | sShape s e, x => sUnit s e x
  | trapezoid a b c d, x =>
    if x + tol ≤ a ∨ d + tol ≤ x then 0
    else if x + tol ≤ b then Min.min 1 ((x - a) / (b - a))
    else if x < c + tol then 1
    else if x + tol ≤ d then (d - x) / (d - c)
    else 0
  | triangle a b c, x =>
    if x + tol ≤ a ∨ c + tol ≤ x then 0
    else if |x - b| < tol then 1
    else if x + tol ≤ b then (x - a) / (b - a)
    else (c - x) / (c - b)
  | zShape s e, x => zUnit s e x

theorem exp_add_ne (u : ℝ) : (1 + Real.exp u) ≠ 0 := by positivity

/-- the common part of SShape and PiShape on extended numbers -/
theorem sUnit_fin (s e x : ℝ) :
    (if Op.isLE (fin x) (fin s) then (lit 0 : Ext ℝ)
        else if Op.isLE (fin x) (lit (1/2) * (fin s + fin e)) then
          lit 2 * pow ((fin x - fin s) / (fin e - fin s)) (lit 2)
        else if Op.isLt (fin x) (fin e) then
          lit 1 - lit 2 * pow ((fin x - fin e) / (fin e - fin s)) (lit 2)
        else lit 1) = fin (sUnit s e x) := by
  have tp := tol_pos
  simp only [ofRat_def, add_fin, mul_fin, sub_fin, isLE_fin, isLt_fin, decide_eq_true_eq, sUnit]
  push_cast
  split_ifs with h1 h2 h3
  · rfl
  · rw [div_fin _ _ (by intro h0; linarith), pow_two_fin, mul_fin]
  · rw [div_fin _ _ (by intro h0; linarith), pow_two_fin, mul_fin, sub_fin]
  · rfl

theorem zUnit_fin (s e x : ℝ) :
    (if Op.isLE (fin x) (fin s) then (lit 1 : Ext ℝ)
        else if Op.isLE (fin x) (lit (1/2) * (fin s + fin e)) then
          lit 1 - lit 2 * pow ((fin x - fin s) / (fin e - fin s)) (lit 2)
        else if Op.isLt (fin x) (fin e) then
          lit 2 * pow ((fin x - fin e) / (fin e - fin s)) (lit 2)
        else lit 0) = fin (zUnit s e x) := by
  have tp := tol_pos
  simp only [ofRat_def, add_fin, mul_fin, sub_fin, isLE_fin, isLt_fin, decide_eq_true_eq, zUnit]
  push_cast
  split_ifs with h1 h2 h3
  · rfl
  · rw [div_fin _ _ (by intro h0; linarith), pow_two_fin, mul_fin, sub_fin]
  · rw [div_fin _ _ (by intro h0; linarith), pow_two_fin, mul_fin]
  · rfl

theorem membership_fin (sh : Shape ℝ) (hw : sh.Ordered) (h x : ℝ) :
    (sh.map fin).membership (fin h) (fin x) = fin (h * sh.unit x) := by
  have tp := tol_pos
  cases sh with
  | bell c w s =>
    simp only [Ordered] at hw
    simp only [map, membership, isNaN_fin, unit, sub_fin, ofRat_def, mul_fin, div_fin _ _ hw, abs_fin,
      Bool.false_eq_true, if_false]
    push_cast
    by_cases hx : x = c
    · subst hx
      by_cases hs : s < 0
      · simp only [sub_self, zero_div, abs_zero]
        rw [pow_fin_zero_neg _ (by linarith)]
        simp [hs]
      · simp only [sub_self, zero_div, abs_zero]
        rw [pow_fin_zero _ (by linarith), add_fin, div_fin _ _ (by positivity)]
        simp [hs]
    · have : 0 < |(x - c) / w| := abs_pos.mpr (div_ne_zero (sub_ne_zero.mpr hx) hw)
      rw [pow_fin_pos _ _ this, add_fin, div_fin _ _ (by positivity)]
      simp [hx]
  | binary s d =>
    simp only [map, membership, isNaN_fin, unit, ofRat_def, mul_fin, Scalar.gt, lt_fin, isGE_fin, isLE_fin,
      Bool.and_eq_true, decide_eq_true_eq, Bool.false_eq_true, if_false]
    push_cast
    by_cases h1 : s < d ∧ s < x + tol
    · simp [h1]
    · by_cases h2 : d < s ∧ x < s + tol
      · simp [h1, h2]
      · simp [h1, h2]
  | concave i e =>
    simp only [map, membership, isNaN_fin, unit, sub_fin, add_fin, ofRat_def, mul_fin, isLE_fin, isLt_fin, isGt_fin,
      decide_eq_true_eq, Bool.false_eq_true, if_false]
    push_cast
    split_ifs with h1 h2 h2
    · rw [div_fin _ _ (by intro h0; linarith), mul_div_assoc]
    · rfl
    · rw [div_fin _ _ (by intro h0; linarith), mul_div_assoc]
    · rfl
  | cosine c w =>
    simp only [Ordered] at hw
    simp only [map, membership, isNaN_fin, unit, sub_fin, add_fin, ofRat_def, mul_fin, isGt_fin, isLt_fin, pi_fin,
      div_fin _ _ hw, cos_fin, Bool.or_eq_true,
      decide_eq_true_eq, Bool.false_eq_true, if_false]
    push_cast
    split_ifs <;> simp
  | gaussian m s =>
    simp only [Ordered] at hw
    simp only [map, membership, isNaN_fin, unit, sub_fin, ofRat_def, mul_fin, neg_fin, Bool.false_eq_true, if_false]
    push_cast
    rw [div_fin _ _ (by positivity), exp_fin, mul_fin]
  | gaussianProduct mA sA mB sB =>
    simp only [Ordered] at hw
    obtain ⟨hA, hB⟩ := hw
    simp only [map, membership, isNaN_fin, unit, sub_fin, ofRat_def, mul_fin, neg_fin, isLt_fin, isGt_fin,
      decide_eq_true_eq, Bool.false_eq_true, if_false]
    push_cast
    rw [div_fin _ (2 * sA * sA) (by positivity), div_fin _ (2 * sB * sB) (by positivity), exp_fin, exp_fin]
    split_ifs <;> simp [mul_assoc]
  | piShape bl tl tr br =>
    simp only [map, membership, isNaN_fin, unit, Bool.false_eq_true, if_false]
    rw [sUnit_fin, zUnit_fin, mul_fin, mul_fin, mul_assoc]
  | ramp s e =>
    simp only [Ordered] at hw
    simp only [map, membership, isNaN_fin, unit, sub_fin, ofRat_def, mul_fin, isLE_fin, isGE_fin, isLt_fin, isEq_fin,
      Bool.false_or, decide_eq_true_eq, not_lt.mpr hw, if_false]
    push_cast
    have hne : s ≠ e := by rintro rfl; simp at hw; linarith
    rw [div_fin _ (e - s) (sub_ne_zero.mpr (Ne.symm hne)), div_fin _ (s - e) (sub_ne_zero.mpr hne)]
    split_ifs <;> simp [mul_div_assoc]
  | rectangle s e =>
    simp only [map, membership, isNaN_fin, unit, ofRat_def, mul_fin, isLE_fin, isGE_fin, Bool.and_eq_true,
      decide_eq_true_eq, Bool.false_eq_true, if_false]
    push_cast
    split_ifs <;> rfl
  | sigmoid i s =>
    simp only [map, membership, isNaN_fin, unit, sub_fin, ofRat_def, mul_fin, neg_fin, exp_fin, add_fin,
      Bool.false_eq_true, if_false]
    push_cast
    rw [div_fin _ _ (exp_add_ne _), mul_div_assoc]
  | sigmoidDifference l r f rt =>
    simp only [map, membership, isNaN_fin, unit, sub_fin, ofRat_def, mul_fin, neg_fin, exp_fin, add_fin,
      Bool.false_eq_true, if_false]
    push_cast
    rw [div_fin _ _ (exp_add_ne _), div_fin _ _ (exp_add_ne _), sub_fin, abs_fin, mul_fin]
  | sigmoidProduct l r f rt =>
    simp only [map, membership, isNaN_fin, unit, sub_fin, ofRat_def, mul_fin, neg_fin, exp_fin, add_fin,
      Bool.false_eq_true, if_false]
    push_cast
    rw [div_fin _ _ (mul_ne_zero (exp_add_ne _) (exp_add_ne _)), mul_div_assoc]
  | spike c w =>
    simp only [Ordered] at hw
    simp only [map, membership, isNaN_fin, unit, sub_fin, ofRat_def, mul_fin, neg_fin, exp_fin, abs_fin, div_fin _ _ hw,
      Bool.false_eq_true, if_false]
    push_cast
    rfl
  | sShape s e =>
    have := congrArg (fun z => (fin h : Ext ℝ) * z) (sUnit_fin s e x)
    simp only [mul_fin] at this
    simp only [map, membership, isNaN_fin, unit, Bool.false_eq_true, if_false]
    rw [← this]
    split_ifs <;> rfl
  | trapezoid a b c d =>
    simp only [Ordered] at hw
    simp only [map, membership, isNaN_fin, unit, sub_fin, ofRat_def, mul_fin, isLE_fin, isLt_fin, isGt_fin, Bool.or_eq_true,
      inf_def, ninf_def, eq_fin_pinf, eq_fin_ninf,
      decide_eq_true_eq, Bool.false_eq_true, if_false]
    push_cast
    split_ifs with h1 h2 h3 h4
    · rfl
    · push Not at h1
      rw [div_fin _ _ (by intro h0; linarith [h1.1]), min_fin, mul_fin]
    · rfl
    · push Not at h1
      rw [div_fin _ _ (by intro h0; linarith [h1.1]), mul_div_assoc]
    · rfl
  | triangle a b c =>
    simp only [Ordered] at hw
    simp only [map, membership, isNaN_fin, unit, sub_fin, ofRat_def, mul_fin, isEq_fin, isLt_fin, isGt_fin, Bool.or_eq_true,
      inf_def, ninf_def, eq_fin_pinf, eq_fin_ninf,
      decide_eq_true_eq, Bool.false_eq_true, if_false]
    push_cast
    split_ifs with h1 h2 h3
    · rfl
    · rfl
    · push Not at h1
      rw [div_fin _ _ (by intro h0; linarith [h1.1]), mul_div_assoc]
    · push Not at h1
      rw [abs_lt] at h2
      rw [div_fin _ _ (by intro h0; apply h2; constructor <;> linarith [h1.2]), mul_div_assoc]
  | zShape s e =>
    have := congrArg (fun z => (fin h : Ext ℝ) * z) (zUnit_fin s e x)
    simp only [mul_fin] at this
    simp only [map, membership, isNaN_fin, unit, Bool.false_eq_true, if_false]
    rw [← this]
    split_ifs <;> rfl

end Shape
end FL

namespace FL
open Scalar Ext

namespace Ext
variable [Tol ℝ]
theorem ninf_mul_fin_neg (a : ℝ) (h : a < 0) : (ninf * fin a : Ext ℝ) = pinf := by
  change signInf (-a) = _
  simp [signInf, h]
@[simp] theorem ninf_mul_pinf : (ninf * pinf : Ext ℝ) = ninf := rfl
@[simp] theorem pinf_mul_ninf : (pinf * ninf : Ext ℝ) = ninf := rfl
@[simp] theorem pinf_mul_pinf : (pinf * pinf : Ext ℝ) = pinf := rfl
end Ext

namespace Shape
variable [Tol ℝ]

/-- the argument `+inf` (`true`) or `-inf` (`false`) -/
def infOf (p : Bool) : Ext ℝ := if p then Ext.pinf else Ext.ninf

/-- membership degree of an infinite argument for height 1 -/
noncomputable def unitInf (p : Bool) : Shape ℝ → ℝ
  | bell _ _ s => if s = 0 then 1/2 else if 0 < s then 0 else 1
  | binary s d => if (p = true ∧ s < d) ∨ (p = false ∧ d < s) then 1 else 0
  | concave i e => if (p = true ∧ i < e + tol) ∨ (p = false ∧ e + tol ≤ i) then 1 else 0
  | ramp s e => if (p = true ∧ s + tol ≤ e) ∨ (p = false ∧ ¬ s + tol ≤ e) then 1 else 0
  | sigmoid _ s => if (p = true ∧ 0 < s) ∨ (p = false ∧ s < 0) then 1 else 0
  | sigmoidDifference _ r f _ =>
    |(if (p = true ∧ 0 < r) ∨ (p = false ∧ r < 0) then (1:ℝ) else 0)
      - (if (p = true ∧ 0 < f) ∨ (p = false ∧ f < 0) then 1 else 0)|
  | sigmoidProduct _ r f _ =>
    (if (p = true ∧ 0 < r) ∨ (p = false ∧ r < 0) then (1:ℝ) else 0)
      * (if (p = true ∧ 0 < f) ∨ (p = false ∧ f < 0) then 1 else 0)
  | sShape _ _ => if p then 1 else 0
  | zShape _ _ => if p then 0 else 1
  | _ => 0

/-- `exp(-s * (x - i))` at an infinite `x` -/
theorem exp_slope_inf (p : Bool) (s i : ℝ) (hs : s ≠ 0) :
    (exp (-fin s * (infOf p - fin i)) : Ext ℝ) =
      if (p = true ∧ 0 < s) ∨ (p = false ∧ s < 0) then fin 0 else pinf := by
  rcases lt_or_gt_of_ne hs with h | h <;> cases p <;>
    simp [infOf, fin_mul_pinf, fin_mul_ninf, fin_mul_pinf_neg, fin_mul_ninf_neg, h, not_lt.mpr h.le]

theorem membership_inf (p : Bool) (sh : Shape ℝ) (hw : sh.Ordered) (h : ℝ) :
    (sh.map fin).membership (fin h) (infOf p) = fin (h * sh.unitInf p) := by
  have tp := tol_pos
  cases sh with
  | bell c w s =>
    have hw' : w ≠ 0 := hw
    have e1 : (Scalar.abs ((infOf p - fin c) / fin w) : Ext ℝ) = pinf := by
      rcases lt_or_gt_of_ne hw' with h | h <;> cases p <;>
        simp [infOf, pinf_div_fin, pinf_div_fin_neg, ninf_div_fin, ninf_div_fin_neg, h, h.le]
    have e0 : Op.isNaN (infOf p) = false := by cases p <;> simp [infOf]
    simp only [map, membership, unitInf, e1, e0, ofRat_def, mul_fin, pow_pinf, Bool.false_eq_true, if_false]
    by_cases h0 : s = 0
    · subst h0
      simp only [mul_zero, if_true, add_fin]
      rw [div_fin _ _ (by norm_num), mul_fin]; norm_num
    · by_cases h1 : 0 < s
      · simp [h0, h1]
      · have : ¬ (0 < 2 * s) := by linarith
        simp only [Rat.cast_ofNat, mul_eq_zero, OfNat.ofNat_ne_zero, h0, false_or, if_false, this, h1, add_fin]
        rw [div_fin _ _ (by norm_num)]; norm_num
  | binary s d =>
    cases p <;> simp [infOf, map, membership, unitInf, Scalar.gt] <;> split_ifs <;> simp
  | concave i e =>
    cases p
    · by_cases h1 : i < e + tol
      · simp [infOf, map, membership, unitInf, h1, not_le.mpr h1]
      · simp [infOf, map, membership, unitInf, h1, not_lt.mp h1]
    · by_cases h1 : i < e + tol
      · simp [infOf, map, membership, unitInf, h1]
      · simp [infOf, map, membership, unitInf, h1]
  | cosine c w =>
    cases p <;> simp [infOf, map, membership, unitInf]
  | gaussian m s =>
    have hw' : s ≠ 0 := hw
    have hp : (0:ℝ) ≤ 2 * s * s := by nlinarith [mul_self_nonneg s]
    cases p <;> simp [infOf, map, membership, unitInf, ninf_div_fin _ hp]
  | gaussianProduct mA sA mB sB =>
    have h1 : (0:ℝ) ≤ 2 * sA * sA := by nlinarith [mul_self_nonneg sA]
    have h2 : (0:ℝ) ≤ 2 * sB * sB := by nlinarith [mul_self_nonneg sB]
    cases p <;> simp [infOf, map, membership, unitInf, ninf_div_fin _ h1, ninf_div_fin _ h2]
  | piShape bl tl tr br =>
    cases p <;> simp [infOf, map, membership, unitInf]
  | ramp s e =>
    have hw' : ¬ (|s - e| < tol) := not_lt.mpr hw
    cases p <;> by_cases h1 : s + tol ≤ e <;> simp [infOf, map, membership, unitInf, hw', h1]
  | rectangle s e =>
    cases p <;> simp [infOf, map, membership, unitInf]
  | sigmoid i s =>
    have e0 : Op.isNaN (infOf p) = false := by cases p <;> simp [infOf]
    simp only [map, membership, unitInf, e0, exp_slope_inf p s i hw, ofRat_def, mul_fin, Bool.false_eq_true, if_false]
    split_ifs
    · rw [add_fin, div_fin _ _ (by norm_num)]; norm_num
    · simp
  | sigmoidDifference l r f rt =>
    have e0 : Op.isNaN (infOf p) = false := by cases p <;> simp [infOf]
    simp only [map, membership, unitInf, e0, exp_slope_inf p r l hw.1, exp_slope_inf p f rt hw.2, ofRat_def,
      Bool.false_eq_true, if_false]
    have d1 : (fin ((1:ℚ):ℝ) / (fin ((1:ℚ):ℝ) + fin 0) : Ext ℝ) = fin 1 := by
      rw [add_fin, div_fin _ _ (by norm_num)]; norm_num
    split_ifs <;> simp only [d1, fin_add_pinf, fin_div_pinf, sub_fin, abs_fin, mul_fin]
  | sigmoidProduct l r f rt =>
    have e0 : Op.isNaN (infOf p) = false := by cases p <;> simp [infOf]
    simp only [map, membership, unitInf, e0, exp_slope_inf p r l hw.1, exp_slope_inf p f rt hw.2, ofRat_def,
      Bool.false_eq_true, if_false, mul_fin]
    have d1 : (fin ((1:ℚ):ℝ) + fin 0 : Ext ℝ) = fin 1 := by
      rw [add_fin]; norm_num
    have d2 : (fin ((1:ℚ):ℝ) + pinf : Ext ℝ) = pinf := rfl
    split_ifs <;> simp only [d1, d2, mul_fin, fin_mul_pinf _ one_pos, pinf_mul_fin _ one_pos, pinf_mul_pinf,
      fin_div_pinf]
    · rw [div_fin _ _ (by norm_num)]; norm_num
    all_goals norm_num
  | spike c w =>
    have hw' : w ≠ 0 := hw
    have e0 : Op.isNaN (infOf p) = false := by cases p <;> simp [infOf]
    have hne : (10:ℝ) / w ≠ 0 := div_ne_zero (by norm_num) hw'
    have e1 : (Scalar.abs (fin (10 / w) * (infOf p - fin c)) : Ext ℝ) = pinf := by
      rcases lt_or_gt_of_ne hne with h | h <;> cases p <;>
        simp [infOf, fin_mul_pinf, fin_mul_pinf_neg, fin_mul_ninf, fin_mul_ninf_neg, h]
    simp only [map, membership, unitInf, e0, ofRat_def, div_fin _ _ hw', Bool.false_eq_true, if_false]
    push_cast
    rw [e1]; simp
  | sShape s e =>
    cases p <;> simp [infOf, map, membership, unitInf]
  | trapezoid a b c d =>
    cases p <;> simp [infOf, map, membership, unitInf]
  | triangle a b c =>
    cases p <;> simp [infOf, map, membership, unitInf]
  | zShape s e =>
    cases p <;> simp [infOf, map, membership, unitInf]

end Shape
end FL
