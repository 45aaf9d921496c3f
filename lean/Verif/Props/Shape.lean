/-
C14-C16: membership degrees of the parametric terms.
-/
import Verif.Lemmas.Shape

namespace FL
open Scalar Ext
namespace Shape
variable [Tol ℝ]

/-- Where the degrees provably stay in `[0, height]`: the two edges of S/Z/Pi shapes
are either not increasing or at least five tolerances wide, a Concave is not in the
ambiguous band `end < inflection < end + eps`, and `x` is not in the tolerance
band just outside the feet of a Triangle or the left foot of a Trapezoid. -/
def Safe (x : ℝ) : Shape ℝ → Prop
  | concave i e => i ≤ e ∨ e + tol ≤ i
  | piShape bl tl tr br => (tl ≤ bl ∨ bl + 5 * tol ≤ tl) ∧ (br ≤ tr ∨ tr + 5 * tol ≤ br)
  | sShape s e => e ≤ s ∨ s + 5 * tol ≤ e
  | zShape s e => e ≤ s ∨ s + 5 * tol ≤ e
  | trapezoid a _ _ _ => x ≤ a - tol ∨ a ≤ x
  | triangle a _ c => (x ≤ a - tol ∨ a ≤ x) ∧ (x ≤ c ∨ c + tol ≤ x)
  | _ => True

theorem sUnit_range (s e x : ℝ) (hs : e ≤ s ∨ s + 5 * tol ≤ e) : 0 ≤ sUnit s e x ∧ sUnit s e x ≤ 1 := by
  have tp := tol_pos
  unfold sUnit
  split_ifs with h1 h2 h3
  · norm_num
  · have hse : s + 5 * tol ≤ e := by
      rcases hs with h | h
      · linarith
      · exact h
    have hp : 0 < e - s := by linarith
    have r0 : 0 ≤ (x - s) / (e - s) := div_nonneg (by linarith) hp.le
    have r1 : (x - s) / (e - s) ≤ 7/10 := by
      rw [div_le_iff₀ hp]; linarith
    constructor <;> nlinarith
  · have hp : 0 < e - s := by linarith
    have r0 : -1/2 ≤ (x - e) / (e - s) := by rw [le_div_iff₀ hp]; linarith
    have r1 : (x - e) / (e - s) ≤ 0 := div_nonpos_of_nonpos_of_nonneg (by linarith) hp.le
    constructor <;> nlinarith
  · norm_num

theorem zUnit_range (s e x : ℝ) (hs : e ≤ s ∨ s + 5 * tol ≤ e) : 0 ≤ zUnit s e x ∧ zUnit s e x ≤ 1 := by
  have := sUnit_range s e x hs
  rw [zUnit_eq]; constructor <;> linarith

theorem sigm_range (u : ℝ) : 0 ≤ 1 / (1 + Real.exp u) ∧ 1 / (1 + Real.exp u) ≤ 1 := by
  have := Real.exp_pos u
  refine ⟨by positivity, ?_⟩
  rw [div_le_one (by positivity)]; linarith

theorem exp_le_one' {u : ℝ} (h : u ≤ 0) : 0 ≤ Real.exp u ∧ Real.exp u ≤ 1 :=
  ⟨(Real.exp_pos u).le, Real.exp_le_one_iff.mpr h⟩

theorem gauss_range (m s x : ℝ) : 0 ≤ Real.exp (-(x - m) * (x - m) / (2 * s * s)) ∧
    Real.exp (-(x - m) * (x - m) / (2 * s * s)) ≤ 1 := by
  apply exp_le_one'
  apply div_nonpos_of_nonpos_of_nonneg
  · nlinarith [mul_self_nonneg (x - m)]
  · nlinarith [mul_self_nonneg s]

theorem unit_range (sh : Shape ℝ) (x : ℝ) (hw : sh.Ordered) (hs : sh.Safe x) :
    0 ≤ sh.unit x ∧ sh.unit x ≤ 1 := by
  have tp := tol_pos
  cases sh with
  | bell c w s =>
    simp only [unit]
    split_ifs
    · norm_num
    · have : 0 ≤ |(x - c) / w| ^ (2 * s) := Real.rpow_nonneg (abs_nonneg _) _
      refine ⟨by positivity, ?_⟩
      rw [div_le_one (by positivity)]; linarith
  | binary s d => simp only [unit]; split_ifs <;> norm_num
  | concave i e =>
    simp only [unit, Safe] at *
    split_ifs with h1 h2 h2
    · have : i ≤ e := by rcases hs with h | h <;> linarith
      have hp : 0 < 2 * e - i - x := by linarith
      exact ⟨div_nonneg (by linarith) hp.le, by rw [div_le_one hp]; linarith⟩
    · norm_num
    · have hp : 0 < i - 2 * e + x := by linarith
      exact ⟨div_nonneg (by linarith) hp.le, by rw [div_le_one hp]; linarith⟩
    · norm_num
  | cosine c w =>
    simp only [unit]
    split_ifs
    · norm_num
    · have h1 := Real.neg_one_le_cos (2 / w * Real.pi * (x - c))
      have h2 := Real.cos_le_one (2 / w * Real.pi * (x - c))
      constructor <;> linarith
  | gaussian m s => exact gauss_range m s x
  | gaussianProduct mA sA mB sB =>
    have h1 := gauss_range mA sA x
    have h2 := gauss_range mB sB x
    simp only [unit]
    split_ifs
    · exact ⟨mul_nonneg h1.1 h2.1, mul_le_one₀ h1.2 h2.1 h2.2⟩
    · simpa using h1
    · simpa using h2
    · norm_num
  | piShape bl tl tr br =>
    have h1 := sUnit_range bl tl x hs.1
    have h2 := zUnit_range tr br x hs.2
    exact ⟨mul_nonneg h1.1 h2.1, mul_le_one₀ h1.2 h2.1 h2.2⟩
  | ramp s e =>
    simp only [unit]
    split_ifs with h1 h2 h3 h2 h3
    · norm_num
    · norm_num
    · have hp : 0 < e - s := by linarith
      exact ⟨div_nonneg (by linarith) hp.le, by rw [div_le_one hp]; linarith⟩
    · norm_num
    · norm_num
    · have hp : 0 < s - e := by linarith
      exact ⟨div_nonneg (by linarith) hp.le, by rw [div_le_one hp]; linarith⟩
  | rectangle s e => simp only [unit]; split_ifs <;> norm_num
  | sigmoid i s => exact sigm_range _
  | sigmoidDifference l r f rt =>
    simp only [unit]
    refine ⟨abs_nonneg _, ?_⟩
    have h1 := sigm_range (-r * (x - l))
    have h2 := sigm_range (-f * (x - rt))
    rw [abs_le]; constructor <;> linarith [h1.1, h1.2, h2.1, h2.2]
  | sigmoidProduct l r f rt =>
    simp only [unit]
    have h1 := sigm_range (-r * (x - l))
    have h2 := sigm_range (-f * (x - rt))
    rw [← one_div_mul_one_div]
    exact ⟨mul_nonneg h1.1 h2.1, mul_le_one₀ h1.2 h2.1 h2.2⟩
  | spike c w => exact exp_le_one' (neg_nonpos.mpr (abs_nonneg _))
  | sShape s e => exact sUnit_range s e x hs
  | trapezoid a b c d =>
    simp only [unit, Safe, Ordered] at *
    split_ifs with h1 h2 h3 h4
    · norm_num
    · push Not at h1
      have ha : a ≤ x := by rcases hs with h | h <;> linarith [h1.1]
      exact ⟨le_min zero_le_one (div_nonneg (by linarith) (by linarith)), min_le_left _ _⟩
    · norm_num
    · have hp : 0 < d - c := by linarith
      exact ⟨div_nonneg (by linarith) hp.le, by rw [div_le_one hp]; linarith⟩
    · norm_num
  | triangle a b c =>
    simp only [unit, Safe, Ordered] at *
    split_ifs with h1 h2 h3
    · norm_num
    · norm_num
    · push Not at h1
      have ha : a ≤ x := by rcases hs.1 with h | h <;> linarith [h1.1]
      have hp : 0 < b - a := by linarith
      exact ⟨div_nonneg (by linarith) hp.le, by rw [div_le_one hp]; linarith⟩
    · push Not at h1
      have hc : x ≤ c := by rcases hs.2 with h | h <;> linarith [h1.2]
      have hx : b + tol ≤ x := by
        rcases lt_abs.mp (lt_of_lt_of_le (sub_lt_self tol tp) (not_lt.mp h2)) with h | h
        · rcases le_abs.mp (not_lt.mp h2) with g | g <;> linarith
        · rcases le_abs.mp (not_lt.mp h2) with g | g <;> linarith
      have hp : 0 < c - b := by linarith
      exact ⟨div_nonneg (by linarith) hp.le, by rw [div_le_one hp]; linarith⟩
  | zShape s e => exact zUnit_range s e x hs

theorem unitInf_range (p : Bool) (sh : Shape ℝ) : 0 ≤ sh.unitInf p ∧ sh.unitInf p ≤ 1 := by
  cases sh <;> simp only [unitInf]
  case sigmoidDifference => split_ifs <;> norm_num
  case sigmoidProduct => split_ifs <;> norm_num
  all_goals first | (split_ifs <;> norm_num) | norm_num

/-- C14: for well-formed finite parameters and height `h >= 0` the membership degree of
every finite `x` is a finite number in `[0, h]`, away from the tolerance bands of
`Safe`.  Missing: those bands, where the claim is false (see the `_violated`
theorems below). -/
theorem membership_range_partial (sh : Shape ℝ) (hw : sh.Ordered) (h x : ℝ) (hh : 0 ≤ h) (hs : sh.Safe x) :
    ∃ y : ℝ, (sh.map fin).membership (fin h) (fin x) = fin y ∧ 0 ≤ y ∧ y ≤ h := by
  have := unit_range sh x hw hs
  exact ⟨_, membership_fin sh hw h x, mul_nonneg hh this.1, mul_le_of_le_one_right hh this.2⟩

/-- C14, infinite arguments: the degree of `+inf` and `-inf` is a finite number in `[0, h]`
for all well-formed parameters. -/
theorem membership_range_inf (sh : Shape ℝ) (hw : sh.Ordered) (h : ℝ) (hh : 0 ≤ h) (x : Ext ℝ)
    (hx : x = pinf ∨ x = Ext.ninf) :
    ∃ y : ℝ, (sh.map fin).membership (fin h) x = fin y ∧ 0 ≤ y ∧ y ≤ h := by
  have key : ∀ p, ∃ y : ℝ, (sh.map fin).membership (fin h) (infOf p) = fin y ∧ 0 ≤ y ∧ y ≤ h := by
    intro p
    have := unitInf_range p sh
    exact ⟨_, membership_inf p sh hw h, mul_nonneg hh this.1, mul_le_of_le_one_right hh this.2⟩
  rcases hx with rfl | rfl
  · exact key true
  · exact key false

/-- C14, infinite shoulders: Binary with an infinite direction, Triangle and Trapezoid with
an infinite outer vertex (the parameterisations for which the code has special cases). -/
theorem membership_range_shoulder (h x : ℝ) (hh : 0 ≤ h) :
    (∀ s : ℝ, ∀ d : Ext ℝ, d = pinf ∨ d = Ext.ninf →
      ∃ y : ℝ, (Shape.binary (fin s) d).membership (fin h) (fin x) = fin y ∧ 0 ≤ y ∧ y ≤ h) ∧
    (∀ b c : ℝ, b ≤ c → x ≤ c ∨ c + tol ≤ x →
      ∃ y : ℝ, (Shape.triangle Ext.ninf (fin b) (fin c)).membership (fin h) (fin x) = fin y ∧ 0 ≤ y ∧ y ≤ h) ∧
    (∀ a b : ℝ, a ≤ b → x ≤ a - tol ∨ a ≤ x →
      ∃ y : ℝ, (Shape.triangle (fin a) (fin b) pinf).membership (fin h) (fin x) = fin y ∧ 0 ≤ y ∧ y ≤ h) ∧
    (∀ b c d : ℝ, b ≤ c → c ≤ d →
      ∃ y : ℝ, (Shape.trapezoid Ext.ninf (fin b) (fin c) (fin d)).membership (fin h) (fin x) = fin y
        ∧ 0 ≤ y ∧ y ≤ h) ∧
    (∀ a b c : ℝ, a ≤ b → b ≤ c → x ≤ a - tol ∨ a ≤ x →
      ∃ y : ℝ, (Shape.trapezoid (fin a) (fin b) (fin c) pinf).membership (fin h) (fin x) = fin y
        ∧ 0 ≤ y ∧ y ≤ h) ∧
    (∀ b c : ℝ, b ≤ c →
      (Shape.trapezoid Ext.ninf (fin b) (fin c) pinf).membership (fin h) (fin x) = fin h) := by
  have tp := tol_pos
  refine ⟨?_, ?_, ?_, ?_, ?_, ?_⟩
  · rintro s d (rfl | rfl)
    · simp only [membership, isNaN_fin, Scalar.gt, lt_fin_pinf, lt_pinf_left, isGE_fin, Bool.true_and,
        Bool.false_and, Bool.false_eq_true, if_false, ofRat_def, mul_fin]
      split_ifs
      · exact ⟨_, rfl, by simpa using hh, by simp⟩
      · exact ⟨_, rfl, by simp, by simpa using hh⟩
    · simp only [membership, isNaN_fin, Scalar.gt, lt_ninf_fin, lt_ninf_right, isLE_fin, Bool.true_and,
        Bool.false_and, Bool.false_eq_true, if_false, ofRat_def, mul_fin]
      split_ifs
      · exact ⟨_, rfl, by simpa using hh, by simp⟩
      · exact ⟨_, rfl, by simp, by simpa using hh⟩
  · intro b c hbc hx
    simp only [membership, isNaN_fin, isLt_fin_ninf, isGt_fin, isEq_fin, isLt_fin, ninf_def, eq_ninf_ninf, inf_def, eq_fin_pinf,
        Bool.false_or, decide_eq_true_eq, Bool.false_eq_true, if_false, if_true, ofRat_def, mul_fin, sub_fin]
    split_ifs with h1 h2 h3
    · exact ⟨_, rfl, by simp, by simpa using hh⟩
    · exact ⟨_, rfl, by simpa using hh, by simp⟩
    · exact ⟨_, rfl, by simpa using hh, by simp⟩
    · have hc : x ≤ c := hx.resolve_right h1
      have hxb : b + tol ≤ x := by
        rcases le_abs.mp (not_lt.mp h2) with g | g <;> linarith
      have hp : 0 < c - b := by linarith
      refine ⟨_, div_fin _ _ hp.ne', div_nonneg (mul_nonneg hh (by linarith)) hp.le, ?_⟩
      rw [div_le_iff₀ hp]; exact mul_le_mul_of_nonneg_left (by linarith) hh
  · intro a b hab hx
    simp only [membership, isNaN_fin, isGt_fin_pinf, isEq_fin, isLt_fin, ninf_def, inf_def, eq_pinf_pinf, eq_fin_ninf,
        Bool.or_false, decide_eq_true_eq, Bool.false_eq_true, if_false, if_true, ofRat_def, mul_fin, sub_fin]
    split_ifs with h1 h2 h3
    · exact ⟨_, rfl, by simp, by simpa using hh⟩
    · exact ⟨_, rfl, by simpa using hh, by simp⟩
    · have ha : a ≤ x := by rcases hx with h | h <;> linarith
      have hp : 0 < b - a := by linarith
      refine ⟨_, div_fin _ _ hp.ne', div_nonneg (mul_nonneg hh (by linarith)) hp.le, ?_⟩
      rw [div_le_iff₀ hp]; exact mul_le_mul_of_nonneg_left (by linarith) hh
    · exact ⟨_, rfl, by simpa using hh, by simp⟩
  · intro b c d hbc hcd
    simp only [membership, isNaN_fin, isLt_fin_ninf, isGt_fin, isLE_fin, isLt_fin, ninf_def, eq_ninf_ninf, inf_def, eq_fin_pinf,
        Bool.false_or, decide_eq_true_eq, Bool.false_eq_true, if_false, if_true, ofRat_def, mul_fin, sub_fin]
    split_ifs with h1 h2 h3 h4
    · exact ⟨_, rfl, by simp, by simpa using hh⟩
    · exact ⟨_, rfl, by simpa using hh, by simp⟩
    · exact ⟨_, rfl, by simpa using hh, by simp⟩
    · have hp : 0 < d - c := by linarith
      refine ⟨_, div_fin _ _ hp.ne', div_nonneg (mul_nonneg hh (by linarith)) hp.le, ?_⟩
      rw [div_le_iff₀ hp]; exact mul_le_mul_of_nonneg_left (by linarith) hh
    · exact ⟨_, rfl, by simp, by simpa using hh⟩
  · intro a b c hab hbc hx
    simp only [membership, isNaN_fin, isGt_fin_pinf, isLE_fin, isLt_fin, isLt_fin_pinf, ninf_def, inf_def, eq_pinf_pinf, eq_fin_ninf,
        Bool.or_false, decide_eq_true_eq, Bool.false_eq_true, if_false, if_true, ofRat_def, mul_fin, sub_fin]
    split_ifs with h1 h2 h3
    · exact ⟨_, rfl, by simp, by simpa using hh⟩
    · have ha : a ≤ x := by rcases hx with h | h <;> linarith
      have hp : 0 < b - a := by linarith
      rw [div_fin _ _ hp.ne', min_fin, mul_fin]
      refine ⟨_, rfl, mul_nonneg hh (le_min (by simp) (div_nonneg (by linarith) hp.le)), ?_⟩
      exact mul_le_of_le_one_right hh (by simp)
    · exact ⟨_, rfl, by simpa using hh, by simp⟩
    · exact ⟨_, rfl, by simpa using hh, by simp⟩
  · intro b c hbc
    simp [membership, isLE_fin]

/-- C14 fails as stated (Triangle): for every tolerance and every bound there is a
well-formed triangle of height 1 and an `x` just left of its support whose
membership degree is below `-bound`. -/
theorem triangle_negative_violated (bound : ℝ) (hb : 0 < bound) :
    ∃ a b c x y : ℝ, a < b ∧ b < c ∧
      (Shape.triangle (fin a) (fin b) (fin c)).membership (fin 1) (fin x) = fin y ∧ y < -bound := by
  have tp := tol_pos
  set δ := tol / (4 * (bound + 1)) with hδ
  have hd : 0 < δ := by positivity
  have hd1 : δ * (4 * (bound + 1)) = tol := by rw [hδ]; field_simp
  have hlt : δ * 4 < tol := by nlinarith
  refine ⟨0, δ, 1 + δ, δ - tol, 1 * ((δ - tol) / δ), hd, by linarith, ?_, ?_⟩
  · have := membership_fin (.triangle 0 δ (1 + δ)) ⟨hd.le, by linarith⟩ 1 (δ - tol)
    simp only [map, unit] at this
    rw [this]
    have h1 : ¬ (δ - tol + tol ≤ 0 ∨ 1 + δ + tol ≤ δ - tol) := by
      push Not; constructor <;> linarith
    have h2 : ¬ (|δ - tol - δ| < tol) := by
      rw [show δ - tol - δ = -tol by ring, abs_neg, abs_of_pos tp]; exact lt_irrefl _
    have h3 : δ - tol + tol ≤ δ := by linarith
    rw [if_neg h1, if_neg h2, if_pos h3]; simp
  · rw [one_mul, div_lt_iff₀ hd]; nlinarith

/-- C14 fails as stated (Trapezoid), likewise. -/
theorem trapezoid_negative_violated (bound : ℝ) (hb : 0 < bound) :
    ∃ a b c d x y : ℝ, a < b ∧ b < c ∧ c < d ∧
      (Shape.trapezoid (fin a) (fin b) (fin c) (fin d)).membership (fin 1) (fin x) = fin y ∧ y < -bound := by
  have tp := tol_pos
  set δ := tol / (4 * (bound + 1)) with hδ
  have hd : 0 < δ := by positivity
  have hd1 : δ * (4 * (bound + 1)) = tol := by rw [hδ]; field_simp
  have hlt : δ * 4 < tol := by nlinarith
  have hneg : (δ - tol - 0) / (δ - 0) < -bound := by
    rw [sub_zero, sub_zero, div_lt_iff₀ hd]; nlinarith
  refine ⟨0, δ, 1 + δ, 2 + δ, δ - tol, 1 * ((δ - tol - 0) / (δ - 0)), hd, by linarith, by linarith, ?_, by linarith⟩
  have := membership_fin (.trapezoid 0 δ (1 + δ) (2 + δ)) ⟨hd.le, by linarith, by linarith⟩ 1 (δ - tol)
  simp only [map, unit] at this
  rw [this]
  have h1 : ¬ (δ - tol + tol ≤ 0 ∨ 2 + δ + tol ≤ δ - tol) := by
    push Not; constructor <;> linarith
  have h3 : δ - tol + tol ≤ δ := by linarith
  rw [if_neg h1, if_pos h3, min_eq_right (by linarith)]

/-- C14 fails as stated (SShape, ZShape): with edges narrower than about 4.8 tolerances
an SShape of height 1 exceeds 1.5 and a ZShape falls below -0.5. -/
theorem sShape_zShape_range_violated :
    ∃ s e x y z : ℝ, s < e ∧
      (Shape.sShape (fin s) (fin e)).membership (fin 1) (fin x) = fin y ∧ 3/2 < y ∧
      (Shape.zShape (fin s) (fin e)).membership (fin 1) (fin x) = fin z ∧ z < -1/2 := by
  have tp := tol_pos
  have key : sUnit 0 (5/2 * tol) (11/5 * tol) = 2 * (22/25)^2 := by
    unfold sUnit
    rw [if_neg (by linarith), if_pos (by linarith)]
    congr 2; field_simp; ring
  have k1 := membership_fin (.sShape 0 (5/2 * tol)) trivial 1 (11/5 * tol)
  have k2 := membership_fin (.zShape 0 (5/2 * tol)) trivial 1 (11/5 * tol)
  simp only [map, unit, zUnit_eq, key] at k1 k2
  exact ⟨0, 5/2 * tol, 11/5 * tol, _, _, by linarith, k1, by norm_num, k2, by norm_num⟩

/-- C14 fails as stated (Concave): when the inflection exceeds the end by less than the
tolerance, the degree is negative, by any amount. -/
theorem concave_negative_violated (bound : ℝ) (hb : 0 < bound) :
    ∃ i e x y : ℝ, e < i ∧
      (Shape.concave (fin i) (fin e)).membership (fin 1) (fin x) = fin y ∧ y < -bound := by
  have tp := tol_pos
  set δ := tol / (2 * (bound + 1)) with hδ
  have hd : 0 < δ := by positivity
  have hd1 : δ * (2 * (bound + 1)) = tol := by rw [hδ]; field_simp
  have hlt : δ * 2 < tol := by nlinarith
  have k := membership_fin (.concave (tol - δ) 0) trivial 1 (-tol)
  simp only [map, unit] at k
  rw [if_pos (by linarith), if_pos (by linarith)] at k
  refine ⟨_, _, _, _, by linarith, k, ?_⟩
  have e : (2 * 0 - (tol - δ) - -tol) = δ := by ring
  rw [e, one_mul, div_lt_iff₀ hd]; nlinarith

omit [Tol ℝ] in
/-- C15 (terms): every parametric term has membership NaN at NaN, for every height and
parameters and every scalar type satisfying the IEEE law `x != x` for NaN. -/
theorem membership_nan {S : Type} [Scalar S] (hnan : Scalar.eq (Scalar.nan : S) Scalar.nan = false)
    (sh : Shape S) (h : S) : sh.membership h Scalar.nan = Scalar.nan := by
  have : Op.isNaN (Scalar.nan : S) = true := by simp [Op.isNaN, hnan]
  cases sh <;> simp [membership, this]

/-- C16: points where the term is fully true -/
def Core (x : ℝ) : Shape ℝ → Prop
  | bell c _ s => x = c ∧ 0 < s
  | binary s d => (s < d ∧ s ≤ x) ∨ (d < s ∧ x ≤ s)
  | concave i e => (i ≤ e ∧ e ≤ x) ∨ (e + tol ≤ i ∧ x ≤ e)
  | cosine c w => 0 < w ∧ x = c
  | gaussian m _ => x = m
  | gaussianProduct mA _ mB _ => mA ≤ x ∧ x ≤ mB
  | piShape bl tl tr br => (bl + 2 * tol ≤ tl ∧ tr + 2 * tol ≤ br) ∧ tl ≤ x ∧ x ≤ tr
  | ramp s e => (s < e ∧ e ≤ x) ∨ (e < s ∧ x ≤ e)
  | rectangle s e => s ≤ x ∧ x ≤ e
  | sShape s e => s + 2 * tol ≤ e ∧ e ≤ x
  | spike c _ => x = c
  | trapezoid _ b c _ => b ≤ x ∧ x ≤ c
  | triangle _ b _ => x = b
  | zShape s _ => x ≤ s
  | _ => False

/-- C16: points farther than the tolerance from the support -/
def Outside (x : ℝ) : Shape ℝ → Prop
  | binary s d => (s < d ∧ x ≤ s - tol) ∨ (d < s ∧ s + tol ≤ x)
  | cosine c w => 0 < w ∧ 1/2 * w + tol ≤ |x - c|
  | piShape bl _ tr br => x ≤ bl ∨ (tr + 2 * tol ≤ br ∧ br ≤ x)
  | ramp s e => (s < e ∧ x ≤ s) ∨ (e < s ∧ s ≤ x)
  | rectangle s e => x ≤ s - tol ∨ e + tol ≤ x
  | sShape s _ => x ≤ s
  | trapezoid a _ _ d => x ≤ a - tol ∨ d + tol ≤ x
  | triangle a _ c => x ≤ a - tol ∨ c + tol ≤ x
  | zShape s e => s + 2 * tol ≤ e ∧ e ≤ x
  | _ => False

theorem sUnit_one (s e x : ℝ) (h : s + 2 * tol ≤ e) (hx : e ≤ x) : sUnit s e x = 1 := by
  have tp := tol_pos
  unfold sUnit
  rw [if_neg (by linarith), if_neg (by linarith), if_neg (by linarith)]

theorem sUnit_zero (s e x : ℝ) (hx : x ≤ s) : sUnit s e x = 0 := by
  have tp := tol_pos
  unfold sUnit
  rw [if_pos (by linarith)]

/-- C16 (core): on its core every term evaluates to exactly its height. -/
theorem core_height (sh : Shape ℝ) (hw : sh.Ordered) (h x : ℝ) (hc : sh.Core x) :
    (sh.map fin).membership (fin h) (fin x) = fin h := by
  have tp := tol_pos
  rw [membership_fin sh hw h x]
  suffices H : sh.unit x = 1 by rw [H, mul_one]
  cases sh with
  | bell c w s =>
    obtain ⟨rfl, hs⟩ := hc
    have h2 : 2 * s ≠ 0 := by positivity
    simp [unit, not_lt.mpr hs.le, Real.zero_rpow h2]
  | binary s d =>
    simp only [unit]
    rcases hc with h | h
    · rw [if_pos (Or.inl ⟨h.1, by linarith [h.2]⟩)]
    · rw [if_pos (Or.inr ⟨h.1, by linarith [h.2]⟩)]
  | concave i e =>
    simp only [unit]
    rcases hc with h | h
    · rw [if_pos (by linarith [h.1]), if_neg (by linarith [h.2])]
    · rw [if_neg (by linarith [h.1]), if_neg (by linarith [h.2])]
  | cosine c w =>
    obtain ⟨hw0, rfl⟩ := hc
    simp only [unit]
    rw [if_neg (by push Not; constructor <;> linarith)]
    simp; norm_num
  | gaussian m s => have : x = m := hc; subst this; simp [unit]
  | gaussianProduct mA sA mB sB =>
    obtain ⟨h1, h2⟩ := hc
    simp only [unit]
    rw [if_neg (by linarith), if_neg (by linarith)]; simp
  | piShape bl tl tr br =>
    obtain ⟨⟨h1, h2⟩, h3, h4⟩ := hc
    simp only [unit]
    rw [zUnit_eq, sUnit_one _ _ _ h1 h3, sUnit_zero _ _ _ h4]; simp
  | ramp s e =>
    have hw' : tol ≤ |s - e| := hw
    simp only [unit]
    rcases hc with h | h
    · have : s + tol ≤ e := by rcases le_abs.mp hw' with g | g <;> linarith [h.1]
      rw [if_pos this, if_neg (by linarith [h.2]), if_pos (by linarith [h.2])]
    · have : e + tol ≤ s := by rcases le_abs.mp hw' with g | g <;> linarith [h.1]
      rw [if_neg (by linarith [h.2]), if_neg (by linarith [h.2]), if_pos (by linarith [h.2])]
  | rectangle s e =>
    simp only [unit]
    rw [if_pos ⟨by linarith [hc.1], by linarith [hc.2]⟩]
  | sShape s e => exact sUnit_one _ _ _ hc.1 hc.2
  | spike c w => have : x = c := hc; subst this; simp [unit]
  | trapezoid a b c d =>
    obtain ⟨h1, h2⟩ := hc
    obtain ⟨o1, o2, o3⟩ := hw
    simp only [unit]
    rw [if_neg (by push Not; constructor <;> linarith), if_neg (by linarith), if_pos (by linarith)]
  | triangle a b c =>
    have : x = b := hc
    subst this
    obtain ⟨o1, o2⟩ := hw
    simp only [unit]
    rw [if_neg (by push Not; constructor <;> linarith), if_pos (by simpa using tp)]
  | zShape s e =>
    have : x ≤ s := hc
    simp only [unit]
    rw [zUnit_eq, sUnit_zero _ _ _ this]; simp
  | sigmoid => exact hc.elim
  | sigmoidDifference => exact hc.elim
  | sigmoidProduct => exact hc.elim

/-- C16 (support): farther than the tolerance outside its support every term evaluates to
exactly 0. -/
theorem outside_zero (sh : Shape ℝ) (hw : sh.Ordered) (h x : ℝ) (hc : sh.Outside x) :
    (sh.map fin).membership (fin h) (fin x) = fin 0 := by
  have tp := tol_pos
  rw [membership_fin sh hw h x]
  suffices H : sh.unit x = 0 by rw [H, mul_zero]
  cases sh with
  | binary s d =>
    simp only [unit]
    rw [if_neg]
    rintro (g | g) <;> rcases hc with h | h <;> linarith [h.1, h.2, g.1, g.2]
  | cosine c w =>
    simp only [unit]
    rw [if_pos]
    rcases le_abs.mp hc.2 with g | g
    · right; linarith
    · left; linarith
  | piShape bl tl tr br =>
    simp only [unit]
    rcases hc with h | h
    · rw [sUnit_zero _ _ _ h]; simp
    · rw [zUnit_eq, sUnit_one _ _ _ h.1 h.2]; simp
  | ramp s e =>
    have hw' : tol ≤ |s - e| := hw
    simp only [unit]
    rcases hc with h | h
    · have : s + tol ≤ e := by rcases le_abs.mp hw' with g | g <;> linarith [h.1]
      rw [if_pos this, if_pos (by linarith [h.2])]
    · rw [if_neg (by linarith [h.1]), if_pos (by linarith [h.2])]
  | rectangle s e =>
    simp only [unit]
    rw [if_neg]
    rintro ⟨g1, g2⟩
    rcases hc with h | h <;> linarith
  | sShape s e => exact sUnit_zero _ _ _ hc
  | trapezoid a b c d =>
    simp only [unit]
    rw [if_pos]
    rcases hc with h | h
    · left; linarith
    · right; exact h
  | triangle a b c =>
    simp only [unit]
    rw [if_pos]
    rcases hc with h | h
    · left; linarith
    · right; exact h
  | zShape s e =>
    simp only [unit]
    rw [zUnit_eq, sUnit_one _ _ _ hc.1 hc.2]; simp
  | bell => exact hc.elim
  | concave => exact hc.elim
  | gaussian => exact hc.elim
  | gaussianProduct => exact hc.elim
  | sigmoid => exact hc.elim
  | sigmoidDifference => exact hc.elim
  | sigmoidProduct => exact hc.elim
  | spike => exact hc.elim

/-- the classes with a single peak, with their centre -/
noncomputable def centre? : Shape ℝ → Option ℝ
  | bell c _ s => if 0 < s then some c else none
  | gaussian m _ => some m
  | spike c _ => some c
  | _ => none

/-- C16 (peak): Gaussian, Bell and Spike are symmetric about their centre and, for a
positive height, strictly below the height everywhere else. -/
theorem peak_symmetric_strict (sh : Shape ℝ) (hw : sh.Ordered) (h c : ℝ) (hc : sh.centre? = some c) (d : ℝ) :
    (sh.map fin).membership (fin h) (fin (c + d)) = (sh.map fin).membership (fin h) (fin (c - d)) ∧
    (d ≠ 0 → 0 < h → ∃ y : ℝ, (sh.map fin).membership (fin h) (fin (c + d)) = fin y ∧ y < h) := by
  rw [membership_fin sh hw h, membership_fin sh hw h]
  suffices H : sh.unit (c + d) = sh.unit (c - d) ∧ (d ≠ 0 → sh.unit (c + d) < 1) by
    refine ⟨by rw [H.1], fun hd hh => ⟨_, rfl, ?_⟩⟩
    have := H.2 hd
    nlinarith
  cases sh with
  | bell c' w s =>
    have hw' : w ≠ 0 := hw
    simp only [centre?] at hc
    split_ifs at hc with hs
    obtain rfl : c' = c := by simpa using hc
    have e1 : |(c' - d - c') / w| = |(c' + d - c') / w| := by
      rw [show c' - d - c' = -(c' + d - c') by ring, neg_div, abs_neg]
    simp only [unit, not_lt.mpr hs.le, and_false, if_false, e1, true_and]
    intro hd
    have : 0 < |(c' + d - c') / w| := by
      rw [add_sub_cancel_left]; exact abs_pos.mpr (div_ne_zero hd hw')
    have := Real.rpow_pos_of_pos this (2 * s)
    rw [div_lt_one (by linarith)]; linarith
  | gaussian m s =>
    obtain rfl : m = c := by simpa [centre?] using hc
    have hs : s ≠ 0 := hw
    simp only [unit]
    refine ⟨by ring_nf, fun hd => ?_⟩
    rw [Real.exp_lt_one_iff]
    have h1 : 0 < d * d := mul_self_pos.mpr hd
    have h2 : 0 < 2 * s * s := by have := mul_self_pos.mpr hs; nlinarith
    apply div_neg_of_neg_of_pos _ h2
    rw [add_sub_cancel_left]; linarith
  | spike c' w =>
    obtain rfl : c' = c := by simpa [centre?] using hc
    have hw' : w ≠ 0 := hw
    simp only [unit]
    constructor
    · rw [show 10 / w * (c' - d - c') = -(10 / w * (c' + d - c')) by ring, abs_neg]
    · intro hd
      rw [Real.exp_lt_one_iff, neg_lt_zero, add_sub_cancel_left]
      exact abs_pos.mpr (mul_ne_zero (div_ne_zero (by norm_num) hw') hd)
  | _ => simp [centre?] at hc

/-- C16 (one-sided slopes): between foot and core the degree of Triangle, Trapezoid and Ramp is the
linear interpolation. -/
theorem linear_edges (h x : ℝ) :
    (∀ a b c : ℝ, a ≤ x → x + tol ≤ b → b ≤ c →
      (Shape.triangle (fin a) (fin b) (fin c)).membership (fin h) (fin x) = fin (h * ((x - a) / (b - a)))) ∧
    (∀ a b c : ℝ, a ≤ b → b + tol ≤ x → x ≤ c →
      (Shape.triangle (fin a) (fin b) (fin c)).membership (fin h) (fin x) = fin (h * ((c - x) / (c - b)))) ∧
    (∀ a b c d : ℝ, a ≤ x → x + tol ≤ b → b ≤ c → c ≤ d →
      (Shape.trapezoid (fin a) (fin b) (fin c) (fin d)).membership (fin h) (fin x)
        = fin (h * ((x - a) / (b - a)))) ∧
    (∀ a b c d : ℝ, a ≤ b → b ≤ c → c + tol ≤ x → x + tol ≤ d →
      (Shape.trapezoid (fin a) (fin b) (fin c) (fin d)).membership (fin h) (fin x)
        = fin (h * ((d - x) / (d - c)))) ∧
    (∀ s e : ℝ, s + tol ≤ x → x + tol ≤ e →
      (Shape.ramp (fin s) (fin e)).membership (fin h) (fin x) = fin (h * ((x - s) / (e - s)))) ∧
    (∀ s e : ℝ, e + tol ≤ x → x + tol ≤ s →
      (Shape.ramp (fin s) (fin e)).membership (fin h) (fin x) = fin (h * ((s - x) / (s - e)))) := by
  have tp := tol_pos
  refine ⟨?_, ?_, ?_, ?_, ?_, ?_⟩
  · intro a b c h1 h2 h3
    have := membership_fin (.triangle a b c) ⟨by linarith, h3⟩ h x
    simp only [map, unit] at this
    rw [this, if_neg (by push Not; constructor <;> linarith),
      if_neg (by rw [not_lt, le_abs]; right; linarith), if_pos h2]
  · intro a b c h1 h2 h3
    have := membership_fin (.triangle a b c) ⟨h1, by linarith⟩ h x
    simp only [map, unit] at this
    rw [this, if_neg (by push Not; constructor <;> linarith),
      if_neg (by rw [not_lt, le_abs]; left; linarith), if_neg (by linarith)]
  · intro a b c d h1 h2 h3 h4
    have := membership_fin (.trapezoid a b c d) ⟨by linarith, h3, h4⟩ h x
    simp only [map, unit] at this
    rw [this, if_neg (by push Not; constructor <;> linarith), if_pos h2, min_eq_right]
    rw [div_le_one (by linarith)]; linarith
  · intro a b c d h1 h2 h3 h4
    have := membership_fin (.trapezoid a b c d) ⟨h1, h2, by linarith⟩ h x
    simp only [map, unit] at this
    rw [this, if_neg (by push Not; constructor <;> linarith), if_neg (by linarith), if_neg (by linarith),
      if_pos (by linarith)]
  · intro s e h1 h2
    have := membership_fin (.ramp s e) (show tol ≤ |s - e| by rw [le_abs]; right; linarith) h x
    simp only [map, unit] at this
    rw [this, if_pos (by linarith), if_neg (by linarith), if_neg (by linarith)]
  · intro s e h1 h2
    have := membership_fin (.ramp s e) (show tol ≤ |s - e| by rw [le_abs]; left; linarith) h x
    simp only [map, unit] at this
    rw [this, if_neg (by linarith), if_neg (by linarith), if_neg (by linarith)]

end Shape
end FL

namespace FL
open Scalar Ext Shape
/-- Non-vacuity of C14/C16: an ordinary trapezoid, at the shipped tolerance, with a point in
its core, one outside its support and one on its slope. -/
example : letI := Tol.default
    (Shape.trapezoid (0:ℝ) 1 2 4).Ordered ∧ (Shape.trapezoid (0:ℝ) 1 2 4).Safe (3/2) ∧
    (Shape.trapezoid (0:ℝ) 1 2 4).Core (3/2) ∧ (Shape.trapezoid (0:ℝ) 1 2 4).Outside 5 ∧
    (Shape.trapezoid (0:ℝ) 1 2 4).Safe (1/2) ∧
    (Shape.sShape (0:ℝ) 1).Safe (1/2) ∧ (Shape.gaussian (0:ℝ) 1).centre? = some 0 := by
  let _ := Tol.default
  have ht : (tol : ℝ) = 1 / 1000000 := rfl
  simp only [Ordered, Safe, Core, Outside, centre?, ht]
  norm_num
end FL
