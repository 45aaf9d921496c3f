/-
C13: the built-in hedges.
-/
import Verif.Model.Hedge
import Verif.Lemmas.Ext
import Mathlib.Tactic.Push

namespace FL
open Scalar Ext
variable [Tol ℝ]

namespace HedgeKind

/-- closed form of each hedge on `[0, 1]` -/
noncomputable def real : HedgeKind → ℝ → ℝ
  | .any, _ => 1
  | .extremely, x => if x < 1/2 + tol then 2 * x * x else 1 - 2 * (1 - x) * (1 - x)
  | .not, x => 1 - x
  | .seldom, x => if x < 1/2 + tol then Real.sqrt (1/2 * x) else 1 - Real.sqrt (1/2 * (1 - x))
  | .somewhat, x => Real.sqrt x
  | .very, x => x * x

theorem hedge_fin (k : HedgeKind) (x : ℝ) (h0 : 0 ≤ x) (h1 : x ≤ 1) :
    k.hedge (fin x) = fin (k.real x) := by
  cases k
  · simp [hedge, real]
  · simp only [hedge, real, ofRat_def, isLE_fin, mul_fin, sub_fin]
    push_cast
    simp only [decide_eq_true_eq]; split_ifs <;> rfl
  · simp [hedge, real]
  · simp only [hedge, real, ofRat_def, isLE_fin, mul_fin, sub_fin]
    push_cast
    rw [sqrt_fin _ (by linarith), sqrt_fin _ (by linarith), sub_fin]
    simp only [decide_eq_true_eq]; split_ifs <;> rfl
  · simp only [hedge, real]; exact sqrt_fin x h0
  · simp [hedge, real]

end HedgeKind

open HedgeKind

theorem sqrt_half_mul_self (x : ℝ) (h0 : 0 ≤ x) : 2 * Real.sqrt (1/2 * x) * Real.sqrt (1/2 * x) = x := by
  rw [mul_assoc, Real.mul_self_sqrt (by linarith)]; ring

/-- C13 (range): every hedge maps `[0,1]` to `[0,1]`, for every tolerance up to 1/5. -/
theorem hedge_range (k : HedgeKind) (ht : (tol : ℝ) ≤ 1/5) (x : ℝ) (h0 : 0 ≤ x) (h1 : x ≤ 1) :
    ∃ y : ℝ, k.hedge (fin x) = fin y ∧ 0 ≤ y ∧ y ≤ 1 := by
  refine ⟨_, k.hedge_fin x h0 h1, ?_⟩
  have tp := tol_pos
  cases k
  · simp [real]
  · simp only [real]; split_ifs with h
    · constructor <;> nlinarith
    · constructor <;> nlinarith
  · simp only [real]; constructor <;> linarith
  · simp only [real]; split_ifs with h
    · exact ⟨Real.sqrt_nonneg _, Real.sqrt_le_one.mpr (by linarith)⟩
    · have := Real.sqrt_nonneg (1/2 * (1-x))
      have : Real.sqrt (1/2 * (1-x)) ≤ 1 := Real.sqrt_le_one.mpr (by linarith)
      constructor <;> linarith
  · exact ⟨Real.sqrt_nonneg _, Real.sqrt_le_one.mpr h1⟩
  · simp only [real]; constructor <;> nlinarith

/-- C13 (crisp values): `very`, `extremely`, `somewhat`, `seldom` fix 0 and 1,
`not` swaps them, `any` is constantly 1 (for every scalar, NaN included). -/
theorem hedge_crisp (ht : (tol : ℝ) ≤ 1/5) :
    (∀ k : HedgeKind, k = .very ∨ k = .extremely ∨ k = .somewhat ∨ k = .seldom →
      k.hedge (fin (0:ℝ)) = fin 0 ∧ k.hedge (fin (1:ℝ)) = fin 1) ∧
    HedgeKind.not.hedge (fin (0:ℝ)) = fin 1 ∧ HedgeKind.not.hedge (fin (1:ℝ)) = fin 0 ∧
    (∀ x : Ext ℝ, HedgeKind.any.hedge x = fin 1) := by
  have tp := tol_pos
  refine ⟨?_, ?_, ?_, ?_⟩
  · intro k hk
    rw [k.hedge_fin 0 le_rfl zero_le_one, k.hedge_fin 1 zero_le_one le_rfl]
    have e0 : (0:ℝ) < 1/2 + tol := by linarith
    have e1 : ¬ ((1:ℝ) < 1/2 + tol) := by linarith
    rcases hk with rfl | rfl | rfl | rfl <;> simp only [real, if_pos e0, if_neg e1] <;> norm_num
  · simp [hedge]
  · simp [hedge]
  · intro x; simp [hedge]

/-- C13 (order): `very`, `somewhat` and `seldom` are non-decreasing and `not` is
non-increasing.  Missing: `extremely`, see `hedge_extremely_monotone_violated`
and `hedge_extremely_monotone_partial`. -/
theorem hedge_monotone_partial (ht : (tol : ℝ) ≤ 1/5) (x y : ℝ) (h0 : 0 ≤ x) (hxy : x ≤ y) (h1 : y ≤ 1) :
    (∀ k : HedgeKind, k = .very ∨ k = .somewhat ∨ k = .seldom →
      ∃ u v : ℝ, k.hedge (fin x) = fin u ∧ k.hedge (fin y) = fin v ∧ u ≤ v) ∧
    ∃ u v : ℝ, HedgeKind.not.hedge (fin x) = fin u ∧ HedgeKind.not.hedge (fin y) = fin v ∧ v ≤ u := by
  have tp := tol_pos
  constructor
  · intro k hk
    refine ⟨_, _, k.hedge_fin x h0 (hxy.trans h1), k.hedge_fin y (h0.trans hxy) h1, ?_⟩
    rcases hk with rfl | rfl | rfl
    · simp only [real]; nlinarith
    · exact Real.sqrt_le_sqrt hxy
    · simp only [real]
      split_ifs with a b b
      · exact Real.sqrt_le_sqrt (by linarith)
      · -- crossing the boundary
        have hb : 1/2 + tol ≤ y := not_lt.mp b
        have h2 : Real.sqrt (1/2 * (1 - y)) ≤ Real.sqrt (1/2 * (1 - (1/2 + tol))) :=
          Real.sqrt_le_sqrt (by linarith)
        have h3 : Real.sqrt (1/2 * x) ≤ Real.sqrt (1/2 * (1/2 + tol)) :=
          Real.sqrt_le_sqrt (by linarith)
        have s1 := Real.sq_sqrt (show (0:ℝ) ≤ 1/2 * (1 - (1/2 + tol)) by linarith)
        have s2 := Real.sq_sqrt (show (0:ℝ) ≤ 1/2 * (1/2 + tol) by linarith)
        have n1 := Real.sqrt_nonneg (1/2 * (1 - (1/2 + tol)))
        have n2 := Real.sqrt_nonneg (1/2 * (1/2 + tol))
        have : Real.sqrt (1/2 * (1 - (1/2 + tol))) + Real.sqrt (1/2 * (1/2 + tol)) ≤ 1 := by
          nlinarith [sq_nonneg (Real.sqrt (1/2 * (1 - (1/2 + tol))) - Real.sqrt (1/2 * (1/2 + tol)))]
        linarith
      · exact absurd (lt_of_le_of_lt hxy b) a
      · have : Real.sqrt (1/2 * (1 - y)) ≤ Real.sqrt (1/2 * (1 - x)) := Real.sqrt_le_sqrt (by linarith)
        linarith
  · refine ⟨_, _, HedgeKind.not.hedge_fin x h0 (hxy.trans h1),
      HedgeKind.not.hedge_fin y (h0.trans hxy) h1, ?_⟩
    simp only [real]; linarith

/-- C13 (order), `extremely`: non-decreasing on all pairs that do not start inside
the tolerance band `(1/2, 1/2 + eps)` and end beyond it; and on *all* pairs any
decrease is at most `4 * eps^2`. -/
theorem hedge_extremely_monotone_partial (ht : (tol : ℝ) ≤ 1/5) (x y : ℝ)
    (h0 : 0 ≤ x) (hxy : x ≤ y) (h1 : y ≤ 1) :
    ∃ u v : ℝ, HedgeKind.extremely.hedge (fin x) = fin u ∧ HedgeKind.extremely.hedge (fin y) = fin v ∧
      u ≤ v + 4 * tol ^ 2 ∧
      (x ≤ 1/2 ∨ 1/2 + tol ≤ x ∨ y < 1/2 + tol → u ≤ v) := by
  have tp := tol_pos
  refine ⟨_, _, HedgeKind.extremely.hedge_fin x h0 (hxy.trans h1),
    HedgeKind.extremely.hedge_fin y (h0.trans hxy) h1, ?_⟩
  simp only [real]
  split_ifs with a b b
  · have : 2 * x * x ≤ 2 * y * y := by nlinarith
    exact ⟨by nlinarith, fun _ => this⟩
  · have hb : 1/2 + tol ≤ y := not_lt.mp b
    have e1 : (1 - y) * (1 - y) ≤ (1/2 - tol) * (1/2 - tol) :=
      mul_le_mul (by linarith) (by linarith) (by linarith) (by linarith)
    have e2 : x * x ≤ (1/2 + tol) * (1/2 + tol) :=
      mul_le_mul (by linarith) (by linarith) (by linarith) (by linarith)
    constructor
    · nlinarith
    · rintro (h | h | h)
      · have : x * x ≤ 1/2 * (1/2) := mul_le_mul h h h0 (by norm_num)
        nlinarith
      · linarith
      · exact absurd h b
  · exact absurd (lt_of_le_of_lt hxy b) a
  · have : 1 - 2 * (1 - x) * (1 - x) ≤ 1 - 2 * (1 - y) * (1 - y) := by nlinarith
    exact ⟨by nlinarith, fun _ => this⟩

/-- C13 fails as stated: for every tolerance (up to 1/5) there are degrees `x < y`
with `extremely y < extremely x`, just above 0.5. -/
theorem hedge_extremely_monotone_violated (ht : (tol : ℝ) ≤ 1/5) :
    ∃ x y : ℝ, 0 ≤ x ∧ x < y ∧ y ≤ 1 ∧ ∃ u v : ℝ,
      HedgeKind.extremely.hedge (fin x) = fin u ∧ HedgeKind.extremely.hedge (fin y) = fin v ∧ v < u := by
  have tp := tol_pos
  have hx : 1/2 + tol - tol^2 / 2 < 1/2 + tol := by nlinarith
  refine ⟨1/2 + tol - tol^2 / 2, 1/2 + tol, by nlinarith, hx, by linarith, _, _,
    HedgeKind.extremely.hedge_fin _ (by nlinarith) (by nlinarith),
    HedgeKind.extremely.hedge_fin _ (by linarith) (by linarith), ?_⟩
  simp only [real, if_pos hx, lt_irrefl, if_false]
  nlinarith [mul_pos tp tp, mul_pos (mul_pos tp tp) tp, sq_nonneg (tol^2)]

/-- C13 (concentration and dilation): `very x <= x <= somewhat x`. -/
theorem hedge_very_somewhat (x : ℝ) (h0 : 0 ≤ x) (h1 : x ≤ 1) :
    ∃ u v : ℝ, HedgeKind.very.hedge (fin x) = fin u ∧ HedgeKind.somewhat.hedge (fin x) = fin v ∧
      u ≤ x ∧ x ≤ v := by
  refine ⟨_, _, HedgeKind.very.hedge_fin x h0 h1, HedgeKind.somewhat.hedge_fin x h0 h1, ?_, ?_⟩
  · simp only [real]; nlinarith
  · simp only [real]; exact Real.le_sqrt_of_sq_le (by nlinarith)

/-- C13 (inverses): `not (not x) = x` for every finite `x`, `very (somewhat x) = x` and
`somewhat (very x) = x` for every `x >= 0`. -/
theorem hedge_inverses (x : ℝ) :
    HedgeKind.not.hedge (HedgeKind.not.hedge (fin x)) = fin x ∧
    (0 ≤ x → HedgeKind.very.hedge (HedgeKind.somewhat.hedge (fin x)) = fin x ∧
      HedgeKind.somewhat.hedge (HedgeKind.very.hedge (fin x)) = fin x) := by
  refine ⟨by simp [hedge], fun h => ⟨?_, ?_⟩⟩
  · simp only [hedge]; rw [sqrt_fin x h, mul_fin, Real.mul_self_sqrt h]
  · simp only [hedge]; rw [mul_fin, sqrt_fin _ (mul_self_nonneg x), Real.sqrt_mul_self h]

/-- C13 (inverses): `extremely (seldom x) = x` outside the band
`[1/2 + eps, 1/2 + 2 eps - 2 eps^2)`.  Missing: that band, where it is false. -/
theorem hedge_extremely_seldom_partial (ht : (tol : ℝ) ≤ 1/5) (x : ℝ) (h0 : 0 ≤ x) (h1 : x ≤ 1)
    (hx : x < 1/2 + tol ∨ 1/2 + 2 * tol - 2 * tol ^ 2 ≤ x) :
    HedgeKind.extremely.hedge (HedgeKind.seldom.hedge (fin x)) = fin x := by
  have tp := tol_pos
  have r := hedge_range .seldom ht x h0 h1
  obtain ⟨y, hy, y0, y1⟩ := r
  rw [HedgeKind.seldom.hedge_fin x h0 h1, Ext.fin.injEq] at hy
  rw [HedgeKind.seldom.hedge_fin x h0 h1, HedgeKind.extremely.hedge_fin _ (hy ▸ y0) (hy ▸ y1)]
  congr 1
  simp only [real]
  by_cases h : x < 1/2 + tol
  · simp only [if_pos h]
    have : Real.sqrt (1/2 * x) < 1/2 + tol := by
      rw [Real.sqrt_lt' (by linarith)]; nlinarith
    rw [if_pos this, sqrt_half_mul_self x h0]
  · simp only [if_neg h]
    have hx' : 1/2 + 2 * tol - 2 * tol ^ 2 ≤ x := hx.resolve_left h
    have : ¬ (1 - Real.sqrt (1/2 * (1 - x)) < 1/2 + tol) := by
      have : Real.sqrt (1/2 * (1 - x)) ≤ 1/2 - tol := by
        rw [Real.sqrt_le_left (by linarith)]; nlinarith
      linarith
    rw [if_neg this]
    have := sqrt_half_mul_self (1 - x) (by linarith)
    have e : (1 - (1 - Real.sqrt (1/2 * (1 - x)))) = Real.sqrt (1/2 * (1 - x)) := by ring
    rw [e]; linarith

/-- C13 fails as stated: at `x = 1/2 + eps`, `extremely (seldom x)` differs from `x`. -/
theorem hedge_extremely_seldom_violated (ht : (tol : ℝ) ≤ 1/5) :
    ∃ x : ℝ, 0 ≤ x ∧ x ≤ 1 ∧
      HedgeKind.extremely.hedge (HedgeKind.seldom.hedge (fin x)) ≠ fin x := by
  have tp := tol_pos
  refine ⟨1/2 + tol, by linarith, by linarith, ?_⟩
  have r := hedge_range .seldom ht (1/2 + tol) (by linarith) (by linarith)
  obtain ⟨y, hy, y0, y1⟩ := r
  rw [HedgeKind.seldom.hedge_fin _ (by linarith) (by linarith), Ext.fin.injEq] at hy
  rw [HedgeKind.seldom.hedge_fin _ (by linarith) (by linarith),
    HedgeKind.extremely.hedge_fin _ (hy ▸ y0) (hy ▸ y1)]
  intro hc
  rw [Ext.fin.injEq] at hc
  simp only [real, lt_irrefl, if_false] at hc
  set s := Real.sqrt (1/2 * (1 - (1/2 + tol))) with hs
  have s0 : 0 ≤ s := Real.sqrt_nonneg _
  have s2 : s * s = 1/2 * (1 - (1/2 + tol)) := Real.mul_self_sqrt (by linarith)
  have slt : s < 1/2 := by nlinarith
  have sgt : 1/2 - tol < s := by
    by_contra hcon
    push Not at hcon
    nlinarith
  rw [if_pos (by linarith)] at hc
  nlinarith

end FL

namespace FL
open Scalar Ext
/-- Non-vacuity: the shipped tolerance meets the hypothesis, with an interior degree. -/
example : letI := Tol.default
    (tol : ℝ) ≤ 1/5 ∧ HedgeKind.very.hedge (fin (1/2 : ℝ)) = fin (1/4) := by
  let _ := Tol.default
  have ht : (tol : ℝ) = 1 / 1000000 := rfl
  constructor
  · rw [ht]; norm_num
  · simp only [HedgeKind.hedge, mul_fin]; norm_num
end FL
