/-
C50, C55: range scaling, midpoints, sample statistics.
-/
import Verif.Lemmas.Ext
import Mathlib.Algebra.BigOperators.Group.List.Basic
import Mathlib.Algebra.Order.BigOperators.Group.List
import Mathlib.Data.Real.Sqrt

namespace FL
open Scalar Ext
namespace Op
section
variable [Tol ℝ]

theorem scale_fin (x a b c d : ℝ) (h : a ≠ b) :
    scale (fin x) (fin a) (fin b) (fin c) (fin d) = fin ((d - c) / (b - a) * (x - a) + c) := by
  have : b - a ≠ 0 := sub_ne_zero.mpr (Ne.symm h)
  simp [scale, div_fin _ _ this]

/-- C50: `scale` is the affine map taking the ends of the source range to the ends of the target
range, hence monotone (with the sign of the ratio of the widths). -/
theorem scale_affine (a b c d : ℝ) (h : a ≠ b) :
    scale (fin a) (fin a) (fin b) (fin c) (fin d) = fin c ∧
    scale (fin b) (fin a) (fin b) (fin c) (fin d) = fin d ∧
    ∃ m : ℝ, m = (d - c) / (b - a) ∧ ∀ x y : ℝ, ∃ u v : ℝ,
      scale (fin x) (fin a) (fin b) (fin c) (fin d) = fin u ∧
      scale (fin y) (fin a) (fin b) (fin c) (fin d) = fin v ∧
      v - u = m * (y - x) ∧ (0 < m → x < y → u < v) ∧ (m < 0 → x < y → v < u) := by
  have hba : b - a ≠ 0 := sub_ne_zero.mpr (Ne.symm h)
  refine ⟨by rw [scale_fin _ _ _ _ _ h]; simp, by rw [scale_fin _ _ _ _ _ h]; congr 1; field_simp; ring, _, rfl, ?_⟩
  intro x y
  refine ⟨_, _, scale_fin x a b c d h, scale_fin y a b c d h, by ring, ?_, ?_⟩
  · intro hm hxy; nlinarith [mul_lt_mul_of_pos_left hxy hm]
  · intro hm hxy; nlinarith [mul_lt_mul_of_neg_left hxy hm]

/-- C50: swapping the ranges inverts the scaling. -/
theorem scale_inverse (x a b c d : ℝ) (h : a ≠ b) (h' : c ≠ d) :
    scale (scale (fin x) (fin a) (fin b) (fin c) (fin d)) (fin c) (fin d) (fin a) (fin b) = fin x := by
  have h1 : b - a ≠ 0 := sub_ne_zero.mpr (Ne.symm h)
  have h2 : d - c ≠ 0 := sub_ne_zero.mpr (Ne.symm h')
  rw [scale_fin _ _ _ _ _ h, scale_fin _ _ _ _ _ h']
  congr 1; field_simp; ring

/-- C50: composing two scalings equals the direct scaling. -/
theorem scale_compose (x a b c d e f : ℝ) (h : a ≠ b) (h' : c ≠ d) :
    scale (scale (fin x) (fin a) (fin b) (fin c) (fin d)) (fin c) (fin d) (fin e) (fin f) =
      scale (fin x) (fin a) (fin b) (fin e) (fin f) := by
  have h1 : b - a ≠ 0 := sub_ne_zero.mpr (Ne.symm h)
  have h2 : d - c ≠ 0 := sub_ne_zero.mpr (Ne.symm h')
  rw [scale_fin _ _ _ _ _ h, scale_fin _ _ _ _ _ h', scale_fin _ _ _ _ _ h]
  congr 1; field_simp; ring

/-- C50: the bounded variant stays within the target range, and agrees with the plain one for
sources within the source range. -/
theorem scaleBounded_range (x a b c d : ℝ) (h : a < b) (hcd : c ≤ d) :
    ∃ u, scaleBounded (fin x) (fin a) (fin b) (fin c) (fin d) true = fin u ∧ c ≤ u ∧ u ≤ d ∧
      (a ≤ x → x ≤ b → scale (fin x) (fin a) (fin b) (fin c) (fin d) = fin u) := by
  have e : scaleBounded (fin x) (fin a) (fin b) (fin c) (fin d) true =
      bound (scale (fin x) (fin a) (fin b) (fin c) (fin d)) (fin c) (fin d) := rfl
  have hba : 0 < b - a := sub_pos.mpr h
  rw [e, scale_fin _ _ _ _ _ h.ne]
  set v := (d - c) / (b - a) * (x - a) + c with hv
  by_cases h1 : d < v
  · refine ⟨d, by simp [bound, h1], hcd, le_refl _, ?_⟩
    intro hx hx'
    exfalso
    have : (d - c) / (b - a) * (x - a) ≤ d - c := by
      rw [div_mul_eq_mul_div, div_le_iff₀ hba]
      exact mul_le_mul_of_nonneg_left (by linarith) (by linarith)
    linarith
  · by_cases h2 : v < c
    · refine ⟨c, by simp [bound, h1, h2], le_refl _, hcd, ?_⟩
      intro hx hx'
      exfalso
      have : 0 ≤ (d - c) / (b - a) * (x - a) :=
        mul_nonneg (div_nonneg (by linarith) hba.le) (by linarith)
      linarith
    · exact ⟨v, by simp [bound, h1, h2], not_lt.mp h2, not_lt.mp h1, fun _ _ => rfl⟩

/-- the `i`-th midpoint -/
theorem midpoints_getElem (a b : ℝ) (n i : Nat) (hi : i < n) :
    (midpoints (fin a) (fin b) n)[i]? = some (fin (a + ((i : ℝ) + 1 / 2) * ((b - a) / n))) := by
  have hn : ((n : ℚ) : ℝ) ≠ 0 := by
    have : n ≠ 0 := by omega
    exact_mod_cast this
  simp only [midpoints, ofRat_def, sub_fin, div_fin _ _ hn, add_fin, mul_fin, List.getElem?_map,
    List.getElem?_range hi, Option.map_some, Option.some.injEq, Ext.fin.injEq]
  norm_num

/-- C50: `midpoints` yields `n` equidistant points strictly inside the interval, symmetric about
its centre. -/
theorem midpoints_spec (a b : ℝ) (h : a < b) (n : Nat) :
    (midpoints (fin a) (fin b) n).length = n ∧
    ∀ i < n, ∃ x : ℝ, (midpoints (fin a) (fin b) n)[i]? = some (fin x) ∧ a < x ∧ x < b ∧
      (∃ y, (midpoints (fin a) (fin b) n)[n - 1 - i]? = some (fin y) ∧ x + y = a + b) ∧
      (i + 1 < n → (midpoints (fin a) (fin b) n)[i + 1]? = some (fin (x + (b - a) / n))) := by
  refine ⟨by simp [midpoints], ?_⟩
  intro i hi
  have hn : (0 : ℝ) < n := by exact_mod_cast (by omega : 0 < n)
  have hi' : (i : ℝ) + 1 ≤ n := by exact_mod_cast hi
  have hi0 : (0 : ℝ) ≤ i := by positivity
  have hdx : 0 < (b - a) / n := div_pos (by linarith) hn
  have hmul : (n : ℝ) * ((b - a) / n) = b - a := by field_simp
  refine ⟨_, midpoints_getElem a b n i hi, ?_, ?_, ⟨_, midpoints_getElem a b n _ (by omega), ?_⟩, ?_⟩
  · nlinarith
  · nlinarith
  · have : ((n - 1 - i : ℕ) : ℝ) = n - 1 - i := by
      rw [Nat.cast_sub (by omega), Nat.cast_sub (by omega)]; simp
    rw [this]
    linear_combination hmul
  · intro hi1
    rw [midpoints_getElem a b n (i + 1) hi1]
    congr 2; push_cast; ring

/-! ### statistics -/

theorem sum_fin (xs : List ℝ) : sum (xs.map fin) = fin xs.sum := by
  have : ∀ (xs : List ℝ) (c : ℝ), (xs.map fin).foldl (fun acc y => acc + y) (fin c) = fin (c + xs.sum) := by
    intro xs
    induction xs with
    | nil => simp
    | cons x xs ih => intro c; simp only [List.map_cons, List.foldl_cons, add_fin, ih, List.sum_cons]; congr 1; ring
  have h := this xs 0
  simp only [sum, ofRat_def, Rat.cast_zero, h, zero_add]

theorem mean_fin (xs : List ℝ) (h : xs ≠ []) : mean (xs.map fin) = fin (xs.sum / xs.length) := by
  have hl : ((xs.length : ℚ) : ℝ) ≠ 0 := by
    have : xs.length ≠ 0 := by simpa using h
    exact_mod_cast this
  rw [mean, sum_fin, List.length_map]
  simp only [ofRat_def, div_fin _ _ hl]; simp

/-- C55: the mean of a non-empty list lies between any lower and upper bound of its elements; of
the empty list it is NaN. -/
theorem mean_between (xs : List ℝ) (lo hi : ℝ) (h : ∀ x ∈ xs, lo ≤ x ∧ x ≤ hi) :
    (xs = [] → mean (xs.map fin) = Ext.nan) ∧
    (xs ≠ [] → ∃ m, mean (xs.map fin) = fin m ∧ lo ≤ m ∧ m ≤ hi) := by
  constructor
  · rintro rfl; simp [mean, sum]
  · intro hne
    refine ⟨_, mean_fin xs hne, ?_⟩
    have hl : (0 : ℝ) < xs.length := by exact_mod_cast List.length_pos_of_ne_nil hne
    have h1 : (xs.length : ℝ) * lo ≤ xs.sum := by
      have := List.card_nsmul_le_sum xs lo (fun x hx => (h x hx).1)
      simpa using this
    have h2 : xs.sum ≤ (xs.length : ℝ) * hi := by
      have := List.sum_le_card_nsmul xs hi (fun x hx => (h x hx).2)
      simpa using this
    constructor
    · rw [le_div_iff₀ hl]; linarith
    · rw [div_le_iff₀ hl]; linarith

/-- sum of squared deviations -/
def ssd (xs : List ℝ) (m : ℝ) : ℝ := (xs.map fun x => (x - m) * (x - m)).sum

theorem ssd_nonneg (xs : List ℝ) (m : ℝ) : 0 ≤ ssd xs m := by
  apply List.sum_nonneg
  intro y hy
  obtain ⟨x, _, rfl⟩ := List.mem_map.mp hy
  exact mul_self_nonneg _

theorem ssd_zero_iff (xs : List ℝ) (m : ℝ) : ssd xs m = 0 ↔ ∀ x ∈ xs, x = m := by
  induction xs with
  | nil => simp [ssd]
  | cons a xs ih =>
    have e : ssd (a :: xs) m = (a - m) * (a - m) + ssd xs m := by simp [ssd]
    rw [e]
    have h1 := mul_self_nonneg (a - m)
    have h2 := ssd_nonneg xs m
    constructor
    · intro h
      have ha : (a - m) * (a - m) = 0 := by linarith
      have hx : ssd xs m = 0 := by linarith
      intro x hx'
      rcases List.mem_cons.mp hx' with rfl | hx'
      · have := mul_self_eq_zero.mp ha; linarith
      · exact ih.mp hx x hx'
    · intro h
      rw [ih.mpr (fun x hx => h x (List.mem_cons_of_mem _ hx)), h a (by simp)]; ring

theorem variance_fin (xs : List ℝ) (h : 2 ≤ xs.length) :
    variance (xs.map fin) = fin (ssd xs (xs.sum / xs.length) / (xs.length - 1)) := by
  have hne : xs ≠ [] := by rintro rfl; simp at h
  have fold : ∀ (xs : List ℝ) (m c : ℝ), (xs.map fin).foldl (fun acc y => acc + (y - fin m) * (y - fin m)) (fin c)
      = fin (c + ssd xs m) := by
    intro xs m
    induction xs with
    | nil => simp [ssd]
    | cons x xs ih =>
      intro c
      simp only [List.map_cons, List.foldl_cons, sub_fin, mul_fin, add_fin, ih]
      congr 1; simp [ssd]; ring
  rw [variance, mean_fin xs hne]
  obtain ⟨a, b, ys, rfl⟩ : ∃ a b ys, xs = a :: b :: ys := by
    match xs, h with
    | a :: b :: ys, _ => exact ⟨a, b, ys, rfl⟩
  generalize (a :: b :: ys).sum / _ = m
  have e := fold (a :: b :: ys) m 0
  simp only [List.map_cons] at e
  have hl : ((((fin a : Ext ℝ) :: fin b :: ys.map fin).length : ℚ) - 1 : ℚ) = ((ys.length : ℚ) + 1) := by
    simp
  have hl0 : (((ys.length : ℚ) + 1 : ℚ) : ℝ) ≠ 0 := by push_cast; positivity
  simp only [List.map_cons, varianceM, ofRat_def, Rat.cast_zero, e, hl, div_fin _ _ hl0, zero_add]
  congr 2; simp

/-- C55: the variance of a non-empty list is a non-negative number, zero exactly when all elements
coincide; NaN for the empty list. -/
theorem variance_nonneg (xs : List ℝ) :
    (xs = [] → variance (xs.map fin) = Ext.nan) ∧
    (xs ≠ [] → ∃ v, variance (xs.map fin) = fin v ∧ 0 ≤ v ∧
      (v = 0 ↔ ∀ x ∈ xs, ∀ y ∈ xs, x = y)) := by
  constructor
  · rintro rfl; simp [variance, varianceM]
  · intro hne
    match xs, hne with
    | [a], _ => exact ⟨0, by simp [variance, varianceM], le_refl _, by simp⟩
    | a :: b :: ys, _ =>
      refine ⟨_, variance_fin (a :: b :: ys) (by simp), ?_, ?_⟩
      · apply div_nonneg (ssd_nonneg _ _)
        simp; positivity
      · set xs := a :: b :: ys with hxs
        have hl1 : ((xs.length : ℝ) - 1) ≠ 0 := by rw [hxs]; simp; positivity
        have hl : ((xs.length : ℝ)) ≠ 0 := by rw [hxs]; simp; positivity
        rw [div_eq_zero_iff, or_iff_left hl1, ssd_zero_iff]
        constructor
        · intro h x hx y hy; rw [h x hx, h y hy]
        · intro h x hx
          have : xs = List.replicate xs.length x := List.eq_replicate_iff.mpr ⟨rfl, fun y hy => h y hy x hx⟩
          have hs : xs.sum = xs.length * x := by
            conv_lhs => rw [this]
            simp
          rw [hs]; field_simp

/-- C55: the variance is invariant under translation. -/
theorem variance_translate (xs : List ℝ) (c : ℝ) :
    variance ((xs.map (· + c)).map fin) = variance (xs.map fin) := by
  match xs with
  | [] => rfl
  | [a] => simp [variance, varianceM]
  | a :: b :: ys =>
    rw [variance_fin _ (by simp), variance_fin _ (by simp)]
    set xs := a :: b :: ys with hxs
    have hl : ((xs.length : ℝ)) ≠ 0 := by rw [hxs]; simp; positivity
    have hs : (xs.map (· + c)).sum = xs.sum + xs.length * c := by
      clear_value xs
      clear hxs hl
      induction xs with
      | nil => simp
      | cons x xs ih => simp [ih]; ring
    have hm : (xs.map (· + c)).sum / xs.length = xs.sum / xs.length + c := by
      rw [hs]; field_simp
    have h2 : ∀ m, ssd (xs.map (· + c)) (m + c) = ssd xs m := by
      intro m
      simp only [ssd, List.map_map]
      congr 1
      apply List.map_congr_left
      intro x _
      simp
    rw [List.length_map, hm, h2]

/-- C55: the standard deviation is the square root of the variance, for every list. -/
theorem standardDeviation_sqrt (xs : List ℝ) :
    standardDeviation (xs.map fin) = Scalar.sqrt (variance (xs.map fin)) := by
  match xs with
  | [] => rfl
  | [a] => simp [standardDeviation, standardDeviationM, variance, varianceM, sqrt_fin]
  | a :: b :: ys => rfl

end
end Op
end FL

namespace FL
open Scalar Ext

/-- Non-vacuity of C50, C55 at the shipped tolerance. -/
example : letI := Tol.default
    Op.scale (fin (5 : ℝ)) (fin 0) (fin 10) (fin (-1)) (fin 1) = fin 0 := by
  let _ := Tol.default
  rw [Op.scale_fin _ _ _ _ _ (by norm_num)]; norm_num

example : letI := Tol.default
    Op.mean ([1, 2, 6].map fin : List (Ext ℝ)) = fin 3 ∧
    Op.variance ([1, 2, 6].map fin : List (Ext ℝ)) = fin 7 := by
  let _ := Tol.default
  refine ⟨by rw [Op.mean_fin _ (by simp)]; norm_num, ?_⟩
  rw [Op.variance_fin _ (by simp)]; norm_num [Op.ssd]

end FL
