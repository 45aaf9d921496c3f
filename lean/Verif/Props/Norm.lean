/-
C06-C12: laws of the built-in T-Norms and S-Norms.

All statements quantify over every positive machine epsilon (`[Tol ℝ]`), with an
explicit smallness hypothesis where one is needed; the shipped value is 1e-6.
-/
import Verif.Lemmas.NormReal

namespace FL
open Scalar Ext
variable [Tol ℝ]

/-- C06: every T-Norm maps truth degrees to truth degrees, below both arguments,
and is commutative. -/
theorem tnorm_range_comm (k : TNormKind) (a b : ℝ) (ha : 0 ≤ a) (ha1 : a ≤ 1) (hb : 0 ≤ b) (hb1 : b ≤ 1) :
    (∃ r : ℝ, k.compute (fin a) (fin b) = fin r ∧ 0 ≤ r ∧ r ≤ a ∧ r ≤ b) ∧
    k.compute (fin a) (fin b) = k.compute (fin b) (fin a) := by
  have h := k.real_range a b ha ha1 hb hb1
  refine ⟨⟨_, k.compute_fin a b ha ha1 hb hb1, h.1, le_min_iff.mp h.2⟩, ?_⟩
  rw [k.compute_fin a b ha ha1 hb hb1, k.compute_fin b a hb hb1 ha ha1, k.real_comm]

/-- C07: 0 is the annihilator of every T-Norm, on either side. -/
theorem tnorm_zero (k : TNormKind) (a : ℝ) (ha : 0 ≤ a) (ha1 : a ≤ 1) :
    k.compute (fin a) (fin 0) = fin 0 ∧ k.compute (fin 0) (fin a) = fin 0 := by
  have h := (tnorm_range_comm k a 0 ha ha1 (le_refl _) (by norm_num))
  obtain ⟨⟨r, h1, h2, h3, h4⟩, h5⟩ := h
  have : r = 0 := le_antisymm h4 h2
  rw [← h5, h1, this]; simp

/-- C07 (partial: NilpotentMinimum is excluded, see `tnorm_one_nilpotent_violated`):
1 is the identity of every other T-Norm, on either side. -/
theorem tnorm_one_partial (k : TNormKind) (hk : k ≠ .nilpotentMinimum) (hε : (tol : ℝ) ≤ 1)
    (a : ℝ) (ha : 0 ≤ a) (ha1 : a ≤ 1) :
    k.compute (fin a) (fin 1) = fin a ∧ k.compute (fin 1) (fin a) = fin a := by
  have ht := tol_pos
  have key : k.real a 1 = a := by
    cases k <;> simp only [TNormKind.real]
    case algebraicProduct => ring
    case boundedDifference => rw [max_eq_right] <;> linarith
    case drasticProduct => rw [max_eq_right ha1, if_pos (by linarith), min_eq_left ha1]
    case einsteinProduct => rw [show 2 - (a + 1 - a * 1) = 1 by ring]; ring
    case hamacherProduct =>
      rw [if_neg (by linarith), show a + 1 - a * 1 = 1 by ring]; ring
    case minimum => exact min_eq_left ha1
    case nilpotentMinimum => exact absurd rfl hk
  rw [k.compute_fin a 1 ha ha1 (by norm_num) (le_refl _), k.compute_fin 1 a (by norm_num) (le_refl _) ha ha1,
    k.real_comm 1 a, key]
  simp

/-- C07: the full identity law is false: NilpotentMinimum turns every degree below the
tolerance into 0 when combined with 1. -/
theorem tnorm_one_nilpotent_violated (hε : (tol : ℝ) ≤ 1) :
    ∃ a : ℝ, 0 < a ∧ a < 1 ∧ TNormKind.nilpotentMinimum.compute (fin a) (fin 1) = fin 0 := by
  have ht := tol_pos
  refine ⟨tol / 2, by linarith, by linarith, ?_⟩
  rw [TNormKind.compute_fin _ _ _ (by linarith) (by linarith) (by norm_num) (le_refl _)]
  simp only [TNormKind.real]
  rw [if_neg (by linarith)]

/-- C07: NilpotentMinimum satisfies the identity law for every degree that is at least the
tolerance (and for 0). -/
theorem tnorm_one_nilpotent_partial (a : ℝ) (ha : tol ≤ a) (ha1 : a ≤ 1) :
    TNormKind.nilpotentMinimum.compute (fin a) (fin 1) = fin a := by
  have ht := tol_pos
  rw [TNormKind.compute_fin _ _ _ (by linarith) ha1 (by norm_num) (le_refl _)]
  simp only [TNormKind.real]
  rw [if_pos (by linarith), min_eq_left ha1]

/-- C08: every T-Norm is monotone (in each argument, by commutativity). -/
theorem tnorm_monotone (k : TNormKind) (a b c : ℝ) (ha : 0 ≤ a) (hab : a ≤ b) (hb1 : b ≤ 1)
    (hc : 0 ≤ c) (hc1 : c ≤ 1) :
    le (k.compute (fin a) (fin c)) (k.compute (fin b) (fin c)) = true ∧
    le (k.compute (fin c) (fin a)) (k.compute (fin c) (fin b)) = true := by
  have ha1 := hab.trans hb1
  have hb := ha.trans hab
  rw [k.compute_fin a c ha ha1 hc hc1, k.compute_fin b c hb hb1 hc hc1,
    k.compute_fin c a hc hc1 ha ha1, k.compute_fin c b hc hc1 hb hb1, k.real_comm c a, k.real_comm c b]
  simp [k.real_mono a b c ha hab hb1 hc hc1]

/-- C08 (partial: HamacherProduct is excluded): every other T-Norm is associative. -/
theorem tnorm_associative_partial (k : TNormKind) (hk : k ≠ .hamacherProduct) (a b c : ℝ)
    (ha : 0 ≤ a) (ha1 : a ≤ 1) (hb : 0 ≤ b) (hb1 : b ≤ 1) (hc : 0 ≤ c) (hc1 : c ≤ 1) :
    k.compute (k.compute (fin a) (fin b)) (fin c) = k.compute (fin a) (k.compute (fin b) (fin c)) := by
  have r1 := k.real_range a b ha ha1 hb hb1
  have r2 := k.real_range b c hb hb1 hc hc1
  rw [k.compute_fin a b ha ha1 hb hb1, k.compute_fin b c hb hb1 hc hc1,
    k.compute_fin _ c r1.1 (r1.2.trans ((min_le_left _ _).trans ha1)) hc hc1,
    k.compute_fin a _ ha ha1 r2.1 (r2.2.trans ((min_le_left _ _).trans hb1)),
    k.real_assoc hk a b c ha ha1 hb hb1 hc hc1]

/-- C08: HamacherProduct is associative up to the tolerance. -/
theorem tnorm_hamacher_associative_partial (a b c : ℝ)
    (ha : 0 ≤ a) (ha1 : a ≤ 1) (hb : 0 ≤ b) (hb1 : b ≤ 1) (hc : 0 ≤ c) (hc1 : c ≤ 1) :
    ∃ x y : ℝ,
      TNormKind.hamacherProduct.compute (TNormKind.hamacherProduct.compute (fin a) (fin b)) (fin c) = fin x ∧
      TNormKind.hamacherProduct.compute (fin a) (TNormKind.hamacherProduct.compute (fin b) (fin c)) = fin y ∧
      |x - y| < tol := by
  set k := TNormKind.hamacherProduct
  have r1 := k.real_range a b ha ha1 hb hb1
  have r2 := k.real_range b c hb hb1 hc hc1
  rw [k.compute_fin a b ha ha1 hb hb1, k.compute_fin b c hb hb1 hc hc1,
    k.compute_fin _ c r1.1 (r1.2.trans ((min_le_left _ _).trans ha1)) hc hc1,
    k.compute_fin a _ ha ha1 r2.1 (r2.2.trans ((min_le_left _ _).trans hb1))]
  exact ⟨_, _, rfl, rfl, hamacher_assoc_approx a b c ha ha1 hb hb1 hc hc1⟩

/-- C09: every S-Norm but UnboundedSum maps truth degrees to truth degrees, above both
arguments; all are commutative. -/
theorem snorm_range_comm (k : SNormKind) (a b : ℝ) (ha : 0 ≤ a) (ha1 : a ≤ 1) (hb : 0 ≤ b) (hb1 : b ≤ 1) :
    (k ≠ .unboundedSum →
      ∃ r : ℝ, k.compute (fin a) (fin b) = fin r ∧ a ≤ r ∧ b ≤ r ∧ r ≤ 1) ∧
    k.compute (fin a) (fin b) = k.compute (fin b) (fin a) := by
  constructor
  · intro hk
    have h := k.real_range hk a b ha ha1 hb hb1
    exact ⟨_, k.compute_fin a b ha ha1 hb hb1, (max_le_iff.mp h.1).1, (max_le_iff.mp h.1).2, h.2⟩
  · rw [k.compute_fin a b ha ha1 hb hb1, k.compute_fin b a hb hb1 ha ha1, k.real_comm]

/-- C09: UnboundedSum is the plain sum; it leaves `[0,1]` exactly when `a + b > 1`. -/
theorem unboundedSum_range (a b : ℝ) (ha : 0 ≤ a) (hb : 0 ≤ b) :
    ∃ r : ℝ, SNormKind.unboundedSum.compute (fin a) (fin b) = fin r ∧ a ≤ r ∧ b ≤ r ∧
      (1 < r ↔ 1 < a + b) :=
  ⟨a + b, rfl, by linarith, by linarith, Iff.rfl⟩

/-- C10: 1 is the annihilator of every S-Norm but UnboundedSum. -/
theorem snorm_one (k : SNormKind) (hk : k ≠ .unboundedSum) (a : ℝ) (ha : 0 ≤ a) (ha1 : a ≤ 1) :
    k.compute (fin a) (fin 1) = fin 1 ∧ k.compute (fin 1) (fin a) = fin 1 := by
  obtain ⟨h, h5⟩ := (snorm_range_comm k a 1 ha ha1 (by norm_num) (le_refl _))
  obtain ⟨r, h1, h2, h3, h4⟩ := h hk
  have : r = 1 := le_antisymm h4 h3
  rw [← h5, h1, this]; simp

/-- C10 (partial: NilpotentMaximum is excluded): 0 is the identity of every other S-Norm. -/
theorem snorm_zero_partial (k : SNormKind) (hk : k ≠ .nilpotentMaximum) (hε : (tol : ℝ) ≤ 1)
    (a : ℝ) (ha : 0 ≤ a) (ha1 : a ≤ 1) :
    k.compute (fin a) (fin 0) = fin a ∧ k.compute (fin 0) (fin a) = fin a := by
  have ht := tol_pos
  have key : k.real a 0 = a := by
    cases k <;> simp only [SNormKind.real]
    case algebraicSum => ring
    case boundedSum => rw [min_eq_right] <;> linarith
    case drasticSum => rw [min_eq_right ha, if_pos ht, max_eq_left ha]
    case einsteinSum => simp
    case hamacherSum => rw [if_neg (by rw [mul_zero]; linarith)]; simp
    case maximum => exact max_eq_left ha
    case nilpotentMaximum => exact absurd rfl hk
    case normalizedSum => rw [min_eq_right] <;> linarith
    case unboundedSum => ring
  rw [k.compute_fin a 0 ha ha1 (le_refl _) (by norm_num), k.compute_fin 0 a (le_refl _) (by norm_num) ha ha1,
    k.real_comm 0 a, key]
  simp

/-- C10: the full identity law is false: NilpotentMaximum turns degrees within the tolerance
of 1 into 1 when combined with 0. -/
theorem snorm_zero_nilpotent_violated (hε : (tol : ℝ) ≤ 1) :
    ∃ a : ℝ, 0 < a ∧ a < 1 ∧ SNormKind.nilpotentMaximum.compute (fin a) (fin 0) = fin 1 := by
  have ht := tol_pos
  refine ⟨1 - tol / 2, by linarith, by linarith, ?_⟩
  rw [SNormKind.compute_fin _ _ _ (by linarith) (by linarith) (by norm_num) (by norm_num)]
  simp only [SNormKind.real]
  rw [if_neg (by linarith)]

/-- C10: NilpotentMaximum satisfies the identity law for every degree at least the tolerance below 1. -/
theorem snorm_zero_nilpotent_partial (a : ℝ) (ha : 0 ≤ a) (ha1 : a + tol ≤ 1) :
    SNormKind.nilpotentMaximum.compute (fin a) (fin 0) = fin a := by
  have ht := tol_pos
  rw [SNormKind.compute_fin _ _ _ (by linarith) (by linarith) (by norm_num) (by norm_num)]
  simp only [SNormKind.real]
  rw [if_pos (by linarith), max_eq_left ha]

/-- C11: every S-Norm is monotone. -/
theorem snorm_monotone (k : SNormKind) (a b c : ℝ) (ha : 0 ≤ a) (hab : a ≤ b) (hb1 : b ≤ 1)
    (hc : 0 ≤ c) (hc1 : c ≤ 1) :
    le (k.compute (fin a) (fin c)) (k.compute (fin b) (fin c)) = true ∧
    le (k.compute (fin c) (fin a)) (k.compute (fin c) (fin b)) = true := by
  have ha1 := hab.trans hb1
  have hb := ha.trans hab
  rw [k.compute_fin a c ha ha1 hc hc1, k.compute_fin b c hb hb1 hc hc1,
    k.compute_fin c a hc hc1 ha ha1, k.compute_fin c b hc hc1 hb hb1, k.real_comm c a, k.real_comm c b]
  simp [k.real_mono a b c ha hab hb1 hc hc1]

/-- C11 (partial: HamacherSum is excluded): every other S-Norm is associative. -/
theorem snorm_associative_partial (k : SNormKind) (hk : k ≠ .hamacherSum) (a b c : ℝ)
    (ha : 0 ≤ a) (ha1 : a ≤ 1) (hb : 0 ≤ b) (hb1 : b ≤ 1) (hc : 0 ≤ c) (hc1 : c ≤ 1) :
    k.compute (k.compute (fin a) (fin b)) (fin c) = k.compute (fin a) (k.compute (fin b) (fin c)) := by
  by_cases hu : k = .unboundedSum
  · subst hu
    simp only [SNormKind.compute, add_fin]
    congr 1; ring
  have r1 := k.real_range hu a b ha ha1 hb hb1
  have r2 := k.real_range hu b c hb hb1 hc hc1
  rw [k.compute_fin a b ha ha1 hb hb1, k.compute_fin b c hb hb1 hc hc1,
    k.compute_fin _ c (ha.trans ((le_max_left _ _).trans r1.1)) r1.2 hc hc1,
    k.compute_fin a _ ha ha1 (hb.trans ((le_max_left _ _).trans r2.1)) r2.2,
    k.real_assoc hk a b c ha ha1 hb hb1 hc hc1]

/-- C11: HamacherSum is associative up to the tolerance. -/
theorem snorm_hamacher_associative_partial (a b c : ℝ)
    (ha : 0 ≤ a) (ha1 : a ≤ 1) (hb : 0 ≤ b) (hb1 : b ≤ 1) (hc : 0 ≤ c) (hc1 : c ≤ 1) :
    ∃ x y : ℝ,
      SNormKind.hamacherSum.compute (SNormKind.hamacherSum.compute (fin a) (fin b)) (fin c) = fin x ∧
      SNormKind.hamacherSum.compute (fin a) (SNormKind.hamacherSum.compute (fin b) (fin c)) = fin y ∧
      |x - y| < tol := by
  set k := SNormKind.hamacherSum with hkk
  have hu : k ≠ .unboundedSum := by rw [hkk]; decide
  have r1 := k.real_range hu a b ha ha1 hb hb1
  have r2 := k.real_range hu b c hb hb1 hc hc1
  rw [k.compute_fin a b ha ha1 hb hb1, k.compute_fin b c hb hb1 hc hc1,
    k.compute_fin _ c (ha.trans ((le_max_left _ _).trans r1.1)) r1.2 hc hc1,
    k.compute_fin a _ ha ha1 (hb.trans ((le_max_left _ _).trans r2.1)) r2.2]
  exact ⟨_, _, rfl, rfl, hamacherS_assoc_approx a b c ha ha1 hb hb1 hc hc1⟩

section Duality

/-- The S-Norm of the same family as each T-Norm. -/
def TNormKind.dual : TNormKind → SNormKind
  | .algebraicProduct => .algebraicSum
  | .boundedDifference => .boundedSum
  | .drasticProduct => .drasticSum
  | .einsteinProduct => .einsteinSum
  | .hamacherProduct => .hamacherSum
  | .minimum => .maximum
  | .nilpotentMinimum => .nilpotentMaximum

/-- C12 (partial: the Hamacher pair is excluded): `S(a,b) = 1 - T(1-a,1-b)` for each family,
stated with the library's own `not` (i.e. `1 - x`). -/
theorem demorgan_partial (k : TNormKind) (hk : k ≠ .hamacherProduct) (a b : ℝ)
    (ha : 0 ≤ a) (ha1 : a ≤ 1) (hb : 0 ≤ b) (hb1 : b ≤ 1) :
    k.dual.compute (fin a) (fin b) = fin 1 - k.compute (fin 1 - fin a) (fin 1 - fin b) := by
  have ht := tol_pos
  simp only [sub_fin]
  rw [k.compute_fin _ _ (by linarith) (by linarith) (by linarith) (by linarith),
    SNormKind.compute_fin _ a b ha ha1 hb hb1, sub_fin]
  congr 1
  have mx : max (1 - a) (1 - b) = 1 - min a b := by
    rcases le_total a b with h | h
    · rw [max_eq_left (by linarith), min_eq_left h]
    · rw [max_eq_right (by linarith), min_eq_right h]
  have mn : min (1 - a) (1 - b) = 1 - max a b := by
    rcases le_total a b with h | h
    · rw [min_eq_right (by linarith), max_eq_right h]
    · rw [min_eq_left (by linarith), max_eq_left h]
  cases k <;> simp only [TNormKind.dual, TNormKind.real, SNormKind.real]
  case algebraicProduct => ring
  case boundedDifference =>
    rcases le_total 1 (a + b) with h | h
    · rw [min_eq_left h, max_eq_left (by linarith)]; ring
    · rw [min_eq_right h, max_eq_right (by linarith)]; ring
  case drasticProduct =>
    rw [mx, mn]
    have : (1 - tol < 1 - min a b) ↔ min a b < tol := by constructor <;> intro h <;> linarith
    simp only [this]
    split <;> ring
  case einsteinProduct =>
    have h : 1 + a * b ≠ 0 := by positivity
    rw [show 2 - (1 - a + (1 - b) - (1 - a) * (1 - b)) = 1 + a * b by ring]
    field_simp; ring
  case hamacherProduct => exact absurd rfl hk
  case minimum => rw [mn]; ring
  case nilpotentMinimum =>
    rw [mn]
    have : (1 + tol ≤ 1 - a + (1 - b)) ↔ a + b + tol ≤ 1 := by constructor <;> intro h <;> linarith
    simp only [this]
    split <;> ring

/-- C12: outside the tolerance guards the Hamacher pair is dual as well. -/
theorem demorgan_hamacher_partial (a b : ℝ) (ha : 0 ≤ a) (hb : 0 ≤ b)
    (ha1 : a ≤ 1) (hb1 : b ≤ 1) (hg : a * b + tol ≤ 1) :
    SNormKind.hamacherSum.compute (fin a) (fin b)
      = fin 1 - TNormKind.hamacherProduct.compute (fin 1 - fin a) (fin 1 - fin b) := by
  have ht := tol_pos
  simp only [sub_fin]
  rw [TNormKind.compute_fin _ _ _ (by linarith) (by linarith) (by linarith) (by linarith),
    SNormKind.compute_fin _ a b ha ha1 hb hb1, sub_fin]
  congr 1
  simp only [TNormKind.real, SNormKind.real]
  have h : 1 - a * b ≠ 0 := by linarith
  rw [if_neg (by linarith), if_neg (by nlinarith [mul_nonneg (sub_nonneg.mpr ha1) (sub_nonneg.mpr hb1)])]
  rw [show 1 - a + (1 - b) - (1 - a) * (1 - b) = 1 - a * b by ring]
  field_simp; ring

/-- C12: full duality is false for Hamacher: the two guards test different quantities. -/
theorem demorgan_hamacher_violated (hε : (tol : ℝ) ≤ 1) :
    ∃ a b : ℝ, 0 ≤ a ∧ a ≤ 1 ∧ 0 ≤ b ∧ b ≤ 1 ∧
      SNormKind.hamacherSum.compute (fin a) (fin b)
        ≠ fin 1 - TNormKind.hamacherProduct.compute (fin 1 - fin a) (fin 1 - fin b) := by
  have ht := tol_pos
  refine ⟨1 - tol / 2, 1 - tol / 2, by linarith, by linarith, by linarith, by linarith, ?_⟩
  simp only [sub_fin]
  rw [TNormKind.compute_fin _ _ _ (by linarith) (by linarith) (by linarith) (by linarith),
    SNormKind.compute_fin _ _ _ (by linarith) (by linarith) (by linarith) (by linarith), sub_fin]
  simp only [TNormKind.real, SNormKind.real]
  rw [if_pos (by nlinarith), if_neg (by linarith)]
  intro h
  injection h with h
  have : 0 < (1 - (1 - tol / 2)) * (1 - (1 - tol / 2)) / (1 - (1 - tol / 2) + (1 - (1 - tol / 2)) - (1 - (1 - tol / 2)) * (1 - (1 - tol / 2))) := by
    apply div_pos
    · have : 0 < 1 - (1 - tol / 2) := by linarith
      positivity
    · nlinarith
  linarith

end Duality

/-! Violations at the shipped machine epsilon (1e-6). -/
section Shipped

omit [Tol ℝ] in
/-- C08: full associativity is false for HamacherProduct: with a = b = 1e-6 and c = 1e-7 one
grouping is cut to 0 and the other is positive. -/
theorem tnorm_hamacher_associative_violated : letI := Tol.default
    ∃ a b c : ℝ, (0 ≤ a ∧ a ≤ 1) ∧ (0 ≤ b ∧ b ≤ 1) ∧ (0 ≤ c ∧ c ≤ 1) ∧
      TNormKind.hamacherProduct.compute (TNormKind.hamacherProduct.compute (fin a) (fin b)) (fin c) = fin 0 ∧
      ∃ r : ℝ, 0 < r ∧
        TNormKind.hamacherProduct.compute (fin a) (TNormKind.hamacherProduct.compute (fin b) (fin c)) = fin r := by
  let _ := Tol.default
  have ht : (tol : ℝ) = 1 / 1000000 := rfl
  refine ⟨1/1000000, 1/1000000, 1/10000000, by norm_num, by norm_num, by norm_num, ?_, ?_⟩
  · rw [TNormKind.compute_fin _ (1/1000000) _ (by norm_num) (by norm_num) (by norm_num) (by norm_num)]
    rw [TNormKind.compute_fin _ _ _ (by simp only [TNormKind.real, ht]; norm_num)
      (by simp only [TNormKind.real, ht]; norm_num) (by norm_num) (by norm_num)]
    simp only [TNormKind.real, ht]; norm_num
  · rw [TNormKind.compute_fin _ (1/1000000) _ (by norm_num) (by norm_num) (by norm_num) (by norm_num)]
    rw [TNormKind.compute_fin _ _ _ (by norm_num) (by norm_num) (by simp only [TNormKind.real, ht]; norm_num)
      (by simp only [TNormKind.real, ht]; norm_num)]
    refine ⟨_, ?_, rfl⟩
    simp only [TNormKind.real, ht]; norm_num

omit [Tol ℝ] in
/-- C11: full associativity is false for HamacherSum (the mirror image near 1). -/
theorem snorm_hamacher_associative_violated : letI := Tol.default
    ∃ a b c : ℝ, (0 ≤ a ∧ a ≤ 1) ∧ (0 ≤ b ∧ b ≤ 1) ∧ (0 ≤ c ∧ c ≤ 1) ∧
      SNormKind.hamacherSum.compute (SNormKind.hamacherSum.compute (fin a) (fin b)) (fin c) = fin 1 ∧
      ∃ r : ℝ, r < 1 ∧
        SNormKind.hamacherSum.compute (fin a) (SNormKind.hamacherSum.compute (fin b) (fin c)) = fin r := by
  let _ := Tol.default
  have ht : (tol : ℝ) = 1 / 1000000 := rfl
  refine ⟨1-1/1000000, 1-1/1000000, 1-1/10000000, by norm_num, by norm_num, by norm_num, ?_, ?_⟩
  · rw [SNormKind.compute_fin _ (1-1/1000000) _ (by norm_num) (by norm_num) (by norm_num) (by norm_num)]
    rw [SNormKind.compute_fin _ _ _ (by simp only [SNormKind.real, ht]; norm_num)
      (by simp only [SNormKind.real, ht]; norm_num) (by norm_num) (by norm_num)]
    simp only [SNormKind.real, ht]; norm_num
  · rw [SNormKind.compute_fin _ (1-1/1000000) _ (by norm_num) (by norm_num) (by norm_num) (by norm_num)]
    rw [SNormKind.compute_fin _ _ _ (by norm_num) (by norm_num) (by simp only [SNormKind.real, ht]; norm_num)
      (by simp only [SNormKind.real, ht]; norm_num)]
    refine ⟨_, ?_, rfl⟩
    simp only [SNormKind.real, ht]; norm_num

end Shipped
end FL

namespace FL
open Scalar Ext

/-- Non-vacuity: interior degrees meet every hypothesis above, at the shipped tolerance. -/
example : letI := Tol.default
    (tol : ℝ) ≤ 1 ∧ (0:ℝ) ≤ 3/10 ∧ (3/10:ℝ) ≤ 7/10 ∧ (7/10:ℝ) ≤ 1 ∧ (3/10:ℝ) * (7/10) + tol ≤ 1 ∧
    TNormKind.hamacherProduct.compute (fin (3/10 : ℝ)) (fin (7/10)) ≠ fin 0 := by
  let _ := Tol.default
  have ht : (tol : ℝ) = 1 / 1000000 := rfl
  refine ⟨by rw [ht]; norm_num, by norm_num, by norm_num, by norm_num, by rw [ht]; norm_num, ?_⟩
  rw [TNormKind.compute_fin _ _ _ (by norm_num) (by norm_num) (by norm_num) (by norm_num)]
  simp only [TNormKind.real, ht]; norm_num

end FL
