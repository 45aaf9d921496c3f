/-
Real inequalities about the closed forms of the norms.
-/
import Verif.Lemmas.Norm

namespace FL
open Ext
variable [Tol ℝ]

theorem einstein_den_pos {a b : ℝ} (ha1 : a ≤ 1) (hb1 : b ≤ 1) (ha : 0 ≤ a) (hb : 0 ≤ b) :
    1 ≤ 2 - (a + b - a * b) := by nlinarith

theorem hamacher_den_pos {a b : ℝ} (ha : 0 ≤ a) (hb : 0 ≤ b) (ha1 : a ≤ 1) (hb1 : b ≤ 1)
    (h : 0 < a + b) : 0 < a + b - a * b := by
  nlinarith [mul_nonneg ha (sub_nonneg.mpr hb1), mul_nonneg hb (sub_nonneg.mpr ha1)]

theorem TNormKind.real_comm (k : TNormKind) (a b : ℝ) : k.real a b = k.real b a := by
  cases k <;> simp only [TNormKind.real, mul_comm, add_comm, max_comm, min_comm]

theorem TNormKind.real_range (k : TNormKind) (a b : ℝ) (ha : 0 ≤ a) (ha1 : a ≤ 1)
    (hb : 0 ≤ b) (hb1 : b ≤ 1) : 0 ≤ k.real a b ∧ k.real a b ≤ min a b := by
  have ht := tol_pos
  have hab0 : 0 ≤ a * b := mul_nonneg ha hb
  have hm : 0 ≤ min a b := le_min ha hb
  cases k <;> simp only [TNormKind.real]
  case algebraicProduct => exact ⟨hab0, le_min (by nlinarith) (by nlinarith)⟩
  case boundedDifference =>
    exact ⟨le_max_left _ _, max_le hm (le_min (by linarith) (by linarith))⟩
  case drasticProduct => split <;> simp [hm]
  case einsteinProduct =>
    have h := einstein_den_pos ha1 hb1 ha hb
    refine ⟨by positivity, ?_⟩
    rw [div_le_iff₀ (by linarith)]
    have : min a b * 1 ≤ min a b * (2 - (a + b - a * b)) := mul_le_mul_of_nonneg_left h hm
    have : a * b ≤ min a b := le_min (by nlinarith) (by nlinarith)
    linarith
  case hamacherProduct =>
    split_ifs with h
    · exact ⟨le_refl _, hm⟩
    · have h' := hamacher_den_pos ha hb ha1 hb1 (by linarith)
      refine ⟨by positivity, ?_⟩
      apply le_min
      · rw [div_le_iff₀ h']; nlinarith [mul_nonneg ha ha, mul_nonneg (mul_nonneg ha ha) (sub_nonneg.mpr hb1)]
      · rw [div_le_iff₀ h']; nlinarith [mul_nonneg hb hb, mul_nonneg (mul_nonneg hb hb) (sub_nonneg.mpr ha1)]
  case minimum => simp [hm]
  case nilpotentMinimum => split <;> simp [hm]

theorem TNormKind.real_mono (k : TNormKind) (a b c : ℝ) (ha : 0 ≤ a) (hab : a ≤ b) (hb1 : b ≤ 1)
    (hc : 0 ≤ c) (hc1 : c ≤ 1) : k.real a c ≤ k.real b c := by
  have ht := tol_pos
  have hb : 0 ≤ b := ha.trans hab
  have ha1 : a ≤ 1 := hab.trans hb1
  have r := k.real_range b c hb hb1 hc hc1
  cases k <;> simp only [TNormKind.real] at r ⊢
  case algebraicProduct => nlinarith
  case boundedDifference => exact max_le_max (le_refl _) (by linarith)
  case drasticProduct =>
    have : max a c ≤ max b c := max_le_max hab (le_refl _)
    split_ifs at r ⊢ with h1 h2
    · exact min_le_min hab (le_refl _)
    · exact absurd (h1.trans_le this) h2
    · exact r.1
    · exact le_refl _
  case einsteinProduct =>
    have h1 := einstein_den_pos ha1 hc1 ha hc
    have h2 := einstein_den_pos hb1 hc1 hb hc
    rw [div_le_div_iff₀ (by linarith) (by linarith)]
    have : b * c * (2 - (a + c - a * c)) - a * c * (2 - (b + c - b * c)) = (b - a) * c * (2 - c) := by ring
    nlinarith [mul_nonneg (mul_nonneg (sub_nonneg.mpr hab) hc) (by linarith : (0:ℝ) ≤ 2 - c)]
  case hamacherProduct =>
    split_ifs at r ⊢ with h1 h2 h2
    · exact le_refl _
    · exact r.1
    · linarith
    · have h3 := hamacher_den_pos ha hc ha1 hc1 (by linarith)
      have h4 := hamacher_den_pos hb hc hb1 hc1 (by linarith)
      rw [div_le_div_iff₀ h3 h4]
      have : b * c * (a + c - a * c) - a * c * (b + c - b * c) = (b - a) * (c * c) := by ring
      nlinarith [mul_nonneg (sub_nonneg.mpr hab) (mul_nonneg hc hc)]
  case minimum => exact min_le_min hab (le_refl _)
  case nilpotentMinimum =>
    split_ifs at r ⊢ with h1 h2
    · exact min_le_min hab (le_refl _)
    · linarith
    · exact r.1
    · exact le_refl _

theorem nilT_assoc (a b c : ℝ) (hc1 : c ≤ 1) (ha1 : a ≤ 1) :
    TNormKind.nilpotentMinimum.real (TNormKind.nilpotentMinimum.real a b) c
      = TNormKind.nilpotentMinimum.real a (TNormKind.nilpotentMinimum.real b c) := by
  have ht := tol_pos
  have P : ∀ x y : ℝ, 1 + tol ≤ x + y → TNormKind.nilpotentMinimum.real x y = min x y := by
    intro x y h; simp [TNormKind.real, h]
  have N : ∀ x y : ℝ, ¬ (1 + tol ≤ x + y) → TNormKind.nilpotentMinimum.real x y = 0 := by
    intro x y h; simp only [TNormKind.real, h, if_false]
  have n1 : ¬ (1 + tol ≤ 0 + c) := by linarith
  have n2 : ¬ (1 + tol ≤ a + 0) := by linarith
  have m1 : (1 + tol ≤ min a b + c) ↔ (1 + tol ≤ a + c ∧ 1 + tol ≤ b + c) := by
    rw [← min_add_add_right, le_min_iff]
  have m2 : (1 + tol ≤ a + min b c) ↔ (1 + tol ≤ a + b ∧ 1 + tol ≤ a + c) := by
    rw [← min_add_add_left, le_min_iff]
  by_cases A : 1 + tol ≤ a + b <;> by_cases B : 1 + tol ≤ b + c
  · rw [P a b A, P b c B]
    by_cases C : 1 + tol ≤ a + c
    · rw [P _ _ (m1.mpr ⟨C, B⟩), P _ _ (m2.mpr ⟨A, C⟩), min_assoc]
    · rw [N _ _ (by rw [m1]; tauto), N _ _ (by rw [m2]; tauto)]
  · rw [P a b A, N b c B, N _ _ n2, N _ _ (by rw [m1]; tauto)]
  · rw [N a b A, P b c B, N _ _ n1, N _ _ (by rw [m2]; tauto)]
  · rw [N a b A, N b c B, N _ _ n1, N _ _ n2]

theorem nilS_assoc (a b c : ℝ) (hc : 0 ≤ c) (ha : 0 ≤ a) :
    SNormKind.nilpotentMaximum.real (SNormKind.nilpotentMaximum.real a b) c
      = SNormKind.nilpotentMaximum.real a (SNormKind.nilpotentMaximum.real b c) := by
  have ht := tol_pos
  have P : ∀ x y : ℝ, x + y + tol ≤ 1 → SNormKind.nilpotentMaximum.real x y = max x y := by
    intro x y h; simp [SNormKind.real, h]
  have N : ∀ x y : ℝ, ¬ (x + y + tol ≤ 1) → SNormKind.nilpotentMaximum.real x y = 1 := by
    intro x y h; simp only [SNormKind.real, h, if_false]
  have n1 : ¬ (1 + c + tol ≤ 1) := by linarith
  have n2 : ¬ (a + 1 + tol ≤ 1) := by linarith
  have m1 : (max a b + c + tol ≤ 1) ↔ (a + c + tol ≤ 1 ∧ b + c + tol ≤ 1) := by
    rw [← max_add_add_right, ← max_add_add_right, max_le_iff]
  have m2 : (a + max b c + tol ≤ 1) ↔ (a + b + tol ≤ 1 ∧ a + c + tol ≤ 1) := by
    rw [← max_add_add_left, ← max_add_add_right, max_le_iff]
  by_cases A : a + b + tol ≤ 1 <;> by_cases B : b + c + tol ≤ 1
  · rw [P a b A, P b c B]
    by_cases C : a + c + tol ≤ 1
    · rw [P _ _ (m1.mpr ⟨C, B⟩), P _ _ (m2.mpr ⟨A, C⟩), max_assoc]
    · rw [N _ _ (by rw [m1]; tauto), N _ _ (by rw [m2]; tauto)]
  · rw [P a b A, N b c B, N _ _ n2, N _ _ (by rw [m1]; tauto)]
  · rw [N a b A, P b c B, N _ _ n1, N _ _ (by rw [m2]; tauto)]
  · rw [N a b A, N b c B, N _ _ n1, N _ _ n2]

/-- associativity of all T-Norms but Hamacher's -/
theorem TNormKind.real_assoc (k : TNormKind) (hk : k ≠ .hamacherProduct) (a b c : ℝ)
    (ha : 0 ≤ a) (ha1 : a ≤ 1) (hb : 0 ≤ b) (hb1 : b ≤ 1) (hc : 0 ≤ c) (hc1 : c ≤ 1) :
    k.real (k.real a b) c = k.real a (k.real b c) := by
  have ht := tol_pos
  cases k <;> simp only [TNormKind.real]
  case algebraicProduct => ring
  case boundedDifference =>
    rcases le_total 0 (a + b - 1) with h1 | h1 <;> rcases le_total 0 (b + c - 1) with h2 | h2
    · rw [max_eq_right h1, max_eq_right h2]; congr 1; ring
    · rw [max_eq_right h1, max_eq_left h2, max_eq_left, max_eq_left] <;> linarith
    · rw [max_eq_left h1, max_eq_right h2, max_eq_left, max_eq_left] <;> linarith
    · rw [max_eq_left h1, max_eq_left h2, max_eq_left, max_eq_left] <;> linarith
  case drasticProduct =>
    have key : ∀ x y : ℝ, 0 ≤ x → 0 ≤ y → (if 1 - tol < max (0:ℝ) y then min 0 y else 0) = 0 := by
      intro x y _ hy; split <;> simp [hy]
    have key2 : ∀ y : ℝ, 0 ≤ y → (if 1 - tol < max y (0:ℝ) then min y 0 else 0) = 0 := by
      intro y hy; split <;> simp [hy]
    by_cases A : 1 - tol < a <;> by_cases B : 1 - tol < b <;> by_cases C : 1 - tol < c <;>
      simp [lt_max_iff, lt_min_iff, A, B, C, min_assoc, ha, hb, hc]
  case einsteinProduct =>
    have h1 := einstein_den_pos ha1 hb1 ha hb
    have h2 := einstein_den_pos hb1 hc1 hb hc
    have r1 := TNormKind.real_range .einsteinProduct a b ha ha1 hb hb1
    have r2 := TNormKind.real_range .einsteinProduct b c hb hb1 hc hc1
    simp only [TNormKind.real] at r1 r2
    have h3 := einstein_den_pos (r1.2.trans ((min_le_left _ _).trans ha1)) hc1 r1.1 hc
    have h4 := einstein_den_pos ha1 (r2.2.trans ((min_le_left _ _).trans hb1)) ha r2.1
    have h1' : (2 - (a + b - a * b)) ≠ 0 := by linarith
    have h2' : (2 - (b + c - b * c)) ≠ 0 := by linarith
    rw [div_eq_div_iff (by linarith) (by linarith)]
    field_simp
    ring
  case hamacherProduct => exact absurd rfl hk
  case minimum => exact min_assoc _ _ _
  case nilpotentMinimum => exact nilT_assoc a b c hc1 ha1

/-- Hamacher without the guard -/
theorem hamacher_assoc_pure (a b c : ℝ) (hab : a + b - a * b ≠ 0) (hbc : b + c - b * c ≠ 0)
    (h1 : (a * b) / (a + b - a * b) + c - (a * b) / (a + b - a * b) * c ≠ 0)
    (h2 : a + (b * c) / (b + c - b * c) - a * ((b * c) / (b + c - b * c)) ≠ 0) :
    ((a * b) / (a + b - a * b) * c) / ((a * b) / (a + b - a * b) + c - (a * b) / (a + b - a * b) * c)
     = (a * ((b * c) / (b + c - b * c))) / (a + (b * c) / (b + c - b * c) - a * ((b * c) / (b + c - b * c))) := by
  rw [div_eq_div_iff h1 h2]
  field_simp
  ring

/-- Hamacher's product is associative up to the tolerance -/
theorem hamacher_assoc_approx (a b c : ℝ)
    (ha : 0 ≤ a) (ha1 : a ≤ 1) (hb : 0 ≤ b) (hb1 : b ≤ 1) (hc : 0 ≤ c) (hc1 : c ≤ 1) :
    |TNormKind.hamacherProduct.real (TNormKind.hamacherProduct.real a b) c
      - TNormKind.hamacherProduct.real a (TNormKind.hamacherProduct.real b c)| < tol := by
  set T := TNormKind.hamacherProduct.real with hT
  have ht := tol_pos
  have r1 := TNormKind.real_range .hamacherProduct a b ha ha1 hb hb1
  have r2 := TNormKind.real_range .hamacherProduct b c hb hb1 hc hc1
  have r3 := TNormKind.real_range .hamacherProduct (T a b) c r1.1 (r1.2.trans ((min_le_left _ _).trans ha1)) hc hc1
  have r4 := TNormKind.real_range .hamacherProduct a (T b c) ha ha1 r2.1 (r2.2.trans ((min_le_left _ _).trans hb1))
  rw [← hT] at r1 r2 r3 r4
  have e1 := le_min_iff.mp r1.2
  have e2 := le_min_iff.mp r2.2
  have e3 := le_min_iff.mp r3.2
  have e4 := le_min_iff.mp r4.2
  by_cases hsmall : a < tol ∨ b < tol ∨ c < tol
  · rw [abs_lt]
    rcases hsmall with h | h | h <;> constructor <;> linarith [e1.1, e1.2, e2.1, e2.2, e3.1, e3.2, e4.1, e4.2, r3.1, r4.1]
  · push Not at hsmall
    obtain ⟨h1, h2, h3⟩ := hsmall
    have : T (T a b) c = T a (T b c) := by
      have u : ∀ x y : ℝ, tol ≤ x + y → T x y = (x * y) / (x + y - x * y) := by
        intro x y h; simp only [hT, TNormKind.real]; rw [if_neg (by linarith)]
      have d1 := hamacher_den_pos ha hb ha1 hb1 (by linarith)
      have d2 := hamacher_den_pos hb hc hb1 hc1 (by linarith)
      have d3 := hamacher_den_pos r1.1 hc (r1.2.trans ((min_le_left _ _).trans ha1)) hc1 (by linarith [r1.1])
      have d4 := hamacher_den_pos ha r2.1 ha1 (r2.2.trans ((min_le_left _ _).trans hb1)) (by linarith [r2.1])
      rw [u (T a b) c (by linarith [r1.1]), u a (T b c) (by linarith [r2.1])]
      rw [u a b (by linarith)] at d3 ⊢
      rw [u b c (by linarith)] at d4 ⊢
      exact hamacher_assoc_pure a b c d1.ne' d2.ne' d3.ne' d4.ne'
    rw [this, sub_self, abs_zero]; exact ht

/-! ### S-Norms -/

theorem SNormKind.real_comm (k : SNormKind) (a b : ℝ) : k.real a b = k.real b a := by
  cases k <;> simp only [SNormKind.real, mul_comm, add_comm, max_comm, min_comm]
  · rw [show b * (a * 2) = a * (b * 2) by ring]

theorem SNormKind.real_range (k : SNormKind) (hk : k ≠ .unboundedSum) (a b : ℝ) (ha : 0 ≤ a)
    (ha1 : a ≤ 1) (hb : 0 ≤ b) (hb1 : b ≤ 1) : max a b ≤ k.real a b ∧ k.real a b ≤ 1 := by
  have ht := tol_pos
  have hab0 : 0 ≤ a * b := mul_nonneg ha hb
  have hab1 : a * b ≤ 1 := mul_le_one₀ ha1 hb hb1
  have hm : max a b ≤ 1 := max_le ha1 hb1
  cases k <;> simp only [SNormKind.real]
  case algebraicSum => exact ⟨max_le (by nlinarith) (by nlinarith), by nlinarith⟩
  case boundedSum => exact ⟨le_min hm (max_le (by linarith) (by linarith)), min_le_left _ _⟩
  case drasticSum => split <;> simp [hm]
  case einsteinSum =>
    constructor
    · apply max_le
      · rw [le_div_iff₀ (by linarith)]; nlinarith [mul_nonneg hb (mul_nonneg ha ha), mul_le_one₀ ha1 ha ha1, mul_nonneg hb (sub_nonneg.mpr (mul_le_one₀ ha1 ha ha1))]
      · rw [le_div_iff₀ (by linarith)]; nlinarith [mul_nonneg ha (sub_nonneg.mpr (mul_le_one₀ hb1 hb hb1))]
    · rw [div_le_one (by linarith)]; nlinarith
  case hamacherSum =>
    split_ifs with h
    · exact ⟨hm, le_refl _⟩
    · have hd : 0 < 1 - a * b := by linarith
      refine ⟨max_le ?_ ?_, ?_⟩
      · rw [le_div_iff₀ hd]; nlinarith [mul_nonneg hb (sq_nonneg (1 - a))]
      · rw [le_div_iff₀ hd]; nlinarith [mul_nonneg ha (sq_nonneg (1 - b))]
      · rw [div_le_one hd]; nlinarith
  case maximum => simp [hm]
  case nilpotentMaximum => split <;> simp [hm]
  case normalizedSum => exact ⟨le_min hm (max_le (by linarith) (by linarith)), min_le_left _ _⟩
  case unboundedSum => exact absurd rfl hk

theorem SNormKind.real_mono (k : SNormKind) (a b c : ℝ) (ha : 0 ≤ a) (hab : a ≤ b) (hb1 : b ≤ 1)
    (hc : 0 ≤ c) (hc1 : c ≤ 1) : k.real a c ≤ k.real b c := by
  have ht := tol_pos
  have hb : 0 ≤ b := ha.trans hab
  have ha1 : a ≤ 1 := hab.trans hb1
  by_cases hk : k = .unboundedSum
  · subst hk; simp only [SNormKind.real]; linarith
  have r := k.real_range hk a c ha ha1 hc hc1
  cases k <;> simp only [SNormKind.real] at r ⊢
  case algebraicSum => nlinarith
  case boundedSum => exact min_le_min (le_refl _) (by linarith)
  case drasticSum =>
    have : min a c ≤ min b c := min_le_min hab (le_refl _)
    split_ifs at r ⊢ with h1 h2
    · exact max_le_max hab (le_refl _)
    · exact r.2
    · exact absurd (this.trans_lt (by assumption)) h1
    · exact le_refl _
  case einsteinSum =>
    rw [div_le_div_iff₀ (by positivity) (by positivity)]
    have : (b + c) * (1 + a * c) - (a + c) * (1 + b * c) = (b - a) * (1 - c * c) := by ring
    nlinarith [mul_nonneg (sub_nonneg.mpr hab) (sub_nonneg.mpr (mul_le_one₀ hc1 hc hc1))]
  case hamacherSum =>
    have hac : a * c ≤ b * c := mul_le_mul_of_nonneg_right hab hc
    split_ifs at r ⊢ with h1 h2 h2
    · exact le_refl _
    · linarith
    · exact r.2
    · have d1 : 0 < 1 - a * c := by linarith
      have d2 : 0 < 1 - b * c := by linarith
      rw [div_le_div_iff₀ d1 d2]
      have : (b + c - 2 * b * c) * (1 - a * c) - (a + c - 2 * a * c) * (1 - b * c) = (b - a) * (1 - c) ^ 2 := by ring
      nlinarith [mul_nonneg (sub_nonneg.mpr hab) (sq_nonneg (1 - c))]
  case maximum => exact max_le_max hab (le_refl _)
  case nilpotentMaximum =>
    split_ifs at r ⊢ with h1 h2
    · exact max_le_max hab (le_refl _)
    · exact r.2
    · linarith
    · exact le_refl _
  case normalizedSum => exact min_le_min (le_refl _) (by linarith)
  case unboundedSum => linarith

theorem SNormKind.real_assoc (k : SNormKind) (hk : k ≠ .hamacherSum) (a b c : ℝ)
    (ha : 0 ≤ a) (ha1 : a ≤ 1) (hb : 0 ≤ b) (hb1 : b ≤ 1) (hc : 0 ≤ c) (hc1 : c ≤ 1) :
    k.real (k.real a b) c = k.real a (k.real b c) := by
  have ht := tol_pos
  have bsum : min 1 (min 1 (a + b) + c) = min 1 (a + min 1 (b + c)) := by
    rcases le_total 1 (a + b) with h1 | h1 <;> rcases le_total 1 (b + c) with h2 | h2
    · rw [min_eq_left h1, min_eq_left h2, min_eq_left, min_eq_left] <;> linarith
    · rw [min_eq_left h1, min_eq_right h2, min_eq_left, min_eq_left] <;> linarith
    · rw [min_eq_right h1, min_eq_left h2, min_eq_left, min_eq_left] <;> linarith
    · rw [min_eq_right h1, min_eq_right h2]; congr 1; ring
  cases k <;> simp only [SNormKind.real]
  case algebraicSum => ring
  case boundedSum => exact bsum
  case drasticSum =>
    by_cases A : a < tol <;> by_cases B : b < tol <;> by_cases C : c < tol <;>
      simp [min_lt_iff, max_lt_iff, A, B, C, max_assoc, ha1, hb1, hc1]
  case einsteinSum =>
    have h1 : 1 + a * b ≠ 0 := by positivity
    have h2 : 1 + b * c ≠ 0 := by positivity
    rw [div_eq_div_iff (by positivity) (by positivity)]
    field_simp
    ring
  case hamacherSum => exact absurd rfl hk
  case maximum => exact max_assoc _ _ _
  case nilpotentMaximum => exact nilS_assoc a b c hc ha
  case normalizedSum => exact bsum
  case unboundedSum => ring

/-- Hamacher's sum is associative up to the tolerance -/
theorem hamacherS_assoc_approx (a b c : ℝ)
    (ha : 0 ≤ a) (ha1 : a ≤ 1) (hb : 0 ≤ b) (hb1 : b ≤ 1) (hc : 0 ≤ c) (hc1 : c ≤ 1) :
    |SNormKind.hamacherSum.real (SNormKind.hamacherSum.real a b) c
      - SNormKind.hamacherSum.real a (SNormKind.hamacherSum.real b c)| < tol := by
  set T := SNormKind.hamacherSum.real with hT
  have ht := tol_pos
  have hu : SNormKind.hamacherSum ≠ .unboundedSum := by decide
  have r1 := SNormKind.real_range .hamacherSum hu a b ha ha1 hb hb1
  have r2 := SNormKind.real_range .hamacherSum hu b c hb hb1 hc hc1
  have p1 : 0 ≤ T a b := ha.trans ((le_max_left _ _).trans r1.1)
  have p2 : 0 ≤ T b c := hb.trans ((le_max_left _ _).trans r2.1)
  have r3 := SNormKind.real_range .hamacherSum hu (T a b) c p1 r1.2 hc hc1
  have r4 := SNormKind.real_range .hamacherSum hu a (T b c) ha ha1 p2 r2.2
  rw [← hT] at r1 r2 r3 r4
  have e1 := max_le_iff.mp r1.1
  have e2 := max_le_iff.mp r2.1
  have e3 := max_le_iff.mp r3.1
  have e4 := max_le_iff.mp r4.1
  by_cases hbig : 1 - tol < a ∨ 1 - tol < b ∨ 1 - tol < c
  · rw [abs_lt]
    rcases hbig with h | h | h <;> constructor <;> linarith [e1.1, e1.2, e2.1, e2.2, e3.1, e3.2, e4.1, e4.2, r3.2, r4.2]
  · push Not at hbig
    obtain ⟨h1, h2, h3⟩ := hbig
    have u : ∀ x y : ℝ, x * y ≤ 1 - tol → T x y = (x + y - 2 * x * y) / (1 - x * y) := by
      intro x y h; simp only [hT, SNormKind.real]; rw [if_neg (by linarith)]
    have m1 : a * b ≤ 1 - tol := by nlinarith
    have m2 : b * c ≤ 1 - tol := by nlinarith
    have m3 : T a b * c ≤ 1 - tol := by nlinarith [r1.2]
    have m4 : a * T b c ≤ 1 - tol := by nlinarith [r2.2]
    have : T (T a b) c = T a (T b c) := by
      rw [u _ _ m3, u _ _ m4]
      rw [u a b m1] at m3 ⊢
      rw [u b c m2] at m4 ⊢
      have n1 : 1 - a * b ≠ 0 := by linarith
      have n2 : 1 - b * c ≠ 0 := by linarith
      rw [div_eq_div_iff (by linarith) (by linarith)]
      field_simp
      ring
    rw [this, sub_self, abs_zero]; exact ht

end FL
