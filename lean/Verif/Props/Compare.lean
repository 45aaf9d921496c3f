/-
C01 (tolerant comparisons) and C02 (min, max, bound).
-/
import Verif.Lemmas.ScalarOrd

namespace FL
open Scalar

namespace CompareSpec
/-- Specification: two scalars are "the same" up to the tolerance `e`. -/
def Same (e : ℝ) : Ext ℝ → Ext ℝ → Prop
  | .nan, .nan => True
  | .pinf, .pinf => True
  | .ninf, .ninf => True
  | .fin a, .fin b => |a - b| < e
  | _, _ => False

/-- Specification: the order of the extended real line, NaN unordered. -/
def Below : Ext ℝ → Ext ℝ → Prop
  | .ninf, .fin _ => True
  | .ninf, .pinf => True
  | .fin _, .pinf => True
  | .fin a, .fin b => a < b
  | _, _ => False
end CompareSpec
open CompareSpec

section C01
variable [Tol ℝ] (e : ℝ) (he : 0 < e)
include he

/-- C01: the five tolerant comparisons decide exactly "same up to the tolerance",
"below and not the same", and their unions. -/
theorem compare_decides (a b : Ext ℝ) :
    (Op.isEqT (.fin e) a b = true ↔ Same e a b) ∧
    (Op.isLtT (.fin e) a b = true ↔ Below a b ∧ ¬ Same e a b) ∧
    (Op.isGtT (.fin e) a b = true ↔ Below b a ∧ ¬ Same e a b) ∧
    (Op.isLET (.fin e) a b = true ↔ Below a b ∨ Same e a b) ∧
    (Op.isGET (.fin e) a b = true ↔ Below b a ∨ Same e a b) := by
  cases a <;> cases b <;>
    simp [Same, Below, Op.isEqT, Op.isLtT, Op.isGtT, Op.isLET, Op.isGET, Scalar.gt]
  case fin.fin a b =>
    refine ⟨?_, ?_, ?_, ?_, ?_⟩
    · intro h; subst h; simpa using he
    · constructor
      · rintro ⟨⟨_, h1⟩, h2⟩; exact ⟨h2, h1⟩
      · rintro ⟨h1, h2⟩; exact ⟨⟨h1.ne, h2⟩, h1⟩
    · constructor
      · rintro ⟨⟨_, h1⟩, h2⟩; exact ⟨h2, h1⟩
      · rintro ⟨h1, h2⟩; exact ⟨⟨h1.ne', h2⟩, h1⟩
    · constructor
      · rintro ((h | h) | h)
        · subst h; right; simpa using he
        · exact Or.inr h
        · exact Or.inl h
      · rintro (h | h)
        · exact Or.inr h
        · exact Or.inl (Or.inr h)
    · constructor
      · rintro ((h | h) | h)
        · subst h; right; simpa using he
        · exact Or.inr h
        · exact Or.inl h
      · rintro (h | h)
        · exact Or.inr h
        · exact Or.inl (Or.inr h)

/-- C01: at most one of `isLt`, `isEq`, `isGt` holds; and one of them does unless
exactly one argument is NaN. -/
theorem compare_trichotomy (a b : Ext ℝ) :
    ¬ (Op.isLtT (.fin e) a b = true ∧ Op.isEqT (.fin e) a b = true) ∧
    ¬ (Op.isLtT (.fin e) a b = true ∧ Op.isGtT (.fin e) a b = true) ∧
    ¬ (Op.isEqT (.fin e) a b = true ∧ Op.isGtT (.fin e) a b = true) ∧
    ((Op.isLtT (.fin e) a b = true ∨ Op.isEqT (.fin e) a b = true ∨ Op.isGtT (.fin e) a b = true)
      ↔ (a = .nan ↔ b = .nan)) := by
  obtain ⟨h1, h2, h3, -, -⟩ := compare_decides e he a b
  rw [h1, h2, h3]
  have asym : Below a b → ¬ Below b a := by
    cases a <;> cases b <;> simp only [Below, not_true, not_false_iff, imp_self, implies_true]
    exact fun h => not_lt.mpr h.le
  refine ⟨by tauto, by tauto, by tauto, ?_⟩
  cases a <;> cases b <;> simp [Same, Below]
  case fin.fin a b =>
    by_cases h' : |a - b| < e
    · simp [h']
    · have h'' := not_lt.mp h'
      rcases lt_trichotomy a b with h | h | h
      · left; exact ⟨h, h''⟩
      · subst h; simp [he]
      · right; right; exact ⟨h, h''⟩

/-- C01: `isLE`/`isGE` are the unions, `isGt` is the mirror of `isLt`, and `isEq`
is reflexive and symmetric, for every pair of scalars. -/
theorem compare_laws (a b : Ext ℝ) :
    Op.isLET (.fin e) a b = (Op.isLtT (.fin e) a b || Op.isEqT (.fin e) a b) ∧
    Op.isGET (.fin e) a b = (Op.isGtT (.fin e) a b || Op.isEqT (.fin e) a b) ∧
    Op.isGtT (.fin e) a b = Op.isLtT (.fin e) b a ∧
    Op.isGET (.fin e) a b = Op.isLET (.fin e) b a ∧
    Op.isEqT (.fin e) a b = Op.isEqT (.fin e) b a ∧
    Op.isEqT (.fin e) a a = true := by
  have S : ∀ x y : Ext ℝ, Same e x y ↔ Same e y x := by
    intro x y
    cases x <;> cases y <;> simp only [Same]
    rw [abs_sub_comm]
  obtain ⟨h1, h2, h3, h4, h5⟩ := compare_decides e he a b
  obtain ⟨k1, k2, k3, k4, k5⟩ := compare_decides e he b a
  refine ⟨?_, ?_, ?_, ?_, ?_, ?_⟩
  · rw [Bool.eq_iff_iff, Bool.or_eq_true, h4, h2, h1]
    by_cases hs : Same e a b <;> simp [hs]
  · rw [Bool.eq_iff_iff, Bool.or_eq_true, h5, h3, h1]
    by_cases hs : Same e a b <;> simp [hs]
  · rw [Bool.eq_iff_iff, h3, k2, S a b]
  · rw [Bool.eq_iff_iff, h5, k4, S a b]
  · rw [Bool.eq_iff_iff, h1, k1, S a b]
  · rw [(compare_decides e he a a).1]; cases a <;> simp [Same, he]

/-- C01: tolerant equality is *not* transitive, for any tolerance. -/
theorem isEq_not_transitive :
    ∃ a b c : Ext ℝ, Op.isEqT (.fin e) a b = true ∧ Op.isEqT (.fin e) b c = true ∧
      Op.isEqT (.fin e) a c = false := by
  refine ⟨.fin 0, .fin (3/4 * e), .fin (3/2 * e), ?_, ?_, ?_⟩
  · rw [Ext.isEqT_fin _ _ _ he]; simp only [decide_eq_true_eq]
    rw [abs_lt]; constructor <;> linarith
  · rw [Ext.isEqT_fin _ _ _ he]; simp only [decide_eq_true_eq]
    rw [abs_lt]; constructor <;> linarith
  · rw [Ext.isEqT_fin _ _ _ he]; simp only [decide_eq_false_iff_not, not_lt]
    rw [le_abs]; right; linarith
end C01

/-- Non-vacuity for C01: with the shipped tolerance the three outcomes occur. -/
example : letI := Tol.default
    Op.isEq (.fin 1 : Ext ℝ) (.fin (1 + 1/10000000)) = true ∧
    Op.isLt (.fin 1 : Ext ℝ) (.fin 2) = true ∧ Op.isGt (.pinf : Ext ℝ) (.fin 2) = true := by
  let _ := Tol.default
  have : (Ext.tol : ℝ) = 1/1000000 := rfl
  refine ⟨?_, ?_, ?_⟩
  · rw [Ext.isEq_fin, this]; norm_num [abs_lt]
  · rw [Ext.isLt_fin, this]; norm_num
  · simp

/-! ### C02 -/
section C02
variable {S : Type} [ScalarOrd S]
open ScalarOrd

/-- C02: NaN is propagated, and only NaN arguments produce NaN. -/
theorem min_max_nan (a b : S) :
    (Op.min a b = nan ↔ a = nan ∨ b = nan) ∧ (Op.max a b = nan ↔ a = nan ∨ b = nan) := by
  unfold Op.min Op.max Op.stdMin Op.stdMax
  constructor
  all_goals
    by_cases h : a = nan ∨ b = nan
    · simp [h, isNaN_iff]
    · have h' := h
      push Not at h'
      simp only [Bool.or_eq_true, isNaN_iff, h, if_false, iff_false]
      split <;> [exact h'.2; exact h'.1]

/-- C02: outside NaN, `min` is the greatest lower bound and `max` the least upper bound
for the order of the scalars, and each returns one of its arguments. -/
theorem min_max_lattice (a b : S) (ha : a ≠ nan) (hb : b ≠ nan) :
    (le (Op.min a b) a = true ∧ le (Op.min a b) b = true ∧
      ∀ c, le c a = true → le c b = true → le c (Op.min a b) = true) ∧
    (le a (Op.max a b) = true ∧ le b (Op.max a b) = true ∧
      ∀ c, le a c = true → le b c = true → le (Op.max a b) c = true) ∧
    (Op.min a b = a ∨ Op.min a b = b) ∧ (Op.max a b = a ∨ Op.max a b = b) := by
  have h : (Op.isNaN a || Op.isNaN b) = false := by
    simp [isNaN_false_iff, ha, hb]
  unfold Op.min Op.max Op.stdMin Op.stdMax
  rw [h]
  simp only [Bool.false_eq_true, if_false]
  refine ⟨?_, ?_, ?_, ?_⟩
  · split
    · rename_i h
      exact ⟨(le_iff _ _).mpr (Or.inl h), le_refl hb, fun c _ h2 => h2⟩
    · rename_i h
      exact ⟨le_refl ha, le_of_not_lt hb ha (by simpa using h), fun c h1 _ => h1⟩
  · split
    · rename_i h
      exact ⟨(le_iff _ _).mpr (Or.inl h), le_refl hb, fun c _ h2 => h2⟩
    · rename_i h
      exact ⟨le_refl ha, le_of_not_lt ha hb (by simpa using h), fun c h1 _ => h1⟩
  · split <;> simp
  · split <;> simp

/-- C02: commutativity, associativity, idempotence and absorption, NaN included
(absorption needs numbers). -/
theorem min_max_algebra (a b c : S) :
    Op.min a b = Op.min b a ∧ Op.max a b = Op.max b a ∧
    Op.min (Op.min a b) c = Op.min a (Op.min b c) ∧
    Op.max (Op.max a b) c = Op.max a (Op.max b c) ∧
    Op.min a a = a ∧ Op.max a a = a ∧
    (b ≠ nan → Op.min a (Op.max a b) = a ∧ Op.max a (Op.min a b) = a) := by
  have nmin : ∀ x y : S, Op.min x y = nan ↔ x = nan ∨ y = nan := fun x y => (min_max_nan x y).1
  have nmax : ∀ x y : S, Op.max x y = nan ↔ x = nan ∨ y = nan := fun x y => (min_max_nan x y).2
  have cmin : ∀ x y : S, Op.min x y = Op.min y x := by
    intro x y
    by_cases h : x = nan ∨ y = nan
    · rw [(nmin x y).mpr h, (nmin y x).mpr h.symm]
    · push Not at h
      obtain ⟨⟨a1, a2, a3⟩, -⟩ := min_max_lattice x y h.1 h.2
      obtain ⟨⟨b1, b2, b3⟩, -⟩ := min_max_lattice y x h.2 h.1
      exact le_antisymm (b3 _ a2 a1) (a3 _ b2 b1)
  have cmax : ∀ x y : S, Op.max x y = Op.max y x := by
    intro x y
    by_cases h : x = nan ∨ y = nan
    · rw [(nmax x y).mpr h, (nmax y x).mpr h.symm]
    · push Not at h
      obtain ⟨-, ⟨a1, a2, a3⟩, -⟩ := min_max_lattice x y h.1 h.2
      obtain ⟨-, ⟨b1, b2, b3⟩, -⟩ := min_max_lattice y x h.2 h.1
      exact le_antisymm (a3 _ b2 b1) (b3 _ a2 a1)
  refine ⟨cmin a b, cmax a b, ?_, ?_, ?_, ?_, ?_⟩
  · by_cases h : (a = nan ∨ b = nan) ∨ c = nan
    · rw [(nmin _ c).mpr (by rw [nmin]; exact h), (nmin a _).mpr (by rw [nmin]; tauto)]
    · push Not at h
      have hab : Op.min a b ≠ nan := by rw [Ne, nmin]; tauto
      have hbc : Op.min b c ≠ nan := by rw [Ne, nmin]; tauto
      obtain ⟨⟨a1, a2, a3⟩, -⟩ := min_max_lattice a b h.1.1 h.1.2
      obtain ⟨⟨b1, b2, b3⟩, -⟩ := min_max_lattice b c h.1.2 h.2
      obtain ⟨⟨c1, c2, c3⟩, -⟩ := min_max_lattice (Op.min a b) c hab h.2
      obtain ⟨⟨d1, d2, d3⟩, -⟩ := min_max_lattice a (Op.min b c) h.1.1 hbc
      apply ScalarOrd.le_antisymm
      · exact d3 _ (le_trans c1 a1) (b3 _ (le_trans c1 a2) c2)
      · exact c3 _ (a3 _ d1 (le_trans d2 b1)) (le_trans d2 b2)
  · by_cases h : (a = nan ∨ b = nan) ∨ c = nan
    · rw [(nmax _ c).mpr (by rw [nmax]; exact h), (nmax a _).mpr (by rw [nmax]; tauto)]
    · push Not at h
      have hab : Op.max a b ≠ nan := by rw [Ne, nmax]; tauto
      have hbc : Op.max b c ≠ nan := by rw [Ne, nmax]; tauto
      obtain ⟨-, ⟨a1, a2, a3⟩, -⟩ := min_max_lattice a b h.1.1 h.1.2
      obtain ⟨-, ⟨b1, b2, b3⟩, -⟩ := min_max_lattice b c h.1.2 h.2
      obtain ⟨-, ⟨c1, c2, c3⟩, -⟩ := min_max_lattice (Op.max a b) c hab h.2
      obtain ⟨-, ⟨d1, d2, d3⟩, -⟩ := min_max_lattice a (Op.max b c) h.1.1 hbc
      apply ScalarOrd.le_antisymm
      · exact c3 _ (a3 _ d1 (le_trans b1 d2)) (le_trans b2 d2)
      · exact d3 _ (le_trans a1 c1) (b3 _ (le_trans a2 c1) c2)
  · by_cases h : a = nan
    · rw [h, (nmin nan nan).mpr (Or.inl rfl)]
    · obtain ⟨-, -, h3, -⟩ := min_max_lattice a a h h
      tauto
  · by_cases h : a = nan
    · rw [h, (nmax nan nan).mpr (Or.inl rfl)]
    · obtain ⟨-, -, -, h3⟩ := min_max_lattice a a h h
      tauto
  · intro hb
    by_cases h : a = nan
    · rw [h, (nmin nan _).mpr (Or.inl rfl), (nmax nan _).mpr (Or.inl rfl)]; exact ⟨rfl, rfl⟩
    · have h1 : Op.max a b ≠ nan := by rw [Ne, nmax]; tauto
      have h2 : Op.min a b ≠ nan := by rw [Ne, nmin]; tauto
      obtain ⟨⟨a1, a2, a3⟩, ⟨b1, b2, b3⟩, -⟩ := min_max_lattice a b h hb
      obtain ⟨⟨c1, c2, c3⟩, -⟩ := min_max_lattice a (Op.max a b) h h1
      obtain ⟨-, ⟨d1, d2, d3⟩, -⟩ := min_max_lattice a (Op.min a b) h h2
      exact ⟨le_antisymm c1 (c3 _ (le_refl h) b1), le_antisymm (d3 _ (le_refl h) a1) d1⟩

/-- C02: `bound` clamps into the range, moves nothing that is in range, and lets NaN through. -/
theorem bound_spec (x lo hi : S) (hr : le lo hi = true) :
    (x ≠ nan → le lo (Op.bound x lo hi) = true ∧ le (Op.bound x lo hi) hi = true) ∧
    (le lo x = true → le x hi = true → Op.bound x lo hi = x) ∧
    (lt x lo = true → Op.bound x lo hi = lo) ∧
    (lt hi x = true → Op.bound x lo hi = hi) ∧
    (x = nan → Op.bound x lo hi = nan) ∧
    Op.bound (Op.bound x lo hi) lo hi = Op.bound x lo hi := by
  obtain ⟨hl, hh⟩ := ne_nan_of_le hr
  have in_range : ∀ y : S, le lo y = true → le y hi = true → Op.bound y lo hi = y := by
    intro y h1 h2
    simp [Op.bound, Scalar.gt, not_lt_of_le h2, not_lt_of_le h1]
  have clamp : x ≠ nan → le lo (Op.bound x lo hi) = true ∧ le (Op.bound x lo hi) hi = true := by
    intro hx
    unfold Op.bound
    by_cases h1 : lt hi x = true
    · simp only [Scalar.gt, h1, if_true]; exact ⟨hr, le_refl hh⟩
    · simp only [Scalar.gt, h1, Bool.false_eq_true, if_false]
      by_cases h2 : lt x lo = true
      · simp only [h2, if_true]; exact ⟨le_refl hl, hr⟩
      · simp only [h2, Bool.false_eq_true, if_false]
        exact ⟨le_of_not_lt hx hl (by simpa using h2), le_of_not_lt hh hx (by simpa using h1)⟩
  have hn : x = nan → Op.bound x lo hi = nan := by
    rintro rfl
    simp [Op.bound, Scalar.gt, (lt_nan _).1, (lt_nan _).2]
  refine ⟨clamp, in_range x, ?_, ?_, hn, ?_⟩
  · intro h
    have : lt hi x = false := lt_asymm (lt_of_lt_of_le h hr)
    simp [Op.bound, Scalar.gt, this, h]
  · intro h; simp [Op.bound, Scalar.gt, h]
  · by_cases hx : x = nan
    · rw [hn hx]; simp [Op.bound, Scalar.gt, (lt_nan _).1, (lt_nan _).2]
    · exact in_range _ (clamp hx).1 (clamp hx).2

/-- C02: `bound` is monotone. -/
theorem bound_monotone (x y lo hi : S) (hr : le lo hi = true) (hxy : le x y = true) :
    le (Op.bound x lo hi) (Op.bound y lo hi) = true := by
  obtain ⟨hx, hy⟩ := ne_nan_of_le hxy
  obtain ⟨hl, hh⟩ := ne_nan_of_le hr
  obtain ⟨cx, ix, lx, gx, -⟩ := bound_spec x lo hi hr
  obtain ⟨cy, iy, ly, gy, -⟩ := bound_spec y lo hi hr
  by_cases h1 : lt x lo = true
  · rw [lx h1]; exact (cy hy).1
  · have h1' := le_of_not_lt hx hl (by simpa using h1)
    by_cases h2 : lt hi y = true
    · rw [gy h2]; exact (cx hx).2
    · have h2' := le_of_not_lt hh hy (by simpa using h2)
      rw [ix h1' (le_trans hxy h2'), iy (le_trans h1' hxy) h2']
      exact hxy
end C02

/-- Non-vacuity for C02: a value above the range, and an infinite bound. -/
example [Tol ℝ] : le (.ninf : Ext ℝ) (.fin 5) = true ∧
    Op.bound (.fin 7 : Ext ℝ) .ninf (.fin 5) = .fin 5 ∧
    Op.min (.fin 7 : Ext ℝ) .pinf ≠ .nan := by
  refine ⟨by simp [Scalar.le], by norm_num [Op.bound, Scalar.gt], ?_⟩
  simp [Op.min, Op.stdMin]

end FL
