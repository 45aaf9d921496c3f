/-
C17-C18: monotonic terms and their Tsukamoto inverses.
-/
import Verif.Props.Shape

namespace FL
open Scalar Ext
namespace Shape
variable [Tol ℝ]

/-- The parameters make the term rise from left to right. -/
def Rising : Shape ℝ → Prop
  | concave i e => i ≤ e
  | ramp s e => s < e
  | sigmoid _ s => 0 < s
  | sShape s e => e ≤ s ∨ s + 5 * tol ≤ e
  | _ => False

/-- The parameters make the term fall from left to right. -/
def Falling : Shape ℝ → Prop
  | concave i e => e + tol ≤ i
  | ramp s e => e < s
  | sigmoid _ s => s < 0
  | zShape s e => e ≤ s ∨ s + 5 * tol ≤ e
  | _ => False

/-- SShape and ZShape: their midpoint switch is tolerance dependent -/
def isSZ : Shape ℝ → Bool
  | sShape .. | zShape .. => true
  | _ => false

theorem sUnit_mono (s e x y : ℝ) (hs : e ≤ s ∨ s + 5 * tol ≤ e) (hxy : x ≤ y) :
    sUnit s e x ≤ sUnit s e y + 4 * (tol / (e - s)) ^ 2 ∧
    (x ≤ 1/2 * (s + e) ∨ 1/2 * (s + e) + tol ≤ x ∨ y < 1/2 * (s + e) + tol →
      sUnit s e x ≤ sUnit s e y) := by
  have tp := tol_pos
  have rx := sUnit_range s e x hs
  have ry := sUnit_range s e y hs
  have hδ := sq_nonneg (tol / (e - s))
  suffices H : sUnit s e x ≤ sUnit s e y ∨
      (sUnit s e x ≤ sUnit s e y + 4 * (tol / (e - s)) ^ 2 ∧ 1/2 * (s + e) < x ∧
        x < 1/2 * (s + e) + tol ∧ 1/2 * (s + e) + tol ≤ y) by
    rcases H with H | ⟨H, h1, h2, h3⟩
    · exact ⟨by linarith, fun _ => H⟩
    · refine ⟨H, ?_⟩
      rintro (h | h | h) <;> linarith
  by_cases x1 : x < s + tol
  · left
    have : sUnit s e x = 0 := by unfold sUnit; rw [if_pos x1]
    linarith
  by_cases x2 : x < 1/2 * (s + e) + tol
  · have ex : sUnit s e x = 2 * ((x - s) / (e - s)) ^ 2 := by
      unfold sUnit; rw [if_neg x1, if_pos x2]
    have hse : s + 5 * tol ≤ e := by
      rcases hs with h | h
      · linarith
      · exact h
    have hp : 0 < e - s := by linarith
    by_cases y2 : y < 1/2 * (s + e) + tol
    · left
      have ey : sUnit s e y = 2 * ((y - s) / (e - s)) ^ 2 := by
        unfold sUnit; rw [if_neg (by linarith), if_pos y2]
      rw [ex, ey]
      have h0 : 0 ≤ (x - s) / (e - s) := div_nonneg (by linarith) hp.le
      have h1 : (x - s) / (e - s) ≤ (y - s) / (e - s) := div_le_div_of_nonneg_right (by linarith) hp.le
      nlinarith
    · by_cases y3 : y + tol ≤ e
      · have ey : sUnit s e y = 1 - 2 * ((y - e) / (e - s)) ^ 2 := by
          unfold sUnit; rw [if_neg (by linarith), if_neg y2, if_pos y3]
        have hd : (tol / (e - s)) * (e - s) = tol := by field_simp
        set δ := tol / (e - s)
        have d0 : 0 < δ := div_pos tp hp
        have h0 : 0 ≤ (x - s) / (e - s) := div_nonneg (by linarith) hp.le
        have h1 : (x - s) / (e - s) ≤ 1/2 + δ := by
          rw [div_le_iff₀ hp]; nlinarith
        have h2 : (y - e) / (e - s) ≤ 0 := div_nonpos_of_nonpos_of_nonneg (by linarith) hp.le
        have h3 : -(1/2 - δ) ≤ (y - e) / (e - s) := by
          rw [le_div_iff₀ hp]; nlinarith
        by_cases hm : x ≤ 1/2 * (s + e)
        · left
          rw [ex, ey]
          have h1' : (x - s) / (e - s) ≤ 1/2 := by
            rw [div_le_iff₀ hp]; nlinarith
          nlinarith
        · right
          refine ⟨?_, not_le.mp hm, x2, not_lt.mp y2⟩
          rw [ex, ey]
          nlinarith
      · left
        have ey : sUnit s e y = 1 := by
          unfold sUnit; rw [if_neg (by linarith), if_neg y2, if_neg y3]
        linarith [rx.2]
  · by_cases x3 : x + tol ≤ e
    · left
      have ex : sUnit s e x = 1 - 2 * ((x - e) / (e - s)) ^ 2 := by
        unfold sUnit; rw [if_neg x1, if_neg x2, if_pos x3]
      by_cases y3 : y + tol ≤ e
      · have ey : sUnit s e y = 1 - 2 * ((y - e) / (e - s)) ^ 2 := by
          unfold sUnit; rw [if_neg (by linarith), if_neg (by linarith), if_pos y3]
        have hp : 0 < e - s := by linarith
        rw [ex, ey]
        have h1 : (x - e) / (e - s) ≤ (y - e) / (e - s) := div_le_div_of_nonneg_right (by linarith) hp.le
        have h2 : (y - e) / (e - s) ≤ 0 := div_nonpos_of_nonpos_of_nonneg (by linarith) hp.le
        nlinarith
      · have ey : sUnit s e y = 1 := by
          unfold sUnit; rw [if_neg (by linarith), if_neg (by linarith), if_neg y3]
        linarith [rx.2]
    · left
      have ey : sUnit s e y = 1 := by
        unfold sUnit; rw [if_neg (by linarith), if_neg (by linarith), if_neg (by linarith)]
      linarith [rx.2]

theorem unit_mono (sh : Shape ℝ) (hw : sh.Ordered) (hsz : sh.isSZ = false) (x y : ℝ) (hxy : x ≤ y) :
    (sh.Rising → sh.unit x ≤ sh.unit y) ∧ (sh.Falling → sh.unit y ≤ sh.unit x) := by
  have tp := tol_pos
  cases sh with
  | concave i e =>
    constructor
    · intro (hr : i ≤ e)
      have r := unit_range (.concave i e) x hw (Or.inl hr)
      have hie : i < e + tol := by linarith
      simp only [unit, if_pos hie] at r ⊢
      by_cases hy : y + tol ≤ e
      · have hx : x + tol ≤ e := by linarith
        rw [if_pos hx, if_pos hy]
        exact div_le_div_of_nonneg_left (by linarith) (by linarith) (by linarith)
      · rw [if_neg hy]; exact r.2
    · intro (hr : e + tol ≤ i)
      have r := unit_range (.concave i e) y hw (Or.inr hr)
      have hie : ¬ (i < e + tol) := by linarith
      simp only [unit, if_neg hie] at r ⊢
      by_cases hx : e + tol ≤ x
      · have hy : e + tol ≤ y := by linarith
        rw [if_pos hx, if_pos hy]
        exact div_le_div_of_nonneg_left (by linarith) (by linarith) (by linarith)
      · rw [if_neg hx]; exact r.2
  | ramp s e =>
    have hw' : tol ≤ |s - e| := hw
    have rx := unit_range (.ramp s e) x hw trivial
    have ry := unit_range (.ramp s e) y hw trivial
    constructor
    · intro (hr : s < e)
      have hse : s + tol ≤ e := by rcases le_abs.mp hw' with g | g <;> linarith
      simp only [unit, if_pos hse] at rx ry ⊢
      by_cases h1 : x < s + tol
      · rw [if_pos h1]; exact ry.1
      · by_cases h2 : e < y + tol
        · rw [if_neg (show ¬ y < s + tol by linarith), if_pos h2]; exact rx.2
        · rw [if_neg h1, if_neg (show ¬ e < x + tol by linarith), if_neg (show ¬ y < s + tol by linarith), if_neg h2]
          exact div_le_div_of_nonneg_right (by linarith) (by linarith)
    · intro (hr : e < s)
      have hse : ¬ (s + tol ≤ e) := by linarith
      have hse' : e + tol ≤ s := by rcases le_abs.mp hw' with g | g <;> linarith
      simp only [unit, if_neg hse] at rx ry ⊢
      by_cases h1 : s < y + tol
      · rw [if_pos h1]; exact rx.1
      · by_cases h2 : x < e + tol
        · rw [if_neg (show ¬ s < x + tol by linarith), if_pos h2]; exact ry.2
        · rw [if_neg h1, if_neg (show ¬ y < e + tol by linarith), if_neg (show ¬ s < x + tol by linarith), if_neg h2]
          exact div_le_div_of_nonneg_right (by linarith) (by linarith)
  | sigmoid i s =>
    constructor
    · intro (hr : 0 < s)
      simp only [unit]
      apply div_le_div_of_nonneg_left zero_le_one (by positivity)
      have : Real.exp (-s * (y - i)) ≤ Real.exp (-s * (x - i)) := Real.exp_le_exp.mpr (by nlinarith)
      linarith
    · intro (hr : s < 0)
      simp only [unit]
      apply div_le_div_of_nonneg_left zero_le_one (by positivity)
      have : Real.exp (-s * (x - i)) ≤ Real.exp (-s * (y - i)) := Real.exp_le_exp.mpr (by nlinarith)
      linarith
  | sShape s e => simp [isSZ] at hsz
  | zShape s e => simp [isSZ] at hsz
  | _ => exact ⟨fun h => h.elim, fun h => h.elim⟩

/-- membership on all non-NaN arguments, as a real number -/
noncomputable def unitE (sh : Shape ℝ) : Ext ℝ → ℝ
  | .fin x => sh.unit x
  | .pinf => sh.unitInf true
  | .ninf => sh.unitInf false
  | .nan => 0

theorem membership_ext (sh : Shape ℝ) (hw : sh.Ordered) (h : ℝ) (x : Ext ℝ) (hx : x ≠ Ext.nan) :
    (sh.map fin).membership (fin h) x = fin (h * sh.unitE x) := by
  cases x with
  | nan => exact absurd rfl hx
  | ninf => exact membership_inf false sh hw h
  | pinf => exact membership_inf true sh hw h
  | fin x => exact membership_fin sh hw h x

/-- C17: every monotonic term except SShape/ZShape (i.e. Concave, Ramp, Sigmoid) is
non-decreasing when its parameters rise and non-increasing when they fall, over all pairs of
non-NaN arguments, infinities included.  Missing: SShape and ZShape, see
`sShape_zShape_monotone_partial`. -/
theorem monotonic_terms_partial (sh : Shape ℝ) (hm : (sh.map fin : Shape (Ext ℝ)).isMonotonic = true)
    (hsz : sh.isSZ = false) (hw : sh.Ordered) (h : ℝ) (hh : 0 ≤ h) (x y : Ext ℝ)
    (hxy : Scalar.le x y = true) :
    ∃ u v : ℝ, (sh.map fin).membership (fin h) x = fin u ∧ (sh.map fin).membership (fin h) y = fin v ∧
      (sh.Rising → u ≤ v) ∧ (sh.Falling → v ≤ u) := by
  have tp := tol_pos
  have hx : x ≠ Ext.nan := by rintro rfl; simp [Scalar.le] at hxy
  have hy : y ≠ Ext.nan := by rintro rfl; simp [Scalar.le] at hxy
  refine ⟨_, _, membership_ext sh hw h x hx, membership_ext sh hw h y hy, ?_⟩
  suffices H : (sh.Rising → sh.unitE x ≤ sh.unitE y) ∧ (sh.Falling → sh.unitE y ≤ sh.unitE x) from
    ⟨fun r => mul_le_mul_of_nonneg_left (H.1 r) hh, fun r => mul_le_mul_of_nonneg_left (H.2 r) hh⟩
  have safe : ∀ z : ℝ, (sh.Rising ∨ sh.Falling) → sh.Safe z := by
    intro z hz
    cases sh <;> simp [isSZ, map, isMonotonic] at hsz hm <;> simp only [Safe, Rising, Falling] at *
    exact hz
  have infR : sh.Rising → sh.unitInf true = 1 ∧ sh.unitInf false = 0 := by
    intro hr
    cases sh <;> simp [isSZ, map, isMonotonic] at hsz hm <;> simp only [Rising, Ordered, unitInf] at *
    · have : _ < _ + tol := lt_of_le_of_lt hr (lt_add_of_pos_right _ tp)
      simp [this]
    · rename_i s e
      have : s + tol ≤ e := by rcases le_abs.mp hw with g | g <;> linarith
      simp [this]
    · simp [hr, not_lt.mpr hr.le]
  have infF : sh.Falling → sh.unitInf true = 0 ∧ sh.unitInf false = 1 := by
    intro hr
    cases sh <;> simp [isSZ, map, isMonotonic] at hsz hm <;> simp only [Falling, Ordered, unitInf] at *
    · simp [hr]
    · rename_i s e
      have : ¬ (s + tol ≤ e) := by linarith
      simp [this]
    · simp [hr, not_lt.mpr hr.le]
  have rng : ∀ z : ℝ, (sh.Rising ∨ sh.Falling) → 0 ≤ sh.unit z ∧ sh.unit z ≤ 1 :=
    fun z hz => unit_range sh z hw (safe z hz)
  cases x with
  | nan => exact absurd rfl hx
  | ninf =>
    cases y with
    | nan => exact absurd rfl hy
    | ninf => exact ⟨fun _ => le_rfl, fun _ => le_rfl⟩
    | pinf => exact ⟨fun r => by simp [unitE, infR r], fun r => by simp [unitE, infF r]⟩
    | fin b =>
      exact ⟨fun r => by simp only [unitE, (infR r).2]; exact (rng b (Or.inl r)).1,
        fun r => by simp only [unitE, (infF r).2]; exact (rng b (Or.inr r)).2⟩
  | pinf =>
    cases y with
    | pinf => exact ⟨fun _ => le_rfl, fun _ => le_rfl⟩
    | nan => exact absurd rfl hy
    | ninf => simp [Scalar.le] at hxy
    | fin b => simp [Scalar.le] at hxy
  | fin a =>
    cases y with
    | nan => exact absurd rfl hy
    | ninf => simp [Scalar.le] at hxy
    | pinf =>
      exact ⟨fun r => by simp only [unitE, (infR r).1]; exact (rng a (Or.inl r)).2,
        fun r => by simp only [unitE, (infF r).1]; exact (rng a (Or.inr r)).1⟩
    | fin b => exact unit_mono sh hw hsz a b (by simpa using hxy)

/-- C17 (SShape, ZShape): monotone on every pair that does not start in the tolerance band
`(mid, mid + eps)` and end beyond it; on all pairs the deviation from monotonicity is at most
`4 h (eps / (end - start))^2`.  Missing: exact monotonicity across that band, which is false. -/
theorem sShape_zShape_monotone_partial (s e h : ℝ) (hh : 0 ≤ h) (hs : e ≤ s ∨ s + 5 * tol ≤ e) (x y : ℝ)
    (hxy : x ≤ y) :
    ∃ u v u' v' : ℝ,
      (Shape.sShape (fin s) (fin e)).membership (fin h) (fin x) = fin u ∧
      (Shape.sShape (fin s) (fin e)).membership (fin h) (fin y) = fin v ∧
      (Shape.zShape (fin s) (fin e)).membership (fin h) (fin x) = fin u' ∧
      (Shape.zShape (fin s) (fin e)).membership (fin h) (fin y) = fin v' ∧
      u ≤ v + 4 * h * (tol / (e - s)) ^ 2 ∧ v' ≤ u' + 4 * h * (tol / (e - s)) ^ 2 ∧
      (x ≤ 1/2 * (s + e) ∨ 1/2 * (s + e) + tol ≤ x ∨ y < 1/2 * (s + e) + tol → u ≤ v ∧ v' ≤ u') := by
  obtain ⟨m1, m2⟩ := sUnit_mono s e x y hs hxy
  refine ⟨_, _, _, _, membership_fin (.sShape s e) trivial h x, membership_fin (.sShape s e) trivial h y,
    membership_fin (.zShape s e) trivial h x, membership_fin (.zShape s e) trivial h y, ?_, ?_, ?_⟩
  · simp only [unit]; nlinarith
  · simp only [unit, zUnit_eq]; nlinarith
  · intro hb
    have := m2 hb
    simp only [unit, zUnit_eq]
    constructor <;> nlinarith

/-- C17 fails as stated (SShape): for every tolerance and every edge at least five tolerances wide
there are `x < y` with a strictly smaller degree at `y`. -/
theorem sShape_monotone_violated (s e : ℝ) (hs : s + 5 * tol ≤ e) :
    ∃ x y u v : ℝ, x < y ∧
      (Shape.sShape (fin s) (fin e)).membership (fin 1) (fin x) = fin u ∧
      (Shape.sShape (fin s) (fin e)).membership (fin 1) (fin y) = fin v ∧ v < u := by
  have tp := tol_pos
  have hp : 0 < e - s := by linarith
  have hd : (tol / (e - s)) * (e - s) = tol := by field_simp
  set δ := tol / (e - s) with hδ
  have d0 : 0 < δ := div_pos tp hp
  have d1 : δ ≤ 1/5 := by rw [hδ, div_le_iff₀ hp]; linarith
  -- y = mid + tol, x = y - (e - s) * δ^2 / 2
  set y := 1/2 * (s + e) + tol with hy
  set x := y - (e - s) * δ^2 / 2 with hx
  have hx2 : (e - s) * δ^2 / 2 = tol * δ / 2 := by rw [← hd]; ring
  have hlt : x < y := by
    have : 0 < (e - s) * δ^2 / 2 := by positivity
    linarith
  refine ⟨x, y, _, _, hlt, membership_fin (.sShape s e) trivial 1 x, membership_fin (.sShape s e) trivial 1 y, ?_⟩
  have hsmall : tol * δ / 2 ≤ tol := by nlinarith
  have ex : sUnit s e x = 2 * ((x - s) / (e - s)) ^ 2 := by
    unfold sUnit; rw [if_neg (by linarith), if_pos (by linarith)]
  have ey : sUnit s e y = 1 - 2 * ((y - e) / (e - s)) ^ 2 := by
    unfold sUnit; rw [if_neg (by linarith), if_neg (by linarith), if_pos (by linarith)]
  have e1 : (x - s) / (e - s) = 1/2 + δ - δ^2/2 := by
    rw [div_eq_iff hp.ne', hx, hy]; linear_combination -hd
  have e2 : (y - e) / (e - s) = -(1/2 - δ) := by
    rw [div_eq_iff hp.ne', hy]; linear_combination -hd
  simp only [unit, ex, ey, e1, e2]
  nlinarith [mul_pos d0 d0, mul_pos (mul_pos d0 d0) d0, sq_nonneg (δ^2)]

/-! ### Tsukamoto -/

/-- width of the transition of a monotonic term -/
noncomputable def width : Shape ℝ → ℝ
  | concave i e => |i - e|
  | ramp s e => |s - e|
  | sShape s e => |s - e|
  | zShape s e => |s - e|
  | _ => 1

/-- proper parameters of a monotonic term -/
def Proper : Shape ℝ → Prop
  | concave i e => i < e ∨ e + tol ≤ i
  | ramp s e => tol ≤ |s - e|
  | sigmoid _ s => s ≠ 0
  | sShape s e => s + 5 * tol ≤ e
  | zShape s e => s + 5 * tol ≤ e
  | _ => False

/-- `x` lies in the open transition of the term, and farther than the tolerance from its ends;
for S/Z shapes also outside the band `(mid, mid + eps)`. -/
def Interior (x : ℝ) : Shape ℝ → Prop
  | concave i e => (i < e ∧ x + tol ≤ e) ∨ (e + tol ≤ i ∧ e + tol ≤ x)
  | ramp s e => (s + tol ≤ x ∧ x + tol ≤ e) ∨ (e + tol ≤ x ∧ x + tol ≤ s)
  | sigmoid _ _ => True
  | sShape s e => s + tol ≤ x ∧ x + tol ≤ e ∧ (x ≤ 1/2 * (s + e) ∨ 1/2 * (s + e) + tol ≤ x)
  | zShape s e => s + tol ≤ x ∧ x + tol ≤ e ∧ (x ≤ 1/2 * (s + e) ∨ 1/2 * (s + e) + tol ≤ x)
  | _ => False

/-- closed form of `tsukamoto` -/
noncomputable def tsuk (h : ℝ) : Shape ℝ → ℝ → ℝ
  | concave i e, y => h * (i - e) / y + 2 * e - i
  | ramp s e, y => s + (e - s) * y / h
  | sigmoid i s, y => i + Real.log (h / y - 1) / (-s)
  | sShape s e, y =>
    if y ≤ h / 2 then s + (e - s) * Real.sqrt (y / (2 * h)) else e - (e - s) * Real.sqrt ((h - y) / (2 * h))
  | zShape s e, y =>
    if y ≤ h / 2 then e - (e - s) * Real.sqrt (y / (2 * h)) else s + (e - s) * Real.sqrt ((h - y) / (2 * h))
  | _, _ => 0

theorem tsukamoto_fin (sh : Shape ℝ) (hp : sh.Proper) (h y : ℝ) (hy : 0 < y) (hyh : y < h) :
    (sh.map fin).tsukamoto (fin h) (fin y) = some (fin (sh.tsuk h y)) := by
  have hh : 0 < h := hy.trans hyh
  cases sh with
  | concave i e =>
    simp only [map, tsukamoto, tsuk, ofRat_def, sub_fin, mul_fin, div_fin _ _ hy.ne', add_fin]
    push_cast; rfl
  | ramp s e =>
    simp only [map, tsukamoto, tsuk, ofRat_def, sub_fin, mul_fin, div_fin _ _ hh.ne', add_fin]
  | sigmoid i s =>
    have hs : s ≠ 0 := hp
    simp only [map, tsukamoto, tsuk, ofRat_def, sub_fin, div_fin _ _ hy.ne']
    have : 0 < h / y - ((1:ℚ):ℝ) := by
      push_cast; rw [sub_pos, lt_div_iff₀ hy]; linarith
    rw [log_fin _ this, neg_fin, div_fin _ _ (neg_ne_zero.mpr hs), add_fin]
    push_cast; rfl
  | sShape s e =>
    simp only [map, tsukamoto, tsuk, ofRat_def, sub_fin, mul_fin]
    push_cast
    rw [div_fin _ _ (two_ne_zero), div_fin _ _ (by positivity), div_fin _ _ (by positivity), le_fin,
      sqrt_fin _ (by positivity), sqrt_fin _ (div_nonneg (by linarith) (by positivity))]
    simp only [mul_fin, add_fin, sub_fin, decide_eq_true_eq]
    split_ifs <;> rfl
  | zShape s e =>
    simp only [map, tsukamoto, tsuk, ofRat_def, sub_fin, mul_fin]
    push_cast
    rw [div_fin _ _ (two_ne_zero), div_fin _ _ (by positivity), div_fin _ _ (by positivity), le_fin,
      sqrt_fin _ (by positivity), sqrt_fin _ (div_nonneg (by linarith) (by positivity))]
    simp only [mul_fin, add_fin, sub_fin, decide_eq_true_eq]
    split_ifs <;> rfl
  | _ => exact hp.elim

theorem tsuk_z (s e h y : ℝ) (hh : 0 < h) :
    (Shape.zShape s e).tsuk h y = (Shape.sShape s e).tsuk h (h - y) := by
  simp only [tsuk]
  rw [show h - (h - y) = y by ring]
  by_cases h1 : y ≤ h / 2
  · rw [if_pos h1]
    by_cases h2 : h - y ≤ h / 2
    · have : y = h / 2 := by linarith
      subst this
      rw [if_pos h2, show h - h / 2 = h / 2 by ring, show h / 2 / (2 * h) = (1/2) * (1/2) by field_simp,
        Real.sqrt_mul_self (by norm_num)]
      ring
    · rw [if_neg h2]
  · rw [if_neg h1, if_pos (by linarith)]

/-- the S-shaped transition at its inverse: value and tolerance error -/
theorem sUnit_tsuk (s e h y : ℝ) (hs : s + 5 * tol ≤ e) (hy : 0 < y) (hyh : y < h) :
    (Interior ((Shape.sShape s e).tsuk h y) (.sShape s e) →
      h * sUnit s e ((Shape.sShape s e).tsuk h y) = y) ∧
    |h * sUnit s e ((Shape.sShape s e).tsuk h y) - y| ≤ h * tol / (e - s) := by
  have tp := tol_pos
  have hh : 0 < h := hy.trans hyh
  have hp : 0 < e - s := by linarith
  have hd : (tol / (e - s)) * (e - s) = tol := by field_simp
  have hδ : h * tol / (e - s) = h * (tol / (e - s)) := by ring
  rw [hδ]
  set δ := tol / (e - s) with hδ'
  have d0 : 0 < δ := div_pos tp hp
  have d1 : δ ≤ 1/5 := by rw [hδ', div_le_iff₀ hp]; linarith
  simp only [tsuk, Interior]
  by_cases hyl : y ≤ h / 2
  · simp only [if_pos hyl]
    set r := Real.sqrt (y / (2 * h)) with hr
    have r2 : r * r = y / (2 * h) := Real.mul_self_sqrt (by positivity)
    have r0 : 0 ≤ r := Real.sqrt_nonneg _
    have ry : 2 * h * (r * r) = y := by rw [r2]; field_simp
    have rl : r ≤ 1/2 := by
      have : r * r ≤ 1/4 := by rw [r2, div_le_iff₀ (by positivity)]; linarith
      nlinarith
    have hmid : s + (e - s) * r ≤ 1/2 * (s + e) := by nlinarith
    have hval : ¬ (s + (e - s) * r < s + tol) → h * sUnit s e (s + (e - s) * r) = y := by
      intro hn
      unfold sUnit
      rw [if_neg hn, if_pos (by linarith), show (s + (e - s) * r - s) / (e - s) = r by field_simp; ring]
      nlinarith
    refine ⟨fun hi => hval (by linarith [hi.1]), ?_⟩
    by_cases hlow : s + (e - s) * r < s + tol
    · have : sUnit s e (s + (e - s) * r) = 0 := by unfold sUnit; rw [if_pos hlow]
      rw [this]
      have hrd : r < δ := by
        by_contra hc; push Not at hc; nlinarith
      rw [mul_zero, zero_sub, abs_neg, abs_of_pos hy, ← ry]
      have : r * r ≤ δ * (1/5) := by nlinarith
      nlinarith
    · rw [hval hlow, sub_self, abs_zero]; positivity
  · simp only [if_neg hyl]
    set r := Real.sqrt ((h - y) / (2 * h)) with hr
    have r2 : r * r = (h - y) / (2 * h) := Real.mul_self_sqrt (div_nonneg (by linarith) (by positivity))
    have r0 : 0 ≤ r := Real.sqrt_nonneg _
    have ry : 2 * h * (r * r) = h - y := by rw [r2]; field_simp
    have rl : r < 1/2 := by
      have : r * r < 1/4 := by rw [r2, div_lt_iff₀ (by positivity)]; linarith
      nlinarith
    have hmid : 1/2 * (s + e) < e - (e - s) * r := by nlinarith
    have hval : 1/2 * (s + e) + tol ≤ e - (e - s) * r → e - (e - s) * r + tol ≤ e →
        h * sUnit s e (e - (e - s) * r) = y := by
      intro hn hn2
      unfold sUnit
      rw [if_neg (by linarith), if_neg (by linarith), if_pos hn2,
        show (e - (e - s) * r - e) / (e - s) = -r by field_simp; ring]
      nlinarith
    refine ⟨fun hi => hval (by rcases hi.2.2 with g | g; linarith; exact g) hi.2.1, ?_⟩
    by_cases h1 : 1/2 * (s + e) + tol ≤ e - (e - s) * r
    · by_cases h2 : e - (e - s) * r + tol ≤ e
      · rw [hval h1 h2, sub_self, abs_zero]; positivity
      · have : sUnit s e (e - (e - s) * r) = 1 := by
          unfold sUnit; rw [if_neg (by linarith), if_neg (by linarith), if_neg h2]
        rw [this, mul_one, ← ry, abs_of_nonneg (by positivity)]
        have hrd : r < δ := by
          by_contra hc; push Not at hc; nlinarith
        have : r * r ≤ δ * (1/5) := by nlinarith
        nlinarith
    · have : sUnit s e (e - (e - s) * r) = 2 * (1 - r) ^ 2 := by
        unfold sUnit
        rw [if_neg (by linarith), if_pos (by linarith),
          show (e - (e - s) * r - s) / (e - s) = 1 - r by field_simp; ring]
      rw [this]
      have hrd : 1/2 - r < δ := by
        by_contra hc; push Not at hc; nlinarith
      have e1 : h * (2 * (1 - r) ^ 2) - y = h * (1 - 2 * r) ^ 2 := by linear_combination -ry
      rw [e1, abs_of_nonneg (by positivity)]
      have : (1 - 2 * r) ^ 2 ≤ δ := by nlinarith
      exact mul_le_mul_of_nonneg_left this hh.le

/-- C18, right inverse: for proper parameters and `0 < y < h`, `membership(tsukamoto(y)) = y`
whenever `tsukamoto(y)` is farther than the tolerance from the ends of the transition (and, for
S/Z shapes, outside the band above the midpoint); in any case the error is at most
`h * eps / width`.  Missing: exactness inside the tolerance bands, where it is false
(`tsukamoto_ramp_violated`). -/
theorem tsukamoto_right_inverse_partial (sh : Shape ℝ) (hp : sh.Proper) (h y : ℝ) (hy : 0 < y) (hyh : y < h) :
    ∃ x z : ℝ, (sh.map fin).tsukamoto (fin h) (fin y) = some (fin x) ∧
      (sh.map fin).membership (fin h) (fin x) = fin z ∧
      (sh.Interior x → z = y) ∧ |z - y| ≤ h * tol / sh.width := by
  have tp := tol_pos
  have hh : 0 < h := hy.trans hyh
  have hw : sh.Ordered := by
    cases sh <;> first | exact hp.elim | trivial | exact hp
  refine ⟨_, _, tsukamoto_fin sh hp h y hy hyh, membership_fin sh hw h _, ?_⟩
  cases sh with
  | concave i e =>
    rcases (show i < e ∨ e + tol ≤ i from hp) with hie | hie
    · have hwd : (Shape.concave i e).width = e - i := by
        simp only [width]; rw [abs_sub_comm, abs_of_pos (by linarith)]
      have hep : 0 < e - i := by linarith
      have hx : (Shape.concave i e).tsuk h y = e - (e - i) * (h / y - 1) := by
        simp only [tsuk]; ring
      have hq : 0 < h / y - 1 := by rw [sub_pos, lt_div_iff₀ hy]; linarith
      have hval : (Shape.concave i e).tsuk h y + tol ≤ e →
          h * (Shape.concave i e).unit ((Shape.concave i e).tsuk h y) = y := by
        intro hc
        simp only [unit]
        rw [if_pos (by linarith), if_pos hc, hx,
          show 2 * e - i - (e - (e - i) * (h / y - 1)) = (e - i) * h / y by ring]
        field_simp
      refine ⟨fun hi => hval ?_, ?_⟩
      · rcases hi with hi | hi
        · exact hi.2
        · linarith [hi.1]
      · rw [hwd]
        by_cases hc : (Shape.concave i e).tsuk h y + tol ≤ e
        · rw [hval hc, sub_self, abs_zero]; positivity
        · simp only [unit]
          rw [if_pos (by linarith), if_neg hc, mul_one, abs_of_pos (by linarith)]
          rw [hx] at hc
          push Not at hc
          have h3 : (e - i) * (h / y - 1) < tol := by linarith
          have h4 : (e - i) * (h - y) < tol * y := by
            have := mul_lt_mul_of_pos_right h3 hy
            have e4 : (e - i) * (h / y - 1) * y = (e - i) * (h - y) := by field_simp
            linarith
          rw [le_div_iff₀ hep]; nlinarith
    · have hwd : (Shape.concave i e).width = i - e := by
        simp only [width]; rw [abs_of_pos (by linarith)]
      have hep : 0 < i - e := by linarith
      have hx : (Shape.concave i e).tsuk h y = e + (i - e) * (h / y - 1) := by
        simp only [tsuk]; ring
      have hq : 0 < h / y - 1 := by rw [sub_pos, lt_div_iff₀ hy]; linarith
      have hval : e + tol ≤ (Shape.concave i e).tsuk h y →
          h * (Shape.concave i e).unit ((Shape.concave i e).tsuk h y) = y := by
        intro hc
        simp only [unit]
        rw [if_neg (by linarith), if_pos hc, hx,
          show i - 2 * e + (e + (i - e) * (h / y - 1)) = (i - e) * h / y by ring]
        field_simp
      refine ⟨fun hi => hval ?_, ?_⟩
      · rcases hi with hi | hi
        · linarith [hi.1]
        · exact hi.2
      · rw [hwd]
        by_cases hc : e + tol ≤ (Shape.concave i e).tsuk h y
        · rw [hval hc, sub_self, abs_zero]; positivity
        · simp only [unit]
          rw [if_neg (by linarith), if_neg hc, mul_one, abs_of_pos (by linarith)]
          rw [hx] at hc
          push Not at hc
          have h3 : (i - e) * (h / y - 1) < tol := by linarith
          have h4 : (i - e) * (h - y) < tol * y := by
            have := mul_lt_mul_of_pos_right h3 hy
            have e4 : (i - e) * (h / y - 1) * y = (i - e) * (h - y) := by field_simp
            linarith
          rw [le_div_iff₀ hep]; nlinarith
  | ramp s e =>
    have hw' : tol ≤ |s - e| := hp
    have ht : 0 < y / h := by positivity
    have ht1 : y / h < 1 := by rw [div_lt_one hh]; exact hyh
    have hyt : h * (y / h) = y := by field_simp
    have hx : (Shape.ramp s e).tsuk h y = s + (e - s) * (y / h) := by simp only [tsuk]; ring
    rw [hx]
    set t := y / h
    simp only [width, unit, Interior]
    rcases le_abs.mp hw' with g | g
    · have hp : 0 < s - e := by linarith
      rw [if_neg (by linarith), abs_of_pos hp]
      have ev : (s - (s + (e - s) * t)) / (s - e) = t := by field_simp; ring
      rw [ev]
      constructor
      · intro hi
        rcases hi with hi | hi
        · linarith
        · rw [if_neg (by linarith), if_neg (by linarith), hyt]
      · split_ifs with h1 h2
        · rw [mul_zero, zero_sub, abs_neg, abs_of_pos hy, le_div_iff₀ hp, ← hyt]; nlinarith
        · rw [mul_one, abs_of_pos (by linarith), le_div_iff₀ hp, ← hyt]; nlinarith
        · rw [hyt, sub_self, abs_zero]; positivity
    · have hp : 0 < e - s := by linarith
      rw [if_pos (by linarith), abs_sub_comm s e, abs_of_pos hp]
      have ev : (s + (e - s) * t - s) / (e - s) = t := by field_simp; ring
      rw [ev]
      constructor
      · intro hi
        rcases hi with hi | hi
        · rw [if_neg (by linarith), if_neg (by linarith), hyt]
        · linarith
      · split_ifs with h1 h2
        · rw [mul_zero, zero_sub, abs_neg, abs_of_pos hy, le_div_iff₀ hp, ← hyt]; nlinarith
        · rw [mul_one, abs_of_pos (by linarith), le_div_iff₀ hp, ← hyt]; nlinarith
        · rw [hyt, sub_self, abs_zero]; positivity
  | sigmoid i s =>
    have hs : s ≠ 0 := hp
    have hq : 0 < h / y - 1 := by rw [sub_pos, lt_div_iff₀ hy]; linarith
    have hv : h * (Shape.sigmoid i s).unit ((Shape.sigmoid i s).tsuk h y) = y := by
      simp only [unit, tsuk]
      rw [show -s * (i + Real.log (h / y - 1) / -s - i) = Real.log (h / y - 1) by field_simp; ring,
        Real.exp_log hq]
      rw [show 1 + (h / y - 1) = h / y by ring]
      field_simp
    refine ⟨fun _ => hv, ?_⟩
    rw [hv, sub_self, abs_zero]; simp only [width]; positivity
  | sShape s e =>
    have hs : s + 5 * tol ≤ e := hp
    have hwd : (Shape.sShape s e).width = e - s := by
      simp only [width]; rw [abs_sub_comm, abs_of_pos (by linarith)]
    rw [hwd]
    exact sUnit_tsuk s e h y hs hy hyh
  | zShape s e =>
    have hs : s + 5 * tol ≤ e := hp
    have hwd : (Shape.zShape s e).width = e - s := by
      simp only [width]; rw [abs_sub_comm, abs_of_pos (by linarith)]
    rw [hwd]
    have key := sUnit_tsuk s e h (h - y) hs (by linarith) (by linarith)
    rw [tsuk_z s e h y hh]
    simp only [unit, zUnit_eq]
    refine ⟨fun hi => ?_, ?_⟩
    · have := key.1 hi
      rw [mul_sub, this]; ring
    · have := key.2
      rw [show h * (1 - sUnit s e ((Shape.sShape s e).tsuk h (h - y))) - y
        = -(h * sUnit s e ((Shape.sShape s e).tsuk h (h - y)) - (h - y)) by ring, abs_neg]
      exact this
  | _ => exact hp.elim

/-- C18, left inverse: for proper parameters, `tsukamoto(membership(x)) = x` wherever the
membership is strictly between 0 and the height (for S/Z shapes: outside the tolerance band
above the midpoint).  Missing: that band. -/
theorem tsukamoto_left_inverse_partial (sh : Shape ℝ) (hp : sh.Proper) (h x y : ℝ)
    (hm : (sh.map fin).membership (fin h) (fin x) = fin y) (hy : 0 < y) (hyh : y < h)
    (hb : ∀ s e : ℝ, sh = .sShape s e ∨ sh = .zShape s e → x ≤ 1/2 * (s + e) ∨ 1/2 * (s + e) + tol ≤ x) :
    (sh.map fin).tsukamoto (fin h) (fin y) = some (fin x) := by
  have tp := tol_pos
  have hh : 0 < h := hy.trans hyh
  have hw : sh.Ordered := by
    cases sh <;> first | exact hp.elim | trivial | exact hp
  rw [membership_fin sh hw h x, Ext.fin.injEq] at hm
  rw [tsukamoto_fin sh hp h y hy hyh]
  congr 2
  have hS : ∀ s e : ℝ, s + 5 * tol ≤ e → (x ≤ 1/2 * (s + e) ∨ 1/2 * (s + e) + tol ≤ x) →
      ∀ w : ℝ, h * sUnit s e x = w → 0 < w → w < h → (Shape.sShape s e).tsuk h w = x := by
    intro s e hs hmid w hv hw0 hw1
    have hp' : 0 < e - s := by linarith
    by_cases h1 : x < s + tol
    · have : sUnit s e x = 0 := by unfold sUnit; rw [if_pos h1]
      rw [this] at hv; linarith
    by_cases h2 : x < 1/2 * (s + e) + tol
    · have hx : x ≤ 1/2 * (s + e) := by rcases hmid with g | g; exact g; linarith
      have hu : sUnit s e x = 2 * ((x - s) / (e - s)) ^ 2 := by unfold sUnit; rw [if_neg h1, if_pos h2]
      set q := (x - s) / (e - s) with hq
      have q0 : 0 ≤ q := div_nonneg (by linarith) hp'.le
      have q1 : q ≤ 1/2 := by rw [hq, div_le_iff₀ hp']; linarith
      have qx : (e - s) * q = x - s := by rw [hq]; field_simp
      rw [hu] at hv
      have hle : w ≤ h / 2 := by
        have : q ^ 2 ≤ 1/4 := by nlinarith
        rw [← hv]; nlinarith
      simp only [tsuk, if_pos hle]
      rw [show w / (2 * h) = q * q by rw [← hv]; field_simp, Real.sqrt_mul_self q0]
      linarith
    · by_cases h3 : x + tol ≤ e
      · have hu : sUnit s e x = 1 - 2 * ((x - e) / (e - s)) ^ 2 := by
          unfold sUnit; rw [if_neg h1, if_neg h2, if_pos h3]
        set q := (e - x) / (e - s) with hq
        have hqn : (x - e) / (e - s) = -q := by rw [hq]; ring
        have q0 : 0 ≤ q := div_nonneg (by linarith) hp'.le
        have q1 : q < 1/2 := by rw [hq, div_lt_iff₀ hp']; linarith
        have qx : (e - s) * q = e - x := by rw [hq]; field_simp
        rw [hu, hqn] at hv
        have hle : ¬ (w ≤ h / 2) := by
          rw [← hv, not_le]
          have : q ^ 2 < 1/4 := by nlinarith
          nlinarith
        simp only [tsuk, if_neg hle]
        rw [show (h - w) / (2 * h) = q * q by rw [← hv]; field_simp; ring, Real.sqrt_mul_self q0]
        linarith
      · have : sUnit s e x = 1 := by unfold sUnit; rw [if_neg h1, if_neg h2, if_neg h3]
        rw [this] at hv; linarith
  cases sh with
  | concave i e =>
    simp only [unit] at hm
    simp only [tsuk]
    rcases (show i < e ∨ e + tol ≤ i from hp) with hie | hie
    · rw [if_pos (by linarith)] at hm
      by_cases hc : x + tol ≤ e
      · rw [if_pos hc] at hm
        have hd : 2 * e - i - x ≠ 0 := by intro h0; linarith
        have he : e - i ≠ 0 := by intro h0; linarith
        rw [← hm]
        field_simp
        ring
      · rw [if_neg hc] at hm; linarith
    · rw [if_neg (by linarith)] at hm
      by_cases hc : e + tol ≤ x
      · rw [if_pos hc] at hm
        have hd : i - 2 * e + x ≠ 0 := by intro h0; linarith
        have he : i - e ≠ 0 := by intro h0; linarith
        rw [← hm]
        field_simp
        ring
      · rw [if_neg hc] at hm; linarith
  | ramp s e =>
    have hw' : tol ≤ |s - e| := hp
    simp only [unit] at hm
    simp only [tsuk]
    have hne : s - e ≠ 0 := by intro h0; rw [h0, abs_zero] at hw'; linarith
    have hne' : e - s ≠ 0 := by intro h0; apply hne; linarith
    split_ifs at hm
    · linarith
    · linarith
    · rw [← hm]; field_simp; ring
    · linarith
    · linarith
    · rw [← hm]; field_simp; ring
  | sigmoid i s =>
    have hs : s ≠ 0 := hp
    simp only [unit] at hm
    simp only [tsuk]
    have hE := Real.exp_pos (-s * (x - i))
    have : h / y - 1 = Real.exp (-s * (x - i)) := by
      rw [← hm]; field_simp; ring
    rw [this, Real.log_exp]; field_simp; ring
  | sShape s e =>
    exact hS s e hp (hb s e (Or.inl rfl)) y hm hy hyh
  | zShape s e =>
    rw [tsuk_z s e h y hh]
    apply hS s e hp (hb s e (Or.inr rfl)) (h - y) _ (by linarith) (by linarith)
    rw [← hm]; simp only [unit, zUnit_eq]; ring
  | _ => exact hp.elim

/-- C18 fails as stated: for every ramp at least four tolerances long and every height there
is a degree `0 < y < h` with `membership(tsukamoto(y)) = 0`. -/
theorem tsukamoto_ramp_violated (s e h : ℝ) (hse : s + 4 * tol ≤ e) (hh : 0 < h) :
    ∃ y x : ℝ, 0 < y ∧ y < h ∧ (Shape.ramp (fin s) (fin e)).tsukamoto (fin h) (fin y) = some (fin x) ∧
      (Shape.ramp (fin s) (fin e)).membership (fin h) (fin x) = fin 0 := by
  have tp := tol_pos
  have hp : 0 < e - s := by linarith
  set y := h * (tol / (2 * (e - s))) with hy
  have hy0 : 0 < y := by positivity
  have hq : tol / (2 * (e - s)) < 1 := by rw [div_lt_one (by positivity)]; linarith
  have hyh : y < h := by rw [hy]; nlinarith
  have hprop : (Shape.ramp s e).Proper := by
    show tol ≤ |s - e|
    rw [le_abs]; right; linarith
  refine ⟨y, _, hy0, hyh, tsukamoto_fin (.ramp s e) hprop h y hy0 hyh, ?_⟩
  have hm := membership_fin (.ramp s e) hprop h ((Shape.ramp s e).tsuk h y)
  simp only [map] at hm
  rw [hm]
  have hx : (Shape.ramp s e).tsuk h y = s + tol / 2 := by
    simp only [tsuk, hy]; field_simp
  simp only [unit, hx]
  rw [if_pos (by linarith), if_pos (by linarith), mul_zero]

omit [Tol ℝ] in
/-- C18: `tsukamoto` is available exactly for the classes that report `isMonotonic`; for
all others it throws.  Holds for every scalar type. -/
theorem tsukamoto_iff_monotonic {S : Type} [Scalar S] (sh : Shape S) (h y : S) :
    (sh.tsukamoto h y).isSome = sh.isMonotonic := by
  cases sh <;> rfl

/-- `direction()` of Ramp and Sigmoid agrees with the direction of the membership function. -/
theorem direction_spec (s e : ℝ) (hne : tol ≤ |s - e|) :
    (rampDirection (fin s) (fin e) = .positive ↔ (Shape.ramp s e).Rising) ∧
    (rampDirection (fin s) (fin e) = .negative ↔ (Shape.ramp s e).Falling) ∧
    (tol ≤ |s| → (sigmoidDirection (fin s) = .positive ↔ (Shape.sigmoid e s).Rising)) ∧
    (tol ≤ |s| → (sigmoidDirection (fin s) = .negative ↔ (Shape.sigmoid e s).Falling)) := by
  have tp := tol_pos
  have hneg : ¬ (|e - s| < tol) := by rw [abs_sub_comm]; exact not_lt.mpr hne
  refine ⟨?_, ?_, ?_, ?_⟩
  · simp only [rampDirection, sub_fin, isFinite_fin, ofRat_def, isEq_fin, isGt_fin, Rising]
    push_cast
    simp only [sub_zero, hneg, decide_false, Bool.not_true, Bool.or_false, Bool.false_eq_true, if_false,
      decide_eq_true_eq]
    rcases le_abs.mp hne with g | g
    · rw [if_neg (by linarith)]; constructor <;> intro h
      · exact absurd h (by decide)
      · linarith
    · rw [if_pos (by linarith)]; constructor <;> intro h
      · linarith
      · rfl
  · simp only [rampDirection, sub_fin, isFinite_fin, ofRat_def, isEq_fin, isGt_fin, Falling]
    push_cast
    simp only [sub_zero, hneg, decide_false, Bool.not_true, Bool.or_false, Bool.false_eq_true, if_false,
      decide_eq_true_eq]
    rcases le_abs.mp hne with g | g
    · rw [if_neg (by linarith)]; constructor <;> intro h
      · linarith
      · rfl
    · rw [if_pos (by linarith)]; constructor <;> intro h
      · exact absurd h (by decide)
      · linarith
  · intro hs
    have hs' : ¬ (|s| < tol) := not_lt.mpr hs
    simp only [sigmoidDirection, isFinite_fin, ofRat_def, isEq_fin, isGt_fin, Rising]
    push_cast
    simp only [sub_zero, hs', decide_false, Bool.not_true, Bool.or_false, Bool.false_eq_true, if_false,
      decide_eq_true_eq]
    rcases le_abs.mp hs with g | g
    · rw [if_pos (by linarith)]; constructor <;> intro h
      · linarith
      · rfl
    · rw [if_neg (by linarith)]; constructor <;> intro h
      · exact absurd h (by decide)
      · linarith
  · intro hs
    have hs' : ¬ (|s| < tol) := not_lt.mpr hs
    simp only [sigmoidDirection, isFinite_fin, ofRat_def, isEq_fin, isGt_fin, Falling]
    push_cast
    simp only [sub_zero, hs', decide_false, Bool.not_true, Bool.or_false, Bool.false_eq_true, if_false,
      decide_eq_true_eq]
    rcases le_abs.mp hs with g | g
    · rw [if_pos (by linarith)]; constructor <;> intro h
      · exact absurd h (by decide)
      · linarith
    · rw [if_neg (by linarith)]; constructor <;> intro h
      · linarith
      · rfl

end Shape
end FL

namespace FL
open Scalar Ext Shape
/-- Non-vacuity of C17/C18 at the shipped tolerance: ordinary parameters are proper, rising, and
have interior points. -/
example : letI := Tol.default
    (Shape.sShape (0:ℝ) 1).Proper ∧ (Shape.sShape (0:ℝ) 1).Rising ∧ (Shape.sShape (0:ℝ) 1).Interior (1/4) ∧
    (Shape.ramp (2:ℝ) 1).Proper ∧ (Shape.ramp (2:ℝ) 1).Falling ∧ (Shape.ramp (2:ℝ) 1).Interior (3/2) ∧
    (Shape.concave (0:ℝ) 1).Proper ∧ (Shape.concave (0:ℝ) 1).Interior (1/2) := by
  let _ := Tol.default
  have ht : (tol : ℝ) = 1 / 1000000 := rfl
  simp only [Proper, Rising, Falling, Interior, ht]
  norm_num
end FL
