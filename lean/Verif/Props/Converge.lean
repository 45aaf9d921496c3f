/-
C94: centroids converge to the centre of gravity.
-/
import Verif.Props.Integral
import Verif.Lemmas.Shape
import Verif.Lemmas.Norm
import Mathlib.MeasureTheory.Function.Floor
import Mathlib.MeasureTheory.Integral.DominatedConvergence
import Mathlib.Analysis.SpecialFunctions.Integrals.Basic

namespace FL.Converge
open Filter Topology MeasureTheory Set
open FL.Integral (point)
open FL.Ext

variable [Tol ℝ]

/-- the place of the sample of the cell in which `x` is -/
noncomputable def mid (a b : ℝ) (n : ℕ) (x : ℝ) : ℝ := a + ((⌊(x - a) / ((b - a) / n)⌋ : ℝ) + 1 / 2) * ((b - a) / n)

theorem mid_near (a b : ℝ) (hab : a < b) (n : ℕ) (hn : 0 < n) (x : ℝ) : |mid a b n x - x| ≤ (b - a) / n := by
  have hn' : (0 : ℝ) < n := Nat.cast_pos.2 hn
  have hd : 0 < (b - a) / n := div_pos (by linarith) hn'
  have h1 := Int.floor_le ((x - a) / ((b - a) / n))
  have h2 := Int.lt_floor_add_one ((x - a) / ((b - a) / n))
  rw [le_div_iff₀ hd] at h1
  rw [div_lt_iff₀ hd] at h2
  unfold mid
  rw [abs_le]
  constructor <;> nlinarith

theorem mid_cell (a b : ℝ) (hab : a < b) (n : ℕ) (hn : 0 < n) (i : ℕ) (x : ℝ)
    (h1 : a + i * ((b - a) / n) ≤ x) (h2 : x < a + (i + 1) * ((b - a) / n)) : mid a b n x = point a b n i := by
  have hn' : (0 : ℝ) < n := Nat.cast_pos.2 hn
  have hd : 0 < (b - a) / n := div_pos (by linarith) hn'
  have : ⌊(x - a) / ((b - a) / n)⌋ = (i : ℤ) := by
    rw [Int.floor_eq_iff, le_div_iff₀ hd, div_lt_iff₀ hd]
    push_cast
    constructor <;> linarith
  unfold mid point
  rw [this]
  push_cast
  rfl

/-- the cell of a point -/
theorem exists_cell (a b : ℝ) (hab : a < b) (n : ℕ) (hn : 0 < n) (x : ℝ) (hx : x ∈ Ioo a b) :
    ∃ i < n, a + i * ((b - a) / n) ≤ x ∧ x < a + (i + 1) * ((b - a) / n) := by
  have hn' : (0 : ℝ) < n := Nat.cast_pos.2 hn
  have hd : 0 < (b - a) / n := div_pos (by linarith) hn'
  have hq : 0 ≤ (x - a) / ((b - a) / n) := div_nonneg (by linarith [hx.1]) hd.le
  have h1 := Nat.floor_le hq
  have h2 := Nat.lt_floor_add_one ((x - a) / ((b - a) / n))
  refine ⟨⌊(x - a) / ((b - a) / n)⌋₊, ?_, ?_, ?_⟩
  · rw [Nat.floor_lt hq, div_lt_iff₀ hd]
    have : (n : ℝ) * ((b - a) / n) = b - a := by field_simp
    rw [this]
    linarith [hx.2]
  · rw [le_div_iff₀ hd] at h1
    linarith
  · rw [div_lt_iff₀ hd] at h2
    linarith

/-- `f` at the sample of the cell in which the point is -/
theorem step_measurable (f : ℝ → ℝ) (a b : ℝ) (n : ℕ) : Measurable fun x => f (mid a b n x) := by
  have h1 : Measurable fun k : ℤ => f (a + ((k : ℝ) + 1 / 2) * ((b - a) / n)) := measurable_from_top
  have h2 : Measurable fun x : ℝ => ⌊(x - a) / ((b - a) / n)⌋ := Int.measurable_floor.comp (by fun_prop)
  exact h1.comp h2

/-- the area of the first `m` cells -/
theorem step_integral (f : ℝ → ℝ) (a b : ℝ) (hab : a < b) (n : ℕ) (hn : 0 < n) (m : ℕ) :
    ∫ x in a..a + m * ((b - a) / n), f (mid a b n x) = (∑ i ∈ Finset.range m, f (point a b n i)) * ((b - a) / n) := by
  have hn' : (0 : ℝ) < n := Nat.cast_pos.2 hn
  have hd : 0 < (b - a) / n := div_pos (by linarith) hn'
  have hcell : ∀ k : ℕ, (Ioo (a + (k : ℝ) * ((b - a) / n)) (a + ((k + 1 : ℕ) : ℝ) * ((b - a) / n))).EqOn
      (fun x => f (mid a b n x)) (fun _ => f (point a b n k)) := by
    intro k x hx
    have := mid_cell a b hab n hn k x hx.1.le (by have := hx.2; push_cast at this; exact this)
    simp only [this]
  have hle : ∀ k : ℕ, a + (k : ℝ) * ((b - a) / n) ≤ a + ((k + 1 : ℕ) : ℝ) * ((b - a) / n) := by
    intro k
    push_cast
    nlinarith
  have hint : ∀ k < m, IntervalIntegrable (fun x => f (mid a b n x)) volume (a + (k : ℝ) * ((b - a) / n))
      (a + ((k + 1 : ℕ) : ℝ) * ((b - a) / n)) := by
    intro k _
    rw [intervalIntegrable_iff_integrableOn_Ioo_of_le (hle k)]
    exact IntegrableOn.congr_fun (integrableOn_const (by simp) (by simp)) (hcell k).symm measurableSet_Ioo
  have := intervalIntegral.sum_integral_adjacent_intervals (f := fun x => f (mid a b n x)) (μ := volume)
    (a := fun k : ℕ => a + (k : ℝ) * ((b - a) / n)) (n := m) hint
  have e0 : a + ((0 : ℕ) : ℝ) * ((b - a) / n) = a := by push_cast; ring
  simp only [e0] at this
  rw [← this, Finset.sum_mul]
  refine Finset.sum_congr rfl fun k _ => ?_
  rw [intervalIntegral.integral_congr_Ioo_of_le (hle k) (hcell k), intervalIntegral.integral_const, smul_eq_mul]
  push_cast
  ring

/-- the samples tend to the places they stand for -/
theorem mid_tendsto (a b : ℝ) (hab : a < b) (x : ℝ) : Tendsto (fun n : ℕ => mid a b n x) atTop (𝓝 x) := by
  have h0 : Tendsto (fun n : ℕ => (b - a) / n) atTop (𝓝 0) := tendsto_const_div_atTop_nhds_zero_nat _
  rw [tendsto_iff_dist_tendsto_zero]
  refine squeeze_zero' (Eventually.of_forall fun _ => dist_nonneg) ?_ h0
  filter_upwards [eventually_gt_atTop 0] with n hn
  exact mid_near a b hab n hn x

/-! ### functions that are bounded and almost everywhere continuous -/

/-- whether `P` holds does not change near almost every place -/
def Steady (P : ℝ → Prop) : Prop := ∀ᵐ x, ∀ᶠ y in 𝓝 x, (P y ↔ P x)

theorem Steady.side (P : ℝ → Prop) (c : ℝ) (h1 : ∀ x y, x < c → y < c → (P y ↔ P x)) (h2 : ∀ x y, c < x → c < y → (P y ↔ P x)) :
    Steady P := by
  filter_upwards [(countable_singleton c).ae_notMem volume] with x hx
  rcases lt_trichotomy x c with h | h | h
  · filter_upwards [eventually_lt_nhds h] with y hy using h1 x y h hy
  · exact absurd h hx
  · filter_upwards [eventually_gt_nhds h] with y hy using h2 x y h hy

theorem Steady.and {P Q : ℝ → Prop} (hP : Steady P) (hQ : Steady Q) : Steady fun x => P x ∧ Q x := by
  filter_upwards [hP, hQ] with x h1 h2
  filter_upwards [h1, h2] with y h3 h4
  rw [h3, h4]

theorem Steady.or {P Q : ℝ → Prop} (hP : Steady P) (hQ : Steady Q) : Steady fun x => P x ∨ Q x := by
  filter_upwards [hP, hQ] with x h1 h2
  filter_upwards [h1, h2] with y h3 h4
  rw [h3, h4]

theorem Steady.const (p : Prop) : Steady fun _ => p := ae_of_all _ fun _ => Eventually.of_forall fun _ => Iff.rfl

/-- `f` is bounded on the range from `a` to `b` and continuous almost everywhere in it -/
structure Tame (a b : ℝ) (f : ℝ → ℝ) : Prop where
  bound : ∃ M, ∀ x ∈ Ioo a b, |f x| ≤ M
  cont : ∀ᵐ x, x ∈ Ioo a b → ContinuousAt f x

variable {a b : ℝ} {f g : ℝ → ℝ}

theorem Tame.of_continuous (h : Continuous f) : Tame a b f := by
  obtain ⟨M, hM⟩ := (isCompact_Icc (a := a) (b := b)).exists_bound_of_continuousOn h.continuousOn
  exact ⟨⟨M, fun x hx => hM x (Ioo_subset_Icc_self hx)⟩, ae_of_all _ fun x _ => h.continuousAt⟩

theorem Tame.congr (h : Tame a b f) (he : ∀ x ∈ Ioo a b, g x = f x) : Tame a b g := by
  obtain ⟨⟨M, hM⟩, h2⟩ := h
  refine ⟨⟨M, fun x hx => he x hx ▸ hM x hx⟩, ?_⟩
  filter_upwards [h2] with x hx hx'
  refine (hx hx').congr ?_
  filter_upwards [isOpen_Ioo.mem_nhds hx'] with y hy using (he y hy).symm

open Classical in
theorem Tame.ite {P : ℝ → Prop} [DecidablePred P] (hP : Steady P) (hf : Tame a b f) (hg : Tame a b g) :
    Tame a b fun x => if P x then f x else g x := by
  obtain ⟨⟨M, hM⟩, h1⟩ := hf
  obtain ⟨⟨N, hN⟩, h2⟩ := hg
  refine ⟨⟨max M N, fun x hx => ?_⟩, ?_⟩
  · split
    · exact (hM x hx).trans (le_max_left _ _)
    · exact (hN x hx).trans (le_max_right _ _)
  · filter_upwards [hP, h1, h2] with x h3 h4 h5 hx
    by_cases hp : P x
    · refine (h4 hx).congr ?_
      filter_upwards [h3] with y hy
      rw [if_pos (hy.2 hp)]
    · refine (h5 hx).congr ?_
      filter_upwards [h3] with y hy
      rw [if_neg fun hc => hp (hy.1 hc)]

/-- continuous operations keep tame functions tame -/
theorem Tame.op {F : ℝ → ℝ → ℝ} (hF : Continuous fun p : ℝ × ℝ => F p.1 p.2) (hf : Tame a b f) (hg : Tame a b g) :
    Tame a b fun x => F (f x) (g x) := by
  obtain ⟨⟨M, hM⟩, h1⟩ := hf
  obtain ⟨⟨N, hN⟩, h2⟩ := hg
  obtain ⟨K, hK⟩ := ((isCompact_Icc (a := -M) (b := M)).prod (isCompact_Icc (a := -N) (b := N))).exists_bound_of_continuousOn
    hF.continuousOn
  refine ⟨⟨K, fun x hx => hK (f x, g x) ⟨abs_le.1 (hM x hx), abs_le.1 (hN x hx)⟩⟩, ?_⟩
  filter_upwards [h1, h2] with x h3 h4 hx
  exact hF.continuousAt.comp (f := fun x => (f x, g x)) ((h3 hx).prodMk (h4 hx))

theorem Tame.mul (hf : Tame a b f) (hg : Tame a b g) : Tame a b fun x => f x * g x :=
  Tame.op (F := fun u v => u * v) (by fun_prop) hf hg

theorem Tame.const (c : ℝ) : Tame a b fun _ => c := Tame.of_continuous continuous_const

theorem Tame.id : Tame a b fun x => x := Tame.of_continuous continuous_id

theorem Tame.ae_tendsto (h : Tame a b f) (hab : a < b) :
    ∀ᵐ x, x ∈ Ioo a b → Tendsto (fun n : ℕ => f (mid a b n x)) atTop (𝓝 (f x)) := by
  filter_upwards [h.cont] with x hx hx'
  exact (hx hx').tendsto.comp (mid_tendsto a b hab x)

theorem ae_inside (a b : ℝ) (hab : a < b) : ∀ᵐ x, x ∈ uIoc a b → x ∈ Ioo a b := by
  filter_upwards [(countable_singleton b).ae_notMem volume] with x hx hx'
  rw [uIoc_of_le hab.le] at hx'
  exact ⟨hx'.1, lt_of_le_of_ne hx'.2 hx⟩

theorem Tame.integrable (h : Tame a b f) (hab : a < b) : IntervalIntegrable f volume a b := by
  obtain ⟨M, hM⟩ := h.bound
  have hm : AEStronglyMeasurable f (volume.restrict (uIoc a b)) := by
    refine aestronglyMeasurable_of_tendsto_ae atTop (f := fun n : ℕ => fun x => f (mid a b n x))
      (fun n => (step_measurable f a b n).aestronglyMeasurable) ?_
    rw [ae_restrict_iff' measurableSet_uIoc]
    filter_upwards [h.ae_tendsto hab, ae_inside a b hab] with x h1 h2 h3 using h1 (h2 h3)
  rw [intervalIntegrable_iff]
  refine IntegrableOn.of_bound (by simp [uIoc]) hm M ?_
  rw [ae_restrict_iff' measurableSet_uIoc]
  filter_upwards [ae_inside a b hab] with x h2 h3 using hM x (h2 h3)

theorem Tame.step_bound (h : Tame a b f) (hab : a < b) : ∃ M, (∀ x ∈ Ioo a b, |f x| ≤ M) ∧
    ∀ n : ℕ, 0 < n → ∀ x ∈ Ioo a b, |f (mid a b n x)| ≤ M := by
  obtain ⟨M, hM⟩ := h.bound
  refine ⟨M, hM, fun n hn x hx => ?_⟩
  obtain ⟨i, hi, h1, h2⟩ := exists_cell a b hab n hn x hx
  rw [mid_cell a b hab n hn i x h1 h2]
  exact hM _ (FL.Integral.point_inside a b hab n i hi)

theorem Tame.step_integrable (h : Tame a b f) (hab : a < b) (n : ℕ) (hn : 0 < n) :
    IntervalIntegrable (fun x => f (mid a b n x)) volume a b := by
  obtain ⟨M, -, hM⟩ := h.step_bound hab
  rw [intervalIntegrable_iff]
  refine IntegrableOn.of_bound (by simp [uIoc]) (step_measurable f a b n).aestronglyMeasurable M ?_
  rw [ae_restrict_iff' measurableSet_uIoc]
  filter_upwards [ae_inside a b hab] with x h2 h3 using hM n hn x (h2 h3)

/-- the samples of a tame function tend to it in the mean -/
theorem Tame.near (h : Tame a b f) (hab : a < b) :
    Tendsto (fun n : ℕ => ∫ x in a..b, |f (mid a b n x) - f x|) atTop (𝓝 0) := by
  obtain ⟨M, hM, hM'⟩ := h.step_bound hab
  have key : Tendsto (fun n : ℕ => ∫ x in a..b, |f (mid a b n x) - f x|) atTop (𝓝 (∫ x in a..b, (0 : ℝ))) := by
    refine intervalIntegral.tendsto_integral_filter_of_dominated_convergence (fun _ => M + M) ?_ ?_ ?_ ?_
    · exact Eventually.of_forall fun n => ((step_measurable f a b n).aestronglyMeasurable.sub
        (intervalIntegrable_iff.1 (h.integrable hab)).aestronglyMeasurable).norm
    · filter_upwards [eventually_gt_atTop 0] with n hn
      filter_upwards [ae_inside a b hab] with x hx hx'
      rw [Real.norm_eq_abs, abs_abs]
      exact (abs_sub _ _).trans (add_le_add (hM' n hn x (hx hx')) (hM x (hx hx')))
    · exact intervalIntegrable_const
    · filter_upwards [h.ae_tendsto hab, ae_inside a b hab] with x h1 h2 h3
      have := ((h1 (h2 h3)).sub_const (f x)).abs
      simpa using this
  simpa using key

/-- the area of the first cells is near the area below their end -/
theorem Tame.part (h : Tame a b f) (hab : a < b) (n : ℕ) (hn : 0 < n) (m : ℕ) (hm : m ≤ n) :
    |(∑ i ∈ Finset.range m, f (point a b n i)) * ((b - a) / n) - ∫ x in a..a + m * ((b - a) / n), f x| ≤
      ∫ x in a..b, |f (mid a b n x) - f x| := by
  have hn' : (0 : ℝ) < n := Nat.cast_pos.2 hn
  have hd : 0 < (b - a) / n := div_pos (by linarith) hn'
  have e1 : a + (n : ℝ) * ((b - a) / n) = b := by field_simp; ring
  have h1 : a ≤ a + m * ((b - a) / n) := by
    have : (0 : ℝ) ≤ m * ((b - a) / n) := by positivity
    linarith
  have h2 : a + m * ((b - a) / n) ≤ b := by
    have : (m : ℝ) ≤ n := by exact_mod_cast hm
    nlinarith
  have hsub : uIcc a (a + m * ((b - a) / n)) ⊆ uIcc a b := by
    rw [uIcc_of_le h1, uIcc_of_le hab.le]
    exact Icc_subset_Icc_right h2
  rw [← step_integral f a b hab n hn m, ← intervalIntegral.integral_sub ((h.step_integrable hab n hn).mono_set hsub)
    ((h.integrable hab).mono_set hsub)]
  refine (intervalIntegral.abs_integral_le_integral_abs h1).trans ?_
  exact intervalIntegral.integral_mono_interval le_rfl h1 h2 (ae_of_all _ fun _ => abs_nonneg _)
    ((h.step_integrable hab n hn).sub (h.integrable hab)).abs

/-- sums of samples of tame functions converge to their integrals -/
theorem Tame.sum (h : Tame a b f) (hab : a < b) :
    Tendsto (fun n : ℕ => (∑ i ∈ Finset.range n, f (point a b n i)) * ((b - a) / n)) atTop (𝓝 (∫ x in a..b, f x)) := by
  rw [tendsto_iff_dist_tendsto_zero]
  refine squeeze_zero' (Eventually.of_forall fun _ => dist_nonneg) ?_ (h.near hab)
  filter_upwards [eventually_gt_atTop 0] with n hn
  have e1 : a + (n : ℝ) * ((b - a) / n) = b := by
    have : (n : ℝ) ≠ 0 := by exact_mod_cast hn.ne'
    field_simp; ring
  have := h.part hab n hn n le_rfl
  rwa [e1] at this

/-! ### terms -/

local macro "steady" c:term : tactic => `(tactic| exact Steady.side _ $c
  (by intro x y h1 h2; constructor <;> intro h3 <;> linarith) (by intro x y h1 h2; constructor <;> intro h3 <;> linarith))

theorem tame_sUnit (s e : ℝ) : Tame a b (Shape.sUnit s e) := by
  unfold Shape.sUnit
  refine .ite (by steady (s + tol)) (.const _) (.ite (by steady (1/2 * (s + e) + tol)) (.of_continuous (by fun_prop))
    (.ite (by steady (e - tol)) (.of_continuous (by fun_prop)) (.const _)))

theorem tame_zUnit (s e : ℝ) : Tame a b (Shape.zUnit s e) := by
  unfold Shape.zUnit
  refine .ite (by steady (s + tol)) (.const _) (.ite (by steady (1/2 * (s + e) + tol)) (.of_continuous (by fun_prop))
    (.ite (by steady (e - tol)) (.of_continuous (by fun_prop)) (.const _)))

/-- the membership functions of all shapes are bounded and continuous almost everywhere -/
theorem tame_unit (sh : Shape ℝ) (hw : sh.Ordered) : Tame a b sh.unit := by
  have tp : 0 < (tol : ℝ) := Ext.tol_pos
  cases sh with
  | bell c w s =>
    show Tame a b fun x => if x = c ∧ s < 0 then 0 else 1 / (1 + |(x - c) / w| ^ (2 * s))
    refine .ite (Steady.and (Steady.side _ c (fun x y h1 h2 => ⟨fun h => absurd h h2.ne, fun h => absurd h h1.ne⟩)
      (fun x y h1 h2 => ⟨fun h => absurd h h2.ne', fun h => absurd h h1.ne'⟩)) (.const _)) (.const _) ⟨⟨1, fun x _ => ?_⟩, ?_⟩
    · have : 0 ≤ |(x - c) / w| ^ (2 * s) := by positivity
      rw [abs_of_nonneg (by positivity), div_le_one (by linarith)]
      linarith
    · filter_upwards [(countable_singleton c).ae_notMem volume] with x hx _
      have hne : |(x - c) / w| ≠ 0 := abs_ne_zero.2 (div_ne_zero (sub_ne_zero.2 hx) hw)
      have h0 : ContinuousAt (fun x => |(x - c) / w|) x := by fun_prop
      refine ContinuousAt.div continuousAt_const (continuousAt_const.add (h0.rpow_const (Or.inl hne))) ?_
      have : 0 ≤ |(x - c) / w| ^ (2 * s) := by positivity
      linarith
  | binary s d =>
    show Tame a b fun x => if (s < d ∧ s < x + tol) ∨ (d < s ∧ x < s + tol) then 1 else 0
    exact .ite (Steady.or (Steady.and (.const _) (by steady (s - tol))) (Steady.and (.const _) (by steady (s + tol)))) (.const _) (.const _)
  | concave i e =>
    show Tame a b fun x => if i < e + tol then (if x + tol ≤ e then (e - i) / (2 * e - i - x) else 1)
      else (if e + tol ≤ x then (i - e) / (i - 2 * e + x) else 1)
    by_cases hi : i < e + tol
    · simp only [if_pos hi]
      have : Tame a b fun x => if x + tol ≤ e then (e - i) / (max (2 * e - i - x) (e - i + tol)) else 1 := by
        refine .ite (by steady (e - tol)) (.of_continuous ?_) (.const _)
        refine Continuous.div (by fun_prop) (by fun_prop) fun x => ?_
        exact (lt_of_lt_of_le (by linarith) (le_max_right _ _)).ne'
      refine this.congr fun x _ => ?_
      split
      · next h => rw [max_eq_left (by linarith)]
      · rfl
    · simp only [if_neg hi]
      have : Tame a b fun x => if e + tol ≤ x then (i - e) / (max (i - 2 * e + x) (i - e + tol)) else 1 := by
        refine .ite (by steady (e + tol)) (.of_continuous ?_) (.const _)
        refine Continuous.div (by fun_prop) (by fun_prop) fun x => ?_
        exact (lt_of_lt_of_le (by linarith) (le_max_right _ _)).ne'
      refine this.congr fun x _ => ?_
      split
      · next h => rw [max_eq_left (by linarith)]
      · rfl
  | cosine c w =>
    show Tame a b fun x => if x + tol ≤ c - 1/2 * w ∨ c + 1/2 * w + tol ≤ x then 0
      else 1/2 * (1 + Real.cos (2 / w * Real.pi * (x - c)))
    exact .ite (Steady.or (by steady (c - 1/2 * w - tol)) (by steady (c + 1/2 * w + tol))) (.const _) (.of_continuous (by fun_prop))
  | gaussian m s =>
    show Tame a b fun x => Real.exp (-(x - m) * (x - m) / (2 * s * s))
    exact .of_continuous (by fun_prop)
  | gaussianProduct mA sA mB sB =>
    show Tame a b fun x => (if x + tol ≤ mA then Real.exp (-(x - mA) * (x - mA) / (2 * sA * sA)) else 1) *
      (if mB + tol ≤ x then Real.exp (-(x - mB) * (x - mB) / (2 * sB * sB)) else 1)
    exact .mul (.ite (by steady (mA - tol)) (.of_continuous (by fun_prop)) (.const _))
      (.ite (by steady (mB + tol)) (.of_continuous (by fun_prop)) (.const _))
  | piShape bl tl tr br => exact .mul (tame_sUnit bl tl) (tame_zUnit tr br)
  | ramp s e =>
    show Tame a b fun x => if s + tol ≤ e then (if x < s + tol then 0 else if e < x + tol then 1 else (x - s) / (e - s))
      else (if s < x + tol then 0 else if x < e + tol then 1 else (s - x) / (s - e))
    exact .ite (.const _) (.ite (by steady (s + tol)) (.const _) (.ite (by steady (e - tol)) (.const _) (.of_continuous (by fun_prop))))
      (.ite (by steady (s - tol)) (.const _) (.ite (by steady (e + tol)) (.const _) (.of_continuous (by fun_prop))))
  | rectangle s e =>
    show Tame a b fun x => if s < x + tol ∧ x < e + tol then 1 else 0
    exact .ite (Steady.and (by steady (s - tol)) (by steady (e + tol))) (.const _) (.const _)
  | sigmoid i s =>
    show Tame a b fun x => 1 / (1 + Real.exp (-s * (x - i)))
    exact .of_continuous (Continuous.div (by fun_prop) (by fun_prop) fun x => Shape.exp_add_ne _)
  | sigmoidDifference l r f rt =>
    show Tame a b fun x => |1 / (1 + Real.exp (-r * (x - l))) - 1 / (1 + Real.exp (-f * (x - rt)))|
    exact .of_continuous ((Continuous.sub (Continuous.div (by fun_prop) (by fun_prop) fun x => Shape.exp_add_ne _)
      (Continuous.div (by fun_prop) (by fun_prop) fun x => Shape.exp_add_ne _)).abs)
  | sigmoidProduct l r f rt =>
    show Tame a b fun x => 1 / ((1 + Real.exp (-r * (x - l))) * (1 + Real.exp (-f * (x - rt))))
    exact .of_continuous (Continuous.div (by fun_prop) (by fun_prop) fun x => mul_ne_zero (Shape.exp_add_ne _) (Shape.exp_add_ne _))
  | spike c w =>
    show Tame a b fun x => Real.exp (-|10 / w * (x - c)|)
    exact .of_continuous (by fun_prop)
  | sShape s e => exact tame_sUnit s e
  | trapezoid p q r t =>
    show Tame a b fun x => if x + tol ≤ p ∨ t + tol ≤ x then 0
      else if x + tol ≤ q then Min.min 1 ((x - p) / (q - p))
      else if x < r + tol then 1
      else if x + tol ≤ t then (t - x) / (t - r)
      else 0
    exact .ite (Steady.or (by steady (p - tol)) (by steady (t + tol))) (.const _)
      (.ite (by steady (q - tol)) (.of_continuous (by fun_prop)) (.ite (by steady (r + tol)) (.const _)
        (.ite (by steady (t - tol)) (.of_continuous (by fun_prop)) (.const _))))
  | triangle p q r =>
    show Tame a b fun x => if x + tol ≤ p ∨ r + tol ≤ x then 0
      else if |x - q| < tol then 1
      else if x + tol ≤ q then (x - p) / (q - p)
      else (r - x) / (r - q)
    have h : Steady fun x => |x - q| < tol := by
      simp only [abs_lt]
      exact Steady.and (by steady (q - tol)) (by steady (q + tol))
    exact .ite (Steady.or (by steady (p - tol)) (by steady (r + tol))) (.const _) (.ite h (.const _)
      (.ite (by steady (q - tol)) (.of_continuous (by fun_prop)) (.of_continuous (by fun_prop))))
  | zShape s e => exact tame_zUnit s e

/-! ### fuzzy sets -/

/-- T-norms that are continuous at all numbers, not just at degrees -/
def contT : List TNormKind := [.algebraicProduct, .boundedDifference, .minimum]

/-- S-norms that are continuous at all numbers, not just at degrees -/
def contS : List SNormKind := [.algebraicSum, .boundedSum, .maximum, .normalizedSum, .unboundedSum]

theorem contT_compute (k : TNormKind) (hk : k ∈ contT) (u v : ℝ) : k.compute (fin u) (fin v) = fin (k.real u v) := by
  simp only [contT, List.mem_cons, List.not_mem_nil, or_false] at hk
  rcases hk with rfl | rfl | rfl <;> simp only [TNormKind.compute, TNormKind.real, mul_fin, add_fin, sub_fin, ofRat_def,
    Rat.cast_zero, Rat.cast_one, max_fin, min_fin]

theorem contT_continuous (k : TNormKind) (hk : k ∈ contT) : Continuous fun p : ℝ × ℝ => k.real p.1 p.2 := by
  simp only [contT, List.mem_cons, List.not_mem_nil, or_false] at hk
  rcases hk with rfl | rfl | rfl <;> simp only [TNormKind.real] <;> fun_prop

theorem contS_compute (k : SNormKind) (hk : k ∈ contS) (u v : ℝ) : k.compute (fin u) (fin v) = fin (k.real u v) := by
  simp only [contS, List.mem_cons, List.not_mem_nil, or_false] at hk
  rcases hk with rfl | rfl | rfl | rfl | rfl <;> simp only [SNormKind.compute, SNormKind.real, mul_fin, add_fin, sub_fin, ofRat_def,
    Rat.cast_zero, Rat.cast_one, max_fin, min_fin]
  rw [div_fin _ _ (lt_of_lt_of_le one_pos (le_max_left _ _)).ne']
  rcases le_total 1 (u + v) with h | h
  · rw [max_eq_right h, min_eq_left h, div_self (by linarith)]
  · rw [max_eq_left h, min_eq_right h, div_one]

theorem contS_continuous (k : SNormKind) (hk : k ∈ contS) : Continuous fun p : ℝ × ℝ => k.real p.1 p.2 := by
  simp only [contS, List.mem_cons, List.not_mem_nil, or_false] at hk
  rcases hk with rfl | rfl | rfl | rfl | rfl <;> simp only [SNormKind.real] <;> fun_prop

/-- an activated shape of finite parameters, height and degree, with a continuous implication -/
def Plain (t : Activated (Ext ℝ)) : Prop :=
  ∃ (sh : Shape ℝ) (h d : ℝ) (k : TNormKind), sh.Ordered ∧ k ∈ contT ∧ t.term.kind = .shape (sh.map fin) ∧
    t.term.height = fin h ∧ t.degree = fin d ∧ t.implication = some (.builtin k)

theorem Plain.tame (ctx : Ctx (Ext ℝ)) {t : Activated (Ext ℝ)} (ht : Plain t) :
    ∃ f : ℝ → ℝ, Tame a b f ∧ ∀ x, t.membership ctx (fin x) = .ok (fin (f x)) := by
  obtain ⟨sh, h, d, k, hw, hk, h1, h2, h3, h4⟩ := ht
  refine ⟨fun x => k.real (h * sh.unit x) d, .op (contT_continuous k hk) (.mul (.const _) (tame_unit sh hw)) (.const _), fun x => ?_⟩
  simp only [Activated.membership, isNaN_fin, h4, Term.membership, h1, h2, h3, Shape.membership_fin sh hw]
  simp [TNorm.compute, contT_compute k hk, Bind.bind, Except.bind]

/-- the membership function of a fuzzy set of such terms is bounded and continuous almost everywhere -/
theorem aggregated_tame (ctx : Ctx (Ext ℝ)) (g : Aggregated (Ext ℝ)) (k : SNormKind) (hk : k ∈ contS)
    (hg : g.aggregation = some (.builtin k)) (ht : ∀ t ∈ g.terms, Plain t) :
    ∃ f : ℝ → ℝ, Tame a b f ∧ ∀ x, g.membership ctx (fin x) = .ok (fin (f x)) := by
  have key : ∀ (ts : List (Activated (Ext ℝ))) (f0 : ℝ → ℝ), Tame a b f0 → (∀ t ∈ ts, Plain t) →
      ∃ f : ℝ → ℝ, Tame a b f ∧ ∀ x, ts.foldlM (fun mu t => do
        let y ← t.membership ctx (fin x)
        (SNorm.builtin k).compute mu y) (fin (f0 x)) = (.ok (fin (f x)) : Except Err (Ext ℝ)) := by
    intro ts
    induction ts with
    | nil => exact fun f0 h0 _ => ⟨f0, h0, fun x => rfl⟩
    | cons t ts ih =>
      intro f0 h0 hts
      obtain ⟨f1, h1, e1⟩ := (hts t List.mem_cons_self).tame (a := a) (b := b) ctx
      obtain ⟨f, h, e⟩ := ih (fun x => k.real (f0 x) (f1 x)) (.op (contS_continuous k hk) h0 h1)
        fun t' h' => hts t' (List.mem_cons_of_mem _ h')
      refine ⟨f, h, fun x => ?_⟩
      rw [List.foldlM_cons, e1 x]
      have := e x
      rw [← contS_compute k hk] at this
      exact this
  obtain ⟨f, h, e⟩ := key g.terms (fun _ => 0) (.const 0) ht
  refine ⟨f, h, fun x => ?_⟩
  have := e x
  simp only [Aggregated.membership, isNaN_fin, hg]
  simpa using this

/-! ### C94: centroids and bisectors -/

/-- the `Centroid` of a function that is bounded and continuous almost everywhere converges, as the
resolution grows, to its centre of gravity. -/
theorem centroid_tendsto (mu : Ext ℝ → Except Err (Ext ℝ)) (f : ℝ → ℝ) (hab : a < b) (hf : Tame a b f)
    (hmu : ∀ x ∈ Ioo a b, mu (fin x) = .ok (fin (f x))) (h0 : ∫ x in a..b, f x ≠ 0) (ε : ℝ) (hε : 0 < ε) :
    ∀ᶠ n : ℕ in atTop, ∃ v, Integral.defuzzify .centroid (n : Int) mu (fin a) (fin b) = .ok (fin v) ∧
      |v - (∫ x in a..b, x * f x) / ∫ x in a..b, f x| < ε := by
  have s0 := hf.sum hab
  have s1 := (Tame.id.mul hf).sum hab
  have s2 := Metric.tendsto_nhds.1 (s1.div s0 h0) ε hε
  filter_upwards [s0.eventually_ne h0, s2, eventually_gt_atTop 0] with n hn h2 hn0
  refine ⟨_, Integral.centroid_value mu a b n (fun i => f (point a b n i))
      (fun i hi => hmu _ (Integral.point_inside a b hab n i hi)) (left_ne_zero_of_mul hn), ?_⟩
  have : ((b - a) / n : ℝ) ≠ 0 := div_ne_zero (by linarith) (by exact_mod_cast hn0.ne')
  rw [Pi.div_apply, mul_div_mul_right _ _ this, Real.dist_eq] at h2
  simpa only [mul_comm] using h2

/-- the mean of numbers near `m` is near `m` -/
theorem mean_near (xs : List ℝ) (hne : xs ≠ []) (m δ : ℝ) (h : ∀ x ∈ xs, |x - m| < δ) : |xs.sum / xs.length - m| < δ := by
  have hl : 0 < (xs.length : ℝ) := by exact_mod_cast List.length_pos_iff.2 hne
  have key : ∀ ys : List ℝ, (∀ x ∈ ys, |x - m| < δ) → |ys.sum - ys.length * m| ≤ ys.length * δ ∧ (ys ≠ [] → |ys.sum - ys.length * m| < ys.length * δ) := by
    intro ys
    induction ys with
    | nil => simp
    | cons y ys ih =>
      intro hy
      have h1 := hy y List.mem_cons_self
      have h2 := (ih fun x hx => hy x (List.mem_cons_of_mem _ hx)).1
      have h3 : |(y :: ys).sum - (y :: ys).length * m| < (y :: ys).length * δ := by
        rw [List.sum_cons, List.length_cons]
        push_cast
        rw [abs_lt] at *
        rw [abs_le] at h2
        constructor <;> nlinarith [h1.1, h1.2, h2.1, h2.2]
      exact ⟨h3.le, fun _ => h3⟩
  have := (key xs h).2 hne
  have e : xs.sum / xs.length - m = (xs.sum - xs.length * m) / xs.length := by field_simp
  rw [e, abs_div, abs_of_pos hl, div_lt_iff₀ hl]
  linarith

/-- the `Bisector` of a function that is bounded and continuous almost everywhere converges, as the
resolution grows, to the place that halves its area, if there is just one. -/
theorem bisector_tendsto (mu : Ext ℝ → Except Err (Ext ℝ)) (f : ℝ → ℝ) (hab : a < b) (hf : Tame a b f)
    (hmu : ∀ x ∈ Ioo a b, mu (fin x) = .ok (fin (f x))) (h0 : ∫ x in a..b, f x ≠ 0) (m : ℝ) (hm : m ∈ Icc a b)
    (he : ∫ x in a..m, f x = (∫ x in a..b, f x) / 2)
    (hu : ∀ x ∈ Icc a b, ∫ t in a..x, f t = (∫ t in a..b, f t) / 2 → x = m) (ε : ℝ) (hε : 0 < ε) :
    ∀ᶠ n : ℕ in atTop, ∃ v, Integral.defuzzify .bisector (n : Int) mu (fin a) (fin b) = .ok (fin v) ∧ |v - m| < ε := by
  set A := ∫ x in a..b, f x with hA
  set H : ℝ → ℝ := fun x => |(∫ t in a..x, f t) - A / 2| with hH
  have hcont : ContinuousOn H (Icc a b) := by
    have := intervalIntegral.continuousOn_primitive_interval' (hf.integrable hab) (a := a) left_mem_uIcc
    rw [uIcc_of_le hab.le] at this
    exact (this.sub continuousOn_const).abs
  -- away from `m` the areas differ
  obtain ⟨c, hc, hc'⟩ : ∃ c > 0, ∀ x ∈ Icc a b, H x < c → |x - m| < ε / 2 := by
    have hK : IsCompact (Icc a b ∩ {x | ε / 2 ≤ |x - m|}) :=
      isCompact_Icc.inter_right (isClosed_le continuous_const (by fun_prop))
    rcases (Icc a b ∩ {x | ε / 2 ≤ |x - m|}).eq_empty_or_nonempty with h | h
    · refine ⟨1, one_pos, fun x hx _ => ?_⟩
      by_contra hc
      exact (h ▸ (⟨hx, not_lt.1 hc⟩ : x ∈ Icc a b ∩ {x | ε / 2 ≤ |x - m|}) : x ∈ (∅ : Set ℝ))
    · obtain ⟨z, hz, hmin⟩ := hK.exists_isMinOn h (hcont.mono inter_subset_left)
      refine ⟨H z, ?_, fun x hx hlt => ?_⟩
      · refine abs_pos.2 fun h1 => ?_
        have := hu z hz.1 (by linarith)
        have h2 : ε / 2 ≤ |z - m| := hz.2
        rw [this, sub_self, abs_zero] at h2
        linarith
      · by_contra hc
        exact absurd (hmin ⟨hx, not_lt.1 hc⟩) (not_le.2 hlt)
  have hHm : H m = 0 := by simp only [hH, he, sub_self, abs_zero]
  obtain ⟨ρ, hρ, hρ'⟩ := Metric.continuousOn_iff.1 hcont m hm (c / 4) (by linarith)
  have hdx : ∀ᶠ n : ℕ in atTop, (b - a) / n < min ρ (ε / 2) :=
    (tendsto_const_div_atTop_nhds_zero_nat (b - a)).eventually_lt_const (lt_min hρ (by linarith))
  have hδ : ∀ᶠ n : ℕ in atTop, ∫ x in a..b, |f (mid a b n x) - f x| < c / 16 :=
    (hf.near hab).eventually_lt_const (by linarith)
  filter_upwards [(hf.sum hab).eventually_ne h0, hdx, hδ, eventually_gt_atTop 0] with n hs hd hδ hn
  obtain ⟨is, -, hne, his, hv⟩ := Integral.bisector_value mu a b n (fun i => f (point a b n i))
    (fun i hi => hmu _ (Integral.point_inside a b hab n i hi)) (left_ne_zero_of_mul hs)
  refine ⟨_, hv, ?_⟩
  have hn' : (0 : ℝ) < n := Nat.cast_pos.2 hn
  have hdp : 0 < (b - a) / n := div_pos (by linarith) hn'
  have e1 : a + (n : ℝ) * ((b - a) / n) = b := by field_simp; ring
  have hall := hf.part hab n hn n le_rfl
  rw [e1] at hall
  -- the areas of the cells are near the areas below their ends
  have hnear : ∀ i < n, abs (|(∑ k ∈ Finset.range (i + 1), f (point a b n k)) - (∑ k ∈ Finset.range n, f (point a b n k)) / 2| *
      ((b - a) / n) - H (a + (i + 1) * ((b - a) / n))) ≤ c / 8 := by
    intro i hi
    have h1 := hf.part hab n hn (i + 1) hi
    push_cast at h1
    rw [← abs_of_pos hdp, ← abs_mul, abs_of_pos hdp]
    refine (abs_abs_sub_abs_le _ _).trans ?_
    have : ∀ p q P Q d : ℝ, |p * d - P| < c / 16 → |q * d - Q| < c / 16 → |(p - q / 2) * d - (P - Q / 2)| ≤ c / 8 := by
      intro p q P Q d h1 h2
      rw [abs_lt] at h1 h2
      rw [abs_le]
      constructor <;> nlinarith [h1.1, h1.2, h2.1, h2.2]
    exact this _ _ _ _ _ (h1.trans_lt hδ) (hall.trans_lt hδ)
  have hend : ∀ i < n, a + ((i : ℝ) + 1) * ((b - a) / n) ∈ Icc a b := by
    intro i hi
    have : (i : ℝ) + 1 ≤ n := by exact_mod_cast hi
    constructor
    · have : (0 : ℝ) ≤ (i + 1) * ((b - a) / n) := by positivity
      linarith
    · nlinarith
  -- some cell ends near `m`
  obtain ⟨j, hj, hjm⟩ : ∃ j < n, |a + ((j : ℝ) + 1) * ((b - a) / n) - m| ≤ (b - a) / n := by
    rcases eq_or_lt_of_le hm.1 with h | h
    · refine ⟨0, hn, ?_⟩
      rw [← h]
      push_cast
      rw [abs_of_nonneg] <;> linarith
    rcases eq_or_lt_of_le hm.2 with h' | h'
    · refine ⟨n - 1, by omega, ?_⟩
      have : ((n - 1 : ℕ) : ℝ) + 1 = n := by
        rw [Nat.cast_sub hn]
        push_cast
        ring
      rw [this, e1, h', sub_self, abs_zero]
      exact hdp.le
    · obtain ⟨j, hj, h1, h2⟩ := exists_cell a b hab n hn m ⟨h, h'⟩
      refine ⟨j, hj, ?_⟩
      rw [abs_le]
      constructor <;> nlinarith
  have hHj : H (a + ((j : ℝ) + 1) * ((b - a) / n)) < c / 4 := by
    have := hρ' _ (hend j hj) (by rw [Real.dist_eq]; exact hjm.trans_lt (hd.trans_le (min_le_left _ _)))
    rw [hHm, Real.dist_eq, sub_zero] at this
    exact (le_abs_self _).trans_lt this
  rw [← List.length_map (f := point a b n)]
  refine mean_near _ (by simpa using hne) m ε fun x hx => ?_
  obtain ⟨i, hi, rfl⟩ := List.mem_map.1 hx
  obtain ⟨hin, hmin⟩ := (his i).1 hi
  have h1 := mul_le_mul_of_nonneg_right (hmin j hj) hdp.le
  have h2 := abs_le.1 (hnear i hin)
  have h3 := abs_le.1 (hnear j hj)
  have h4 := hc' _ (hend i hin) (by linarith [h2.1, h3.2])
  have h5 : point a b n i = a + ((i : ℝ) + 1) * ((b - a) / n) - (b - a) / n / 2 := by
    unfold point
    ring
  have h6 := hd.trans_le (min_le_right ρ (ε / 2))
  rw [h5]
  rw [abs_lt] at h4 ⊢
  constructor <;> linarith [h4.1, h4.2]

/-- what the defuzzifiers of maxima yield: the first, the last, and the mean of the samples of greatest membership -/
theorem maxima_value (mu : Ext ℝ → Except Err (Ext ℝ)) (f : ℝ → ℝ) (hab : a < b)
    (hmu : ∀ x ∈ Ioo a b, mu (fin x) = .ok (fin (f x))) (n : ℕ) (hn : 0 < n) :
    ∃ is : List ℕ, is.Nodup ∧ (∀ i, i ∈ is ↔ i < n ∧ ∀ j < n, f (point a b n j) ≤ f (point a b n i)) ∧ is ≠ [] ∧
    (∃ i ∈ is, (∀ j ∈ is, i ≤ j) ∧
      Integral.defuzzify .smallestOfMaximum (n : Int) mu (fin a) (fin b) = .ok (fin (point a b n i))) ∧
    (∃ i ∈ is, (∀ j ∈ is, j ≤ i) ∧
      Integral.defuzzify .largestOfMaximum (n : Int) mu (fin a) (fin b) = .ok (fin (point a b n i))) ∧
    Integral.defuzzify .meanOfMaximum (n : Int) mu (fin a) (fin b) = .ok (fin ((is.map (point a b n)).sum / is.length)) := by
  obtain ⟨is, s, mn, l, hsub, hmem, ⟨i, hi, rfl⟩, ⟨j, hj, rfl⟩, rfl, h1, h2, h3, -⟩ :=
    Integral.maximum_order mu a b hab n hn (fun i => f (point a b n i)) fun i hi => hmu _ (Integral.point_inside a b hab n i hi)
  have hs : is.Pairwise (· < ·) := List.pairwise_lt_range.sublist hsub
  have hi' : i ∈ is := List.mem_of_head? hi
  have hj' : j ∈ is := List.mem_of_getLast? hj
  refine ⟨is, hs.imp fun h => h.ne, hmem, List.ne_nil_of_mem hi', ⟨i, hi', ?_, h1⟩, ⟨j, hj', ?_, h3⟩, h2⟩
  · cases is with
    | nil => simp at hi
    | cons x xs =>
      simp only [List.head?_cons, Option.some.injEq] at hi
      subst hi
      intro k hk
      rcases List.mem_cons.1 hk with rfl | hk
      · exact le_rfl
      · exact (List.rel_of_pairwise_cons hs hk).le
  · obtain ⟨ys, rfl⟩ := List.getLast?_eq_some_iff.1 hj
    intro k hk
    rcases List.mem_append.1 hk with hk | hk
    · exact (List.pairwise_append.1 hs).2.2 k hk j (by simp) |>.le
    · simp only [List.mem_singleton] at hk
      exact hk.le

/-- the mean of neighbouring samples is the middle of the first and the last -/
theorem mean_run (a b : ℝ) (n : ℕ) (is : List ℕ) (hnd : is.Nodup) (i j : ℕ) (hij : i ≤ j) (h : ∀ k, k ∈ is ↔ i ≤ k ∧ k ≤ j) :
    (is.map (point a b n)).sum / is.length = (point a b n i + point a b n j) / 2 := by
  have e : is.toFinset = Finset.Icc i j := by
    ext k
    rw [List.mem_toFinset, h, Finset.mem_Icc]
  rw [← List.sum_toFinset _ hnd, ← List.toFinset_card_of_nodup hnd, e]
  have hc : (0 : ℝ) < (Finset.Icc i j).card := by
    rw [Nat.card_Icc]
    exact_mod_cast (by omega : 0 < j + 1 - i)
  have hflip : ∑ k ∈ Finset.Icc i j, point a b n (i + j - k) = ∑ k ∈ Finset.Icc i j, point a b n k := by
    refine Finset.sum_nbij' (fun k => i + j - k) (fun k => i + j - k) ?_ ?_ ?_ ?_ ?_
    all_goals intro k hk; rw [Finset.mem_Icc] at *
    · omega
    · omega
    · omega
    · omega
  have hsum : ∑ k ∈ Finset.Icc i j, (point a b n k + point a b n (i + j - k)) =
      (Finset.Icc i j).card * (point a b n i + point a b n j) := by
    rw [← nsmul_eq_mul, ← Finset.sum_const]
    refine Finset.sum_congr rfl fun k hk => ?_
    rw [Finset.mem_Icc] at hk
    unfold point
    rw [Nat.cast_sub (by omega)]
    push_cast
    ring
  rw [Finset.sum_add_distrib, hflip] at hsum
  rw [div_eq_div_iff hc.ne' two_ne_zero]
  linarith

/-- the defuzzifiers of maxima of a function that is greatest between `p` and `q` only converge to `p`, `q`, and the
middle, as the resolution grows -/
theorem plateau_tendsto (mu : Ext ℝ → Except Err (Ext ℝ)) (f : ℝ → ℝ) (hab : a < b)
    (hmu : ∀ x ∈ Ioo a b, mu (fin x) = .ok (fin (f x))) (p q c : ℝ) (hpq : p < q) (hp : a ≤ p) (hq : q ≤ b)
    (hc : ∀ x ∈ Ioo p q, f x = c) (hle : ∀ x ∈ Ioo a b, f x ≤ c) (hlt : ∀ x ∈ Ioo a b, x < p ∨ q < x → f x < c)
    (ε : ℝ) (hε : 0 < ε) :
    ∀ᶠ n : ℕ in atTop, ∃ s l m, Integral.defuzzify .smallestOfMaximum (n : Int) mu (fin a) (fin b) = .ok (fin s) ∧
      Integral.defuzzify .largestOfMaximum (n : Int) mu (fin a) (fin b) = .ok (fin l) ∧
      Integral.defuzzify .meanOfMaximum (n : Int) mu (fin a) (fin b) = .ok (fin m) ∧
      |s - p| < ε ∧ |l - q| < ε ∧ |m - (p + q) / 2| < ε := by
  have hdx : ∀ᶠ n : ℕ in atTop, (b - a) / n < min ((q - p) / 2) ε :=
    (tendsto_const_div_atTop_nhds_zero_nat (b - a)).eventually_lt_const (lt_min (by linarith) hε)
  filter_upwards [hdx, eventually_gt_atTop 0] with n hd hn
  have hn' : (0 : ℝ) < n := Nat.cast_pos.2 hn
  have hdp : 0 < (b - a) / n := div_pos (by linarith) hn'
  set d := (b - a) / n with hdef
  have hd1 := hd.trans_le (min_le_left _ _)
  have hd2 := hd.trans_le (min_le_right _ _)
  -- samples near every place
  have near : ∀ x ∈ Ioo a b, ∃ i < n, |point a b n i - x| ≤ d / 2 := by
    intro x hx
    obtain ⟨i, hi, h1, h2⟩ := exists_cell a b hab n hn x hx
    refine ⟨i, hi, ?_⟩
    unfold point
    rw [abs_le]
    constructor <;> linarith
  obtain ⟨is, hnd, hmem, hne, ⟨i, hi, hi', hs⟩, ⟨j, hj, hj', hl⟩, hm⟩ := maxima_value mu f hab hmu n hn
  have mono : ∀ u v, u ≤ v → point a b n u ≤ point a b n v := by
    intro u v huv
    have : (u : ℝ) ≤ v := by exact_mod_cast huv
    unfold point
    nlinarith
  have mem : ∀ i < n, point a b n i ∈ Ioo p q → i ∈ is := by
    intro i hi hx
    rw [hmem]
    refine ⟨hi, fun j hj => ?_⟩
    simp only [hc _ hx]
    exact hle _ (Integral.point_inside a b hab n j hj)
  obtain ⟨z, hz, hz'⟩ := near ((p + q) / 2) ⟨by linarith, by linarith⟩
  rw [abs_le] at hz'
  have hzm := mem z hz ⟨by linarith, by linarith⟩
  have inside : ∀ i ∈ is, i < n ∧ p ≤ point a b n i ∧ point a b n i ≤ q := by
    intro i hi
    obtain ⟨h1, h2⟩ := (hmem i).1 hi
    refine ⟨h1, ?_⟩
    by_contra h
    have h3 := hlt _ (Integral.point_inside a b hab n i h1) (by
      by_contra h'
      push Not at h'
      exact h h')
    have h4 := h2 z hz
    simp only [hc _ (show point a b n z ∈ Ioo p q from ⟨by linarith, by linarith⟩)] at h4
    linarith
  have bi := inside i hi
  have bj := inside j hj
  -- the first is near `p`
  have ki : |point a b n i - p| < ε := by
    obtain ⟨k, hk, hk'⟩ := near (p + d / 2 + (ε - d) / 4 ⊓ ((q - p) / 2 - d)) ⟨by
      have : 0 < (ε - d) / 4 ⊓ ((q - p) / 2 - d) := lt_min (by linarith) (by linarith)
      linarith, by
      have : (ε - d) / 4 ⊓ ((q - p) / 2 - d) ≤ (q - p) / 2 - d := inf_le_right
      linarith⟩
    have h0 : 0 < (ε - d) / 4 ⊓ ((q - p) / 2 - d) := lt_min (by linarith) (by linarith)
    have h1 : (ε - d) / 4 ⊓ ((q - p) / 2 - d) ≤ (q - p) / 2 - d := inf_le_right
    have h2 : (ε - d) / 4 ⊓ ((q - p) / 2 - d) ≤ (ε - d) / 4 := inf_le_left
    rw [abs_le] at hk'
    have := mono _ _ <| hi' k (mem k hk ⟨by linarith, by linarith⟩)
    rw [abs_of_nonneg (by linarith [bi.2.1])]
    linarith
  have kj : |point a b n j - q| < ε := by
    obtain ⟨k, hk, hk'⟩ := near (q - d / 2 - (ε - d) / 4 ⊓ ((q - p) / 2 - d)) ⟨by
      have : (ε - d) / 4 ⊓ ((q - p) / 2 - d) ≤ (q - p) / 2 - d := inf_le_right
      linarith, by
      have : 0 < (ε - d) / 4 ⊓ ((q - p) / 2 - d) := lt_min (by linarith) (by linarith)
      linarith⟩
    have h0 : 0 < (ε - d) / 4 ⊓ ((q - p) / 2 - d) := lt_min (by linarith) (by linarith)
    have h1 : (ε - d) / 4 ⊓ ((q - p) / 2 - d) ≤ (q - p) / 2 - d := inf_le_right
    have h2 : (ε - d) / 4 ⊓ ((q - p) / 2 - d) ≤ (ε - d) / 4 := inf_le_left
    rw [abs_le] at hk'
    have := mono _ _ <| hj' k (mem k hk ⟨by linarith, by linarith⟩)
    rw [abs_of_nonpos (by linarith [bj.2.2])]
    linarith
  have hmean := mean_run a b n is hnd i j (hi' j hj) fun k => ⟨fun hk => ⟨hi' k hk, hj' k hk⟩, fun hk => by
    rcases eq_or_lt_of_le hk.1 with rfl | h1
    · exact hi
    rcases eq_or_lt_of_le hk.2 with rfl | h2
    · exact hj
    · have h3 := Integral.point_lt a b hab n i k hn h1
      have h4 := Integral.point_lt a b hab n k j hn h2
      exact mem k (h2.trans bj.1) ⟨bi.2.1.trans_lt h3, h4.trans_le bj.2.2⟩⟩
  refine ⟨_, _, _, hs, hl, hm, ki, kj, ?_⟩
  rw [hmean]
  rw [abs_lt] at ki kj ⊢
  constructor <;> linarith [ki.1, ki.2, kj.1, kj.2]

/-- the defuzzifiers of maxima of a continuous function with just one place of greatest value converge to that place -/
theorem peak_tendsto (mu : Ext ℝ → Except Err (Ext ℝ)) (f : ℝ → ℝ) (hab : a < b)
    (hmu : ∀ x ∈ Ioo a b, mu (fin x) = .ok (fin (f x))) (hf : ContinuousOn f (Icc a b)) (m : ℝ) (hm : m ∈ Icc a b)
    (hlt : ∀ x ∈ Icc a b, x ≠ m → f x < f m) (k : IntegralKind) (hk : k ≠ .centroid ∧ k ≠ .bisector) (ε : ℝ) (hε : 0 < ε) :
    ∀ᶠ n : ℕ in atTop, ∃ v, Integral.defuzzify k (n : Int) mu (fin a) (fin b) = .ok (fin v) ∧ |v - m| < ε := by
  -- away from `m` the values are smaller
  obtain ⟨c, hc, hc'⟩ : ∃ c < f m, ∀ x ∈ Icc a b, c < f x → |x - m| < ε := by
    have hK : IsCompact (Icc a b ∩ {x | ε ≤ |x - m|}) :=
      isCompact_Icc.inter_right (isClosed_le continuous_const (by fun_prop))
    rcases (Icc a b ∩ {x | ε ≤ |x - m|}).eq_empty_or_nonempty with h | h
    · refine ⟨f m - 1, by linarith, fun x hx _ => ?_⟩
      by_contra hc
      exact (h ▸ (⟨hx, not_lt.1 hc⟩ : x ∈ Icc a b ∩ {x | ε ≤ |x - m|}) : x ∈ (∅ : Set ℝ))
    · obtain ⟨z, hz, hmax⟩ := hK.exists_isMaxOn h (hf.mono inter_subset_left)
      refine ⟨f z, hlt z hz.1 fun h1 => ?_, fun x hx hlt => ?_⟩
      · have h2 : ε ≤ |z - m| := hz.2
        rw [h1, sub_self, abs_zero] at h2
        linarith
      · by_contra hc
        exact absurd (hmax ⟨hx, not_lt.1 hc⟩) (not_le.2 hlt)
  obtain ⟨ρ, hρ, hρ'⟩ := Metric.continuousOn_iff.1 hf m hm (f m - c) (by linarith)
  have hdx : ∀ᶠ n : ℕ in atTop, (b - a) / n < ρ :=
    (tendsto_const_div_atTop_nhds_zero_nat (b - a)).eventually_lt_const hρ
  filter_upwards [hdx, eventually_gt_atTop 0] with n hd hn
  have hn' : (0 : ℝ) < n := Nat.cast_pos.2 hn
  have hdp : 0 < (b - a) / n := div_pos (by linarith) hn'
  have e1 : a + (n : ℝ) * ((b - a) / n) = b := by field_simp; ring
  obtain ⟨j, hj, hjm⟩ : ∃ j < n, |point a b n j - m| ≤ (b - a) / n := by
    rcases eq_or_lt_of_le hm.1 with h | h
    · refine ⟨0, hn, ?_⟩
      rw [← h]
      unfold point
      push_cast
      rw [abs_of_nonneg] <;> linarith
    rcases eq_or_lt_of_le hm.2 with h' | h'
    · refine ⟨n - 1, by omega, ?_⟩
      have : ((n - 1 : ℕ) : ℝ) = n - 1 := by
        rw [Nat.cast_sub hn]
        push_cast
        ring
      unfold point
      rw [this, h', abs_le]
      constructor <;> nlinarith
    · obtain ⟨j, hj, h1, h2⟩ := exists_cell a b hab n hn m ⟨h, h'⟩
      refine ⟨j, hj, ?_⟩
      unfold point
      rw [abs_le]
      constructor <;> nlinarith
  have hfj : c < f (point a b n j) := by
    have := hρ' _ (Ioo_subset_Icc_self (Integral.point_inside a b hab n j hj)) (by rw [Real.dist_eq]; exact hjm.trans_lt hd)
    rw [Real.dist_eq, abs_lt] at this
    linarith [this.1]
  obtain ⟨is, -, hmem, hne, ⟨i, hi, -, hs⟩, ⟨l, hl, -, hl'⟩, hm'⟩ := maxima_value mu f hab hmu n hn
  have near : ∀ i ∈ is, |point a b n i - m| < ε := by
    intro i hi
    obtain ⟨h1, h2⟩ := (hmem i).1 hi
    exact hc' _ (Ioo_subset_Icc_self (Integral.point_inside a b hab n i h1)) (hfj.trans_le (h2 j hj))
  cases k with
  | centroid => exact absurd rfl hk.1
  | bisector => exact absurd rfl hk.2
  | smallestOfMaximum => exact ⟨_, hs, near i hi⟩
  | largestOfMaximum => exact ⟨_, hl', near l hl⟩
  | meanOfMaximum =>
    refine ⟨_, hm', ?_⟩
    rw [← List.length_map (f := point a b n)]
    refine mean_near _ (by simpa using hne) m ε fun x hx => ?_
    obtain ⟨i, hi, rfl⟩ := List.mem_map.1 hx
    exact near i hi

/-- C94: the `Centroid` of a fuzzy set of activated shapes converges, as the resolution grows, to the
centre of gravity of the set. -/
theorem centroid_converges (ctx : Ctx (Ext ℝ)) (g : Aggregated (Ext ℝ)) (k : SNormKind) (hk : k ∈ contS)
    (hg : g.aggregation = some (.builtin k)) (ht : ∀ t ∈ g.terms, Plain t) (hab : a < b) (f : ℝ → ℝ)
    (hf : ∀ x ∈ Ioo a b, g.membership ctx (fin x) = .ok (fin (f x))) (h0 : ∫ x in a..b, f x ≠ 0) (ε : ℝ) (hε : 0 < ε) :
    ∃ N : ℕ, ∀ n : ℕ, N ≤ n → ∃ v,
      Defuzzifier.defuzzify ctx (.integral .centroid (n : Int)) g (fin a) (fin b) = .ok (fin v) ∧
      |v - (∫ x in a..b, x * f x) / ∫ x in a..b, f x| < ε := by
  obtain ⟨f', h', e'⟩ := aggregated_tame (a := a) (b := b) ctx g k hk hg ht
  refine eventually_atTop.1 (centroid_tendsto (g.membership ctx) f hab (h'.congr fun x hx => ?_) hf h0 ε hε)
  have := (hf x hx).symm.trans (e' x)
  simpa using this

/-- C94: the `Bisector` of a fuzzy set of activated shapes converges, as the resolution grows, to the
only place that halves the area of the set. -/
theorem bisector_converges (ctx : Ctx (Ext ℝ)) (g : Aggregated (Ext ℝ)) (k : SNormKind) (hk : k ∈ contS)
    (hg : g.aggregation = some (.builtin k)) (ht : ∀ t ∈ g.terms, Plain t) (hab : a < b) (f : ℝ → ℝ)
    (hf : ∀ x ∈ Ioo a b, g.membership ctx (fin x) = .ok (fin (f x))) (h0 : ∫ x in a..b, f x ≠ 0) (m : ℝ) (hm : m ∈ Icc a b)
    (he : ∫ x in a..m, f x = (∫ x in a..b, f x) / 2)
    (hu : ∀ x ∈ Icc a b, ∫ t in a..x, f t = (∫ t in a..b, f t) / 2 → x = m) (ε : ℝ) (hε : 0 < ε) :
    ∃ N : ℕ, ∀ n : ℕ, N ≤ n → ∃ v,
      Defuzzifier.defuzzify ctx (.integral .bisector (n : Int)) g (fin a) (fin b) = .ok (fin v) ∧ |v - m| < ε := by
  obtain ⟨f', h', e'⟩ := aggregated_tame (a := a) (b := b) ctx g k hk hg ht
  refine eventually_atTop.1 (bisector_tendsto (g.membership ctx) f hab (h'.congr fun x hx => ?_) hf h0 m hm he hu ε hε)
  have := (hf x hx).symm.trans (e' x)
  simpa using this

/-- C94: the membership functions of such fuzzy sets are numbers everywhere, and have integrals. -/
theorem membership_integrable (ctx : Ctx (Ext ℝ)) (g : Aggregated (Ext ℝ)) (k : SNormKind) (hk : k ∈ contS)
    (hg : g.aggregation = some (.builtin k)) (ht : ∀ t ∈ g.terms, Plain t) (hab : a < b) :
    ∃ f : ℝ → ℝ, (∀ x, g.membership ctx (fin x) = .ok (fin (f x))) ∧ IntervalIntegrable f volume a b := by
  obtain ⟨f, h, e⟩ := aggregated_tame (a := a) (b := b) ctx g k hk hg ht
  exact ⟨f, e, h.integrable hab⟩

/-! ### a set cut at a half -/

/-- the set of a rectangle from 0 to 1 activated with 1/2 -/
noncomputable def box : Aggregated (Ext ℝ) :=
  ⟨cs! "y", fin 0, fin 2, some (.builtin .maximum),
    [⟨0, ⟨cs! "low", fin 1, .shape ((Shape.rectangle 0 1).map fin)⟩, fin (1 / 2), some (.builtin .minimum)⟩]⟩

theorem box_plain : ∀ t ∈ box.terms, Plain t := by
  intro t ht
  simp only [box, List.mem_singleton] at ht
  subst ht
  exact ⟨.rectangle 0 1, 1, 1 / 2, .minimum, trivial, by decide, rfl, rfl, rfl, rfl⟩

noncomputable def boxf (x : ℝ) : ℝ := if x < 1 + tol then 1 / 2 else 0

theorem box_membership (ctx : Ctx (Ext ℝ)) (x : ℝ) (hx : x ∈ Ioo (0 : ℝ) 2) : box.membership ctx (fin x) = .ok (fin (boxf x)) := by
  have tp : 0 < (tol : ℝ) := tol_pos
  have h1 := Shape.membership_fin (.rectangle 0 1) trivial 1 x
  have h2 : (Shape.rectangle 0 1).unit x = if x < 1 + tol then 1 else 0 := by
    show (if 0 < x + tol ∧ x < 1 + tol then (1 : ℝ) else 0) = _
    simp only [show 0 < x + tol by linarith [hx.1], true_and]
  rw [h2] at h1
  simp only [box, Aggregated.membership, isNaN_fin, List.foldlM_cons, List.foldlM_nil, Activated.membership, Term.membership, h1]
  simp only [Bool.false_eq_true, if_false, Bind.bind, Except.bind, pure, Except.pure, TNorm.compute, SNorm.compute,
    TNormKind.compute, SNormKind.compute, ofRat_def, min_fin, max_fin, boxf]
  split <;> norm_num

theorem boxf_tame : Tame 0 2 boxf := by
  unfold boxf
  exact .ite (by steady (1 + tol)) (.const _) (.const _)

theorem boxf_low (x : ℝ) (h1 : x ≤ 1 + tol) (h0 : 0 ≤ x) : ∫ t in (0 : ℝ)..x, boxf t = x / 2 := by
  rw [intervalIntegral.integral_congr_Ioo_of_le (g := fun _ => (1 / 2 : ℝ)) h0 fun t ht => ?_]
  · simp; ring
  · simp only [boxf, if_pos (lt_of_lt_of_le ht.2 h1)]

theorem boxf_high (ht : (tol : ℝ) < 1) (x : ℝ) (h1 : 1 + tol ≤ x) (h2 : x ≤ 2) : ∫ t in (0 : ℝ)..x, boxf t = (1 + tol) / 2 := by
  have tp : 0 < (tol : ℝ) := tol_pos
  have hi := boxf_tame.integrable two_pos
  rw [← intervalIntegral.integral_add_adjacent_intervals (b := 1 + tol)
    (hi.mono_set (by rw [uIcc_of_le (by linarith), uIcc_of_le (by linarith)]; exact Icc_subset_Icc_right (by linarith)))
    (hi.mono_set (by rw [uIcc_of_le h1, uIcc_of_le (by linarith)]; exact Icc_subset_Icc (by linarith) h2)),
    boxf_low _ le_rfl (by linarith),
    intervalIntegral.integral_congr_Ioo_of_le (g := fun _ => (0 : ℝ)) h1 fun t ht => ?_]
  · simp
  · simp only [boxf, if_neg (not_lt.2 ht.1.le)]

theorem boxf_moment (ht : (tol : ℝ) < 1) : ∫ t in (0 : ℝ)..2, t * boxf t = (1 + tol) ^ 2 / 4 := by
  have tp : 0 < (tol : ℝ) := tol_pos
  have hi := (Tame.id.mul boxf_tame).integrable two_pos
  rw [← intervalIntegral.integral_add_adjacent_intervals (b := 1 + tol)
    (hi.mono_set (by rw [uIcc_of_le (by linarith), uIcc_of_le (by linarith)]; exact Icc_subset_Icc_right (by linarith)))
    (hi.mono_set (by rw [uIcc_of_le (by linarith), uIcc_of_le (by linarith)]; exact Icc_subset_Icc (by linarith) le_rfl))]
  have h1 : ∫ t in (0 : ℝ)..1 + tol, t * boxf t = ∫ t in (0 : ℝ)..1 + tol, t * (1 / 2 : ℝ) :=
    intervalIntegral.integral_congr_Ioo_of_le (by linarith) fun t ht => by simp only [boxf, if_pos ht.2]
  have h2 : ∫ t in 1 + tol..(2 : ℝ), t * boxf t = ∫ t in 1 + tol..(2 : ℝ), (0 : ℝ) :=
    intervalIntegral.integral_congr_Ioo_of_le (by linarith) fun t ht => by simp only [boxf, if_neg (not_lt.2 ht.1.le), mul_zero]
  rw [h1, h2, intervalIntegral.integral_mul_const, integral_id]
  simp; ring

/-- the `Centroid` converges to the middle of the rectangle, which the tolerance makes wider -/
example (ctx : Ctx (Ext ℝ)) (ht : (tol : ℝ) < 1) (ε : ℝ) (hε : 0 < ε) : ∃ N : ℕ, ∀ n : ℕ, N ≤ n → ∃ v,
    Defuzzifier.defuzzify ctx (.integral .centroid (n : Int)) box (fin 0) (fin 2) = .ok (fin v) ∧ |v - (1 + tol) / 2| < ε := by
  have tp : 0 < (tol : ℝ) := tol_pos
  have h := centroid_converges ctx box .maximum (by decide) rfl box_plain two_pos boxf (box_membership ctx)
  rw [boxf_high ht 2 (by linarith) le_rfl, boxf_moment ht] at h
  have e : (1 + (tol : ℝ)) ^ 2 / 4 / ((1 + tol) / 2) = (1 + tol) / 2 := by
    have : 1 + (tol : ℝ) ≠ 0 := by linarith
    field_simp; ring
  rw [e] at h
  exact h (by linarith) ε hε

/-- and so does the `Bisector` -/
example (ctx : Ctx (Ext ℝ)) (ht : (tol : ℝ) < 1) (ε : ℝ) (hε : 0 < ε) : ∃ N : ℕ, ∀ n : ℕ, N ≤ n → ∃ v,
    Defuzzifier.defuzzify ctx (.integral .bisector (n : Int)) box (fin 0) (fin 2) = .ok (fin v) ∧ |v - (1 + tol) / 2| < ε := by
  have tp : 0 < (tol : ℝ) := tol_pos
  have h := bisector_converges ctx box .maximum (by decide) rfl box_plain two_pos boxf (box_membership ctx)
  rw [boxf_high ht 2 (by linarith) le_rfl] at h
  refine h (by linarith) ((1 + tol) / 2) ⟨by linarith, by linarith⟩ ?_ (fun x hx he => ?_) ε hε
  · rw [boxf_low _ (by linarith) (by linarith)]
  · rcases le_total x (1 + tol) with h' | h'
    · rw [boxf_low x h' hx.1] at he
      linarith
    · rw [boxf_high ht x h' hx.2] at he
      linarith

/-- the defuzzifiers of maxima converge to the ends and the middle of the rectangle -/
example (ctx : Ctx (Ext ℝ)) (ht : (tol : ℝ) < 1) (ε : ℝ) (hε : 0 < ε) : ∃ N : ℕ, ∀ n : ℕ, N ≤ n → ∃ s l m,
    Defuzzifier.defuzzify ctx (.integral .smallestOfMaximum (n : Int)) box (fin 0) (fin 2) = .ok (fin s) ∧
    Defuzzifier.defuzzify ctx (.integral .largestOfMaximum (n : Int)) box (fin 0) (fin 2) = .ok (fin l) ∧
    Defuzzifier.defuzzify ctx (.integral .meanOfMaximum (n : Int)) box (fin 0) (fin 2) = .ok (fin m) ∧
    |s - 0| < ε ∧ |l - (1 + tol)| < ε ∧ |m - (0 + (1 + tol)) / 2| < ε := by
  have tp : 0 < (tol : ℝ) := tol_pos
  refine eventually_atTop.1 (plateau_tendsto (box.membership ctx) boxf two_pos (box_membership ctx) 0 (1 + tol) (1 / 2)
    (by linarith) le_rfl (by linarith) (fun x hx => if_pos hx.2) (fun x hx => ?_) (fun x hx h => ?_) ε hε)
  · unfold boxf
    split <;> norm_num
  · have : ¬ x < 1 + tol := by
      rcases h with h | h
      · linarith [hx.1]
      · linarith
    rw [boxf, if_neg this]
    norm_num

/-- the defuzzifiers of maxima of a Gaussian converge to its mean -/
example (k : IntegralKind) (hk : k ≠ .centroid ∧ k ≠ .bisector) (ε : ℝ) (hε : 0 < ε) : ∀ᶠ n : ℕ in atTop, ∃ v,
    Integral.defuzzify k (n : Int) (fun x => .ok (((Shape.gaussian 1 1).map fin).membership (fin 1) x)) (fin 0) (fin 3) =
      .ok (fin v) ∧ |v - 1| < ε := by
  refine peak_tendsto _ (Shape.gaussian 1 1).unit (by norm_num) (fun x _ => ?_) ?_ 1 (by norm_num) (fun x _ hx => ?_) k hk ε hε
  · rw [Shape.membership_fin (.gaussian 1 1) one_ne_zero 1 x, one_mul]
  · show ContinuousOn (fun x : ℝ => Real.exp (-(x - 1) * (x - 1) / (2 * 1 * 1))) _
    exact Continuous.continuousOn (by fun_prop)
  · show Real.exp (-(x - 1) * (x - 1) / (2 * 1 * 1)) < Real.exp (-(1 - 1) * (1 - 1) / (2 * 1 * 1))
    rw [Real.exp_lt_exp]
    have := mul_self_pos.2 (sub_ne_zero.2 hx)
    nlinarith

end FL.Converge
