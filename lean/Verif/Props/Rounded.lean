/-
C65 and C66: what remains true when the results of arithmetic are rounded, as those of `double` are.
-/
import Verif.Lemmas.Binary64
import Verif.Props.Compare
import Verif.Props.Degree
import Verif.Model.Shape

namespace FL
open Scalar

/-- a truth degree: a number from 0 to 1 -/
def Scalar.Degree {S : Type} [Scalar S] (x : S) : Prop := le (lit 0) x = true ∧ le x (lit 1) = true

instance {S : Type} [Scalar S] (x : S) : Decidable (Degree x) := by unfold Degree; infer_instance

namespace Rounded
open Format Flt
variable {ρ : Format}

theorem lit0 : (lit 0 : Flt ρ) = of 0 rep_zero := lit_rep rep_zero
theorem lit1 : (lit 1 : Flt ρ) = of 1 rep_one := lit_rep rep_one
theorem lit2 : (lit 2 : Flt ρ) = of 2 rep_two := lit_rep rep_two
theorem litHalf : (lit (1 / 2) : Flt ρ) = of (1 / 2) rep_half := lit_rep rep_half
theorem rep_eps : ρ.Rep ρ.eps := ρ.eps_rnd
theorem macheps_of : (macheps : Flt ρ) = of ρ.eps rep_eps := rfl

/-- truth degrees of a format -/
theorem degree_iff {x : Flt ρ} : Degree x ↔ ∃ q, ∃ h : ρ.Rep q, x = of q h ∧ 0 ≤ q ∧ q ≤ 1 := by
  constructor
  · rintro ⟨h1, h2⟩
    obtain ⟨v, hv⟩ := x
    rw [lit0] at h1
    rw [lit1] at h2
    cases v with
    | fin q =>
      have hq : ρ.Rep q := hv
      have hx : (⟨.fin q, hv⟩ : Flt ρ) = of q hq := rfl
      rw [hx, le_of] at h1 h2
      exact ⟨q, hq, rfl, by simpa using h1, by simpa using h2⟩
    | nan => simp [Scalar.le, Scalar.lt, Scalar.eq, Flt.of, Ext.lt, Ext.eq] at h1
    | pinf => simp [Scalar.le, Scalar.lt, Scalar.eq, Flt.of, Ext.lt, Ext.eq] at h2
    | ninf => simp [Scalar.le, Scalar.lt, Scalar.eq, Flt.of, Ext.lt, Ext.eq] at h1
  · rintro ⟨q, h, rfl, h0, h1⟩
    unfold Degree
    rw [lit0, lit1, le_of, le_of]
    simp [h0, h1]

theorem degree_of {q : ℚ} (h : ρ.Rep q) (h0 : 0 ≤ q) (h1 : q ≤ 1) : Degree (of q h) :=
  degree_iff.2 ⟨q, h, rfl, h0, h1⟩

theorem isNaN_of {q : ℚ} (h : ρ.Rep q) : Op.isNaN (of q h) = false := by simp [Op.isNaN]

theorem min_of {a b : ℚ} (ha : ρ.Rep a) (hb : ρ.Rep b) : ∃ h, Op.min (of a ha) (of b hb) = of (min a b) h := by
  unfold Op.min Op.stdMin
  rw [isNaN_of, isNaN_of]
  simp only [Bool.or_self, Bool.false_eq_true, if_false, lt_of, decide_eq_true_eq]
  split_ifs with h
  · exact ⟨by rwa [min_eq_right h.le], by simp [of_inj, h.le]⟩
  · exact ⟨by rwa [min_eq_left (not_lt.1 h)], by simp [of_inj, not_lt.1 h]⟩

theorem max_of {a b : ℚ} (ha : ρ.Rep a) (hb : ρ.Rep b) : ∃ h, Op.max (of a ha) (of b hb) = of (max a b) h := by
  unfold Op.max Op.stdMax
  rw [isNaN_of, isNaN_of]
  simp only [Bool.or_self, Bool.false_eq_true, if_false, lt_of, decide_eq_true_eq]
  split_ifs with h
  · exact ⟨by rwa [max_eq_right h.le], by simp [of_inj, h.le]⟩
  · exact ⟨by rwa [max_eq_left (not_lt.1 h)], by simp [of_inj, not_lt.1 h]⟩

theorem isEq_of {a b : ℚ} (ha : ρ.Rep a) (hb : ρ.Rep b) (h : Format.Small (a - b)) :
    Op.isEq (of a ha) (of b hb) = true ↔ |ρ.r (a - b)| < ρ.eps := by
  unfold Op.isEq Op.isEqT
  rw [sub_of ha hb h, abs_of, macheps_of, lt_of, eq_of, eq_of, eq_of]
  simp only [decide_true, Bool.not_true, Bool.and_self, Bool.or_false, Bool.or_eq_true, decide_eq_true_eq]
  constructor
  · rintro (rfl | h)
    · rw [sub_self, r_of_rep rep_zero, abs_zero]; exact ρ.eps_pos
    · exact h
  · exact Or.inr

theorem isLt_of {a b : ℚ} (ha : ρ.Rep a) (hb : ρ.Rep b) (h : Format.Small (a - b)) :
    Op.isLt (of a ha) (of b hb) = true ↔ a < b ∧ ρ.eps ≤ |ρ.r (a - b)| := by
  have e : Op.isLt (of a ha) (of b hb) = (!Op.isEq (of a ha) (of b hb) && lt (of a ha) (of b hb)) := rfl
  rw [e, Bool.and_eq_true, Bool.not_eq_true', ← Bool.not_eq_true, isEq_of ha hb h, lt_of, decide_eq_true_eq, not_lt]
  exact and_comm

theorem isGt_of {a b : ℚ} (ha : ρ.Rep a) (hb : ρ.Rep b) (h : Format.Small (a - b)) :
    Op.isGt (of a ha) (of b hb) = true ↔ b < a ∧ ρ.eps ≤ |ρ.r (a - b)| := by
  have e : Op.isGt (of a ha) (of b hb) = (!Op.isEq (of a ha) (of b hb) && lt (of b hb) (of a ha)) := rfl
  rw [e, Bool.and_eq_true, Bool.not_eq_true', ← Bool.not_eq_true, isEq_of ha hb h, lt_of, decide_eq_true_eq, not_lt]
  exact and_comm

theorem isLE_of {a b : ℚ} (ha : ρ.Rep a) (hb : ρ.Rep b) (h : Format.Small (a - b)) :
    Op.isLE (of a ha) (of b hb) = true ↔ |ρ.r (a - b)| < ρ.eps ∨ a < b := by
  have e : Op.isLE (of a ha) (of b hb) = (Op.isEq (of a ha) (of b hb) || lt (of a ha) (of b hb)) := rfl
  rw [e, Bool.or_eq_true, isEq_of ha hb h, lt_of, decide_eq_true_eq]

theorem isGE_of {a b : ℚ} (ha : ρ.Rep a) (hb : ρ.Rep b) (h : Format.Small (a - b)) :
    Op.isGE (of a ha) (of b hb) = true ↔ |ρ.r (a - b)| < ρ.eps ∨ b < a := by
  have e : Op.isGE (of a ha) (of b hb) = (Op.isEq (of a ha) (of b hb) || lt (of b hb) (of a ha)) := rfl
  rw [e, Bool.or_eq_true, isEq_of ha hb h, lt_of, decide_eq_true_eq]

/-! ### comparisons -/

theorem isEq_comm (a b : Flt ρ) : Op.isEq a b = Op.isEq b a := by
  have hc : Scalar.eq a b = Scalar.eq b a := by
    rw [Bool.eq_iff_iff, ScalarOrd.eq_iff, ScalarOrd.eq_iff]
    constructor <;> rintro ⟨rfl, h⟩ <;> exact ⟨rfl, h⟩
  unfold Op.isEq Op.isEqT
  rw [Flt.abs_sub_comm a b, hc, Bool.and_comm (!Scalar.eq a a)]

theorem isEq_nan {b : Flt ρ} (hb : b ≠ nan) : Op.isEq nan b = false := by
  have h1 : Scalar.eq nan b = false := by
    rw [← Bool.not_eq_true, ScalarOrd.eq_iff]
    tauto
  have h2 : Scalar.eq b b = true := (ScalarOrd.eq_iff b b).2 ⟨rfl, hb⟩
  have h3 : Scalar.abs (nan - b) = (nan : Flt ρ) := by
    apply Flt.ext
    show ρ.round (Ext.abs (ρ.round (Ext.sub Ext.nan b.1))) = Ext.nan
    cases b.1 <;> rfl
  unfold Op.isEq Op.isEqT
  rw [h1, h2, h3, (ScalarOrd.lt_nan _).2]
  simp

/-- **C65.**  The tolerant comparisons exclude each other and, unless exactly one of the numbers is NaN, one of
them holds, however differences are rounded. -/
theorem compare_trichotomy (a b : Flt ρ) :
    ¬ (Op.isLt a b = true ∧ Op.isEq a b = true) ∧ ¬ (Op.isLt a b = true ∧ Op.isGt a b = true) ∧
    ¬ (Op.isEq a b = true ∧ Op.isGt a b = true) ∧
    ((Op.isLt a b = true ∨ Op.isEq a b = true ∨ Op.isGt a b = true) ↔ (a = nan ↔ b = nan)) := by
  have e1 : Op.isLt a b = (!Op.isEq a b && lt a b) := rfl
  have e2 : Op.isGt a b = (!Op.isEq a b && lt b a) := rfl
  refine ⟨?_, ?_, ?_, ?_⟩
  · rw [e1]; simp; tauto
  · rw [e1, e2]
    rintro ⟨h1, h2⟩
    simp only [Bool.and_eq_true] at h1 h2
    rw [ScalarOrd.lt_asymm h1.2] at h2
    simp at h2
  · rw [e2]; cases Op.isEq a b <;> simp
  · by_cases ha : a = nan <;> by_cases hb : b = nan
    · subst ha hb
      simp only [iff_self, iff_true]
      right; left
      rfl
    · subst ha
      simp only [hb, iff_false, not_true]
      rw [e1, e2, (ScalarOrd.lt_nan b).1, (ScalarOrd.lt_nan b).2]
      simp [isEq_nan hb]
    · subst hb
      simp only [ha, false_iff, not_true]
      rw [e1, e2, (ScalarOrd.lt_nan a).1, (ScalarOrd.lt_nan a).2]
      simp [isEq_comm a nan, isEq_nan ha]
    · simp only [ha, hb, iff_self, iff_true]
      rw [e1, e2]
      rcases ScalarOrd.lt_total a b ha hb with h | h | h
      · rw [h]; cases Op.isEq a b <;> simp
      · right; left
        have : Scalar.eq a b = true := (ScalarOrd.eq_iff a b).2 ⟨h, ha⟩
        unfold Op.isEq Op.isEqT
        rw [this]; rfl
      · rw [h]; cases Op.isEq a b <;> simp

/-- **C65.**  Tolerant equality is reflexive and symmetric, and the other comparisons agree with it, however
differences are rounded. -/
theorem compare_laws (a b : Flt ρ) :
    Op.isLE a b = (Op.isLt a b || Op.isEq a b) ∧ Op.isGE a b = (Op.isGt a b || Op.isEq a b) ∧
    Op.isGt a b = Op.isLt b a ∧ Op.isGE a b = Op.isLE b a ∧ Op.isEq a b = Op.isEq b a ∧ Op.isEq a a = true := by
  have e1 : Op.isLt a b = (!Op.isEq a b && lt a b) := rfl
  have e2 : Op.isGt a b = (!Op.isEq a b && lt b a) := rfl
  have e3 : Op.isLE a b = (Op.isEq a b || lt a b) := rfl
  have e4 : Op.isGE a b = (Op.isEq a b || lt b a) := rfl
  have f1 : Op.isLt b a = (!Op.isEq b a && lt b a) := rfl
  have f3 : Op.isLE b a = (Op.isEq b a || lt b a) := rfl
  have hs := isEq_comm a b
  refine ⟨?_, ?_, ?_, ?_, hs, ?_⟩
  · rw [e1, e3]; cases Op.isEq a b <;> cases lt a b <;> rfl
  · rw [e2, e4]; cases Op.isEq a b <;> cases lt b a <;> rfl
  · rw [e2, f1, hs]
  · rw [e4, f3, hs]
  · unfold Op.isEq Op.isEqT
    cases h : Scalar.eq a a <;> simp [h]

/-! ### norms -/

theorem r01 {x : ℚ} (h0 : 0 ≤ x) (h1 : x ≤ 1) : 0 ≤ ρ.r x ∧ ρ.r x ≤ 1 :=
  ⟨le_r (small_of (by norm_num) (by norm_num)) (small_of (by linarith) (by linarith)) rep_zero h0,
    r_le (small_of (by linarith) (by linarith)) (small_of (by norm_num) (by norm_num)) rep_one h1⟩

theorem r02 {x : ℚ} (h0 : 0 ≤ x) (h1 : x ≤ 2) : 0 ≤ ρ.r x ∧ ρ.r x ≤ 2 :=
  ⟨le_r (small_of (by norm_num) (by norm_num)) (small_of (by linarith) (by linarith)) rep_zero h0,
    r_le (small_of (by linarith) (by linarith)) (small_of (by norm_num) (by norm_num)) rep_two h1⟩

/-- the T-norms whose result exceeds none of the degrees -/
def TNormKind.below : TNormKind → Bool
  | .hamacherProduct | .boundedDifference => false
  | _ => true

/-- **C66.**  T-norms of truth degrees are truth degrees and commute, whatever the rounding.  All but
BoundedDifference and HamacherProduct are at most both degrees. -/
theorem tnorm_degree (ht : ρ.Tight) (k : TNormKind) (a b : Flt ρ) (ha : Degree a) (hb : Degree b) :
    Degree (k.compute a b) ∧ k.compute a b = k.compute b a ∧
    (TNormKind.below k = true → le (k.compute a b) a = true ∧ le (k.compute a b) b = true) := by
  obtain ⟨a, ra, rfl, a0, a1⟩ := degree_iff.1 ha
  obtain ⟨b, rb, rfl, b0, b1⟩ := degree_iff.1 hb
  obtain ⟨hm, em⟩ := min_of ra rb
  have cm : Op.min (of a ra) (of b rb) = Op.min (of b rb) (of a ra) := (min_max_algebra (of a ra) (of b rb) nan).1
  have cM : Op.max (of a ra) (of b rb) = Op.max (of b rb) (of a ra) := (min_max_algebra (of a ra) (of b rb) nan).2.1
  have cs := Flt.add_comm (of a ra) (of b rb)
  have cp := Flt.mul_comm (of a ra) (of b rb)
  have p0 : 0 ≤ a * b := mul_nonneg a0 b0
  have p1 : a * b ≤ 1 := by nlinarith
  have pa : a * b ≤ a := by nlinarith
  have pb : a * b ≤ b := by nlinarith
  have sa : Format.Small a := small_of (by linarith) (by linarith)
  have sb : Format.Small b := small_of (by linarith) (by linarith)
  have sp : Format.Small (a * b) := small_of (by linarith) (by linarith)
  have ss : Format.Small (a + b) := small_of (by linarith) (by linarith)
  have ep : of a ra * of b rb = of (ρ.r (a * b)) (r_rep _) := mul_of ra rb sp
  have es : of a ra + of b rb = of (ρ.r (a + b)) (r_rep _) := add_of ra rb ss
  have rp := r01 (ρ := ρ) p0 p1
  have rpa : ρ.r (a * b) ≤ a := r_le sp sa ra pa
  have rpb : ρ.r (a * b) ≤ b := r_le sp sb rb pb
  have rs := r02 (ρ := ρ) (x := a + b) (by linarith) (by linarith)
  have dmin : Degree (Op.min (of a ra) (of b rb)) ∧ le (Op.min (of a ra) (of b rb)) (of a ra) = true ∧
      le (Op.min (of a ra) (of b rb)) (of b rb) = true := by
    rw [em]
    refine ⟨degree_of hm (le_min a0 b0) ((min_le_left a b).trans a1), ?_, ?_⟩ <;> simp
  have dzero : Degree (lit 0 : Flt ρ) ∧ le (lit 0) (of a ra) = true ∧ le (lit 0) (of b rb) = true := by
    rw [lit0]
    refine ⟨degree_of _ le_rfl (by norm_num), ?_, ?_⟩ <;> simp [a0, b0]
  cases k with
  | algebraicProduct =>
    show Degree (of a ra * of b rb) ∧ of a ra * of b rb = of b rb * of a ra ∧ (_ → le (of a ra * of b rb) _ = true ∧ le (of a ra * of b rb) _ = true)
    refine ⟨?_, cp, fun _ => ?_⟩
    · rw [ep]; exact degree_of _ rp.1 rp.2
    · rw [ep, le_of, le_of]; simp [rpa, rpb]
  | boundedDifference =>
    refine ⟨?_, ?_, fun h => by simp [TNormKind.below] at h⟩
    · simp only [TNormKind.compute]
      rw [es, lit1, lit0, sub_of _ _ (small_of (by linarith) (by linarith))]
      obtain ⟨h, e⟩ := max_of (ρ := ρ) rep_zero (r_rep (ρ := ρ) (ρ.r (a + b) - 1))
      rw [e]
      refine degree_of h (le_max_left _ _) (max_le (by norm_num) ?_)
      exact r_le (small_of (by linarith) (by linarith)) (small_of (by norm_num) (by norm_num)) rep_one (by linarith)
    · simp only [TNormKind.compute]; rw [cs]
  | drasticProduct =>
    simp only [TNormKind.compute]
    rw [← cM, ← cm]
    split_ifs
    · exact ⟨dmin.1, rfl, fun _ => dmin.2⟩
    · exact ⟨dzero.1, rfl, fun _ => dzero.2⟩
  | einsteinProduct =>
    simp only [TNormKind.compute]
    rw [← cs, ← cp, es, ep, sub_of _ _ (small_of (by linarith) (by linarith)), lit2]
    have htp := ht.prod a b ra rb a0 a1 b0 b1
    have hs1 : ρ.r (a + b) ≤ ρ.r (1 + ρ.r (a * b)) := r_mono ss (small_of (by linarith) (by linarith)) htp
    have hr1 := r02 (ρ := ρ) (x := 1 + ρ.r (a * b)) (by linarith) (by linarith)
    have ht1 : ρ.r (ρ.r (a + b) - ρ.r (a * b)) ≤ 1 :=
      (r_mono (small_of (by linarith) (by linarith)) (small_of (by linarith) (by linarith)) (by linarith)).trans
        (ht.diff _ (r_rep _) rp.1 rp.2)
    have ht0 : -1 ≤ ρ.r (ρ.r (a + b) - ρ.r (a * b)) := by
      have := rep_neg (ρ := ρ) rep_one
      exact le_r (small_of (by norm_num) (by norm_num)) (small_of (by linarith) (by linarith)) this (by linarith)
    rw [sub_of rep_two (r_rep _) (small_of (by linarith) (by linarith))]
    set t := ρ.r (ρ.r (a + b) - ρ.r (a * b))
    have hd : 1 ≤ ρ.r (2 - t) :=
      le_r (small_of (by norm_num) (by norm_num)) (small_of (by linarith) (by linarith)) rep_one (by linarith)
    have hdp : 0 < ρ.r (2 - t) := by linarith
    have hq : ρ.r (a * b) / ρ.r (2 - t) ≤ ρ.r (a * b) := div_le_self rp.1 hd
    have hq0 : 0 ≤ ρ.r (a * b) / ρ.r (2 - t) := div_nonneg rp.1 hdp.le
    rw [div_of (r_rep _) (r_rep _) hdp.ne' (small_of (by linarith) (by linarith))]
    have hle := r_le (ρ := ρ) (small_of (by linarith) (by linarith)) (small_of (by linarith) (by linarith)) (r_rep (a * b)) hq
    have h0 := (r01 (ρ := ρ) hq0 (by linarith)).1
    refine ⟨degree_of _ h0 (by linarith), rfl, fun _ => ?_⟩
    rw [le_of, le_of]
    simp only [decide_eq_true_eq]
    constructor <;> linarith
  | hamacherProduct =>
    simp only [TNormKind.compute]
    rw [← cs, ← cp]
    refine ⟨?_, rfl, fun h => by simp [TNormKind.below] at h⟩
    by_cases hz : Op.isEq (of a ra + of b rb) (lit 0) = true
    · rw [if_pos hz]; exact dzero.1
    · rw [if_neg hz, es, ep, sub_of _ _ (small_of (by linarith) (by linarith))]
      rw [es, lit0, isEq_of _ _ (small_of (by linarith) (by linarith)), sub_zero, r_of_rep (r_rep _), abs_of_nonneg rs.1, not_lt] at hz
      have heps := ρ.eps_pos
      have h2p : 2 * ρ.r (a * b) ≤ ρ.r (a + b) := by
        have hrep : ρ.Rep (2 * ρ.r (a * b)) := ρ.rnd_double _ (abs_le.2 ⟨by linarith, by linarith⟩) (r_rep (a * b))
        exact le_r (small_of (by linarith) (by linarith)) ss hrep (by linarith)
      have hpd : ρ.r (a * b) ≤ ρ.r (ρ.r (a + b) - ρ.r (a * b)) :=
        le_r (small_of (by linarith) (by linarith)) (small_of (by linarith) (by linarith)) (r_rep _) (by linarith)
      have hd : 0 < ρ.r (ρ.r (a + b) - ρ.r (a * b)) := by
        rcases rp.1.lt_or_eq with h | h
        · linarith
        · rw [← h, sub_zero, r_of_rep (r_rep _)]; linarith
      have hq1 := (div_le_one hd).2 hpd
      have hq0 := div_nonneg rp.1 hd.le
      rw [div_of (r_rep _) (r_rep _) hd.ne' (small_of (by linarith) (by linarith))]
      have := r01 (ρ := ρ) hq0 hq1
      exact degree_of _ this.1 this.2
  | minimum => exact ⟨dmin.1, cm, fun _ => dmin.2⟩
  | nilpotentMinimum =>
    simp only [TNormKind.compute]
    rw [← cs, ← cm]
    split_ifs
    · exact ⟨dmin.1, rfl, fun _ => dmin.2⟩
    · exact ⟨dzero.1, rfl, fun _ => dzero.2⟩

/-- the S-norms whose result is at least both degrees -/
def SNormKind.above : SNormKind → Bool
  | .algebraicSum | .einsteinSum | .hamacherSum => false
  | _ => true

/-- **C66.**  S-norms of truth degrees commute and, for all but HamacherSum and UnboundedSum, are truth degrees,
whatever the rounding.  All but AlgebraicSum, EinsteinSum and HamacherSum are at least both degrees. -/
theorem snorm_degree (ht : ρ.Tight) (k : SNormKind) (a b : Flt ρ) (ha : Degree a) (hb : Degree b) :
    (k ≠ .hamacherSum → k ≠ .unboundedSum → Degree (k.compute a b)) ∧ k.compute a b = k.compute b a ∧
    (SNormKind.above k = true → le a (k.compute a b) = true ∧ le b (k.compute a b) = true) := by
  obtain ⟨a, ra, rfl, a0, a1⟩ := degree_iff.1 ha
  obtain ⟨b, rb, rfl, b0, b1⟩ := degree_iff.1 hb
  obtain ⟨hm, em⟩ := max_of ra rb
  have cm : Op.min (of a ra) (of b rb) = Op.min (of b rb) (of a ra) := (min_max_algebra (of a ra) (of b rb) nan).1
  have cM : Op.max (of a ra) (of b rb) = Op.max (of b rb) (of a ra) := (min_max_algebra (of a ra) (of b rb) nan).2.1
  have cs := Flt.add_comm (of a ra) (of b rb)
  have cp := Flt.mul_comm (of a ra) (of b rb)
  have p0 : 0 ≤ a * b := mul_nonneg a0 b0
  have p1 : a * b ≤ 1 := by nlinarith
  have sa : Format.Small a := small_of (by linarith) (by linarith)
  have sb : Format.Small b := small_of (by linarith) (by linarith)
  have sp : Format.Small (a * b) := small_of (by linarith) (by linarith)
  have ss : Format.Small (a + b) := small_of (by linarith) (by linarith)
  have ep : of a ra * of b rb = of (ρ.r (a * b)) (r_rep _) := mul_of ra rb sp
  have es : of a ra + of b rb = of (ρ.r (a + b)) (r_rep _) := add_of ra rb ss
  have rp := r01 (ρ := ρ) p0 p1
  have rs := r02 (ρ := ρ) (x := a + b) (by linarith) (by linarith)
  have rsa : a ≤ ρ.r (a + b) := le_r sa ss ra (by linarith)
  have rsb : b ≤ ρ.r (a + b) := le_r sb ss rb (by linarith)
  have htp := ht.prod a b ra rb a0 a1 b0 b1
  have hs1 : ρ.r (a + b) ≤ ρ.r (1 + ρ.r (a * b)) := r_mono ss (small_of (by linarith) (by linarith)) htp
  have hr1 := r02 (ρ := ρ) (x := 1 + ρ.r (a * b)) (by linarith) (by linarith)
  have dmax : Degree (Op.max (of a ra) (of b rb)) ∧ le (of a ra) (Op.max (of a ra) (of b rb)) = true ∧
      le (of b rb) (Op.max (of a ra) (of b rb)) = true := by
    rw [em]
    refine ⟨degree_of hm (a0.trans (le_max_left a b)) (max_le a1 b1), ?_, ?_⟩ <;> simp
  have done : Degree (lit 1 : Flt ρ) ∧ le (of a ra) (lit 1) = true ∧ le (of b rb) (lit 1) = true := by
    rw [lit1]
    refine ⟨degree_of _ (by norm_num) le_rfl, ?_, ?_⟩ <;> simp [a1, b1]
  cases k with
  | algebraicSum =>
    simp only [SNormKind.compute]
    rw [← cs, ← cp, es, ep, sub_of _ _ (small_of (by linarith) (by linarith))]
    refine ⟨fun _ _ => degree_of _ ?_ ?_, rfl, fun h => by simp [SNormKind.above] at h⟩
    · refine le_r (small_of (by norm_num) (by norm_num)) (small_of (by linarith) (by linarith)) rep_zero ?_
      have := r_mono (ρ := ρ) sp ss (by nlinarith)
      linarith
    · exact (r_mono (small_of (by linarith) (by linarith)) (small_of (by linarith) (by linarith)) (by linarith)).trans
        (ht.diff _ (r_rep _) rp.1 rp.2)
  | boundedSum =>
    simp only [SNormKind.compute]
    rw [← cs, es, lit1]
    obtain ⟨h, e⟩ := min_of (ρ := ρ) rep_one (r_rep (ρ := ρ) (a + b))
    rw [e, le_of, le_of]
    refine ⟨fun _ _ => degree_of h (le_min (by norm_num) rs.1) (min_le_left _ _), rfl, fun _ => ?_⟩
    simp [a1, b1, rsa, rsb]
  | drasticSum =>
    simp only [SNormKind.compute]
    rw [← cM, ← cm]
    split_ifs
    · exact ⟨fun _ _ => dmax.1, rfl, fun _ => dmax.2⟩
    · exact ⟨fun _ _ => done.1, rfl, fun _ => done.2⟩
  | einsteinSum =>
    simp only [SNormKind.compute]
    rw [← cs, ← cp, es, ep, lit1, add_of _ _ (small_of (by linarith) (by linarith))]
    have hd : 1 ≤ ρ.r (1 + ρ.r (a * b)) :=
      le_r (small_of (by norm_num) (by norm_num)) (small_of (by linarith) (by linarith)) rep_one (by linarith)
    have hdp : 0 < ρ.r (1 + ρ.r (a * b)) := by linarith
    have hq1 := (div_le_one hdp).2 hs1
    have hq0 := div_nonneg rs.1 hdp.le
    rw [div_of (r_rep _) (r_rep _) hdp.ne' (small_of (by linarith) (by linarith))]
    have := r01 (ρ := ρ) hq0 hq1
    exact ⟨fun _ _ => degree_of _ this.1 this.2, rfl, fun h => by simp [SNormKind.above] at h⟩
  | hamacherSum =>
    refine ⟨fun h => absurd rfl h, ?_, fun h => by simp [SNormKind.above] at h⟩
    simp only [SNormKind.compute]
    have h2a : ρ.Rep (2 * a) := ρ.rnd_double a (abs_le.2 ⟨by linarith, by linarith⟩) ra
    have h2b : ρ.Rep (2 * b) := ρ.rnd_double b (abs_le.2 ⟨by linarith, by linarith⟩) rb
    have e1 : lit 2 * of a ra * of b rb = of (ρ.r (2 * a * b)) (r_rep _) := by
      rw [lit2, mul_of _ _ (small_of (by linarith) (by linarith))]
      have : of (ρ.r (2 * a)) (r_rep _) = of (2 * a) h2a := of_inj.2 (r_of_rep h2a)
      rw [this, mul_of _ _ (small_of (by nlinarith) (by nlinarith))]
    have e2 : lit 2 * of b rb * of a ra = of (ρ.r (2 * a * b)) (r_rep _) := by
      rw [lit2, mul_of _ _ (small_of (by linarith) (by linarith))]
      have : of (ρ.r (2 * b)) (r_rep _) = of (2 * b) h2b := of_inj.2 (r_of_rep h2b)
      rw [this, mul_of _ _ (small_of (by nlinarith) (by nlinarith)), of_inj]
      congr 1
      ring
    rw [← cs, ← cp, e1, e2]
  | maximum => exact ⟨fun _ _ => dmax.1, cM, fun _ => dmax.2⟩
  | nilpotentMaximum =>
    simp only [SNormKind.compute]
    rw [← cs, ← cM]
    split_ifs
    · exact ⟨fun _ _ => dmax.1, rfl, fun _ => dmax.2⟩
    · exact ⟨fun _ _ => done.1, rfl, fun _ => done.2⟩
  | normalizedSum =>
    simp only [SNormKind.compute]
    rw [← cs, es, lit1]
    obtain ⟨h, e⟩ := max_of (ρ := ρ) rep_one (r_rep (ρ := ρ) (a + b))
    rw [e]
    have hdp : 0 < max 1 (ρ.r (a + b)) := lt_of_lt_of_le (by norm_num) (le_max_left _ _)
    have hq1 := (div_le_one hdp).2 (le_max_right 1 (ρ.r (a + b)))
    have hq0 := div_nonneg rs.1 hdp.le
    rw [div_of (r_rep _) h hdp.ne' (small_of (by linarith) (by linarith))]
    have := r01 (ρ := ρ) hq0 hq1
    refine ⟨fun _ _ => degree_of _ this.1 this.2, rfl, fun _ => ?_⟩
    rw [le_of, le_of]
    rcases le_total 1 (ρ.r (a + b)) with h1 | h1
    · rw [max_eq_right h1, div_self (by linarith), r_of_rep rep_one]
      simp [a1, b1]
    · rw [max_eq_left h1, div_one, r_of_rep (r_rep _)]
      simp [rsa, rsb]
  | unboundedSum =>
    simp only [SNormKind.compute]
    rw [← cs, es, le_of, le_of]
    refine ⟨fun _ h => absurd rfl h, rfl, fun _ => ?_⟩
    simp [rsa, rsb]

/-- the T-norms and S-norms that are computed without dividing by a sum of products nor subtracting a product -/
def TNormKind.steady : TNormKind → Bool
  | .einsteinProduct | .hamacherProduct => false
  | _ => true

def SNormKind.steady : SNormKind → Bool
  | .algebraicSum | .einsteinSum | .hamacherSum => false
  | _ => true

theorem min_le_min' {a b c : ℚ} (ra : ρ.Rep a) (rb : ρ.Rep b) (rc : ρ.Rep c) (h : a ≤ b) :
    le (Op.min (of a ra) (of c rc)) (Op.min (of b rb) (of c rc)) = true := by
  obtain ⟨h1, e1⟩ := min_of ra rc
  obtain ⟨h2, e2⟩ := min_of rb rc
  rw [e1, e2, le_of, decide_eq_true_eq]
  exact min_le_min_right c h

theorem max_le_max' {a b c : ℚ} (ra : ρ.Rep a) (rb : ρ.Rep b) (rc : ρ.Rep c) (h : a ≤ b) :
    le (Op.max (of a ra) (of c rc)) (Op.max (of b rb) (of c rc)) = true := by
  obtain ⟨h1, e1⟩ := max_of ra rc
  obtain ⟨h2, e2⟩ := max_of rb rc
  rw [e1, e2, le_of, decide_eq_true_eq]
  exact max_le_max_right c h

/-- **C66.**  All T-norms but EinsteinProduct and HamacherProduct, and all S-norms but AlgebraicSum, EinsteinSum
and HamacherSum, are monotone on truth degrees, whatever the rounding. -/
theorem norm_monotone (a a' b : Flt ρ) (ha : Degree a) (ha' : Degree a') (hb : Degree b) (hle : le a a' = true) :
    (∀ k : TNormKind, TNormKind.steady k = true → le (k.compute a b) (k.compute a' b) = true) ∧
    (∀ k : SNormKind, SNormKind.steady k = true → le (k.compute a b) (k.compute a' b) = true) := by
  obtain ⟨a, ra, rfl, a0, a1⟩ := degree_iff.1 ha
  obtain ⟨c, rc, rfl, c0, c1⟩ := degree_iff.1 ha'
  obtain ⟨b, rb, rfl, b0, b1⟩ := degree_iff.1 hb
  simp only [le_of, decide_eq_true_eq] at hle
  have hmin := min_le_min' ra rc rb hle
  have hmax := max_le_max' ra rc rb hle
  have ss : Format.Small (a + b) := small_of (by linarith) (by linarith)
  have ss' : Format.Small (c + b) := small_of (by linarith) (by linarith)
  have es := add_of ra rb ss
  have es' := add_of rc rb ss'
  have hs : ρ.r (a + b) ≤ ρ.r (c + b) := r_mono ss ss' (by linarith)
  have rs := r02 (ρ := ρ) (x := a + b) (by linarith) (by linarith)
  have rs' := r02 (ρ := ρ) (x := c + b) (by linarith) (by linarith)
  obtain ⟨hm, em⟩ := min_of ra rb
  obtain ⟨hm', em'⟩ := min_of rc rb
  obtain ⟨hM, eM⟩ := max_of ra rb
  obtain ⟨hM', eM'⟩ := max_of rc rb
  constructor
  · intro k hk
    cases k with
    | algebraicProduct =>
      simp only [TNormKind.compute]
      rw [mul_of ra rb (small_of (by nlinarith) (by nlinarith)), mul_of rc rb (small_of (by nlinarith) (by nlinarith)), le_of,
        decide_eq_true_eq]
      exact r_mono (small_of (by nlinarith) (by nlinarith)) (small_of (by nlinarith) (by nlinarith)) (by nlinarith)
    | boundedDifference =>
      simp only [TNormKind.compute]
      rw [es, es', lit1, lit0, sub_of _ _ (small_of (by linarith) (by linarith)), sub_of _ _ (small_of (by linarith) (by linarith))]
      rw [(min_max_algebra (of 0 rep_zero) _ nan).2.1, (min_max_algebra (of 0 rep_zero) (of (ρ.r (ρ.r (c + b) - 1)) _) nan).2.1]
      exact max_le_max' _ _ _ (r_mono (small_of (by linarith) (by linarith)) (small_of (by linarith) (by linarith)) (by linarith))
    | drasticProduct =>
      simp only [TNormKind.compute]
      split_ifs with h1 h2 h2
      · exact hmin
      · exfalso
        rw [eM, lit1, isEq_of hM _ (small_of (by rcases max_choice a b with h | h <;> rw [h] <;> linarith)
          (by rcases max_choice a b with h | h <;> rw [h] <;> linarith))] at h1
        rw [eM', lit1, isEq_of hM' _ (small_of (by rcases max_choice c b with h | h <;> rw [h] <;> linarith)
          (by rcases max_choice c b with h | h <;> rw [h] <;> linarith)), not_lt] at h2
        have hMM : max a b ≤ max c b := max_le_max_right b hle
        have hM1 : max c b ≤ 1 := max_le c1 b1
        have hM0 : 0 ≤ max a b := a0.trans (le_max_left a b)
        have k1 : ρ.r (max a b - 1) ≤ ρ.r (max c b - 1) :=
          r_mono (small_of (by linarith) (by linarith)) (small_of (by linarith) (by linarith)) (by linarith)
        have k2 : ρ.r (max c b - 1) ≤ 0 :=
          r_le (small_of (by linarith) (by linarith)) (small_of (by norm_num) (by norm_num)) rep_zero (by linarith)
        rw [abs_of_nonpos (k1.trans k2)] at h1
        rw [abs_of_nonpos k2] at h2
        linarith
      · rw [em', lit0, le_of, decide_eq_true_eq]; exact le_min c0 b0
      · rw [lit0, le_of, decide_eq_true_eq]
    | einsteinProduct => simp [TNormKind.steady] at hk
    | hamacherProduct => simp [TNormKind.steady] at hk
    | minimum => exact hmin
    | nilpotentMinimum =>
      simp only [TNormKind.compute]
      split_ifs with h1 h2 h2
      · exact hmin
      · exfalso
        rw [es, lit1, isGt_of _ _ (small_of (by linarith) (by linarith))] at h1
        rw [es', lit1, isGt_of _ _ (small_of (by linarith) (by linarith))] at h2
        refine h2 ⟨by linarith [h1.1], ?_⟩
        have k0 : 0 ≤ ρ.r (ρ.r (a + b) - 1) :=
          le_r (small_of (by norm_num) (by norm_num)) (small_of (by linarith) (by linarith)) rep_zero (by linarith [h1.1])
        have k1 : ρ.r (ρ.r (a + b) - 1) ≤ ρ.r (ρ.r (c + b) - 1) :=
          r_mono (small_of (by linarith) (by linarith)) (small_of (by linarith) (by linarith)) (by linarith)
        have := h1.2
        rw [abs_of_nonneg k0] at this
        rw [abs_of_nonneg (k0.trans k1)]
        linarith
      · rw [em', lit0, le_of, decide_eq_true_eq]; exact le_min c0 b0
      · rw [lit0, le_of, decide_eq_true_eq]
  · intro k hk
    cases k with
    | algebraicSum => simp [SNormKind.steady] at hk
    | einsteinSum => simp [SNormKind.steady] at hk
    | hamacherSum => simp [SNormKind.steady] at hk
    | boundedSum =>
      simp only [SNormKind.compute]
      rw [es, es', lit1, (min_max_algebra (of 1 rep_one) (of (ρ.r (a + b)) _) nan).1,
        (min_max_algebra (of 1 rep_one) (of (ρ.r (c + b)) _) nan).1]
      exact min_le_min' _ _ _ hs
    | drasticSum =>
      simp only [SNormKind.compute]
      split_ifs with h1 h2 h2
      · exact hmax
      · rw [eM, lit1, le_of, decide_eq_true_eq]; exact max_le a1 b1
      · exfalso
        have i0 : 0 ≤ min a b := le_min a0 b0
        have i1 : min c b ≤ 1 := (min_le_left c b).trans c1
        have hMM : min a b ≤ min c b := min_le_min_right b hle
        rw [em, lit0, isEq_of hm _ (small_of (by linarith) (by linarith)), sub_zero, r_of_rep hm, abs_of_nonneg i0] at h1
        rw [em', lit0, isEq_of hm' _ (small_of (by linarith) (by linarith)), sub_zero, r_of_rep hm',
          abs_of_nonneg (i0.trans hMM)] at h2
        linarith
      · rw [lit1, le_of, decide_eq_true_eq]
    | maximum => exact hmax
    | nilpotentMaximum =>
      simp only [SNormKind.compute]
      split_ifs with h1 h2 h2
      · exact hmax
      · rw [eM, lit1, le_of, decide_eq_true_eq]; exact max_le a1 b1
      · exfalso
        rw [es, lit1, isLt_of _ _ (small_of (by linarith) (by linarith))] at h1
        rw [es', lit1, isLt_of _ _ (small_of (by linarith) (by linarith))] at h2
        refine h1 ⟨by linarith [h2.1], ?_⟩
        have k1 : ρ.r (ρ.r (a + b) - 1) ≤ ρ.r (ρ.r (c + b) - 1) :=
          r_mono (small_of (by linarith) (by linarith)) (small_of (by linarith) (by linarith)) (by linarith)
        have k2 : ρ.r (ρ.r (c + b) - 1) ≤ 0 :=
          r_le (small_of (by linarith) (by linarith)) (small_of (by norm_num) (by norm_num)) rep_zero (by linarith [h2.1])
        have := h2.2
        rw [abs_of_nonpos k2] at this
        rw [abs_of_nonpos (k1.trans k2)]
        linarith
      · rw [lit1, le_of, decide_eq_true_eq]
    | normalizedSum =>
      have key : ∀ s : ℚ, ∀ r : ρ.Rep s, 0 ≤ s → s ≤ 2 → ∃ h', of s r / Op.max (lit 1) (of s r) = of (min s 1) h' := by
        intro s r s0 s2
        rw [lit1]
        obtain ⟨h, e⟩ := max_of (ρ := ρ) rep_one r
        rw [e]
        rcases le_total 1 s with h1 | h1
        · have hd : s / max 1 s = 1 := by rw [max_eq_right h1, div_self (by linarith)]
          refine ⟨by rw [min_eq_right h1]; exact rep_one, ?_⟩
          rw [div_of _ _ (by rw [max_eq_right h1]; linarith) (by rw [hd]; exact small_of (by norm_num) (by norm_num)), of_inj, hd,
            min_eq_right h1, r_of_rep rep_one]
        · have hd : s / max 1 s = s := by rw [max_eq_left h1, div_one]
          refine ⟨by rw [min_eq_left h1]; exact r, ?_⟩
          rw [div_of _ _ (by rw [max_eq_left h1]; norm_num) (by rw [hd]; exact small_of (by linarith) (by linarith)), of_inj, hd,
            min_eq_left h1, r_of_rep r]
      simp only [SNormKind.compute]
      rw [es, es']
      obtain ⟨k1, f1⟩ := key _ (r_rep (a + b)) rs.1 rs.2
      obtain ⟨k2, f2⟩ := key _ (r_rep (c + b)) rs'.1 rs'.2
      rw [f1, f2, le_of, decide_eq_true_eq]
      exact min_le_min_right 1 hs
    | unboundedSum =>
      simp only [SNormKind.compute]
      rw [es, es', le_of, decide_eq_true_eq]
      exact hs

/-- `double`, with library functions that the witnesses do not use -/
abbrev dbl : Format := binary64 (fun _ x => x) (fun _ x _ => x)

/-- **C66, violated.**  In `double`, HamacherSum of 1 and 0.1 is greater than 1. -/
theorem hamacherSum_violated : ∃ a b : Flt dbl, Degree a ∧ Degree b ∧ ¬ Degree (SNormKind.hamacherSum.compute a b) :=
  ⟨lit 1, lit (1 / 10), by decide +kernel⟩

/-- **C66, violated.**  In `double`, BoundedDifference of 1 and 0.1 and HamacherProduct of 1 and another degree
are greater than the lesser degree; AlgebraicSum and EinsteinSum may be less than the greater one. -/
theorem norm_bounds_violated :
    (∃ b : Flt dbl, Degree b ∧ lt b (TNormKind.boundedDifference.compute (lit 1) b) = true) ∧
    (∃ b : Flt dbl, Degree b ∧ lt b (TNormKind.hamacherProduct.compute (lit 1) b) = true) ∧
    (∃ b : Flt dbl, Degree b ∧ lt (SNormKind.algebraicSum.compute (lit 1) b) (lit 1) = true) ∧
    (∃ a b : Flt dbl, Degree a ∧ Degree b ∧ lt (SNormKind.einsteinSum.compute a b) b = true) :=
  ⟨⟨lit (1 / 10), by decide +kernel⟩, ⟨lit (3669157509090544 / 10000000000000000000), by decide +kernel⟩,
    ⟨lit (3669157509090544 / 10000000000000000000), by decide +kernel⟩,
    ⟨lit (7494447804655562 / 10 ^ 27), lit (9999999999999968 / 10 ^ 16), by decide +kernel⟩⟩

/-- **C66, violated.**  In `double`, the other norms are not monotone. -/
theorem norm_monotone_violated :
    (∃ a a' b : Flt dbl, Degree a ∧ Degree a' ∧ Degree b ∧ le a a' = true ∧
      lt (TNormKind.einsteinProduct.compute a' b) (TNormKind.einsteinProduct.compute a b) = true) ∧
    (∃ a a' b : Flt dbl, Degree a ∧ Degree a' ∧ Degree b ∧ le a a' = true ∧
      lt (TNormKind.hamacherProduct.compute a' b) (TNormKind.hamacherProduct.compute a b) = true) ∧
    (∃ a a' b : Flt dbl, Degree a ∧ Degree a' ∧ Degree b ∧ le a a' = true ∧
      lt (SNormKind.algebraicSum.compute a' b) (SNormKind.algebraicSum.compute a b) = true) ∧
    (∃ a a' b : Flt dbl, Degree a ∧ Degree a' ∧ Degree b ∧ le a a' = true ∧
      lt (SNormKind.einsteinSum.compute a' b) (SNormKind.einsteinSum.compute a b) = true) ∧
    (∃ a a' b : Flt dbl, Degree a ∧ Degree a' ∧ Degree b ∧ le a a' = true ∧
      lt (SNormKind.hamacherSum.compute a' b) (SNormKind.hamacherSum.compute a b) = true) :=
  ⟨⟨lit (4999999999999998 / 10 ^ 16), lit (49999999999999983 / 10 ^ 17), lit (999844839205193 / 10 ^ 15), by decide +kernel⟩,
    ⟨lit (46744668964588054 / 10 ^ 17), lit (4674466896458806 / 10 ^ 16), lit (2721309419974405 / 10 ^ 16), by decide +kernel⟩,
    ⟨lit (9999999999999933 / 10 ^ 16), lit (9999999999999939 / 10 ^ 16), lit 1, by decide +kernel⟩,
    ⟨lit (4999999999999998 / 10 ^ 16), lit (49999999999999983 / 10 ^ 17), lit (999844839205193 / 10 ^ 15), by decide +kernel⟩,
    ⟨lit (3404396696859402 / 10 ^ 16), lit (3404396696859403 / 10 ^ 16), lit (9999999999999992 / 10 ^ 16), by decide +kernel⟩⟩

/-- examples: `0.1 + 0.2` and `0.3` differ in `double` and are the same up to the tolerance; norms of 0.3 and 0.9 -/
example : Scalar.eq (lit (1 / 10) + lit (2 / 10) : Flt dbl) (lit (3 / 10)) = false ∧
    Op.isEq (lit (1 / 10) + lit (2 / 10) : Flt dbl) (lit (3 / 10)) = true ∧
    Op.isLt (lit (1 / 10) : Flt dbl) (lit (3 / 10)) = true := by decide +kernel

example : (TNormKind.algebraicProduct.compute (lit (3 / 10)) (lit (9 / 10)) : Flt dbl) = lit (27 / 100) ∧
    (SNormKind.algebraicSum.compute (lit (3 / 10)) (lit (9 / 10)) : Flt dbl) ≠ lit (93 / 100) ∧
    Degree (SNormKind.algebraicSum.compute (lit (3 / 10)) (lit (9 / 10)) : Flt dbl) ∧
    (TNormKind.boundedDifference.compute (lit (3 / 10)) (lit (9 / 10)) : Flt dbl) ≠ lit (2 / 10) := by decide +kernel

/-! ### hedges -/

/-- the square root of a truth degree -/
theorem sqrt_of (hr : ρ.Root) {x : ℚ} (hx : ρ.Rep x) (x0 : 0 ≤ x) (x1 : x ≤ 1) :
    ∃ y, ∃ h : ρ.Rep y, Scalar.sqrt (of x hx) = of y h ∧ x ≤ y ∧ y ≤ 1 := by
  obtain ⟨y, e, hy, hlo, hhi⟩ := hr.sqrt x hx x0 x1
  refine ⟨y, hy, ?_, hlo x hx x0 (by nlinarith), hhi 1 rep_one (by norm_num) (by linarith)⟩
  apply Flt.ext
  show ρ.round (ρ.lib1 .sqrt (Ext.fin x)) = Ext.fin y
  rw [e]
  exact hy

/-- **C66.**  Hedges of truth degrees are truth degrees, whatever the rounding; `very` does not increase
degrees and `somewhat` does not decrease them. -/
theorem hedge_degree (hr : ρ.Root) (he : ρ.eps ≤ 1 / 5) (k : HedgeKind) (x : Flt ρ) (hx : Degree x) :
    Degree (k.hedge x) ∧ (k = .very → le (k.hedge x) x = true) ∧ (k = .somewhat → le x (k.hedge x) = true) := by
  obtain ⟨x, rx, rfl, x0, x1⟩ := degree_iff.1 hx
  have sx : Format.Small x := small_of (by linarith) (by linarith)
  have hn := r01 (ρ := ρ) (x := 1 - x) (by linarith) (by linarith)
  have en : lit 1 - of x rx = of (ρ.r (1 - x)) (r_rep _) := by
    rw [lit1, sub_of _ _ (small_of (by linarith) (by linarith))]
  have double : ∀ y : ℚ, ∀ h : ρ.Rep y, 0 ≤ y → y ≤ 1 → ∃ h', lit 2 * of y h = of (2 * y) h' := by
    intro y h h0 h1
    have h2 : ρ.Rep (2 * y) := ρ.rnd_double y (abs_le.2 ⟨by linarith, by linarith⟩) h
    refine ⟨h2, ?_⟩
    rw [lit2, mul_of _ _ (small_of (by linarith) (by linarith)), of_inj]
    exact r_of_rep h2
  have half : ∀ y : ℚ, ∀ h : ρ.Rep y, 0 ≤ y → y ≤ 1 → ∃ z, ∃ h' : ρ.Rep z, lit (1 / 2) * of y h = of z h' ∧ 0 ≤ z ∧ z ≤ 1 := by
    intro y h h0 h1
    have := r01 (ρ := ρ) (x := 1 / 2 * y) (by linarith) (by linarith)
    refine ⟨ρ.r (1 / 2 * y), r_rep _, ?_, this.1, this.2⟩
    rw [litHalf, mul_of _ _ (small_of (by linarith) (by linarith))]
  cases k with
  | any =>
    refine ⟨?_, by simp, by simp⟩
    show Degree (lit 1)
    rw [lit1]
    exact degree_of _ (by norm_num) le_rfl
  | extremely =>
    refine ⟨?_, by simp, by simp⟩
    simp only [HedgeKind.hedge]
    by_cases hle : Op.isLE (of x rx) (lit (1 / 2)) = true
    · rw [if_pos hle]
      rw [litHalf, isLE_of _ _ (small_of (by linarith) (by linarith))] at hle
      have hx7 : x ≤ 7 / 10 := by
        by_contra hc
        push Not at hc
        rcases hle with h | h
        · have := le_r (ρ := ρ) (x := ρ.eps) (y := x - 1 / 2) (small_of (by linarith [ρ.eps_pos]) (by linarith))
            (small_of (by linarith) (by linarith)) rep_eps (by linarith)
          rw [abs_of_nonneg (ρ.eps_pos.le.trans this)] at h
          linarith
        · linarith
      obtain ⟨h2, e2⟩ := double x rx x0 x1
      rw [e2, mul_of _ _ (small_of (by nlinarith) (by nlinarith))]
      have := r01 (ρ := ρ) (x := 2 * x * x) (by positivity) (by nlinarith)
      exact degree_of _ this.1 this.2
    · rw [if_neg hle]
      have hx5 : 1 / 2 ≤ x := by
        rw [litHalf, isLE_of _ _ (small_of (by linarith) (by linarith))] at hle
        push Not at hle
        exact hle.2
      have hy : ρ.r (1 - x) ≤ 1 / 2 :=
        r_le (small_of (by linarith) (by linarith)) (small_of (by norm_num) (by norm_num)) rep_half (by linarith)
      rw [en]
      obtain ⟨h2, e2⟩ := double _ (r_rep _) hn.1 hn.2
      rw [e2, mul_of _ _ (small_of (by nlinarith) (by nlinarith)), lit1]
      have hz := r01 (ρ := ρ) (x := 2 * ρ.r (1 - x) * ρ.r (1 - x)) (by have := hn.1; positivity) (by nlinarith [hn.1])
      rw [sub_of _ _ (small_of (by linarith) (by linarith))]
      have := r01 (ρ := ρ) (x := 1 - ρ.r (2 * ρ.r (1 - x) * ρ.r (1 - x))) (by linarith) (by linarith)
      exact degree_of _ this.1 this.2
  | not =>
    refine ⟨?_, by simp, by simp⟩
    show Degree (lit 1 - of x rx)
    rw [en]
    exact degree_of _ hn.1 hn.2
  | seldom =>
    refine ⟨?_, by simp, by simp⟩
    simp only [HedgeKind.hedge]
    split_ifs
    · obtain ⟨z, hz, e, z0, z1⟩ := half x rx x0 x1
      obtain ⟨y, hy, ey, h0, h1⟩ := sqrt_of hr hz z0 z1
      rw [e, ey]
      exact degree_of _ (by linarith) h1
    · rw [en]
      obtain ⟨z, hz, e, z0, z1⟩ := half _ (r_rep (1 - x)) hn.1 hn.2
      obtain ⟨y, hy, ey, h0, h1⟩ := sqrt_of hr hz z0 z1
      rw [e, ey, lit1, sub_of _ _ (small_of (by linarith) (by linarith))]
      have := r01 (ρ := ρ) (x := 1 - y) (by linarith) (by linarith)
      exact degree_of _ this.1 this.2
  | somewhat =>
    obtain ⟨y, hy, ey, h0, h1⟩ := sqrt_of hr rx x0 x1
    have : HedgeKind.somewhat.hedge (of x rx) = of y hy := ey
    rw [this]
    refine ⟨degree_of _ (by linarith) h1, by simp, fun _ => ?_⟩
    simpa using h0
  | very =>
    have hm : HedgeKind.very.hedge (of x rx) = of (ρ.r (x * x)) (r_rep _) :=
      mul_of rx rx (small_of (by nlinarith) (by nlinarith))
    rw [hm]
    have := r01 (ρ := ρ) (x := x * x) (by positivity) (by nlinarith)
    have hle : ρ.r (x * x) ≤ x := r_le (small_of (by nlinarith) (by nlinarith)) sx rx (by nlinarith)
    refine ⟨degree_of _ this.1 this.2, fun _ => ?_, by simp⟩
    simpa using hle

/-! ### antecedents, activated terms and fuzzy outputs -/

/-- the norm is one whose results are truth degrees in every format -/
def Closed (d : SNormKind) : Prop := d ≠ .hamacherSum ∧ d ≠ .unboundedSum

theorem degree_zero : Degree (lit 0 : Flt ρ) := by rw [lit0]; exact degree_of _ le_rfl (by norm_num)
theorem degree_one : Degree (lit 1 : Flt ρ) := by rw [lit1]; exact degree_of _ (by norm_num) le_rfl

theorem hedges_degree (hr : ρ.Root) (he : ρ.eps ≤ 1 / 5) {hs : List (Hedge (Flt ρ))}
    (hb : ∀ h ∈ hs, ∃ k, h = .builtin k) {x : Flt ρ} (hx : Degree x) : ∃ y, applyHedges hs x = .ok y ∧ Degree y := by
  induction hs with
  | nil => exact ⟨x, rfl, hx⟩
  | cons h hs ih =>
    obtain ⟨y, hy, hd⟩ := ih fun g hg => hb g (List.mem_cons_of_mem _ hg)
    obtain ⟨k, rfl⟩ := hb h (by simp)
    refine ⟨k.hedge y, ?_, (hedge_degree hr he k y hd).1⟩
    rw [applyHedges_cons, hy]
    rfl

/-- **C66.**  The degree of an antecedent of shipped hedges and norms is a truth degree whenever the degrees of
the terms it mentions are, whatever the rounding. -/
theorem antecedent_degree (ht : ρ.Tight) (hr : ρ.Root) (heps : ρ.eps ≤ 1 / 5) (w : World (Flt ρ)) (c : TNormKind)
    (d : SNormKind) (hd : Closed d) (e : Expr (Flt ρ))
    (he : ∀ p ∈ e.props, (∀ h ∈ p.hedges, ∃ k, h = .builtin k) ∧ (∃ b, w.isEnabled p.var = some b) ∧
      ((p.hedges.getLast?.map Hedge.isAny).getD false = true ∨
        ∃ j x, p.term = some j ∧ w.termDegree p.var j = .ok x ∧ Degree x)) :
    ∃ y, e.degree w (some (.builtin c)) (some (.builtin d)) = .ok y ∧ Degree y := by
  induction e with
  | prop p =>
    obtain ⟨hb, ⟨b, hen⟩, hp⟩ := he p (by simp [Expr.props])
    simp only [Expr.degree, Proposition.degree, hen]
    cases b with
    | false => exact ⟨_, rfl, degree_zero⟩
    | true =>
      simp only
      by_cases hl : (p.hedges.getLast?.map Hedge.isAny).getD false = true
      · rw [if_pos hl]
        cases hla : p.hedges.getLast? with
        | none => rw [hla] at hl; simp at hl
        | some a =>
          rw [hla] at hl
          simp only [Option.map_some, Option.getD_some] at hl
          rw [isAny_iff] at hl
          subst hl
          obtain ⟨gs, hgs⟩ := List.getLast?_eq_some_iff.1 hla
          have e1 : applyHedges (gs ++ [Hedge.builtin .any]) Scalar.nan = applyHedges gs (lit 1 : Flt ρ) := by
            rw [applyHedges_append]
            simp [applyHedges, Except.bind, bind, pure, Except.pure, Hedge.hedge, HedgeKind.hedge]
          rw [hgs, e1]
          exact hedges_degree hr heps (fun h hh => hb h (by rw [hgs]; simp [hh])) degree_one
      · rw [if_neg hl]
        rcases hp with hp | ⟨j, x, hj, hx, htx⟩
        · exact absurd hp hl
        · rw [hj]
          simp only [hx, bind, Except.bind]
          exact hedges_degree hr heps hb htx
  | conj l r ihl ihr =>
    obtain ⟨a, hl, ha⟩ := ihl fun p hp => he p (by simp [Expr.props, hp])
    obtain ⟨b, hr', hb⟩ := ihr fun p hp => he p (by simp [Expr.props, hp])
    refine ⟨c.compute a b, ?_, (tnorm_degree ht c a b ha hb).1⟩
    simp only [Expr.degree, hl, hr', bind, Except.bind, TNorm.compute]
  | disj l r ihl ihr =>
    obtain ⟨a, hl, ha⟩ := ihl fun p hp => he p (by simp [Expr.props, hp])
    obtain ⟨b, hr', hb⟩ := ihr fun p hp => he p (by simp [Expr.props, hp])
    refine ⟨d.compute a b, ?_, (snorm_degree ht d a b ha hb).1 hd.1 hd.2⟩
    simp only [Expr.degree, hl, hr', bind, Except.bind, SNorm.compute]

/-- **C66.**  The membership function of a fuzzy output with shipped norms has values that are truth degrees
whenever the degrees of activation and the membership functions of the terms do, whatever the rounding. -/
theorem fuzzy_degree (ht : ρ.Tight) (ctx : Ctx (Flt ρ)) (g : Aggregated (Flt ρ)) (x : Flt ρ) (hx : x ≠ nan)
    (d : SNormKind) (hd : Closed d) (hg : g.aggregation = some (.builtin d))
    (hm : ∀ a ∈ g.terms, (∃ c, a.implication = some (.builtin c)) ∧ Degree a.degree ∧
      ∃ v, a.term.membership ctx x = .ok v ∧ Degree v) :
    ∃ y, g.membership ctx x = .ok y ∧ Degree y := by
  have hnx : Op.isNaN x = false := (ScalarOrd.isNaN_false_iff x).2 hx
  unfold Aggregated.membership
  rw [hnx, hg]
  simp only [Bool.false_eq_true, if_false]
  have key : ∀ (l : List (Activated (Flt ρ))), (∀ a ∈ l, a ∈ g.terms) → ∀ s, Degree s →
      ∃ y, (l.foldlM (fun mu a => do let y ← a.membership ctx x; (SNorm.builtin d).compute mu y) s : Except Err (Flt ρ)) = .ok y ∧ Degree y := by
    intro l
    induction l with
    | nil => intro _ s hs; exact ⟨s, rfl, hs⟩
    | cons a l ih =>
      intro hl s hs
      obtain ⟨⟨c, hc⟩, hda, v, hv, hdv⟩ := hm a (hl a (by simp))
      have ha : a.membership ctx x = .ok (c.compute v a.degree) := by
        unfold Activated.membership
        rw [hnx, hc]
        simp only [Bool.false_eq_true, if_false, hv, bind, Except.bind, TNorm.compute]
      obtain ⟨y, hy, hdy⟩ := ih (fun b hb => hl b (by simp [hb])) (d.compute s (c.compute v a.degree))
        ((snorm_degree ht d _ _ hs (tnorm_degree ht c _ _ hdv hda).1).1 hd.1 hd.2)
      refine ⟨y, ?_, hdy⟩
      rw [List.foldlM_cons, ha]
      exact hy
  exact key g.terms (fun _ h => h) _ degree_zero

/-! ### membership functions of straight lines -/

theorem mul_degree {h k : ℚ} (rh : ρ.Rep h) (rk : ρ.Rep k) (h0 : 0 ≤ h) (h1 : h ≤ 1) (k0 : 0 ≤ k) (k1 : k ≤ 1) :
    Degree (of h rh * of k rk) := by
  have p0 : 0 ≤ h * k := mul_nonneg h0 k0
  have p1 : h * k ≤ 1 := by nlinarith
  rw [mul_of _ _ (small_of (by linarith) (by linarith))]
  exact degree_of _ (r01 p0 p1).1 (r01 p0 p1).2

theorem ratio_degree {h p q : ℚ} (rh : ρ.Rep h) (rp : ρ.Rep p) (rq : ρ.Rep q) (h0 : 0 ≤ h) (h1 : h ≤ 1) (p0 : 0 ≤ p)
    (hpq : p ≤ q) (hq : 0 < q) (sp : Format.Small p) : Degree (of h rh * of p rp / of q rq) := by
  have m0 : 0 ≤ h * p := mul_nonneg h0 p0
  have m1 : h * p ≤ p := by nlinarith
  have sm : Format.Small (h * p) := abs_le.2 ⟨by linarith, m1.trans (abs_le.1 sp).2⟩
  rw [mul_of _ _ sm]
  have n0 : 0 ≤ ρ.r (h * p) := le_r (small_of (by norm_num) (by norm_num)) sm rep_zero m0
  have n1 : ρ.r (h * p) ≤ p := r_le sm sp rp m1
  have d0 := div_nonneg n0 hq.le
  have d1 := (div_le_one hq).2 (n1.trans hpq)
  rw [div_of _ _ hq.ne' (small_of (by linarith) (by linarith))]
  exact degree_of _ (r01 d0 d1).1 (r01 d0 d1).2

/-- a finite number of moderate size -/
def Moderate (x : Flt ρ) : Prop := ∃ q, ∃ h : ρ.Rep q, x = of q h ∧ |q| ≤ 1073741824

theorem small_sub {a b : ℚ} (ha : |a| ≤ 1073741824) (hb : |b| ≤ 1073741824) : Format.Small (a - b) := by
  obtain ⟨h1, h2⟩ := abs_le.1 ha
  obtain ⟨h3, h4⟩ := abs_le.1 hb
  exact abs_le.2 ⟨by linarith, by linarith⟩

theorem small_r {x : ℚ} (h : Format.Small x) : Format.Small (ρ.r x) := by
  obtain ⟨h1, h2⟩ := abs_le.1 h
  have b1 : ρ.Rep 2147483648 := by simpa using rep_int (ρ := ρ) 2147483648 (by norm_num)
  have b2 : ρ.Rep (-2147483648) := rep_neg b1
  exact abs_le.2 ⟨le_r (abs_le.2 ⟨by norm_num, by norm_num⟩) h b2 h1, r_le h (abs_le.2 ⟨by norm_num, by norm_num⟩) b1 h2⟩

/-- the slope of a straight line through `u ≤ x ≤ v` where `v` is apart from `x` or from `u` -/
theorem line_degree {h u v x : ℚ} (rh : ρ.Rep h) (ru : ρ.Rep u) (rv : ρ.Rep v) (rx : ρ.Rep x) (h0 : 0 ≤ h) (h1 : h ≤ 1)
    (su : |u| ≤ 1073741824) (sv : |v| ≤ 1073741824) (sx : |x| ≤ 1073741824) (hux : u ≤ x) (hxv : x ≤ v)
    (hd : ρ.eps ≤ ρ.r (v - x) ∨ ρ.eps ≤ ρ.r (v - u)) :
    Degree (of h rh * (of x rx - of u ru) / (of v rv - of u ru)) := by
  have heps := ρ.eps_pos
  have e1 := small_sub sx su
  have e2 := small_sub sv su
  rw [sub_of rx ru e1, sub_of rv ru e2]
  refine ratio_degree rh _ _ h0 h1 ?_ (r_mono e1 e2 (by linarith)) ?_ (small_r e1)
  · exact le_r (small_of (by norm_num) (by norm_num)) e1 rep_zero (by linarith)
  · rcases hd with h | h
    · have := r_mono (ρ := ρ) (small_sub sv sx) e2 (by linarith)
      linarith
    · linarith

/-- the same for descending lines -/
theorem line_degree' {h u v x : ℚ} (rh : ρ.Rep h) (ru : ρ.Rep u) (rv : ρ.Rep v) (rx : ρ.Rep x) (h0 : 0 ≤ h) (h1 : h ≤ 1)
    (su : |u| ≤ 1073741824) (sv : |v| ≤ 1073741824) (sx : |x| ≤ 1073741824) (hux : u ≤ x) (hxv : x ≤ v)
    (hd : ρ.eps ≤ ρ.r (x - u) ∨ ρ.eps ≤ ρ.r (v - u)) :
    Degree (of h rh * (of v rv - of x rx) / (of v rv - of u ru)) := by
  have heps := ρ.eps_pos
  have e1 := small_sub sv sx
  have e2 := small_sub sv su
  rw [sub_of rv rx e1, sub_of rv ru e2]
  refine ratio_degree rh _ _ h0 h1 ?_ (r_mono e1 e2 (by linarith)) ?_ (small_r e1)
  · exact le_r (small_of (by norm_num) (by norm_num)) e1 rep_zero (by linarith)
  · rcases hd with h | h
    · have := r_mono (ρ := ρ) (small_sub sx su) e2 (by linarith)
      linarith
    · linarith

theorem eps_le {a b : ℚ} (hab : a < b) (s : Format.Small (a - b)) (h : ρ.eps ≤ |ρ.r (a - b)|) : ρ.eps ≤ ρ.r (b - a) := by
  have e : ρ.r (a - b) = -ρ.r (b - a) := by rw [← r_neg]; congr 1; ring
  have s' : Format.Small (b - a) := by
    have := abs_le.1 s
    exact abs_le.2 ⟨by linarith, by linarith⟩
  have h0 : 0 ≤ ρ.r (b - a) := le_r (small_of (by norm_num) (by norm_num)) s' rep_zero (by linarith)
  rwa [e, abs_neg, abs_of_nonneg h0] at h

theorem eq_ninf_of {a : ℚ} (ha : ρ.Rep a) : Scalar.eq (of a ha) ninf = false := rfl
theorem eq_inf_of {a : ℚ} (ha : ρ.Rep a) : Scalar.eq (of a ha) inf = false := rfl

/-- **C66.**  Rectangle and Binary, whose height is a truth degree, have values that are truth degrees. -/
theorem step_degree (h : Flt ρ) (hh : Degree h) (u v x : Flt ρ) (hx : x ≠ nan) :
    Degree ((Shape.rectangle u v).membership h x) ∧ Degree ((Shape.binary u v).membership h x) := by
  obtain ⟨h, rh, rfl, h0, h1⟩ := degree_iff.1 hh
  have hnx : Op.isNaN x = false := (ScalarOrd.isNaN_false_iff x).2 hx
  have d1 : Degree (of h rh * lit 1) := by rw [lit1]; exact mul_degree rh _ h0 h1 (by norm_num) le_rfl
  have d0 : Degree (of h rh * lit 0) := by rw [lit0]; exact mul_degree rh _ h0 h1 le_rfl (by norm_num)
  simp only [Shape.membership, hnx, Bool.false_eq_true, if_false]
  constructor <;> split_ifs <;> assumption

/-- **C66.**  Triangle, Trapezoid and Ramp with ordered parameters of moderate size, whose height is a truth
degree, have values that are truth degrees wherever the tolerance does not extend them. -/
theorem line_shapes_degree_partial (h : Flt ρ) (hh : Degree h) (a b c d x : Flt ρ) (ma : Moderate a) (mb : Moderate b)
    (mc : Moderate c) (md : Moderate d) (mx : Moderate x) (hab : le a b = true) (hbc : le b c = true) (hcd : le c d = true) :
    ((Op.isLt x a = true ∨ le a x = true) → (Op.isGt x c = true ∨ le x c = true) →
      Degree ((Shape.triangle a b c).membership h x)) ∧
    ((Op.isLt x a = true ∨ le a x = true) → Degree ((Shape.trapezoid a b c d).membership h x)) ∧
    (Op.isEq a b = false → Degree ((Shape.ramp a b).membership h x) ∧ Degree ((Shape.ramp b a).membership h x)) := by
  obtain ⟨h, rh, rfl, h0, h1⟩ := degree_iff.1 hh
  have d1 : Degree (of h rh * lit 1) := by rw [lit1]; exact mul_degree rh _ h0 h1 (by norm_num) le_rfl
  have d0 : Degree (of h rh * lit 0) := by rw [lit0]; exact mul_degree rh _ h0 h1 le_rfl (by norm_num)
  obtain ⟨a, ra, rfl, sa⟩ := ma
  obtain ⟨b, rb, rfl, sb⟩ := mb
  obtain ⟨c, rc, rfl, sc⟩ := mc
  obtain ⟨d, rd, rfl, sd⟩ := md
  obtain ⟨x, rx, rfl, sx⟩ := mx
  simp only [le_of, decide_eq_true_eq] at hab hbc hcd ⊢
  have hnx := isNaN_of rx
  refine ⟨fun hxa hxc => ?_, fun hxa => ?_, fun hne => ⟨?_, ?_⟩⟩
  · simp only [Shape.membership, hnx, Bool.false_eq_true, if_false, eq_ninf_of, eq_inf_of]
    split_ifs with c1 c2 c3
    · exact d0
    · exact d1
    · simp only [Bool.or_eq_true, not_or] at c1
      rw [isLt_of rx rb (small_sub sx sb)] at c3
      exact line_degree rh ra rb rx h0 h1 sa sb sx (hxa.resolve_left c1.1) c3.1.le
        (Or.inl (eps_le c3.1 (small_sub sx sb) c3.2))
    · simp only [Bool.or_eq_true, not_or] at c1
      rw [isEq_of rx rb (small_sub sx sb), not_lt] at c2
      rw [isLt_of rx rb (small_sub sx sb)] at c3
      have hbx : b ≤ x := by
        by_contra hc
        push Not at hc
        exact c3 ⟨hc, c2⟩
      have h0' : 0 ≤ ρ.r (x - b) := le_r (small_of (by norm_num) (by norm_num)) (small_sub sx sb) rep_zero (by linarith)
      rw [abs_of_nonneg h0'] at c2
      exact line_degree' rh rb rc rx h0 h1 sb sc sx hbx (hxc.resolve_left c1.2) (Or.inl c2)
  · simp only [Shape.membership, hnx, Bool.false_eq_true, if_false, eq_ninf_of, eq_inf_of]
    split_ifs with c1 c2 c3 c4
    · exact d0
    · simp only [Bool.or_eq_true, not_or] at c1
      rw [isLt_of rx rb (small_sub sx sb)] at c2
      have hax := hxa.resolve_left c1.1
      have e1 := small_sub sx sa
      have e2 := small_sub sb sa
      have hp0 : 0 ≤ ρ.r (x - a) := le_r (small_of (by norm_num) (by norm_num)) e1 rep_zero (by linarith)
      have hpq : ρ.r (x - a) ≤ ρ.r (b - a) := r_mono e1 e2 (by linarith [c2.1])
      have hq : 0 < ρ.r (b - a) := by
        have h3 := eps_le c2.1 (small_sub sx sb) c2.2
        have h4 := r_mono (ρ := ρ) (small_sub sb sx) e2 (by linarith)
        linarith [ρ.eps_pos]
      have q0 := div_nonneg hp0 hq.le
      have q1 := (div_le_one hq).2 hpq
      rw [sub_of rx ra e1, sub_of rb ra e2, div_of _ _ hq.ne' (small_of (by linarith) (by linarith)), lit1]
      obtain ⟨hm, em⟩ := min_of (ρ := ρ) rep_one (r_rep (ρ := ρ) (ρ.r (x - a) / ρ.r (b - a)))
      rw [em]
      exact mul_degree rh hm h0 h1 (le_min (by norm_num) (r01 q0 q1).1) (min_le_left _ _)
    · exact d1
    · rw [isLt_of rx rd (small_sub sx sd)] at c4
      rw [isLE_of rx rc (small_sub sx sc)] at c3
      push Not at c3
      exact line_degree' rh rc rd rx h0 h1 sc sd sx c3.2 c4.1.le
        (Or.inl (by
          have h0' : 0 ≤ ρ.r (x - c) := le_r (small_of (by norm_num) (by norm_num)) (small_sub sx sc) rep_zero (by linarith [c3.2])
          have := c3.1
          rwa [abs_of_nonneg h0'] at this))
    · exact d0
  · simp only [Shape.membership, hnx, hne, Bool.or_self, Bool.false_eq_true, if_false]
    rw [← Bool.not_eq_true, isEq_of ra rb (small_sub sa sb), not_lt] at hne
    have hlt : a < b := by
      rcases hab.lt_or_eq with h | h
      · exact h
      · exfalso
        rw [h, sub_self, r_of_rep rep_zero, abs_zero] at hne
        linarith [ρ.eps_pos]
    have hd := eps_le hlt (small_sub sa sb) hne
    split_ifs with c1 c2 c3 c4 c5
    · exact d0
    · exact d1
    · rw [isLE_of rx ra (small_sub sx sa)] at c2
      rw [isGE_of rx rb (small_sub sx sb)] at c3
      push Not at c2 c3
      exact line_degree rh ra rb rx h0 h1 sa sb sx c2.2 c3.2 (Or.inr hd)
    all_goals
      exfalso
      rw [isLt_of ra rb (small_sub sa sb)] at c1
      exact c1 ⟨hlt, hne⟩
  · rw [isEq_comm] at hne
    simp only [Shape.membership, hnx, hne, Bool.or_self, Bool.false_eq_true, if_false]
    rw [isEq_comm, ← Bool.not_eq_true, isEq_of ra rb (small_sub sa sb), not_lt] at hne
    have hlt : a < b := by
      rcases hab.lt_or_eq with h | h
      · exact h
      · exfalso
        rw [h, sub_self, r_of_rep rep_zero, abs_zero] at hne
        linarith [ρ.eps_pos]
    have hd := eps_le hlt (small_sub sa sb) hne
    split_ifs with c1 c2 c3 c4 c5
    · exact d0
    · exact d1
    · exfalso
      rw [isLt_of rb ra (small_sub sb sa)] at c1
      linarith [c1.1]
    · exact d0
    · exact d1
    · rw [isGE_of rx rb (small_sub sx sb)] at c4
      rw [isLE_of rx ra (small_sub sx sa)] at c5
      push Not at c4 c5
      exact line_degree' rh ra rb rx h0 h1 sa sb sx c5.2 c4.2 (Or.inr hd)

/-! ### `double` -/

/-- `double`, with a rounded square root -/
abbrev dblRoot : Format := binary64 Binary64.sqrtLib (fun _ x _ => x)

theorem dblRoot_eps : dblRoot.eps ≤ 1 / 5 := by decide +kernel

/-- the theorems apply to `double` -/
example (c : TNormKind) (k : HedgeKind) (a b : Flt dblRoot) (ha : Degree a) (hb : Degree b) :
    Degree (k.hedge (c.compute a (SNormKind.einsteinSum.compute a b))) :=
  (hedge_degree (Binary64.root _) dblRoot_eps k _ (tnorm_degree (Binary64.tight _ _) c _ _ ha
    ((snorm_degree (Binary64.tight _ _) .einsteinSum a b ha hb).1 (by decide) (by decide))).1).1

/-- values in `double`: `not 0.1`, `very 0.1`, `extremely 0.7`, and a triangle at 0.1 and 0.7 -/
example : (HedgeKind.not.hedge (lit (1 / 10)) : Flt dbl) = lit (9 / 10) ∧
    (HedgeKind.very.hedge (lit (1 / 10)) : Flt dbl) = lit (10000000000000002 / 10 ^ 18) ∧
    Degree (HedgeKind.extremely.hedge (lit (7 / 10)) : Flt dbl) ∧
    ((Shape.triangle (lit 0) (lit (1 / 2)) (lit 1)).membership (lit 1) (lit (1 / 10)) : Flt dbl) = lit (2 / 10) ∧
    ((Shape.triangle (lit 0) (lit (1 / 2)) (lit 1)).membership (lit 1) (lit (7 / 10)) : Flt dbl) =
      lit (6000000000000001 / 10 ^ 16) := by decide +kernel

/-- the negation of a HamacherSum may be negative in `double`: degrees leave the unit interval -/
theorem not_hamacherSum_violated : ∃ a b : Flt dbl, Degree a ∧ Degree b ∧
    lt (HedgeKind.not.hedge (SNormKind.hamacherSum.compute a b)) (lit 0) = true :=
  ⟨lit 1, lit (1 / 10), by decide +kernel⟩

end Rounded
end FL
