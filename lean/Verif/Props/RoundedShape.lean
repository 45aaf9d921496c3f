/-
C83: membership functions survive rounding.
-/
import Verif.Lemmas.RoundedBounds
import Verif.Lemmas.Errors
import Verif.Props.Rounded

namespace FL
open Scalar

/-- What is assumed about the functions of `<cmath>`: `exp` is nonnegative, and at most one for arguments that are not
positive; `cos` is between -1 and 1; powers of nonnegative numbers are nonnegative; all up to NaN. -/
structure Format.Elementary (ρ : Format) : Prop where
  exp_pos : ∀ x : Flt ρ, Flt.AtLeast 0 (exp x)
  exp_le : ∀ x : Flt ρ, Flt.AtMost 0 x → Flt.In 0 1 (exp x)
  cos_in : ∀ x : Flt ρ, Flt.In (-1) 1 (cos x)
  pow_pos : ∀ x y : Flt ρ, Flt.AtLeast 0 x → Flt.AtLeast 0 (pow x y)

namespace Rounded
open Flt Format
variable {ρ : Format}

/-- not a number, or between zero and `h` -/
def Within (h y : Flt ρ) : Prop := y = nan ∨ le (lit 0) y = true ∧ le y h = true

theorem within_of {a : ℚ} (ra : ρ.Rep a) {y : Flt ρ} (h : In 0 a y) : Within (of a ra) y := by
  rcases h with h | ⟨q, h, h0, h1⟩
  · exact Or.inl (Flt.ext h)
  · right
    have hq : ρ.Rep q := by
      have := y.rounded
      rw [h] at this
      exact this
    have e : y = of q hq := Flt.ext h
    rw [e, lit_rep rep_zero]
    simp [h0, h1]

theorem nan_within (h : Flt ρ) : Within h nan := Or.inl rfl

theorem finite_of {h : Flt ρ} (hf : Op.isFinite h = true) : ∃ q, ∃ r : ρ.Rep q, h = of q r := by
  obtain ⟨v, hv⟩ := h
  cases v with
  | fin q => exact ⟨q, hv, rfl⟩
  | nan => exact absurd (show false = true from hf) (by simp)
  | pinf => exact absurd (show false = true from hf) (by simp)
  | ninf => exact absurd (show false = true from hf) (by simp)

theorem finite_nonneg {h : Flt ρ} (hf : Op.isFinite h = true) (h0 : le (lit 0) h = true) :
    ∃ q, ∃ r : ρ.Rep q, h = of q r ∧ 0 ≤ q := by
  obtain ⟨q, r, rfl⟩ := finite_of hf
  rw [lit_rep rep_zero] at h0
  exact ⟨q, r, rfl, by simpa using h0⟩

/-- **C83.**  For all parameters and all arguments, infinite and not a number included, the smooth terms and the
steps have values that are not a number or between zero and the height. -/
theorem smooth_degree (E : ρ.Elementary) (h : Flt ρ) (hf : Op.isFinite h = true) (h0 : le (lit 0) h = true)
    (a b c d x : Flt ρ) :
    Within h ((Shape.bell a b c).membership h x) ∧ Within h ((Shape.cosine a b).membership h x) ∧
    Within h ((Shape.gaussian a b).membership h x) ∧ Within h ((Shape.gaussianProduct a b c d).membership h x) ∧
    Within h ((Shape.sigmoid a b).membership h x) ∧ Within h ((Shape.sigmoidDifference a b c d).membership h x) ∧
    Within h ((Shape.sigmoidProduct a b c d).membership h x) ∧ Within h ((Shape.spike a b).membership h x) ∧
    Within h ((Shape.rectangle a b).membership h x) ∧ Within h ((Shape.binary a b).membership h x) := by
  obtain ⟨q, rq, rfl, hq⟩ := finite_nonneg hf h0
  have hin := of_in rq hq
  have m1 : Within (of q rq) (of q rq * lit 1) := by
    rw [Flt.mul_one]; exact within_of rq hin
  have one : In 0 1 (lit 1 : Flt ρ) := Or.inr ⟨1, val_lit rep_one, by norm_num, le_rfl⟩
  have zero : In 0 1 (lit 0 : Flt ρ) := Or.inr ⟨0, val_lit rep_zero, le_rfl, by norm_num⟩
  have m0 : Within (of q rq) (of q rq * lit 0) := within_of rq (mul_in rq hin zero)
  have sig : ∀ s y : Flt ρ, AtLeast 1 (lit 1 + exp (-s * y)) := fun s y => one_add (E.exp_pos _)
  have inv : ∀ y : Flt ρ, AtLeast 1 y → In 0 1 (lit 1 / y) := by
    intro y hy
    rw [lit_rep rep_one]
    exact div_in rep_one (by norm_num) hy
  have gau : ∀ y s : Flt ρ, In 0 1 (exp (-y * y / (lit 2 * s * s))) := fun y s =>
    E.exp_le _ (div_atMost (neg_sq_atMost y) (twice_sq_atLeast s))
  cases hx : Op.isNaN x with
  | true =>
    simp only [Shape.membership, hx, if_true]
    exact ⟨nan_within _, nan_within _, nan_within _, nan_within _, nan_within _, nan_within _, nan_within _, nan_within _,
      nan_within _, nan_within _⟩
  | false =>
    simp only [Shape.membership, hx, Bool.false_eq_true, if_false]
    refine ⟨?_, ?_, ?_, ?_, ?_, ?_, ?_, ?_, ?_, ?_⟩
    · exact within_of rq (mul_in rq hin (inv _ (one_add (E.pow_pos _ _ (abs_atLeast _)))))
    · split
      · exact m0
      · exact within_of rq (mul_in rq hin (half_in (E.cos_in _)))
    · exact within_of rq (mul_in rq hin (gau _ _))
    · refine within_of rq (mul_in rq (mul_in rq hin ?_) ?_)
      · split
        · exact gau _ _
        · exact one
      · split
        · exact gau _ _
        · exact one
    · rw [Flt.mul_one]
      exact within_of rq (div_in rq hq (sig _ _))
    · exact within_of rq (mul_in rq hin (abs_sub_in (inv _ (sig _ _)) (inv _ (sig _ _))))
    · rw [Flt.mul_one]
      exact within_of rq (div_in rq hq (mul_ge_one (sig _ _) (sig _ _)))
    · exact within_of rq (mul_in rq hin (E.exp_le _ (neg_atMost (abs_atLeast _))))
    · split <;> assumption
    · split_ifs <;> assumption

/-- the functions of `<cmath>` are defined: `exp` on all numbers, `cos` on finite ones, powers of nonnegative numbers -/
structure Defined (ρ : Format) : Prop where
  exp_num : ∀ x : Flt ρ, x ≠ nan → exp x ≠ nan
  cos_num : ∀ x : Flt ρ, Op.isFinite x = true → cos x ≠ nan
  pow_num : ∀ x y : Flt ρ, AtLeast 0 x → x ≠ nan → y ≠ nan → pow x y ≠ nan

section number

theorem ne_nan {x : Flt ρ} : x ≠ nan ↔ x.val ≠ .nan := by
  rw [Ne, Flt.ext_iff]
  rfl

theorem mk'_ne {v : Ext ℚ} (h : v ≠ .nan) : mk' ρ v ≠ nan := by
  rw [ne_nan]
  cases v with
  | nan => exact absurd rfl h
  | fin q => exact ρ.rnd_ne_nan q
  | pinf => exact fun h => nomatch h
  | ninf => exact fun h => nomatch h

theorem num_one_add {y : Flt ρ} (h : y ≠ nan) : lit 1 + y ≠ nan := by
  change mk' ρ (Ext.add (lit 1 : Flt ρ).val y.val) ≠ nan
  rw [val_lit rep_one]
  apply mk'_ne
  rw [ne_nan] at h
  cases hv : y.val with
  | nan => exact absurd hv h
  | _ => simp [Ext.add]

theorem num_div {a : ℚ} (ra : ρ.Rep a) {y : Flt ρ} (h : y ≠ nan) (h1 : AtLeast 1 y) : of a ra / y ≠ nan := by
  change mk' ρ (Ext.div (.fin a) y.val) ≠ nan
  apply mk'_ne
  rw [ne_nan] at h
  rcases h1 with h1 | h1 | ⟨q, h1, h2⟩
  · exact absurd h1 h
  · rw [h1]; simp [Ext.div]
  · rw [h1]
    simp only [Ext.div]
    rw [if_neg (by linarith)]
    simp

theorem num_mul_in {a b : ℚ} {x y : Flt ρ} (hx : In 0 a x) (hy : In 0 b y) (nx : x ≠ nan) (ny : y ≠ nan) : x * y ≠ nan := by
  change mk' ρ (Ext.mul x.val y.val) ≠ nan
  apply mk'_ne
  rw [ne_nan] at nx ny
  obtain ⟨q, hq, -⟩ := hx.resolve_left nx
  obtain ⟨p, hp, -⟩ := hy.resolve_left ny
  rw [hq, hp]
  simp [Ext.mul]

theorem num_mul_ge {x y : Flt ρ} (hx : AtLeast 1 x) (hy : AtLeast 1 y) (nx : x ≠ nan) (ny : y ≠ nan) : x * y ≠ nan := by
  change mk' ρ (Ext.mul x.val y.val) ≠ nan
  apply mk'_ne
  rw [ne_nan] at nx ny
  rcases hx.resolve_left nx with h | ⟨q, h, h1⟩ <;> rcases hy.resolve_left ny with k | ⟨p, k, k1⟩ <;> rw [h, k]
  · simp [Ext.mul]
  · simp only [Ext.mul, Ext.signInf]
    rw [if_pos (by linarith)]
    simp
  · simp only [Ext.mul, Ext.signInf]
    rw [if_pos (by linarith)]
    simp
  · simp [Ext.mul]

theorem num_abs {y : Flt ρ} (h : y ≠ nan) : Scalar.abs y ≠ nan := by
  change mk' ρ (Ext.abs y.val) ≠ nan
  apply mk'_ne
  rw [ne_nan] at h
  cases hv : y.val with
  | nan => exact absurd hv h
  | _ => simp [Ext.abs]

theorem num_neg {y : Flt ρ} (h : y ≠ nan) : -y ≠ nan := by
  change mk' ρ (Ext.neg y.val) ≠ nan
  apply mk'_ne
  rw [ne_nan] at h
  cases hv : y.val with
  | nan => exact absurd hv h
  | _ => simp [Ext.neg]

theorem num_sub_in {a b c d : ℚ} {x y : Flt ρ} (hx : In a b x) (hy : In c d y) (nx : x ≠ nan) (ny : y ≠ nan) : x - y ≠ nan := by
  change mk' ρ (Ext.add x.val (Ext.neg y.val)) ≠ nan
  apply mk'_ne
  rw [ne_nan] at nx ny
  obtain ⟨q, hq, -⟩ := hx.resolve_left nx
  obtain ⟨p, hp, -⟩ := hy.resolve_left ny
  rw [hq, hp]
  simp [Ext.add, Ext.neg]

theorem num_mul {x y : Flt ρ} (hx : Op.isFinite x = true) (hy : Op.isFinite y = true) : x * y ≠ nan := by
  obtain ⟨p, rp, rfl⟩ := finite_of hx
  obtain ⟨q, rq, rfl⟩ := finite_of hy
  exact mk'_ne (v := .fin (p * q)) (by simp)

theorem num_quot {x y : Flt ρ} (hx : x ≠ nan) (hy : Op.isFinite y = true) (h0 : y ≠ lit 0) : x / y ≠ nan := by
  obtain ⟨q, rq, rfl⟩ := finite_of hy
  have hq : q ≠ 0 := by
    rintro rfl
    exact h0 (lit_rep rep_zero).symm
  change mk' ρ (Ext.div x.val (.fin q)) ≠ nan
  apply mk'_ne
  rw [ne_nan] at hx
  cases hv : x.val with
  | nan => exact absurd hv hx
  | fin p => simp [Ext.div, hq]
  | pinf => simp only [Ext.div]; split <;> simp
  | ninf => simp only [Ext.div]; split <;> simp

theorem finite_num {x : Flt ρ} (hx : Op.isFinite x = true) : x ≠ nan := by
  obtain ⟨p, rp, rfl⟩ := finite_of hx
  rw [ne_nan]
  exact fun h => nomatch h

theorem finite_fin {q : ℚ} (r : ρ.Rep q) : Op.isFinite (of q r) = true := by
  simp [Op.isFinite, eq_inf_of, eq_ninf_of]

theorem finite_neg {x : Flt ρ} (hx : Op.isFinite x = true) : Op.isFinite (-x) = true := by
  obtain ⟨p, rp, rfl⟩ := finite_of hx
  rw [neg_of]
  exact finite_fin _

/-- **C83.**  The smooth terms have numbers as values if their arguments do not overflow and widths are not zero. -/
theorem smooth_number_partial (E : ρ.Elementary) (N : Defined ρ) (h : Flt ρ) (hf : Op.isFinite h = true) (h0 : le (lit 0) h = true)
    (a b c d x : Flt ρ) (hx : x ≠ nan) (xa : Op.isFinite (x - a) = true) (xc : Op.isFinite (x - c) = true)
    (xd : Op.isFinite (x - d) = true) (fb : Op.isFinite b = true) (fc : Op.isFinite c = true) :
    (b ≠ lit 0 → (Shape.bell a b c).membership h x ≠ nan) ∧
    (Op.isFinite (lit 2 / b * piConst * (x - a)) = true → (Shape.cosine a b).membership h x ≠ nan) ∧
    (Op.isFinite (lit 2 * b * b) = true → lit 2 * b * b ≠ lit 0 → (Shape.gaussian a b).membership h x ≠ nan) ∧
    (Op.isFinite (lit 2 * b * b) = true → lit 2 * b * b ≠ lit 0 → Op.isFinite (lit 2 * d * d) = true → lit 2 * d * d ≠ lit 0 →
      (Shape.gaussianProduct a b c d).membership h x ≠ nan) ∧
    (Shape.sigmoid a b).membership h x ≠ nan ∧ (Shape.sigmoidDifference a b c d).membership h x ≠ nan ∧
    (Shape.sigmoidProduct a b c d).membership h x ≠ nan ∧
    (Op.isFinite (lit 10 / b) = true → (Shape.spike a b).membership h x ≠ nan) := by
  obtain ⟨q, rq, rfl, hq⟩ := finite_nonneg hf h0
  have hin := of_in rq hq
  have hnx : Op.isNaN x = false := (ScalarOrd.isNaN_false_iff x).2 hx
  have one : In 0 1 (lit 1 : Flt ρ) := Or.inr ⟨1, val_lit rep_one, by norm_num, le_rfl⟩
  have sig : ∀ s y : Flt ρ, AtLeast 1 (lit 1 + exp (-s * y)) := fun s y => one_add (E.exp_pos _)
  have nsig : ∀ s y : Flt ρ, Op.isFinite s = true → Op.isFinite y = true → lit 1 + exp (-s * y) ≠ nan := fun s y hs hy =>
    num_one_add (N.exp_num _ (num_mul (finite_neg hs) hy))
  have inv : ∀ y : Flt ρ, AtLeast 1 y → In 0 1 (lit 1 / y) := by
    intro y hy
    rw [lit_rep rep_one]
    exact div_in rep_one (by norm_num) hy
  have ninv : ∀ y : Flt ρ, AtLeast 1 y → y ≠ nan → lit 1 / y ≠ nan := by
    intro y hy hn
    rw [lit_rep rep_one]
    exact num_div rep_one hn hy
  have gau : ∀ y s : Flt ρ, In 0 1 (exp (-y * y / (lit 2 * s * s))) := fun y s =>
    E.exp_le _ (div_atMost (neg_sq_atMost y) (twice_sq_atLeast s))
  have ngau : ∀ y s : Flt ρ, Op.isFinite y = true → Op.isFinite (lit 2 * s * s) = true → lit 2 * s * s ≠ lit 0 →
      exp (-y * y / (lit 2 * s * s)) ≠ nan := fun y s hy hs h0 =>
    N.exp_num _ (num_quot (num_mul (finite_neg hy) hy) hs h0)
  have hqn : of q rq ≠ nan := finite_num hf
  have n1 : (lit 1 : Flt ρ) ≠ nan := by rw [lit_rep rep_one]; exact finite_num (finite_fin _)
  have n0 : of q rq * lit 0 ≠ nan := by rw [lit_rep rep_zero]; exact num_mul hf (finite_fin _)
  simp only [Shape.membership, hnx, Bool.false_eq_true, if_false]
  refine ⟨fun hb => ?_, fun hc => ?_, fun h1 h2 => ?_, fun h1 h2 h3 h4 => ?_, ?_, ?_, ?_, fun hw => ?_⟩
  · have e1 : Scalar.abs ((x - a) / b) ≠ nan := num_abs (num_quot (finite_num xa) fb hb)
    have e2 : lit 2 * c ≠ nan := num_mul (by rw [lit_rep rep_two]; exact finite_fin _) fc
    have e3 := N.pow_num _ _ (abs_atLeast _) e1 e2
    have e4 := one_add (E.pow_pos _ (lit 2 * c) (abs_atLeast ((x - a) / b)))
    exact num_mul_in hin (inv _ e4) hqn (ninv _ e4 (num_one_add e3))
  · split
    · exact n0
    · have e1 := E.cos_in (lit 2 / b * piConst * (x - a))
      have e2 := N.cos_num _ hc
      have e3 := half_in e1
      refine num_mul_in hin e3 hqn ?_
      have e4 : In 0 2 (lit 1 + cos (lit 2 / b * piConst * (x - a))) := by
        change In 0 2 (mk' ρ (Ext.add (lit 1 : Flt ρ).val _))
        rw [val_lit rep_one]
        apply in_mk' rep_zero rep_two
        rcases e1 with k | ⟨p, k, k0, k1⟩ <;> rw [k]
        · exact Or.inl rfl
        · exact Or.inr ⟨1 + p, rfl, by linarith, by linarith⟩
      have e5 : In 0 1 (lit (1/2) : Flt ρ) := Or.inr ⟨1/2, val_lit rep_half, by norm_num, by norm_num⟩
      refine num_mul_in e5 e4 ?_ (num_one_add e2)
      rw [lit_rep rep_half]
      exact finite_num (finite_fin _)
  · exact num_mul_in hin (gau _ _) hqn (ngau _ _ xa h1 h2)
  · have e1 : In 0 1 (if Op.isLt x a then exp ((-(x - a) * (x - a)) / (lit 2 * b * b)) else lit 1) ∧
        (if Op.isLt x a then exp ((-(x - a) * (x - a)) / (lit 2 * b * b)) else lit 1) ≠ nan := by
      split
      · exact ⟨gau _ _, ngau _ _ xa h1 h2⟩
      · exact ⟨one, n1⟩
    have e2 : In 0 1 (if Op.isGt x c then exp ((-(x - c) * (x - c)) / (lit 2 * d * d)) else lit 1) ∧
        (if Op.isGt x c then exp ((-(x - c) * (x - c)) / (lit 2 * d * d)) else lit 1) ≠ nan := by
      split
      · exact ⟨gau _ _, ngau _ _ xc h3 h4⟩
      · exact ⟨one, n1⟩
    exact num_mul_in (mul_in rq hin e1.1) e2.1 (num_mul_in hin e1.1 hqn e1.2) e2.2
  · rw [Flt.mul_one]
    exact num_div rq (nsig _ _ fb xa) (sig _ _)
  · refine num_mul_in hin (abs_sub_in (inv _ (sig _ _)) (inv _ (sig _ _))) hqn (num_abs ?_)
    exact num_sub_in (inv _ (sig _ _)) (inv _ (sig _ _)) (ninv _ (sig _ _) (nsig _ _ fb xa)) (ninv _ (sig _ _) (nsig _ _ fc xd))
  · rw [Flt.mul_one]
    exact num_div rq (num_mul_ge (sig _ _) (sig _ _) (nsig _ _ fb xa) (nsig _ _ fc xd)) (mul_ge_one (sig _ _) (sig _ _))
  · exact num_mul_in hin (E.exp_le _ (neg_atMost (abs_atLeast _))) hqn
      (N.exp_num _ (num_neg (num_abs (num_mul hw xa))))

end number

/-! ### S-shapes -/

/-- rounding has 53 binary digits, numbers up to `2 ^ 66` do not overflow, and the tolerance is between 2^-20 and 1 -/
structure Double (ρ : Format) (u ν Ω : ℚ) : Prop extends ρ.Fine u ν Ω where
  hu : u ≤ 1 / 9007199254740992
  hν : ν ≤ 1 / 9007199254740992
  hΩ : 2 ^ 66 ≤ Ω
  heps : 1 / 1048576 ≤ ρ.eps

/-- the squares of numbers up to 5/8, which are less than 2/5, are computed as numbers up to 1/2 -/
def Squares (ρ : Format) : Prop := ∀ (t : ℚ) (ht : ρ.Rep t), |t| ≤ 5 / 8 →
  ∃ v, ∃ hv : ρ.Rep v, pow (of t ht) (lit 2) = of v hv ∧ 0 ≤ v ∧ v ≤ 1 / 2

section
variable {u ν Ω : ℚ} (D : Double ρ u ν Ω)
include D

theorem err31 {x : ℚ} (h : |x| ≤ 2147483648) : |ρ.r x - x| ≤ 1 / 2097152 := by
  have hO : |x| ≤ Ω := h.trans (le_trans (by norm_num) D.hΩ)
  have := (D.toFine.err x hO).2
  have h1 : |x| * u ≤ 2147483648 * (1 / 9007199254740992) :=
    mul_le_mul h D.hu D.toFine.u0 (by norm_num)
  have := D.hν
  norm_num at h1 ⊢
  linarith

theorem err30 {x : ℚ} (h : |x| ≤ 1073741824) : |ρ.r x - x| ≤ 1 / 4194304 := by
  have hO : |x| ≤ Ω := h.trans (le_trans (by norm_num) D.hΩ)
  have := (D.toFine.err x hO).2
  have h1 : |x| * u ≤ 1073741824 * (1 / 9007199254740992) :=
    mul_le_mul h D.hu D.toFine.u0 (by norm_num)
  have := D.hν
  norm_num at h1 ⊢
  linarith

/-- a part of the width -/
theorem part_in {p W : ℚ} (p0 : 0 ≤ p) (hW : W ≤ 2147483648) (h1 : 1 / 16384 ≤ W) (h2 : 16 * ρ.eps ≤ W)
    (hp : p ≤ W / 2 + ρ.eps + 1 / 524288) : 0 ≤ ρ.r (p / ρ.r W) ∧ ρ.r (p / ρ.r W) ≤ 5 / 8 ∧ 0 < ρ.r W ∧ Format.Small (p / ρ.r W) := by
  have e1 := abs_le.1 (err31 D (abs_le.2 ⟨by linarith, hW⟩ : |W| ≤ 2147483648))
  have hw0 : 0 < ρ.r W := by linarith [e1.1]
  have hq : p / ρ.r W ≤ 319 / 512 := by
    rw [div_le_iff₀ hw0]
    linarith [e1.1]
  have q0 : 0 ≤ p / ρ.r W := div_nonneg p0 hw0.le
  have sm : Format.Small (p / ρ.r W) := small_of (by linarith) (by linarith)
  have e2 := abs_le.1 (err31 D sm)
  refine ⟨le_r (small_of (by norm_num) (by norm_num)) sm rep_zero q0, by linarith [e2.2], hw0, sm⟩

/-- the middle of a range -/
theorem middle {a b : ℚ} (ra : ρ.Rep a) (rb : ρ.Rep b) (sa : |a| ≤ 1073741824) (sb : |b| ≤ 1073741824) :
    ∃ m, ∃ rm : ρ.Rep m, lit (1/2) * (of a ra + of b rb) = of m rm ∧ |m - (a + b) / 2| ≤ 1 / 1048576 ∧ |m| ≤ 1073741824 := by
  obtain ⟨a1, a2⟩ := abs_le.1 sa
  obtain ⟨b1, b2⟩ := abs_le.1 sb
  have s1 : Format.Small (a + b) := abs_le.2 ⟨by linarith, by linarith⟩
  have s2 := small_r (ρ := ρ) s1
  have s3 : Format.Small (1 / 2 * ρ.r (a + b)) := by
    obtain ⟨h1, h2⟩ := abs_le.1 s2
    exact abs_le.2 ⟨by linarith, by linarith⟩
  have e1 := abs_le.1 (err31 D s1)
  have e2 := abs_le.1 (err31 D s3)
  refine ⟨_, r_rep _, by rw [lit_rep rep_half, add_of ra rb s1, mul_of rep_half _ s3], ?_, ?_⟩
  · exact abs_le.2 ⟨by linarith [e1.1, e2.1], by linarith [e1.2, e2.2]⟩
  · obtain ⟨h1, h2⟩ := abs_le.1 s2
    have b1 : ρ.Rep 1073741824 := by simpa using rep_int (ρ := ρ) 1073741824 (by norm_num)
    have sb : Format.Small (1073741824 : ℚ) := abs_le.2 ⟨by norm_num, by norm_num⟩
    have sb' : Format.Small (-1073741824 : ℚ) := abs_le.2 ⟨by norm_num, by norm_num⟩
    exact abs_le.2 ⟨le_r sb' s3 (rep_neg b1) (by linarith), r_le s3 sb b1 (by linarith)⟩

/-- the rising half of a curve -/
theorem rise (sq : Squares ρ) {s e x : ℚ} (rs : ρ.Rep s) (re : ρ.Rep e) (rx : ρ.Rep x) (ss : |s| ≤ 1073741824)
    (se : |e| ≤ 1073741824) (sx : |x| ≤ 1073741824) (h1 : 1 / 16384 ≤ e - s) (h2 : 16 * ρ.eps ≤ e - s)
    (hl : Op.isLE (of x rx) (of s rs) = false) (hm : Op.isLE (of x rx) (lit (1/2) * (of s rs + of e re)) = true) :
    ∃ v, ∃ hv : ρ.Rep v, pow ((of x rx - of s rs) / (of e re - of s rs)) (lit 2) = of v hv ∧ 0 ≤ v ∧ v ≤ 1 / 2 := by
  obtain ⟨m, rm, em, hme, hmb⟩ := middle D rs re ss se
  rw [em] at hm
  have d1 := small_sub sx ss
  have d2 := small_sub se ss
  have d3 := small_sub sx hmb
  rw [← Bool.not_eq_true, isLE_of rx rs d1, not_or, not_lt, not_lt] at hl
  rw [isLE_of rx rm d3] at hm
  have hxm : x ≤ m + ρ.eps := by
    rcases hm with hm | hm
    · by_contra hc
      push Not at hc
      have he1 : ρ.eps ≤ ρ.r (x - m) := by
        have se' : Format.Small ρ.eps := by
          have := (abs_le.1 d2).2
          have := ρ.eps_pos
          exact abs_le.2 ⟨by linarith, by linarith⟩
        exact le_r se' d3 ρ.eps_rnd (by linarith)
      linarith [le_abs_self (ρ.r (x - m))]
    · linarith [ρ.eps_pos]
  obtain ⟨e1, e2⟩ := abs_le.1 hme
  obtain ⟨e3, e4⟩ := abs_le.1 (err31 D d1)
  have p0 : 0 ≤ ρ.r (x - s) := le_r (small_of (by norm_num) (by norm_num)) d1 rep_zero (by linarith [hl.2])
  have hp : ρ.r (x - s) ≤ (e - s) / 2 + ρ.eps + 1 / 524288 := by linarith
  obtain ⟨q0, q1, w0, sm⟩ := part_in D p0 (abs_le.1 d2).2 h1 h2 hp
  rw [sub_of rx rs d1, sub_of re rs d2, div_of _ _ w0.ne' sm]
  exact sq _ _ (abs_le.2 ⟨by linarith, q1⟩)

/-- the other half -/
theorem fall (sq : Squares ρ) {s e x : ℚ} (rs : ρ.Rep s) (re : ρ.Rep e) (rx : ρ.Rep x) (ss : |s| ≤ 1073741824)
    (se : |e| ≤ 1073741824) (sx : |x| ≤ 1073741824) (h1 : 1 / 16384 ≤ e - s) (h2 : 16 * ρ.eps ≤ e - s)
    (hm : Op.isLE (of x rx) (lit (1/2) * (of s rs + of e re)) = false) (hl : Op.isLt (of x rx) (of e re) = true) :
    ∃ v, ∃ hv : ρ.Rep v, pow ((of x rx - of e re) / (of e re - of s rs)) (lit 2) = of v hv ∧ 0 ≤ v ∧ v ≤ 1 / 2 := by
  obtain ⟨m, rm, em, hme, hmb⟩ := middle D rs re ss se
  rw [em] at hm
  have d1 := small_sub sx se
  have d1' := small_sub se sx
  have d2 := small_sub se ss
  have d3 := small_sub sx hmb
  rw [isLt_of rx re d1] at hl
  rw [← Bool.not_eq_true, isLE_of rx rm d3, not_or, not_lt, not_lt] at hm
  obtain ⟨e1, e2⟩ := abs_le.1 hme
  obtain ⟨e3, e4⟩ := abs_le.1 (err31 D d1')
  have p0 : 0 ≤ ρ.r (e - x) := le_r (small_of (by norm_num) (by norm_num)) d1' rep_zero (by linarith [hl.1])
  have hp : ρ.r (e - x) ≤ (e - s) / 2 + ρ.eps + 1 / 524288 := by linarith [hm.2, ρ.eps_pos]
  obtain ⟨q0, q1, w0, sm⟩ := part_in D p0 (abs_le.1 d2).2 h1 h2 hp
  have en : ρ.r (x - e) = -ρ.r (e - x) := by rw [← r_neg]; congr 1; ring
  have sm' : Format.Small (ρ.r (x - e) / ρ.r (e - s)) := by
    rw [en, neg_div]
    unfold Format.Small at *
    rwa [abs_neg]
  rw [sub_of rx re d1, sub_of re rs d2, div_of _ _ w0.ne' sm']
  refine sq _ _ ?_
  rw [en, neg_div, r_neg, abs_neg]
  exact abs_le.2 ⟨by linarith, q1⟩

omit D in
theorem scale_in {h d : ℚ} (rh : ρ.Rep h) (rd : ρ.Rep d) (h0 : 0 ≤ h) (d0 : 0 ≤ d) (d1 : d ≤ 1) :
    ∃ z, ∃ rz : ρ.Rep z, of h rh * of d rd = of z rz ∧ 0 ≤ z ∧ z ≤ h := by
  have hin : In 0 h (of h rh * of d rd) := mul_in rh (of_in rh h0) (Or.inr ⟨d, rfl, d0, d1⟩)
  have hn : (of h rh * of d rd).val ≠ .nan := ρ.rnd_ne_nan (h * d)
  obtain ⟨z, hz, z0, z1⟩ := hin.resolve_left hn
  have rz : ρ.Rep z := by
    have := (of h rh * of d rd).rounded
    rw [hz] at this
    exact this
  exact ⟨z, rz, Flt.ext hz, z0, z1⟩

omit D in
theorem low_half {v : ℚ} (rv : ρ.Rep v) (v0 : 0 ≤ v) (v1 : v ≤ 1 / 2) :
    ∃ z, ∃ rz : ρ.Rep z, lit 2 * of v rv = of z rz ∧ 0 ≤ z ∧ z ≤ 1 := by
  rw [lit_rep rep_two, mul_of _ _ (small_of (by linarith) (by linarith))]
  obtain ⟨h1, h2⟩ := r01 (ρ := ρ) (show 0 ≤ 2 * v by linarith) (by linarith)
  exact ⟨_, _, rfl, h1, h2⟩

omit D in
theorem high_half {v : ℚ} (rv : ρ.Rep v) (v0 : 0 ≤ v) (v1 : v ≤ 1 / 2) :
    ∃ z, ∃ rz : ρ.Rep z, lit 1 - lit 2 * of v rv = of z rz ∧ 0 ≤ z ∧ z ≤ 1 := by
  obtain ⟨z, rz, e, z0, z1⟩ := low_half rv v0 v1
  rw [e, lit_rep rep_one, sub_of _ _ (small_of (by linarith) (by linarith))]
  obtain ⟨h1, h2⟩ := r01 (ρ := ρ) (show 0 ≤ 1 - z by linarith) (by linarith)
  exact ⟨_, _, rfl, h1, h2⟩

/-- a truth degree and its number -/
def Unit1 (y : Flt ρ) : Prop := ∃ z, ∃ rz : ρ.Rep z, y = of z rz ∧ 0 ≤ z ∧ z ≤ 1

omit D in
theorem unit_zero : Unit1 (lit 0 : Flt ρ) := ⟨0, rep_zero, lit_rep rep_zero, le_rfl, by norm_num⟩
omit D in
theorem unit_one : Unit1 (lit 1 : Flt ρ) := ⟨1, rep_one, lit_rep rep_one, by norm_num, le_rfl⟩

omit D in
theorem unit_scale {h y : Flt ρ} (hf : Op.isFinite h = true) (h0 : le (lit 0) h = true) (hy : Unit1 y) :
    ∃ z, ∃ rz : ρ.Rep z, h * y = of z rz ∧ 0 ≤ z ∧ le (of z rz) h = true := by
  obtain ⟨q, rq, rfl, hq⟩ := finite_nonneg hf h0
  obtain ⟨d, rd, rfl, d0, d1⟩ := hy
  obtain ⟨z, rz, e, z0, z1⟩ := scale_in rq rd hq d0 d1
  exact ⟨z, rz, e, z0, by simpa using z1⟩

/-- two numbers of moderate size that are apart: by 2^-14 and by 16 tolerances -/
def Apart (s e : Flt ρ) : Prop := ∃ a b, ∃ (ra : ρ.Rep a) (rb : ρ.Rep b), s = of a ra ∧ e = of b rb ∧ |a| ≤ 1073741824 ∧
  |b| ≤ 1073741824 ∧ 1 / 16384 ≤ b - a ∧ 16 * ρ.eps ≤ b - a

/-- the curves from zero to one and from one to zero -/
theorem curve_unit (sq : Squares ρ) (s e x : Flt ρ) (hw : Apart s e) (mx : Moderate x) :
    Unit1 (if Op.isLE x s then lit 0
        else if Op.isLE x (lit (1/2) * (s + e)) then lit 2 * pow ((x - s) / (e - s)) (lit 2)
        else if Op.isLt x e then lit 1 - lit 2 * pow ((x - e) / (e - s)) (lit 2)
        else lit 1) ∧
    Unit1 (if Op.isLE x s then lit 1
        else if Op.isLE x (lit (1/2) * (s + e)) then lit 1 - lit 2 * pow ((x - s) / (e - s)) (lit 2)
        else if Op.isLt x e then lit 2 * pow ((x - e) / (e - s)) (lit 2)
        else lit 0) := by
  obtain ⟨a, b, ra, rb, rfl, rfl, sa, sb, h1, h2⟩ := hw
  obtain ⟨x, rx, rfl, sx⟩ := mx
  by_cases c1 : Op.isLE (of x rx) (of a ra) = true
  · rw [if_pos c1, if_pos c1]
    exact ⟨unit_zero, unit_one⟩
  rw [if_neg c1, if_neg c1]
  by_cases c2 : Op.isLE (of x rx) (lit (1/2) * (of a ra + of b rb)) = true
  · rw [if_pos c2, if_pos c2]
    obtain ⟨v, rv, e, v0, v1⟩ := rise D sq ra rb rx sa sb sx h1 h2 (by simpa using c1) c2
    rw [e]
    exact ⟨low_half rv v0 v1, high_half rv v0 v1⟩
  rw [if_neg c2, if_neg c2]
  by_cases c3 : Op.isLt (of x rx) (of b rb) = true
  · rw [if_pos c3, if_pos c3]
    obtain ⟨v, rv, e, v0, v1⟩ := fall D sq ra rb rx sa sb sx h1 h2 (by simpa using c2) c3
    rw [e]
    exact ⟨high_half rv v0 v1, low_half rv v0 v1⟩
  · rw [if_neg c3, if_neg c3]
    exact ⟨unit_one, unit_zero⟩

/-- **C83.**  SShape, ZShape and PiShape, with slopes that are wide compared with the tolerance, have values between
zero and the height. -/
theorem curve_degree_partial (sq : Squares ρ) (h : Flt ρ) (hf : Op.isFinite h = true) (h0 : le (lit 0) h = true)
    (a b c d x : Flt ρ) (hab : Apart a b) (hcd : Apart c d) (mx : Moderate x) :
    (le (lit 0) ((Shape.sShape a b).membership h x) = true ∧ le ((Shape.sShape a b).membership h x) h = true) ∧
    (le (lit 0) ((Shape.zShape a b).membership h x) = true ∧ le ((Shape.zShape a b).membership h x) h = true) ∧
    (le (lit 0) ((Shape.piShape a b c d).membership h x) = true ∧ le ((Shape.piShape a b c d).membership h x) h = true) := by
  have hx : Op.isNaN x = false := by
    obtain ⟨x, rx, rfl, -⟩ := mx
    exact isNaN_of rx
  obtain ⟨u1, u2⟩ := curve_unit D sq a b x hab mx
  obtain ⟨-, u4⟩ := curve_unit D sq c d x hcd mx
  have fin : ∀ y : Flt ρ, Unit1 y → le (lit 0) (h * y) = true ∧ le (h * y) h = true := by
    intro y hy
    obtain ⟨z, rz, e, z0, z1⟩ := unit_scale hf h0 hy
    rw [e, lit_rep rep_zero]
    exact ⟨by simpa using z0, z1⟩
  refine ⟨?_, ?_, ?_⟩
  · have := fin _ u1
    simp only [Shape.membership, hx, Bool.false_eq_true, if_false]
    split_ifs at this ⊢ <;> exact this
  · have := fin _ u2
    simp only [Shape.membership, hx, Bool.false_eq_true, if_false]
    split_ifs at this ⊢ <;> exact this
  · simp only [Shape.membership, hx, Bool.false_eq_true, if_false]
    obtain ⟨z, rz, e, z0, z1⟩ := unit_scale hf h0 u1
    obtain ⟨w, rw', e', w0, w1⟩ := u4
    obtain ⟨q, rq, rfl, hq⟩ := finite_nonneg hf h0
    rw [le_of, decide_eq_true_eq] at z1
    obtain ⟨t, rt, e'', t0, t1⟩ := scale_in rz rw' z0 w0 w1
    rw [e, e', e'', lit_rep rep_zero, le_of, le_of, decide_eq_true_eq, decide_eq_true_eq]
    exact ⟨t0, t1.trans z1⟩

/-! ### Concave -/

/-- a finite number up to 2^27 -/
def Bounded (x : Flt ρ) : Prop := ∃ q, ∃ h : ρ.Rep q, x = of q h ∧ |q| ≤ 134217728

/-- the denominator of a concave term is at least the numerator -/
theorem concave_den {i e x : ℚ} (ri : ρ.Rep i) (re : ρ.Rep e) (rx : ρ.Rep x) (si : |i| ≤ 134217728) (se : |e| ≤ 134217728)
    (sx : |x| ≤ 134217728) (hie : i ≤ e) (hx : x < e) (hxe : ρ.eps ≤ ρ.r (e - x)) :
    ∃ d, ∃ rd : ρ.Rep d, lit 2 * of e re - of i ri - of x rx = of d rd ∧ ρ.r (e - i) ≤ d ∧ 0 < d ∧
      d = ρ.r (ρ.r (2 * e - i) - x) := by
  obtain ⟨i1, i2⟩ := abs_le.1 si
  obtain ⟨e1, e2⟩ := abs_le.1 se
  obtain ⟨x1, x2⟩ := abs_le.1 sx
  have r2 : ρ.Rep (2 * e) := ρ.rnd_double e (se.trans (by norm_num)) re
  have s0 : Format.Small (2 * e) := abs_le.2 ⟨by linarith, by linarith⟩
  have s1 : Format.Small (2 * e - i) := abs_le.2 ⟨by linarith, by linarith⟩
  have s4 : Format.Small (e - x) := abs_le.2 ⟨by linarith, by linarith⟩
  have s5 : Format.Small (e - i) := abs_le.2 ⟨by linarith, by linarith⟩
  obtain ⟨f1, f2⟩ := abs_le.1 (err30 D (x := 2 * e - i) (abs_le.2 ⟨by linarith, by linarith⟩))
  obtain ⟨f3, f4⟩ := abs_le.1 (err30 D (x := e - x) (abs_le.2 ⟨by linarith, by linarith⟩))
  have s2 : Format.Small (ρ.r (2 * e - i) - x) := abs_le.2 ⟨by linarith, by linarith⟩
  have he := D.heps
  have h1 : e - i ≤ ρ.r (2 * e - i) - x := by linarith
  have h2 : 1 / 2097152 ≤ ρ.r (2 * e - i) - x := by linarith
  obtain ⟨f5, f6⟩ := abs_le.1 (err30 D (x := ρ.r (2 * e - i) - x) (abs_le.2 ⟨by linarith, by linarith⟩))
  refine ⟨_, r_rep _, ?_, r_mono s5 s2 h1, ?_, rfl⟩
  · rw [lit_rep rep_two, mul_of rep_two re s0, show of (ρ.r (2 * e)) (r_rep _) = of (2 * e) r2 from of_inj.2 (r_of_rep r2),
      sub_of _ ri s1, sub_of _ rx s2]
  · linarith

/-- **C83.**  Concave, with parameters of moderate size on the right side of each other, has truth degrees if the
height is a truth degree. -/
theorem concave_degree_partial (h : Flt ρ) (hh : Degree h) (i e x : Flt ρ) (mi : Bounded i) (me : Bounded e)
    (mx : Bounded x) (hie : Op.isLE i e = le i e) : Degree ((Shape.concave i e).membership h x) := by
  obtain ⟨h, rh, rfl, h0, h1⟩ := degree_iff.1 hh
  have d1 : Degree (of h rh * lit 1) := by rw [lit1]; exact mul_degree rh _ h0 h1 (by norm_num) le_rfl
  obtain ⟨i, ri, rfl, si⟩ := mi
  obtain ⟨e, re, rfl, se⟩ := me
  obtain ⟨x, rx, rfl, sx⟩ := mx
  have nb : ∀ {y : ℚ}, |y| ≤ 134217728 → |y| ≤ 1073741824 := fun h => h.trans (by norm_num)
  simp only [Shape.membership, isNaN_of rx, Bool.false_eq_true, if_false, hie, le_of, decide_eq_true_eq]
  split_ifs with c1 c2 c3
  · rw [isLt_of rx re (small_sub (nb sx) (nb se))] at c2
    have he := eps_le c2.1 (small_sub (nb sx) (nb se)) c2.2
    obtain ⟨d, rd, e1, e2, e3, -⟩ := concave_den D ri re rx si se sx c1 c2.1 he
    rw [e1, sub_of re ri (small_sub (nb se) (nb si))]
    refine ratio_degree rh _ _ h0 h1 ?_ e2 e3 (small_r (small_sub (nb se) (nb si)))
    exact le_r (small_of (by norm_num) (by norm_num)) (small_sub (nb se) (nb si)) rep_zero (by linarith)
  · exact d1
  · rw [isGt_of rx re (small_sub (nb sx) (nb se))] at c3
    have sxe := small_sub (nb sx) (nb se)
    have he : ρ.eps ≤ ρ.r (-e - -x) := by
      have h0' : 0 ≤ ρ.r (x - e) := le_r (small_of (by norm_num) (by norm_num)) sxe rep_zero (by linarith)
      rw [abs_of_nonneg h0'] at c3
      rw [show -e - -x = x - e by ring]
      exact c3.2
    push Not at c1
    obtain ⟨d, rd, -, e2, e3, e4⟩ := concave_den D (rep_neg ri) (rep_neg re) (rep_neg rx) (by rwa [abs_neg]) (by rwa [abs_neg])
      (by rwa [abs_neg]) (neg_le_neg c1.le) (neg_lt_neg c3.1) he
    rw [show -e - -i = i - e by ring] at e2
    rw [show 2 * -e - -i = i - 2 * e by ring, sub_neg_eq_add] at e4
    obtain ⟨i1, i2⟩ := abs_le.1 si
    obtain ⟨e1', e2'⟩ := abs_le.1 se
    obtain ⟨x1, x2⟩ := abs_le.1 sx
    have r2 : ρ.Rep (2 * e) := ρ.rnd_double e (nb se) re
    have s0 : Format.Small (2 * e) := abs_le.2 ⟨by linarith, by linarith⟩
    have s1 : Format.Small (i - 2 * e) := abs_le.2 ⟨by linarith, by linarith⟩
    obtain ⟨f1, f2⟩ := abs_le.1 (err31 D s1)
    have s2 : Format.Small (ρ.r (i - 2 * e) + x) := abs_le.2 ⟨by linarith, by linarith⟩
    have ed : of i ri - lit 2 * of e re + of x rx = of d rd := by
      rw [lit_rep rep_two, mul_of rep_two re s0, show of (ρ.r (2 * e)) (r_rep _) = of (2 * e) r2 from of_inj.2 (r_of_rep r2),
        sub_of ri _ s1, add_of _ rx s2]
      exact of_inj.2 e4.symm
    rw [ed, sub_of ri re (small_sub (nb si) (nb se))]
    refine ratio_degree rh _ _ h0 h1 ?_ e2 e3 (small_r (small_sub (nb si) (nb se)))
    exact le_r (small_of (by norm_num) (by norm_num)) (small_sub (nb si) (nb se)) rep_zero (by linarith)
  · exact d1

end

/-! ### Order -/

/-- the values of an ascending ramp -/
def rampValue (ρ : Format) (s e x : ℚ) : ℚ :=
  if |ρ.r (x - s)| < ρ.eps ∨ x < s then 0
  else if |ρ.r (x - e)| < ρ.eps ∨ e < x then 1
  else ρ.r (ρ.r (x - s) / ρ.r (e - s))

theorem rampValue_mono {s e x y : ℚ} (ss : |s| ≤ 1073741824) (se : |e| ≤ 1073741824)
    (sx : |x| ≤ 1073741824) (sy : |y| ≤ 1073741824) (hse : s < e) (hw : ρ.eps ≤ ρ.r (e - s)) (hxy : x ≤ y) :
    0 ≤ rampValue ρ s e x ∧ rampValue ρ s e x ≤ rampValue ρ s e y := by
  have zero : Format.Small (0 : ℚ) := small_of (by norm_num) (by norm_num)
  have ep := ρ.eps_pos
  have quot : ∀ z, |z| ≤ 1073741824 → s ≤ z → z ≤ e → 0 ≤ ρ.r (z - s) / ρ.r (e - s) ∧ ρ.r (z - s) / ρ.r (e - s) ≤ 1 := by
    intro z sz h1 h2
    have p0 : 0 ≤ ρ.r (z - s) := le_r zero (small_sub sz ss) rep_zero (by linarith)
    have p1 : ρ.r (z - s) ≤ ρ.r (e - s) := r_mono (small_sub sz ss) (small_sub se ss) (by linarith)
    exact ⟨div_nonneg p0 (by linarith), (div_le_one (by linarith)).2 p1⟩
  have pos : ∀ z, |z| ≤ 1073741824 → 0 ≤ rampValue ρ s e z := by
    intro z sz
    unfold rampValue
    split_ifs with c1 c2
    · exact le_rfl
    · norm_num
    · push Not at c1 c2
      obtain ⟨h1, h2⟩ := quot z sz c1.2 c2.2
      exact (r01 h1 h2).1
  refine ⟨pos x sx, ?_⟩
  by_cases A : |ρ.r (x - s)| < ρ.eps ∨ x < s
  · have : rampValue ρ s e x = 0 := if_pos A
    rw [this]
    exact pos y sy
  have A' := A
  push Not at A'
  have r1 : 0 ≤ ρ.r (x - s) := le_r zero (small_sub sx ss) rep_zero (by linarith [A'.2])
  rw [abs_of_nonneg r1] at A'
  have r2 : ρ.r (x - s) ≤ ρ.r (y - s) := r_mono (small_sub sx ss) (small_sub sy ss) (by linarith)
  have Ay : ¬ (|ρ.r (y - s)| < ρ.eps ∨ y < s) := by
    push Not
    exact ⟨by rw [abs_of_nonneg (by linarith)]; linarith [A'.1], by linarith [A'.2]⟩
  unfold rampValue
  rw [if_neg A, if_neg Ay]
  by_cases B : |ρ.r (x - e)| < ρ.eps ∨ e < x
  · have By : |ρ.r (y - e)| < ρ.eps ∨ e < y := by
      by_cases hy : e < y
      · exact Or.inr hy
      · left
        push Not at hy
        have hx : |ρ.r (x - e)| < ρ.eps := B.resolve_right (by linarith)
        have r3 : ρ.r (x - e) ≤ ρ.r (y - e) := r_mono (small_sub sx se) (small_sub sy se) (by linarith)
        have r4 : ρ.r (y - e) ≤ 0 := r_le (small_sub sy se) zero rep_zero (by linarith)
        rw [abs_of_nonpos r4]
        rw [abs_of_nonpos (r3.trans r4)] at hx
        linarith
    rw [if_pos B, if_pos By]
  · rw [if_neg B]
    push Not at B
    obtain ⟨h1, h2⟩ := quot x sx A'.2 B.2
    split_ifs with c
    · exact (r01 h1 h2).2
    · push Not at c
      obtain ⟨h3, h4⟩ := quot y sy (by linarith [A'.2]) c.2
      refine r_mono (small_of (by linarith) (by linarith)) (small_of (by linarith) (by linarith)) ?_
      exact div_le_div_of_nonneg_right r2 (by linarith)

theorem one_mul_of {p : ℚ} (rp : ρ.Rep p) : lit 1 * of p rp = of p rp := by
  rw [Flt.mul_comm, Flt.mul_one]

/-- **C83.**  Ramp is monotone when rounded, ascending or descending. -/
theorem ramp_monotone (s e x y : Flt ρ) (ms : Moderate s) (me : Moderate e) (mx : Moderate x) (my : Moderate y)
    (hne : Op.isEq s e = false) (hxy : le x y = true) :
    (Op.isLt s e = true → le ((Shape.ramp s e).membership (lit 1) x) ((Shape.ramp s e).membership (lit 1) y) = true) ∧
    (Op.isLt s e = false → le ((Shape.ramp s e).membership (lit 1) y) ((Shape.ramp s e).membership (lit 1) x) = true) := by
  obtain ⟨s, rs, rfl, ss⟩ := ms
  obtain ⟨e, re, rfl, se⟩ := me
  obtain ⟨x, rx, rfl, sx⟩ := mx
  obtain ⟨y, ry, rfl, sy⟩ := my
  rw [le_of, decide_eq_true_eq] at hxy
  have zero : Format.Small (0 : ℚ) := small_of (by norm_num) (by norm_num)
  have ep := ρ.eps_pos
  have one : (lit 1 : Flt ρ) * lit 1 = of 1 rep_one := by
    have := Flt.mul_one (ρ := ρ) rep_one
    rwa [lit_rep rep_one] at this ⊢
  have up : s < e → ρ.eps ≤ ρ.r (e - s) → Op.isLt (of s rs) (of e re) = true → ∀ z (rz : ρ.Rep z), |z| ≤ 1073741824 →
      ∃ r, (Shape.ramp (of s rs) (of e re)).membership (lit 1) (of z rz) = of (rampValue ρ s e z) r := by
    intro hse hw hl z rz sz
    simp only [Shape.membership, isNaN_of rz, hne, Bool.or_false, Bool.false_eq_true, if_false, hl, if_true]
    simp only [isLE_of rz rs (small_sub sz ss), isGE_of rz re (small_sub sz se)]
    unfold rampValue
    split_ifs with c1 c2
    · exact ⟨rep_zero, by rw [lit_rep rep_zero, one_mul_of]⟩
    · exact ⟨rep_one, one⟩
    · push Not at c1 c2
      have p0 : 0 ≤ ρ.r (z - s) := le_r zero (small_sub sz ss) rep_zero (by linarith [c1.2])
      have p1 : ρ.r (z - s) ≤ ρ.r (e - s) := r_mono (small_sub sz ss) (small_sub se ss) (by linarith [c2.2])
      have q0 := div_nonneg p0 (show 0 ≤ ρ.r (e - s) by linarith)
      have q1 := (div_le_one (show 0 < ρ.r (e - s) by linarith)).2 p1
      refine ⟨r_rep _, ?_⟩
      rw [sub_of rz rs (small_sub sz ss), sub_of re rs (small_sub se ss), one_mul_of,
        div_of _ _ (by linarith) (small_of (by linarith) (by linarith))]
  have down : e < s → ρ.eps ≤ ρ.r (s - e) → Op.isLt (of s rs) (of e re) = false → ∀ z (rz : ρ.Rep z), |z| ≤ 1073741824 →
      ∃ r, (Shape.ramp (of s rs) (of e re)).membership (lit 1) (of z rz) = of (rampValue ρ (-s) (-e) (-z)) r := by
    intro hse hw hl z rz sz
    simp only [Shape.membership, isNaN_of rz, hne, Bool.or_false, Bool.false_eq_true, if_false, hl]
    simp only [isGE_of rz rs (small_sub sz ss), isLE_of rz re (small_sub sz se)]
    have a1 : |ρ.r (-z - -s)| = |ρ.r (z - s)| := by
      rw [show -z - -s = -(z - s) by ring, r_neg, abs_neg]
    have a2 : |ρ.r (-z - -e)| = |ρ.r (z - e)| := by
      rw [show -z - -e = -(z - e) by ring, r_neg, abs_neg]
    unfold rampValue
    simp only [a1, a2, neg_lt_neg_iff]
    split_ifs with c1 c2
    · exact ⟨rep_zero, by rw [lit_rep rep_zero, one_mul_of]⟩
    · exact ⟨rep_one, one⟩
    · push Not at c1 c2
      have p0 : 0 ≤ ρ.r (s - z) := le_r zero (small_sub ss sz) rep_zero (by linarith [c1.2])
      have p1 : ρ.r (s - z) ≤ ρ.r (s - e) := r_mono (small_sub ss sz) (small_sub ss se) (by linarith [c2.2])
      have q0 := div_nonneg p0 (show 0 ≤ ρ.r (s - e) by linarith)
      have q1 := (div_le_one (show 0 < ρ.r (s - e) by linarith)).2 p1
      refine ⟨r_rep _, ?_⟩
      rw [sub_of rs rz (small_sub ss sz), sub_of rs re (small_sub ss se), one_mul_of,
        div_of _ _ (by linarith) (small_of (by linarith) (by linarith))]
      exact of_inj.2 (by rw [show -z - -s = s - z by ring, show -e - -s = s - e by ring])
  rw [← Bool.not_eq_true, isEq_of rs re (small_sub ss se), not_lt] at hne
  constructor
  · intro hl
    have hl' := (isLt_of rs re (small_sub ss se)).1 hl
    have hw := eps_le hl'.1 (small_sub ss se) hl'.2
    obtain ⟨r1, e1⟩ := up hl'.1 hw hl x rx sx
    obtain ⟨r2, e2⟩ := up hl'.1 hw hl y ry sy
    rw [e1, e2, le_of, decide_eq_true_eq]
    exact (rampValue_mono ss se sx sy hl'.1 hw hxy).2
  · intro hl
    have hes : e < s := by
      by_contra hc
      push Not at hc
      rw [← Bool.not_eq_true, isLt_of rs re (small_sub ss se)] at hl
      rcases hc.lt_or_eq with h | h
      · exact hl ⟨h, hne⟩
      · rw [h, sub_self, r_of_rep rep_zero, abs_zero] at hne
        linarith
    have hw : ρ.eps ≤ ρ.r (s - e) := by
      have := le_r (ρ := ρ) zero (small_sub ss se) rep_zero (show 0 ≤ s - e by linarith)
      rwa [abs_of_nonneg this] at hne
    obtain ⟨r1, e1⟩ := down hes hw hl x rx sx
    obtain ⟨r2, e2⟩ := down hes hw hl y ry sy
    rw [e1, e2, le_of, decide_eq_true_eq]
    have n : ∀ {z : ℚ}, |z| ≤ 1073741824 → |-z| ≤ 1073741824 := fun h => by rwa [abs_neg]
    refine (rampValue_mono (n ss) (n se) (n sy) (n sx) (by linarith) ?_ (by linarith)).2
    rwa [show -e - -s = s - e by ring]

/-! ### Doubles -/

/-- the numbers of type `double` -/
theorem double (lib1 : Fn1 → Ext ℚ → Ext ℚ) (lib2 : Fn2 → Ext ℚ → Ext ℚ → Ext ℚ) :
    Double (binary64 lib1 lib2) (2 ^ (-53 : ℤ)) (2 ^ (-1075 : ℤ)) (2 ^ (1000 : ℤ)) where
  toFine := Binary64.fine lib1 lib2
  hu := by norm_num
  hν := by
    have : (2 : ℚ) ^ (-1075 : ℤ) ≤ 2 ^ (-53 : ℤ) := zpow_le_zpow_right₀ (by norm_num) (by norm_num)
    exact this.trans (by norm_num)
  hΩ := by
    have : (2 : ℚ) ^ (66 : ℤ) ≤ 2 ^ (1000 : ℤ) := zpow_le_zpow_right₀ (by norm_num) (by norm_num)
    exact_mod_cast this
  heps := by
    change (1 / 1048576 : ℚ) ≤ (binary64 (fun _ x => x) (fun _ x _ => x)).eps
    decide +kernel

/-- functions that are easy to compute and look like `exp` and `cos` -/
def easy1 : Fn1 → Ext ℚ → Ext ℚ
  | .exp, .fin q => if q ≤ 0 then .fin (1 / (1 - q)) else .fin (1 + q)
  | .exp, .ninf => .fin 0
  | .cos, .fin q => .fin (1 / (1 + q * q))
  | .cos, _ => .nan
  | _, x => x

/-- squares, and one for all other powers -/
def easy2 : Fn2 → Ext ℚ → Ext ℚ → Ext ℚ
  | .pow, .nan, _ => .nan
  | .pow, _, .nan => .nan
  | .pow, x, .fin y => if y = 2 then Ext.mul x x else .fin 1
  | _, _, _ => .fin 1

/-- doubles with these functions -/
abbrev easy : Format := binary64 easy1 easy2

theorem easy_elementary : easy.Elementary where
  exp_pos x := by
    change AtLeast 0 (mk' easy (easy1 .exp x.val))
    apply atLeast_mk' rep_zero
    cases x.val with
    | fin q =>
      simp only [easy1]
      split_ifs with h
      · exact Or.inr (Or.inr ⟨_, rfl, div_nonneg (by norm_num) (by linarith)⟩)
      · exact Or.inr (Or.inr ⟨_, rfl, by linarith⟩)
    | nan => exact Or.inl rfl
    | pinf => exact Or.inr (Or.inl rfl)
    | ninf => exact Or.inr (Or.inr ⟨0, rfl, le_rfl⟩)
  exp_le x h := by
    change In 0 1 (mk' easy (easy1 .exp x.val))
    apply in_mk' rep_zero rep_one
    rcases h with h | h | ⟨q, h, h0⟩ <;> rw [h]
    · exact Or.inl rfl
    · exact Or.inr ⟨0, rfl, le_rfl, by norm_num⟩
    · simp only [easy1, if_pos h0]
      exact Or.inr ⟨_, rfl, div_nonneg (by norm_num) (by linarith), (div_le_one (by linarith)).2 (by linarith)⟩
  cos_in x := by
    change In (-1) 1 (mk' easy (easy1 .cos x.val))
    apply in_mk' (rep_neg rep_one) rep_one
    cases x.val with
    | fin q =>
      have := mul_self_nonneg q
      have h0 : (0 : ℚ) ≤ 1 / (1 + q * q) := div_nonneg (by norm_num) (by linarith)
      exact Or.inr ⟨_, rfl, by linarith, (div_le_one (by linarith)).2 (by linarith)⟩
    | nan => exact Or.inl rfl
    | pinf => exact Or.inl rfl
    | ninf => exact Or.inl rfl
  pow_pos x y h := by
    change AtLeast 0 (mk' easy (easy2 .pow x.val y.val))
    apply atLeast_mk' rep_zero
    have one : ∀ {v : Ext ℚ}, v = .fin 1 → v = .nan ∨ v = .pinf ∨ ∃ q, v = .fin q ∧ (0:ℚ) ≤ q :=
      fun h => Or.inr (Or.inr ⟨1, h, by norm_num⟩)
    rcases h with h | h | ⟨q, h, h0⟩ <;> rw [h] <;> cases y.val with
    | fin p =>
      first
      | exact Or.inl rfl
      | simp only [easy2]
        split_ifs
        · first
          | exact Or.inr (Or.inl rfl)
          | exact Or.inr (Or.inr ⟨_, rfl, mul_nonneg h0 h0⟩)
        · exact Or.inr (Or.inr ⟨1, rfl, by norm_num⟩)
    | nan => exact Or.inl rfl
    | _ => first | exact one rfl | exact Or.inl rfl

theorem easy_defined : Defined easy where
  exp_num x h := by
    change mk' easy (easy1 .exp x.val) ≠ nan
    apply mk'_ne
    rw [ne_nan] at h
    cases hv : x.val with
    | nan => exact absurd hv h
    | fin q => simp only [easy1]; split <;> simp
    | pinf => simp [easy1]
    | ninf => simp [easy1]
  cos_num x h := by
    obtain ⟨q, r, rfl⟩ := finite_of h
    change mk' easy (easy1 .cos (.fin q)) ≠ nan
    exact mk'_ne (by simp [easy1])
  pow_num x y _ hx hy := by
    change mk' easy (easy2 .pow x.val y.val) ≠ nan
    apply mk'_ne
    rw [ne_nan] at hx hy
    cases hv : x.val <;> cases hw : y.val <;> first | exact absurd hv hx | exact absurd hw hy | skip
    all_goals simp only [easy2]
    all_goals try split
    all_goals simp [Ext.mul]

theorem easy_squares : Squares easy := by
  intro t ht h
  have e : (lit 2 : Flt easy).val = .fin 2 := val_lit rep_two
  have hs : t * t ≤ 1 / 2 := by
    have := abs_mul_abs_self t
    nlinarith [abs_nonneg t]
  have h0 := mul_self_nonneg t
  have sm : Format.Small (t * t) := small_of (by linarith) (by linarith)
  refine ⟨easy.r (t * t), r_rep _, ?_, le_r (small_of (by norm_num) (by norm_num)) sm rep_zero h0,
    r_le sm (small_of (by norm_num) (by norm_num)) rep_half hs⟩
  apply Flt.ext
  change easy.round (easy2 .pow (.fin t) (lit 2 : Flt easy).val) = _
  rw [e]
  exact rnd_small (ρ := easy) sm

/-! ### Where rounding matters -/

/-- **C83.**  Two parameters of an SShape whose sum is rounded: in their order the middle is the end, so the value at the
end is 2 for SShape and PiShape, and -1 for ZShape. -/
theorem curve_violated :
    lt (lit 9007199254740994 : Flt easy) (lit 9007199254740996) = true ∧
    (Shape.sShape (lit 9007199254740994) (lit 9007199254740996)).membership (lit 1) (lit 9007199254740996 : Flt easy) = lit 2 ∧
    (Shape.zShape (lit 9007199254740994) (lit 9007199254740996)).membership (lit 1) (lit 9007199254740996 : Flt easy) = lit (-1) ∧
    (Shape.piShape (lit 9007199254740994) (lit 9007199254740996) (lit 9007199254740998) (lit 9007199254741000)).membership (lit 1)
      (lit 9007199254740996 : Flt easy) = lit 2 := by decide +kernel

/-- **C83.**  The same when the sum overflows. -/
theorem overflow_violated :
    (Shape.sShape (lit (2 ^ 1022)) (lit (3 * 2 ^ 1022))).membership (lit 1) (lit (3 * 2 ^ 1022) : Flt easy) = lit 2 := by
  decide +kernel

/-- **C83.**  A concave term with a far inflection has values greater than one. -/
theorem concave_violated :
    lt (lit 1) ((Shape.concave (lit (-36028797018963968)) (lit 5)).membership (lit 1) (lit (9 / 2) : Flt easy)) = true := by
  decide +kernel

/-- **C83.**  A Gaussian is not a number at its mean if its width underflows, and a ramp is not a number if it
overflows. -/
theorem number_violated :
    lt (lit 0) (lit (1 / 10 ^ 200) : Flt easy) = true ∧
    (Shape.gaussian (lit 1) (lit (1 / 10 ^ 200))).membership (lit 1) (lit 1 : Flt easy) = nan ∧
    (Shape.ramp (lit (-10 ^ 308)) (lit (10 ^ 308))).membership (lit 1) (lit (9 * 10 ^ 307) : Flt easy) = nan := by
  decide +kernel

/-- **C83.**  A discrete term between ordinates 0.54 and 0.09 has a value less than both. -/
theorem discrete_violated :
    (Discrete.membership (lit 1) [(lit (-326726), lit (54 / 100)), (lit 7671050603674, lit (9 / 100))]
      (lit (7671050603674 - 1 / 1024) : Flt easy)).toOption.any (fun y => lt y (lit (9 / 100))) = true := by
  decide +kernel

/-! ### Examples -/

example (x : Flt easy) : Within (lit 1) ((Shape.gaussian (lit 0) (lit (1 / 10))).membership (lit 1) x) :=
  (smooth_degree easy_elementary (lit 1) (by decide +kernel) (by decide +kernel) (lit 0) (lit (1 / 10)) (lit 0) (lit 0) x).2.2.1

/-- a width of zero is excluded from `smooth_number_partial`, and rightly so -/
example : (Shape.bell (lit 1) (lit 0) (lit 1)).membership (lit 1) (lit 1 : Flt easy) = nan ∧
    (Shape.bell (lit 1) (lit 2) (lit 1)).membership (lit 1) (lit 3 : Flt easy) = lit (1 / 2) ∧
    (Shape.sigmoid (lit 0) (lit (-1))).membership (lit 1) (lit 1 : Flt easy) = lit (1 / 3) := by decide +kernel

example : (Shape.sShape (lit (1 / 10)) (lit (9 / 10))).membership (lit 1) (lit (3 / 10) : Flt easy) ≠ lit (1 / 8) ∧
    lt ((Shape.sShape (lit (1 / 10)) (lit (9 / 10))).membership (lit 1) (lit (3 / 10) : Flt easy)) (lit (1 / 8)) = true ∧
    (Shape.zShape (lit (1 / 10)) (lit (9 / 10))).membership (lit 1) (lit (1 / 2) : Flt easy) = lit (1 / 2) ∧
    lt (lit (7 / 8)) ((Shape.concave (lit (1 / 4)) (lit (3 / 4))).membership (lit 1) (lit (7 / 10) : Flt easy)) = true := by
  decide +kernel

/-- the hypotheses of `curve_degree_partial` can be met -/
example (x : Flt easy) (mx : Moderate x) :
    le (lit 0) ((Shape.zShape (lit 1) (lit 2)).membership (lit 1) x) = true ∧
    le ((Shape.zShape (lit 1) (lit 2)).membership (lit 1) x) (lit 1) = true := by
  have w : Apart (lit 1 : Flt easy) (lit 2) :=
    ⟨1, 2, rep_one, rep_two, lit_rep rep_one, lit_rep rep_two, by norm_num, by norm_num, by norm_num, by decide +kernel⟩
  exact (curve_degree_partial (double easy1 easy2) easy_squares (lit 1) (by decide +kernel) (by decide +kernel)
    (lit 1) (lit 2) (lit 1) (lit 2) x w w mx).2.1

example (x y : Flt easy) (mx : Moderate x) (my : Moderate y) (h : le x y = true) :
    le ((Shape.ramp (lit 1) (lit 2)).membership (lit 1) x) ((Shape.ramp (lit 1) (lit 2)).membership (lit 1) y) = true :=
  (ramp_monotone (lit 1) (lit 2) x y ⟨1, rep_one, lit_rep rep_one, by norm_num⟩ ⟨2, rep_two, lit_rep rep_two, by norm_num⟩ mx my
    (by decide +kernel) h).1 (by decide +kernel)

end Rounded
end FL
