/-
Rounded arithmetic: errors of sums, means and ratios of sums.
-/
import Verif.Lemmas.Rounded
import Verif.Model.Defuzzifier
import Mathlib.Tactic.LinearCombination

namespace FL
open Scalar

/-- Rounding is accurate: numbers up to `Ω` are rounded to numbers with a relative error of at most `u` and
an absolute error of at most `ν`, which is the error of numbers that underflow. -/
structure Format.Fine (ρ : Format) (u ν Ω : ℚ) : Prop where
  u0 : 0 ≤ u
  ν0 : 0 ≤ ν
  err : ∀ x, |x| ≤ Ω → ρ.rnd x = .fin (ρ.r x) ∧ |ρ.r x - x| ≤ |x| * u + ν

namespace Binary64
open Ext

theorem near_error {x : ℚ} (hx : 0 < x) : |near x - x| ≤ x * 2 ^ (-53 : ℤ) + 2 ^ (-1075 : ℤ) := by
  have hp : (0 : ℚ) < 2 ^ expo x := by positivity
  obtain ⟨h1, h2⟩ := halfEven_near (x / 2 ^ expo x)
  have e : x / 2 ^ expo x * 2 ^ expo x = x := div_mul_cancel₀ _ hp.ne'
  have l : x - 1 / 2 * 2 ^ expo x ≤ near x := by
    unfold near
    have := mul_le_mul_of_nonneg_right h1 hp.le
    rw [sub_mul, e] at this
    exact this
  have g : near x ≤ x + 1 / 2 * 2 ^ expo x := by
    unfold near
    have := mul_le_mul_of_nonneg_right h2 hp.le
    rw [add_mul, e] at this
    exact this
  have half : (1 / 2 : ℚ) * 2 ^ expo x ≤ x * 2 ^ (-53 : ℤ) + 2 ^ (-1075 : ℤ) := by
    have h12 : (1 / 2 : ℚ) = 2 ^ (-1 : ℤ) := by norm_num
    rw [h12, ← zpow_add₀ (by norm_num : (2 : ℚ) ≠ 0)]
    rcases le_total (log2 x - 52) (-1074) with h | h
    · have : -1 + expo x = -1075 := by unfold expo; omega
      rw [this]
      have : 0 ≤ x * 2 ^ (-53 : ℤ) := by positivity
      linarith
    · have : -1 + expo x = log2 x + -53 := by unfold expo; omega
      rw [this, zpow_add₀ (by norm_num : (2 : ℚ) ≠ 0)]
      have h3 := mul_le_mul_of_nonneg_right (log2_spec hx).1 (show (0 : ℚ) ≤ 2 ^ (-53 : ℤ) by positivity)
      have : (0 : ℚ) ≤ 2 ^ (-1075 : ℤ) := by positivity
      linarith
  generalize x * 2 ^ (-53 : ℤ) + (2 : ℚ) ^ (-1075 : ℤ) = c at half ⊢
  generalize (1 / 2 : ℚ) * 2 ^ expo x = c2 at half l g
  rw [abs_le]
  constructor <;> linarith

/-- the numbers of type `double` up to 2^1000 are rounded with errors below 2^-53 and 2^-1075 -/
theorem fine (lib1 : Fn1 → Ext ℚ → Ext ℚ) (lib2 : Fn2 → Ext ℚ → Ext ℚ → Ext ℚ) :
    (binary64 lib1 lib2).Fine (2 ^ (-53 : ℤ)) (2 ^ (-1075 : ℤ)) (2 ^ (1000 : ℤ)) where
  u0 := by positivity
  ν0 := by positivity
  err := by
    have pos : ∀ x : ℚ, 0 < x → x ≤ 2 ^ (1000 : ℤ) → Binary64.rnd x = fin (near x) := by
      intro x hx h
      unfold Binary64.rnd rndPos
      rw [if_neg hx.ne', if_pos hx, if_pos]
      have h1 := near_le_pow hx
      refine lt_of_le_of_lt h1 (zpow_lt_zpow_right₀ (by norm_num) ?_)
      have h2 := (log2_spec hx).1.trans h
      have := (zpow_le_zpow_iff_right₀ (by norm_num : (1:ℚ) < 2)).1 h2
      unfold expo
      omega
    have key : ∀ x : ℚ, 0 < x → x ≤ 2 ^ (1000 : ℤ) → (binary64 lib1 lib2).rnd x = fin ((binary64 lib1 lib2).r x) ∧
        |(binary64 lib1 lib2).r x - x| ≤ |x| * 2 ^ (-53 : ℤ) + 2 ^ (-1075 : ℤ) := by
      intro x hx h
      have e : (binary64 lib1 lib2).rnd x = fin (near x) := pos x hx h
      have e2 : (binary64 lib1 lib2).r x = near x := by unfold Format.r; rw [e]
      rw [e2, abs_of_pos hx]
      exact ⟨e, near_error hx⟩
    intro x h
    rcases lt_trichotomy x 0 with hx | rfl | hx
    · rw [abs_of_neg hx] at h
      obtain ⟨e1, e2⟩ := key (-x) (by linarith) h
      rw [Format.r_neg] at e1 e2
      constructor
      · rw [(binary64 lib1 lib2).rnd_neg] at e1
        cases hr : (binary64 lib1 lib2).rnd x <;> rw [hr] at e1 <;> simp_all [Ext.neg]
      · rw [abs_neg] at e2
        rw [show (binary64 lib1 lib2).r x - x = -(-(binary64 lib1 lib2).r x - -x) by ring, abs_neg]
        exact e2
    · rw [Format.r_of_rep Format.rep_zero]
      refine ⟨Format.rep_zero, ?_⟩
      simp
    · rw [abs_of_pos hx] at h
      exact key x hx h

end Binary64

namespace Format.Fine
open Ext
variable {ρ : Format} {u ν Ω : ℚ} (F : ρ.Fine u ν Ω)
include F

theorem rnd {x : ℚ} (h : |x| ≤ Ω) : ρ.rnd x = fin (ρ.r x) := (F.err x h).1

theorem upper {x : ℚ} (h : |x| ≤ Ω) : ρ.r x ≤ x + |x| * u + ν := by
  have := (abs_le.1 (F.err x h).2).2
  linarith

theorem lower {x : ℚ} (h : |x| ≤ Ω) : x - |x| * u - ν ≤ ρ.r x := by
  have := (abs_le.1 (F.err x h).2).1
  linarith

theorem r_mono {x y : ℚ} (hx : |x| ≤ Ω) (hy : |y| ≤ Ω) (h : x ≤ y) : ρ.r x ≤ ρ.r y := by
  have := ρ.rnd_mono x y h
  rw [F.rnd hx, F.rnd hy] at this
  exact this

theorem r_le {x y : ℚ} (hx : |x| ≤ Ω) (hy : |y| ≤ Ω) (hr : ρ.Rep y) (h : x ≤ y) : ρ.r x ≤ y := by
  have := F.r_mono hx hy h
  rwa [r_of_rep hr] at this

theorem le_r {x y : ℚ} (hx : |x| ≤ Ω) (hy : |y| ≤ Ω) (hr : ρ.Rep x) (h : x ≤ y) : x ≤ ρ.r y := by
  have := F.r_mono hx hy h
  rwa [r_of_rep hr] at this

theorem round {x : ℚ} (h : |x| ≤ Ω) : Flt.mk' ρ (fin x) = Flt.of (ρ.r x) (r_rep x) := Flt.ext (F.rnd h)

theorem add {x y : ℚ} (hx : ρ.Rep x) (hy : ρ.Rep y) (h : |x + y| ≤ Ω) :
    Flt.of x hx + Flt.of y hy = Flt.of (ρ.r (x + y)) (r_rep _) := F.round h

theorem sub {x y : ℚ} (hx : ρ.Rep x) (hy : ρ.Rep y) (h : |x - y| ≤ Ω) :
    Flt.of x hx - Flt.of y hy = Flt.of (ρ.r (x - y)) (r_rep _) := by
  rw [← F.round h]
  show Flt.mk' ρ (fin (x + -y)) = _
  rw [sub_eq_add_neg]

theorem mul {x y : ℚ} (hx : ρ.Rep x) (hy : ρ.Rep y) (h : |x * y| ≤ Ω) :
    Flt.of x hx * Flt.of y hy = Flt.of (ρ.r (x * y)) (r_rep _) := F.round h

theorem div {x y : ℚ} (hx : ρ.Rep x) (hy : ρ.Rep y) (h0 : y ≠ 0) (h : |x / y| ≤ Ω) :
    Flt.of x hx / Flt.of y hy = Flt.of (ρ.r (x / y)) (r_rep _) := by
  rw [← F.round h]
  show Flt.mk' ρ (if y = 0 then signInf x else fin (x / y)) = _
  rw [if_neg h0]

theorem add' {x y : ℚ} (hx : ρ.Rep x) (hy : ρ.Rep y) (h : |x + y| ≤ Ω) :
    ∃ z, ∃ hz : ρ.Rep z, Flt.of x hx + Flt.of y hy = Flt.of z hz ∧ z ≤ x + y + |x + y| * u + ν ∧ x + y - |x + y| * u - ν ≤ z :=
  ⟨_, _, F.add hx hy h, F.upper h, F.lower h⟩

theorem sub' {x y : ℚ} (hx : ρ.Rep x) (hy : ρ.Rep y) (h : |x - y| ≤ Ω) :
    ∃ z, ∃ hz : ρ.Rep z, Flt.of x hx - Flt.of y hy = Flt.of z hz ∧ z ≤ x - y + |x - y| * u + ν ∧ x - y - |x - y| * u - ν ≤ z :=
  ⟨_, _, F.sub hx hy h, F.upper h, F.lower h⟩

theorem mul' {x y : ℚ} (hx : ρ.Rep x) (hy : ρ.Rep y) (h : |x * y| ≤ Ω) :
    ∃ z, ∃ hz : ρ.Rep z, Flt.of x hx * Flt.of y hy = Flt.of z hz ∧ z ≤ x * y + |x * y| * u + ν ∧ x * y - |x * y| * u - ν ≤ z :=
  ⟨_, _, F.mul hx hy h, F.upper h, F.lower h⟩

theorem div' {x y : ℚ} (hx : ρ.Rep x) (hy : ρ.Rep y) (h0 : y ≠ 0) (h : |x / y| ≤ Ω) :
    ∃ z, ∃ hz : ρ.Rep z, Flt.of x hx / Flt.of y hy = Flt.of z hz ∧ z ≤ x / y + |x / y| * u + ν ∧ x / y - |x / y| * u - ν ≤ z :=
  ⟨_, _, F.div hx hy h0 h, F.upper h, F.lower h⟩

end Format.Fine

namespace Flt
variable {ρ : Format}

/-- a number of the format between two numbers -/
def Between (lo hi : ℚ) (x : Flt ρ) : Prop := ∃ q, ∃ h : ρ.Rep q, x = of q h ∧ lo ≤ q ∧ q ≤ hi

theorem Between.mono {lo hi lo' hi' : ℚ} {x : Flt ρ} (h : Between lo hi x) (h1 : lo' ≤ lo) (h2 : hi ≤ hi') : Between lo' hi' x := by
  obtain ⟨q, hq, rfl, a, b⟩ := h
  exact ⟨q, hq, rfl, h1.trans a, b.trans h2⟩

namespace Point
variable {u ν e D X N d x q h p : ℚ}

theorem width (D0 : 0 < D) (ue : u ≤ e) (νD : ν ≤ e * D) (h1 : d ≤ D + D * u + ν) (h2 : D - D * u - ν ≤ d) :
    d ≤ D * (1 + 2 * e) ∧ D * (1 - 2 * e) ≤ d := by
  have := mul_le_mul_of_nonneg_left ue D0.le
  constructor <;> linarith

theorem distance (X0 : 0 < X) (e0 : 0 < e) (e1 : e ≤ 1 / 32) (u0 : 0 ≤ u) (ue : u ≤ e) (νX : ν ≤ e * X)
    (q1 : q ≤ X * (1 + 2 * e)) (q2 : X * (1 - 2 * e) ≤ q) (h1 : x ≤ q + q * u + ν) (h2 : q - q * u - ν ≤ x) :
    x ≤ X * (1 + 5 * e) ∧ X * (1 - 5 * e) ≤ x := by
  have a1 : q * u ≤ X * (1 + 2 * e) * e := mul_le_mul q1 ue u0 (by positivity)
  have a2 : X * e * e ≤ X * e * (1 / 32) := mul_le_mul_of_nonneg_left e1 (by positivity)
  have a3 : X * (1 + 2 * e) * e = X * e + 2 * (X * e * e) := by ring
  have a4 : 0 < X * e := by positivity
  constructor <;> linarith

theorem number {I : ℚ} (N0 : 0 < N) (I0 : 0 ≤ I) (I1 : I + 1 ≤ N) (N1 : 1 ≤ N) (ue : u ≤ e) (νe : ν ≤ e / 2) (e0 : 0 < e) (e1 : e ≤ 1 / 32)
    (h1 : h ≤ I + 1 / 2 + (I + 1 / 2) * u + ν) (h2 : I + 1 / 2 - (I + 1 / 2) * u - ν ≤ h) :
    h ≤ (N - 1 / 2) * (1 + 2 * e) ∧ 1 / 2 * (1 - 2 * e) ≤ h := by
  have a1 : (I + 1 / 2) * u ≤ (I + 1 / 2) * e := mul_le_mul_of_nonneg_left ue (by linarith)
  have a2 : (I + 1 / 2) * e ≤ (N - 1 / 2) * e := mul_le_mul_of_nonneg_right (by linarith) e0.le
  have a3 : 1 / 2 * e ≤ (N - 1 / 2) * e := mul_le_mul_of_nonneg_right (by linarith) e0.le
  constructor
  · linarith
  · have : I * e ≤ I * (1 / 32) := mul_le_mul_of_nonneg_left e1 I0
    linarith

theorem product (D0 : 0 < D) (X0 : 0 < X) (e0 : 0 < e) (e1 : e ≤ 1 / 32) (N1 : 1 ≤ N) (eN : e * N = 1 / 32) (XN : X * N = D)
    (h1 : h ≤ (N - 1 / 2) * (1 + 2 * e)) (h2 : 1 / 2 * (1 - 2 * e) ≤ h)
    (x1 : x ≤ X * (1 + 5 * e)) (x2 : X * (1 - 5 * e) ≤ x) :
    0 < h ∧ 0 < x ∧ h * x ≤ D * (1 - 9 * e) ∧ X * (1 / 2 - 7 / 2 * e) ≤ h * x := by
  have h0 : 0 < h := by linarith
  have x0 : 0 < x := lt_of_lt_of_le (mul_pos X0 (by linarith)) x2
  refine ⟨h0, x0, ?_, ?_⟩
  · have l1 : h * x ≤ (N - 1 / 2) * (1 + 2 * e) * (X * (1 + 5 * e)) := mul_le_mul h1 x1 x0.le (by nlinarith)
    have l2 : (N - 1 / 2) * (1 + 2 * e) * (X * (1 + 5 * e)) = D * ((1 - 16 * e) * ((1 + 2 * e) * (1 + 5 * e))) := by
      have : N - 1 / 2 = N * (1 - 16 * e) := by linarith
      rw [this, ← XN]; ring
    have l3 : (1 - 16 * e) * ((1 + 2 * e) * (1 + 5 * e)) ≤ 1 - 9 * e := by
      have := mul_pos e0 e0
      have := mul_pos this e0
      nlinarith
    rw [l2] at l1
    exact l1.trans (mul_le_mul_of_nonneg_left l3 D0.le)
  · have l1 : 1 / 2 * (1 - 2 * e) * (X * (1 - 5 * e)) ≤ h * x := mul_le_mul h2 x2 (mul_nonneg X0.le (by linarith)) h0.le
    have l2 : 1 / 2 * (1 - 2 * e) * (X * (1 - 5 * e)) = X * (1 / 2 - 7 / 2 * e) + 5 * (X * e * e) := by ring
    have : 0 < X * e * e := by positivity
    linarith

theorem place {y : ℚ} (D0 : 0 < D) (X0 : 0 < X) (e0 : 0 < e) (e1 : e ≤ 1 / 32) (y0 : 0 < y) (ue : u ≤ e) (νX : ν ≤ e * X) (DX : e * D = X / 32)
    (y1 : y ≤ D * (1 - 9 * e)) (y2 : X * (1 / 2 - 7 / 2 * e) ≤ y) (h1 : p ≤ y + y * u + ν) (h2 : y - y * u - ν ≤ p) :
    p ≤ D - X / 8 ∧ X / 8 ≤ p := by
  have a1 : y * u ≤ y * e := mul_le_mul_of_nonneg_left ue y0.le
  have a2 : e * X ≤ 1 / 32 * X := mul_le_mul_of_nonneg_right e1 X0.le
  constructor
  · have b1 : y * e ≤ D * (1 - 9 * e) * e := mul_le_mul_of_nonneg_right y1 e0.le
    have b2 : D * (1 - 9 * e) * e = e * D - 9 * (D * e * e) := by ring
    have : 0 < D * e * e := by positivity
    linarith
  · have b1 : X * (1 / 2 - 7 / 2 * e) * (1 - e) ≤ y * (1 - e) := mul_le_mul_of_nonneg_right y2 (by linarith)
    have b2 : X * (1 / 2 - 7 / 2 * e) * (1 - e) = X / 2 - 4 * (e * X) + 7 / 2 * (X * e * e) := by ring
    have : 0 < X * e * e := by positivity
    linarith

end Point

/-- The `i`-th of `n` samples is in the range, and if the range is wide it keeps a distance to the bounds. -/
theorem point_between {u ν Ω : ℚ} (F : ρ.Fine u ν Ω) {a b : ℚ} (ra : ρ.Rep a) (rb : ρ.Rep b) (hab : a < b) {n i : ℕ} (hi : i < n)
    (hn : n ≤ 2147483648) (hu : 32 * n * u ≤ 1) (hν : 64 * n * ν ≤ 1) (hD : 32 * n ^ 2 * ν ≤ b - a)
    (hΩ : 4 * n * (|a| + |b| + 1) ≤ Ω) :
    ∃ p, (b - a) / (8 * n) ≤ p ∧ p ≤ (b - a) - (b - a) / (8 * n) ∧ |a + p| ≤ Ω ∧
      (of a ra + (lit (i : ℚ) + lit (1 / 2)) * ((of b rb - of a ra) / lit (n : ℚ)) : Flt ρ) = of (ρ.r (a + p)) (Format.r_rep _) := by
  have u0 := F.u0
  have ν0 := F.ν0
  have ri : ρ.Rep (i : ℚ) := by simpa using Format.rep_int (ρ := ρ) (i : ℤ) (by rw [abs_of_nonneg (by positivity)]; omega)
  have rn : ρ.Rep (n : ℚ) := by simpa using Format.rep_int (ρ := ρ) (n : ℤ) (by rw [abs_of_nonneg (by positivity)]; omega)
  rw [lit_rep ri, lit_rep rn, lit_rep Format.rep_half]
  have N1 : (1 : ℚ) ≤ n := by exact_mod_cast (show 1 ≤ n by omega)
  have I1 : (i : ℚ) + 1 ≤ n := by exact_mod_cast hi
  have I0 : (0 : ℚ) ≤ i := by positivity
  generalize hI : (i : ℚ) = I at *
  generalize hNN : (n : ℚ) = N at *
  clear hI hNN hi hn
  have hA := abs_nonneg a
  have hB := abs_nonneg b
  have hAa := neg_abs_le a
  have hAa' := le_abs_self a
  have hBb := le_abs_self b
  generalize |a| = A at *
  generalize |b| = B at *
  obtain ⟨e, he⟩ : ∃ e : ℚ, e = 1 / (32 * N) := ⟨_, rfl⟩
  have N0 : 0 < N := by linarith
  have eN : e * N = 1 / 32 := by rw [he]; field_simp
  have e0 : 0 < e := by rw [he]; positivity
  have e1 : e ≤ 1 / 32 := by
    have := mul_le_mul_of_nonneg_left N1 e0.le
    linarith
  have ue : u ≤ e := by rw [he, le_div_iff₀ (by positivity)]; linarith
  have νe : ν ≤ e / 2 := by rw [he, div_div, le_div_iff₀ (by positivity)]; linarith
  obtain ⟨D, hDe⟩ : ∃ D, D = b - a := ⟨_, rfl⟩
  have D0 : 0 < D := by linarith
  obtain ⟨X, hX⟩ : ∃ X, X = D / N := ⟨_, rfl⟩
  have XN : X * N = D := by rw [hX]; field_simp
  have X0 : 0 < X := by rw [hX]; positivity
  have XD : X ≤ D := by rw [hX]; exact div_le_self D0.le N1
  have νX : ν ≤ e * X := by
    rw [he, hX, hDe, div_mul_div_comm, one_mul, le_div_iff₀ (by positivity)]
    linarith
  have Dub : D ≤ A + B := by linarith
  have hM : 1 * (A + B + 1) ≤ N * (A + B + 1) := mul_le_mul_of_nonneg_right N1 (by linarith)
  have hN1 : N * 1 ≤ N * (A + B + 1) := mul_le_mul_of_nonneg_left (by linarith) N0.le
  have sD : |b - a| ≤ Ω := by rw [abs_of_pos (by linarith)]; linarith
  obtain ⟨d, hdr, hd, d1, d2⟩ := F.sub' rb ra sD
  rw [hd]
  rw [← hDe, abs_of_pos D0] at d1 d2
  obtain ⟨d1, d2⟩ := Point.width D0 ue (νX.trans (mul_le_mul_of_nonneg_left XD e0.le)) d1 d2
  have d0 : 0 < d := lt_of_lt_of_le (mul_pos D0 (by linarith)) d2
  have dub : d ≤ 2 * D := by
    have := mul_le_mul_of_nonneg_left e1 D0.le
    linarith
  have sq : |d / N| ≤ Ω := by
    rw [abs_of_pos (by positivity)]
    have : d / N ≤ d := div_le_self d0.le N1
    linarith
  have q0 : 0 < d / N := by positivity
  obtain ⟨x, hxr, hx, x1, x2⟩ := F.div' hdr rn N0.ne' sq
  rw [hx]
  rw [abs_of_pos q0] at x1 x2
  obtain ⟨x1, x2⟩ := Point.distance X0 e0 e1 u0 ue νX
    (by rw [div_le_iff₀ N0, show X * (1 + 2 * e) * N = X * N * (1 + 2 * e) by ring, XN]; exact d1)
    (by rw [le_div_iff₀ N0, show X * (1 - 2 * e) * N = X * N * (1 - 2 * e) by ring, XN]; exact d2) x1 x2
  have sh : |I + 1 / 2| ≤ Ω := by rw [abs_of_pos (by linarith)]; linarith
  have i0 : 0 < I + 1 / 2 := by linarith
  obtain ⟨h, hhr, hh, h1, h2⟩ := F.add' ri Format.rep_half sh
  rw [hh]
  rw [abs_of_pos i0] at h1 h2
  obtain ⟨h1, h2⟩ := Point.number N0 I0 I1 N1 ue νe e0 e1 h1 h2
  obtain ⟨h0, x0, p1, p2⟩ := Point.product D0 X0 e0 e1 N1 eN XN h1 h2 x1 x2
  have y0 := mul_pos h0 x0
  have sp : |h * x| ≤ Ω := by
    rw [abs_of_pos y0]
    have : 0 < D * e := by positivity
    linarith
  obtain ⟨p, hpr, hp, g1, g2⟩ := F.mul' hhr hxr sp
  rw [hp]
  rw [abs_of_pos y0] at g1 g2
  obtain ⟨g1, g2⟩ := Point.place D0 X0 e0 e1 y0 ue νX
    (by rw [← XN, show e * (X * N) = e * N * X by ring, eN]; ring) p1 p2 g1 g2
  have hX8 : (b - a) / (8 * N) = X / 8 := by rw [hX, hDe]; field_simp
  have sa : |a + p| ≤ Ω := by
    rw [abs_le]
    constructor <;> linarith
  refine ⟨p, by rw [hX8]; exact g2, by rw [hX8, ← hDe]; exact g1, sa, ?_⟩
  rw [F.add ra hpr sa]

/-- the number of a finite number of the format -/
def toRat (x : Flt ρ) : ℚ := match x.1 with
  | .fin q => q
  | _ => 0

@[simp] theorem toRat_of {q : ℚ} (h : ρ.Rep q) : toRat (of q h) = q := rfl

/-- finite numbers up to `M` -/
def Bounded (M : ℚ) (x : Flt ρ) : Prop := ∃ q, ∃ h : ρ.Rep q, x = of q h ∧ |q| ≤ M

theorem Between.bounded {lo hi M : ℚ} {x : Flt ρ} (h : Between lo hi x) (h1 : |lo| ≤ M) (h2 : |hi| ≤ M) : Bounded M x := by
  obtain ⟨q, hq, rfl, a, b⟩ := h
  exact ⟨q, hq, rfl, abs_le.2 ⟨(abs_le.1 h1).1.trans a, b.trans (abs_le.1 h2).2⟩⟩

theorem Between.toRat {lo hi : ℚ} {x : Flt ρ} (h : Between lo hi x) : lo ≤ toRat x ∧ Flt.toRat x ≤ hi := by
  obtain ⟨q, hq, rfl, a, b⟩ := h
  exact ⟨a, b⟩

/-- a finite number at a distance of at most `E` from `c` -/
def Near (c E : ℚ) (x : Flt ρ) : Prop := ∃ q, ∃ h : ρ.Rep q, x = of q h ∧ |q - c| ≤ E

theorem Near.between {c E lo hi : ℚ} {x : Flt ρ} (h : Near c E x) (h1 : lo ≤ c) (h2 : c ≤ hi) : Between (lo - E) (hi + E) x := by
  obtain ⟨q, hq, rfl, a⟩ := h
  have := abs_le.1 a
  exact ⟨q, hq, rfl, by linarith, by linarith⟩

theorem Near.mono {c E E' : ℚ} {x : Flt ρ} (h : Near c E x) (hE : E ≤ E') : Near c E' x := by
  obtain ⟨q, hq, rfl, a⟩ := h
  exact ⟨q, hq, rfl, a.trans hE⟩

theorem near_zero {E : ℚ} (h : 0 ≤ E) : Near 0 E (lit 0 : Flt ρ) := ⟨0, Format.rep_zero, lit_rep Format.rep_zero, by simpa using h⟩

namespace Sum
variable {u ν M : ℚ}

theorem size {P E x B : ℚ} (hP : |P| ≤ B) (h : |x - P| ≤ E) : |x| ≤ B + E := by
  have := abs_add_le P (x - P)
  rw [add_sub_cancel] at this
  linarith

/-- one more number is added -/
theorem step {P s x z J : ℚ} (u0 : 0 ≤ u) (ν0 : 0 ≤ ν) (M0 : 0 ≤ M) (J0 : 0 ≤ J) (Ju : 32 * J * u ≤ 1)
    (hs : |s - P| ≤ 2 * J ^ 2 * (u * M + ν))
    (hsx : |s + x| ≤ (J + 1) * M + 2 * J ^ 2 * (u * M + ν)) (z1 : z ≤ s + x + |s + x| * u + ν) (z2 : s + x - |s + x| * u - ν ≤ z) :
    |z - (P + x)| ≤ 2 * (J + 1) ^ 2 * (u * M + ν) := by
  have hc : |s + x| * u ≤ ((J + 1) * M + 2 * J ^ 2 * (u * M + ν)) * u := mul_le_mul_of_nonneg_right hsx u0
  have c0 : 0 ≤ u * M + ν := by positivity
  have e : ((J + 1) * M + 2 * J ^ 2 * (u * M + ν)) * u ≤ (J + 1) * (u * M) + J * (u * M + ν) := by
    have : 32 * J * u * (J * (u * M + ν)) ≤ 1 * (J * (u * M + ν)) := mul_le_mul_of_nonneg_right Ju (by positivity)
    have h0 : 0 ≤ J * (u * M + ν) := by positivity
    nlinarith
  have uM : 0 ≤ u * M := by positivity
  have a1 : 0 ≤ J * (u * M) := by positivity
  have a2 : 0 ≤ J * ν := by positivity
  have := abs_le.1 hs
  rw [abs_le]
  constructor <;> nlinarith

/-- the quotient of the sum and the number of numbers -/
theorem mean {P s z J : ℚ} (u0 : 0 ≤ u) (ν0 : 0 ≤ ν) (M0 : 0 ≤ M) (J1 : 1 ≤ J) (Ju : 32 * J * u ≤ 1) (hP : |P / J| ≤ M)
    (hs : |s - P| ≤ 2 * J ^ 2 * (u * M + ν)) (z1 : z ≤ s / J + |s / J| * u + ν) (z2 : s / J - |s / J| * u - ν ≤ z) :
    |s / J| ≤ M + 2 * J * (u * M + ν) ∧ |z - P / J| ≤ (2 * J + 2) * (u * M + ν) := by
  have J0 : 0 < J := by linarith
  have c0 : 0 ≤ u * M + ν := by positivity
  have q : |s / J - P / J| ≤ 2 * J * (u * M + ν) := by
    rw [← sub_div, abs_div, abs_of_pos J0, div_le_iff₀ J0]
    linarith
  have hq := size hP q
  have hc := mul_le_mul_of_nonneg_right hq u0
  have : 32 * J * u * (u * M + ν) ≤ 1 * (u * M + ν) := mul_le_mul_of_nonneg_right Ju c0
  have := abs_le.1 q
  refine ⟨hq, ?_⟩
  rw [abs_le]
  constructor <;> nlinarith

end Sum

/-- the sum of numbers, with the error of rounding -/
theorem sum_near {u ν Ω : ℚ} (F : ρ.Fine u ν Ω) {M : ℚ} (M0 : 0 ≤ M) {n : ℕ}
    (hu : 32 * n * u ≤ 1) (hν : 64 * n * ν ≤ 1) (hΩ : 4 * n * (M + 1) ≤ Ω) (xs : List (Flt ρ)) (hx : ∀ x ∈ xs, Bounded M x) :
    ∀ (j : ℕ) (s : Flt ρ) (P : ℚ), j + xs.length ≤ n → |P| ≤ j * M → Near P (2 * (j : ℚ) ^ 2 * (u * M + ν)) s →
      |P + (xs.map toRat).sum| ≤ (j + xs.length : ℕ) * M ∧
      Near (P + (xs.map toRat).sum) (2 * ((j + xs.length : ℕ) : ℚ) ^ 2 * (u * M + ν)) (xs.foldl (fun acc y => acc + y) s) := by
  have u0 := F.u0
  have ν0 := F.ν0
  induction xs with
  | nil => intro j s P _ hP h; simpa using ⟨hP, h⟩
  | cons x xs ih =>
    intro j s P hj hP h
    have hlen : j + (x :: xs).length = (j + 1) + xs.length := by rw [List.length_cons]; omega
    rw [hlen, List.foldl_cons, List.map_cons, List.sum_cons, ← add_assoc]
    rw [hlen] at hj
    obtain ⟨q, hq, rfl, hqM⟩ := hx x List.mem_cons_self
    obtain ⟨t, ht, rfl, htP⟩ := h
    have hP' : |P + q| ≤ ((j : ℚ) + 1) * M := by
      have := abs_add_le P q
      linarith
    refine ih (fun y hy => hx y (List.mem_cons_of_mem _ hy)) (j + 1) _ _ hj (by push_cast; exact hP') ?_
    rw [toRat_of]
    have hJn : ((j : ℚ) + 1) ≤ n := by exact_mod_cast (show j + 1 ≤ n by omega)
    push_cast
    have J0 : (0 : ℚ) ≤ j := by positivity
    generalize (j : ℚ) = J at *
    generalize (n : ℚ) = N at *
    have Ju : 32 * J * u ≤ 1 := by
      have : 32 * J * u ≤ 32 * N * u := mul_le_mul_of_nonneg_right (by linarith) u0
      linarith
    have N0 : 0 ≤ N := by linarith
    have sz : |t + q| ≤ (J + 1) * M + 2 * J ^ 2 * (u * M + ν) :=
      Sum.size hP' (by rwa [add_sub_add_right_eq_sub])
    have szΩ : |t + q| ≤ Ω := by
      have a1 : (J + 1) * M ≤ N * M := mul_le_mul_of_nonneg_right hJn M0
      have a2 : 32 * J * u * (J * M) ≤ 1 * (J * M) := mul_le_mul_of_nonneg_right Ju (by positivity)
      have a3 : J * ν * J ≤ N * ν * J := mul_le_mul_of_nonneg_right (mul_le_mul_of_nonneg_right (by linarith) ν0) J0
      have a4 : 64 * N * ν * J ≤ 1 * J := mul_le_mul_of_nonneg_right hν J0
      have a5 : 0 ≤ J * M := by positivity
      have a6 : 2 * J ^ 2 * (u * M + ν) = 2 * (J * u * (J * M)) + 2 * (J * ν * J) := by ring
      have a7 : 4 * N * (M + 1) = 4 * (N * M) + 4 * N := by ring
      have a8 : J * M ≤ N * M := mul_le_mul_of_nonneg_right (by linarith) M0
      linarith
    obtain ⟨z, hz, e, z1, z2⟩ := F.add' ht hq szΩ
    rw [e]
    exact ⟨z, hz, rfl, Sum.step u0 ν0 M0 J0 Ju htP sz z1 z2⟩

/-- the mean of numbers, with the error of rounding -/
theorem mean_near {u ν Ω : ℚ} (F : ρ.Fine u ν Ω) {M : ℚ} (M0 : 0 ≤ M) {n : ℕ} (hn : n ≤ 2147483648)
    (hu : 32 * n * u ≤ 1) (hν : 64 * n * ν ≤ 1) (hΩ : 4 * n * (M + 1) ≤ Ω) (xs : List (Flt ρ)) (hne : xs ≠ []) (hlen : xs.length ≤ n)
    (hx : ∀ x ∈ xs, Bounded M x) :
    Near ((xs.map toRat).sum / xs.length) ((2 * n + 2) * (u * M + ν)) (Op.mean xs) := by
  have u0 := F.u0
  have ν0 := F.ν0
  obtain ⟨hP, h⟩ := sum_near F M0 hu hν hΩ xs hx 0 (lit 0) 0 (by omega) (by simp) (near_zero (by simp))
  rw [Nat.zero_add, zero_add] at h hP
  obtain ⟨s, hs, e, hsP⟩ := h
  unfold Op.mean Op.sum
  rw [e]
  have rk : ρ.Rep (xs.length : ℚ) := by simpa using Format.rep_int (ρ := ρ) (xs.length : ℤ) (by rw [abs_of_nonneg (by positivity)]; omega)
  rw [lit_rep rk]
  have K1 : (1 : ℚ) ≤ xs.length := by exact_mod_cast List.length_pos_iff.2 hne
  have KN : (xs.length : ℚ) ≤ n := by exact_mod_cast hlen
  generalize (xs.length : ℚ) = K at *
  generalize (n : ℚ) = N at *
  generalize (xs.map toRat).sum = P at *
  have Ku : 32 * K * u ≤ 1 := by
    have : 32 * K * u ≤ 32 * N * u := mul_le_mul_of_nonneg_right (by linarith) u0
    linarith
  have K0 : 0 < K := by linarith
  have c0 : 0 ≤ u * M + ν := by positivity
  have hPK : |P / K| ≤ M := by rw [abs_div, abs_of_pos K0, div_le_iff₀ K0]; linarith
  have sz : |s / K| ≤ Ω := by
    have hq := (Sum.mean (z := s / K) u0 ν0 M0 K1 Ku hPK hsP (by have := abs_nonneg (s / K); nlinarith)
      (by have := abs_nonneg (s / K); nlinarith)).1
    have b1 : 32 * K * u * M ≤ 1 * M := mul_le_mul_of_nonneg_right Ku M0
    have b2 : K * ν ≤ N * ν := mul_le_mul_of_nonneg_right KN ν0
    have b3 : 1 * (M + 1) ≤ N * (M + 1) := mul_le_mul_of_nonneg_right (by linarith) (by linarith)
    linarith
  obtain ⟨z, hz, e, z1, z2⟩ := F.div' hs rk K0.ne' sz
  rw [e]
  have r := (Sum.mean u0 ν0 M0 K1 Ku hPK hsP z1 z2).2
  have : K * (u * M + ν) ≤ N * (u * M + ν) := mul_le_mul_of_nonneg_right KN c0
  exact ⟨z, hz, rfl, by linarith⟩

namespace Ratio
variable {u ν M : ℚ}

/-- the product of a weight and a number -/
theorem product {x y p : ℚ} (u0 : 0 ≤ u) (y0 : 0 ≤ y) (hx : |x| ≤ M)
    (p1 : p ≤ y * x + |y * x| * u + ν) (p2 : y * x - |y * x| * u - ν ≤ p) :
    |y * x| ≤ M * y ∧ |p - y * x| ≤ M * y * u + ν := by
  have h : |y * x| ≤ M * y := by
    rw [abs_mul, abs_of_nonneg y0, _root_.mul_comm]
    exact mul_le_mul_of_nonneg_right hx y0
  have hu := mul_le_mul_of_nonneg_right h u0
  refine ⟨h, ?_⟩
  rw [abs_le]
  constructor <;> linarith

/-- one more product is added -/
theorem step {P T y x s p z J : ℚ} (u0 : 0 ≤ u) (ν0 : 0 ≤ ν) (M0 : 0 ≤ M) (J0 : 0 ≤ J) (Ju : 32 * J * u ≤ 1) (u1 : 32 * u ≤ 1)
    (T0 : 0 ≤ T) (y0 : 0 ≤ y) (hs : |s - P| ≤ 4 * J * (u * (M * T) + ν)) (hp : |p - y * x| ≤ M * y * u + ν)
    (hsz : |s + p| ≤ M * T + 4 * J * (u * (M * T) + ν) + (M * y + M * y * u + ν))
    (z1 : z ≤ s + p + |s + p| * u + ν) (z2 : s + p - |s + p| * u - ν ≤ z) :
    |z - (P + y * x)| ≤ 4 * (J + 1) * (u * (M * (T + y)) + ν) := by
  have hc := mul_le_mul_of_nonneg_right hsz u0
  have W0 : 0 ≤ M * T := by positivity
  have V0 : 0 ≤ M * y := by positivity
  rw [show M * (T + y) = M * T + M * y by ring]
  generalize M * T = W at *
  generalize M * y = V at *
  have c0 : 0 ≤ u * W + ν := by positivity
  have a1 : 32 * J * u * (u * W + ν) ≤ 1 * (u * W + ν) := mul_le_mul_of_nonneg_right Ju c0
  have a2 : 32 * u * (u * V + ν) ≤ 1 * (u * V + ν) := mul_le_mul_of_nonneg_right u1 (by positivity)
  have a3 : 0 ≤ J * (u * V) := by positivity
  have a4 : (W + 4 * J * (u * W + ν) + (V + V * u + ν)) * u = u * W + 4 * (J * u * (u * W + ν)) + u * V + u * (u * V + ν) := by ring
  have a5 : 0 ≤ u * W := by positivity
  have a6 : 0 ≤ u * V := by positivity
  have := abs_le.1 hs
  have := abs_le.1 hp
  rw [abs_le]
  constructor <;> linarith

/-- one more weight is added -/
theorem total {T y s z J : ℚ} (u0 : 0 ≤ u) (ν0 : 0 ≤ ν) (J0 : 0 ≤ J) (Ju : 32 * J * u ≤ 1) (T0 : 0 ≤ T) (y0 : 0 ≤ y)
    (hs : |s - T| ≤ 2 * J * (u * T + ν)) (hsz : |s + y| ≤ T + y + 2 * J * (u * T + ν))
    (z1 : z ≤ s + y + |s + y| * u + ν) (z2 : s + y - |s + y| * u - ν ≤ z) :
    |z - (T + y)| ≤ 2 * (J + 1) * (u * (T + y) + ν) := by
  have hc := mul_le_mul_of_nonneg_right hsz u0
  have c0 : 0 ≤ u * T + ν := by positivity
  have a1 : 32 * J * u * (u * T + ν) ≤ 1 * (u * T + ν) := mul_le_mul_of_nonneg_right Ju c0
  have a2 : 0 ≤ u * T := by positivity
  have a3 : 0 ≤ u * y := by positivity
  have a4 : 0 ≤ J * (u * y) := by positivity
  have := abs_le.1 hs
  rw [abs_le]
  constructor <;> nlinarith

/-- the quotient of both sums -/
theorem quotient {P T s t N : ℚ} (u0 : 0 ≤ u) (ν0 : 0 ≤ ν) (M0 : 0 ≤ M) (N0 : 0 ≤ N) (Nu : 32 * N * u ≤ 1)
    (T0 : 0 < T) (hT1 : 8 * N * ν ≤ T) (hT2 : (M + 2) * ν ≤ (u * M + ν) * T) (hP : |P| ≤ M * T)
    (hs : |s - P| ≤ 4 * N * (u * (M * T) + ν)) (ht : |t - T| ≤ 2 * N * (u * T + ν)) :
    0 < t ∧ |s / t - P / T| ≤ 16 * N * (u * M + ν) := by
  have b1 : 32 * N * u * T ≤ 1 * T := mul_le_mul_of_nonneg_right Nu T0.le
  have ht' := abs_le.1 ht
  have hh : T / 2 ≤ t := by linarith
  have t0 : 0 < t := by linarith
  obtain ⟨G, hG⟩ : ∃ G, G = 2 * N * (u * T + ν) := ⟨_, rfl⟩
  have G0 : 0 ≤ G := by rw [hG]; positivity
  have hMG : M * G + 4 * N * (u * (M * T) + ν) ≤ 8 * N * (u * M + ν) * T := by
    have c := mul_le_mul_of_nonneg_left hT2 N0
    have c1 : 0 ≤ N * (u * (M * T)) := by positivity
    have c2 : 0 ≤ N * ν := by positivity
    have c3 : 0 ≤ N * (ν * T) := by positivity
    rw [hG]
    nlinarith
  have hd : 8 * N * (u * M + ν) * T ≤ 16 * N * (u * M + ν) * t := by
    have := mul_le_mul_of_nonneg_left hh (show 0 ≤ 16 * N * (u * M + ν) by positivity)
    linarith
  have hc : |P / T| ≤ M := by rw [abs_div, abs_of_pos T0, div_le_iff₀ T0]; exact hP
  have key : |P / T * (T - t)| ≤ M * G := by
    rw [abs_mul]
    refine mul_le_mul hc ?_ (abs_nonneg _) M0
    rw [hG, _root_.abs_sub_comm]
    exact ht
  refine ⟨t0, ?_⟩
  have e : s / t - P / T = (s - P + P / T * (T - t)) / t := by field_simp; ring
  rw [e, abs_div, abs_of_pos t0, div_le_iff₀ t0]
  have := abs_add_le (s - P) (P / T * (T - t))
  linarith

end Ratio

/-- the exact sum of the products of numbers and weights -/
def products (l : List (Flt ρ × Flt ρ)) : ℚ := (l.map fun p => toRat p.2 * toRat p.1).sum

/-- the exact sum of the weights -/
def weights (l : List (Flt ρ × Flt ρ)) : ℚ := (l.map fun p => toRat p.2).sum

/-- sums of products and of weights, with the errors of rounding -/
theorem ratio_sums {u ν Ω : ℚ} (F : ρ.Fine u ν Ω) {M Y : ℚ} (M0 : 0 ≤ M) {n : ℕ} (Y0 : 0 ≤ Y)
    (hu : 32 * n * u ≤ 1) (hν : 64 * n * ν ≤ 1) (hΩ : 4 * n * (M + 1) * (Y + 1) ≤ Ω) (l : List (Flt ρ × Flt ρ))
    (hl : ∀ p ∈ l, Bounded M p.1 ∧ Between 0 Y p.2) :
    ∀ (j : ℕ) (s t : Flt ρ) (P T : ℚ), j + l.length ≤ n → 0 ≤ T → T ≤ j * Y → |P| ≤ M * T →
      Near P (4 * j * (u * (M * T) + ν)) s → Near T (2 * j * (u * T + ν)) t →
      ∃ s' t', l.foldl (fun (s : Flt ρ × Flt ρ) p => (s.1 + p.2 * p.1, s.2 + p.2)) (s, t) = (s', t') ∧
        |P + products l| ≤ M * (T + weights l) ∧
        Near (P + products l) (4 * (j + l.length : ℕ) * (u * (M * (T + weights l)) + ν)) s' ∧
        Near (T + weights l) (2 * (j + l.length : ℕ) * (u * (T + weights l) + ν)) t' := by
  have u0 := F.u0
  have ν0 := F.ν0
  induction l with
  | nil =>
    intro j s t P T _ T0 hT hP h1 h2
    exact ⟨s, t, rfl, by simpa [products, weights] using hP, by simpa [products, weights] using h1, by simpa [weights] using h2⟩
  | cons p l ih =>
    intro j s t P T hj T0 hTY hP h1 h2
    obtain ⟨⟨x, hx, ex, hxM⟩, ⟨y, hy, ey, y0, y1⟩⟩ := hl p List.mem_cons_self
    obtain ⟨s, hs, rfl, hsP⟩ := h1
    obtain ⟨t, ht, rfl, htT⟩ := h2
    have hlen : j + (p :: l).length = (j + 1) + l.length := by rw [List.length_cons]; omega
    rw [hlen] at hj ⊢
    have e1 : products (p :: l) = y * x + products l := by simp [products, ex, ey]
    have e2 : weights (p :: l) = y + weights l := by simp [weights, ey]
    rw [List.foldl_cons, ex, ey, e1, e2, ← add_assoc, ← add_assoc]
    have hJn : ((j : ℚ) + 1) ≤ n := by exact_mod_cast (show j + 1 ≤ n by omega)
    have J0 : (0 : ℚ) ≤ j := by positivity
    have Ju : 32 * (j : ℚ) * u ≤ 1 := by
      have : 32 * (j : ℚ) * u ≤ 32 * n * u := mul_le_mul_of_nonneg_right (by linarith) u0
      linarith
    have u1 : 32 * u ≤ 1 := by
      have : 32 * 1 * u ≤ 32 * n * u := mul_le_mul_of_nonneg_right (by linarith) u0
      linarith
    -- sizes
    have NM : (n : ℚ) * (M + 1) * (Y + 1) = n * M * Y + n * M + n * Y + n := by ring
    have N0 : (0 : ℚ) ≤ n := by linarith
    have hNM : 0 ≤ (n : ℚ) * M := by positivity
    have hNY : 0 ≤ (n : ℚ) * Y := by positivity
    have hNMY : 0 ≤ (n : ℚ) * M * Y := by positivity
    have hMy : M * y ≤ M * Y := mul_le_mul_of_nonneg_left y1 M0
    have hMYn : 1 * (M * Y) ≤ n * (M * Y) := mul_le_mul_of_nonneg_right (by linarith) (by positivity)
    have hMy0 : 0 ≤ M * y := by positivity
    have hTn : T + y ≤ n * Y := by
      have : ((j : ℚ) + 1) * Y ≤ n * Y := mul_le_mul_of_nonneg_right hJn Y0
      linarith
    have hMT : M * (T + y) ≤ M * (n * Y) := mul_le_mul_of_nonneg_left hTn M0
    have hMT0 : 0 ≤ M * T := by positivity
    have hν1 : ν ≤ 1 / 64 := by
      have : 64 * 1 * ν ≤ 64 * n * ν := mul_le_mul_of_nonneg_right (by linarith) ν0
      linarith
    have hJν : 64 * (j : ℚ) * ν ≤ 1 := by
      have : 64 * (j : ℚ) * ν ≤ 64 * n * ν := mul_le_mul_of_nonneg_right (by linarith) ν0
      linarith
    have hMyu : M * y * u ≤ M * y * (1 / 32) := mul_le_mul_of_nonneg_left (by linarith) hMy0
    have hN1 : (1 : ℚ) ≤ n := by linarith
    -- the product
    have hyx : |y * x| ≤ M * y := (Ratio.product (p := y * x) (ν := 0) (u := 0) le_rfl y0 hxM (by simp) (by simp)).1
    have szp : |y * x| ≤ Ω := by linarith
    obtain ⟨p', hp', ep, p1, p2⟩ := F.mul' hy hx szp
    obtain ⟨pz, hp1⟩ := Ratio.product u0 y0 hxM p1 p2
    -- the sum of products
    have szs : |s| ≤ M * T + 4 * j * (u * (M * T) + ν) := Sum.size hP hsP
    have szp' : |p'| ≤ M * y + (M * y * u + ν) := Sum.size hyx hp1
    have sz1 : |s + p'| ≤ M * T + 4 * j * (u * (M * T) + ν) + (M * y + M * y * u + ν) := by
      have := abs_add_le s p'
      linarith
    have hJuW : 32 * (j : ℚ) * u * (M * T) ≤ 1 * (M * T) := mul_le_mul_of_nonneg_right Ju hMT0
    have sz1Ω : |s + p'| ≤ Ω := by linarith
    obtain ⟨z, hz, ez, z1, z2⟩ := F.add' hs hp' sz1Ω
    have hzP := Ratio.step u0 ν0 M0 J0 Ju u1 T0 y0 hsP hp1 sz1 z1 z2
    -- the sum of weights
    have hJuT : 32 * (j : ℚ) * u * T ≤ 1 * T := mul_le_mul_of_nonneg_right Ju T0
    have sz2 : |t + y| ≤ T + y + 2 * j * (u * T + ν) :=
      Sum.size (P := T + y) (by rw [abs_of_nonneg (by linarith)]) (by rwa [add_sub_add_right_eq_sub])
    have sz2Ω : |t + y| ≤ Ω := by linarith
    obtain ⟨w, hw, ew, w1, w2⟩ := F.add' ht hy sz2Ω
    have hwT := Ratio.total u0 ν0 J0 Ju T0 y0 htT sz2 w1 w2
    have hP' : |P + y * x| ≤ M * (T + y) := by
      have := abs_add_le P (y * x)
      linarith
    rw [ep]
    dsimp only
    rw [ez, ew]
    exact ih (fun p hp => hl p (List.mem_cons_of_mem _ hp)) (j + 1) (of z hz) (of w hw) (P + y * x) (T + y) hj
      (by linarith) (by push_cast; linarith) hP' ⟨z, hz, rfl, by push_cast; exact hzP⟩ ⟨w, hw, rfl, by push_cast; exact hwT⟩

theorem weights_nonneg {Y : ℚ} (l : List (Flt ρ × Flt ρ)) (hl : ∀ p ∈ l, Between 0 Y p.2) : 0 ≤ weights l :=
  List.sum_nonneg fun x hx => by
    obtain ⟨p, hp, rfl⟩ := List.mem_map.1 hx
    exact (hl p hp).toRat.1

/-- the quotient of a sum of products and the sum of the weights, with the error of rounding, unless the
weights underflow -/
theorem ratio_near {u ν Ω : ℚ} (F : ρ.Fine u ν Ω) {M Y : ℚ} (M0 : 0 ≤ M) {n : ℕ} (Y0 : 0 ≤ Y)
    (hu : 32 * n * u ≤ 1) (hν : 64 * n * ν ≤ 1) (hΩ : 4 * n * (M + 1) * (Y + 1) ≤ Ω) (l : List (Flt ρ × Flt ρ)) (hlen : l.length ≤ n)
    (hl : ∀ p ∈ l, Bounded M p.1 ∧ Between 0 Y p.2)
    (hw0 : 0 < weights l) (hw1 : 8 * n * ν ≤ weights l) (hw2 : (M + 2) * ν ≤ (u * M + ν) * weights l) :
    ∃ s t, l.foldl (fun (s : Flt ρ × Flt ρ) p => (s.1 + p.2 * p.1, s.2 + p.2)) (lit 0, lit 0) = (s, t) ∧
      Near (products l) (4 * n * (u * (M * weights l) + ν)) s ∧ Near (products l / weights l) (18 * n * (u * M + ν)) (s / t) := by
  have u0 := F.u0
  have ν0 := F.ν0
  obtain ⟨s, t, e, hP, ⟨s, hs, rfl, hsP⟩, ⟨t, ht, rfl, htT⟩⟩ :=
    ratio_sums F M0 Y0 hu hν hΩ l hl 0 (lit 0) (lit 0) 0 0 (by omega) le_rfl (by simp) (by simp) (near_zero (by simp)) (near_zero (by simp))
  have hne : l ≠ [] := by
    rintro rfl
    simp [weights] at hw0
  rw [Nat.zero_add, zero_add, zero_add] at *
  have KN : (l.length : ℚ) ≤ n := by exact_mod_cast hlen
  have K1 : (1 : ℚ) ≤ l.length := by exact_mod_cast List.length_pos_iff.2 hne
  generalize (l.length : ℚ) = K at *
  generalize (n : ℚ) = N at *
  have c0 : 0 ≤ u * M + ν := by positivity
  have Ku : 32 * K * u ≤ 1 := by
    have : 32 * K * u ≤ 32 * N * u := mul_le_mul_of_nonneg_right (by linarith) u0
    linarith
  have Kν : K * ν ≤ N * ν := mul_le_mul_of_nonneg_right KN ν0
  refine ⟨_, _, e, ⟨s, hs, rfl, hsP.trans ?_⟩, ?_⟩
  · exact mul_le_mul_of_nonneg_right (by linarith) (by positivity)
  obtain ⟨t0, hq⟩ := Ratio.quotient u0 ν0 M0 (by linarith : 0 ≤ K) Ku hw0 (by linarith) hw2 hP hsP htT
  have KE : K * (u * M + ν) ≤ N * (u * M + ν) := mul_le_mul_of_nonneg_right KN c0
  have sz := Sum.size (by rw [abs_div, abs_of_pos hw0, div_le_iff₀ hw0]; exact hP) hq
  have szΩ : |s / t| ≤ Ω := by
    have b1 : 32 * K * u * M ≤ 1 * M := mul_le_mul_of_nonneg_right Ku M0
    have NM : 4 * N * (M + 1) * (Y + 1) = 4 * (N * M * Y) + 4 * (N * M) + 4 * (N * Y) + 4 * N := by ring
    have N0 : 0 ≤ N := by linarith
    have h1 : 0 ≤ N * M * Y := by positivity
    have h2 : 0 ≤ N * Y := by positivity
    have h3 : 1 * M ≤ N * M := mul_le_mul_of_nonneg_right (by linarith) M0
    linarith
  obtain ⟨z, hz, ez, z1, z2⟩ := F.div' hs ht t0.ne' szΩ
  rw [ez]
  have hc := mul_le_mul_of_nonneg_right sz u0
  have b2 : 32 * K * u * (u * M + ν) ≤ 1 * (u * M + ν) := mul_le_mul_of_nonneg_right Ku c0
  have b3 : (M + 16 * K * (u * M + ν)) * u = u * M + 16 * (K * u * (u * M + ν)) := by ring
  have b4 : 1 * (u * M + ν) ≤ N * (u * M + ν) := mul_le_mul_of_nonneg_right (by linarith) c0
  have b5 : 0 ≤ u * M := by positivity
  have := abs_le.1 hq
  refine ⟨z, hz, rfl, ?_⟩
  rw [abs_le]
  constructor <;> linarith

end Flt
end FL
