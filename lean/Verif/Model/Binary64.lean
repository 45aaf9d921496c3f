/-
The numbers of type `double` (IEEE 754 binary64) and rounding to nearest, ties to even.
-/
import Verif.Model.Rounded
import Mathlib.Data.Rat.Lemmas
import Mathlib.Algebra.Order.Floor.Ring
import Mathlib.Tactic.Linarith
import Mathlib.Tactic.NormNum
import Mathlib.Tactic.Ring
import Mathlib.Tactic.FieldSimp
import Mathlib.Tactic.Positivity

namespace FL
namespace Binary64
open Ext

/-- the greatest `k` with `2 ^ k ≤ x`, for positive `x` -/
def log2 (x : ℚ) : ℤ :=
  let k : ℤ := (x.num.natAbs.log2 : ℤ) - (x.den.log2 : ℤ)
  if x < 2 ^ k then k - 1 else k

/-- the exponent of the unit in the last place: 53 binary digits, and not below 2^-1074 -/
def expo (x : ℚ) : ℤ := max (-1074) (log2 x - 52)

/-- rounding to the nearest integer, ties to even -/
def halfEven (z : ℚ) : ℤ :=
  if z - z.floor < 1 / 2 then z.floor
  else if 1 / 2 < z - z.floor then z.floor + 1
  else if z.floor % 2 = 0 then z.floor
  else z.floor + 1

/-- the nearest number with 53 binary digits, for positive numbers -/
def near (x : ℚ) : ℚ := halfEven (x / 2 ^ expo x) * 2 ^ expo x

/-- rounding of nonnegative numbers; beyond the greatest number it overflows -/
def rndPos (x : ℚ) : Ext ℚ := if near x < 2 ^ (1024 : ℤ) then fin (near x) else pinf

/-- rounding of numbers -/
def rnd (x : ℚ) : Ext ℚ := if x = 0 then fin 0 else if 0 < x then rndPos x else neg (rndPos (-x))

/-! ### laws -/

theorem log2_spec {x : ℚ} (hx : 0 < x) : (2 : ℚ) ^ log2 x ≤ x ∧ x < 2 ^ (log2 x + 1) := by
  have hn : 0 < x.num := Rat.num_pos.2 hx
  have hn0 : x.num.natAbs ≠ 0 := by omega
  have hd0 : x.den ≠ 0 := x.den_nz
  have h1 : (2 : ℚ) ^ (x.num.natAbs.log2 : ℤ) ≤ x.num.natAbs := by
    rw [zpow_natCast]; exact_mod_cast Nat.log2_self_le hn0
  have h2 : (x.num.natAbs : ℚ) < 2 ^ ((x.num.natAbs.log2 : ℤ) + 1) := by
    have := @Nat.lt_log2_self x.num.natAbs
    rw [show ((x.num.natAbs.log2 : ℤ) + 1) = ((x.num.natAbs.log2 + 1 : ℕ) : ℤ) by push_cast; ring, zpow_natCast]
    exact_mod_cast this
  have h3 : (2 : ℚ) ^ (x.den.log2 : ℤ) ≤ x.den := by
    rw [zpow_natCast]; exact_mod_cast Nat.log2_self_le hd0
  have h4 : (x.den : ℚ) < 2 ^ ((x.den.log2 : ℤ) + 1) := by
    have := @Nat.lt_log2_self x.den
    rw [show ((x.den.log2 : ℤ) + 1) = ((x.den.log2 + 1 : ℕ) : ℤ) by push_cast; ring, zpow_natCast]
    exact_mod_cast this
  have hx' : x * x.den = x.num.natAbs := by
    rw [Rat.mul_den_eq_num]
    have : ((x.num.natAbs : ℤ) : ℚ) = (x.num : ℚ) := by rw [Int.natAbs_of_nonneg hn.le]
    rw [← this]; simp
  set a : ℤ := (x.num.natAbs.log2 : ℤ)
  set b : ℤ := (x.den.log2 : ℤ)
  have hdpos : (0 : ℚ) < x.den := by exact_mod_cast Nat.pos_of_ne_zero hd0
  have p2 : (0 : ℚ) < 2 := by norm_num
  have lo : (2 : ℚ) ^ (a - b - 1) ≤ x := by
    by_contra hc
    push Not at hc
    have : x * x.den < 2 ^ (a - b - 1) * 2 ^ (b + 1) :=
      mul_lt_mul'' hc h4 hx.le hdpos.le
    rw [← zpow_add₀ (by norm_num : (2:ℚ) ≠ 0), show a - b - 1 + (b + 1) = a by ring, hx'] at this
    linarith
  have hi : x < 2 ^ (a - b + 1) := by
    by_contra hc
    push Not at hc
    have : (2 : ℚ) ^ (a - b + 1) * 2 ^ b ≤ x * x.den :=
      mul_le_mul hc h3 (by positivity) hx.le
    rw [← zpow_add₀ (by norm_num : (2:ℚ) ≠ 0), show a - b + 1 + b = a + 1 by ring, hx'] at this
    linarith
  unfold log2
  simp only
  split_ifs with h
  · exact ⟨lo, by rw [show a - b - 1 + 1 = a - b by ring]; exact h⟩
  · exact ⟨not_lt.1 h, hi⟩

theorem halfEven_near (z : ℚ) : z - 1 / 2 ≤ halfEven z ∧ (halfEven z : ℚ) ≤ z + 1 / 2 := by
  have h1 : (z.floor : ℚ) ≤ z := Rat.floor_le z
  have h2 : z < z.floor + 1 := by have := Rat.lt_floor_add_one z; push_cast at this; exact this
  unfold halfEven
  split_ifs <;> push_cast <;> constructor <;> linarith

theorem halfEven_int (n : ℤ) : halfEven n = n := by
  unfold halfEven
  rw [show (n : ℚ).floor = n from Rat.floor_intCast n]
  simp

theorem halfEven_mono {y z : ℚ} (h : y ≤ z) : halfEven y ≤ halfEven z := by
  have hf : y.floor ≤ z.floor := Rat.floor_monotone h
  rcases hf.lt_or_eq with hlt | heq
  · have a : halfEven y ≤ y.floor + 1 := by unfold halfEven; split_ifs <;> omega
    have b : z.floor ≤ halfEven z := by unfold halfEven; split_ifs <;> omega
    omega
  · unfold halfEven
    rw [heq]
    split_ifs <;> first | omega | (exfalso; linarith)

theorem near_nonneg {x : ℚ} (hx : 0 ≤ x) : 0 ≤ near x := by
  unfold near
  have : (0 : ℤ) ≤ halfEven (x / 2 ^ expo x) := by
    rw [← halfEven_int 0]
    exact halfEven_mono (by push_cast; positivity)
  have h : (0 : ℚ) ≤ (halfEven (x / 2 ^ expo x) : ℚ) := by exact_mod_cast this
  positivity

theorem log2_mono {x y : ℚ} (hx : 0 < x) (h : x ≤ y) : log2 x ≤ log2 y := by
  have h1 := (log2_spec hx).1
  have h2 := (log2_spec (lt_of_lt_of_le hx h)).2
  have : (2 : ℚ) ^ log2 x < 2 ^ (log2 y + 1) := lt_of_le_of_lt h1 (lt_of_le_of_lt h h2)
  have := (zpow_lt_zpow_iff_right₀ (by norm_num : (1:ℚ) < 2)).1 this
  omega

theorem log2_unique {x : ℚ} {k : ℤ} (h1 : (2 : ℚ) ^ k ≤ x) (h2 : x < 2 ^ (k + 1)) : log2 x = k := by
  have hx : 0 < x := lt_of_lt_of_le (by positivity) h1
  obtain ⟨a, b⟩ := log2_spec hx
  have e1 := (zpow_lt_zpow_iff_right₀ (by norm_num : (1:ℚ) < 2)).1 (lt_of_le_of_lt a h2)
  have e2 := (zpow_lt_zpow_iff_right₀ (by norm_num : (1:ℚ) < 2)).1 (lt_of_le_of_lt h1 b)
  omega

/-- the numbers of the format between powers of two -/
theorem near_le_pow {x : ℚ} (hx : 0 < x) : near x ≤ 2 ^ (expo x + 53) := by
  obtain ⟨-, h2⟩ := log2_spec hx
  have he : log2 x + 1 ≤ expo x + 53 := by unfold expo; omega
  have hle : x ≤ 2 ^ (expo x + 53) := h2.le.trans (zpow_le_zpow_right₀ (by norm_num) he)
  have hq : x / 2 ^ expo x ≤ ((2 ^ 53 : ℤ) : ℚ) := by
    rw [div_le_iff₀ (by positivity)]
    rw [zpow_add₀ (by norm_num)] at hle
    push_cast
    have : (2:ℚ) ^ (53 : ℤ) = 2 ^ (53 : ℕ) := by norm_num
    rw [this] at hle
    linarith
  have := halfEven_mono hq
  rw [halfEven_int] at this
  have h' : ((halfEven (x / 2 ^ expo x) : ℤ) : ℚ) ≤ 2 ^ 53 := by exact_mod_cast this
  unfold near
  rw [zpow_add₀ (by norm_num), mul_comm ((2:ℚ) ^ expo x)]
  refine mul_le_mul_of_nonneg_right ?_ (by positivity)
  exact_mod_cast h'

theorem pow_le_near {x : ℚ} (hx : 0 < x) (h : -1074 < expo x) : 2 ^ (expo x + 52) ≤ near x := by
  obtain ⟨h1, -⟩ := log2_spec hx
  have he : expo x + 52 = log2 x := by unfold expo at h ⊢; omega
  have hq : ((2 ^ 52 : ℤ) : ℚ) ≤ x / 2 ^ expo x := by
    rw [le_div_iff₀ (by positivity)]
    rw [← he, zpow_add₀ (by norm_num)] at h1
    push_cast
    have : (2:ℚ) ^ (52 : ℤ) = 2 ^ (52 : ℕ) := by norm_num
    rw [this] at h1
    linarith
  have := halfEven_mono hq
  rw [halfEven_int] at this
  have h' : (2 : ℚ) ^ 52 ≤ ((halfEven (x / 2 ^ expo x) : ℤ) : ℚ) := by exact_mod_cast this
  unfold near
  rw [zpow_add₀ (by norm_num), mul_comm ((2:ℚ) ^ expo x)]
  refine mul_le_mul_of_nonneg_right ?_ (by positivity)
  exact_mod_cast h'

theorem near_mono {x y : ℚ} (hx : 0 < x) (h : x ≤ y) : near x ≤ near y := by
  have hy : 0 < y := lt_of_lt_of_le hx h
  have hl := log2_mono hx h
  have he : expo x ≤ expo y := by unfold expo; omega
  rcases he.lt_or_eq with hlt | heq
  · refine (near_le_pow hx).trans (le_trans ?_ (pow_le_near hy ?_))
    · exact zpow_le_zpow_right₀ (by norm_num) (by omega)
    · have : -1074 ≤ expo x := by unfold expo; omega
      omega
  · unfold near
    rw [heq]
    have : halfEven (x / 2 ^ expo y) ≤ halfEven (y / 2 ^ expo y) :=
      halfEven_mono (div_le_div_of_nonneg_right h (by positivity))
    refine mul_le_mul_of_nonneg_right ?_ (by positivity)
    exact_mod_cast this

/-- integers below `2 ^ 53` times powers of two from `2 ^ -1074` on need no rounding -/
theorem near_exact (m : ℕ) (hm : m ≤ 2 ^ 53) (hm0 : 0 < m) (e : ℤ) (he : -1074 ≤ e) : near (m * 2 ^ e) = m * 2 ^ e := by
  have hpos : (0 : ℚ) < m * 2 ^ e := by positivity
  rcases hm.lt_or_eq with hlt | rfl
  · have hle : expo (m * 2 ^ e) ≤ e := by
      obtain ⟨h1, -⟩ := log2_spec hpos
      have h2 : (m : ℚ) * 2 ^ e < 2 ^ (53 + e) := by
        rw [zpow_add₀ (by norm_num)]
        refine mul_lt_mul_of_pos_right ?_ (by positivity)
        exact_mod_cast hlt
      have := (zpow_lt_zpow_iff_right₀ (by norm_num : (1:ℚ) < 2)).1 (lt_of_le_of_lt h1 h2)
      unfold expo
      omega
    obtain ⟨d, hd⟩ := Int.eq_ofNat_of_zero_le (sub_nonneg.2 hle)
    have hq : (m : ℚ) * 2 ^ e / 2 ^ expo (m * 2 ^ e) = ((m * 2 ^ d : ℤ) : ℚ) := by
      rw [mul_div_assoc, ← zpow_sub₀ (by norm_num), hd]
      push_cast
      simp
    unfold near
    rw [hq, halfEven_int, ← hq]
    field_simp
  · have hl : log2 (((2 ^ 53 : ℕ) : ℚ) * 2 ^ e) = e + 53 := by
      apply log2_unique
      · rw [zpow_add₀ (by norm_num), mul_comm]; norm_num
      · rw [zpow_add₀ (by norm_num), zpow_add₀ (by norm_num), mul_comm]
        have : (0:ℚ) < 2 ^ e := by positivity
        norm_num
        linarith
    have hexp : expo (((2 ^ 53 : ℕ) : ℚ) * 2 ^ e) = e + 1 := by unfold expo; rw [hl]; omega
    unfold near
    rw [hexp]
    have hq : ((2 ^ 53 : ℕ) : ℚ) * 2 ^ e / 2 ^ (e + 1) = ((2 ^ 52 : ℤ) : ℚ) := by
      rw [zpow_add₀ (by norm_num)]
      field_simp
      norm_num
    rw [hq, halfEven_int, zpow_add₀ (by norm_num)]
    push_cast
    ring

theorem near_near {x : ℚ} (hx : 0 < x) (h0 : 0 < near x) : near (near x) = near x := by
  have hm : 0 < halfEven (x / 2 ^ expo x) := by
    by_contra hc
    push Not at hc
    have : near x ≤ 0 := by
      unfold near
      have h' : ((halfEven (x / 2 ^ expo x) : ℤ) : ℚ) ≤ 0 := by exact_mod_cast hc
      exact mul_nonpos_of_nonpos_of_nonneg h' (by positivity)
    linarith
  obtain ⟨m, hm'⟩ := Int.eq_ofNat_of_zero_le hm.le
  have hn : near x = m * 2 ^ expo x := by
    unfold near
    rw [hm']
    simp
  have hub := near_le_pow hx
  rw [hn, zpow_add₀ (by norm_num), mul_comm ((2:ℚ) ^ expo x)] at hub
  have hm53 : m ≤ 2 ^ 53 := by
    have := le_of_mul_le_mul_right hub (by positivity)
    exact_mod_cast this
  rw [hn]
  refine near_exact m hm53 (by omega) _ ?_
  unfold expo
  omega

theorem rndPos_ne_nan (x : ℚ) : rndPos x ≠ nan := by
  unfold rndPos
  split_ifs <;> simp

theorem rnd_ne_nan (x : ℚ) : rnd x ≠ nan := by
  unfold rnd
  split_ifs
  · simp
  · exact rndPos_ne_nan x
  · have := rndPos_ne_nan (-x)
    cases h : rndPos (-x) <;> simp_all [Ext.neg]

theorem rnd_neg (x : ℚ) : rnd (-x) = neg (rnd x) := by
  unfold rnd
  rcases lt_trichotomy x 0 with h | rfl | h
  · rw [if_neg (by linarith), if_pos (by linarith), if_neg h.ne, if_neg (by linarith)]
    cases rndPos (-x) <;> simp [Ext.neg]
  · simp [Ext.neg]
  · rw [if_neg (by linarith), if_neg (by linarith), if_neg h.ne', if_pos h, neg_neg]

theorem rndPos_idem {x y : ℚ} (hx : 0 < x) (h : rndPos x = fin y) : rnd y = fin y := by
  unfold rndPos at h
  split_ifs at h with hlt
  have hy : near x = y := by simpa using h
  rcases (near_nonneg hx.le).lt_or_eq with h0 | h0
  · rw [← hy]
    unfold rnd
    rw [if_neg h0.ne', if_pos h0]
    unfold rndPos
    rw [near_near hx h0, if_pos hlt]
  · rw [← hy, ← h0]
    simp [rnd]

theorem rnd_idem (x y : ℚ) (h : rnd x = fin y) : rnd y = fin y := by
  rcases lt_trichotomy x 0 with hx | rfl | hx
  · have h' : rnd (-x) = fin (-y) := by rw [rnd_neg, h]; rfl
    unfold rnd at h'
    rw [if_neg (by linarith), if_pos (by linarith)] at h'
    have := rndPos_idem (by linarith) h'
    rw [rnd_neg] at this
    cases hr : rnd y with
    | fin z => rw [hr] at this; simp only [Ext.neg, fin.injEq, neg_inj] at this; rw [this]
    | _ => rw [hr] at this; simp [Ext.neg] at this
  · simp only [rnd, if_true, fin.injEq] at h
    rw [← h]
    simp [rnd]
  · unfold rnd at h
    rw [if_neg hx.ne', if_pos hx] at h
    exact rndPos_idem hx h

theorem le_refl' {x : Ext ℚ} (h : x ≠ nan) : Le x x := by cases x <;> simp_all [Le]

theorem rndPos_mono {x y : ℚ} (hx : 0 < x) (h : x ≤ y) : Le (rndPos x) (rndPos y) := by
  have hn := near_mono hx h
  unfold rndPos
  split_ifs with h1 h2 h2
  · exact hn
  · trivial
  · linarith
  · trivial

theorem rndPos_nonneg {x : ℚ} (hx : 0 < x) : Le (fin 0) (rndPos x) := by
  unfold rndPos
  split_ifs
  · exact near_nonneg hx.le
  · trivial

theorem neg_le_neg' {x y : Ext ℚ} (h : Le x y) : Le (neg y) (neg x) := by
  cases x <;> cases y <;> simp_all [Le, Ext.neg]

theorem le_trans' {x y z : Ext ℚ} (h1 : Le x y) (h2 : Le y z) : Le x z := by
  cases x <;> cases y <;> cases z <;> simp_all [Le]
  exact le_trans h1 h2

theorem rnd_mono (x y : ℚ) (h : x ≤ y) : Le (rnd x) (rnd y) := by
  have pos : ∀ {z : ℚ}, 0 < z → rnd z = rndPos z := fun hz => by unfold rnd; rw [if_neg hz.ne', if_pos hz]
  have zero : rnd 0 = fin 0 := by simp [rnd]
  have nonneg : ∀ {z : ℚ}, 0 ≤ z → Le (fin 0) (rnd z) := by
    intro z hz
    rcases hz.lt_or_eq with h | rfl
    · rw [pos h]; exact rndPos_nonneg h
    · rw [zero]; exact le_refl (0:ℚ)
  have nonpos : ∀ {z : ℚ}, z ≤ 0 → Le (rnd z) (fin 0) := by
    intro z hz
    have := neg_le_neg' (nonneg (z := -z) (by linarith))
    rw [← rnd_neg, neg_neg] at this
    simpa [Ext.neg] using this
  rcases lt_or_ge 0 x with hx | hx
  · rw [pos hx, pos (lt_of_lt_of_le hx h)]
    exact rndPos_mono hx h
  · rcases lt_or_ge y 0 with hy | hy
    · have := rndPos_mono (x := -y) (y := -x) (by linarith) (by linarith)
      rw [← pos (by linarith), ← pos (by linarith)] at this
      have := neg_le_neg' this
      rwa [← rnd_neg, ← rnd_neg, neg_neg, neg_neg] at this
    · exact le_trans' (nonpos hx) (nonneg hy)

/-- numbers of the format are not rounded -/
theorem rnd_exact (m : ℤ) (hm : |m| ≤ 2 ^ 53) (e : ℤ) (he : -1074 ≤ e) (hb : |(m : ℚ)| * 2 ^ e < 2 ^ (1024 : ℤ)) :
    rnd (m * 2 ^ e) = fin ((m : ℚ) * 2 ^ e) := by
  have pos : ∀ k : ℕ, 0 < k → k ≤ 2 ^ 53 → (k : ℚ) * 2 ^ e < 2 ^ (1024 : ℤ) →
      rnd (k * 2 ^ e) = fin ((k : ℚ) * 2 ^ e) := by
    intro k h0 h1 h2
    unfold rnd
    have : (0 : ℚ) < k * 2 ^ e := by positivity
    rw [if_neg this.ne', if_pos this]
    unfold rndPos
    rw [near_exact k h1 h0 e he, if_pos h2]
  rcases lt_trichotomy m 0 with h | rfl | h
  · obtain ⟨k, hk⟩ := Int.eq_ofNat_of_zero_le (a := -m) (by omega)
    rw [abs_of_neg h] at hm
    have hq : (m : ℚ) = -(k : ℚ) := by
      have : m = -(k : ℤ) := by omega
      rw [this]; simp
    rw [abs_of_neg (by exact_mod_cast h), hq, neg_neg] at hb
    have := pos k (by omega) (by omega) hb
    rw [hq, neg_mul, rnd_neg, this]
    rfl
  · simp [rnd]
  · obtain ⟨k, hk⟩ := Int.eq_ofNat_of_zero_le h.le
    rw [abs_of_pos h] at hm
    have hq : (m : ℚ) = (k : ℚ) := by rw [hk]; simp
    rw [abs_of_pos (by exact_mod_cast h), hq] at hb
    rw [hq]
    exact pos k (by omega) (by omega) hb

theorem lt_big {q : ℚ} (h : q < 2 ^ (32 : ℤ)) : q < 2 ^ (1024 : ℤ) :=
  lt_of_lt_of_le h (zpow_le_zpow_right₀ (by norm_num) (by norm_num))

theorem rnd_int (n : ℤ) (h : |n| ≤ 2147483648) : rnd n = fin (n : ℚ) := by
  have hq : |(n : ℚ)| ≤ 2147483648 := by exact_mod_cast h
  have := rnd_exact n (by omega) 0 (by norm_num) (by
    rw [zpow_zero, mul_one]
    refine lt_big (lt_of_le_of_lt hq ?_)
    norm_num)
  simpa using this

theorem rnd_half : rnd (1 / 2) = fin (1 / 2) := by
  have := rnd_exact 1 (by norm_num) (-1) (by norm_num) (lt_big (by norm_num))
  norm_num at this
  exact this

/-- the numbers of the format are integers of 53 bits times powers of two -/
theorem rep_form {x : ℚ} (h : rnd x = fin x) : ∃ m e : ℤ, |m| ≤ 2 ^ 53 ∧ -1074 ≤ e ∧ x = m * 2 ^ e := by
  have pos : ∀ y : ℚ, 0 < y → rnd y = fin y → ∃ m e : ℤ, |m| ≤ 2 ^ 53 ∧ -1074 ≤ e ∧ y = m * 2 ^ e := by
    intro y hy h
    unfold rnd rndPos at h
    rw [if_neg hy.ne', if_pos hy] at h
    split_ifs at h
    have hn : near y = y := by simpa using h
    refine ⟨halfEven (y / 2 ^ expo y), expo y, ?_, by unfold expo; omega, by rw [← near, hn]⟩
    have h0 := near_nonneg hy.le
    have h1 := near_le_pow hy
    unfold near at h0 h1
    have hp : (0 : ℚ) < 2 ^ expo y := by positivity
    rw [zpow_add₀ (by norm_num), mul_comm ((2:ℚ) ^ expo y)] at h1
    have h1' := le_of_mul_le_mul_right h1 hp
    have h0' : (0 : ℚ) ≤ halfEven (y / 2 ^ expo y) := by
      by_contra hc
      push Not at hc
      nlinarith
    have a : (0 : ℤ) ≤ halfEven (y / 2 ^ expo y) := by exact_mod_cast h0'
    have b : halfEven (y / 2 ^ expo y) ≤ 2 ^ 53 := by exact_mod_cast h1'
    rw [abs_of_nonneg a]
    exact b
  rcases lt_trichotomy x 0 with hx | rfl | hx
  · obtain ⟨m, e, h1, h2, h3⟩ := pos (-x) (by linarith) (by rw [rnd_neg, h]; rfl)
    refine ⟨-m, e, by rwa [abs_neg], h2, ?_⟩
    push_cast
    linarith
  · exact ⟨0, 0, by norm_num, by norm_num, by norm_num⟩
  · exact pos x hx h

theorem rnd_double (x : ℚ) (hs : |x| ≤ 1073741824) (h : rnd x = fin x) : rnd (2 * x) = fin (2 * x) := by
  obtain ⟨m, e, h1, h2, rfl⟩ := rep_form h
  have hpe : (0 : ℚ) < 2 ^ e := by positivity
  have e2 : 2 * ((m : ℚ) * 2 ^ e) = m * 2 ^ (e + 1) := by rw [zpow_add₀ (by norm_num)]; ring
  rw [e2]
  refine rnd_exact m h1 (e + 1) (by omega) (lt_big ?_)
  rw [abs_mul, abs_of_pos hpe] at hs
  rw [zpow_add₀ (by norm_num)]
  norm_num at hs ⊢
  linarith

end Binary64

open Ext in
/-- The format of `double`: binary64, rounding to nearest, ties to even.  The functions of `<cmath>` are a
parameter.  The tolerance is the double nearest to 1e-6 (src/fuzzylite.cpp:24). -/
def binary64 (lib1 : Fn1 → Ext ℚ → Ext ℚ) (lib2 : Fn2 → Ext ℚ → Ext ℚ → Ext ℚ) : Format where
  rnd := Binary64.rnd
  rnd_ne_nan := Binary64.rnd_ne_nan
  rnd_idem := Binary64.rnd_idem
  rnd_mono := Binary64.rnd_mono
  rnd_neg := Binary64.rnd_neg
  rnd_int := Binary64.rnd_int
  rnd_half := Binary64.rnd_half
  rnd_double := Binary64.rnd_double
  lib1 := lib1
  lib2 := lib2
  eps := 4722366482869645 * 2 ^ (-72 : ℤ)
  eps_pos := by positivity
  eps_rnd := by
    have := Binary64.rnd_exact 4722366482869645 (by norm_num) (-72) (by norm_num) (Binary64.lt_big (by norm_num))
    exact_mod_cast this

/-- the nearest doubles to 0.1 and to 1e-6, a tie, overflow and underflow -/
example : Binary64.rnd (1 / 10) = .fin (3602879701896397 / 36028797018963968) ∧
    Binary64.rnd (1 / 1000000) = .fin (4722366482869645 * 2 ^ (-72 : ℤ)) ∧
    Binary64.rnd (9007199254740993) = .fin 9007199254740992 ∧
    Binary64.rnd (2 ^ 1024) = .pinf ∧ Binary64.rnd (-(2 ^ 1024 - 2 ^ 970)) = .ninf ∧
    Binary64.rnd (2 ^ (-1075 : ℤ)) = .fin 0 ∧ Binary64.rnd (3 * 2 ^ (-1075 : ℤ)) = .fin (2 ^ (-1073 : ℤ)) := by decide +kernel

end FL
