/-
Binary64: bounds of rounding errors and the two facts about truth degrees that rest on them.
-/
import Verif.Lemmas.Rounded

namespace FL

namespace Format

/-- Two facts about rounding of numbers from 0 to 1 that do not follow from monotony. -/
structure Tight (ρ : Format) : Prop where
  prod : ∀ a b, ρ.Rep a → ρ.Rep b → 0 ≤ a → a ≤ 1 → 0 ≤ b → b ≤ 1 → a + b ≤ 1 + ρ.r (a * b)
  diff : ∀ p, ρ.Rep p → 0 ≤ p → p ≤ 1 → ρ.r (ρ.r (1 + p) - p) ≤ 1

/-- The square root of numbers from 0 to 1 is rounded to one of the two nearest numbers of the format, as
IEEE 754 requires and more. -/
structure Root (ρ : Format) : Prop where
  sqrt : ∀ x, ρ.Rep x → 0 ≤ x → x ≤ 1 → ∃ y, ρ.lib1 .sqrt (.fin x) = .fin y ∧ ρ.Rep y ∧
    (∀ z, ρ.Rep z → 0 ≤ z → z * z ≤ x → z ≤ y) ∧ (∀ z, ρ.Rep z → 0 ≤ z → x ≤ z * z → y ≤ z)

end Format

namespace Binary64
open Ext Format
variable (lib1 : Fn1 → Ext ℚ → Ext ℚ) (lib2 : Fn2 → Ext ℚ → Ext ℚ → Ext ℚ)

theorem near_err (x : ℚ) : |near x - x| ≤ 2 ^ expo x / 2 := by
  have hp : (0 : ℚ) < 2 ^ expo x := by positivity
  obtain ⟨h1, h2⟩ := halfEven_near (x / 2 ^ expo x)
  have hx : x / 2 ^ expo x * 2 ^ expo x = x := by field_simp
  unfold near
  rw [abs_le]
  constructor <;> nlinarith

theorem r_pos {x : ℚ} (hx : 0 < x) (hs : Small x) : (binary64 lib1 lib2).r x = near x := by
  have h := rnd_small (ρ := binary64 lib1 lib2) hs
  have h' : rnd x = fin ((binary64 lib1 lib2).r x) := h
  unfold rnd rndPos at h'
  rw [if_neg hx.ne', if_pos hx] at h'
  split_ifs at h'
  simpa using h'.symm

/-- rounding error of numbers up to a power of two -/
theorem r_err {x : ℚ} (j : ℤ) (hj : -1000 ≤ j) (h0 : 0 ≤ x) (hx : x ≤ 2 ^ j) (hs : Small x) :
    |(binary64 lib1 lib2).r x - x| ≤ 2 ^ (j - 54) := by
  rcases h0.lt_or_eq with h0 | h0
  · rcases hx.lt_or_eq with hx | hx
    · rw [r_pos lib1 lib2 h0 hs]
      refine (near_err x).trans ?_
      have hl := (zpow_lt_zpow_iff_right₀ (by norm_num : (1:ℚ) < 2)).1 (lt_of_le_of_lt (log2_spec h0).1 hx)
      have he : expo x ≤ j - 53 := by unfold expo; omega
      have := zpow_le_zpow_right₀ (by norm_num : (1:ℚ) ≤ 2) he
      rw [show j - 53 = j - 54 + 1 by ring, zpow_add₀ (by norm_num)] at this
      norm_num at this
      linarith
    · have hrep : (binary64 lib1 lib2).Rep x := by
        have hb : x < 2 ^ (32 : ℤ) := by
          have := (abs_le.1 hs).2
          norm_num
          linarith
        have := rnd_exact 1 (by norm_num) j (by omega) (by rw [← hx]; simpa using lt_big hb)
        rw [← hx] at this
        have h2 : rnd x = fin x := by simpa using this
        exact h2
      rw [r_of_rep hrep]
      simp
      positivity
  · rw [← h0, r_of_rep rep_zero]
    simp
    positivity

/-- the numbers of the format from a power of two on are multiples of a power of two -/
theorem rep_multiple {x : ℚ} (j : ℤ) (hj : -1000 ≤ j) (h : (binary64 lib1 lib2).Rep x) (hx : (2 : ℚ) ^ j ≤ x) :
    ∃ k : ℤ, x = k * 2 ^ (j - 52) := by
  have h0 : 0 < x := lt_of_lt_of_le (by positivity) hx
  have h' : rnd x = fin x := h
  unfold rnd rndPos at h'
  rw [if_neg h0.ne', if_pos h0] at h'
  split_ifs at h'
  have hn : near x = x := by simpa using h'
  have hl := (zpow_lt_zpow_iff_right₀ (by norm_num : (1:ℚ) < 2)).1 (lt_of_le_of_lt hx (log2_spec h0).2)
  have he : j - 52 ≤ expo x := by unfold expo; omega
  obtain ⟨d, hd⟩ := Int.eq_ofNat_of_zero_le (sub_nonneg.2 he)
  refine ⟨halfEven (x / 2 ^ expo x) * 2 ^ d, ?_⟩
  have e1 : (2 : ℚ) ^ expo x = 2 ^ d * 2 ^ (j - 52) := by
    rw [← zpow_natCast, ← hd, ← zpow_add₀ (by norm_num)]
    congr 1
    ring
  conv_lhs => rw [← hn]
  unfold near
  rw [e1]
  push_cast
  ring

theorem tight_prod {a b : ℚ} (ha : (binary64 lib1 lib2).Rep a) (hb : (binary64 lib1 lib2).Rep b) (a1 : a ≤ 1)
    (b0 : 0 ≤ b) (hab : b ≤ a) : a + b ≤ 1 + (binary64 lib1 lib2).r (a * b) := by
  by_contra hc
  push Not at hc
  have b1 : b ≤ 1 := hab.trans a1
  have a0 : 0 ≤ a := b0.trans hab
  have p1 : a * b ≤ 1 := by nlinarith
  have p0 : 0 ≤ a * b := mul_nonneg a0 b0
  have sp : Small (a * b) := small_of (by linarith) (by linarith)
  rcases a1.lt_or_eq with a1 | rfl
  · set p := (binary64 lib1 lib2).r (a * b) with hp
    have hpr : (binary64 lib1 lib2).Rep p := r_rep _
    rcases le_or_gt (1 / 2) p with hhalf | hhalf
    · have pb : p ≤ b := r_le sp (small_of (by linarith) (by linarith)) hb (by nlinarith)
      have herr := r_err lib1 lib2 0 (by norm_num) p0 (by simpa using p1) sp
      obtain ⟨k1, e1⟩ := rep_multiple lib1 lib2 (-1) (by norm_num) ha (by norm_num; linarith)
      obtain ⟨k2, e2⟩ := rep_multiple lib1 lib2 (-1) (by norm_num) hb (by norm_num; linarith)
      obtain ⟨k3, e3⟩ := rep_multiple lib1 lib2 (-1) (by norm_num) hpr (by norm_num; linarith)
      have h1 : a + b < 1 + p + 2 ^ (-53 : ℤ) := by
        have := (abs_le.1 herr).1
        rw [← hp] at this
        norm_num at this ⊢
        nlinarith
      have u : (0 : ℚ) < 2 ^ (-53 : ℤ) := by positivity
      rw [e1, e2, e3] at h1
      norm_num at h1
      have h2 : (k1 : ℚ) + k2 < 9007199254740992 + k3 + 1 := by linarith
      have h3 : k1 + k2 < 9007199254740992 + k3 + 1 := by exact_mod_cast h2
      have h4 : (k1 : ℚ) + k2 ≤ 9007199254740992 + k3 := by exact_mod_cast Int.lt_add_one_iff.1 h3
      rw [e1, e2, e3] at hc
      norm_num at hc
      linarith
    · have hab2 : a * b ≤ 1 / 2 := by
        by_contra h
        push Not at h
        have := le_r (ρ := binary64 lib1 lib2) (x := 1 / 2) (y := a * b) (small_of (by norm_num) (by norm_num)) sp rep_half h.le
        rw [← hp] at this
        linarith
      have herr := r_err lib1 lib2 (-1) (by norm_num) p0 (by norm_num; linarith) sp
      rw [← hp] at herr
      have hp0 : 0 ≤ p := le_r (small_of (by norm_num) (by norm_num)) sp rep_zero p0
      have ha2 : 1 / 2 ≤ a := by linarith
      obtain ⟨k, e⟩ := rep_multiple lib1 lib2 (-1) (by norm_num) ha (by norm_num; linarith)
      have hk : k ≤ 9007199254740991 := by
        have : (k : ℚ) < 9007199254740992 := by
          rw [e] at a1
          norm_num at a1
          linarith
        have : k < 9007199254740992 := by exact_mod_cast this
        omega
      have hk' : (k : ℚ) ≤ 9007199254740991 := by exact_mod_cast hk
      have h1 : 2 ^ (-53 : ℤ) ≤ 1 - a := by
        rw [e]
        norm_num
        linarith
      have h2 : b ≤ 3 / 4 := by nlinarith
      have h3 : (2 : ℚ) ^ (-53 : ℤ) * (1 / 4) ≤ (1 - a) * (1 - b) :=
        mul_le_mul h1 (by linarith) (by norm_num) (by linarith)
      have := (abs_le.1 herr).1
      norm_num at this h3
      nlinarith
  · rw [one_mul, r_of_rep hb] at hc
    linarith

/-- binary64 has the two properties -/
theorem tight : (binary64 lib1 lib2).Tight where
  prod a b ha hb a0 a1 b0 b1 := by
    rcases le_total b a with h | h
    · exact tight_prod lib1 lib2 ha hb a1 b0 h
    · have := tight_prod lib1 lib2 hb ha b1 a0 h
      rw [mul_comm a b]
      linarith
  diff p hp p0 p1 := by
    have s1 : Format.Small (1 + p) := small_of (by linarith) (by linarith)
    have herr := r_err lib1 lib2 1 (by norm_num) (by linarith) (by norm_num; linarith) s1
    have h1 := (abs_le.1 herr).2
    have h2 := (abs_le.1 herr).1
    norm_num at h1 h2
    have h3 : (binary64 lib1 lib2).r (1 + p) - p ≤ 1 + 2 ^ (-53 : ℤ) := by norm_num; linarith
    have h4 := r_mono (ρ := binary64 lib1 lib2) (small_of (by linarith) (by linarith)) (small_of (by norm_num) (by norm_num)) h3
    have e : (binary64 lib1 lib2).r (1 + 2 ^ (-53 : ℤ)) = 1 := by
      unfold Format.r
      show (match rnd (1 + 2 ^ (-53 : ℤ)) with | fin y => y | _ => 0) = 1
      rw [show rnd (1 + 2 ^ (-53 : ℤ)) = fin 1 by decide +kernel]
    rw [e] at h4
    exact h4

/-- a square root rounded down to a number with more digits than those of the format -/
def sqrtDown (x : ℚ) : ℚ := (Nat.sqrt (x * 4 ^ 1074).floor.toNat : ℚ) / 2 ^ 1074

/-- a library whose square root is rounded -/
def sqrtLib : Fn1 → Ext ℚ → Ext ℚ
  | .sqrt, fin x => rnd (sqrtDown x)
  | _, x => x

/-- binary64 with such a library has rounded square roots -/
theorem root : (binary64 sqrtLib lib2).Root where
  sqrt x hx x0 x1 := by
    have hN : ((x * 4 ^ 1074).floor.toNat : ℚ) = (x * 4 ^ 1074).floor := by
      have : (0 : ℤ) ≤ (x * 4 ^ 1074).floor := Rat.le_floor_iff.2 (by rw [Int.cast_zero]; exact mul_nonneg x0 (pow_nonneg (by norm_num) _))
      exact_mod_cast Int.toNat_of_nonneg this
    set N := (x * 4 ^ 1074).floor.toNat with hNdef
    have hle : (N : ℚ) ≤ x * 4 ^ 1074 := by rw [hN]; exact Rat.floor_le _
    have hlt : x * 4 ^ 1074 < N + 1 := by rw [hN]; have := Rat.lt_floor_add_one (x * 4 ^ 1074); push_cast at this; exact this
    have e4 : (4 : ℚ) ^ 1074 = 2 ^ 1074 * 2 ^ 1074 := by rw [← mul_pow]; norm_num only
    have hP : (0 : ℚ) < 2 ^ 1074 := by positivity
    generalize hPdef : (2 : ℚ) ^ 1074 = P at *
    have hq : sqrtDown x = (Nat.sqrt N : ℚ) / P := by unfold sqrtDown; rw [← hNdef, hPdef]
    have q0 : 0 ≤ sqrtDown x := by rw [hq]; exact div_nonneg (Nat.cast_nonneg _) hP.le
    have hsq : ((Nat.sqrt N : ℕ) : ℚ) * Nat.sqrt N ≤ N := by exact_mod_cast Nat.sqrt_le N
    have hqq : sqrtDown x * sqrtDown x ≤ x := by
      rw [hq, div_mul_div_comm, div_le_iff₀ (by positivity), ← e4]
      exact hsq.trans hle
    have q1 : sqrtDown x ≤ 1 := by nlinarith
    have sq : Format.Small (sqrtDown x) := small_of (by linarith) (by linarith)
    refine ⟨(binary64 sqrtLib lib2).r (sqrtDown x), rnd_small (ρ := binary64 sqrtLib lib2) sq, r_rep _, ?_, ?_⟩
    · intro z hz z0 hzx
      have z1 : z ≤ 1 := by nlinarith
      refine le_r (small_of (by linarith) (by linarith)) sq hz ?_
      obtain ⟨m, e, -, he, rfl⟩ := rep_form hz
      obtain ⟨d, hd⟩ := Int.eq_ofNat_of_zero_le (show 0 ≤ e + 1074 by omega)
      have ez : (m : ℚ) * 2 ^ e * P = ((m * 2 ^ d : ℤ) : ℚ) := by
        rw [← hPdef, mul_assoc, ← zpow_natCast, ← zpow_add₀ (by norm_num)]
        have : e + ((1074 : ℕ) : ℤ) = (d : ℤ) := by push_cast; exact hd
        rw [this]
        push_cast
        rw [zpow_natCast]
      obtain ⟨n, hn⟩ := Int.eq_ofNat_of_zero_le (a := m * 2 ^ d) (by
        have : (0 : ℚ) ≤ ((m * 2 ^ d : ℤ) : ℚ) := by rw [← ez]; positivity
        exact_mod_cast this)
      rw [hn] at ez
      push_cast at ez
      rw [hq, le_div_iff₀ hP, ez]
      have h1 : (n : ℚ) * n ≤ x * 4 ^ 1074 := by
        rw [← ez, e4]
        nlinarith [mul_le_mul_of_nonneg_right hzx (mul_nonneg hP.le hP.le)]
      have h2 : ((n * n : ℕ) : ℚ) < ((N + 1 : ℕ) : ℚ) := by push_cast; linarith
      have h3 : n * n ≤ N := by
        have : n * n < N + 1 := by exact_mod_cast h2
        omega
      exact_mod_cast Nat.le_sqrt.2 h3
    · intro z hz z0 hxz
      rcases le_total 1 z with h | h
      · exact (r_le sq (small_of (by norm_num) (by norm_num)) rep_one q1).trans h
      · refine r_le sq (small_of (by linarith) (by linarith)) hz ?_
        by_contra hc
        push Not at hc
        nlinarith

end Binary64
end FL
