/-
Text of numbers in rounded arithmetic: what is written is read back, for formats that round to nearest.
-/
import Verif.Model.DoubleText
import Verif.Lemmas.Decimal
import Verif.Lemmas.Errors

namespace FL
open Scalar

/-! ### decimals -/

namespace Decimal

theorem digitChar_isDigit {n : Nat} (h : n < 10) : n.digitChar.isDigit = true := by
  have := digits_isDigit n n.digitChar (by
    have : digits n = [n.digitChar] := Nat.toDigits_of_lt_base h
    rw [this]; simp)
  exact this

theorem padded_isDigit (k n : Nat) : ∀ c ∈ padded k n, c.isDigit = true := by
  induction k with
  | zero => intro c hc; simp [padded] at hc
  | succ k ih =>
    intro c hc
    rw [padded, List.mem_cons] at hc
    rcases hc with rfl | hc
    · exact digitChar_isDigit (Nat.mod_lt _ (by decide))
    · exact ih c hc

theorem padded_length (k n : Nat) : (padded k n).length = k := by
  induction k with
  | zero => rfl
  | succ k ih => rw [padded, List.length_cons, ih]

theorem readNat_padded (k n acc : Nat) : readNat acc (padded k n) = acc * 10 ^ k + n % 10 ^ k := by
  induction k generalizing acc with
  | zero => simp [padded, readNat_nil, Nat.mod_one]
  | succ k ih =>
    have h := readNat_one acc (n / 10 ^ k % 10) (Nat.mod_lt _ (by decide)) (padded k n)
    have : digits (n / 10 ^ k % 10) = [(n / 10 ^ k % 10).digitChar] := Nat.toDigits_of_lt_base (Nat.mod_lt _ (by decide))
    rw [this, List.singleton_append] at h
    rw [padded, h, ih, pow_succ, Nat.mod_mul]
    ring

theorem readUnsigned_fixed (d n : Nat) : readUnsigned (fixed d n) = some ((n : ℚ) / 10 ^ d) := by
  have hne : ∀ m, (digits m).isEmpty = false := fun m => by
    have := digits_ne m
    cases hd : digits m with
    | nil => exact absurd hd this
    | cons => rfl
  unfold fixed
  by_cases hd : d = 0
  · subst hd
    have h1 := takeWhile_digits (s := digits n) (r := []) (digits_isDigit _) (by simp)
    rw [List.append_nil] at h1
    unfold readUnsigned
    simp only [pow_zero, Nat.div_one, if_true, List.append_nil, h1.1, h1.2, hne, Bool.false_and, Bool.false_eq_true,
      if_false, List.length_nil]
    rw [readNat_nil, readNat_digits]
    simp
  · rw [if_neg hd]
    have h1 := takeWhile_digits (s := digits (n / 10 ^ d)) (r := '.' :: padded d n) (digits_isDigit _)
      (fun c hc => by obtain rfl : '.' = c := by simpa using hc
                      decide)
    have h2 := takeWhile_digits (s := padded d n) (r := []) (padded_isDigit d n) (by simp)
    rw [List.append_nil] at h2
    unfold readUnsigned
    rw [h1.1, h1.2]
    simp only [h2.1, h2.2, readNat_digits, readNat_padded, padded_length, hne, Bool.false_and, Bool.false_eq_true, if_false]
    have : n / 10 ^ d * 10 ^ d + n % 10 ^ d = n := by rw [Nat.mul_comm]; exact Nat.div_add_mod _ _
    rw [this]
    push_cast
    rfl

/-- the first character is a digit -/
theorem fixed_head (d n : Nat) : ∃ c r, fixed d n = c :: r ∧ c.isDigit = true := by
  unfold fixed
  cases h : digits (n / 10 ^ d) with
  | nil => exact absurd h (digits_ne _)
  | cons c r => exact ⟨c, _, rfl, digits_isDigit (n / 10 ^ d) c (by rw [h]; simp)⟩

theorem ofText_fixed (d n : Nat) : ofText (fixed d n) = some (.fin ((n : ℚ) / 10 ^ d)) := by
  obtain ⟨c, r, h, hc⟩ := fixed_head d n
  have hread := readUnsigned_fixed d n
  rw [h] at hread ⊢
  have e1 : c ≠ 'n' := by rintro rfl; revert hc; decide
  have e2 : c ≠ 'i' := by rintro rfl; revert hc; decide
  have e3 : c ≠ '-' := by rintro rfl; revert hc; decide
  have e4 : c ≠ '+' := by rintro rfl; revert hc; decide
  unfold ofText
  rw [if_neg (by simp [e1]), if_neg (by simp [e2]), if_neg (by simp [e3])]
  split
  · rename_i heq; exact absurd (by simpa using (List.cons.inj heq).1) e3
  · rename_i heq; exact absurd (by simpa using (List.cons.inj heq).1) e4
  · rw [hread]; rfl

theorem ofText_neg_fixed (d n : Nat) : ofText ('-' :: fixed d n) = some (.fin (-((n : ℚ) / 10 ^ d))) := by
  obtain ⟨c, r, h, hc⟩ := fixed_head d n
  have hread := readUnsigned_fixed d n
  have e2 : c ≠ 'i' := by rintro rfl; revert hc; decide
  unfold ofText
  rw [if_neg (by simp), if_neg (by simp), if_neg (by rw [h]; simp [e2])]
  simp [hread]

theorem nearest_lt {q : ℚ} {n : Nat} (h : |q - n| < 1 / 2) : nearest q = n := by
  by_cases h0 : 0 ≤ q
  · have h1 := nearest_close q h0
    have h2 : |(nearest q : ℚ) - n| < 1 := by
      have : (nearest q : ℚ) - n = (nearest q - q) + (q - n) := by ring
      rw [this]
      refine lt_of_le_of_lt (abs_add_le _ _) ?_
      linarith
    rw [abs_lt] at h2
    have a : (nearest q : ℚ) < n + 1 := by linarith [h2.2]
    have b : (n : ℚ) < nearest q + 1 := by linarith [h2.1]
    have a' : nearest q < n + 1 := by exact_mod_cast a
    have b' : n < nearest q + 1 := by exact_mod_cast b
    omega
  · push Not at h0
    have hn : n = 0 := by
      by_contra hc
      have : (1 : ℚ) ≤ n := by exact_mod_cast Nat.one_le_iff_ne_zero.2 hc
      rw [abs_lt] at h
      linarith [h.1]
    subst hn
    have : q.floor = -1 := by
      change ⌊q⌋ = _
      rw [Int.floor_eq_iff]
      rw [abs_lt] at h
      push_cast at h ⊢
      constructor <;> linarith [h.1]
    unfold nearest
    rw [this]
    rw [show (-1 : ℤ).toNat = 0 from rfl]
    simp only [Nat.cast_zero, sub_zero]
    rw [if_pos (by linarith)]

theorem nearest_tie {q : ℚ} {m : Nat} (h : q = m + 1 / 2) : nearest q = if m % 2 = 0 then m else m + 1 := by
  have : q.floor = (m : ℤ) := by
    change ⌊q⌋ = _
    rw [Int.floor_eq_iff, h]
    push_cast
    constructor <;> linarith
  unfold nearest
  rw [this]
  simp only [Int.toNat_natCast]
  rw [if_neg (by linarith), if_neg (by linarith)]

/-- what is nearest to a number is nearest to every number that is not farther from it -/
theorem nearest_stable {p q : ℚ} (hp : 0 ≤ p) (hq : 0 ≤ q) (h : |p - nearest q| ≤ |q - nearest q|) :
    nearest p = nearest q := by
  have hc := nearest_close q hq
  rw [_root_.abs_sub_comm] at hc
  rcases lt_or_eq_of_le (h.trans hc) with hlt | heq
  · exact nearest_lt hlt
  · have heq' : |q - nearest q| = 1 / 2 := le_antisymm hc (heq ▸ h)
    -- both are ties between the same even number and its neighbours
    have even : nearest q % 2 = 0 := by
      rcases eq_or_eq_neg_of_abs_eq heq' with e | e
      · have ht := nearest_tie (q := q) (m := nearest q) (by linarith)
        by_contra ho
        rw [if_neg ho] at ht
        omega
      · have h1 : 1 ≤ nearest q := by
          by_contra h0
          have : nearest q = 0 := by omega
          rw [this] at e
          norm_num at e
          linarith
        obtain ⟨k, hk⟩ : ∃ k, nearest q = k + 1 := ⟨nearest q - 1, by omega⟩
        have ht := nearest_tie (q := q) (m := k) (by rw [hk] at e; push_cast at e; linarith)
        by_contra ho
        rw [if_pos (by omega)] at ht
        omega
    rcases eq_or_eq_neg_of_abs_eq heq with e | e
    · have ht := nearest_tie (q := p) (m := nearest q) (by linarith)
      rwa [if_pos even] at ht
    · have h1 : 1 ≤ nearest q := by
        by_contra h0
        have : nearest q = 0 := by omega
        rw [this] at e
        norm_num at e
        linarith
      obtain ⟨k, hk⟩ : ∃ k, nearest q = k + 1 := ⟨nearest q - 1, by omega⟩
      have ht := nearest_tie (q := p) (m := k) (by rw [hk] at e; push_cast at e; linarith)
      rw [if_neg (by omega)] at ht
      omega

end Decimal

/-! ### rounding to nearest -/

/-- Rounding to nearest: no number of the format is nearer than the one chosen, and what is within one unit
of a number of the format does not overflow.  The units of decimals do not underflow. -/
structure Format.Nearest (ρ : Format) : Prop where
  near : ∀ t x y, ρ.rnd t = .fin y → ρ.Rep x → |y - t| ≤ |x - t|
  far : ∀ t x, ρ.Rep x → |x - t| ≤ 1 → ∃ y, ρ.rnd t = .fin y
  unit : ∀ d : ℕ, d ≤ 300 → ∃ y, ρ.rnd (1 / 10 ^ d) = .fin y ∧ 1 / 10 ^ d < 2 * y

namespace Binary64
open Ext

theorem halfEven_nearest (z : ℚ) (k : ℤ) : |(halfEven z : ℚ) - z| ≤ |(k : ℚ) - z| := by
  have h1 : (z.floor : ℚ) ≤ z := Rat.floor_le z
  have h2 : z < z.floor + 1 := by have := Rat.lt_floor_add_one z; push_cast at this; exact this
  have hd : (k : ℚ) ≤ z.floor ∨ (z.floor : ℚ) + 1 ≤ k := by
    rcases le_or_gt k z.floor with h | h
    · left; exact_mod_cast h
    · right; exact_mod_cast h
  have hk : min (z - z.floor) (z.floor + 1 - z) ≤ |(k : ℚ) - z| := by
    rcases hd with h | h
    · rw [abs_of_nonpos (by linarith)]; exact (min_le_left _ _).trans (by linarith)
    · rw [abs_of_nonneg (by linarith)]; exact (min_le_right _ _).trans (by linarith)
  refine le_trans ?_ hk
  unfold halfEven
  split_ifs with a b c
  · rw [abs_of_nonpos (by linarith)]; exact le_min (by linarith) (by linarith)
  · push_cast; rw [abs_of_nonneg (by linarith)]; exact le_min (by linarith) (by linarith)
  · rw [abs_of_nonpos (by linarith)]; exact le_min (by linarith) (by linarith)
  · push_cast; rw [abs_of_nonneg (by linarith)]; exact le_min (by linarith) (by linarith)

/-- no multiple of the unit in the last place is nearer -/
theorem near_multiple (t : ℚ) (k : ℤ) : |near t - t| ≤ |(k : ℚ) * 2 ^ expo t - t| := by
  have hp : (0 : ℚ) < 2 ^ expo t := by positivity
  have h := mul_le_mul_of_nonneg_right (halfEven_nearest (t / 2 ^ expo t) k) hp.le
  have e : ∀ a : ℚ, |a - t / 2 ^ expo t| * 2 ^ expo t = |a * 2 ^ expo t - t| := by
    intro a
    conv_lhs => rw [← abs_of_pos hp]
    rw [← abs_mul, sub_mul, abs_of_pos hp, div_mul_cancel₀ _ hp.ne']
  rw [e, e] at h
  exact h

theorem rep_near {x : ℚ} (hx : 0 < x) (h : rnd x = fin x) : near x = x ∧ x < 2 ^ (1024 : ℤ) := by
  unfold rnd rndPos at h
  rw [if_neg hx.ne', if_pos hx] at h
  split_ifs at h with hlt
  have : near x = x := by simpa using h
  exact ⟨this, this ▸ hlt⟩

/-- numbers of the format are multiples of finer units in the last place -/
theorem rep_mul {x t : ℚ} (hx : 0 < x) (h : rnd x = fin x) (he : expo t ≤ expo x) : ∃ k : ℤ, x = k * 2 ^ expo t := by
  obtain ⟨d, hd⟩ := Int.eq_ofNat_of_zero_le (sub_nonneg.2 he)
  refine ⟨halfEven (x / 2 ^ expo x) * 2 ^ d, ?_⟩
  have e1 : (2 : ℚ) ^ expo x = 2 ^ d * 2 ^ expo t := by
    rw [← zpow_natCast, ← hd, ← zpow_add₀ (by norm_num)]
    congr 1
    ring
  conv_lhs => rw [← (rep_near hx h).1]
  unfold near
  rw [e1]
  push_cast
  ring

theorem near_nearest {t x : ℚ} (ht : 0 < t) (h : rnd x = fin x) : |near t - t| ≤ |x - t| := by
  rcases le_or_gt x 0 with hx | hx
  · have := near_multiple t 0
    rw [Int.cast_zero, zero_mul, zero_sub, abs_neg, abs_of_pos ht] at this
    rw [abs_of_nonpos (show x - t ≤ 0 by linarith)]
    linarith
  · rcases le_or_gt (expo t) (expo x) with he | he
    · obtain ⟨k, hk⟩ := rep_mul hx h he
      conv_rhs => rw [hk]
      exact near_multiple t k
    · -- the power of two below `t` lies between
      have hl : log2 x < log2 t := by unfold expo at he; omega
      have h52 : expo t + 52 = log2 t := by unfold expo at he ⊢; omega
      have hP : ((2 ^ 52 : ℤ) : ℚ) * 2 ^ expo t = 2 ^ log2 t := by
        rw [← h52, zpow_add₀ (by norm_num), mul_comm]
        norm_num
      have h1 := near_multiple t (2 ^ 52)
      rw [hP] at h1
      have h2 : x < 2 ^ log2 t :=
        lt_of_lt_of_le (log2_spec hx).2 (zpow_le_zpow_right₀ (by norm_num) (by omega))
      have h3 := (log2_spec ht).1
      rw [abs_of_nonpos (show (2 : ℚ) ^ log2 t - t ≤ 0 by linarith)] at h1
      rw [abs_of_nonpos (show x - t ≤ 0 by linarith)]
      linarith

/-- the greatest number of the format -/
theorem rep_max {x : ℚ} (h : rnd x = fin x) : x ≤ 2 ^ (1024 : ℤ) - 2 ^ (971 : ℤ) := by
  have hpow : (2 : ℚ) ^ (1024 : ℤ) = 2 ^ (53 : ℕ) * 2 ^ (971 : ℤ) := by
    rw [← zpow_natCast, ← zpow_add₀ (by norm_num)]; norm_num
  have h971 : (0 : ℚ) < 2 ^ (971 : ℤ) := by positivity
  by_contra hc
  push Not at hc
  have hx : 0 < x := by
    refine lt_trans ?_ hc
    rw [hpow]
    have : ∀ B : ℚ, 0 < B → 0 < 2 ^ (53 : ℕ) * B - B := fun B hB => by norm_num; linarith
    exact this _ h971
  obtain ⟨-, hlt⟩ := rep_near hx h
  have hl : log2 x = 1023 := by
    apply log2_unique
    · refine le_trans ?_ hc.le
      have : (2 : ℚ) ^ (1023 : ℤ) = 2 ^ (52 : ℕ) * 2 ^ (971 : ℤ) := by
        rw [← zpow_natCast, ← zpow_add₀ (by norm_num)]; norm_num
      rw [this, hpow]
      have : ∀ B : ℚ, 0 < B → 2 ^ (52 : ℕ) * B ≤ 2 ^ (53 : ℕ) * B - B := fun B hB => by norm_num; linarith
      exact this _ h971
    · exact hlt
  have he : expo x = 971 := by unfold expo; rw [hl]; norm_num
  obtain ⟨k, hk⟩ := rep_mul hx h (le_refl (expo x))
  rw [he] at hk
  rw [hk, hpow] at hc hlt
  have a : (k : ℚ) < 2 ^ 53 := lt_of_mul_lt_mul_right hlt h971.le
  have b : (2 : ℚ) ^ 53 - 1 < k := by
    refine lt_of_mul_lt_mul_right ?_ h971.le
    rw [sub_mul, one_mul]
    exact hc
  have a' : k < 2 ^ 53 := by exact_mod_cast a
  have b' : (2 : ℤ) ^ 53 - 1 < k := by exact_mod_cast b
  omega

theorem unit (lib1 : Fn1 → Ext ℚ → Ext ℚ) (lib2 : Fn2 → Ext ℚ → Ext ℚ → Ext ℚ) (d : ℕ) (hd : d ≤ 300) :
    ∃ y, (binary64 lib1 lib2).rnd (1 / 10 ^ d) = fin y ∧ 1 / 10 ^ d < 2 * y := by
  have h0 : (0 : ℚ) < 1 / 10 ^ d := by positivity
  have h1 : (1 : ℚ) / 10 ^ d ≤ 1 := by
    rw [div_le_one (by positivity)]
    exact one_le_pow₀ (by norm_num)
  obtain ⟨e1, e2⟩ := (fine lib1 lib2).err (1 / 10 ^ d) (by
    rw [abs_of_pos h0]
    exact h1.trans (one_le_zpow₀ (by norm_num) (by norm_num)))
  refine ⟨_, e1, ?_⟩
  have h2 : (2 : ℚ) ^ (-1075 : ℤ) ≤ 1 / 10 ^ d * (1 / 4) := by
    have : (1 : ℚ) / 10 ^ 300 ≤ 1 / 10 ^ d :=
      one_div_le_one_div_of_le (by positivity) (pow_le_pow_right₀ (by norm_num) hd)
    refine le_trans ?_ (mul_le_mul_of_nonneg_right this (by norm_num))
    have p : (4 * 10 ^ 300 : ℚ) ≤ 2 ^ 1075 := by exact_mod_cast (by decide +kernel : 4 * 10 ^ 300 ≤ 2 ^ 1075)
    have p' := one_div_le_one_div_of_le (by positivity) p
    rw [show (2 : ℚ) ^ (-1075 : ℤ) = 1 / 2 ^ 1075 by rw [zpow_neg, one_div, zpow_ofNat]]
    refine p'.trans (le_of_eq ?_)
    rw [mul_comm, one_div_mul_one_div]
  have h3 : (2 : ℚ) ^ (-53 : ℤ) < 1 / 8 := by norm_num
  rw [abs_of_pos h0] at e2
  have h4 := mul_le_mul_of_nonneg_left h3.le h0.le
  have h5 := (abs_le.1 e2).1
  generalize (binary64 lib1 lib2).r (1 / 10 ^ d) = r at *
  generalize (1 : ℚ) / 10 ^ d = t at *
  generalize (2 : ℚ) ^ (-1075 : ℤ) = ν at *
  generalize (2 : ℚ) ^ (-53 : ℤ) = u at *
  linarith

theorem nearest (lib1 : Fn1 → Ext ℚ → Ext ℚ) (lib2 : Fn2 → Ext ℚ → Ext ℚ → Ext ℚ) : (binary64 lib1 lib2).Nearest := by
  have pos : ∀ t x y, 0 < t → rnd t = fin y → rnd x = fin x → |y - t| ≤ |x - t| := by
    intro t x y ht hy hx
    unfold rnd rndPos at hy
    rw [if_neg ht.ne', if_pos ht] at hy
    split_ifs at hy with hlt
    have : near t = y := by simpa using hy
    rw [← this]
    exact near_nearest ht hx
  have far : ∀ t x, 0 < t → rnd x = fin x → |x - t| ≤ 1 → ∃ y, rnd t = fin y := by
    intro t x ht hx h
    refine ⟨near t, ?_⟩
    unfold rnd rndPos
    rw [if_neg ht.ne', if_pos ht, if_pos]
    have h1 := near_nearest ht hx
    have h2 := rep_max hx
    have h3 : near t ≤ x + 2 := by
      have := (abs_le.1 (h1.trans h)).2
      have := (abs_le.1 h).1
      linarith
    have h4 : (2 : ℚ) < 2 ^ (971 : ℤ) := by
      have : (2 : ℚ) ^ (1 : ℤ) < 2 ^ (971 : ℤ) := zpow_lt_zpow_right₀ (by norm_num) (by norm_num)
      simpa using this
    generalize (2 : ℚ) ^ (1024 : ℤ) = A at *
    generalize (2 : ℚ) ^ (971 : ℤ) = B at *
    linarith
  refine ⟨fun t x y hy hx => ?_, fun t x hx h => ?_, unit lib1 lib2⟩
  · change rnd t = fin y at hy
    change rnd x = fin x at hx
    rcases lt_trichotomy t 0 with ht | rfl | ht
    · have := pos (-t) (-x) (-y) (by linarith) (by rw [rnd_neg, hy]; rfl) (by rw [rnd_neg, hx]; rfl)
      rw [← abs_neg, ← abs_neg (x - t)]
      convert this using 2 <;> ring
    · have : y = 0 := by rw [show rnd 0 = fin 0 by simp [rnd]] at hy; simpa using hy.symm
      rw [this]; simp
    · exact pos t x y ht hy hx
  · change ∃ y, rnd t = fin y
    change rnd x = fin x at hx
    rcases lt_trichotomy t 0 with ht | rfl | ht
    · obtain ⟨y, hy⟩ := far (-t) (-x) (by linarith) (by rw [rnd_neg, hx]; rfl)
        (by rw [← abs_neg]; convert h using 2; ring)
      refine ⟨-y, ?_⟩
      have := rnd_neg (-t)
      rw [neg_neg, hy] at this
      exact this
    · exact ⟨0, by simp [rnd]⟩
    · exact far t x ht hx h

end Binary64

/-! ### numbers are read back -/

namespace Flt
open Ext
variable {ρ : Format} [Decimals]

/-- one unit of the last decimal -/
def last : ℚ := 1 / 10 ^ Decimals.decimals

theorem last_pos : 0 < last := by unfold last; positivity

theorem last_le : last ≤ 1 := by
  unfold last
  rw [div_le_one (by positivity)]
  exact one_le_pow₀ (by norm_num)

theorem isNaN_fin {q : ℚ} (hq : ρ.Rep q) : Op.isNaN (of q hq) = false := by
  change (!decide (q = q)) = false
  simp

theorem isInf_fin {q : ℚ} (hq : ρ.Rep q) : Op.isInf (of q hq) = false := rfl

theorem isEqT_zero {q θ : ℚ} (hq : ρ.Rep q) (hθ : ρ.rnd last = fin θ) (h0 : 0 < θ) :
    Op.isEqT (lit (1 / 10 ^ Decimals.decimals)) (of q hq) (lit 0) = decide (|q| < θ) := by
  have e0 : (lit 0 : Flt ρ) = of 0 Format.rep_zero := lit_rep Format.rep_zero
  have e1 : of q hq - of 0 Format.rep_zero = of q hq := by
    refine Flt.ext ?_
    change ρ.round (Ext.sub (fin q) (fin 0)) = fin q
    change ρ.rnd (q + -0) = fin q
    rw [neg_zero, add_zero]
    exact hq
  have e2 : (lit (1 / 10 ^ Decimals.decimals) : Flt ρ).val = fin θ := hθ
  unfold Op.isEqT
  rw [e0, e1, abs_of]
  rw [eq_of, eq_of, eq_of]
  have e3 : ∀ h, Scalar.lt (of |q| h) (lit (1 / 10 ^ Decimals.decimals) : Flt ρ) = decide (|q| < θ) := by
    intro h
    change Ext.lt (fin |q|) (lit (1 / 10 ^ Decimals.decimals) : Flt ρ).val = _
    rw [e2]
    rfl
  rw [e3]
  by_cases hz : q = 0
  · subst hz
    simp [h0]
  · simp [hz]

theorem str_small {q θ : ℚ} (hq : ρ.Rep q) (hθ : ρ.rnd last = fin θ) (h0 : 0 < θ) (h : |q| < θ) :
    str (of q hq) = Decimal.fixed Decimals.decimals 0 := by
  unfold str
  rw [isNaN_fin, isInf_fin, isEqT_zero hq hθ h0]
  simp [h]

theorem str_pos {q θ : ℚ} (hq : ρ.Rep q) (hθ : ρ.rnd last = fin θ) (h0 : 0 < θ) (h : θ ≤ q) :
    str (of q hq) = Decimal.fixed Decimals.decimals (Decimal.nearest (q * 10 ^ Decimals.decimals)) := by
  have h1 : ¬ |q| < θ := by rw [_root_.abs_of_pos (by linarith)]; linarith
  have h2 : ¬ q < 0 := by linarith
  unfold str
  rw [isNaN_fin, isInf_fin, isEqT_zero hq hθ h0]
  simp [h1, h2, of]

theorem str_neg {q θ : ℚ} (hq : ρ.Rep q) (hθ : ρ.rnd last = fin θ) (h0 : 0 < θ) (h : θ ≤ -q) :
    str (of q hq) = '-' :: Decimal.fixed Decimals.decimals (Decimal.nearest (-q * 10 ^ Decimals.decimals)) := by
  have h1 : ¬ |q| < θ := by rw [_root_.abs_of_neg (by linarith)]; linarith
  have h2 : q < 0 := by linarith
  unfold str
  rw [isNaN_fin, isInf_fin, isEqT_zero hq hθ h0]
  simp [h1, h2, of]

theorem ofText_rep {s : Str} {t p : ℚ} (hs : Decimal.ofText s = some (fin t)) (ht : ρ.rnd t = fin p) :
    ∃ h : ρ.Rep p, (ofText s : Option (Flt ρ)) = some (of p h) := by
  refine ⟨ρ.rnd_idem t p ht, ?_⟩
  unfold ofText
  rw [hs]
  simp only [ht]
  congr 1
  exact Flt.ext ht

/-- a number from `θ` on, written with decimals and read: the one chosen is written alike -/
theorem reads_pos (N : ρ.Nearest) {q θ : ℚ} (hq : ρ.Rep q) (hθ : ρ.rnd last = fin θ) (hθ2 : last < 2 * θ) (h : θ ≤ q) :
    ∃ (n : ℕ) (p : ℚ), n = Decimal.nearest (q * 10 ^ Decimals.decimals) ∧ ρ.rnd ((n : ℚ) / 10 ^ Decimals.decimals) = fin p ∧
      θ ≤ p ∧ Decimal.nearest (p * 10 ^ Decimals.decimals) = n ∧ |p - q| ≤ last := by
  have hl := last_pos
  have h0 : 0 < θ := by linarith
  have hP : (0 : ℚ) < 10 ^ Decimals.decimals := by positivity
  have hPl : last * 10 ^ Decimals.decimals = 1 := by unfold last; field_simp
  obtain ⟨n, hn⟩ : ∃ n, n = Decimal.nearest (q * 10 ^ Decimals.decimals) := ⟨_, rfl⟩
  have hc := Decimal.nearest_close (q * 10 ^ Decimals.decimals) (by nlinarith)
  rw [← hn] at hc
  have hn1 : 1 ≤ n := by
    by_contra hcon
    have hz : n = 0 := by omega
    rw [hz] at hc
    have := (abs_le.1 hc).1
    push_cast at this
    nlinarith
  have hn1' : (1 : ℚ) ≤ n := by exact_mod_cast hn1
  set P : ℚ := 10 ^ Decimals.decimals
  have ht : (n : ℚ) / P - q = (n - q * P) * last := by
    have : q = q * P * last := by rw [mul_assoc, _root_.mul_comm P, hPl, mul_one]
    rw [sub_mul, ← this, div_eq_mul_inv]
    unfold last
    rw [one_div]
  have hd : |(n : ℚ) / P - q| ≤ 1 / 2 * last := by
    rw [ht, abs_mul, _root_.abs_of_pos hl]
    exact mul_le_mul_of_nonneg_right hc hl.le
  obtain ⟨p, hp⟩ := N.far ((n : ℚ) / P) q hq (by
    rw [_root_.abs_sub_comm]
    have := last_le
    linarith)
  have hnear := N.near _ q p hp hq
  rw [_root_.abs_sub_comm q] at hnear
  have hlast : last ≤ (n : ℚ) / P := by
    unfold last
    exact div_le_div_of_nonneg_right hn1' hP.le
  have hp1 : θ ≤ p := by
    have := ρ.rnd_mono _ _ hlast
    rw [hθ, hp] at this
    exact this
  refine ⟨n, p, hn, hp, hp1, ?_, ?_⟩
  · rw [hn]
    refine Decimal.nearest_stable (by nlinarith) (by nlinarith) ?_
    rw [← hn]
    have e : ∀ a : ℚ, |a * P - n| = |a - n / P| * P := by
      intro a
      conv_rhs => rw [← _root_.abs_of_pos hP]
      rw [← abs_mul, sub_mul, _root_.abs_of_pos hP, div_mul_cancel₀ _ hP.ne']
    rw [e, e]
    refine mul_le_mul_of_nonneg_right ?_ hP.le
    rw [_root_.abs_sub_comm q]
    exact hnear
  · have : p - q = (p - n / P) + (n / P - q) := by ring
    rw [this]
    refine (abs_add_le _ _).trans ?_
    linarith

/-- A number is read back as one that is written alike, and at most one unit of the last decimal away. -/
theorem reads_fin (N : ρ.Nearest) {q : ℚ} (hq : ρ.Rep q) : ∃ (p : ℚ) (hp : ρ.Rep p),
    (ofText (str (of q hq)) : Option (Flt ρ)) = some (of p hp) ∧ str (of p hp) = str (of q hq) ∧ |p - q| ≤ last := by
  obtain ⟨θ, hθ, hθ2⟩ := N.unit Decimals.decimals Decimals.bound
  change last < 2 * θ at hθ2
  change ρ.rnd last = fin θ at hθ
  have hl := last_pos
  have h0 : 0 < θ := by linarith
  rcases lt_or_ge |q| θ with h | h
  · obtain ⟨hz, e⟩ := ofText_rep (ρ := ρ) (Decimal.ofText_fixed Decimals.decimals 0) (by
      rw [Nat.cast_zero, zero_div]
      exact ρ.rnd_zero)
    refine ⟨0, hz, ?_, ?_, ?_⟩
    · rw [str_small hq hθ h0 h]; exact e
    · rw [str_small hq hθ h0 h, str_small hz hθ h0 (by simpa using h0)]
    · rw [zero_sub, abs_neg]
      by_contra hc
      push Not at hc
      have := ρ.rnd_mono _ _ hc.le
      rw [hθ] at this
      have ha : ρ.rnd |q| = fin |q| := by
        rcases abs_choice q with e | e <;> rw [e]
        · exact hq
        · exact Format.rep_neg hq
      rw [ha] at this
      exact absurd h (not_lt.2 this)
  · rcases le_or_gt 0 q with hs | hs
    · rw [_root_.abs_of_nonneg hs] at h
      obtain ⟨n, p, hn, hp, hp1, hp2, hd⟩ := reads_pos N hq hθ hθ2 h
      obtain ⟨hz, e⟩ := ofText_rep (ρ := ρ) (Decimal.ofText_fixed Decimals.decimals n) hp
      refine ⟨p, hz, ?_, ?_, hd⟩
      · rw [str_pos hq hθ h0 h, ← hn]; exact e
      · rw [str_pos hq hθ h0 h, str_pos hz hθ h0 hp1, hp2, hn]
    · rw [_root_.abs_of_neg hs] at h
      obtain ⟨n, p, hn, hp, hp1, hp2, hd⟩ := reads_pos N (Format.rep_neg hq) hθ hθ2 h
      obtain ⟨hz, e⟩ := ofText_rep (ρ := ρ) (p := -p) (Decimal.ofText_neg_fixed Decimals.decimals n) (by
        rw [ρ.rnd_neg, hp]; rfl)
      refine ⟨-p, hz, ?_, ?_, ?_⟩
      · rw [str_neg hq hθ h0 h, ← hn]; exact e
      · rw [str_neg hq hθ h0 h, str_neg hz hθ h0 (by rwa [neg_neg]), neg_neg, hp2, hn]
      · rw [← abs_neg]
        convert hd using 2
        ring

/-- numbers that need no more decimals are read back exactly -/
theorem reads_exact (N : ρ.Nearest) {q : ℚ} (hq : ρ.Rep q) (m : ℤ) (hm : q * 10 ^ Decimals.decimals = m) :
    (ofText (str (of q hq)) : Option (Flt ρ)) = some (of q hq) := by
  obtain ⟨θ, hθ, hθ2⟩ := N.unit Decimals.decimals Decimals.bound
  change last < 2 * θ at hθ2
  change ρ.rnd last = fin θ at hθ
  have hl := last_pos
  have h0 : 0 < θ := by linarith
  have hP : (0 : ℚ) < 10 ^ Decimals.decimals := by positivity
  have hPl : last * 10 ^ Decimals.decimals = 1 := by unfold last; field_simp
  have key : ∀ (q : ℚ) (k : ℕ), q * 10 ^ Decimals.decimals = k → Decimal.nearest (q * 10 ^ Decimals.decimals) = k ∧
      (k : ℚ) / 10 ^ Decimals.decimals = q := by
    intro q k h
    refine ⟨by rw [h]; exact Decimal.nearest_natCast k, by rw [← h]; field_simp⟩
  have big : ∀ {q : ℚ} {k : ℕ}, ρ.Rep q → q * 10 ^ Decimals.decimals = k → q ≠ 0 → θ ≤ q := by
    intro q k hq h hne
    have : 1 ≤ k := by
      rcases Nat.eq_zero_or_pos k with hk | hk
      · rw [hk, Nat.cast_zero, mul_eq_zero] at h
        exact absurd h (by simp [hne])
      · exact hk
    have h1 : (1 : ℚ) ≤ k := by exact_mod_cast this
    rw [← h, ← hPl] at h1
    have := ρ.rnd_mono _ _ (le_of_mul_le_mul_right h1 hP)
    rw [hθ, hq] at this
    exact this
  rcases lt_trichotomy q 0 with hs | hs | hs
  · obtain ⟨k, hk⟩ : ∃ k : ℕ, -m = k := Int.eq_ofNat_of_zero_le (by
      have : (m : ℚ) < 0 := by rw [← hm]; nlinarith
      have : m < 0 := by exact_mod_cast this
      omega)
    have hk' : -q * 10 ^ Decimals.decimals = k := by
      rw [neg_mul, hm]; exact_mod_cast hk
    obtain ⟨e1, e2⟩ := key _ k hk'
    rw [str_neg hq hθ h0 (big (Format.rep_neg hq) hk' (by linarith)), e1]
    obtain ⟨_, e⟩ := ofText_rep (ρ := ρ) (p := q) (Decimal.ofText_neg_fixed Decimals.decimals k) (by
      rw [e2, neg_neg]; exact hq)
    exact e
  · subst hs
    rw [str_small hq hθ h0 (by simpa using h0)]
    obtain ⟨_, e⟩ := ofText_rep (ρ := ρ) (p := 0) (Decimal.ofText_fixed Decimals.decimals 0) (by
      rw [Nat.cast_zero, zero_div]; exact ρ.rnd_zero)
    exact e
  · obtain ⟨k, hk⟩ : ∃ k : ℕ, m = k := Int.eq_ofNat_of_zero_le (by
      have : (0 : ℚ) < m := by rw [← hm]; positivity
      have : 0 < m := by exact_mod_cast this
      omega)
    have hk' : q * 10 ^ Decimals.decimals = k := by rw [hm, hk]; simp
    obtain ⟨e1, e2⟩ := key _ k hk'
    rw [str_pos hq hθ h0 (big hq hk' hs.ne'), e1]
    obtain ⟨_, e⟩ := ofText_rep (ρ := ρ) (p := q) (Decimal.ofText_fixed Decimals.decimals k) (by rw [e2]; exact hq)
    exact e

end Flt
end FL
