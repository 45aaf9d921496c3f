/-
The assumptions on text of numbers in the theorems about FLL, FCL and FIS hold for `double`.
-/
import Verif.Lemmas.DoubleText
import Verif.Lemmas.Fis

namespace FL
open Scalar

namespace Decimal

/-- no integer is nearer -/
theorem nearest_min {q : ℚ} (hq : 0 ≤ q) (k : Nat) : |(nearest q : ℚ) - q| ≤ |(k : ℚ) - q| := by
  rcases lt_or_ge |(k : ℚ) - q| (1 / 2) with h | h
  · rw [_root_.abs_sub_comm] at h
    rw [nearest_lt h]
  · exact (nearest_close q hq).trans h

theorem fixed_char (d n : Nat) : ∀ c ∈ fixed d n, c.isDigit = true ∨ c = '.' := by
  intro c hc
  unfold fixed at hc
  rw [List.mem_append] at hc
  rcases hc with hc | hc
  · exact .inl (digits_isDigit _ c hc)
  · split_ifs at hc
    · cases hc
    · rcases List.mem_cons.1 hc with rfl | hc
      · exact .inr rfl
      · exact .inl (padded_isDigit d n c hc)

theorem fixed_dots (d n : Nat) (a : Str) (ha : '.' ∉ a) : ¬ cs! ".." <:+: cs! "." ++ (a ++ fixed d n) ++ cs! "." := by
  unfold fixed
  by_cases hd : d = 0
  · rw [if_pos hd, List.append_nil]
    have h1 : '.' ∉ a ++ digits (n / 10 ^ d) := by
      rw [List.mem_append]
      rintro (h | h)
      · exact ha h
      · exact digits_free (digits_isDigit _) h
    have h2 : a ++ digits (n / 10 ^ d) ≠ [] := by simp [digits_ne]
    refine Op.twice_append '.' _ _ (Op.twice_append '.' _ _ (by decide) (Op.twice_free h1) ?_) (by decide) ?_
    · refine .inr fun h => h1 (List.mem_of_mem_head? h)
    · refine .inl fun h => ?_
      rw [List.getLast?_append_of_ne_nil _ h2] at h
      exact h1 (List.mem_of_getLast? h)
  · have e : a ++ (digits (n / 10 ^ d) ++ '.' :: padded d n) = a ++ digits (n / 10 ^ d) ++ '.' :: padded d n := by simp
    rw [if_neg hd, e]
    refine dots_of (a ++ digits (n / 10 ^ d)) (padded d n) ?_ (digits_free (padded_isDigit d n)) (by simp [digits_ne]) ?_
    · rw [List.mem_append]
      rintro (h | h)
      · exact ha h
      · exact digits_free (digits_isDigit _) h
    · intro h
      have := padded_length d n
      rw [h] at this
      exact hd this.symm

end Decimal

namespace Flt
open Ext
variable {ρ : Format}

section
variable [Decimals]

/-- the forms of the text of a number -/
theorem str_cases (x : Flt ρ) : str x ∈ [cs! "nan", cs! "inf", cs! "-inf"] ∨
    ∃ n, str x = Decimal.fixed Decimals.decimals n ∨ str x = '-' :: Decimal.fixed Decimals.decimals n := by
  obtain ⟨v, hv⟩ := x
  cases v with
  | nan => exact .inl (List.mem_cons.2 (.inl rfl))
  | pinf =>
    refine .inl (List.mem_cons.2 (.inr (List.mem_cons.2 (.inl ?_))))
    have e0 : (lit 0 : Flt ρ) = of 0 Format.rep_zero := lit_rep Format.rep_zero
    unfold str
    rw [e0]
    rfl
  | ninf =>
    refine .inl (List.mem_cons.2 (.inr (List.mem_cons.2 (.inr (List.mem_cons.2 (.inl ?_))))))
    have e0 : (lit 0 : Flt ρ) = of 0 Format.rep_zero := lit_rep Format.rep_zero
    unfold str
    rw [e0]
    rfl
  | fin q =>
    refine .inr ?_
    unfold str
    have h1 := isNaN_fin (ρ := ρ) (q := q) hv
    have h2 := isInf_fin (ρ := ρ) (q := q) hv
    unfold of at h1 h2
    rw [h1, h2]
    simp only [Bool.false_eq_true, if_false]
    split_ifs
    · exact ⟨_, .inl rfl⟩
    · exact ⟨_, .inr rfl⟩
    · exact ⟨_, .inl rfl⟩

theorem str_nan : str (⟨.nan, rfl⟩ : Flt ρ) = cs! "nan" := rfl
theorem str_pinf : str (⟨.pinf, rfl⟩ : Flt ρ) = cs! "inf" := by
  have e0 : (lit 0 : Flt ρ) = of 0 Format.rep_zero := lit_rep Format.rep_zero
  unfold str
  rw [e0]
  rfl
theorem str_ninf : str (⟨.ninf, rfl⟩ : Flt ρ) = cs! "-inf" := by
  have e0 : (lit 0 : Flt ρ) = of 0 Format.rep_zero := lit_rep Format.rep_zero
  unfold str
  rw [e0]
  rfl

theorem lawfulText (N : ρ.Nearest) : LawfulText (Flt ρ) where
  str_ne x := by
    change str x ≠ []
    rcases str_cases x with h | ⟨n, h | h⟩
    · intro hc
      rw [hc] at h
      revert h
      decide
    · obtain ⟨c, r, e, -⟩ := Decimal.fixed_head Decimals.decimals n
      rw [h, e]
      simp
    · rw [h]
      simp
  str_char x := by
    change ∀ c ∈ str x, isSpace c = false ∧ c ≠ '#'
    have hf : ∀ n, ∀ c ∈ Decimal.fixed Decimals.decimals n, isSpace c = false ∧ c ≠ '#' := by
      intro n c hc
      rcases Decimal.fixed_char _ _ c hc with h | rfl
      · exact Decimal.digit_char c h
      · decide
    rcases str_cases x with h | ⟨n, h | h⟩
    · have : ∀ s ∈ [cs! "nan", cs! "inf", cs! "-inf"], ∀ c ∈ s, isSpace c = false ∧ c ≠ '#' := by decide
      exact this _ h
    · rw [h]; exact hf n
    · rw [h]
      intro c hc
      rcases List.mem_cons.1 hc with rfl | hc
      · decide
      · exact hf n c hc
  reads x := by
    change ∃ y : Flt ρ, ofText (str x) = some y ∧ str y = str x
    obtain ⟨v, hv⟩ := x
    cases v with
    | nan => exact ⟨⟨.nan, rfl⟩, by rw [str_nan]; rfl, rfl⟩
    | pinf => exact ⟨⟨.pinf, rfl⟩, by rw [str_pinf]; rfl, rfl⟩
    | ninf => exact ⟨⟨.ninf, rfl⟩, by rw [str_ninf]; rfl, rfl⟩
    | fin q =>
      obtain ⟨p, hp, h1, h2, -⟩ := reads_fin N (q := q) hv
      exact ⟨of p hp, h1, h2⟩

theorem plainText (N : ρ.Nearest) : PlainText (Flt ρ) where
  toLawfulText := lawfulText N
  str_plain x c hc := by
    change c ∈ str x at hc
    have hf : ∀ n, c ∈ Decimal.fixed Decimals.decimals n → isAlnum c = true ∨ c = '.' ∨ c = '-' ∨ c = '+' := by
      intro n hc
      rcases Decimal.fixed_char _ _ c hc with h | h
      · exact .inl (Decimal.isDigit_alnum h)
      · exact .inr (.inl h)
    rcases str_cases x with h | ⟨n, h | h⟩
    · have : ∀ s ∈ [cs! "nan", cs! "inf", cs! "-inf"], ∀ c ∈ s,
          isAlnum c = true ∨ c = '.' ∨ c = '-' ∨ c = '+' := by decide
      exact this _ h c hc
    · rw [h] at hc
      exact hf n hc
    · rw [h] at hc
      rcases List.mem_cons.1 hc with rfl | hc
      · decide
      · exact hf n hc
  str_dots x := by
    change ¬ cs! ".." <:+: cs! "." ++ str x ++ cs! "."
    rcases str_cases x with h | ⟨n, h | h⟩
    · have : ∀ s ∈ [cs! "nan", cs! "inf", cs! "-inf"], ¬ cs! ".." <:+: cs! "." ++ s ++ cs! "." := by decide
      exact this _ h
    · rw [h]
      exact Decimal.fixed_dots _ n [] (by simp)
    · rw [h]
      exact Decimal.fixed_dots _ n (cs! "-") (by decide)
  head c s h := by
    refine PlainText.head (S := Ext ℚ) c s fun hn => h ?_
    change ofText (c :: s) = none
    have hn' : Decimal.ofText (c :: s) = none := hn
    unfold ofText
    rw [hn']

theorem lawfulInt : LawfulInt (Flt ρ) where
  reads n h1 h2 := by
    obtain ⟨x, hx, hn⟩ := LawfulInt.reads (S := Ext ℚ) n h1 h2
    have hr : ρ.rnd n = fin (n : ℚ) := ρ.rnd_int n (by rw [abs_le]; omega)
    have he : Decimal.ofText (intText n) = some (.fin (n : ℚ)) := by
      cases n with
      | ofNat k => exact Decimal.ofText_digits k
      | negSucc k =>
        have := Decimal.ofText_neg_digits (k + 1)
        rw [show ((Int.negSucc k : ℤ) : ℚ) = -((k + 1 : ℕ) : ℚ) by push_cast [Int.negSucc_eq]; ring]
        exact this
    obtain ⟨hp, e⟩ := ofText_rep (ρ := ρ) he hr
    refine ⟨of n hp, e, ?_⟩
    change intOf (if (0 : ℚ) ≤ (n : ℚ) then (n : ℚ).floor else (n : ℚ).ceil) = some n
    rw [Rat.floor_intCast, Rat.ceil_intCast]
    simp [intOf, h1, h2]

end
end Flt

/-! ### codes of terms in the FIS format -/

/-- `std::floor` and `std::fmod` of nonnegative numbers by one are exact, as the C standard requires. -/
structure Format.Whole (ρ : Format) : Prop where
  floor : ∀ x, ρ.Rep x → 0 ≤ x → ρ.lib1 .floor (.fin x) = .fin (⌊x⌋ : ℚ)
  fmod : ∀ x, ρ.Rep x → 0 ≤ x → ρ.lib2 .fmod (.fin x) (.fin 1) = .fin (x - (⌊x⌋ : ℚ))

namespace Fis
open Ext Flt

section
variable {lib1 : Fn1 → Ext ℚ → Ext ℚ} {lib2 : Fn2 → Ext ℚ → Ext ℚ → Ext ℚ}

local notation "β" => binary64 lib1 lib2

/-- rounding of moderate numbers, with a coarse bound on the error -/
theorem err_coarse (x : ℚ) (h : |x| ≤ 2147483648) : (β).rnd x = fin ((β).r x) ∧ |(β).r x - x| ≤ |x| / (8 * 10 ^ 15) + 1 / 10 ^ 20 := by
  obtain ⟨h1, h2⟩ := (Binary64.fine lib1 lib2).err x (h.trans (by
    have : (2 : ℚ) ^ (31 : ℤ) ≤ 2 ^ (1000 : ℤ) := zpow_le_zpow_right₀ (by norm_num) (by norm_num)
    refine le_trans (by norm_num) this))
  refine ⟨h1, h2.trans (add_le_add ?_ ?_)⟩
  · rw [div_eq_mul_inv]
    refine mul_le_mul_of_nonneg_left ?_ (abs_nonneg x)
    norm_num
  · have : (2 : ℚ) ^ (-1075 : ℤ) ≤ 2 ^ (-100 : ℤ) := zpow_le_zpow_right₀ (by norm_num) (by norm_num)
    refine this.trans ?_
    norm_num

theorem err_rough (x : ℚ) (h : |x| ≤ 2147483648) : (β).rnd x = fin ((β).r x) ∧ |(β).r x - x| ≤ |x| / 10 ^ 15 + 1 / 10 ^ 20 := by
  obtain ⟨h1, h2⟩ := err_coarse (lib1 := lib1) (lib2 := lib2) x h
  refine ⟨h1, h2.trans ?_⟩
  have : |x| / (8 * 10 ^ 15) ≤ |x| / 10 ^ 15 := div_le_div_of_nonneg_left (abs_nonneg x) (by norm_num) (by norm_num)
  linarith

theorem isEq_of {a b : ℚ} (ha : (β).Rep a) (hb : (β).Rep b) :
    ∃ d : ℚ, (|a - b| ≤ 2147483648 → |d - (a - b)| ≤ |a - b| / 10 ^ 15 + 1 / 10 ^ 20) ∧
      (|a - b| ≤ 2147483648 → Op.isEq (of a ha) (of b hb) = (decide (a = b) || decide (|d| < 4722366482869645 * 2 ^ (-72 : ℤ)))) := by
  refine ⟨(β).r (a - b), fun h => (err_rough _ h).2, fun h => ?_⟩
  unfold Op.isEq Op.isEqT
  rw [sub_of ha hb h, Flt.abs_of, eq_of, eq_of, eq_of]
  have e : ∀ h', Scalar.lt (of |(β).r (a - b)| h' : Flt β) macheps = decide (|(β).r (a - b)| < 4722366482869645 * 2 ^ (-72 : ℤ)) :=
    fun _ => rfl
  rw [e]
  simp

theorem isEq_true {a b : ℚ} (ha : (β).Rep a) (hb : (β).Rep b) (h : |a - b| ≤ 9 / 10 ^ 7) : Op.isEq (of a ha) (of b hb) = true := by
  obtain ⟨d, h1, h2⟩ := isEq_of ha hb
  have hs : |a - b| ≤ 2147483648 := h.trans (by norm_num)
  have h1 := h1 hs
  rw [h2 hs]
  have : |d| < 4722366482869645 * 2 ^ (-72 : ℤ) := by
    have e : d = (d - (a - b)) + (a - b) := by ring
    rw [e]
    refine lt_of_le_of_lt (abs_add_le _ _) ?_
    have : |d - (a - b)| + |a - b| ≤ 91 / 10 ^ 8 := by
      have : |a - b| / 10 ^ 15 ≤ 1 / 10 ^ 15 := by
        refine div_le_div_of_nonneg_right (h.trans (by norm_num)) (by norm_num)
      norm_num at *
      linarith
    refine lt_of_le_of_lt this ?_
    norm_num
  rw [decide_eq_true this, Bool.or_true]

theorem isEq_false {a b : ℚ} (ha : (β).Rep a) (hb : (β).Rep b) (h : 1 / 1000 ≤ |a - b|) (hs : |a - b| ≤ 2147483648) :
    Op.isEq (of a ha) (of b hb) = false := by
  obtain ⟨d, h1, h2⟩ := isEq_of ha hb
  have h1 := h1 hs
  rw [h2 hs]
  have hne : a ≠ b := by
    rintro rfl
    rw [sub_self, abs_zero] at h
    norm_num at h
  have : ¬ |d| < 4722366482869645 * 2 ^ (-72 : ℤ) := by
    have e : a - b = d - (d - (a - b)) := by ring
    have t : |a - b| ≤ |d| + |d - (a - b)| := by
      conv_lhs => rw [e]
      exact abs_sub _ _
    have : (1 : ℚ) / 2000 ≤ |d| := by
      have u : |a - b| / 10 ^ 15 ≤ |a - b| / 4 := by
        refine div_le_div_of_nonneg_left (abs_nonneg _) (by norm_num) (by norm_num)
      have v : (1 : ℚ) / 10 ^ 20 ≤ 1 / 10000 := by norm_num
      generalize (1 : ℚ) / 10 ^ 20 = ν at *
      linarith
    intro hc
    have w := lt_of_le_of_lt this hc
    norm_num at w
  rw [decide_eq_false hne, decide_eq_false this]
  rfl

theorem plus_close (m : Modifier) : ∃ (p : ℚ) (hp : (β).Rep p), (m.plus : Flt β) = of p hp ∧
    |p - (m.hundredths : ℚ) / 100| ≤ 1 / 10 ^ 14 ∧ (m = .plain → p = 0) ∧
    (m ≠ .plain → ∀ θ, (β).rnd (1 / 100) = fin θ → θ ≤ p) := by
  have zero : (lit 0 : Flt β) = of 0 Format.rep_zero := lit_rep Format.rep_zero
  have lit' : ∀ q : ℚ, |q| ≤ 1 → ∃ (z : ℚ) (hz : (β).Rep z), (lit q : Flt β) = of z hz ∧ |z - q| ≤ 2 / 10 ^ 15 ∧
      (β).rnd q = fin z := by
    intro q hq
    obtain ⟨e1, e2⟩ := err_rough (lib1 := lib1) (lib2 := lib2) q (hq.trans (by norm_num))
    refine ⟨(β).r q, Format.r_rep q, mk'_fin (hq.trans (by norm_num)), e2.trans ?_, e1⟩
    have : |q| / 10 ^ 15 ≤ 1 / 10 ^ 15 := div_le_div_of_nonneg_right hq (by norm_num)
    have v : (1 : ℚ) / 10 ^ 20 ≤ 1 / 10 ^ 15 := by norm_num
    refine (add_le_add this v).trans ?_
    norm_num
  have zadd : ∀ (z : ℚ) (hz : (β).Rep z), (of 0 Format.rep_zero + of z hz : Flt β) = of z hz := by
    intro z hz
    refine Flt.ext ?_
    change (β).rnd (0 + z) = fin z
    rw [zero_add]
    exact hz
  have le : ∀ (q z θ : ℚ), 1 / 100 ≤ q → (β).rnd q = fin z → (β).rnd (1 / 100) = fin θ → θ ≤ z := by
    intro q z θ h h1 h2
    have := (β).rnd_mono _ _ h
    rw [h1, h2] at this
    exact this
  have one : ∀ q : ℚ, |q| ≤ 1 → 1 / 100 ≤ q → ∃ (p : ℚ) (hp : (β).Rep p), (lit 0 + lit q : Flt β) = of p hp ∧
      |p - q| ≤ 1 / 10 ^ 14 ∧ ∀ θ, (β).rnd (1 / 100) = fin θ → θ ≤ p := by
    intro q hq h
    obtain ⟨z, hz, e, hd, hr⟩ := lit' q hq
    refine ⟨z, hz, ?_, hd.trans (by norm_num), fun θ hθ => le q z θ h hr hθ⟩
    rw [e, zero, zadd]
  have fin' : ∀ q : ℚ, (m.hundredths : ℚ) / 100 = q → |q| ≤ 1 → 1 / 100 ≤ q → (m.plus : Flt β) = lit 0 + lit q → m ≠ .plain →
      ∃ (p : ℚ) (hp : (β).Rep p), (m.plus : Flt β) = of p hp ∧
        |p - (m.hundredths : ℚ) / 100| ≤ 1 / 10 ^ 14 ∧ (m = .plain → p = 0) ∧
        (m ≠ .plain → ∀ θ, (β).rnd (1 / 100) = fin θ → θ ≤ p) := by
    intro q hq h1 h2 h3 h4
    obtain ⟨p, hp, e, hd, hl⟩ := one q h1 h2
    exact ⟨p, hp, by rw [h3, e], by rw [hq]; exact hd, fun h => absurd h h4, fun _ => hl⟩
  cases m with
  | plain => exact ⟨0, Format.rep_zero, zero, by norm_num [Modifier.hundredths], fun _ => rfl, fun h => absurd rfl h⟩
  | seldom => exact fin' (1 / 100) (by norm_num [Modifier.hundredths]) (by rw [_root_.abs_of_pos (by norm_num)]; norm_num) (by norm_num) rfl (by decide)
  | somewhat => exact fin' (5 / 100) (by norm_num [Modifier.hundredths]) (by rw [_root_.abs_of_pos (by norm_num)]; norm_num) (by norm_num) rfl (by decide)
  | very => exact fin' (2 / 10) (by norm_num [Modifier.hundredths]) (by rw [_root_.abs_of_pos (by norm_num)]; norm_num) (by norm_num) rfl (by decide)
  | extremely => exact fin' (3 / 10) (by norm_num [Modifier.hundredths]) (by rw [_root_.abs_of_pos (by norm_num)]; norm_num) (by norm_num) rfl (by decide)
  | any => exact fin' (99 / 100) (by norm_num [Modifier.hundredths]) (by rw [_root_.abs_of_pos (by norm_num)]; norm_num) (by norm_num) rfl (by decide)
  | veryVery =>
    obtain ⟨z, hz, e, hd, hr⟩ := lit' (2 / 10) (by rw [_root_.abs_of_pos (by norm_num)]; norm_num)
    have hz2 := abs_le.1 hd
    have hsum : |z + z| ≤ 1 := by
      rw [abs_le]
      norm_num at hz2
      constructor <;> linarith [hz2.1, hz2.2]
    obtain ⟨e1, e2⟩ := err_rough (lib1 := lib1) (lib2 := lib2) (z + z) (hsum.trans (by norm_num))
    have e2' : |(β).r (z + z) - (z + z)| ≤ 2 / 10 ^ 15 := by
      refine e2.trans ?_
      have : |z + z| / 10 ^ 15 ≤ 1 / 10 ^ 15 := div_le_div_of_nonneg_right hsum (by norm_num)
      have v : (1 : ℚ) / 10 ^ 20 ≤ 1 / 10 ^ 15 := by norm_num
      refine (add_le_add this v).trans ?_
      norm_num
    refine ⟨(β).r (z + z), Format.r_rep _, ?_, ?_, fun h => absurd h (by decide), fun _ θ hθ => ?_⟩
    · change (lit 0 + lit (2 / 10) + lit (2 / 10) : Flt β) = _
      rw [e, zero, zadd, add_of hz hz (hsum.trans (by norm_num))]
    · have e2' := abs_le.1 e2'
      rw [abs_le]
      norm_num [Modifier.hundredths] at hz2 e2' ⊢
      constructor <;> linarith [hz2.1, hz2.2, e2'.1, e2'.2]
    · have hz0 : 1 / 100 ≤ z := by norm_num at hz2 ⊢; linarith [hz2.1]
      exact le (z + z) _ θ (by linarith) e1 hθ

/-- the code of a term, written and read with two decimals or more -/
theorem code_close [Decimals] (hd : 2 ≤ Decimals.decimals) (i : ℕ) (m : Modifier) (hi : i < 2147483648) :
    ∃ (y : ℚ) (hy : (β).Rep y), Flt.ofText (str (lit (i : ℚ) + m.plus : Flt β)) = some (of y hy) ∧
      Flt.ofText ('-' :: str (lit (i : ℚ) + m.plus : Flt β)) = some (of (-y) (Format.rep_neg hy)) ∧
      0 ≤ y ∧ |y - (i + (m.hundredths : ℚ) / 100)| ≤ 85 / 10 ^ 8 ∧ (m = .plain → y = i) := by
  have N := Binary64.nearest lib1 lib2
  obtain ⟨θ, hθ, hθ2⟩ := N.unit Decimals.decimals Decimals.bound
  change last < 2 * θ at hθ2
  change (β).rnd last = fin θ at hθ
  have hl := last_pos
  have h0 : 0 < θ := by linarith
  obtain ⟨p, hp, ep, hpd, hpl, hpθ⟩ := plus_close (lib1 := lib1) (lib2 := lib2) m
  have hiq : (i : ℚ) ≤ 2147483647 := by exact_mod_cast (by omega : i ≤ 2147483647)
  have hi0 : (0 : ℚ) ≤ i := Nat.cast_nonneg i
  have hir : (β).Rep (i : ℚ) := by
    have := (β).rnd_int (i : ℤ) (by rw [abs_le]; omega)
    rw [Int.cast_natCast] at this
    exact this
  have ei : (lit (i : ℚ) : Flt β) = of i hir := lit_rep hir
  have hm1 : (m.hundredths : ℚ) / 100 ≤ 99 / 100 := by cases m <;> norm_num [Modifier.hundredths]
  have hm0 : (0 : ℚ) ≤ (m.hundredths : ℚ) / 100 := by positivity
  by_cases hm : m = .plain
  · subst hm
    have hp0 := hpl rfl
    subst hp0
    have ec : (lit (i : ℚ) + Modifier.plain.plus : Flt β) = of i hir := by
      rw [ei, ep]
      refine Flt.ext ?_
      change (β).rnd (i + 0) = fin (i : ℚ)
      rw [add_zero]
      exact hir
    have hw : (i : ℚ) * 10 ^ Decimals.decimals = ((i * 10 ^ Decimals.decimals : ℕ) : ℤ) := by push_cast; ring
    have r1 := reads_exact N hir _ hw
    refine ⟨i, hir, by rw [ec]; exact r1, ?_, hi0, ?_, fun _ => rfl⟩
    · rw [ec]
      rcases Nat.eq_zero_or_pos i with hz | hz
      · subst hz
        rw [str_small hir hθ h0 (by simpa using h0)]
        obtain ⟨h1, e⟩ := ofText_rep (ρ := β) (p := -((0 : ℕ) : ℚ)) (Decimal.ofText_neg_fixed Decimals.decimals 0) (by
          rw [Nat.cast_zero, zero_div, neg_zero]; exact (β).rnd_zero)
        exact e
      · have hz1 : (1 : ℚ) ≤ i := by exact_mod_cast hz
        have hθi : θ ≤ i := by
          have := (β).rnd_mono _ _ (last_le.trans hz1)
          rw [hθ, hir] at this
          exact this
        have r2 := reads_exact N (Format.rep_neg hir) (-((i * 10 ^ Decimals.decimals : ℕ) : ℤ)) (by push_cast; ring)
        rw [str_neg (Format.rep_neg hir) hθ h0 (by rwa [neg_neg]), neg_neg] at r2
        rw [str_pos hir hθ h0 hθi]
        exact r2
    · norm_num [Modifier.hundredths]
  · -- the code, and the decimal nearest to it
    have hps := abs_le.1 hpd
    have hsmall : |(i : ℚ) + p| ≤ 2147483648 := by
      norm_num at hps
      rw [abs_le]
      constructor <;> linarith [hps.1, hps.2]
    obtain ⟨c, hc, e1, e2, ec⟩ : ∃ (c : ℚ) (hc : (β).Rep c), (β).rnd (i + p) = fin c ∧
        |c - (i + p)| ≤ |(i : ℚ) + p| / (8 * 10 ^ 15) + 1 / 10 ^ 20 ∧ (lit (i : ℚ) + m.plus : Flt β) = of c hc := by
      obtain ⟨e1, e2⟩ := err_coarse (lib1 := lib1) (lib2 := lib2) ((i : ℚ) + p) hsmall
      exact ⟨_, Format.r_rep _, e1, e2, by rw [ei, ep, add_of hir hp hsmall]⟩
    set T : ℚ := i + (m.hundredths : ℚ) / 100 with hT
    have hcT : |c - T| ≤ 27 / 10 ^ 8 := by
      have h1 : |(i : ℚ) + p| / (8 * 10 ^ 15) ≤ 2147483648 / (8 * 10 ^ 15) := div_le_div_of_nonneg_right hsmall (by norm_num)
      have h2 : c - T = (c - (i + p)) + (p - (m.hundredths : ℚ) / 100) := by rw [hT]; ring
      rw [h2]
      refine (abs_add_le _ _).trans ((add_le_add (e2.trans (add_le_add h1 (le_refl _))) hpd).trans ?_)
      norm_num
    have hu : (β).rnd (1 / 100) = fin ((β).r (1 / 100)) := (err_coarse (1 / 100) (by rw [_root_.abs_of_pos (by norm_num)]; norm_num)).1
    have hlast : last ≤ 1 / 100 := by
      unfold last
      have : (10 : ℚ) ^ 2 ≤ 10 ^ Decimals.decimals := pow_le_pow_right₀ (by norm_num) hd
      exact one_div_le_one_div_of_le (by norm_num) (by norm_num at this ⊢; exact this)
    have hθp : θ ≤ p := by
      refine le_trans ?_ (hpθ hm _ hu)
      have := (β).rnd_mono _ _ hlast
      rw [hθ, hu] at this
      exact this
    have hθc : θ ≤ c := by
      refine hθp.trans ?_
      have := (β).rnd_mono p (i + p) (by linarith)
      rw [hp, e1] at this
      exact this
    obtain ⟨n, y, hn, hy, hy1, hy2, -⟩ := reads_pos N hc hθ hθ2 hθc
    obtain ⟨hyr, o1⟩ := ofText_rep (ρ := β) (Decimal.ofText_fixed Decimals.decimals n) hy
    obtain ⟨hyr', o2⟩ := ofText_rep (ρ := β) (p := -y) (Decimal.ofText_neg_fixed Decimals.decimals n) (by
      rw [(β).rnd_neg, hy]; rfl)
    refine ⟨y, hyr, ?_, ?_, by linarith, ?_, fun h => absurd h hm⟩
    · rw [ec, str_pos hc hθ h0 hθc, ← hn]; exact o1
    · rw [ec, str_pos hc hθ h0 hθc, ← hn]; exact o2
    · have hP : (0 : ℚ) < 10 ^ Decimals.decimals := by positivity
      obtain ⟨e, he⟩ : ∃ e, Decimals.decimals = 2 + e := ⟨_, (Nat.add_sub_cancel' hd).symm⟩
      have hk : T * 10 ^ Decimals.decimals = (((i * 100 + m.hundredths) * 10 ^ e : ℕ) : ℚ) := by
        rw [he, pow_add, hT]; push_cast; ring
      have hc0 : 0 ≤ c * 10 ^ Decimals.decimals := mul_nonneg (by linarith) hP.le
      have hmin := Decimal.nearest_min hc0 ((i * 100 + m.hundredths) * 10 ^ e)
      rw [← hn, ← hk] at hmin
      have es : ∀ a b : ℚ, |a - b * 10 ^ Decimals.decimals| = |a / 10 ^ Decimals.decimals - b| * 10 ^ Decimals.decimals := by
        intro a b
        conv_rhs => rw [← _root_.abs_of_pos hP]
        rw [← abs_mul, sub_mul, _root_.abs_of_pos hP, div_mul_cancel₀ _ hP.ne']
      have et : ∀ a b : ℚ, |a * 10 ^ Decimals.decimals - b * 10 ^ Decimals.decimals| = |a - b| * 10 ^ Decimals.decimals := by
        intro a b
        rw [← sub_mul, abs_mul, _root_.abs_of_pos hP]
      rw [es, et] at hmin
      have h1 := le_of_mul_le_mul_right hmin hP
      have h2 := N.near _ c y hy hc
      generalize (n : ℚ) / 10 ^ Decimals.decimals = t at h1 h2
      rw [_root_.abs_sub_comm T] at h1
      rw [_root_.abs_sub_comm c] at h2
      have h3 : y - T = (y - t) + (t - c) + (c - T) := by ring
      rw [h3]
      refine (abs_add_le _ _).trans ?_
      have := abs_add_le (y - t) (t - c)
      have q : 3 * (27 / 10 ^ 8 : ℚ) ≤ 85 / 10 ^ 8 := by norm_num
      linarith

theorem means_of (W : (β).Whole) (i : ℕ) (m : Modifier) (hi : i < 2147483648) (y : ℚ) (h0 : 0 ≤ y)
    (hT : |y - (i + (m.hundredths : ℚ) / 100)| ≤ 85 / 10 ^ 8) (hpl : m = .plain → y = i) (a : ℚ) (ha : (β).Rep a)
    (negated : Bool) (hay : a = if negated then -y else y) : Means (of a ha : Flt β) i m negated := by
  have hyr : (β).Rep y := by
    cases negated
    · simp only [Bool.false_eq_true, if_false] at hay; rw [← hay]; exact ha
    · simp only [if_true] at hay
      have : y = -a := by rw [hay, neg_neg]
      rw [this]; exact Format.rep_neg ha
  have habs : |a| = y := by
    cases negated
    · simp only [Bool.false_eq_true, if_false] at hay; rw [hay]; exact _root_.abs_of_nonneg h0
    · simp only [if_true] at hay; rw [hay, abs_neg]; exact _root_.abs_of_nonneg h0
  have eA : (Scalar.abs (of a ha) : Flt β) = of y hyr := by
    rw [Flt.abs_of]
    exact of_inj.2 habs
  have hiq : (i : ℚ) ≤ 2147483647 := by exact_mod_cast (by omega : i ≤ 2147483647)
  have hi0 : (0 : ℚ) ≤ i := Nat.cast_nonneg i
  have hm1 : (m.hundredths : ℚ) / 100 ≤ 99 / 100 := by cases m <;> norm_num [Modifier.hundredths]
  have hm01 : m ≠ .plain → 1 / 100 ≤ (m.hundredths : ℚ) / 100 := by
    intro h
    cases m <;> first | exact absurd rfl h | norm_num [Modifier.hundredths]
  have hTb := abs_le.1 hT
  have hlow : (i : ℚ) ≤ y := by
    by_cases hm : m = .plain
    · rw [hpl hm]
    · have := hm01 hm
      norm_num at hTb this
      linarith [hTb.1]
  have hhigh : y < i + 1 := by
    norm_num at hTb hm1
    linarith [hTb.2]
  have hfl : ⌊y⌋ = (i : ℤ) := by
    rw [Int.floor_eq_iff]
    push_cast
    exact ⟨hlow, hhigh⟩
  have hir : (β).Rep (i : ℚ) := by
    have := (β).rnd_int (i : ℤ) (by rw [abs_le]; omega)
    rw [Int.cast_natCast] at this
    exact this
  have eF : (Scalar.fn1 .floor (of y hyr) : Flt β) = of i hir := by
    refine Flt.ext ?_
    change (β).round ((β).lib1 .floor (fin y)) = fin (i : ℚ)
    rw [W.floor y hyr h0, hfl]
    push_cast
    exact hir
  have zero : (lit 0 : Flt β) = of 0 Format.rep_zero := lit_rep Format.rep_zero
  have one : (lit 1 : Flt β) = of 1 Format.rep_one := lit_rep Format.rep_one
  have hfr0 : 0 ≤ y - i := by linarith
  have hfr1 : |y - i| ≤ 1 := by rw [_root_.abs_of_nonneg hfr0]; linarith
  obtain ⟨f1, f2⟩ := err_rough (lib1 := lib1) (lib2 := lib2) (y - i) (hfr1.trans (by norm_num))
  have eM : (fn2 .fmod (of y hyr) (lit 1) : Flt β) = of ((β).r (y - i)) (Format.r_rep _) := by
    rw [one]
    refine Flt.ext ?_
    change (β).round ((β).lib2 .fmod (fin y) (fin 1)) = fin _
    rw [W.fmod y hyr h0, hfl]
    push_cast
    exact f1
  have f2' : |(β).r (y - i) - (y - i)| ≤ 2 / 10 ^ 15 := by
    refine f2.trans ?_
    have : |y - i| / 10 ^ 15 ≤ 1 / 10 ^ 15 := div_le_div_of_nonneg_right hfr1 (by norm_num)
    norm_num at this ⊢
    linarith
  refine ⟨?_, fun k => ?_, ?_, fun hne => ?_⟩
  · rw [eA, eF]
    change intOf (if (0 : ℚ) ≤ (i : ℚ) then (i : ℚ).floor else (i : ℚ).ceil) = some (i : Int)
    rw [if_pos hi0]
    have : (i : ℚ).floor = (i : ℤ) := Rat.floor_intCast (i : ℤ)
    rw [this]
    unfold intOf
    rw [if_pos (by omega)]
  · rw [eA, eM]
    have hk1 : |(k.hundredths : ℚ) / 100| ≤ 1 := by
      rw [_root_.abs_of_nonneg (by positivity)]
      cases k <;> norm_num [Modifier.hundredths]
    obtain ⟨g1, g2⟩ := err_rough (lib1 := lib1) (lib2 := lib2) ((k.hundredths : ℚ) / 100) (hk1.trans (by norm_num))
    have g2' : |(β).r ((k.hundredths : ℚ) / 100) - (k.hundredths : ℚ) / 100| ≤ 2 / 10 ^ 15 := by
      refine g2.trans ?_
      have : |(k.hundredths : ℚ) / 100| / 10 ^ 15 ≤ 1 / 10 ^ 15 := div_le_div_of_nonneg_right hk1 (by norm_num)
      norm_num at this ⊢
      linarith
    have eK : (lit ((k.hundredths : ℚ) / 100) : Flt β) = of ((β).r ((k.hundredths : ℚ) / 100)) (Format.r_rep _) :=
      mk'_fin (hk1.trans (by norm_num))
    rw [eK]
    have hd : |((β).r (y - i) - (β).r ((k.hundredths : ℚ) / 100)) - ((m.hundredths : ℚ) / 100 - (k.hundredths : ℚ) / 100)| ≤ 9 / 10 ^ 7 := by
      have e : ((β).r (y - i) - (β).r ((k.hundredths : ℚ) / 100)) - ((m.hundredths : ℚ) / 100 - (k.hundredths : ℚ) / 100) =
          ((β).r (y - i) - (y - i)) - ((β).r ((k.hundredths : ℚ) / 100) - (k.hundredths : ℚ) / 100) +
            (y - (i + (m.hundredths : ℚ) / 100)) := by ring
      rw [e]
      refine (abs_add_le _ _).trans ?_
      have := abs_sub ((β).r (y - i) - (y - i)) ((β).r ((k.hundredths : ℚ) / 100) - (k.hundredths : ℚ) / 100)
      norm_num at this f2' g2' hT ⊢
      linarith
    by_cases hkm : k = m
    · subst hkm
      rw [sub_self, sub_zero] at hd
      rw [isEq_true _ _ hd]
      simp
    · rw [decide_eq_false hkm]
      have hfar : 1 / 100 ≤ |(m.hundredths : ℚ) / 100 - (k.hundredths : ℚ) / 100| := by
        clear * - hkm
        cases m <;> cases k <;> first | exact absurd rfl hkm | norm_num [Modifier.hundredths, abs_of_neg, abs_of_pos]
      have hnear : |(m.hundredths : ℚ) / 100 - (k.hundredths : ℚ) / 100| ≤ 2 := by
        have hm1' : |(m.hundredths : ℚ) / 100| ≤ 1 := by
          rw [_root_.abs_of_nonneg (by positivity)]; linarith
        exact (abs_sub _ _).trans (by linarith)
      generalize hA : (m.hundredths : ℚ) / 100 - (k.hundredths : ℚ) / 100 = A at hd hfar hnear
      have t1 : |A| ≤ |(β).r (y - i) - (β).r ((k.hundredths : ℚ) / 100)| +
          |((β).r (y - i) - (β).r ((k.hundredths : ℚ) / 100)) - A| := by
        have := abs_sub ((β).r (y - i) - (β).r ((k.hundredths : ℚ) / 100)) (((β).r (y - i) - (β).r ((k.hundredths : ℚ) / 100)) - A)
        rwa [sub_sub_cancel] at this
      have t2 : |(β).r (y - i) - (β).r ((k.hundredths : ℚ) / 100)| ≤ |A| +
          |((β).r (y - i) - (β).r ((k.hundredths : ℚ) / 100)) - A| := by
        have := abs_add_le A (((β).r (y - i) - (β).r ((k.hundredths : ℚ) / 100)) - A)
        rwa [add_sub_cancel] at this
      refine isEq_false _ _ ?_ ?_
      · norm_num at hd hfar ⊢
        linarith
      · norm_num at hd hnear ⊢
        linarith
  · rw [zero]
    by_cases hz : i = 0 ∧ m = .plain
    · obtain ⟨rfl, rfl⟩ := hz
      have hy0 : y = 0 := by simpa using hpl rfl
      rw [isEq_true]
      · simp
      · rw [sub_zero, habs, hy0]
        norm_num
    · rw [decide_eq_false hz]
      have hbig : 1 / 1000 ≤ y := by
        by_cases hm : m = .plain
        · have : i ≠ 0 := fun h => hz ⟨h, hm⟩
          have : (1 : ℚ) ≤ i := by exact_mod_cast Nat.one_le_iff_ne_zero.2 this
          linarith
        · have := hm01 hm
          norm_num at hTb this ⊢
          linarith [hTb.1]
      refine isEq_false _ _ ?_ ?_
      · rw [sub_zero, habs]; exact hbig
      · rw [sub_zero, habs]; linarith
  · rw [zero, lt_of]
    have hpos : 0 < y := by
      by_cases hm : m = .plain
      · have : i ≠ 0 := by
          rcases hne with h | h
          · exact h
          · exact absurd hm h
        have : (1 : ℚ) ≤ i := by exact_mod_cast Nat.one_le_iff_ne_zero.2 this
        linarith
      · have := hm01 hm
        norm_num at hTb this ⊢
        linarith [hTb.1]
    cases negated
    · simp only [Bool.false_eq_true, if_false] at hay
      rw [hay, decide_eq_false (by linarith)]
    · simp only [if_true] at hay
      rw [hay, decide_eq_true (by linarith)]

/-- with two decimals or more, the codes of terms are read as written -/
theorem codeText [Decimals] (hd : 2 ≤ Decimals.decimals) (W : (β).Whole) : CodeText (Flt β) where
  toPlainText := Flt.plainText (Binary64.nearest lib1 lib2)
  number m := by
    obtain ⟨p, hp, e, -⟩ := plus_close (lib1 := lib1) (lib2 := lib2) m
    rw [e]
    exact isNaN_fin hp
  code i m hi := by
    obtain ⟨y, hy, h1, h2, h3, h4, h5⟩ := code_close (lib1 := lib1) (lib2 := lib2) hd i m hi
    exact ⟨_, _, h1, means_of W i m hi y h3 h4 h5 y hy false rfl, h2, means_of W i m hi y h3 h4 h5 (-y) _ true rfl⟩

end
end Fis
end FL
