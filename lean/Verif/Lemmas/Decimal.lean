/-
Decimal text of rational scalars is read back: the instance of `LawfulText`, and how far the number
read is from the number written.
-/
import Verif.Model.Decimal
import Verif.Model.LawfulText
import Mathlib.Tactic.Linarith
import Mathlib.Tactic.Ring
import Mathlib.Tactic.FieldSimp
import Mathlib.Tactic.NormNum
import Mathlib.Data.Rat.Floor

namespace FL
namespace Decimal

theorem readNat_nil (acc : Nat) : readNat acc [] = acc := rfl
theorem readNat_cons (acc : Nat) (c : Char) (s : Str) : readNat acc (c :: s) = readNat (acc * 10 + digit c) s := by
  unfold readNat; rw [List.foldl_cons]

theorem readNat_eq (s : Str) (acc : Nat) : readNat acc s = Nat.ofDigitChars 10 s acc := by
  induction s generalizing acc with
  | nil => rw [readNat_nil, Nat.ofDigitChars_nil]
  | cons c s ih => rw [readNat_cons, ih, Nat.ofDigitChars_cons, Nat.mul_comm, digit]

theorem digits_isDigit (n : Nat) : ∀ c ∈ digits n, c.isDigit = true :=
  fun _ hc => Nat.isDigit_of_mem_toDigits (by decide) (by decide) hc

theorem digits_ne (n : Nat) : digits n ≠ [] := Nat.toDigits_ne_nil

theorem readNat_digits (n : Nat) : readNat 0 (digits n) = n := by
  rw [readNat_eq]; exact Nat.ofDigitChars_ten_toDigits

theorem readNat_one (acc n : Nat) (h : n < 10) (s : Str) : readNat acc (digits n ++ s) = readNat (acc * 10 + n) s := by
  have : digits n = [n.digitChar] := Nat.toDigits_of_lt_base h
  rw [this]
  have hd : digit n.digitChar = n := by
    have := Nat.toNat_digitChar_sub_48_of_lt_ten h
    exact this
  rw [List.singleton_append, readNat_cons, hd]

/-- the fractional digits of `thousandths` -/
def frac (n : Nat) : Str := digits (n % 1000 / 100) ++ digits (n % 100 / 10) ++ digits (n % 10)

theorem thousandths_eq (n : Nat) : thousandths n = digits (n / 1000) ++ '.' :: frac n := by
  simp [thousandths, frac]

theorem frac_isDigit (n : Nat) : ∀ c ∈ frac n, c.isDigit = true := by
  intro c hc
  simp only [frac, List.mem_append] at hc
  rcases hc with (hc | hc) | hc <;> exact digits_isDigit _ c hc

theorem frac_length (n : Nat) : (frac n).length = 3 := by
  have h : ∀ k, k < 10 → (digits k).length = 1 := fun k hk => by
    have : digits k = [k.digitChar] := Nat.toDigits_of_lt_base hk
    rw [this]; rfl
  rw [frac, List.length_append, List.length_append, h _ (by omega), h _ (by omega), h _ (by omega)]

theorem readNat_frac (n : Nat) : readNat (n / 1000) (frac n) = n := by
  unfold frac
  rw [List.append_assoc, readNat_one _ _ (by omega), readNat_one _ _ (by omega)]
  have := readNat_one ((n / 1000 * 10 + n % 1000 / 100) * 10 + n % 100 / 10) (n % 10) (by omega) []
  simp only [List.append_nil] at this
  rw [this]
  rw [readNat_nil]
  omega

theorem takeWhile_digits {s r : Str} (hs : ∀ c ∈ s, c.isDigit = true) (hr : ∀ c, r.head? = some c → c.isDigit = false) :
    (s ++ r).takeWhile Char.isDigit = s ∧ (s ++ r).dropWhile Char.isDigit = r := by
  induction s with
  | nil =>
    cases r with
    | nil => exact ⟨rfl, rfl⟩
    | cons c r => simp [hr c rfl]
  | cons c s ih =>
    have hc := hs c (by simp)
    have h := ih (fun x hx => hs x (List.mem_cons_of_mem _ hx))
    simp [hc, h.1, h.2]

theorem readUnsigned_thousandths (n : Nat) : readUnsigned (thousandths n) = some ((n : ℚ) / 1000) := by
  have h1 := takeWhile_digits (s := digits (n / 1000)) (r := '.' :: frac n) (digits_isDigit _)
    (fun c hc => by obtain rfl : '.' = c := by simpa using hc
                    decide)
  have h2 := takeWhile_digits (s := frac n) (r := []) (frac_isDigit n) (by simp)
  rw [List.append_nil] at h2
  unfold readUnsigned
  rw [thousandths_eq, h1.1, h1.2]
  simp only [h2.1, h2.2, readNat_digits, readNat_frac, frac_length]
  have : (digits (n / 1000)).isEmpty = false := by
    have := digits_ne (n / 1000)
    cases hd : digits (n / 1000) with
    | nil => exact absurd hd this
    | cons => rfl
  simp only [this, Bool.false_and, Bool.false_eq_true, if_false]
  norm_num

/-- the first character is a digit -/
theorem thousandths_head (n : Nat) : ∃ c r, thousandths n = c :: r ∧ c.isDigit = true := by
  rw [thousandths_eq]
  cases h : digits (n / 1000) with
  | nil => exact absurd h (digits_ne _)
  | cons c r => exact ⟨c, r ++ '.' :: frac n, rfl, digits_isDigit (n / 1000) c (by rw [h]; simp)⟩

theorem ofText_thousandths (n : Nat) : ofText (thousandths n) = some (.fin ((n : ℚ) / 1000)) := by
  obtain ⟨c, r, h, hc⟩ := thousandths_head n
  have hread := readUnsigned_thousandths n
  rw [h] at hread ⊢
  have e1 : c ≠ 'n' := by rintro rfl; revert hc; decide
  have e2 : c ≠ 'i' := by rintro rfl; revert hc; decide
  have e3 : c ≠ '-' := by rintro rfl; revert hc; decide
  have e4 : c ≠ '+' := by rintro rfl; revert hc; decide
  unfold ofText
  rw [if_neg (by simp [e1]), if_neg (by simp [e2]), if_neg (by simp [e3])]
  split
  · rename_i heq; exact absurd (by simpa using (List.cons.inj heq).1) e3
  · rename_i heq; exact absurd (by simpa using (List.cons.inj heq).1) e4
  · rw [hread]; rfl

theorem ofText_neg_thousandths (n : Nat) : ofText ('-' :: thousandths n) = some (.fin (-((n : ℚ) / 1000))) := by
  obtain ⟨c, r, h, hc⟩ := thousandths_head n
  have hread := readUnsigned_thousandths n
  have e2 : c ≠ 'i' := by rintro rfl; revert hc; decide
  unfold ofText
  rw [if_neg (by simp), if_neg (by simp), if_neg (by rw [h]; simp [e2])]
  simp [hread]

theorem nearest_natCast (n : Nat) : nearest (n : ℚ) = n := by
  have : ((n : ℚ).floor).toNat = n := by
    have : (n : ℚ).floor = (n : Int) := Rat.floor_intCast n
    rw [this]; rfl
  simp [nearest, this]

/-- the integer chosen is at most one half away -/
theorem nearest_close (q : ℚ) (h : 0 ≤ q) : |(nearest q : ℚ) - q| ≤ 1/2 := by
  have hf : (q.floor : ℚ) ≤ q := Rat.floor_le q
  have hf' : q < (q.floor : ℚ) + 1 := by simpa using Rat.lt_floor_add_one q
  have h0 : 0 ≤ q.floor := Rat.le_floor_iff.2 (by simpa using h)
  have hn : ((q.floor.toNat : ℕ) : ℚ) = (q.floor : ℚ) := by
    have : ((q.floor.toNat : ℤ)) = q.floor := Int.toNat_of_nonneg h0
    exact_mod_cast this
  unfold nearest
  simp only [hn]
  rw [abs_le]
  split_ifs with a b c
  · rw [hn]; constructor <;> linarith
  · push_cast; rw [hn]; constructor <;> linarith
  · rw [hn]; constructor <;> linarith
  · push_cast; rw [hn]; constructor <;> linarith

theorem nearest_pos (q : ℚ) (h : 1 ≤ q) : 1 ≤ nearest q := by
  have h1 := (abs_le.1 (nearest_close q (by linarith))).1
  by_contra hc
  have h0 : nearest q = 0 := by omega
  rw [h0] at h1
  norm_num at h1
  linarith

theorem str_nonneg (n : Nat) (h : 1 ≤ n) : str (.fin ((n : ℚ) / 1000)) = thousandths n := by
  have hn : (1 : ℚ) ≤ n := by exact_mod_cast h
  have h1 : ¬ |(n : ℚ) / 1000| < 1/1000 := by
    rw [abs_of_nonneg (by positivity)]; intro hc; linarith
  have h2 : ¬ (n : ℚ) / 1000 < 0 := by intro hc; linarith
  have h3 : (n : ℚ) / 1000 * 1000 = n := by ring
  simp only [str]
  rw [if_neg h1, if_neg h2, h3, nearest_natCast]

theorem str_neg (n : Nat) (h : 1 ≤ n) : str (.fin (-((n : ℚ) / 1000))) = '-' :: thousandths n := by
  have hn : (1 : ℚ) ≤ n := by exact_mod_cast h
  have h1 : ¬ |-((n : ℚ) / 1000)| < 1/1000 := by
    rw [abs_neg, abs_of_nonneg (by positivity)]; intro hc; linarith
  have h2 : -((n : ℚ) / 1000) < 0 := by linarith
  have h3 : - -((n : ℚ) / 1000) * 1000 = n := by ring
  simp only [str]
  rw [if_neg h1, if_pos h2, h3, nearest_natCast]

/-- A finite number is written with three decimals and read back: the number read is written alike
and is at most half a thousandth away, unless both are nearer to zero than a thousandth. -/
theorem reads_fin (q : ℚ) : ∃ r : ℚ, ofText (str (.fin q)) = some (.fin r) ∧ str (.fin r) = str (.fin q) ∧
    (|r - q| ≤ 1/2000 ∨ (r = 0 ∧ |q| < 1/1000)) := by
  by_cases h : |q| < 1/1000
  · refine ⟨0, ?_, ?_, .inr ⟨rfl, h⟩⟩
    · have : str (.fin q) = cs! "0.000" := by simp only [str]; rw [if_pos h]
      rw [this]; decide +kernel
    · simp only [str]; rw [if_pos h, if_pos (by norm_num)]
  · by_cases hq : q < 0
    · have hq' : (1 : ℚ) ≤ -q * 1000 := by rw [abs_of_neg hq] at h; linarith
      have e : str (.fin q) = '-' :: thousandths (nearest (-q * 1000)) := by simp only [str]; rw [if_neg h, if_pos hq]
      refine ⟨-((nearest (-q * 1000) : ℚ) / 1000), by rw [e]; exact ofText_neg_thousandths _, ?_, .inl ?_⟩
      · rw [e]; exact str_neg _ (nearest_pos _ hq')
      · have := abs_le.1 (nearest_close (-q * 1000) (by linarith))
        rw [abs_le]; constructor <;> linarith [this.1, this.2]
    · have hq0 : 0 ≤ q := not_lt.1 hq
      have hq' : (1 : ℚ) ≤ q * 1000 := by rw [abs_of_nonneg hq0] at h; linarith
      have e : str (.fin q) = thousandths (nearest (q * 1000)) := by simp only [str]; rw [if_neg h, if_neg hq]
      refine ⟨(nearest (q * 1000) : ℚ) / 1000, by rw [e]; exact ofText_thousandths _, ?_, .inl ?_⟩
      · rw [e]; exact str_nonneg _ (nearest_pos _ hq')
      · have := abs_le.1 (nearest_close (q * 1000) (by linarith))
        rw [abs_le]; constructor <;> linarith [this.1, this.2]

theorem digit_char (c : Char) (h : c.isDigit = true) : isSpace c = false ∧ c ≠ '#' := by
  have hd : 48 ≤ c.toNat ∧ c.toNat ≤ 57 := by
    simp only [Char.isDigit, Bool.and_eq_true, decide_eq_true_eq] at h
    exact h
  have ne : ∀ d : Char, d.toNat < 48 → c ≠ d := by rintro d hd' rfl; omega
  constructor
  · simp only [isSpace, Bool.or_eq_false_iff, beq_eq_false_iff_ne]
    exact ⟨⟨⟨⟨⟨ne _ (by decide), ne _ (by decide)⟩, ne _ (by decide)⟩, ne _ (by decide)⟩, ne _ (by decide)⟩,
      ne _ (by decide)⟩
  · exact ne _ (by decide)

theorem thousandths_char (n : Nat) : ∀ c ∈ thousandths n, isSpace c = false ∧ c ≠ '#' := by
  intro c hc
  rw [thousandths_eq, List.mem_append, List.mem_cons] at hc
  rcases hc with hc | rfl | hc
  · exact digit_char c (digits_isDigit _ c hc)
  · decide
  · exact digit_char c (frac_isDigit _ c hc)

theorem str_char (x : Ext ℚ) : str x ≠ [] ∧ ∀ c ∈ str x, isSpace c = false ∧ c ≠ '#' := by
  cases x with
  | nan => decide
  | pinf => decide
  | ninf => decide
  | fin q =>
    simp only [str]
    split_ifs
    · decide
    · refine ⟨by simp, fun c hc => ?_⟩
      rcases List.mem_cons.1 hc with rfl | hc
      · decide
      · exact thousandths_char _ c hc
    · obtain ⟨c, r, h, -⟩ := thousandths_head (nearest (q * 1000))
      exact ⟨by rw [h]; simp, thousandths_char _⟩

end Decimal

instance instLawfulTextRat : LawfulText (Ext ℚ) where
  str_ne x := (Decimal.str_char x).1
  str_char x := (Decimal.str_char x).2
  reads x := by
    cases x with
    | nan => exact ⟨.nan, rfl, rfl⟩
    | pinf => exact ⟨.pinf, rfl, rfl⟩
    | ninf => exact ⟨.ninf, rfl, rfl⟩
    | fin q =>
      obtain ⟨r, h1, h2, -⟩ := Decimal.reads_fin q
      exact ⟨.fin r, h1, h2⟩

end FL
