/-
C73: numbers of type `double` survive being written with any number of decimals and being read, so the
theorems about the text formats apply to them.
-/
import Verif.Lemmas.DoubleLaws
import Verif.Lemmas.Binary64
import Verif.Props.FisLoad
import Verif.Props.Fcl
import Verif.Props.Data

namespace FL
open Scalar

namespace Double
open Ext Flt
variable {lib1 : Fn1 → Ext ℚ → Ext ℚ} {lib2 : Fn2 → Ext ℚ → Ext ℚ → Ext ℚ}

local notation "β" => binary64 lib1 lib2

section
variable [Decimals]

instance instLawfulText : LawfulText (Flt β) := lawfulText (Binary64.nearest lib1 lib2)
instance instPlainText : PlainText (Flt β) := plainText (Binary64.nearest lib1 lib2)
instance instLawfulInt : LawfulInt (Flt β) := lawfulInt

/-- C73.  A number written with `d` decimals is read as a number that is written alike and is at most
one unit of the last decimal away; infinities and NaN are read as they are. -/
theorem reads (x : Flt β) : ∃ y : Flt β, ScalarText.ofText (ScalarText.str x) = some y ∧
    (ScalarText.str y : Str) = ScalarText.str x ∧
    ((∃ p q : ℚ, x.val = fin q ∧ y.val = fin p ∧ |p - q| ≤ 1 / 10 ^ Decimals.decimals) ∨
      ((∀ q, x.val ≠ fin q) ∧ y = x)) := by
  obtain ⟨v, hv⟩ := x
  cases v with
  | nan => exact ⟨⟨.nan, rfl⟩, by change Flt.ofText (Flt.str _) = _; rw [str_nan]; rfl, rfl, .inr ⟨by simp, rfl⟩⟩
  | pinf => exact ⟨⟨.pinf, rfl⟩, by change Flt.ofText (Flt.str _) = _; rw [str_pinf]; rfl, rfl, .inr ⟨by simp, rfl⟩⟩
  | ninf => exact ⟨⟨.ninf, rfl⟩, by change Flt.ofText (Flt.str _) = _; rw [str_ninf]; rfl, rfl, .inr ⟨by simp, rfl⟩⟩
  | fin q =>
    obtain ⟨p, hp, h1, h2, h3⟩ := reads_fin (Binary64.nearest lib1 lib2) (q := q) hv
    exact ⟨of p hp, h1, h2, .inl ⟨p, q, rfl, rfl, h3⟩⟩

/-- C73.  Numbers that need no more than `d` decimals, such as integers, are read as they are. -/
theorem reads_exact (x : Flt β) (q : ℚ) (h : x.val = fin q) (m : ℤ) (hm : q * 10 ^ Decimals.decimals = m) :
    ScalarText.ofText (ScalarText.str x) = some x := by
  obtain ⟨v, hv⟩ := x
  change v = fin q at h
  subst h
  exact Flt.reads_exact (Binary64.nearest lib1 lib2) (q := q) hv m hm

/-- C73.  Numbers from `2 ^ k` on are read as they are when the decimals are finer than `2 ^ (k - 53)`, half
the distance between the numbers there. -/
theorem reads_large (x : Flt β) (q : ℚ) (h : x.val = fin q) (k : ℤ) (hk : (2 : ℚ) ^ k ≤ |q|)
    (hd : 1 / 10 ^ Decimals.decimals < (2 : ℚ) ^ (k - 53)) : ScalarText.ofText (ScalarText.str x) = some x := by
  obtain ⟨v, hv⟩ := x
  change v = fin q at h
  subst h
  obtain ⟨p, hp, h1, -, h3⟩ := reads_fin (Binary64.nearest lib1 lib2) (q := q) hv
  change |p - q| ≤ 1 / 10 ^ Decimals.decimals at h3
  have hp53 : (0 : ℚ) < 2 ^ (k - 53) := by positivity
  have hkey : ∀ p q : ℚ, (β).Rep p → (β).Rep q → (2 : ℚ) ^ k ≤ q → |p - q| < 2 ^ (k - 53) → p = q := by
    intro p q hp hq hk hpq
    have hq0 : 0 < q := lt_of_lt_of_le (by positivity) hk
    have hsplit : (2 : ℚ) ^ k = 2 ^ (k - 1) + 2 ^ (k - 1) := by
      rw [← two_mul, show k = k - 1 + 1 by ring, zpow_add₀ (by norm_num)]
      norm_num
      ring
    have hle : (2 : ℚ) ^ (k - 53) ≤ 2 ^ (k - 1) := zpow_le_zpow_right₀ (by norm_num) (by omega)
    have hpl : (2 : ℚ) ^ (k - 1) ≤ p := by
      have := (abs_lt.1 hpq).1
      linarith
    have hp0 : 0 < p := lt_of_lt_of_le (by positivity) hpl
    have hlp : k - 1 ≤ Binary64.log2 p := by
      have := (zpow_lt_zpow_iff_right₀ (by norm_num : (1 : ℚ) < 2)).1 (lt_of_le_of_lt hpl (Binary64.log2_spec hp0).2)
      omega
    have hlq : k ≤ Binary64.log2 q := by
      have := (zpow_lt_zpow_iff_right₀ (by norm_num : (1 : ℚ) < 2)).1 (lt_of_le_of_lt hk (Binary64.log2_spec hq0).2)
      omega
    have ht : Binary64.log2 (2 ^ (k - 1)) = k - 1 :=
      Binary64.log2_unique (le_refl _) (zpow_lt_zpow_right₀ (by norm_num) (by omega))
    have e0 : Binary64.expo (2 ^ (k - 1)) = max (-1074) (k - 53) := by unfold Binary64.expo; rw [ht]; omega
    obtain ⟨a, ha⟩ := Binary64.rep_mul (t := 2 ^ (k - 1)) hp0 hp (by rw [e0]; unfold Binary64.expo; omega)
    obtain ⟨b, hb⟩ := Binary64.rep_mul (t := 2 ^ (k - 1)) hq0 hq (by rw [e0]; unfold Binary64.expo; omega)
    rw [e0] at ha hb
    have hg : (2 : ℚ) ^ (k - 53) ≤ 2 ^ (max (-1074) (k - 53)) := zpow_le_zpow_right₀ (by norm_num) (le_max_right _ _)
    have hu : (0 : ℚ) < 2 ^ (max (-1074) (k - 53)) := by positivity
    rw [ha, hb] at hpq ⊢
    rw [← sub_mul, abs_mul, _root_.abs_of_pos hu] at hpq
    have h1 : |(a : ℚ) - b| < 1 := by
      by_contra hc
      push Not at hc
      have := mul_le_mul_of_nonneg_right hc hu.le
      linarith
    have h2 : |a - b| < 1 := by exact_mod_cast h1
    have h3 : a = b := by rw [abs_lt] at h2; omega
    rw [h3]
  have hpq : p = q := by
    have hlt := lt_of_le_of_lt h3 hd
    rcases le_or_gt 0 q with hs | hs
    · rw [_root_.abs_of_nonneg hs] at hk
      exact hkey p q hp hv hk hlt
    · rw [_root_.abs_of_neg hs] at hk
      have := hkey (-p) (-q) (Format.rep_neg hp) (Format.rep_neg hv) hk (by
        rw [show -p - -q = -(p - q) by ring, abs_neg]
        exact hlt)
      linarith
  subst hpq
  exact h1

/-- what is read where a number was written is written alike, and reading it again changes nothing -/
theorem reread_steady (x : Flt β) : (ScalarText.str (reread x) : Str) = ScalarText.str x ∧ reread (reread x) = reread x :=
  ⟨str_reread x, reread_reread x⟩

/-- the number one compares equal to itself, as the theorems about FLL and FCL assume -/
theorem isEq_one : Op.isEq (lit 1 : Flt β) (lit 1) = true := by
  rw [lit_rep Format.rep_one]
  exact Fis.isEq_true _ _ (by rw [sub_self, abs_zero]; norm_num)

/-- C73.  The round trip of FLL for doubles, with any number of decimals. -/
theorem fll_partial (x : FllExporter) (y : FllImporter) (hx : x.separator = cs! "\n") (hy : y.separator = cs! "\n")
    (hr : x.resolution = y.resolution) (hi : x.indent.all isSpace = true) (hn : '\n' ∉ x.indent) (G : Registry (Flt β))
    (e : Engine (Flt β)) (hg : Fll.Good e) (hs : Fll.Steadfast e) (hl : Fll.Loads G.functions e) :
    ∃ e', y.fromString G (x.toString e) = .ok e' ∧ x.toString e' = x.toString e :=
  Fll.roundTrip_partial isEq_one x y hx hy hr hi hn G e hg hs hl

/-- C73.  The round trip of FCL for doubles, with any number of decimals. -/
theorem fcl_partial (x : FclExporter) (hi : x.indent.all isSpace = true) (hf : '\n' ∉ x.indent) (y : FclImporter)
    (G : Registry (Flt β)) (e : Engine (Flt β)) (hg : Fcl.Good e) (hs1 : ∀ v ∈ e.inputs, ∀ t ∈ v.terms, Fcl.SteadyTerm t)
    (hs2 : ∀ v ∈ e.outputs, ∀ t ∈ v.terms, Fcl.SteadyTerm t) (hl : Fcl.Loads G.functions e) :
    ∃ e', y.fromString G (x.toString e) = .ok e' ∧ x.toString e' = x.toString e :=
  Fcl.roundTrip_partial isEq_one x hi hf y G e hg hs1 hs2 hl

/-- C73.  The engine read from FIS, for doubles with two decimals or more and exact `floor` and `fmod`. -/
theorem fis_partial (hd : 2 ≤ Decimals.decimals) (W : (β).Whole) (x : FisImporter) (G : Registry (Flt β)) (e : Engine (Flt β))
    (h : Fis.Good e) : ∃ text, FisExporter.toString e = .ok text ∧ x.fromString G text = Fis.reading x G e := by
  haveI := Fis.codeText (lib1 := lib1) (lib2 := lib2) hd W
  exact Fis.fromString_toString x G e h

end

/-- rounding overflows from half a unit beyond the greatest double on -/
theorem near_big (t : ℚ) (ht : 0 < t) : Binary64.near t < 2 ^ (1024 : ℤ) ↔ t < 2 ^ (1024 : ℤ) - 2 ^ (970 : ℤ) := by
  have p1 : ∀ A : ℚ, 0 < A → 0 < 18014398509481984 * A - A := fun A h => by linarith
  have p2 : ∀ A : ℚ, 0 < A → 9007199254740992 * A ≤ 18014398509481984 * A - A := fun A h => by linarith
  have p3 : ∀ A B : ℚ, 0 < A → B - A < B := fun A B h => by linarith
  have p4 : ∀ A B n t e : ℚ, t < B - A → n - t ≤ e / 2 → e ≤ 2 * A → n < B := fun A B n t e h1 h2 h3 => by linarith
  have hpow : (2 : ℚ) ^ (1024 : ℤ) = 2 ^ (54 : ℤ) * 2 ^ (970 : ℤ) := by
    rw [← zpow_add₀ (by norm_num)]; norm_num
  have h23 : (2 : ℚ) ^ (1023 : ℤ) = 2 ^ (53 : ℤ) * 2 ^ (970 : ℤ) := by
    rw [← zpow_add₀ (by norm_num)]; norm_num
  have h71 : (2 : ℚ) ^ (971 : ℤ) = 2 * 2 ^ (970 : ℤ) := by
    rw [show (971 : ℤ) = 1 + 970 by norm_num, zpow_add₀ (by norm_num)]; norm_num
  have h0 : (0 : ℚ) < 2 ^ (970 : ℤ) := by positivity
  generalize hA : (2 : ℚ) ^ (970 : ℤ) = A at *
  have e54 : (2 : ℚ) ^ (54 : ℤ) = 18014398509481984 := by norm_num
  have e53 : (2 : ℚ) ^ (53 : ℤ) = 9007199254740992 := by norm_num
  rw [e54] at hpow
  rw [e53] at h23
  constructor
  · intro h
    by_contra hc
    push Not at hc
    have hm := Binary64.near_mono (x := 2 ^ (1024 : ℤ) - A) (by rw [hpow]; exact p1 A h0) hc
    have hl : Binary64.log2 (2 ^ (1024 : ℤ) - A) = 1023 :=
      Binary64.log2_unique (by rw [h23, hpow]; exact p2 A h0) (p3 A _ h0)
    have he : Binary64.expo (2 ^ (1024 : ℤ) - A) = 971 := by unfold Binary64.expo; rw [hl]; rfl
    have hn : Binary64.near (2 ^ (1024 : ℤ) - A) = 2 ^ (1024 : ℤ) := by
      unfold Binary64.near
      rw [he, h71, hpow, show (18014398509481984 * A - A) / (2 * A) = 18014398509481983 / 2 by field_simp; ring]
      rw [show Binary64.halfEven (18014398509481983 / 2) = 9007199254740992 by decide +kernel]
      push_cast
      ring
    rw [hn] at hm
    exact absurd h (not_lt.2 hm)
  · intro h
    have herr := (abs_le.1 (Binary64.near_err t)).2
    have hlog : Binary64.log2 t ≤ 1023 := by
      have := (zpow_lt_zpow_iff_right₀ (by norm_num : (1 : ℚ) < 2)).1
        (lt_of_le_of_lt (Binary64.log2_spec ht).1 (h.trans (p3 A _ h0)))
      omega
    have hexp : (2 : ℚ) ^ Binary64.expo t ≤ 2 ^ (971 : ℤ) :=
      zpow_le_zpow_right₀ (by norm_num) (by unfold Binary64.expo; omega)
    rw [h71] at hexp
    exact p4 A _ _ t _ h herr hexp

/-- C73.  The text of a number is read as a double that is nearest to it, and is rejected exactly when the
number is at least half a unit beyond the greatest double. -/
theorem read_nearest [Decimals] (s : Str) (q : ℚ) (h : Decimal.ofText s = some (fin q)) :
    (∀ y : Flt β, ScalarText.ofText s = some y →
      ∃ p, y.val = fin p ∧ ∀ (z : Flt β) (r : ℚ), z.val = fin r → |p - q| ≤ |r - q|) ∧
    ((ScalarText.ofText s : Option (Flt β)) = none ↔ 2 ^ (1024 : ℤ) - 2 ^ (970 : ℤ) ≤ |q|) := by
  have hb : (0 : ℚ) < 2 ^ (1024 : ℤ) - 2 ^ (970 : ℤ) :=
    sub_pos.2 (zpow_lt_zpow_right₀ (by norm_num) (by norm_num))
  have key : (∃ p, (β).rnd q = fin p) ↔ |q| < 2 ^ (1024 : ℤ) - 2 ^ (970 : ℤ) := by
    change (∃ p, Binary64.rnd q = fin p) ↔ _
    unfold Binary64.rnd Binary64.rndPos
    rcases lt_trichotomy q 0 with hq | hq | hq
    · rw [if_neg hq.ne, if_neg hq.not_gt, _root_.abs_of_neg hq, ← near_big _ (by linarith)]
      split_ifs with hc
      · exact ⟨fun _ => hc, fun _ => ⟨_, rfl⟩⟩
      · exact ⟨fun ⟨_, hp⟩ => by simp [Ext.neg] at hp, fun hp => absurd hp hc⟩
    · rw [if_pos hq, hq, abs_zero]
      exact ⟨fun _ => hb, fun _ => ⟨_, rfl⟩⟩
    · rw [if_neg hq.ne', if_pos hq, _root_.abs_of_pos hq, ← near_big _ hq]
      split_ifs with hc
      · exact ⟨fun _ => hc, fun _ => ⟨_, rfl⟩⟩
      · exact ⟨fun ⟨_, hp⟩ => by simp at hp, fun hp => absurd hp hc⟩
  have hn : (β).rnd q ≠ .nan := Binary64.rnd_ne_nan q
  change (∀ y : Flt β, Flt.ofText s = some y → _) ∧ ((Flt.ofText s : Option (Flt β)) = none ↔ _)
  unfold Flt.ofText
  rw [h]
  simp only
  cases hr : (β).rnd q with
  | fin p =>
    refine ⟨fun y hy => ?_, ?_⟩
    · obtain rfl : mk' (β) (fin q) = y := by simpa using hy
      exact ⟨p, hr, fun z r hz => (Binary64.nearest lib1 lib2).near q r p hr (by
        have := z.rounded
        rw [hz] at this
        exact this)⟩
    · simp only [reduceCtorEq, false_iff, not_le]
      exact key.1 ⟨p, hr⟩
  | nan => exact absurd hr hn
  | pinf =>
    refine ⟨fun y hy => by simp at hy, ?_⟩
    simp only [true_iff]
    by_contra hc
    obtain ⟨p, hp⟩ := key.2 (not_le.1 hc)
    rw [hr] at hp
    cases hp
  | ninf =>
    refine ⟨fun y hy => by simp at hy, ?_⟩
    simp only [true_iff]
    by_contra hc
    obtain ⟨p, hp⟩ := key.2 (not_le.1 hc)
    rw [hr] at hp
    cases hp

/-! ### concrete numbers -/

/-- the functions of `<cmath>` on exact rationals, where they are exact -/
abbrev std : Format := binary64 (fun f x => Scalar.fn1 f x) (fun f x y => Scalar.fn2 f x y)

/-- `floor` and `fmod` are exact there -/
theorem std_whole : std.Whole where
  floor _ _ _ := rfl
  fmod x _ h := by
    change (if (1 : ℚ) = 0 then Ext.nan else Ext.fin (x - 1 * (if 0 ≤ x / 1 then ((x / 1).floor : ℚ) else ((x / 1).ceil : ℚ)))) = _
    rw [if_neg (by norm_num), div_one, if_pos h, one_mul]
    rfl

/-- the text of numbers with a number of decimals -/
def shown (d : ℕ) (h : d ≤ 300) (q : ℚ) : Str := letI : Decimals := ⟨d, h⟩; ScalarText.str (lit q : Flt std)

/-- the number read -/
def read (s : Str) : Option (Ext ℚ) := letI : Decimals := .default; (ScalarText.ofText s : Option (Flt std)).map Flt.val

/-- 0.1 is written and read as it is with three decimals; a third is not, but with 17 decimals it is; text
beyond the range is rejected -/
example : shown 3 (by decide) (1 / 10) = cs! "0.100" ∧ read (cs! "0.100") = some (Binary64.rnd (1 / 10)) ∧
    shown 3 (by decide) (-1 / 3) = cs! "-0.333" ∧ read (cs! "-0.333") ≠ some (Binary64.rnd (-1 / 3)) ∧
    shown 17 (by decide) (1 / 3) = cs! "0.33333333333333331" ∧
    read (cs! "0.33333333333333331") = some (Binary64.rnd (1 / 3)) ∧
    shown 0 (by decide) (5 / 2) = cs! "2" ∧ shown 0 (by decide) (7 / 2) = cs! "4" ∧
    shown 1 (by decide) (1 / 4) = cs! "0.2" ∧ shown 3 (by decide) 1000000000000000000000000 = cs! "999999999999999983222784.000" ∧
    read (cs! "1e308") ≠ none ∧ read (cs! "1e309") = none := by decide +kernel

/-- with 16 decimals, all doubles from 1 on are read as they are -/
example (x : Flt std) (q : ℚ) (h : x.val = .fin q) (h1 : 1 ≤ |q|) :
    letI : Decimals := ⟨16, by decide⟩; ScalarText.ofText (ScalarText.str x) = some x := by
  letI : Decimals := ⟨16, by decide⟩
  exact reads_large x q h 0 (by simpa using h1) (by
    have : Decimals.decimals = 16 := rfl
    rw [this]
    norm_num)

/-- an engine of doubles -/
def engine : Engine (Flt std) where
  name := cs! "tipper"
  description := []
  inputs := [Variable.new (cs! "service") (lit 0) (lit (1 / 3)) [⟨cs! "poor", lit (2 / 3), .shape (.triangle (lit 0) (lit (1 / 10)) inf)⟩]]
  outputs := []
  blocks := []

/-- it is written, read, and written alike, though numbers have changed -/
example :
    letI : Decimals := .default
    (({} : FllImporter).fromString Registry.default (({} : FllExporter).toString engine)).toOption.map
      (fun e : Engine (Flt std) => (decide (({} : FllExporter).toString e = ({} : FllExporter).toString engine),
        e.inputs.map (fun v => decide (v.maximum = lit (333 / 1000))),
        e.inputs.map (fun v => decide (v.maximum = lit (1 / 3))))) = some (true, [true], [false]) := by decide +kernel

/-- C73.  Numbers near zero are not written as the nearest decimal: 1/1024 is nearer to 0.001 than to
0.000, which is written and read. -/
theorem small_violated : shown 3 (by decide) (1 / 1024) = cs! "0.000" ∧ read (cs! "0.000") = some (.fin 0) ∧
    read (cs! "0.001") = some (Binary64.rnd (1 / 1000)) ∧ |(1 : ℚ) / 1024 - 1 / 1000| < 1 / 40 * |(1 : ℚ) / 1024 - 0| := by
  refine ⟨by decide +kernel, by decide +kernel, by decide +kernel, by norm_num [abs_of_neg, abs_of_pos]⟩

/-- C73.  A narrow triangle does not survive: with three decimals all its vertices are read as zero, and the
membership of its centre, 1, becomes 0. -/
theorem triangle_violated : ∃ a b c : Flt std,
    letI : Decimals := .default
    (Shape.triangle a b c).membership (lit 1) b = lit 1 ∧
    ((Shape.triangle a b c).each reread).membership (lit 1) b = lit 0 := by
  refine ⟨lit 0, lit (1 / 2048), lit (1 / 1024), ?_⟩
  decide +kernel

/-- C73.  With one decimal, the FIS format confuses terms: the proposition "is any a" about the first of two
terms is written as 2.0, which is read as "is b", about the second. -/
theorem code_violated :
    letI : Decimals := ⟨1, by decide⟩
    FisExporter.code 2 (some (⟨.input 0, [.builtin .any], some 0⟩ : Proposition (Flt std))) = cs! "2.0 " ∧
    FisImporter.propositions (S := Flt std) [cs! "2.0"] [(cs! "x", [cs! "a", cs! "b"])] = .ok [cs! "x is b"] := by
  decide +kernel

/-- with two decimals it does not -/
example :
    letI : Decimals := ⟨2, by decide⟩
    FisExporter.code 2 (some (⟨.input 0, [.builtin .any], some 0⟩ : Proposition (Flt std))) = cs! "1.99 " ∧
    FisImporter.propositions (S := Flt std) [cs! "1.99"] [(cs! "x", [cs! "a", cs! "b"])] = .ok [cs! "x is any a"] := by
  decide +kernel

end Double
end FL
