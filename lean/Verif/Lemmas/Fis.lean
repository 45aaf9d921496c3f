/-
Lines, sections and codes of the FIS format.
-/
import Verif.Model.Fis
import Verif.Lemmas.Fcl
import Verif.Props.Fcl
import Verif.Props.Strict

namespace FL
open Scalar
namespace Fis

/-! ### lines -/

/-- a text that a line can hold: without comments and line feeds -/
structure Core (s : Str) : Prop where
  hash : '#' ∉ s
  slashes : ¬ cs! "//" <:+: s
  feed : '\n' ∉ s

instance (s : Str) : Decidable (Core s) :=
  decidable_of_iff ('#' ∉ s ∧ ¬ cs! "//" <:+: s ∧ '\n' ∉ s)
    ⟨fun h => ⟨h.1, h.2.1, h.2.2⟩, fun h => ⟨h.hash, h.slashes, h.feed⟩⟩

theorem Core.append {a b : Str} (ha : Core a) (hb : Core b) (h : '/' ∉ a ∨ '/' ∉ b) : Core (a ++ b) := by
  refine ⟨?_, ?_, ?_⟩
  · simp [ha.hash, hb.hash]
  · refine Op.twice_append '/' a b ha.slashes hb.slashes ?_
    rcases h with h | h
    · exact .inl fun hl => h (List.mem_of_getLast? hl)
    · exact .inr fun hl => h (List.mem_of_mem_head? hl)
  · simp [ha.feed, hb.feed]

theorem core_of {s : Str} (h : ∀ c ∈ cs! "#/\n", c ∉ s) : Core s :=
  ⟨h _ (by decide), Op.twice_free (h _ (by decide)), h _ (by decide)⟩

theorem clean_core (s : Str) (h : Core s) : FisImporter.clean s = Op.trim s := by
  unfold FisImporter.clean
  have e1 : (Op.split s (cs! "//") false).headD [] = s := by
    have := Op.split_twice '/' s h.slashes
    rw [show (cs! "//") = ['/', '/'] from rfl, this]; rfl
  have e2 : (Op.split s (cs! "#") false).headD [] = s := by
    have := Op.split_absent s '#' h.hash
    rw [show (cs! "#") = ['#'] from rfl, this]; rfl
  simp only [e1, e2]

/-- a comment is not read -/
theorem clean_comment (s : Str) (h : '/' ∉ s) : FisImporter.clean ('#' :: s) = [] := by
  have e1 : (Op.split ('#' :: s) (cs! "//") false).headD [] = '#' :: s := by
    have := Op.split_twice '/' ('#' :: s) (Op.twice_free (by simp [h]))
    rw [show (cs! "//") = ['/', '/'] from rfl, this]; rfl
  unfold FisImporter.clean
  simp only [e1]
  have := Strict.split_append [] s '#'
  rw [List.nil_append] at this
  rw [show (cs! "#") = ['#'] from rfl, this]
  simp [Op.split, Op.trim]

theorem replace_quotes (s : Str) : (Op.findReplace s (cs! "'") [] true).getD [] = s.filter fun c => c ≠ '\'' := by
  rw [show (cs! "'") = ['\''] from rfl, Op.replace_char, Option.getD_some]
  induction s with
  | nil => rfl
  | cons c s ih =>
    rw [List.flatMap_cons, ih]
    by_cases hc : c = '\'' <;> simp [hc]

/-- what is left of a line: nothing of empty lines and of comments -/
def shown (raw : Str) : Option Str :=
  if FisImporter.clean raw = [] ∨ (FisImporter.clean raw).head? = some '%' then none
  else some ((FisImporter.clean raw).filter fun c => c ≠ '\'')

theorem shown_line (s : Str) (h : Core s) (h1 : ∃ c, s.head? = some c ∧ isSpace c = false ∧ c ≠ '%')
    (h2 : ∃ c, s.getLast? = some c ∧ isSpace c = false) : shown s = some (s.filter fun c => c ≠ '\'') := by
  obtain ⟨c, hc, hs, hp⟩ := h1
  obtain ⟨d, hd, hs'⟩ := h2
  have ht : Op.trim s = s := Op.trim_of_ends s (fun x hx => by rw [hc] at hx; obtain rfl := Option.some.inj hx; exact hs)
    (fun x hx => by rw [hd] at hx; obtain rfl := Option.some.inj hx; exact hs')
  unfold shown
  rw [clean_core s h, ht, if_neg]
  rintro (rfl | hx)
  · simp at hc
  · rw [hc] at hx; exact hp (Option.some.inj hx)

theorem shown_none (raw : Str) (h : FisImporter.clean raw = []) : shown raw = none := by
  unfold shown; rw [if_pos (.inl h)]

/-- a line after its quotes and comments are removed -/
def step (sections : List Str) (line : Str) : Except Err (List Str) :=
  if FisImporter.isTitle line then .ok (sections ++ [line]) else FisImporter.extend sections line

theorem fold_shown (raws : List Str) (sections : List Str) :
    raws.foldlM FisImporter.sectionStep sections = (raws.filterMap shown).foldlM step sections := by
  have one : ∀ sections raw, FisImporter.sectionStep sections raw = (match shown raw with
      | none => .ok sections
      | some l => step sections l) := by
    intro sections raw
    unfold FisImporter.sectionStep shown step
    simp only [replace_quotes]
    by_cases h : FisImporter.clean raw = [] ∨ (FisImporter.clean raw).head? = some '%'
    · rw [if_pos h, if_pos h]
    · rw [if_neg h, if_neg h]
  induction raws generalizing sections with
  | nil => rfl
  | cons raw raws ih =>
    rw [List.foldlM_cons, one, List.filterMap_cons]
    cases shown raw with
    | none => exact ih sections
    | some l =>
      dsimp only
      rw [List.foldlM_cons]
      congr 1
      funext s
      exact ih s

theorem fold_body (ls : List Str) (h : ∀ l ∈ ls, FisImporter.isTitle l = false) (sections : List Str) (s : Str) :
    ls.foldlM step (sections ++ [s]) = .ok (sections ++ [Op.join (s :: ls) (cs! "\n")]) := by
  induction ls generalizing s with
  | nil => simp [Op.join]; rfl
  | cons l ls ih =>
    have : step (sections ++ [s]) l = .ok (sections ++ [s ++ cs! "\n" ++ l]) := by
      unfold step FisImporter.extend
      rw [h l (by simp), if_neg (by simp)]
      simp
    rw [List.foldlM_cons, this]
    change List.foldlM step (sections ++ [s ++ cs! "\n" ++ l]) ls = _
    rw [ih fun l hl => h l (List.mem_cons_of_mem _ hl)]
    cases ls with
    | nil => simp [Op.join]
    | cons m ls => simp [Op.join]

/-- the sections of lines: a title and the lines after it -/
theorem fold_sections (gs : List (Str × List Str))
    (h : ∀ g ∈ gs, FisImporter.isTitle g.1 = true ∧ ∀ l ∈ g.2, FisImporter.isTitle l = false) (sections : List Str) :
    (gs.flatMap fun g => g.1 :: g.2).foldlM step sections =
      .ok (sections ++ gs.map fun g => Op.join (g.1 :: g.2) (cs! "\n")) := by
  induction gs generalizing sections with
  | nil => simp; rfl
  | cons g gs ih =>
    obtain ⟨h1, h2⟩ := h g (by simp)
    have : step sections g.1 = .ok (sections ++ [g.1]) := by unfold step; rw [if_pos h1]
    rw [List.flatMap_cons, List.cons_append, List.foldlM_cons, this]
    change List.foldlM step (sections ++ [g.1]) _ = _
    rw [List.foldlM_append, fold_body _ h2]
    change List.foldlM step (sections ++ [Op.join (g.1 :: g.2) (cs! "\n")]) _ = _
    rw [ih fun g hg => h g (List.mem_cons_of_mem _ hg)]
    simp

theorem body_join (t : Str) (ls : List Str) (ht : t ≠ [] ∧ '\n' ∉ t) (h : ∀ l ∈ ls, l ≠ [] ∧ '\n' ∉ l) :
    FisImporter.body (Op.join (t :: ls) (cs! "\n")) = ls := by
  unfold FisImporter.body
  rw [FllImporter.lines_join]
  · rfl
  · intro l hl
    rcases List.mem_cons.1 hl with rfl | hl
    · exact ht
    · exact h l hl

theorem prefix_join (p t : Str) (ls : List Str) (h : p.isPrefixOf t = true) :
    p.isPrefixOf (Op.join (t :: ls) (cs! "\n")) = true := by
  rw [List.isPrefixOf_iff_prefix] at h ⊢
  cases ls with
  | nil => exact h
  | cons l ls => exact h.trans ⟨cs! "\n" ++ Op.join (l :: ls) (cs! "\n"), by simp [Op.join]⟩

theorem not_prefix_join (p t : Str) (ls : List Str) (h : p.isPrefixOf t = false) (hp : '\n' ∉ p) :
    p.isPrefixOf (Op.join (t :: ls) (cs! "\n")) = false := by
  rw [← Bool.not_eq_true, List.isPrefixOf_iff_prefix] at h ⊢
  intro hq
  cases ls with
  | nil => exact h hq
  | cons l ls =>
    have e : Op.join (t :: l :: ls) (cs! "\n") = t ++ '\n' :: Op.join (l :: ls) (cs! "\n") := by simp [Op.join]
    rw [e] at hq
    rcases List.prefix_or_prefix_of_prefix hq (List.prefix_append t _) with h' | h'
    · exact h h'
    · obtain ⟨u, rfl⟩ := h'
      rw [List.prefix_append_right_inj] at hq
      cases u with
      | nil => exact h (by simp)
      | cons c u =>
        rw [List.cons_prefix_cons] at hq
        obtain ⟨rfl, -⟩ := hq
        exact hp (by simp)

/-! ### pieces -/

theorem split_pair (c : Char) (a b : Str) (ha : a ≠ []) (hb : b ≠ []) (h1 : c ∉ a) (h2 : c ∉ b) :
    Op.split (a ++ c :: b) [c] true = [a, b] := by
  rw [Op.split_ignoreEmpty _ _ (by simp) (by simp), Strict.split_append, Op.split_absent _ _ h1, Op.split_absent _ _ h2]
  simp [ha, hb]

theorem split_tail (c : Char) (a : Str) (ha : a ≠ []) (h1 : c ∉ a) : Op.split (a ++ [c]) [c] true = [a] := by
  rw [Op.split_ignoreEmpty _ _ (by simp) (by simp), Strict.split_append, Op.split_absent _ _ h1]
  have : Op.split [] [c] false = [[]] := by simp [Op.split]
  rw [this]
  simp [ha]

/-! ### codes -/

/-- the combinations of hedges that have a code, besides `not` -/
inductive Modifier
  | plain | seldom | somewhat | very | extremely | veryVery | any
  deriving DecidableEq, Repr

/-- the hedges -/
def Modifier.hedges : Modifier → List HedgeKind
  | .plain => []
  | .seldom => [.seldom]
  | .somewhat => [.somewhat]
  | .very => [.very]
  | .extremely => [.extremely]
  | .veryVery => [.very, .very]
  | .any => [.any]

/-- the fraction of the code, in hundredths -/
def Modifier.hundredths : Modifier → Nat
  | .plain => 0
  | .seldom => 1
  | .somewhat => 5
  | .very => 20
  | .extremely => 30
  | .veryVery => 40
  | .any => 99

/-- the number added to the position of the term -/
def Modifier.plus {S : Type} [Scalar S] : Modifier → S
  | .plain => lit 0
  | .veryVery => lit 0 + lit (2 / 10) + lit (2 / 10)
  | .seldom => lit 0 + lit (1 / 100)
  | .somewhat => lit 0 + lit (5 / 100)
  | .very => lit 0 + lit (2 / 10)
  | .extremely => lit 0 + lit (3 / 10)
  | .any => lit 0 + lit (99 / 100)

/-- `y` is the code of the term at the position `i` (from one; zero for none), with the modifier `m`,
negated or not: the integral part of its absolute value is `i`, and its fraction is the one of `m` only -/
structure Means {S : Type} [Scalar S] [Truncate S] (y : S) (i : Nat) (m : Modifier) (negated : Bool) : Prop where
  whole : Truncate.toInt (fn1 .floor (abs y)) = some (i : Int)
  fraction : ∀ k : Modifier, Op.isEq (fn2 .fmod (abs y) (lit 1)) (lit ((k.hundredths : ℚ) / 100) : S) =
    decide (k = m)
  zero : Op.isEq y (lit 0) = decide (i = 0 ∧ m = .plain)
  sign : (i ≠ 0 ∨ m ≠ .plain) → lt y (lit 0) = negated

/-- What is assumed, besides `PlainText`, of numbers in the theorems about rules of the FIS format: the
codes of terms, written as numbers with or without a sign before, are read as such. -/
class CodeText (S : Type) [ScalarText S] [Truncate S] : Prop extends PlainText S where
  number : ∀ m : Modifier, Op.isNaN (m.plus : S) = false
  code : ∀ (i : Nat) (m : Modifier), i < 2147483648 → ∃ y z : S,
    ScalarText.ofText (ScalarText.str (lit (i : ℚ) + m.plus : S)) = some y ∧ Means y i m false ∧
    ScalarText.ofText ('-' :: ScalarText.str (lit (i : ℚ) + m.plus : S)) = some z ∧ Means z i m true

theorem plus_rat (m : Modifier) : (m.plus : Ext ℚ) = .fin ((m.hundredths : ℚ) / 100) := by
  cases m <;> decide +kernel

theorem means_rat (i : Nat) (m : Modifier) (h : i < 2147483648) (a : ℚ) (negated : Bool)
    (ha : a = if negated then -((i : ℚ) + (m.hundredths : ℚ) / 100) else (i : ℚ) + (m.hundredths : ℚ) / 100) :
    Means (Ext.fin a : Ext ℚ) i m negated := by
  have hm0 : (0 : ℚ) ≤ (m.hundredths : ℚ) / 100 := by positivity
  have hm1 : (m.hundredths : ℚ) / 100 < 1 := by cases m <;> norm_num [Modifier.hundredths]
  have hi : (0 : ℚ) ≤ i := by positivity
  have habs : |a| = (i : ℚ) + (m.hundredths : ℚ) / 100 := by
    cases negated
    · rw [ha]; simp only [Bool.false_eq_true, if_false]; exact abs_of_nonneg (by linarith)
    · rw [ha]; simp only [if_true]; rw [abs_neg]; exact abs_of_nonneg (by linarith)
  have hfl : ((i : ℚ) + (m.hundredths : ℚ) / 100).floor = (i : Int) := by
    change ⌊(i : ℚ) + (m.hundredths : ℚ) / 100⌋ = _
    rw [Int.floor_eq_iff]
    constructor
    · push_cast; linarith
    · push_cast; linarith
  have eA : (abs (Ext.fin a) : Ext ℚ) = Ext.fin ((i : ℚ) + (m.hundredths : ℚ) / 100) := by
    change Ext.fin |a| = _; rw [habs]
  have hEq : ∀ x y : ℚ, Op.isEq (Ext.fin x : Ext ℚ) (Ext.fin y) = decide (|x - y| < 1 / 1000000) := by
    intro x y
    change (decide (x = y) || decide (|x + -y| < 1 / 1000000) || (!decide (x = x) && !decide (y = y))) = _
    rw [← sub_eq_add_neg]
    by_cases hxy : x = y
    · subst hxy; simp
    · simp [hxy]
  refine ⟨?_, fun k => ?_, ?_, fun hne => ?_⟩
  · rw [eA]
    change intOf (if (0 : ℚ) ≤ ((((i : ℚ) + (m.hundredths : ℚ) / 100).floor : Int) : ℚ) then
      ((((i : ℚ) + (m.hundredths : ℚ) / 100).floor : Int) : ℚ).floor else _) = _
    rw [hfl, if_pos (by push_cast; exact hi), Rat.floor_intCast]
    unfold intOf
    rw [if_pos (by omega)]
  · rw [eA]
    change Op.isEq (if (1 : ℚ) = 0 then Ext.nan else Ext.fin _ : Ext ℚ) (Ext.fin _) = _
    rw [if_neg (by norm_num), div_one, if_pos (by linarith), hfl, hEq]
    have : ((i : ℚ) + (m.hundredths : ℚ) / 100 - 1 * ((i : Int) : ℚ) - (k.hundredths : ℚ) / 100) =
        (m.hundredths : ℚ) / 100 - (k.hundredths : ℚ) / 100 := by push_cast; ring
    rw [this]
    clear this hfl eA habs ha hm0 hm1
    cases m <;> cases k <;> norm_num [Modifier.hundredths] <;> decide
  · change Op.isEq (Ext.fin a : Ext ℚ) (Ext.fin 0) = _
    rw [hEq, sub_zero, habs]
    by_cases h0 : i = 0
    · subst h0
      cases m <;> norm_num [Modifier.hundredths]
      all_goals decide
    · have : (1 : ℚ) ≤ i := by exact_mod_cast Nat.one_le_iff_ne_zero.2 h0
      simp only [h0, false_and, decide_false, decide_eq_false_iff_not, not_lt]
      linarith
  · change decide (a < 0) = negated
    have hpos : (0 : ℚ) < (i : ℚ) + (m.hundredths : ℚ) / 100 := by
      rcases hne with hne | hne
      · have : (1 : ℚ) ≤ i := by exact_mod_cast Nat.one_le_iff_ne_zero.2 hne
        linarith
      · have : (0 : ℚ) < (m.hundredths : ℚ) / 100 := by
          cases m <;> first | exact absurd rfl hne | norm_num [Modifier.hundredths]
        linarith
    cases negated
    · rw [ha]; simp only [Bool.false_eq_true, if_false, decide_eq_false_iff_not, not_lt]; linarith
    · rw [ha]; simp only [if_true, decide_eq_true_eq]; linarith

instance instCodeTextRat : CodeText (Ext ℚ) where
  number m := by cases m <;> decide +kernel
  code i m h := by
    have e : (lit (i : ℚ) + m.plus : Ext ℚ) = .fin ((i : ℚ) + (m.hundredths : ℚ) / 100) := by
      rw [plus_rat]; rfl
    have en : (i : ℚ) + (m.hundredths : ℚ) / 100 = ((i * 1000 + m.hundredths * 10 : Nat) : ℚ) / 1000 := by
      push_cast; ring
    have es : Decimal.str (.fin ((i : ℚ) + (m.hundredths : ℚ) / 100)) = Decimal.thousandths (i * 1000 + m.hundredths * 10) := by
      rw [en]
      by_cases h1 : 1 ≤ i * 1000 + m.hundredths * 10
      · exact Decimal.str_nonneg _ h1
      · have : i * 1000 + m.hundredths * 10 = 0 := by omega
        rw [this]
        decide +kernel
    rw [e]
    refine ⟨.fin (((i * 1000 + m.hundredths * 10 : Nat) : ℚ) / 1000), .fin (-(((i * 1000 + m.hundredths * 10 : Nat) : ℚ) / 1000)), ?_, ?_, ?_, ?_⟩
    · change Decimal.ofText (Decimal.str _) = _
      rw [es]
      exact Decimal.ofText_thousandths _
    · exact means_rat i m h _ false (by rw [← en]; simp)
    · change Decimal.ofText ('-' :: Decimal.str _) = _
      rw [es]
      exact Decimal.ofText_neg_thousandths _
    · exact means_rat i m h _ true (by rw [← en]; simp)

end Fis
end FL
