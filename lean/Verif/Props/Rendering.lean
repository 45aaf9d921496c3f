/-
C81: the texts of antecedents and consequents, and whether they say what was loaded.
-/
import Verif.Model.Rendering
import Verif.Props.RuleText
import Verif.Props.Norm

namespace FL
open Scalar Formula
variable {S : Type}

/-! ### Words -/

/-- a text made of the given words, which are also its tokens -/
def Spells (s : Str) (ts : List Str) : Prop := Op.words s = ts ∧ tokens s = ts

theorem Spells.lexeme {t : Str} (h : Lexeme t) : Spells t [t] := ⟨Op.words_single t h.1 h.2.1, tokens_lexeme t h⟩

theorem Spells.blank {a b : Str} {ts us : List Str} (ha : Spells a ts) (hb : Spells b us) :
    Spells (a ++ ' ' :: b) (ts ++ us) :=
  ⟨by rw [Op.words_blank _ _ ' ' (by decide), ha.1, hb.1], by rw [tokens_blank, ha.2, hb.2]⟩

theorem Spells.nil : Spells [] [] := ⟨rfl, rfl⟩

theorem Spells.space {a : Str} {ts : List Str} (ha : Spells a ts) : Spells (a ++ cs! " ") ts := by
  have := ha.blank Spells.nil
  simpa using this

theorem Spells.unwords (ts : List Str) (h : ∀ t ∈ ts, Lexeme t) : Spells (Rule.unwords ts) ts := by
  induction ts with
  | nil => exact Spells.nil
  | cons t ts ih =>
    have := (Spells.lexeme (h t (by simp))).blank (ih fun u hu => h u (List.mem_cons_of_mem _ hu))
    simpa [Rule.unwords] using this

theorem isKeyword_lexeme : Lexeme isKeyword := by unfold Lexeme Op.NoBlank; decide
theorem andKeyword_lexeme : Lexeme andKeyword := by unfold Lexeme Op.NoBlank; decide
theorem orKeyword_lexeme : Lexeme orKeyword := by unfold Lexeme Op.NoBlank; decide

/-! ### Propositions -/

/-- the variable and the term a proposition points to are in the engine -/
def Proposition.Within (V : Vocabulary) (p : Proposition S) : Prop :=
  (match p.var with
    | .input i => i < V.inputs.length
    | .output i => i < V.outputs.length) ∧
  (match p.term with
    | some j => j < (V.terms p.var).length
    | none => p.hedges ≠ [])

theorem Proposition.Over.within {H : HedgeFactory S} {V : Vocabulary} {p : Proposition S} (h : p.Over H V) :
    p.Within V := by
  obtain ⟨hv, hh, ht⟩ := h
  refine ⟨hv, ?_⟩
  cases hj : p.term with
  | some j => rw [hj] at ht; exact ht.1
  | none =>
    rw [hj] at ht
    obtain ⟨hs, a, he, _⟩ := ht
    simp [he]

theorem Vocabulary.nameAt_ok (V : Vocabulary) (v : VarRef)
    (hv : match v with | .input i => i < V.inputs.length | .output i => i < V.outputs.length) :
    V.nameAt v = .ok (V.nameOf v) := by
  cases v with
  | input i =>
    simp only at hv
    simp [Vocabulary.nameAt, Vocabulary.nameOf, List.getElem?_eq_getElem hv]
  | output i =>
    simp only at hv
    simp [Vocabulary.nameAt, Vocabulary.nameOf, List.getElem?_eq_getElem hv]

/-- **C81.**  The text of a proposition is its words with a blank between them: the variable, `is`, the
hedges, and the term if there is one.  After a last word that is a hedge there is a blank too. -/
theorem Proposition.toString_words (V : Vocabulary) (p : Proposition S) (h : p.Within V) :
    ∃ s, p.toString V = .ok s ∧ s ++ (if p.term.isSome then cs! " " else []) = Rule.unwords (p.tokens V) := by
  obtain ⟨v, hs, term⟩ := p
  obtain ⟨hv, ht⟩ := h
  have hn := V.nameAt_ok v hv
  cases term with
  | none =>
    simp only at ht
    refine ⟨V.nameOf v ++ (cs! " " ++ isKeyword ++ cs! " " ++ hs.flatMap fun h => h.name ++ cs! " "), ?_, ?_⟩
    · simp [Proposition.toString, hn, bind, Except.bind, ht]
    · simp [Proposition.tokens, Rule.unwords, List.flatMap_map]
  | some j =>
    simp only at ht
    have hj : (V.terms v)[j]? = some (V.terms v)[j] := List.getElem?_eq_getElem ht
    cases hs with
    | nil =>
      refine ⟨V.nameOf v ++ (cs! " " ++ isKeyword ++ cs! " ") ++ (V.terms v)[j], ?_, ?_⟩
      · simp [Proposition.toString, hn, bind, Except.bind, Vocabulary.termAt, hj]
      · simp [Proposition.tokens, Rule.unwords, hj]
    | cons a hs =>
      refine ⟨V.nameOf v ++ (cs! " " ++ isKeyword ++ cs! " " ++ (a :: hs).flatMap fun h => h.name ++ cs! " ") ++
        (V.terms v)[j], ?_, ?_⟩
      · simp [Proposition.toString, hn, bind, Except.bind, Vocabulary.termAt, hj]
      · simp [Proposition.tokens, Rule.unwords, hj, List.flatMap_map]

theorem Proposition.spells (V : Vocabulary) (p : Proposition S) (h : p.Within V) (hl : ∀ t ∈ p.tokens V, Lexeme t) :
    ∃ s, p.toString V = .ok s ∧ Spells s (p.tokens V) := by
  obtain ⟨s, hs, hu⟩ := Proposition.toString_words V p h
  refine ⟨s, hs, ?_⟩
  have := Spells.unwords _ hl
  rw [← hu] at this
  split at this
  · obtain ⟨h1, h2⟩ := this
    constructor
    · have := Op.words_blank s [] ' ' (by decide)
      rw [show s ++ cs! " " = s ++ ' ' :: [] from rfl, this] at h1
      simpa [show Op.words [] = [] from rfl] using h1
    · have := tokens_blank s []
      rw [show s ++ cs! " " = s ++ ' ' :: [] from rfl, this] at h2
      simpa [show Formula.tokens [] = [] from rfl] using h2
  · simpa using this

/-! ### Antecedents -/

namespace Expr

/-- the words of a tree, operators between their operands, without parentheses -/
def infixWords (V : Vocabulary) : Expr S → List Str
  | .prop p => p.tokens V
  | .conj l r => l.infixWords V ++ andKeyword :: r.infixWords V
  | .disj l r => l.infixWords V ++ orKeyword :: r.infixWords V

/-- the words of a tree, operators before their operands -/
def prefixWords (V : Vocabulary) : Expr S → List Str
  | .prop p => p.tokens V
  | .conj l r => andKeyword :: l.prefixWords V ++ r.prefixWords V
  | .disj l r => orKeyword :: l.prefixWords V ++ r.prefixWords V

/-- the words of a tree, operators after their operands -/
def postfixWords (V : Vocabulary) : Expr S → List Str
  | .prop p => p.tokens V
  | .conj l r => l.postfixWords V ++ r.postfixWords V ++ [andKeyword]
  | .disj l r => l.postfixWords V ++ r.postfixWords V ++ [orKeyword]

/-- the propositions of a tree, from left to right -/
def leaves : Expr S → List (Proposition S)
  | .prop p => [p]
  | .conj l r => l.leaves ++ r.leaves
  | .disj l r => l.leaves ++ r.leaves

/-- a tree without `or` -/
def AndOnly : Expr S → Prop
  | .prop _ => True
  | .conj l r => l.AndOnly ∧ r.AndOnly
  | .disj _ _ => False

/-- a tree without `and` -/
def OrOnly : Expr S → Prop
  | .prop _ => True
  | .conj _ _ => False
  | .disj l r => l.OrOnly ∧ r.OrOnly

end Expr

namespace Antecedent
variable {F : ElementFactory S} {H : HedgeFactory S} {V : Vocabulary}

theorem Tidy.lexemes (hT : Tidy F H V) (p : Proposition S) (hp : p.Over H V) : ∀ t ∈ p.tokens V, Lexeme t :=
  fun t ht => ((Tidy.proposition hT p hp).2 t ht).1

theorem infix_spells (hT : Tidy F H V) (e : Expr S) (he : e.Over H V) :
    ∃ s, e.toInfix V = .ok s ∧ Spells s (e.infixWords V) := by
  induction e with
  | prop p => exact Proposition.spells V p (Proposition.Over.within he) (Tidy.lexemes hT p he)
  | conj l r ihl ihr =>
    obtain ⟨a, ha, hsa⟩ := ihl he.1
    obtain ⟨b, hb, hsb⟩ := ihr he.2
    refine ⟨_, by simp only [Expr.toInfix, ha, hb, bind, Except.bind]; rfl, ?_⟩
    have := hsa.blank ((Spells.lexeme andKeyword_lexeme).blank hsb.space)
    simpa [Expr.infixWords] using this
  | disj l r ihl ihr =>
    obtain ⟨a, ha, hsa⟩ := ihl he.1
    obtain ⟨b, hb, hsb⟩ := ihr he.2
    refine ⟨_, by simp only [Expr.toInfix, ha, hb, bind, Except.bind]; rfl, ?_⟩
    have := hsa.blank ((Spells.lexeme orKeyword_lexeme).blank hsb.space)
    simpa [Expr.infixWords] using this

theorem prefix_spells (hT : Tidy F H V) (e : Expr S) (he : e.Over H V) :
    ∃ s, e.toPrefix V = .ok s ∧ Spells s (e.prefixWords V) := by
  induction e with
  | prop p => exact Proposition.spells V p (Proposition.Over.within he) (Tidy.lexemes hT p he)
  | conj l r ihl ihr =>
    obtain ⟨a, ha, hsa⟩ := ihl he.1
    obtain ⟨b, hb, hsb⟩ := ihr he.2
    refine ⟨_, by simp only [Expr.toPrefix, ha, hb, bind, Except.bind]; rfl, ?_⟩
    have := (Spells.lexeme andKeyword_lexeme).blank (hsa.blank hsb.space)
    simpa [Expr.prefixWords] using this
  | disj l r ihl ihr =>
    obtain ⟨a, ha, hsa⟩ := ihl he.1
    obtain ⟨b, hb, hsb⟩ := ihr he.2
    refine ⟨_, by simp only [Expr.toPrefix, ha, hb, bind, Except.bind]; rfl, ?_⟩
    have := (Spells.lexeme orKeyword_lexeme).blank (hsa.blank hsb.space)
    simpa [Expr.prefixWords] using this

theorem postfix_spells (hT : Tidy F H V) (e : Expr S) (he : e.Over H V) :
    ∃ s, e.toPostfix V = .ok s ∧ Spells s (e.postfixWords V) := by
  induction e with
  | prop p => exact Proposition.spells V p (Proposition.Over.within he) (Tidy.lexemes hT p he)
  | conj l r ihl ihr =>
    obtain ⟨a, ha, hsa⟩ := ihl he.1
    obtain ⟨b, hb, hsb⟩ := ihr he.2
    refine ⟨_, by simp only [Expr.toPostfix, ha, hb, bind, Except.bind]; rfl, ?_⟩
    have := hsa.blank (hsb.blank (Spells.lexeme andKeyword_lexeme).space)
    simpa [Expr.postfixWords] using this
  | disj l r ihl ihr =>
    obtain ⟨a, ha, hsa⟩ := ihl he.1
    obtain ⟨b, hb, hsb⟩ := ihr he.2
    refine ⟨_, by simp only [Expr.toPostfix, ha, hb, bind, Except.bind]; rfl, ?_⟩
    have := hsa.blank (hsb.blank (Spells.lexeme orKeyword_lexeme).space)
    simpa [Expr.postfixWords] using this

/-- the keywords `and` and `or` name no variable of a tidy engine -/
theorem Tidy.keyword (hT : Tidy F H V) (k : Str) (el : Element S) (hk : F k = some el) : V.find k = none := by
  have hnot : k ∉ V.names := by
    intro hm
    have := (hT.usable k hm).2.1
    rw [hk] at this; cases this
  unfold Vocabulary.names at hnot
  rw [List.mem_append, not_or] at hnot
  have h1 : V.inputs.findIdx? (fun p => p.1 == k) = none := by
    rw [List.findIdx?_eq_none_iff]
    intro p hp
    simp only [beq_eq_false_iff_ne, ne_eq]
    intro hpk
    exact hnot.1 (hpk ▸ List.mem_map_of_mem hp)
  have h2 : V.outputs.findIdx? (fun p => p.1 == k) = none := by
    rw [List.findIdx?_eq_none_iff]
    intro p hp
    simp only [beq_eq_false_iff_ne, ne_eq]
    intro hpk
    exact hnot.2 (hpk ▸ List.mem_map_of_mem hp)
  simp [Vocabulary.find, h1, Vocabulary.findOutput, h2]

theorem postfix_serial (hc : Connectives F) (hT : Tidy F H V) (e : Expr S) (he : e.Over H V) :
    Serial H V e (e.postfixWords V) := by
  obtain ⟨a, o, ha, ho, _⟩ := hc
  induction e with
  | prop p => exact .prop p _ (Tidy.proposition hT p he).1
  | conj l r ihl ihr => exact .conj l r _ _ (ihl he.1) (ihr he.2) (Tidy.keyword hT _ a ha)
  | disj l r ihl ihr => exact .disj l r _ _ (ihl he.1) (ihr he.2) (Tidy.keyword hT _ o ho)

/-- **C81.**  The postfix text of a tree is the postfix form the loader works on: the loader makes the same
tree of it. -/
theorem postfix_faithful_partial (hc : Connectives F) (hT : Tidy F H V) (e : Expr S) (he : e.Over H V) :
    ∃ s, toPostfix V (some e) = .ok s ∧ build H V (Op.words s) = .ok e := by
  obtain ⟨s, hs, hw⟩ := postfix_spells hT e he
  refine ⟨s, hs, ?_⟩
  rw [hw.1, build_ok_iff]
  exact postfix_serial hc hT e he

/-- the words of propositions are told apart from the left -/
theorem Tidy.propositions (hT : Tidy F H V) (p q : Proposition S) (hp : p.Over H V) (hq : q.Over H V)
    (xs ys : List Str) (h : p.tokens V ++ xs = q.tokens V ++ ys) : p = q ∧ xs = ys := by
  have hwp := (Tidy.proposition hT p hp).1
  have hwq := (Tidy.proposition hT q hq).1
  generalize p.tokens V = ts at hwp h
  generalize q.tokens V = us at hwq h
  clear hp hq
  have key : ∀ (ns ms : List Str) (hs ks : List (Hedge S)) (t u : Str) (xs ys : List Str),
      Plain H ns hs → Plain H ms ks → (∀ a, H t = some a → a.isAny = true) → (∀ a, H u = some a → a.isAny = true) →
      ns ++ t :: xs = ms ++ u :: ys → hs = ks ∧ t = u ∧ xs = ys := by
    intro ns
    induction ns with
    | nil =>
      intro ms hs ks t u xs ys h1 h2 ht hu h
      cases h1
      cases h2 with
      | nil => simpa using h
      | cons hm hms =>
        simp only [List.nil_append, List.cons_append, List.cons.injEq] at h
        obtain ⟨rfl, -⟩ := h
        have := ht _ hm.1
        rw [hm.2] at this; cases this
    | cons n ns ih =>
      intro ms hs ks t u xs ys h1 h2 ht hu h
      cases h1 with
      | cons hn hns =>
      cases h2 with
      | nil =>
        simp only [List.nil_append, List.cons_append, List.cons.injEq] at h
        obtain ⟨rfl, -⟩ := h
        have := hu _ hn.1
        rw [hn.2] at this; cases this
      | cons hm hms =>
        simp only [List.cons_append, List.cons.injEq] at h
        obtain ⟨rfl, h⟩ := h
        obtain ⟨rfl, rfl, rfl⟩ := ih _ _ _ _ _ _ _ hns hms ht hu h
        have := hn.1.symm.trans hm.1
        simp only [Option.some.injEq] at this
        exact ⟨by rw [this], rfl, rfl⟩
  cases hwp with
  | term x v ns hs t j hx hh ht hj =>
    cases hwq with
    | term x' v' ns' hs' t' j' hx' hh' ht' hj' =>
      simp only [List.cons_append, List.append_assoc, List.cons.injEq, true_and, List.nil_append] at h
      obtain ⟨rfl, h⟩ := h
      obtain ⟨rfl, rfl, rfl⟩ := key _ _ _ _ _ _ _ _ hh hh' (by simp [ht]) (by simp [ht']) h
      rw [hx] at hx'
      simp only [Option.some.injEq] at hx'
      subst hx'
      rw [hj] at hj'
      simp only [Option.some.injEq] at hj'
      exact ⟨by rw [hj'], rfl⟩
    | any x' v' ns' hs' n' a' hx' hh' hn' ha' =>
      simp only [List.cons_append, List.append_assoc, List.cons.injEq, true_and, List.nil_append] at h
      obtain ⟨rfl, h⟩ := h
      obtain ⟨rfl, rfl, rfl⟩ := key _ _ _ _ _ _ _ _ hh hh' (by simp [ht]) (by simp [hn', ha']) h
      rw [ht] at hn'; cases hn'
  | any x v ns hs n a hx hh hn ha =>
    cases hwq with
    | term x' v' ns' hs' t' j' hx' hh' ht' hj' =>
      simp only [List.cons_append, List.append_assoc, List.cons.injEq, true_and, List.nil_append] at h
      obtain ⟨rfl, h⟩ := h
      obtain ⟨rfl, rfl, rfl⟩ := key _ _ _ _ _ _ _ _ hh hh' (by simp [hn, ha]) (by simp [ht']) h
      rw [hn] at ht'; cases ht'
    | any x' v' ns' hs' n' a' hx' hh' hn' ha' =>
      simp only [List.cons_append, List.append_assoc, List.cons.injEq, true_and, List.nil_append] at h
      obtain ⟨rfl, h⟩ := h
      obtain ⟨rfl, rfl, rfl⟩ := key _ _ _ _ _ _ _ _ hh hh' (by simp [hn, ha]) (by simp [hn', ha']) h
      rw [hx] at hx'
      simp only [Option.some.injEq] at hx'
      rw [hn] at hn'
      simp only [Option.some.injEq] at hn'
      exact ⟨by rw [hx', hn'], rfl⟩

/-- the first word of a proposition names a variable, so it is not a keyword -/
theorem Tidy.first (hT : Tidy F H V) (p : Proposition S) (hp : p.Over H V) (k : Str) (el : Element S) (hk : F k = some el)
    (xs ys : List Str) : p.tokens V ++ xs ≠ k :: ys := by
  intro h
  have hw := (Tidy.proposition hT p hp).2
  have : p.tokens V ≠ [] := (Tidy.proposition hT p hp).1.ne_nil
  obtain ⟨t, ts, hts⟩ := List.exists_cons_of_ne_nil this
  rw [hts] at h hw
  simp only [List.cons_append, List.cons.injEq] at h
  have := (hw t (by simp)).2.1
  rw [h.1, hk] at this; cases this

theorem prefix_apart (hc : Connectives F) (hT : Tidy F H V) (e : Expr S) : ∀ (e' : Expr S), e.Over H V → e'.Over H V →
    ∀ xs ys : List Str, e.prefixWords V ++ xs = e'.prefixWords V ++ ys → e = e' ∧ xs = ys := by
  obtain ⟨a, o, ha, ho, _⟩ := hc
  have hne : andKeyword ≠ orKeyword := by decide
  induction e with
  | prop p =>
    intro e' he he' xs ys h
    cases e' with
    | prop q =>
      obtain ⟨rfl, rfl⟩ := Tidy.propositions hT p q he he' xs ys h
      exact ⟨rfl, rfl⟩
    | conj l r => exact absurd h (Tidy.first hT p he _ a ha _ _)
    | disj l r => exact absurd h (Tidy.first hT p he _ o ho _ _)
  | conj l r ihl ihr =>
    intro e' he he' xs ys h
    cases e' with
    | prop q => exact absurd h.symm (Tidy.first hT q he' _ a ha _ _)
    | conj l' r' =>
      simp only [Expr.prefixWords, List.cons_append, List.append_assoc, List.cons.injEq, true_and] at h
      obtain ⟨rfl, h'⟩ := ihl l' he.1 he'.1 _ _ h
      obtain ⟨rfl, rfl⟩ := ihr r' he.2 he'.2 _ _ h'
      exact ⟨rfl, rfl⟩
    | disj l' r' =>
      simp only [Expr.prefixWords, List.cons_append, List.cons.injEq] at h
      exact absurd h.1 hne
  | disj l r ihl ihr =>
    intro e' he he' xs ys h
    cases e' with
    | prop q => exact absurd h.symm (Tidy.first hT q he' _ o ho _ _)
    | conj l' r' =>
      simp only [Expr.prefixWords, List.cons_append, List.cons.injEq] at h
      exact absurd h.1.symm hne
    | disj l' r' =>
      simp only [Expr.prefixWords, List.cons_append, List.append_assoc, List.cons.injEq, true_and] at h
      obtain ⟨rfl, h'⟩ := ihl l' he.1 he'.1 _ _ h
      obtain ⟨rfl, rfl⟩ := ihr r' he.2 he'.2 _ _ h'
      exact ⟨rfl, rfl⟩

/-- **C81.**  The prefix text of a tree is its words in prefix order, and different trees have different
prefix texts, even if only the words are compared. -/
theorem prefix_faithful_partial (hc : Connectives F) (hT : Tidy F H V) (e e' : Expr S) (he : e.Over H V)
    (he' : e'.Over H V) : ∃ s s', toPrefix V (some e) = .ok s ∧ toPrefix V (some e') = .ok s' ∧
      Op.words s = e.prefixWords V ∧ (Op.words s = Op.words s' → e = e') := by
  obtain ⟨s, hs, hw⟩ := prefix_spells hT e he
  obtain ⟨s', hs', hw'⟩ := prefix_spells hT e' he'
  refine ⟨s, s', hs, hs', hw.1, fun h => ?_⟩
  rw [hw.1, hw'.1] at h
  exact (prefix_apart hc hT e e' he he' [] [] (by simpa using h)).1

/-! ### The infix text -/

/-- a tree written without parentheses at a level -/
def Bare : Nat → Expr S → Prop
  | _, .prop _ => True
  | n, .conj l r => n ≤ 1 ∧ Bare 1 l ∧ Bare 2 r
  | n, .disj l r => n = 0 ∧ Bare 0 l ∧ Bare 1 r

theorem Bare.tokens {n : Nat} {e : Expr S} (h : Bare n e) : e.tokens V n = e.infixWords V := by
  induction e generalizing n with
  | prop p => rfl
  | conj l r ihl ihr =>
    obtain ⟨hn, hl, hr⟩ := h
    simp only [Expr.tokens, if_pos hn, ihl hl, ihr hr, Expr.infixWords]
  | disj l r ihl ihr =>
    obtain ⟨hn, hl, hr⟩ := h
    simp only [Expr.tokens, if_pos hn, ihl hl, ihr hr, Expr.infixWords]

theorem bare_iff (hT : Tidy F H V) (e : Expr S) (he : e.Over H V) (n : Nat) :
    Bare n e ↔ cs! "(" ∉ e.tokens V n := by
  induction e generalizing n with
  | prop p =>
    simp only [Bare, Expr.tokens, true_iff]
    exact fun h => ((Tidy.proposition hT p he).2 _ h).2.2.1 rfl
  | conj l r ihl ihr =>
    have : cs! "(" ≠ andKeyword := by decide
    by_cases hn : n ≤ 1
    · simp only [Bare, hn, true_and, ihl he.1, ihr he.2, Expr.tokens, if_true, List.mem_append, List.mem_cons, not_or,
        not_false_eq_true, this]
    · simp [Bare, hn, Expr.tokens]
  | disj l r ihl ihr =>
    have : cs! "(" ≠ orKeyword := by decide
    by_cases hn : n = 0
    · simp only [Bare, hn, true_and, ihl he.1, ihr he.2, Expr.tokens, if_true, List.mem_append, List.mem_cons, not_or,
        not_false_eq_true, this]
    · simp [Bare, hn, Expr.tokens]

/-- the words without the parentheses -/
theorem infixWords_filter (hT : Tidy F H V) (e : Expr S) (he : e.Over H V) (n : Nat) :
    (e.tokens V n).filter (fun t => t ≠ cs! "(" && t ≠ cs! ")") = e.infixWords V := by
  induction e generalizing n with
  | prop p =>
    simp only [Expr.tokens, Expr.infixWords]
    rw [List.filter_eq_self]
    intro t ht
    have := ((Tidy.proposition hT p he).2 t ht).2
    simp [this.2.1, this.2.2.1]
  | conj l r ihl ihr =>
    simp only [Expr.tokens, Expr.infixWords]
    split <;> simp [List.filter_cons, ← ihl he.1 1, ← ihr he.2 2, andKeyword]
  | disj l r ihl ihr =>
    simp only [Expr.tokens, Expr.infixWords]
    split <;> simp [List.filter_cons, ← ihl he.1 0, ← ihr he.2 1, orKeyword]

/-- trees written without parentheses can be joined by `and` -/
theorem glue (r : Expr S) : ∀ l : Expr S, l.Over H V → r.Over H V → Bare 0 l → Bare 0 r →
    ∃ e : Expr S, e.Over H V ∧ Bare 0 e ∧ e.infixWords V = l.infixWords V ++ andKeyword :: r.infixWords V ∧
      e.leaves = l.leaves ++ r.leaves ∧ (l.AndOnly → r.AndOnly → e.AndOnly) := by
  have weak : ∀ e : Expr S, Bare 2 e → Bare 1 e := by
    intro e h; cases e with
    | prop p => trivial
    | conj l r => exact absurd h.1 (by omega)
    | disj l r => exact absurd h.1 (by omega)
  have weak0 : ∀ e : Expr S, Bare 1 e → Bare 0 e := by
    intro e h; cases e with
    | prop p => trivial
    | conj l r => exact ⟨by omega, h.2⟩
    | disj l r => exact absurd h.1 (by omega)
  -- a single operand
  have one : ∀ (p l : Expr S), Bare 2 p → p.Over H V → l.Over H V → Bare 0 l →
      ∃ e : Expr S, e.Over H V ∧ Bare 0 e ∧ e.infixWords V = l.infixWords V ++ andKeyword :: p.infixWords V ∧
        e.leaves = l.leaves ++ p.leaves ∧ (l.AndOnly → p.AndOnly → e.AndOnly) := by
    intro p l hp hpo hlo hl
    cases l with
    | prop q => exact ⟨.conj (.prop q) p, ⟨hlo, hpo⟩, ⟨by omega, trivial, hp⟩, rfl, rfl, fun h1 h2 => ⟨h1, h2⟩⟩
    | conj x y =>
      exact ⟨.conj (.conj x y) p, ⟨hlo, hpo⟩, ⟨by omega, ⟨by omega, hl.2⟩, hp⟩, rfl, rfl, fun h1 h2 => ⟨h1, h2⟩⟩
    | disj x y =>
      exact ⟨.disj x (.conj y p), ⟨hlo.1, hlo.2, hpo⟩, ⟨rfl, hl.2.1, by omega, hl.2.2, hp⟩, by simp [Expr.infixWords],
        by simp [Expr.leaves], fun h => h.elim⟩
  induction r with
  | prop p => intro l hlo hro hl _; exact one (.prop p) l trivial hro hlo hl
  | conj x y ihx ihy =>
    intro l hlo hro hl hr
    obtain ⟨g, hg, hgb, hgw, hgl, hga⟩ := ihx l hlo hro.1 hl (weak0 _ hr.2.1)
    obtain ⟨e, he, heb, hew, hel, hea⟩ := one y g hr.2.2 hro.2 hg hgb
    exact ⟨e, he, heb, by rw [hew, hgw]; simp [Expr.infixWords], by rw [hel, hgl]; simp [Expr.leaves],
      fun h1 h2 => hea (hga h1 h2.1) h2.2⟩
  | disj x y ihx ihy =>
    intro l hlo hro hl hr
    obtain ⟨g, hg, hgb, hgw, hgl, hga⟩ := ihx l hlo hro.1 hl hr.2.1
    exact ⟨.disj g y, ⟨hg, hro.2⟩, ⟨rfl, hgb, hr.2.2⟩, by simp [Expr.infixWords, hgw], by simp [Expr.leaves, hgl],
      fun _ h => h.elim⟩

/-- trees written without parentheses can be joined by `or` -/
theorem glueOr (r : Expr S) : ∀ l : Expr S, l.Over H V → r.Over H V → Bare 0 l → Bare 0 r →
    ∃ e : Expr S, e.Over H V ∧ Bare 0 e ∧ e.infixWords V = l.infixWords V ++ orKeyword :: r.infixWords V ∧
      e.leaves = l.leaves ++ r.leaves ∧ (l.OrOnly → r.OrOnly → e.OrOnly) := by
  induction r with
  | prop p =>
    intro l hlo hro hl _
    exact ⟨.disj l (.prop p), ⟨hlo, hro⟩, ⟨rfl, hl, trivial⟩, rfl, rfl, fun h1 h2 => ⟨h1, h2⟩⟩
  | conj x y _ _ =>
    intro l hlo hro hl hr
    exact ⟨.disj l (.conj x y), ⟨hlo, hro⟩, ⟨rfl, hl, by omega, hr.2⟩, rfl, rfl, fun _ h => h.elim⟩
  | disj x y ihx ihy =>
    intro l hlo hro hl hr
    obtain ⟨g, hg, hgb, hgw, hgl, hga⟩ := ihx l hlo hro.1 hl hr.2.1
    exact ⟨.disj g y, ⟨hg, hro.2⟩, ⟨rfl, hgb, hr.2.2⟩, by simp [Expr.infixWords, hgw], by simp [Expr.leaves, hgl],
      fun h1 h2 => ⟨hga h1 h2.1, h2.2⟩⟩

theorem regroup (e : Expr S) (he : e.Over H V) :
    ∃ e' : Expr S, e'.Over H V ∧ Bare 0 e' ∧ e'.infixWords V = e.infixWords V ∧ e'.leaves = e.leaves ∧
      (e.AndOnly → e'.AndOnly) ∧ (e.OrOnly → e'.OrOnly) := by
  induction e with
  | prop p => exact ⟨.prop p, he, trivial, rfl, rfl, id, id⟩
  | conj l r ihl ihr =>
    obtain ⟨l', hl, hlb, hlw, hll, hla, _⟩ := ihl he.1
    obtain ⟨r', hr, hrb, hrw, hrl, hra, _⟩ := ihr he.2
    obtain ⟨e, h1, h2, h3, h4, h5⟩ := glue r' l' hl hr hlb hrb
    exact ⟨e, h1, h2, by rw [h3, hlw, hrw]; rfl, by rw [h4, hll, hrl]; rfl, fun h => h5 (hla h.1) (hra h.2),
      fun h => h.elim⟩
  | disj l r ihl ihr =>
    obtain ⟨l', hl, hlb, hlw, hll, _, hla⟩ := ihl he.1
    obtain ⟨r', hr, hrb, hrw, hrl, _, hra⟩ := ihr he.2
    obtain ⟨e, h1, h2, h3, h4, h5⟩ := glueOr r' l' hl hr hlb hrb
    exact ⟨e, h1, h2, by rw [h3, hlw, hrw]; rfl, by rw [h4, hll, hrl]; rfl, fun h => h.elim,
      fun h => h5 (hla h.1) (hra h.2)⟩

theorem load_bare (hF : Coherent F) (hc : Connectives F) (hT : Tidy F H V) (e : Expr S) (he : e.Over H V)
    (hb : Bare 0 e) (s : Str) (hs : Formula.tokens s = e.infixWords V) : load F H V s = .ok e := by
  obtain ⟨a, o, ha, ho, _⟩ := id hc
  refine load_infix_partial F hF hc H V (Tidy.keyword hT _ a ha) (Tidy.keyword hT _ o ho) 0 e _
    (Tidy.tokens hT e he 0 (by omega)).1 s ?_
  rw [hs, hb.tokens]

/-- **C81.**  What the text of an antecedent says.  It is the text with the necessary parentheses less the
parentheses, and it loads: into the tree for which that text needs no parentheses. -/
theorem infix_reload_partial (hF : Coherent F) (hc : Connectives F) (hT : Tidy F H V) (e : Expr S) (he : e.Over H V) :
    ∃ s e', toString V (some e) = .ok s ∧
      Formula.tokens s = (e.tokens V 0).filter (fun t => t ≠ cs! "(" && t ≠ cs! ")") ∧
      load F H V s = .ok e' ∧ e'.Over H V ∧ e'.tokens V 0 = Formula.tokens s ∧ e'.leaves = e.leaves := by
  obtain ⟨s, hs, hw⟩ := infix_spells hT e he
  obtain ⟨e', he', hb, hew, hlv, hand, hor⟩ := regroup e he
  refine ⟨s, e', hs, ?_, load_bare hF hc hT e' he' hb s (by rw [hw.2, hew]), he', ?_⟩
  · rw [hw.2, infixWords_filter hT e he]
  · exact ⟨by rw [hb.tokens, hew, hw.2], hlv⟩

/-- **C81.**  The text of an antecedent loads into the same antecedent exactly when no parentheses are
necessary. -/
theorem infix_faithful_iff (hF : Coherent F) (hc : Connectives F) (hT : Tidy F H V) (e : Expr S) (he : e.Over H V) :
    ∃ s, toString V (some e) = .ok s ∧ (load F H V s = .ok e ↔ cs! "(" ∉ e.tokens V 0) := by
  obtain ⟨s, hs, hw⟩ := infix_spells hT e he
  obtain ⟨e', he', hb, hew, hlv, hand, hor⟩ := regroup e he
  have hl := load_bare hF hc hT e' he' hb s (by rw [hw.2, hew])
  refine ⟨s, hs, ?_⟩
  rw [← bare_iff hT e he]
  constructor
  · intro h
    rw [hl] at h
    simp only [Except.ok.injEq] at h
    exact h ▸ hb
  · intro h
    exact load_bare hF hc hT e he h s hw.2

/-! ### The degree of what is loaded from the text -/

/-- values of an operation that is associative on them, put together from the left -/
theorem foldl_assoc {A : Type} (P : A → Prop) (k : A → A → A) (hP : ∀ a b, P a → P b → P (k a b))
    (hk : ∀ a b c, P a → P b → P c → k (k a b) c = k a (k b c)) (ys : List A) :
    ∀ x y, P x → P y → (∀ z ∈ ys, P z) → k x (ys.foldl k y) = (y :: ys).foldl k x := by
  induction ys with
  | nil => intros; rfl
  | cons z zs ih =>
    intro x y hx hy hz
    have hz0 := hz z (by simp)
    have hzs : ∀ w ∈ zs, P w := fun w hw => hz w (List.mem_cons_of_mem _ hw)
    simp only [List.foldl_cons] at ih ⊢
    rw [ih x (k y z) hx (hP _ _ hy hz0) hzs, hk x y z hx hy hz0]

theorem foldl_closed {A : Type} (P : A → Prop) (k : A → A → A) (hP : ∀ a b, P a → P b → P (k a b)) (ys : List A) :
    ∀ x, P x → (∀ z ∈ ys, P z) → P (ys.foldl k x) := by
  induction ys with
  | nil => intro x hx _; exact hx
  | cons z zs ih =>
    intro x hx hz
    exact ih _ (hP _ _ hx (hz z (by simp))) fun w hw => hz w (List.mem_cons_of_mem _ hw)

section degrees
variable [Scalar S] (P : S → Prop) (k : S → S → S) (hP : ∀ a b, P a → P b → P (k a b))
  (hk : ∀ a b c, P a → P b → P c → k (k a b) c = k a (k b c)) (f : Proposition S → S) (w : World S)
  (c : Option (TNorm S)) (d : Option (SNorm S))
include hP hk

theorem degree_and (hc : ∃ T, c = some T ∧ ∀ a b, P a → P b → T.compute a b = .ok (k a b)) (e : Expr S) (ha : e.AndOnly)
    (hf : ∀ p ∈ e.leaves, p.degree w = .ok (f p) ∧ P (f p)) :
    ∃ p ps, e.leaves = p :: ps ∧ e.degree w c d = .ok ((ps.map f).foldl k (f p)) := by
  obtain ⟨T, rfl, hT⟩ := hc
  induction e with
  | prop p => exact ⟨p, [], rfl, (hf p (by simp [Expr.leaves])).1⟩
  | conj l r ihl ihr =>
    obtain ⟨p, ps, hl, hld⟩ := ihl ha.1 fun q hq => hf q (by simp [Expr.leaves, hq])
    obtain ⟨q, qs, hr, hrd⟩ := ihr ha.2 fun q hq => hf q (by simp [Expr.leaves, hq])
    have hPl : P ((ps.map f).foldl k (f p)) := foldl_closed P k hP _ _ (hf p (by simp [Expr.leaves, hl])).2 (by
      intro z hz
      obtain ⟨y, hy, rfl⟩ := List.mem_map.1 hz
      exact (hf y (by simp [Expr.leaves, hl, hy])).2)
    have hq := (hf q (by simp [Expr.leaves, hr])).2
    have hqs : ∀ z ∈ qs.map f, P z := by
      intro z hz
      obtain ⟨y, hy, rfl⟩ := List.mem_map.1 hz
      exact (hf y (by simp [Expr.leaves, hr, hy])).2
    refine ⟨p, ps ++ q :: qs, by simp [Expr.leaves, hl, hr], ?_⟩
    simp only [Expr.degree, hld, hrd, bind, Except.bind]
    rw [hT _ _ hPl (foldl_closed P k hP _ _ hq hqs), foldl_assoc P k hP hk _ _ _ hPl hq hqs]
    simp
  | disj l r => exact ha.elim

theorem degree_or (hd : ∃ T, d = some T ∧ ∀ a b, P a → P b → T.compute a b = .ok (k a b)) (e : Expr S) (ha : e.OrOnly)
    (hf : ∀ p ∈ e.leaves, p.degree w = .ok (f p) ∧ P (f p)) :
    ∃ p ps, e.leaves = p :: ps ∧ e.degree w c d = .ok ((ps.map f).foldl k (f p)) := by
  obtain ⟨T, rfl, hT⟩ := hd
  induction e with
  | prop p => exact ⟨p, [], rfl, (hf p (by simp [Expr.leaves])).1⟩
  | disj l r ihl ihr =>
    obtain ⟨p, ps, hl, hld⟩ := ihl ha.1 fun q hq => hf q (by simp [Expr.leaves, hq])
    obtain ⟨q, qs, hr, hrd⟩ := ihr ha.2 fun q hq => hf q (by simp [Expr.leaves, hq])
    have hPl : P ((ps.map f).foldl k (f p)) := foldl_closed P k hP _ _ (hf p (by simp [Expr.leaves, hl])).2 (by
      intro z hz
      obtain ⟨y, hy, rfl⟩ := List.mem_map.1 hz
      exact (hf y (by simp [Expr.leaves, hl, hy])).2)
    have hq := (hf q (by simp [Expr.leaves, hr])).2
    have hqs : ∀ z ∈ qs.map f, P z := by
      intro z hz
      obtain ⟨y, hy, rfl⟩ := List.mem_map.1 hz
      exact (hf y (by simp [Expr.leaves, hr, hy])).2
    refine ⟨p, ps ++ q :: qs, by simp [Expr.leaves, hl, hr], ?_⟩
    simp only [Expr.degree, hld, hrd, bind, Except.bind]
    rw [hT _ _ hPl (foldl_closed P k hP _ _ hq hqs), foldl_assoc P k hP hk _ _ _ hPl hq hqs]
    simp
  | conj l r => exact ha.elim

/-- **C81.**  An antecedent with one kind of operator has the degree of what is loaded from its text, if
the operator is associative on the degrees of the propositions. -/
theorem infix_degree_partial (hF : Coherent F) (hc : Connectives F) (hT : Tidy F H V) (e : Expr S) (he : e.Over H V)
    (hf : ∀ p ∈ e.leaves, p.degree w = .ok (f p) ∧ P (f p))
    (hop : (e.AndOnly ∧ ∃ T, c = some T ∧ ∀ a b, P a → P b → T.compute a b = .ok (k a b)) ∨
      (e.OrOnly ∧ ∃ T, d = some T ∧ ∀ a b, P a → P b → T.compute a b = .ok (k a b))) :
    ∃ s e', toString V (some e) = .ok s ∧ load F H V s = .ok e' ∧ e'.degree w c d = e.degree w c d := by
  obtain ⟨s, hs, hw⟩ := infix_spells hT e he
  obtain ⟨e', he', hb, hew, hlv, hand, hor⟩ := regroup e he
  refine ⟨s, e', hs, load_bare hF hc hT e' he' hb s (by rw [hw.2, hew]), ?_⟩
  have hf' : ∀ p ∈ e'.leaves, p.degree w = .ok (f p) ∧ P (f p) := by rw [hlv]; exact hf
  rcases hop with ⟨ha, hop⟩ | ⟨ha, hop⟩
  · obtain ⟨p, ps, h1, h2⟩ := degree_and P k hP hk f w c d hop e ha hf
    obtain ⟨q, qs, h3, h4⟩ := degree_and P k hP hk f w c d hop e' (hand ha) hf'
    rw [hlv, h1] at h3
    simp only [List.cons.injEq] at h3
    rw [h2, h4, h3.1, h3.2]
  · obtain ⟨p, ps, h1, h2⟩ := degree_or P k hP hk f w c d hop e ha hf
    obtain ⟨q, qs, h3, h4⟩ := degree_or P k hP hk f w c d hop e' (hor ha) hf'
    rw [hlv, h1] at h3
    simp only [List.cons.injEq] at h3
    rw [h2, h4, h3.1, h3.2]

end degrees

/-- **C81.**  The same for the built-in operators other than the Hamacher ones, over truth degrees. -/
theorem infix_degree_builtin_partial [Tol ℝ] {F : ElementFactory (Ext ℝ)} {H : HedgeFactory (Ext ℝ)} (hF : Coherent F)
    (hc : Connectives F) (hT : Tidy F H V) (e : Expr (Ext ℝ)) (he : e.Over H V) (w : World (Ext ℝ)) (c : TNormKind)
    (hch : c ≠ .hamacherProduct) (d : SNormKind) (hdh : d ≠ .hamacherSum) (hdu : d ≠ .unboundedSum)
    (hop : e.AndOnly ∨ e.OrOnly)
    (hf : ∀ p ∈ e.leaves, ∃ x : ℝ, p.degree w = .ok (.fin x) ∧ 0 ≤ x ∧ x ≤ 1) :
    ∃ s e', toString V (some e) = .ok s ∧ load F H V s = .ok e' ∧
      e'.degree w (some (.builtin c)) (some (.builtin d)) = e.degree w (some (.builtin c)) (some (.builtin d)) := by
  classical
  let P : Ext ℝ → Prop := fun a => ∃ x : ℝ, a = .fin x ∧ 0 ≤ x ∧ x ≤ 1
  let f : Proposition (Ext ℝ) → Ext ℝ := fun p => match p.degree w with
    | .ok x => x
    | .error _ => .nan
  have hf' : ∀ p ∈ e.leaves, p.degree w = .ok (f p) ∧ P (f p) := by
    intro p hp
    obtain ⟨x, hx, h0, h1⟩ := hf p hp
    simp only [f, hx]
    exact ⟨trivial, x, rfl, h0, h1⟩
  rcases hop with ha | ha
  · refine infix_degree_partial P c.compute ?_ ?_ f w _ _ hF hc hT e he hf' (.inl ⟨ha, _, rfl, fun _ _ _ _ => rfl⟩)
    · rintro _ _ ⟨x, rfl, hx0, hx1⟩ ⟨y, rfl, hy0, hy1⟩
      obtain ⟨⟨r, hr, h0, h1, _⟩, _⟩ := tnorm_range_comm c x y hx0 hx1 hy0 hy1
      exact ⟨r, hr, h0, h1.trans hx1⟩
    · rintro _ _ _ ⟨x, rfl, hx0, hx1⟩ ⟨y, rfl, hy0, hy1⟩ ⟨z, rfl, hz0, hz1⟩
      exact tnorm_associative_partial c hch x y z hx0 hx1 hy0 hy1 hz0 hz1
  · refine infix_degree_partial P d.compute ?_ ?_ f w _ _ hF hc hT e he hf' (.inr ⟨ha, _, rfl, fun _ _ _ _ => rfl⟩)
    · rintro _ _ ⟨x, rfl, hx0, hx1⟩ ⟨y, rfl, hy0, hy1⟩
      obtain ⟨r, hr, h0, _, h1⟩ := (snorm_range_comm d x y hx0 hx1 hy0 hy1).1 hdu
      exact ⟨r, hr, hx0.trans h0, h1⟩
    · rintro _ _ _ ⟨x, rfl, hx0, hx1⟩ ⟨y, rfl, hy0, hy1⟩ ⟨z, rfl, hz0, hz1⟩
      exact snorm_associative_partial d hdh x y z hx0 hx1 hy0 hy1 hz0 hz1

/-! ### What was loaded can be written -/

theorem find_within (x : Str) (v : VarRef) :
    V.find x = some v → match v with | .input i => i < V.inputs.length | .output i => i < V.outputs.length := by
  intro h
  unfold Vocabulary.find at h
  split at h
  · rename_i i hi
    simp only [Option.some.injEq] at h
    subst h
    exact (List.findIdx?_eq_some_iff_getElem.1 hi).1
  · unfold Vocabulary.findOutput at h
    rw [Option.map_eq_some_iff] at h
    obtain ⟨i, hi, rfl⟩ := h
    exact (List.findIdx?_eq_some_iff_getElem.1 hi).1

theorem findTerm_within (v : VarRef) (t : Str) (j : Nat) (h : V.findTerm v t = some j) : j < (V.terms v).length :=
  (List.findIdx?_eq_some_iff_getElem.1 h).1

theorem Plain.names (hH : ∀ n h, H n = some h → h.name = n) {ns : List Str} {hs : List (Hedge S)} (h : Plain H ns hs) :
    ∀ a ∈ hs, H a.name = some a ∧ a.isAny = false := by
  unfold Plain at h
  induction h with
  | nil => simp
  | cons h1 _ ih =>
    intro a ha
    rw [List.mem_cons] at ha
    rcases ha with rfl | ha
    · exact ⟨by rw [hH _ _ h1.1]; exact h1.1, h1.2⟩
    · exact ih a ha

/-- **C81.**  Every antecedent the loader makes is over the variables, hedges and terms of the engine, if
every hedge is registered under its own name: the theorems about the texts apply to it. -/
theorem load_over (hH : ∀ n h, H n = some h → h.name = n) (text : Str) (e : Expr S) (h : load F H V text = .ok e) :
    e.Over H V := by
  rw [load_ok_iff] at h
  obtain ⟨q, hq, hs⟩ := h
  clear hq
  induction hs with
  | prop p ts hw =>
    cases hw with
    | term x v ns hs t j hx hh ht hj =>
      exact ⟨find_within x v hx, fun a ha => (Plain.names hH hh a ha).1, findTerm_within v t j hj,
        fun a ha => (Plain.names hH hh a ha).2⟩
    | any x v ns hs n a hx hh hn ha =>
      refine ⟨find_within x v hx, ?_, hs, a, rfl, ha, fun b hb => (Plain.names hH hh b hb).2⟩
      intro b hb
      simp only [List.mem_append, List.mem_singleton] at hb
      rcases hb with hb | rfl
      · exact (Plain.names hH hh b hb).1
      · rw [hH _ _ hn]; exact hn
  | conj l r s t _ _ _ ihl ihr => exact ⟨ihl, ihr⟩
  | disj l r s t _ _ _ ihl ihr => exact ⟨ihl, ihr⟩

/-- the shipped hedges are registered under their own names -/
theorem default_named [Scalar S] (n : Str) (h : Hedge S) (hn : defaultHedges n = some h) : h.name = n := by
  obtain ⟨k, rfl, rfl⟩ := defaultHedges_mem n h hn
  rfl

/-- **C81.**  With the shipped registries: the text of what was loaded from a text loads into the same
antecedent exactly when that antecedent needs no parentheses, and its text does not change when it is
written, loaded and written again but for blanks. -/
theorem text_again_partial [Scalar S] (hT : Tidy (defaultFactory : ElementFactory S) defaultHedges V) (text : Str) (e : Expr S)
    (h : load defaultFactory defaultHedges V text = .ok e) :
    ∃ (s : Str) (e' : Expr S) (s' : Str), toString V (some e) = .ok s ∧ (load (S := S) defaultFactory defaultHedges V s = .ok e ↔ cs! "(" ∉ e.tokens V 0) ∧
      load (S := S) defaultFactory defaultHedges V s = .ok e' ∧ toString V (some e') = .ok s' ∧ Op.words s' = Op.words s ∧
      load (S := S) defaultFactory defaultHedges V s' = .ok e' := by
  have he := load_over default_named text e h
  obtain ⟨s, hs, hw⟩ := infix_spells hT e he
  obtain ⟨e', he', hb, hew, _⟩ := regroup e he
  obtain ⟨s', hs', hw'⟩ := infix_spells hT e' he'
  obtain ⟨s2, hs2, hiff⟩ := infix_faithful_iff default_coherent default_connectives hT e he
  have : s2 = s := by
    have := hs2.symm.trans (show toString V (some e) = .ok s from hs)
    simpa using this
  subst this
  exact ⟨s2, e', s', hs, hiff, load_bare default_coherent default_connectives hT e' he' hb s2 (by rw [hw.2, hew]),
    hs', by rw [hw'.1, hw.1, hew], load_bare default_coherent default_connectives hT e' he' hb s' hw'.2⟩

/-- **C81.**  An antecedent that is not loaded has no text. -/
theorem unloaded_refused : toString V (none : Option (Expr S)) = .error .notLoaded ∧
    toInfix V (none : Option (Expr S)) = .error .notLoaded ∧ toPrefix V (none : Option (Expr S)) = .error .notLoaded ∧
    toPostfix V (none : Option (Expr S)) = .error .notLoaded := ⟨rfl, rfl, rfl, rfl⟩

end Antecedent

/-! ### Consequents -/

namespace Consequent
variable {F : ElementFactory S} {H : HedgeFactory S} {V : Vocabulary}

/-- a conclusion over the output variables, hedges and terms of the engine -/
def Over (H : HedgeFactory S) (V : Vocabulary) (p : Proposition S) : Prop :=
  ∃ i j, p.var = .output i ∧ i < V.outputs.length ∧ p.term = some j ∧ j < (V.terms p.var).length ∧
    ∀ h ∈ p.hedges, H h.name = some h

theorem Over.writes (hT : Tidy F H V) (p : Proposition S) (hp : Over H V p) :
    Writes H V p (p.tokens V) ∧ p.Within V ∧ ∀ t ∈ p.tokens V, Lexeme t := by
  obtain ⟨v, hs, term⟩ := p
  obtain ⟨i, j, rfl, hi, rfl, hj, hh⟩ := hp
  have hf := Antecedent.Tidy.find hT (.output i) hi
  have hj' : (V.terms (.output i))[j]? = some (V.terms (.output i))[j] := List.getElem?_eq_getElem hj
  have hu := hT.usableTerm (.output i) _ (List.getElem_mem hj)
  have hidx : V.findTerm (.output i) (V.terms (.output i))[j] = some j := by
    have := Antecedent.findIdx_nodup id (V.terms (.output i)) (by simpa using hT.terms (.output i)) j _ hj'
    simpa [Vocabulary.findTerm] using this
  have ho : V.findOutput (V.nameOf (.output i)) = some (.output i) := by
    have hn := hT.names
    unfold Vocabulary.names at hn
    rw [List.nodup_append] at hn
    have := Antecedent.findIdx_nodup Prod.fst V.outputs hn.2.1 i _ (List.getElem?_eq_getElem hi)
    simp only [Vocabulary.nameOf, List.getElem?_eq_getElem hi, Option.map_some, Option.getD_some, Vocabulary.findOutput,
      this]
  have hf2 : List.Forall₂ (fun n h => H n = some h) (hs.map Hedge.name) hs := by
    clear hj hj' hidx hu
    induction hs with
    | nil => exact .nil
    | cons a hs ih => exact .cons (hh a (by simp)) (ih fun h hm => hh h (List.mem_cons_of_mem _ hm))
  refine ⟨⟨V.nameOf (.output i), hs.map Hedge.name, (V.terms (.output i))[j], j, ?_, ho, hf2, hu.2, rfl, hidx⟩,
    ⟨hi, hj⟩, ?_⟩
  · simp [Proposition.tokens, hj']
  · intro t ht
    simp only [Proposition.tokens, hj', Option.getD_some, List.cons_append, List.mem_cons, List.mem_append,
      List.not_mem_nil, or_false] at ht
    rcases ht with rfl | rfl | ht | rfl
    · exact (hT.usable _ hf.2).1
    · exact isKeyword_lexeme
    · obtain ⟨h, hm, rfl⟩ := List.mem_map.1 ht
      exact (hT.hedges _ _ (hh h hm)).1
    · exact hu.1.1

/-- a sentence may be continued to the left -/
theorem Sentence.cons {p : Proposition S} {ts : List Str} (h : Writes H V p ts) {ps : List (Proposition S)} {us : List Str}
    (hs : Sentence H V ps us) : Sentence H V (p :: ps) (ts ++ andKeyword :: us) := by
  induction hs with
  | one q us hq => exact .more [p] q ts us (.one p ts h) hq
  | more qs q us vs _ hq ih =>
    have := Sentence.more _ q _ _ ih hq
    simpa using this

theorem spells_sentence (hT : Tidy F H V) (ps : List (Proposition S)) (h0 : ps ≠ [])
    (h : ∀ p ∈ ps, Over H V p) : ∃ s ts, Consequent.toString V ps = .ok s ∧ Spells s ts ∧ Sentence H V ps ts := by
  induction ps with
  | nil => exact absurd rfl h0
  | cons p ps ih =>
    obtain ⟨hw, hi, hl⟩ := Over.writes hT p (h p (by simp))
    obtain ⟨a, ha, hsa⟩ := Proposition.spells V p hi hl
    cases ps with
    | nil => exact ⟨a, _, ha, hsa, .one p _ hw⟩
    | cons q ps =>
      obtain ⟨b, us, hb, hsb, hss⟩ := ih (by simp) fun r hr => h r (List.mem_cons_of_mem _ hr)
      refine ⟨_, _, by simp only [Consequent.toString, ha, hb, bind, Except.bind]; rfl, ?_, Sentence.cons hw hss⟩
      have := hsa.blank ((Spells.lexeme andKeyword_lexeme).blank hsb)
      simpa using this

/-- **C81.**  The text of a consequent loads into the same conclusions, in the same order. -/
theorem toString_faithful_partial (hT : Tidy F H V) (ps : List (Proposition S)) (h0 : ps ≠ [])
    (h : ∀ p ∈ ps, Over H V p) : ∃ s, Consequent.toString V ps = .ok s ∧ load H V s = .ok ps := by
  obtain ⟨s, ts, hs, hw, hss⟩ := spells_sentence hT ps h0 h
  exact ⟨s, hs, (load_ok_iff H V s ps).2 (hw.1 ▸ hss)⟩

end Consequent

/-! ### Violations -/

section examples
open Ext Antecedent

/-- loads a text and writes it -/
def rewrite (write : Vocabulary → Option (Expr (Ext ℚ)) → Except Err Str) (text : Str) : Option Str :=
  match load (S := Ext ℚ) defaultFactory defaultHedges demo text with
  | .ok e => match write demo (some e) with
    | .ok s => some s
    | .error _ => none
  | .error _ => none

/-- the three texts of an antecedent that needs no parentheses -/
example : rewrite Antecedent.toString (cs! "a is low and b is not very high or (o is any)")
      = some (cs! "a is low and b is not very high  or o is any  ") ∧
    rewrite Antecedent.toPrefix (cs! "a is low and b is not very high or (o is any)")
      = some (cs! "or and a is low b is not very high  o is any  ") ∧
    rewrite Antecedent.toPostfix (cs! "a is low and b is not very high or (o is any)")
      = some (cs! "a is low b is not very high and  o is any  or ") := by decide +kernel

/-- **C81 is violated.**  The text of an antecedent drops parentheses that are necessary: the text of
`(a is low or b is high) and a is high` is that of `a is low or (b is high and a is high)`, another
antecedent. -/
theorem parentheses_violated :
    rewrite Antecedent.toString (cs! "(a is low or b is high) and a is high")
      = some (cs! "a is low or b is high  and a is high ") ∧
    demoLoad (cs! "a is low or b is high  and a is high ") = demoLoad (cs! "a is low or (b is high and a is high)") ∧
    demoLoad (cs! "a is low or b is high  and a is high ") ≠ demoLoad (cs! "(a is low or b is high) and a is high") := by
  decide +kernel

/-- two inputs `a` and `b` of the degrees 3/4 for `low` and 1/4 for `high` -/
def textWorld : World (Ext ℚ) :=
  ⟨[Variable.new (cs! "a") (fin 0) (fin 1) [⟨cs! "low", fin 1, .constant (fin (3/4))⟩, ⟨cs! "high", fin 1, .constant (fin (1/4))⟩],
    Variable.new (cs! "b") (fin 0) (fin 1) [⟨cs! "low", fin 1, .constant (fin (3/4))⟩, ⟨cs! "high", fin 1, .constant (fin (1/4))⟩]],
   []⟩

/-- the degree of what is loaded from a text -/
def textDegree (text : Str) : Option (Ext ℚ) :=
  match load (S := Ext ℚ) defaultFactory defaultHedges textWorld.vocabulary text with
  | .ok e => match e.degree textWorld (some (.builtin .minimum)) (some (.builtin .maximum)) with
    | .ok x => some x
    | .error _ => none
  | .error _ => none

/-- **C81 is violated.**  The antecedent loaded from the text has another degree: 3/4 instead of 1/4. -/
theorem degree_violated :
    textDegree (cs! "(a is low or b is high) and a is high") = some (fin (1/4)) ∧
    textDegree (cs! "a is low or b is high  and a is high ") = some (fin (3/4)) := by decide +kernel

/-- **C81 is violated.**  The prefix and postfix texts do not load into the antecedent: the loader reads
infix texts only, yet accepts them. -/
theorem notations_violated :
    rewrite Antecedent.toPostfix (cs! "(a is low and b is high) or a is high")
      = some (cs! "a is low b is high and  a is high or ") ∧
    demoLoad (cs! "a is low b is high and  a is high or ") = demoLoad (cs! "a is low or (b is high and a is high)") ∧
    demoLoad (cs! "a is low b is high and  a is high or ") ≠ demoLoad (cs! "(a is low and b is high) or a is high") ∧
    rewrite Antecedent.toPrefix (cs! "(a is low or b is high) and a is high")
      = some (cs! "and or a is low b is high  a is high ") ∧
    demoLoad (cs! "and or a is low b is high  a is high ") ≠ demoLoad (cs! "(a is low or b is high) and a is high") := by
  decide +kernel

/-- a consequent of two conclusions and its text -/
example : (match Consequent.load (S := Ext ℚ) defaultHedges demo (cs! "o is  very low   and o is any high") with
    | .ok ps => (match Consequent.toString demo ps with
      | .ok s => some s
      | .error _ => none)
    | .error _ => none) = some (cs! "o is very low and o is any high") := by decide +kernel

end examples
end FL
