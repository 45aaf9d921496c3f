/-
C91: the descriptions of fuzzy sets say what they are made of.
-/
import Verif.Model.FuzzyText
import Verif.Lemmas.Fcl
import Verif.Props.Fll

namespace FL

variable {S : Type}

namespace FuzzyText

/-- what is written about an activated term -/
structure Part where
  implication : Option Str
  degree : Str
  name : Str
  deriving DecidableEq, Repr

/-- what is written about a fuzzy set -/
structure Content where
  name : Str
  aggregation : Option Str
  parts : List Part
  deriving DecidableEq, Repr

/-- the text before the first `c`, and that after it -/
def cut (c : Char) (s : Str) : Str × Str := (s.takeWhile (· ≠ c), (s.dropWhile (· ≠ c)).drop 1)

/-- `implication(degree,name` or `(degree*name` -/
def readPart (w : Str) : Part :=
  let p := cut '(' w
  if p.1 = [] then ⟨none, (cut '*' p.2).1, (cut '*' p.2).2⟩ else ⟨some p.1, (cut ',' p.2).1, (cut ',' p.2).2⟩

/-- parts that follow a separator -/
def readMore (sep : Char) : List Str → Option (List Part)
  | [] => some []
  | [] :: _ => none
  | (c :: w) :: ws => if c = sep then (readMore sep ws).map (readPart w :: ·) else none

/-- parts, each closed by a parenthesis, up to the closing bracket -/
def readParts (sep : Char) (s : Str) : Option (List Part) :=
  let ws := s.splitOn ')'
  if ws.getLast? = some (cs! "]") then
    match ws.dropLast with
    | [] => some []
    | w :: ws => (readMore sep ws).map (readPart w :: ·)
  else none

/-- `name: Aggregated aggregation[parts]` -/
def read (s : Str) : Option Content :=
  let p := cut ':' s
  if (cs! " Aggregated ").isPrefixOf p.2 then
    let q := cut '[' (p.2.drop 12)
    if q.1 = [] then (readParts '+' q.2).map (⟨p.1, none, ·⟩) else (readParts ',' q.2).map (⟨p.1, some q.1, ·⟩)
  else none

end FuzzyText

open FuzzyText

theorem cut_append (c : Char) (a b : Str) (h : c ∉ a) : cut c (a ++ c :: b) = (a, b) := by
  have hp : ∀ x ∈ a, decide (x ≠ c) = true := fun x hx => decide_eq_true fun e => h (e ▸ hx)
  unfold cut
  rw [List.takeWhile_append_of_pos hp, List.dropWhile_append_of_pos hp]
  simp

section general
variable [ScalarText S]

namespace Activated

/-- what should be written about an activated term -/
def part (a : Activated S) : Part := ⟨a.implication.map TNorm.className, ScalarText.str a.degree, a.term.name⟩

/-- what should be written without its closing parenthesis -/
def opened (a : Activated S) : Str :=
  match a.implication with
  | some k => k.className ++ '(' :: (ScalarText.str a.degree ++ ',' :: a.term.name)
  | none => '(' :: (ScalarText.str a.degree ++ '*' :: a.term.name)

theorem toString_opened (a : Activated S) : a.toString = a.opened ++ cs! ")" := by
  unfold opened toString
  cases a.implication <;> simp

end Activated

theorem tnorm_letters (k : TNorm S) : k.className ≠ [] ∧ ∀ c ∈ k.className, isAlnum c = true := by
  cases k with
  | builtin k => cases k <;> simp only [TNorm.className, TNormKind.className] <;> decide
  | function f => simp only [TNorm.className]; decide

theorem snorm_letters (k : SNorm S) : k.className ≠ [] ∧ ∀ c ∈ k.className, isAlnum c = true := by
  cases k with
  | builtin k => cases k <;> simp only [SNorm.className, SNormKind.className] <;> decide
  | function f => simp only [SNorm.className]; decide

theorem not_mem_of_alnum {s : Str} (h : ∀ c ∈ s, isAlnum c = true) (c : Char) (hc : isAlnum c = false) : c ∉ s := by
  intro hm
  rw [h c hm] at hc
  cases hc

theorem not_mem_str [PlainText S] (x : S) (c : Char) (hc : isAlnum c = false) (h1 : c ≠ '.') (h2 : c ≠ '-') (h3 : c ≠ '+') :
    c ∉ ScalarText.str x := by
  intro hm
  rcases PlainText.str_plain x c hm with h | h | h | h
  · rw [hc] at h; cases h
  exacts [h1 h, h2 h, h3 h]

theorem readPart_opened [PlainText S] (a : Activated S) : readPart a.opened = a.part := by
  unfold Activated.part readPart Activated.opened
  cases a.implication with
  | none =>
    have e1 := cut_append '(' [] (ScalarText.str a.degree ++ '*' :: a.term.name) (by simp)
    have e2 := cut_append '*' (ScalarText.str a.degree) a.term.name (not_mem_str _ _ (by decide) (by decide) (by decide) (by decide))
    simp only [List.nil_append] at e1
    simp [e1, e2]
  | some k =>
    obtain ⟨k1, k2⟩ := tnorm_letters k
    have e1 := cut_append '(' k.className (ScalarText.str a.degree ++ ',' :: a.term.name) (not_mem_of_alnum k2 _ (by decide))
    have e2 := cut_append ',' (ScalarText.str a.degree) a.term.name (not_mem_str _ _ (by decide) (by decide) (by decide) (by decide))
    simp [e1, e2, k1]

theorem opened_closed [PlainText S] (a : Activated S) (h : ')' ∉ a.term.name) : ')' ∉ a.opened := by
  have hs := not_mem_str a.degree ')' (by decide) (by decide) (by decide) (by decide)
  unfold Activated.opened
  cases a.implication with
  | none => simp [h, hs]
  | some k =>
    have := not_mem_of_alnum (tnorm_letters k).2 ')' (by decide)
    simp [h, hs, this]

theorem split_join [PlainText S] (sep : Char) (hs : sep ≠ ')') (a : Activated S) (ts : List (Activated S))
    (h : ∀ b ∈ a :: ts, ')' ∉ b.term.name) :
    (Op.join ((a :: ts).map Activated.toString) [sep] ++ cs! "]").splitOn ')' =
      a.opened :: (ts.map fun b => sep :: b.opened) ++ [cs! "]"] := by
  induction ts generalizing a with
  | nil =>
    have ha := opened_closed a (h a (by simp))
    simp only [List.map_cons, List.map_nil, Op.join, a.toString_opened, List.append_assoc]
    exact (List.splitOn_append_cons_self_of_not_mem ha _).trans
      (congrArg (a.opened :: ·) (by decide : List.splitOn ')' (cs! "]") = [cs! "]"]))
  | cons b ts ih =>
    have ha := opened_closed a (h a (by simp))
    have ih := ih b fun c hc => h c (List.mem_cons_of_mem _ hc)
    have e : Op.join ((a :: b :: ts).map Activated.toString) [sep] ++ cs! "]" =
        a.opened ++ ')' :: (sep :: (Op.join ((b :: ts).map Activated.toString) [sep] ++ cs! "]")) := by
      simp [Op.join, a.toString_opened]
    rw [e, List.splitOn_append_cons_self_of_not_mem ha, List.splitOn_cons_eq_if_modifyHead, ih]
    simp [hs]

theorem readMore_map [PlainText S] (sep : Char) (ts : List (Activated S)) :
    readMore sep (ts.map fun b => sep :: b.opened) = some (ts.map Activated.part) := by
  induction ts with
  | nil => rfl
  | cons a ts ih => simp [readMore, ih, readPart_opened]

theorem readParts_join [PlainText S] (sep : Char) (hs : sep ≠ ')') (ts : List (Activated S)) (h : ∀ b ∈ ts, ')' ∉ b.term.name) :
    readParts sep (Op.join (ts.map Activated.toString) [sep] ++ cs! "]") = some (ts.map Activated.part) := by
  cases ts with
  | nil => rfl
  | cons a ts =>
    unfold readParts
    simp only [split_join sep hs a ts h]
    rw [if_pos (by rw [List.getLast?_append]; rfl), List.dropLast_append_of_ne_nil (by simp)]
    simp [readMore_map, readPart_opened]

namespace Aggregated

/-- what should be written about a fuzzy set -/
def content (g : Aggregated S) : Content := ⟨g.name, g.aggregation.map SNorm.className, g.terms.map Activated.part⟩

/-- **C91.**  The description of a fuzzy set can be read: it gives the name, the aggregation, and for every
activated term, in order, the implication, the degree and the name, if names have no `:` or `)`. -/
theorem toString_reads_partial [PlainText S] (g : Aggregated S) (hn : ':' ∉ g.name) (ht : ∀ a ∈ g.terms, ')' ∉ a.term.name) :
    FuzzyText.read g.toString = some g.content := by
  unfold toString content
  cases g.aggregation with
  | none =>
    have e : g.name ++ cs! ": " ++ cs! "Aggregated" ++ cs! " " ++ cs! "["
        ++ Op.join (g.terms.map Activated.toString) (cs! "+") ++ cs! "]" =
        g.name ++ ':' :: (cs! " Aggregated " ++ ([] ++ '[' :: (Op.join (g.terms.map Activated.toString) (cs! "+") ++ cs! "]"))) := by
      simp
    simp only [e, FuzzyText.read, cut_append ':' _ _ hn]
    rw [if_pos (by simp [List.isPrefixOf])]
    have e2 : ∀ s : Str, (cs! " Aggregated " ++ s).drop 12 = s := fun s => rfl
    rw [e2, cut_append '[' [] _ (by simp)]
    simp only [if_true]
    rw [readParts_join '+' (by decide) _ ht]
    rfl
  | some k =>
    obtain ⟨k1, k2⟩ := snorm_letters k
    have e : g.name ++ cs! ": " ++ cs! "Aggregated" ++ cs! " " ++ k.className ++ cs! "["
        ++ Op.join (g.terms.map Activated.toString) (cs! ",") ++ cs! "]" =
        g.name ++ ':' :: (cs! " Aggregated " ++ (k.className ++ '[' :: (Op.join (g.terms.map Activated.toString) (cs! ",") ++ cs! "]"))) := by
      simp
    simp only [e, FuzzyText.read, cut_append ':' _ _ hn]
    rw [if_pos (by simp [List.isPrefixOf])]
    have e2 : ∀ s : Str, (cs! " Aggregated " ++ s).drop 12 = s := fun s => rfl
    rw [e2, cut_append '[' k.className _ (not_mem_of_alnum k2 _ (by decide))]
    simp only [k1, if_false]
    rw [readParts_join ',' (by decide) _ ht]
    rfl

/-- **C91.**  Fuzzy sets with the same description have the same name, aggregation and activated terms, as far
as they are written. -/
theorem toString_injective_partial [PlainText S] (g h : Aggregated S) (hg : ':' ∉ g.name) (hh : ':' ∉ h.name)
    (gt : ∀ a ∈ g.terms, ')' ∉ a.term.name) (ht : ∀ a ∈ h.terms, ')' ∉ a.term.name) (e : g.toString = h.toString) :
    g.content = h.content := by
  have h1 := g.toString_reads_partial hg gt
  rw [e, h.toString_reads_partial hh ht] at h1
  exact (Option.some.inj h1).symm

end Aggregated

/-! ### parameters -/

theorem words_step (t : Str) (h0 : t ≠ []) (h : Op.NoBlank t) (r : Str) : Op.words (t ++ cs! " " ++ r) = t :: Op.words r := by
  rw [List.append_assoc]
  exact (Op.words_blank t r ' ' (by decide)).trans (by rw [Op.words_single t h0 h]; rfl)

theorem tnorm_words (k : Option (TNorm S)) : FllExporter.tnorm k ≠ [] ∧ Op.NoBlank (FllExporter.tnorm k) := by
  cases k with
  | none => simp only [FllExporter.tnorm]; decide
  | some k =>
    cases k with
    | builtin k => cases k <;> simp only [FllExporter.tnorm, TNorm.className, TNormKind.className] <;> decide
    | function f => simp only [FllExporter.tnorm, TNorm.className]; decide

theorem snorm_words (k : Option (SNorm S)) : FllExporter.snorm k ≠ [] ∧ Op.NoBlank (FllExporter.snorm k) := by
  cases k with
  | none => simp only [FllExporter.snorm]; decide
  | some k =>
    cases k with
    | builtin k => cases k <;> simp only [FllExporter.snorm, SNorm.className, SNormKind.className] <;> decide
    | function f => simp only [FllExporter.snorm, SNorm.className]; decide

theorem str_words [LawfulText S] (x : S) : ScalarText.str x ≠ [] ∧ Op.NoBlank (ScalarText.str x) :=
  ⟨LawfulText.str_ne x, fun c hc => (LawfulText.str_char x c hc).1⟩

/-- **C91.**  The parameters of an activated term are its degree, its implication and its term as FuzzyLite
Language writes them. -/
theorem Activated.parameters_words [LawfulText S] (a : Activated S) : Op.words a.parameters =
    ScalarText.str a.degree :: FllExporter.tnorm a.implication :: Op.words (FllExporter.term a.term) := by
  unfold parameters
  have e : ScalarText.str a.degree ++ cs! " " ++ FllExporter.tnorm a.implication ++ cs! " " ++ FllExporter.term a.term =
      ScalarText.str a.degree ++ cs! " " ++ (FllExporter.tnorm a.implication ++ cs! " " ++ FllExporter.term a.term) := by simp
  rw [e, words_step _ (str_words _).1 (str_words _).2, words_step _ (tnorm_words _).1 (tnorm_words _).2]

/-- **C91.**  The parameters of a fuzzy set are its aggregation, its range, and for every activated term, in
order, its name, its class and its parameters, if names have a letter, digit, underscore or dot, or only blanks. -/
theorem Aggregated.parameters_words_partial [LawfulText S] (g : Aggregated S)
    (hn : ∀ a ∈ g.terms, Op.validName a.term.name ≠ []) : Op.words g.parameters =
      [FllExporter.snorm g.aggregation, ScalarText.str g.minimum, ScalarText.str g.maximum] ++
        g.terms.flatMap fun a => [cs! "term:", Op.validName a.term.name, cs! "Activated", ScalarText.str a.degree,
          FllExporter.tnorm a.implication] ++ Op.words (FllExporter.term a.term) := by
  have key : ∀ (ts : List (Activated S)) (_ : ∀ a ∈ ts, Op.validName a.term.name ≠ []) (w : Str),
      Op.words (w ++ ts.flatMap fun a => cs! " " ++ a.exported) = Op.words w ++
        ts.flatMap fun a => [cs! "term:", Op.validName a.term.name, cs! "Activated", ScalarText.str a.degree,
          FllExporter.tnorm a.implication] ++ Op.words (FllExporter.term a.term) := by
    intro ts
    induction ts with
    | nil => intro _ w; simp
    | cons a ts ih =>
      intro h w
      have e : w ++ (a :: ts).flatMap (fun a => cs! " " ++ a.exported) =
          w ++ ' ' :: (a.exported ++ ts.flatMap fun a => cs! " " ++ a.exported) := by simp
      have e2 : a.exported = cs! "term:" ++ cs! " " ++ (Op.validName a.term.name ++ cs! " " ++ (cs! "Activated" ++ cs! " " ++ a.parameters)) := by
        simp [Activated.exported, Op.join]
      rw [e, Op.words_blank _ _ ' ' (by decide), ih (fun b hb => h b (List.mem_cons_of_mem _ hb)), e2,
        words_step _ (by decide) (by decide), words_step _ (h a (by simp)) (Fll.validName_word _).1,
        words_step _ (by decide) (by decide), a.parameters_words]
      simp
  unfold parameters
  rw [key _ hn]
  have e : FllExporter.snorm g.aggregation ++ cs! " " ++ ScalarText.str g.minimum ++ cs! " " ++ ScalarText.str g.maximum =
      FllExporter.snorm g.aggregation ++ cs! " " ++ (ScalarText.str g.minimum ++ cs! " " ++ ScalarText.str g.maximum) := by simp
  rw [e, words_step _ (snorm_words _).1 (snorm_words _).2, words_step _ (str_words _).1 (str_words _).2,
    Op.words_single _ (str_words _).1 (str_words _).2]

end general

namespace FuzzyText.Demo

/-- an activated term -/
def activated (name : Str) (degree : Rat) (k : Option (TNorm (Ext Rat))) : Activated (Ext Rat) :=
  ⟨0, ⟨name, .fin 1, .shape (.ramp (.fin 0) (.fin 1))⟩, .fin degree, k⟩

/-- two terms with implications and an aggregation -/
def mamdani : Aggregated (Ext Rat) :=
  ⟨cs! "y", .fin 0, .fin 1, some (.builtin .maximum),
    [activated (cs! "low") (1/2) (some (.builtin .minimum)), activated (cs! "high") (1/4) (some (.builtin .algebraicProduct))]⟩

/-- two terms without -/
def sugeno : Aggregated (Ext Rat) :=
  ⟨cs! "y", .fin 0, .fin 1, none, [activated (cs! "low") (1/2) none, activated (cs! "high") (-1/4) none]⟩

example : mamdani.toString = cs! "y: Aggregated Maximum[Minimum(0.500,low),AlgebraicProduct(0.250,high)]" ∧
    sugeno.toString = cs! "y: Aggregated [(0.500*low)+(-0.250*high)]" := by decide +kernel

example : mamdani.parameters = cs! "Maximum 0.000 1.000 term: low Activated 0.500 Minimum term: low Ramp 0.000 1.000" ++
    cs! " term: high Activated 0.250 AlgebraicProduct term: high Ramp 0.000 1.000" := by decide +kernel

/-- the hypotheses hold, and the texts are read -/
example : ':' ∉ mamdani.name ∧ (∀ a ∈ mamdani.terms, ')' ∉ a.term.name) ∧
    FuzzyText.read mamdani.toString = some ⟨cs! "y", some (cs! "Maximum"),
      [⟨some (cs! "Minimum"), cs! "0.500", cs! "low"⟩, ⟨some (cs! "AlgebraicProduct"), cs! "0.250", cs! "high"⟩]⟩ ∧
    FuzzyText.read sugeno.toString = some ⟨cs! "y", none, [⟨none, cs! "0.500", cs! "low"⟩, ⟨none, cs! "-0.250", cs! "high"⟩]⟩ := by
  refine ⟨by decide +kernel, ?_, (mamdani.toString_reads_partial (by decide +kernel) ?_).trans (by decide +kernel),
    (sugeno.toString_reads_partial (by decide +kernel) ?_).trans (by decide +kernel)⟩
  all_goals
    intro a ha
    simp only [mamdani, sugeno, List.mem_cons, List.not_mem_nil, or_false] at ha
    rcases ha with rfl | rfl <;> decide

/-- C91 is violated by names of terms with parentheses: one term and two terms have the same description. -/
theorem parenthesis_violated :
    (⟨cs! "y", .fin 0, .fin 1, none, [activated (cs! "a)+(0.500*b") (1/2) none]⟩ : Aggregated (Ext Rat)).toString =
    (⟨cs! "y", .fin 0, .fin 1, none, [activated (cs! "a") (1/2) none, activated (cs! "b") (1/2) none]⟩ :
      Aggregated (Ext Rat)).toString := by decide +kernel

/-- C91 is violated by names of variables with colons: variables of different names have the same
description. -/
theorem colon_violated :
    (⟨cs! "y", .fin 0, .fin 1, none, [activated (cs! "a: Aggregated [(0.500*b") (1/2) none]⟩ : Aggregated (Ext Rat)).toString =
    (⟨cs! "y: Aggregated [(0.500*a", .fin 0, .fin 1, none, [activated (cs! "b") (1/2) none]⟩ :
      Aggregated (Ext Rat)).toString := by decide +kernel

/-- C91 is violated by names of terms without letters: the name is written as nothing. -/
theorem unnamed_violated : Op.words (⟨cs! "y", .fin 0, .fin 1, none, [activated (cs! "-") (1/2) none]⟩ :
      Aggregated (Ext Rat)).parameters =
    [cs! "none", cs! "0.000", cs! "1.000", cs! "term:", cs! "Activated", cs! "0.500", cs! "none", cs! "term:",
      cs! "Ramp", cs! "0.000", cs! "1.000"] := by decide +kernel

end FuzzyText.Demo
end FL
