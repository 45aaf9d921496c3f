/-
C26: antecedents parse with `and` above `or`, left-associative, parentheses respected.
-/
import Verif.Lemmas.Antecedent
import Verif.Model.Decimal

namespace FL
open Scalar Formula
variable {S : Type}

namespace Antecedent

/-- Infix texts of a tree.  Level 0 allows `or` outside parentheses, level 1 only `and`, level 2
neither.  The left operand may be at the level of the operator, the right operand must be above.
Parentheses may be added anywhere. -/
inductive Infix (F : ElementFactory S) (H : HedgeFactory S) (V : Vocabulary) : Nat → Expr S → List Str → Prop
  | prop (p : Proposition S) (ts : List Str) (h : Writes H V p ts) (ho : ∀ t ∈ ts, Operand F t) :
      Infix F H V 2 (.prop p) ts
  | paren (n : Nat) (e : Expr S) (ts : List Str) (h : Infix F H V n e ts) :
      Infix F H V 2 e (cs! "(" :: ts ++ [cs! ")"])
  | conj (l r : Expr S) (s t : List Str) (hl : Infix F H V 1 l s) (hr : Infix F H V 2 r t) :
      Infix F H V 1 (.conj l r) (s ++ andKeyword :: t)
  | disj (l r : Expr S) (s t : List Str) (hl : Infix F H V 0 l s) (hr : Infix F H V 1 r t) :
      Infix F H V 0 (.disj l r) (s ++ orKeyword :: t)
  | weaken (n : Nat) (e : Expr S) (ts : List Str) (h : Infix F H V (n + 1) e ts) : Infix F H V n e ts

/-- `and` and `or` are registered as left-associative operators, `and` above `or` -/
def Connectives (F : ElementFactory S) : Prop :=
  ∃ a o, F andKeyword = some a ∧ F orKeyword = some o ∧ a.isOperator = true ∧ o.isOperator = true ∧
    a.associativity < 0 ∧ o.associativity < 0 ∧ o.precedence < a.precedence

theorem default_connectives [Scalar S] : Connectives (defaultFactory : ElementFactory S) :=
  ⟨_, _, rfl, rfl, rfl, rfl, by simp, by simp, by simp⟩

theorem renders_weaken {F : ElementFactory S} {p q : Int} {ts : List Str} {e : SExpr} (h : Renders F p ts e)
    (hq : q ≤ p) : Renders F q ts e := by
  cases h with
  | leaf _ _ h0 h => exact .leaf q ts h0 h
  | paren _ p' ts _ h => exact .paren q p' ts e h
  | un _ op el ts a ho hop hp hr h => exact .un q op el ts a ho hop (le_trans hq hp) hr h
  | binLeft _ op el ts us l r ho hop hp hl h1 h2 => exact .binLeft q op el ts us l r ho hop (le_trans hq hp) hl h1 h2
  | binRight _ op el ts us l r ho hop hp hl h1 h2 => exact .binRight q op el ts us l r ho hop (le_trans hq hp) hl h1 h2
  | call1 _ p' f el ts a ho hf h => exact .call1 q p' f el ts a ho hf h
  | call2 _ p' q' f el ts us a b ho hf h1 h2 => exact .call2 q p' q' f el ts us a b ho hf h1 h2

/-- the precedence of the operators allowed at a level -/
def levelPrec (a o : Element S) : Nat → Int
  | 0 => o.precedence
  | 1 => a.precedence
  | _ => a.precedence + 1

theorem infix_renders {F : ElementFactory S} {H : HedgeFactory S} {V : Vocabulary} (a o : Element S)
    (ha : F andKeyword = some a) (ho : F orKeyword = some o) (hao : a.isOperator = true) (hoo : o.isOperator = true)
    (hal : a.associativity < 0) (hol : o.associativity < 0) (hlt : o.precedence < a.precedence)
    (hva : V.find andKeyword = none) (hvo : V.find orKeyword = none)
    {n : Nat} {e : Expr S} {ts : List Str} (h : Infix F H V n e ts) :
    ∃ x, Renders F (levelPrec a o n) ts x ∧ Serial H V e x.postorder := by
  induction h with
  | prop p ts h hop => exact ⟨.leaf ts, .leaf _ ts h.ne_nil hop, .prop p ts h⟩
  | paren n e ts _ ih =>
    obtain ⟨x, hx, hs⟩ := ih
    exact ⟨x, .paren _ _ ts x hx, hs⟩
  | conj l r s t _ _ ihl ihr =>
    obtain ⟨x, hx, hxs⟩ := ihl
    obtain ⟨y, hy, hys⟩ := ihr
    exact ⟨.bin andKeyword x y, .binLeft _ andKeyword a s t x y ha hao le_rfl hal hx hy, .conj l r _ _ hxs hys hva⟩
  | disj l r s t _ _ ihl ihr =>
    obtain ⟨x, hx, hxs⟩ := ihl
    obtain ⟨y, hy, hys⟩ := ihr
    refine ⟨.bin orKeyword x y, .binLeft _ orKeyword o s t x y ho hoo le_rfl hol hx (renders_weaken hy ?_),
      .disj l r _ _ hxs hys hvo⟩
    simp only [levelPrec]; omega
  | weaken n e ts _ ih =>
    obtain ⟨x, hx, hs⟩ := ih
    refine ⟨x, renders_weaken hx ?_, hs⟩
    match n with
    | 0 => simp only [levelPrec]; omega
    | 1 => simp only [levelPrec]; omega
    | n + 2 => simp [levelPrec]

/-- **C26.**  Every infix text of a tree, with at least the necessary parentheses and any spacing,
loads into exactly that tree.  Partial: tokens of propositions must not be registered functions or
operators, and no variable may be named `and` or `or`; see the violations below. -/
theorem load_infix_partial (F : ElementFactory S) (hF : Coherent F) (hc : Connectives F) (H : HedgeFactory S)
    (V : Vocabulary) (hva : V.find andKeyword = none) (hvo : V.find orKeyword = none) (n : Nat) (e : Expr S)
    (ts : List Str) (h : Infix F H V n e ts) (text : Str) (ht : tokens text = ts) : load F H V text = .ok e := by
  obtain ⟨a, o, ha, ho, hao, hoo, hal, hol, hlt⟩ := hc
  obtain ⟨x, hx, hs⟩ := infix_renders a o ha ho hao hoo hal hol hlt hva hvo h
  rw [load_ok_iff]
  exact ⟨x.postorder, by rw [ht]; exact shunt_correct hF hx, hs⟩

end Antecedent

/-! ### The text of a tree with the necessary parentheses -/

/-- name of a variable -/
def Vocabulary.nameOf (V : Vocabulary) : VarRef → Str
  | .input i => (V.inputs[i]?.map Prod.fst).getD []
  | .output i => (V.outputs[i]?.map Prod.fst).getD []

/-- tokens of a proposition -/
def Proposition.tokens (V : Vocabulary) (p : Proposition S) : List Str :=
  V.nameOf p.var :: isKeyword :: p.hedges.map Hedge.name
    ++ (match p.term with | some j => [((V.terms p.var)[j]?).getD []] | none => [])

/-- tokens of a tree as an operand at a level: parentheses are written only where needed -/
def Expr.tokens (V : Vocabulary) : Nat → Expr S → List Str
  | _, .prop p => p.tokens V
  | n, .conj l r =>
    let ts := l.tokens V 1 ++ andKeyword :: r.tokens V 2
    if n ≤ 1 then ts else cs! "(" :: ts ++ [cs! ")"]
  | n, .disj l r =>
    let ts := l.tokens V 0 ++ orKeyword :: r.tokens V 1
    if n = 0 then ts else cs! "(" :: ts ++ [cs! ")"]

/-- a name that may be used in a rule: one token, not a registered function or operator -/
def Usable (F : ElementFactory S) (t : Str) : Prop := Lexeme t ∧ Operand F t

/-- names of the variables -/
def Vocabulary.names (V : Vocabulary) : List Str := V.inputs.map Prod.fst ++ V.outputs.map Prod.fst

/-- an engine whose names are usable and unambiguous -/
structure Tidy (F : ElementFactory S) (H : HedgeFactory S) (V : Vocabulary) : Prop where
  names : V.names.Nodup
  usable : ∀ x ∈ V.names, Usable F x
  terms : ∀ v, (V.terms v).Nodup
  usableTerm : ∀ v, ∀ t ∈ V.terms v, Usable F t ∧ H t = none
  hedges : ∀ n h, H n = some h → Usable F n
  isUsable : Usable F isKeyword

/-- a proposition over the variables, hedges and terms of the engine -/
def Proposition.Over (H : HedgeFactory S) (V : Vocabulary) (p : Proposition S) : Prop :=
  (match p.var with
    | .input i => i < V.inputs.length
    | .output i => i < V.outputs.length) ∧
  (∀ h ∈ p.hedges, H h.name = some h) ∧
  (match p.term with
    | some j => j < (V.terms p.var).length ∧ ∀ h ∈ p.hedges, h.isAny = false
    | none => ∃ hs a, p.hedges = hs ++ [a] ∧ a.isAny = true ∧ ∀ h ∈ hs, h.isAny = false)

/-- a tree over the variables, hedges and terms of the engine -/
def Expr.Over (H : HedgeFactory S) (V : Vocabulary) : Expr S → Prop
  | .prop p => p.Over H V
  | .conj l r => l.Over H V ∧ r.Over H V
  | .disj l r => l.Over H V ∧ r.Over H V

namespace Antecedent

theorem findIdx_nodup {α : Type} (f : α → Str) (l : List α) (hn : (l.map f).Nodup) (i : Nat) (x : α)
    (hi : l[i]? = some x) : l.findIdx? (fun p => f p == f x) = some i := by
  rw [List.findIdx?_eq_some_iff_getElem]
  obtain ⟨hil, rfl⟩ := List.getElem?_eq_some_iff.1 hi
  refine ⟨hil, by simp, fun j hji => ?_⟩
  simp only [beq_iff_eq, Bool.not_eq_true]
  intro heq
  rw [List.nodup_iff_injective_get] at hn
  have := @hn ⟨j, by simp; omega⟩ ⟨i, by simp; omega⟩ (by simpa using heq)
  simp at this
  omega

theorem Tidy.find {F : ElementFactory S} {H : HedgeFactory S} {V : Vocabulary} (hT : Tidy F H V) (v : VarRef)
    (hv : match v with | .input i => i < V.inputs.length | .output i => i < V.outputs.length) :
    V.find (V.nameOf v) = some v ∧ V.nameOf v ∈ V.names := by
  have hn := hT.names
  unfold Vocabulary.names at hn
  rw [List.nodup_append] at hn
  obtain ⟨hn1, hn2, hn3⟩ := hn
  cases v with
  | input i =>
    simp only at hv
    have hi : V.inputs[i]? = some V.inputs[i] := List.getElem?_eq_getElem hv
    have := findIdx_nodup Prod.fst V.inputs hn1 i _ hi
    refine ⟨?_, ?_⟩
    · simp only [Vocabulary.nameOf, hi, Option.map_some, Option.getD_some, Vocabulary.find, this]
    · simp only [Vocabulary.nameOf, hi, Option.map_some, Option.getD_some, Vocabulary.names, List.mem_append]
      exact Or.inl (List.mem_map_of_mem (List.getElem_mem hv))
  | output i =>
    simp only at hv
    have hi : V.outputs[i]? = some V.outputs[i] := List.getElem?_eq_getElem hv
    have := findIdx_nodup Prod.fst V.outputs hn2 i _ hi
    have hmem : V.outputs[i].1 ∈ V.outputs.map Prod.fst := List.mem_map_of_mem (List.getElem_mem hv)
    have hnone : V.inputs.findIdx? (fun p => p.1 == V.outputs[i].1) = none := by
      rw [List.findIdx?_eq_none_iff]
      intro p hp
      have := hn3 p.1 (List.mem_map_of_mem hp) _ hmem
      simpa using this
    refine ⟨?_, ?_⟩
    · simp only [Vocabulary.nameOf, hi, Option.map_some, Option.getD_some, Vocabulary.find, hnone,
        Vocabulary.findOutput, this]
    · simp only [Vocabulary.nameOf, hi, Option.map_some, Option.getD_some, Vocabulary.names, List.mem_append]
      exact Or.inr hmem

theorem plain_map {H : HedgeFactory S} (hs : List (Hedge S)) (h1 : ∀ h ∈ hs, H h.name = some h)
    (h2 : ∀ h ∈ hs, h.isAny = false) : Plain H (hs.map Hedge.name) hs := by
  unfold Plain
  induction hs with
  | nil => exact .nil
  | cons a hs ih =>
    exact .cons ⟨h1 a (by simp), h2 a (by simp)⟩
      (ih (fun h hh => h1 h (List.mem_cons_of_mem _ hh)) (fun h hh => h2 h (List.mem_cons_of_mem _ hh)))

theorem Tidy.proposition {F : ElementFactory S} {H : HedgeFactory S} {V : Vocabulary} (hT : Tidy F H V)
    (p : Proposition S) (hp : p.Over H V) : Writes H V p (p.tokens V) ∧ ∀ t ∈ p.tokens V, Usable F t := by
  obtain ⟨v, hs, term⟩ := p
  obtain ⟨hv, hh, ht⟩ := hp
  obtain ⟨hf, hm⟩ := Tidy.find hT v hv
  have hus : ∀ t ∈ hs.map Hedge.name, Usable F t := by
    intro t ht
    rw [List.mem_map] at ht
    obtain ⟨h, hmem, rfl⟩ := ht
    exact hT.hedges _ _ (hh h hmem)
  cases term with
  | some j =>
    simp only at ht
    obtain ⟨hj, hany⟩ := ht
    have hi : (V.terms v)[j]? = some (V.terms v)[j] := List.getElem?_eq_getElem hj
    have hu := hT.usableTerm v _ (List.getElem_mem hj)
    have hidx : V.findTerm v (V.terms v)[j] = some j := by
      have := findIdx_nodup id (V.terms v) (by simpa using hT.terms v) j _ hi
      simpa [Vocabulary.findTerm] using this
    simp only [Proposition.tokens, hi, Option.getD_some]
    refine ⟨.term _ v _ hs _ j hf (plain_map hs hh hany) hu.2 hidx, ?_⟩
    intro t ht
    simp only [List.cons_append, List.mem_cons, List.mem_append, List.not_mem_nil, or_false] at ht
    rcases ht with rfl | rfl | ht | rfl
    · exact hT.usable _ hm
    · exact hT.isUsable
    · exact hus t ht
    · exact hu.1
  | none =>
    simp only at ht
    obtain ⟨hs', a, rfl, ha, hany⟩ := ht
    simp only [Proposition.tokens, List.append_nil, List.map_append, List.map_cons, List.map_nil] at hus ⊢
    refine ⟨?_, ?_⟩
    · exact .any _ v (hs'.map Hedge.name) hs' _ a hf (plain_map hs' (fun h hh' => hh h (by simp [hh'])) hany)
        (hh a (by simp)) ha
    · intro t ht
      rw [List.mem_cons, List.mem_cons] at ht
      rcases ht with rfl | rfl | ht
      · exact hT.usable _ hm
      · exact hT.isUsable
      · exact hus t ht

theorem Tidy.tokens {F : ElementFactory S} {H : HedgeFactory S} {V : Vocabulary} (hT : Tidy F H V) (e : Expr S)
    (he : e.Over H V) (n : Nat) (hn : n ≤ 2) : Infix F H V n e (e.tokens V n) ∧
      ∀ t ∈ e.tokens V n, Usable F t ∨ t = cs! "(" ∨ t = cs! ")" ∨ t = andKeyword ∨ t = orKeyword := by
  induction e generalizing n with
  | prop p =>
    obtain ⟨hw, hu⟩ := Tidy.proposition hT p he
    have h2 : Infix F H V 2 (.prop p) (p.tokens V) := .prop p _ hw fun t ht => (hu t ht).2
    refine ⟨?_, fun t ht => Or.inl (hu t ht)⟩
    match n, hn with
    | 0, _ => exact .weaken _ _ _ (.weaken _ _ _ h2)
    | 1, _ => exact .weaken _ _ _ h2
    | 2, _ => exact h2
  | conj l r ihl ihr =>
    obtain ⟨hl, hlu⟩ := ihl he.1 1 (by omega)
    obtain ⟨hr, hru⟩ := ihr he.2 2 (by omega)
    have h1 := Infix.conj l r _ _ hl hr
    have hu : ∀ t ∈ l.tokens V 1 ++ andKeyword :: r.tokens V 2,
        Usable F t ∨ t = cs! "(" ∨ t = cs! ")" ∨ t = andKeyword ∨ t = orKeyword := by
      intro t ht
      rw [List.mem_append, List.mem_cons] at ht
      rcases ht with ht | rfl | ht
      · exact hlu t ht
      · simp
      · exact hru t ht
    match n, hn with
    | 0, _ => exact ⟨.weaken _ _ _ h1, hu⟩
    | 1, _ => exact ⟨h1, hu⟩
    | 2, _ =>
      refine ⟨.paren 1 _ _ h1, ?_⟩
      intro t ht
      simp only [Expr.tokens, Nat.reduceLeDiff, if_false, List.cons_append, List.mem_cons] at ht
      rcases ht with rfl | ht
      · simp
      · rw [List.mem_append] at ht
        rcases ht with ht | ht
        · exact hu t ht
        · simp at ht; simp [ht]
  | disj l r ihl ihr =>
    obtain ⟨hl, hlu⟩ := ihl he.1 0 (by omega)
    obtain ⟨hr, hru⟩ := ihr he.2 1 (by omega)
    have h1 := Infix.disj l r _ _ hl hr
    have hu : ∀ t ∈ l.tokens V 0 ++ orKeyword :: r.tokens V 1,
        Usable F t ∨ t = cs! "(" ∨ t = cs! ")" ∨ t = andKeyword ∨ t = orKeyword := by
      intro t ht
      rw [List.mem_append, List.mem_cons] at ht
      rcases ht with ht | rfl | ht
      · exact hlu t ht
      · simp
      · exact hru t ht
    have hp : Infix F H V 2 (.disj l r) (cs! "(" :: (l.tokens V 0 ++ orKeyword :: r.tokens V 1) ++ [cs! ")"]) :=
      .paren 0 _ _ h1
    have hpu : ∀ t ∈ cs! "(" :: (l.tokens V 0 ++ orKeyword :: r.tokens V 1) ++ [cs! ")"],
        Usable F t ∨ t = cs! "(" ∨ t = cs! ")" ∨ t = andKeyword ∨ t = orKeyword := by
      intro t ht
      rw [List.cons_append, List.mem_cons, List.mem_append] at ht
      rcases ht with rfl | ht | ht
      · simp
      · exact hu t ht
      · simp at ht; simp [ht]
    match n, hn with
    | 0, _ => exact ⟨h1, hu⟩
    | 1, _ => exact ⟨.weaken _ _ _ hp, hpu⟩
    | 2, _ => exact ⟨hp, hpu⟩

/-- **C26.**  In an engine with usable and unambiguous names, every antecedent tree over its
variables, hedges and terms is recovered from its text written with the necessary parentheses. -/
theorem load_tokens_partial (F : ElementFactory S) (hF : Coherent F) (hc : Connectives F) (H : HedgeFactory S)
    (V : Vocabulary) (hT : Tidy F H V) (e : Expr S) (he : e.Over H V) :
    load F H V (Op.join (e.tokens V 0) (cs! " ")) = .ok e := by
  obtain ⟨h, hu⟩ := Tidy.tokens hT e he 0 (by omega)
  have hk : ∀ k el, F k = some el → V.find k = none := by
    intro k el hk
    have hnot : k ∉ V.names := by
      intro hm
      have := (hT.usable k hm).2.1
      rw [hk] at this; cases this
    unfold Vocabulary.names at hnot
    rw [List.mem_append, not_or] at hnot
    have h1 : V.inputs.findIdx? (fun p => p.1 == k) = none := by
      rw [List.findIdx?_eq_none_iff]
      intro p hp
      simp only [beq_eq_false_iff_ne, ne_eq]
      intro hpk
      exact hnot.1 (hpk ▸ List.mem_map_of_mem hp)
    have h2 : V.outputs.findIdx? (fun p => p.1 == k) = none := by
      rw [List.findIdx?_eq_none_iff]
      intro p hp
      simp only [beq_eq_false_iff_ne, ne_eq]
      intro hpk
      exact hnot.2 (hpk ▸ List.mem_map_of_mem hp)
    simp [Vocabulary.find, h1, Vocabulary.findOutput, h2]
  obtain ⟨a, o, ha, ho, _⟩ := id hc
  refine load_infix_partial F hF hc H V (hk _ a ha) (hk _ o ho) 0 e _ h _ (tokens_join _ ?_)
  intro t ht
  rcases hu t ht with hu | rfl | rfl | rfl | rfl
  · exact hu.1
  all_goals (unfold Lexeme Op.NoBlank; decide)

/-! ### The shipped registries -/

theorem defaultHedges_mem [Scalar S] (n : Str) (h : Hedge S) (hn : defaultHedges n = some h) :
    ∃ k : HedgeKind, h = .builtin k ∧ n = k.name := by
  unfold defaultHedges at hn
  rw [Option.map_eq_some_iff] at hn
  obtain ⟨k, hk, rfl⟩ := hn
  refine ⟨k, rfl, ?_⟩
  have := List.find?_some hk
  exact (beq_iff_eq.1 this).symm

theorem defaultHedges_name [Scalar S] (k : HedgeKind) : defaultHedges (S := S) k.name = some (.builtin k) := by
  cases k <;> rfl

/-- names of the shipped hedges and the keyword `is` are usable -/
theorem default_usable [Scalar S] (t : Str) (ht : t ∈ [isKeyword, cs! "any", cs! "extremely", cs! "not", cs! "seldom",
    cs! "somewhat", cs! "very"]) : Usable (defaultFactory : ElementFactory S) t := by
  refine ⟨?_, ?_⟩
  · have : ∀ t ∈ [isKeyword, cs! "any", cs! "extremely", cs! "not", cs! "seldom", cs! "somewhat", cs! "very"],
        Lexeme t := by unfold Lexeme Op.NoBlank; decide
    exact this t ht
  · simp only [List.mem_cons, List.not_mem_nil, or_false] at ht
    rcases ht with rfl | rfl | rfl | rfl | rfl | rfl | rfl <;> exact ⟨rfl, by decide, by decide, by decide⟩

/-- With the shipped registries, an engine is tidy when its variables have different names, the
terms of each variable have different names, all names are single tokens that are not function
names or operators, and no term is named like a hedge. -/
theorem default_tidy [Scalar S] (V : Vocabulary) (h1 : V.names.Nodup) (h2 : ∀ v, (V.terms v).Nodup)
    (h3 : ∀ x ∈ V.names, Usable (defaultFactory : ElementFactory S) x)
    (h4 : ∀ v, ∀ t ∈ V.terms v, Usable (defaultFactory : ElementFactory S) t ∧ ∀ k : HedgeKind, t ≠ k.name) :
    Tidy (defaultFactory : ElementFactory S) defaultHedges V where
  names := h1
  usable := h3
  terms := h2
  usableTerm := by
    intro v t ht
    refine ⟨(h4 v t ht).1, ?_⟩
    cases hh : defaultHedges (S := S) t with
    | none => rfl
    | some h =>
      obtain ⟨k, _, hk⟩ := defaultHedges_mem t h hh
      exact absurd hk ((h4 v t ht).2 k)
  hedges := by
    intro n h hn
    obtain ⟨k, _, rfl⟩ := defaultHedges_mem n h hn
    exact default_usable _ (by cases k <;> decide)
  isUsable := default_usable _ (by decide)

/-! ### Violations -/

section examples
open Ext

/-- variables a and b with terms low and high, output o with terms low and high -/
def demo : Vocabulary :=
  ⟨[(cs! "a", [cs! "low", cs! "high"]), (cs! "b", [cs! "low", cs! "high", cs! "floor"])],
   [(cs! "o", [cs! "low", cs! "high"])]⟩

/-- the loader as shipped -/
def demoLoad (text : Str) : Option (List Str) :=
  match load (S := Ext ℚ) defaultFactory defaultHedges demo text with
  | .ok e => some (e.tokens demo 0)
  | .error _ => none

/-- necessary parentheses are kept, others are dropped, `and` binds tighter than `or` -/
example : demoLoad (cs! "(a is low or b is very high) and (o is any and (a is not low))")
    = some [cs! "(", cs! "a", cs! "is", cs! "low", cs! "or", cs! "b", cs! "is", cs! "very", cs! "high", cs! ")",
      cs! "and", cs! "(", cs! "o", cs! "is", cs! "any", cs! "and", cs! "a", cs! "is", cs! "not", cs! "low", cs! ")"] := by
  decide +kernel

example : demoLoad (cs! "a is low or (b is high and a is high)")
    = some [cs! "a", cs! "is", cs! "low", cs! "or", cs! "b", cs! "is", cs! "high", cs! "and", cs! "a", cs! "is",
      cs! "high"] := by
  decide +kernel

/-- Texts that do not follow the grammar are accepted: operators may precede or follow their
operands. -/
theorem load_scrambled_violated :
    demoLoad (cs! "a is low and b is high") = some [cs! "a", cs! "is", cs! "low", cs! "and", cs! "b", cs! "is", cs! "high"]
    ∧ demoLoad (cs! "and a is low b is high") = demoLoad (cs! "a is low and b is high")
    ∧ demoLoad (cs! "a is low b is high and") = demoLoad (cs! "a is low and b is high")
    ∧ demoLoad (cs! "a and is low b is high") = demoLoad (cs! "a is low and b is high")
    ∧ demoLoad (cs! "(a) is (low and b is high)") = demoLoad (cs! "a is low and b is high") := by
  decide +kernel

/-- A term named like a registered function cannot be used in front of an operator, although the
engine accepts the name: `floor` is moved behind the operands. -/
theorem load_functionName_violated :
    demoLoad (cs! "b is floor") = some [cs! "b", cs! "is", cs! "floor"]
    ∧ demoLoad (cs! "b is floor and a is low") = none
    ∧ demoLoad (cs! "(b is floor) and a is low")
      = some [cs! "b", cs! "is", cs! "floor", cs! "and", cs! "a", cs! "is", cs! "low"] := by
  decide +kernel

end examples
end Antecedent
end FL
