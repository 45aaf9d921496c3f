/-
C90: the status of an engine lists exactly what is missing.
-/
import Verif.Model.Status
import Verif.Model.Configure
import Verif.Props.Text
import Verif.Props.Ready
import Mathlib.Data.Prod.Lex

namespace FL

variable {S : Type} [Scalar S]

namespace Engine

/-! ### What may be missing -/

/-- the operators of a rule block -/
inductive Operator
  | conjunction
  | disjunction
  | implication
  deriving DecidableEq, Repr

/-- something that is missing, with the name of its owner and the index where it has one -/
inductive Problem
  | noInputs (engine : Str)
  | noOutputs (engine : Str)
  | noTerms (i : Nat) (output : Str)
  | noDefuzzifier (i : Nat) (output : Str)
  | noAggregation (i : Nat) (output : Str)
  | noBlocks (engine : Str)
  | noRules (i : Nat) (block : Str)
  | noOperator (i : Nat) (block : Str) (which : Operator) (rules : Nat)
  deriving DecidableEq, Repr

/-- the text of a rule has `keyword` between blanks, before every `then` between blanks -/
def Uses (keyword text : Str) : Prop :=
  ∃ a b, text = a ++ (cs! " " ++ keyword ++ cs! " ") ++ b ∧ ∀ c d, text = c ++ cs! " then " ++ d → a.length < c.length

/-- a loaded rule concludes on an output variable whose defuzzifier integrates -/
def Implies (e : Engine S) (r : Rule S) : Prop :=
  r.isLoaded = true ∧ ∃ p ∈ r.conclusions, ∃ i o k n, p.var = .output i ∧ e.outputs[i]? = some o ∧
    o.defuzzifier = some (.integral k n)

namespace Operator

/-- what a rule needs -/
def Needed (e : Engine S) : Operator → Rule S → Prop
  | .conjunction, r => Uses (cs! "and") r.text
  | .disjunction, r => Uses (cs! "or") r.text
  | .implication, r => e.Implies r

/-- what a rule block has -/
def Absent (b : RuleBlock S) : Operator → Prop
  | .conjunction => b.conjunction = none
  | .disjunction => b.disjunction = none
  | .implication => b.implication = none

def text : Operator → Str
  | .conjunction => cs! "conjunction"
  | .disjunction => cs! "disjunction"
  | .implication => cs! "implication"

end Operator

open Classical in
/-- how many rules of a block need an operator -/
noncomputable def needing (e : Engine S) (w : Operator) (b : RuleBlock S) : Nat :=
  b.rules.countP fun r => decide (w.Needed e r)

namespace Problem

/-- the engine has the problem -/
def Of (e : Engine S) : Problem → Prop
  | .noInputs n => e.name = n ∧ e.inputs = []
  | .noOutputs n => e.name = n ∧ e.outputs = []
  | .noTerms i n => ∃ o, e.outputs[i]? = some o ∧ o.name = n ∧ o.terms = []
  | .noDefuzzifier i n => ∃ o, e.outputs[i]? = some o ∧ o.name = n ∧ o.defuzzifier = none
  | .noAggregation i n => ∃ o, e.outputs[i]? = some o ∧ o.name = n ∧ o.fuzzy.aggregation = none ∧
      ∃ k r, o.defuzzifier = some (.integral k r)
  | .noBlocks n => e.name = n ∧ e.blocks = []
  | .noRules i n => ∃ b, e.blocks[i]? = some b ∧ b.name = n ∧ b.rules = []
  | .noOperator i n w k => ∃ b, e.blocks[i]? = some b ∧ b.name = n ∧ w.Absent b ∧ 0 < k ∧
      k = e.needing w b

/-- the lines of a problem -/
def text : Problem → Str
  | .noInputs n => cs! "- Engine <" ++ n ++ cs! "> has no input variables\n"
  | .noOutputs n => cs! "- Engine <" ++ n ++ cs! "> has no output variables\n"
  | .noTerms _ n => cs! "- Output variable <" ++ n ++ cs! "> has no terms\n"
  | .noDefuzzifier _ n => cs! "- Output variable <" ++ n ++ cs! "> has no defuzzifier\n"
  | .noAggregation _ n => cs! "- Output variable <" ++ n ++ cs! "> has no aggregation operator\n"
  | .noBlocks n => cs! "- Engine <" ++ n ++ cs! "> has no rule blocks\n"
  | .noRules i n => cs! "- Rule block " ++ Decimal.digits (i + 1) ++ cs! " <" ++ n ++ cs! "> has no rules\n"
  | .noOperator i n w k =>
      cs! "- Rule block " ++ Decimal.digits (i + 1) ++ cs! " <" ++ n ++ cs! "> has no " ++ w.text ++ cs! " operator\n" ++
      (cs! "- Rule block " ++ Decimal.digits (i + 1) ++ cs! " <" ++ n ++ cs! "> has " ++ Decimal.digits k
        ++ cs! " rules that require " ++ w.text ++ cs! " operator\n")

/-- the place of a problem in the status: inputs, outputs one by one, rule blocks one by one -/
def place : Problem → Nat × Nat × Nat
  | .noInputs _ => (0, 0, 0)
  | .noOutputs _ => (1, 0, 0)
  | .noTerms i _ => (2, i, 0)
  | .noDefuzzifier i _ => (2, i, 1)
  | .noAggregation i _ => (2, i, 2)
  | .noBlocks _ => (3, 0, 0)
  | .noRules i _ => (4, i, 0)
  | .noOperator i _ .conjunction _ => (4, i, 1)
  | .noOperator i _ .disjunction _ => (4, i, 2)
  | .noOperator i _ .implication _ => (4, i, 3)

/-- `p` is written before `q` -/
def Before (p q : Problem) : Prop :=
  p.place.1 < q.place.1 ∨ p.place.1 = q.place.1 ∧
    (p.place.2.1 < q.place.2.1 ∨ p.place.2.1 = q.place.2.1 ∧ p.place.2.2 < q.place.2.2)

end Problem

/-! ### Lemmas -/

theorem search_first (d : Str) (hd : d ≠ []) (s c r : Str) (h : s = c ++ d ++ r) :
    ∃ p q, Op.search d s = some (p, q) ∧ p.length ≤ c.length := by
  induction s generalizing c with
  | nil => simp [hd] at h
  | cons x s ih =>
    unfold Op.search
    split_ifs with hp
    · exact ⟨_, _, rfl, Nat.zero_le _⟩
    · cases c with
      | nil => exact absurd (List.isPrefixOf_iff_prefix.2 ⟨r, by simpa using h.symm⟩) hp
      | cons y c =>
        obtain ⟨p, q, e1, e2⟩ := ih c (by simp at h; simpa using h.2)
        rw [e1]
        exact ⟨_, _, rfl, by simpa using e2⟩

theorem position_spec (d : Str) (hd : d ≠ []) (s : Str) :
    (∀ i, position d s = some i → (∃ a b, s = a ++ d ++ b ∧ a.length = i) ∧ ∀ c r, s = c ++ d ++ r → i ≤ c.length) ∧
    (position d s = none → ∀ c r, s ≠ c ++ d ++ r) := by
  unfold position
  constructor
  · intro i hi
    obtain ⟨⟨p, q⟩, h1, rfl⟩ := Option.map_eq_some_iff.1 hi
    refine ⟨⟨p, q, (Op.search_some d hd s p q h1).1, rfl⟩, fun c r h => ?_⟩
    obtain ⟨p', q', h2, h3⟩ := search_first d hd s c r h
    rw [h1] at h2
    cases h2
    exact h3
  · intro hn c r h
    obtain ⟨p', q', h2, h3⟩ := search_first d hd s c r h
    rw [h2] at hn
    cases hn

/-- what the positions of the keywords say about the text of a rule -/
theorem textRequires_iff (keyword text : Str) : textRequires keyword text = true ↔ Uses keyword text := by
  unfold textRequires Uses before
  have hd : cs! " " ++ keyword ++ cs! " " ≠ [] := by simp
  have ht : cs! " " ++ thenKeyword ++ cs! " " = cs! " then " := by decide
  obtain ⟨a1, a2⟩ := position_spec _ hd text
  obtain ⟨t1, t2⟩ := position_spec (cs! " then ") (by decide) text
  rw [ht]
  constructor
  · split
    · simp
    · next i hp hq =>
      intro _
      obtain ⟨⟨a, b, h, rfl⟩, -⟩ := a1 _ hp
      exact ⟨a, b, h, fun c d hc => absurd hc (t2 hq c d)⟩
    · next i j hp hq =>
      intro h
      obtain ⟨⟨a, b, e, rfl⟩, -⟩ := a1 _ hp
      exact ⟨a, b, e, fun c d hc => lt_of_lt_of_le (of_decide_eq_true h) ((t1 _ hq).2 c d hc)⟩
  · rintro ⟨a, b, h, hb⟩
    split
    · next hp => exact absurd h (a2 hp a b)
    · rfl
    · next i j hp hq =>
      obtain ⟨⟨c, d, e, rfl⟩, -⟩ := t1 _ hq
      exact decide_eq_true (lt_of_le_of_lt ((a1 _ hp).2 a b h) (hb c d e))

theorem defuzzifier_integral_iff (d : Option Defuzzifier) : isIntegral d = true ↔ ∃ k r, d = some (.integral k r) := by
  unfold isIntegral
  split <;> simp_all

theorem implies_iff (e : Engine S) (r : Rule S) : ruleRequiresImplication e.outputs r = true ↔ e.Implies r := by
  unfold ruleRequiresImplication Implies
  rw [Bool.and_eq_true, List.any_eq_true]
  refine and_congr_right fun _ => exists_congr fun p => and_congr_right fun _ => ?_
  cases p.var with
  | input i => simp
  | output i =>
    simp only [VarRef.output.injEq]
    constructor
    · intro h
      cases ho : e.outputs[i]? with
      | none => simp [ho] at h
      | some o =>
        simp only [ho, Option.map_some, Option.getD_some] at h
        obtain ⟨k, n, hk⟩ := (defuzzifier_integral_iff _).1 h
        exact ⟨i, o, k, n, rfl, ho, hk⟩
    · rintro ⟨j, o, k, n, rfl, ho, hk⟩
      simp [ho, hk, isIntegral]

theorem countRule_fold (outputs : List (OutputVariable S)) (rs : List (Rule S)) (c : Counters) :
    rs.foldl (countRule outputs) c =
      ⟨c.conjunction + rs.countP fun r => textRequires andKeyword r.text,
       c.disjunction + rs.countP fun r => textRequires orKeyword r.text,
       c.implication + rs.countP fun r => ruleRequiresImplication outputs r⟩ := by
  induction rs generalizing c with
  | nil => rfl
  | cons r rs ih =>
    rw [List.foldl_cons, ih]
    simp only [List.countP_cons, countRule]
    split_ifs <;> simp [Nat.add_assoc, Nat.add_comm, Nat.add_left_comm]

open Classical in
theorem counters_eq (e : Engine S) (b : RuleBlock S) : b.rules.foldl (countRule e.outputs) ⟨0, 0, 0⟩ =
    ⟨e.needing .conjunction b, e.needing .disjunction b, e.needing .implication b⟩ := by
  rw [countRule_fold]
  simp only [Nat.zero_add, needing, Counters.mk.injEq]
  refine ⟨List.countP_congr fun r _ => ?_, List.countP_congr fun r _ => ?_, List.countP_congr fun r _ => ?_⟩
  · rw [decide_eq_true_iff, textRequires_iff]; rfl
  · rw [decide_eq_true_iff, textRequires_iff]; rfl
  · rw [decide_eq_true_iff, implies_iff]; rfl

/-- the problems of an output variable -/
def ofOutput (i : Nat) (o : OutputVariable S) : List Problem :=
  (if o.terms.isEmpty then [.noTerms i o.name] else [])
    ++ (if o.defuzzifier.isNone then [.noDefuzzifier i o.name] else [])
    ++ (if o.fuzzy.aggregation.isNone && isIntegral o.defuzzifier then [.noAggregation i o.name] else [])

def ofOperator (i : Nat) (b : RuleBlock S) (k : Nat) (present : Bool) (w : Operator) : List Problem :=
  if 0 < k && !present then [.noOperator i b.name w k] else []

/-- the problems of a rule block -/
noncomputable def ofBlock (e : Engine S) (i : Nat) (b : RuleBlock S) : List Problem :=
  (if b.rules.isEmpty then [.noRules i b.name] else [])
    ++ ofOperator i b (e.needing .conjunction b) b.conjunction.isSome .conjunction
    ++ ofOperator i b (e.needing .disjunction b) b.disjunction.isSome .disjunction
    ++ ofOperator i b (e.needing .implication b) b.implication.isSome .implication

/-- the problems of an engine, in order -/
noncomputable def problems (e : Engine S) : List Problem :=
  (if e.inputs.isEmpty then [.noInputs e.name] else [])
    ++ (if e.outputs.isEmpty then [.noOutputs e.name] else [])
    ++ (e.outputs.mapIdx ofOutput).flatten
    ++ (if e.blocks.isEmpty then [.noBlocks e.name] else [])
    ++ (e.blocks.mapIdx e.ofBlock).flatten

/-- the text of several problems -/
def textOf (ps : List Problem) : Str := (ps.map Problem.text).flatten

theorem textOf_append (ps qs : List Problem) : textOf (ps ++ qs) = textOf ps ++ textOf qs := by simp [textOf]

theorem textOf_if (c : Prop) [Decidable c] (p : Problem) : textOf (if c then [p] else []) = if c then p.text else [] := by
  split <;> simp [textOf]

theorem textOf_flatten (l : List (List Problem)) : textOf l.flatten = (l.map textOf).flatten := by
  induction l with
  | nil => rfl
  | cons a l ih => rw [List.flatten_cons, textOf_append, ih, List.map_cons, List.flatten_cons]

theorem textOf_operator (i : Nat) (b : RuleBlock S) (k : Nat) (present : Bool) (w : Operator) :
    textOf (ofOperator i b k present w) = operatorText i b k present w.text := by
  unfold ofOperator operatorText
  rw [textOf_if]
  rfl

theorem textOf_output (i : Nat) (o : OutputVariable S) : textOf (ofOutput i o) = outputText o := by
  unfold ofOutput outputText
  rw [textOf_append, textOf_append, textOf_if, textOf_if, textOf_if]
  rfl

theorem textOf_block (e : Engine S) (i : Nat) (b : RuleBlock S) : textOf (e.ofBlock i b) = blockText e.outputs i b := by
  unfold ofBlock blockText
  rw [counters_eq, textOf_append, textOf_append, textOf_append, textOf_if, textOf_operator, textOf_operator, textOf_operator]
  rfl

theorem textOf_problems (e : Engine S) : textOf e.problems = e.status := by
  unfold problems status
  rw [textOf_append, textOf_append, textOf_append, textOf_append, textOf_if, textOf_if, textOf_if, textOf_flatten, textOf_flatten]
  have h1 : (e.blocks.mapIdx e.ofBlock).map textOf = e.blocks.mapIdx fun i b => blockText e.outputs i b :=
    List.ext_getElem (by simp) fun i h1 h2 => by simp [textOf_block]
  have h2 : (e.outputs.mapIdx ofOutput).map textOf = e.outputs.map outputText :=
    List.ext_getElem (by simp) fun i h1 h2 => by simp [textOf_output]
  rw [h1, h2]
  rfl

theorem mem_flatten_mapIdx {α β : Type} {l : List α} {f : Nat → α → List β} {x : β} :
    x ∈ (l.mapIdx f).flatten ↔ ∃ i a, l[i]? = some a ∧ x ∈ f i a := by
  rw [List.mem_flatten]
  constructor
  · rintro ⟨m, hm, hx⟩
    obtain ⟨i, hi, rfl⟩ := List.mem_mapIdx.1 hm
    exact ⟨i, l[i], by simp [hi], hx⟩
  · rintro ⟨i, a, ha, hx⟩
    obtain ⟨hi, rfl⟩ := List.getElem?_eq_some_iff.1 ha
    exact ⟨_, List.mem_mapIdx.2 ⟨i, hi, rfl⟩, hx⟩

theorem mem_if {α : Type} {c : Prop} [Decidable c] {a x : α} : (x ∈ if c then [a] else []) ↔ c ∧ x = a := by
  split <;> simp_all

theorem mem_output {i : Nat} {o : OutputVariable S} {p : Problem} : p ∈ ofOutput i o ↔
    (o.terms = [] ∧ p = .noTerms i o.name) ∨ (o.defuzzifier = none ∧ p = .noDefuzzifier i o.name) ∨
    (o.fuzzy.aggregation = none ∧ (∃ k r, o.defuzzifier = some (.integral k r)) ∧ p = .noAggregation i o.name) := by
  unfold ofOutput
  rw [List.mem_append, List.mem_append, mem_if, mem_if, mem_if, Bool.and_eq_true, defuzzifier_integral_iff]
  simp only [List.isEmpty_iff, Option.isNone_iff_eq_none]
  tauto

theorem mem_operator {i : Nat} {b : RuleBlock S} {k : Nat} {present : Bool} {w : Operator} {p : Problem} :
    p ∈ ofOperator i b k present w ↔ 0 < k ∧ present = false ∧ p = .noOperator i b.name w k := by
  unfold ofOperator
  rw [mem_if]
  simp [and_assoc]

theorem mem_block {e : Engine S} {i : Nat} {b : RuleBlock S} {p : Problem} : p ∈ e.ofBlock i b ↔
    (b.rules = [] ∧ p = .noRules i b.name) ∨
    ∃ w : Operator, w.Absent b ∧ 0 < e.needing w b ∧ p = .noOperator i b.name w (e.needing w b) := by
  unfold ofBlock
  rw [List.mem_append, List.mem_append, List.mem_append, mem_if, mem_operator, mem_operator, mem_operator]
  simp only [List.isEmpty_iff, Option.isSome_eq_false_iff, Option.isNone_iff_eq_none, or_assoc]
  refine or_congr_right ⟨?_, ?_⟩
  · rintro (⟨h1, h2, h3⟩ | ⟨h1, h2, h3⟩ | ⟨h1, h2, h3⟩)
    exacts [⟨.conjunction, h2, h1, h3⟩, ⟨.disjunction, h2, h1, h3⟩, ⟨.implication, h2, h1, h3⟩]
  · rintro ⟨w, h1, h2, h3⟩
    cases w
    exacts [.inl ⟨h2, h1, h3⟩, .inr (.inl ⟨h2, h1, h3⟩), .inr (.inr ⟨h2, h1, h3⟩)]

theorem mem_problems (e : Engine S) (p : Problem) : p ∈ e.problems ↔ p.Of e := by
  unfold problems
  rw [List.mem_append, List.mem_append, List.mem_append, List.mem_append, mem_if, mem_if, mem_if, mem_flatten_mapIdx, mem_flatten_mapIdx]
  simp only [List.isEmpty_iff, mem_output, mem_block]
  cases p with
  | noInputs n => simp [Problem.Of, and_comm, eq_comm]
  | noOutputs n => simp [Problem.Of, and_comm, eq_comm]
  | noBlocks n => simp [Problem.Of, and_comm, eq_comm]
  | noTerms i n => simp [Problem.Of]; grind
  | noDefuzzifier i n => simp [Problem.Of]; grind
  | noAggregation i n => simp [Problem.Of]; grind
  | noRules i n => simp [Problem.Of]; grind
  | noOperator i n w k =>
    simp only [reduceCtorEq, and_false, or_self, false_or, exists_false, Problem.Of, Problem.noOperator.injEq]
    constructor
    · rintro ⟨j, b, hb, w', h1, h2, rfl, rfl, rfl, rfl⟩
      exact ⟨b, hb, rfl, h1, h2, rfl⟩
    · rintro ⟨b, hb, rfl, h1, h2, rfl⟩
      exact ⟨i, b, hb, w, h1, h2, rfl, rfl, rfl, rfl⟩

theorem pairwise_flatten_mapIdx {α β : Type} {R : β → β → Prop} {l : List α} {f : Nat → α → List β}
    (h1 : ∀ i a, (f i a).Pairwise R) (h2 : ∀ i j a b, i < j → ∀ x ∈ f i a, ∀ y ∈ f j b, R x y) :
    (l.mapIdx f).flatten.Pairwise R := by
  rw [List.pairwise_flatten]
  constructor
  · intro m hm
    obtain ⟨i, hi, rfl⟩ := List.mem_mapIdx.1 hm
    exact h1 _ _
  · rw [List.pairwise_iff_getElem]
    intro i j hi hj hij x hx y hy
    rw [List.getElem_mapIdx] at hx hy
    exact h2 i j _ _ hij x hx y hy

theorem pairwise_if {α : Type} {R : α → α → Prop} {c : Prop} [Decidable c] {a : α} :
    (if c then [a] else []).Pairwise R := by split <;> simp

theorem output_place {i : Nat} {o : OutputVariable S} {p : Problem} (h : p ∈ ofOutput i o) :
    p.place.1 = 2 ∧ p.place.2.1 = i := by
  rcases mem_output.1 h with ⟨-, rfl⟩ | ⟨-, rfl⟩ | ⟨-, -, rfl⟩ <;> exact ⟨rfl, rfl⟩

theorem block_place {e : Engine S} {i : Nat} {b : RuleBlock S} {p : Problem} (h : p ∈ e.ofBlock i b) :
    p.place.1 = 4 ∧ p.place.2.1 = i := by
  rcases mem_block.1 h with ⟨-, rfl⟩ | ⟨w, -, -, rfl⟩
  · exact ⟨rfl, rfl⟩
  · cases w <;> exact ⟨rfl, rfl⟩

theorem output_sorted (i : Nat) (o : OutputVariable S) : (ofOutput i o).Pairwise Problem.Before := by
  unfold ofOutput
  refine List.pairwise_append.2 ⟨List.pairwise_append.2 ⟨pairwise_if, pairwise_if, ?_⟩, pairwise_if, ?_⟩
  · intro p hp q hq
    obtain ⟨-, rfl⟩ := mem_if.1 hp
    obtain ⟨-, rfl⟩ := mem_if.1 hq
    simp [Problem.Before, Problem.place]
  · intro p hp q hq
    obtain ⟨-, rfl⟩ := mem_if.1 hq
    rcases List.mem_append.1 hp with hp | hp <;> obtain ⟨-, rfl⟩ := mem_if.1 hp <;>
      simp [Problem.Before, Problem.place]

theorem block_sorted (e : Engine S) (i : Nat) (b : RuleBlock S) : (e.ofBlock i b).Pairwise Problem.Before := by
  unfold ofBlock
  refine List.pairwise_append.2 ⟨List.pairwise_append.2 ⟨List.pairwise_append.2 ⟨pairwise_if, pairwise_if, ?_⟩, pairwise_if, ?_⟩,
    pairwise_if, ?_⟩
  · intro p hp q hq
    obtain ⟨-, rfl⟩ := mem_if.1 hp
    obtain ⟨-, -, rfl⟩ := mem_operator.1 hq
    simp [Problem.Before, Problem.place]
  · intro p hp q hq
    obtain ⟨-, -, rfl⟩ := mem_operator.1 hq
    rcases List.mem_append.1 hp with hp | hp
    · obtain ⟨-, rfl⟩ := mem_if.1 hp
      simp [Problem.Before, Problem.place]
    · obtain ⟨-, -, rfl⟩ := mem_operator.1 hp
      simp [Problem.Before, Problem.place]
  · intro p hp q hq
    obtain ⟨-, -, rfl⟩ := mem_operator.1 hq
    rcases List.mem_append.1 hp with hp | hp
    · rcases List.mem_append.1 hp with hp | hp
      · obtain ⟨-, rfl⟩ := mem_if.1 hp
        simp [Problem.Before, Problem.place]
      · obtain ⟨-, -, rfl⟩ := mem_operator.1 hp
        simp [Problem.Before, Problem.place]
    · obtain ⟨-, -, rfl⟩ := mem_operator.1 hp
      simp [Problem.Before, Problem.place]

theorem problems_sorted (e : Engine S) : e.problems.Pairwise Problem.Before := by
  have hO : ∀ p ∈ (e.outputs.mapIdx ofOutput).flatten, p.place.1 = 2 := fun p hp => by
    obtain ⟨i, o, -, h⟩ := mem_flatten_mapIdx.1 hp
    exact (output_place h).1
  have hB : ∀ p ∈ (e.blocks.mapIdx e.ofBlock).flatten, p.place.1 = 4 := fun p hp => by
    obtain ⟨i, o, -, h⟩ := mem_flatten_mapIdx.1 hp
    exact (block_place h).1
  have hO' : (e.outputs.mapIdx ofOutput).flatten.Pairwise Problem.Before :=
    pairwise_flatten_mapIdx (fun i o => output_sorted i o) fun i j a b hij x hx y hy => by
      have h1 := output_place hx
      have h2 := output_place hy
      exact .inr ⟨by omega, .inl (by omega)⟩
  have hB' : (e.blocks.mapIdx e.ofBlock).flatten.Pairwise Problem.Before :=
    pairwise_flatten_mapIdx (fun i o => block_sorted e i o) fun i j a b hij x hx y hy => by
      have h1 := block_place hx
      have h2 := block_place hy
      exact .inr ⟨by omega, .inl (by omega)⟩
  unfold problems
  refine List.pairwise_append.2 ⟨List.pairwise_append.2 ⟨List.pairwise_append.2 ⟨List.pairwise_append.2
    ⟨pairwise_if, pairwise_if, ?_⟩, hO', ?_⟩, pairwise_if, ?_⟩, hB', ?_⟩
  · intro p hp q hq
    obtain ⟨-, rfl⟩ := mem_if.1 hp
    obtain ⟨-, rfl⟩ := mem_if.1 hq
    simp [Problem.Before, Problem.place]
  · intro p hp q hq
    refine .inl ?_
    rw [hO q hq]
    rcases List.mem_append.1 hp with hp | hp <;> obtain ⟨-, rfl⟩ := mem_if.1 hp <;> simp [Problem.place]
  · intro p hp q hq
    obtain ⟨-, rfl⟩ := mem_if.1 hq
    refine .inl ?_
    rcases List.mem_append.1 hp with hp | hp
    · rcases List.mem_append.1 hp with hp | hp <;> obtain ⟨-, rfl⟩ := mem_if.1 hp <;> simp [Problem.place]
    · rw [hO p hp]; simp [Problem.place]
  · intro p hp q hq
    refine .inl ?_
    rw [hB q hq]
    rcases List.mem_append.1 hp with hp | hp
    · rcases List.mem_append.1 hp with hp | hp
      · rcases List.mem_append.1 hp with hp | hp <;> obtain ⟨-, rfl⟩ := mem_if.1 hp <;> simp [Problem.place]
      · rw [hO p hp]; omega
    · obtain ⟨-, rfl⟩ := mem_if.1 hp
      simp [Problem.place]

/-! ### The property -/

/-- **C90.**  The status is the text of exactly the problems of the engine, each once, in the order of the
engine: there is exactly one such list. -/
theorem status_spec (e : Engine S) : ∃! ps : List Problem,
    (∀ p, p ∈ ps ↔ p.Of e) ∧ ps.Pairwise Problem.Before ∧ e.status = (ps.map Problem.text).flatten := by
  refine ⟨e.problems, ⟨e.mem_problems, e.problems_sorted, e.textOf_problems.symm⟩, ?_⟩
  rintro qs ⟨h1, h2, -⟩
  have irr : ∀ p : Problem, ¬ p.Before p := fun p h => by
    unfold Problem.Before at h
    omega
  have nd : ∀ {l : List Problem}, l.Pairwise Problem.Before → l.Nodup := fun h => by
    refine List.Pairwise.imp ?_ h
    intro a b hab hc
    subst hc
    exact irr a hab
  have hp : qs.Perm e.problems := (List.perm_ext_iff_of_nodup (nd h2) (nd e.problems_sorted)).2 fun p => by
    rw [h1, e.mem_problems]
  refine hp.eq_of_pairwise (fun a b _ _ hab hba => ?_) h2 e.problems_sorted
  unfold Problem.Before at hab hba
  omega

theorem text_ne (p : Problem) : p.text ≠ [] := by
  cases p <;> simp [Problem.text]

/-- **C90.**  The status is empty exactly when the engine has no problem. -/
theorem status_empty (e : Engine S) : e.status = [] ↔ ∀ p : Problem, ¬ p.Of e := by
  rw [← e.textOf_problems]
  unfold textOf
  rw [List.flatten_eq_nil_iff]
  constructor
  · intro h p hp
    exact text_ne p (h _ (List.mem_map_of_mem ((e.mem_problems p).2 hp)))
  · intro h l hl
    obtain ⟨p, hp, -⟩ := List.mem_map.1 hl
    exact absurd ((e.mem_problems p).1 hp) (h p)

/-- **C90.**  `isReady` returns true exactly when it writes nothing. -/
theorem status_ready (e : Engine S) : e.isReady = true ↔ e.status = [] := by
  have hb : ∀ i b, blockText e.outputs i b = [] ↔ blockReady e.outputs b = true := by
    intro i b
    unfold blockText blockReady
    rw [countRule_fold]
    simp only [Nat.zero_add, List.append_eq_nil_iff, operatorText, Bool.and_eq_true]
    refine and_congr (and_congr (and_congr ?_ ?_) ?_) ?_
    · cases b.rules <;> simp [blockHead]
    all_goals simp only [Bool.or_eq_true, Bool.not_eq_true']
    · cases b.conjunction <;> simp [blockHead, Nat.pos_iff_ne_zero]
    · cases b.disjunction <;> simp [blockHead, Nat.pos_iff_ne_zero]
    · cases b.implication <;> simp [blockHead, Nat.pos_iff_ne_zero]
  have ho : ∀ o : OutputVariable S, outputText o = [] ↔ outputReady o = true := by
    intro o
    unfold outputText outputReady
    simp only [List.append_eq_nil_iff, Bool.and_eq_true]
    refine and_congr (and_congr ?_ ?_) ?_
    · cases o.terms <;> simp
    · cases o.defuzzifier <;> simp
    · cases o.fuzzy.aggregation <;> simp
  unfold isReady status
  simp only [List.append_eq_nil_iff, Bool.and_eq_true, List.flatten_eq_nil_iff, List.all_eq_true]
  refine and_congr (and_congr (and_congr (and_congr ?_ ?_) ?_) ?_) ?_
  · cases e.inputs <;> simp
  · cases e.outputs <;> simp
  · simp [ho]
  · cases e.blocks <;> simp
  · constructor
    · intro h l hl
      obtain ⟨i, hi, rfl⟩ := List.mem_mapIdx.1 hl
      exact (hb i _).2 (h _ (List.getElem_mem hi))
    · intro h b hm
      obtain ⟨i, hi, rfl⟩ := List.getElem_of_mem hm
      exact (hb i _).1 (h _ (List.mem_mapIdx.2 ⟨i, hi, rfl⟩))

/-- **C90.**  Supplying every operator and a defuzzifier leaves exactly the problems about missing variables,
terms, rule blocks and rules. -/
theorem status_configure (e : Engine S) (c : TNorm S) (d : SNorm S) (i : TNorm S) (a : SNorm S) (z : Defuzzifier)
    (m : Option (Activation S)) (p : Problem) : p.Of (e.configure (some c) (some d) (some i) (some a) (some z) m) ↔
    p.Of e ∧ match p with
      | .noDefuzzifier _ _ | .noAggregation _ _ | .noOperator _ _ _ _ => False
      | _ => True := by
  cases p with
  | noInputs n => simp [Problem.Of, configure]
  | noOutputs n => simp [Problem.Of, configure]
  | noBlocks n => simp [Problem.Of, configure]
  | noTerms i n => simp [Problem.Of, configure]
  | noDefuzzifier i n => simp [Problem.Of, configure]
  | noAggregation i n => simp [Problem.Of, configure]
  | noRules i n => simp [Problem.Of, configure]
  | noOperator i n w k => cases w <;> simp [Problem.Of, configure, Operator.Absent]

/-- **C90.**  An operator that is supplied to a rule block is no longer reported for it, and what is
reported otherwise does not change. -/
theorem status_operator (e : Engine S) (j : Nat) (c : TNorm S) (p : Problem) :
    p.Of { e with blocks := e.blocks.modify j fun b => { b with conjunction := some c } } ↔
      p.Of e ∧ ∀ n k, p ≠ .noOperator j n .conjunction k := by
  have hg : ∀ i, (e.blocks.modify j fun b => { b with conjunction := some c })[i]? =
      (e.blocks[i]?).map fun b => if i = j then { b with conjunction := some c } else b := by
    intro i
    rw [List.getElem?_modify]
    by_cases h : j = i
    · subst h; simp
    · simp [h, Ne.symm h]
  cases p with
  | noInputs n => simp [Problem.Of]
  | noOutputs n => simp [Problem.Of]
  | noBlocks n =>
    simp [Problem.Of]
  | noTerms i n => simp [Problem.Of]
  | noDefuzzifier i n => simp [Problem.Of]
  | noAggregation i n => simp [Problem.Of]
  | noRules i n =>
    simp only [Problem.Of, hg, Option.map_eq_some_iff]
    by_cases h : i = j
    · simp [h]
    · simp [h]
  | noOperator i n w k =>
    have hN : ∀ b : RuleBlock S, needing { e with blocks := e.blocks.modify j fun b => { b with conjunction := some c } } w b =
        e.needing w b := by
      intro b
      unfold needing
      congr 1
    have hC : ∀ b : RuleBlock S, e.needing w { b with conjunction := some c } = e.needing w b := fun b => rfl
    simp only [Problem.Of, hg, Option.map_eq_some_iff, hN]
    by_cases h : i = j
    · subst h
      cases w <;> simp [Operator.Absent, hC]
    · simp [h]

namespace StatusDemo

/-- an empty engine lacks everything -/
example : (⟨cs! "e", [], [], [], []⟩ : Engine (Ext Rat)).status =
    cs! "- Engine <e> has no input variables\n- Engine <e> has no output variables\n- Engine <e> has no rule blocks\n" := by
  decide +kernel

/-- two output variables, the second without terms and defuzzifier, and two rule blocks without operators -/
def engine : Engine (Ext Rat) :=
  let t : Term (Ext Rat) := ⟨cs! "low", .fin 1, .shape (.ramp (.fin 1) (.fin 0))⟩
  let ins := [Variable.new (cs! "a") (.fin 0) (.fin 1) [t], Variable.new (cs! "b") (.fin 0) (.fin 1) [t]]
  let outs := [{ OutputVariable.new (cs! "y") (.fin 0) (.fin 1) [t] with defuzzifier := some (.integral .centroid 100) },
    OutputVariable.new (cs! "z") (.fin 0) (.fin 1) []]
  let rules := [cs! "if a is low and b is low then y is low", cs! "if a is low or b is low and a is low then y is low",
    cs! "if a is low then y is low and y is low"]
  ⟨cs! "e", [], ins, outs,
   [RuleBlock.new (cs! "none"),
    { RuleBlock.new (cs! "some") with
      rules := (loadRules Registry.default (World.mk ins outs).vocabulary (rules.map Rule.new)).1 }]⟩

/-- what is missing is listed in order, and the rules that need an operator are counted -/
example : engine.status =
    cs! "- Output variable <y> has no aggregation operator\n" ++
    cs! "- Output variable <z> has no terms\n" ++
    cs! "- Output variable <z> has no defuzzifier\n" ++
    cs! "- Rule block 1 <none> has no rules\n" ++
    cs! "- Rule block 2 <some> has no conjunction operator\n" ++
    cs! "- Rule block 2 <some> has 2 rules that require conjunction operator\n" ++
    cs! "- Rule block 2 <some> has no disjunction operator\n" ++
    cs! "- Rule block 2 <some> has 1 rules that require disjunction operator\n" ++
    cs! "- Rule block 2 <some> has no implication operator\n" ++
    cs! "- Rule block 2 <some> has 3 rules that require implication operator\n" := by decide +kernel

/-- with every operator, terms and rules are still missing -/
example : (engine.configure (some (.builtin .minimum)) (some (.builtin .maximum)) (some (.builtin .minimum))
    (some (.builtin .maximum)) (some (.integral .centroid 100)) none).status =
    cs! "- Output variable <z> has no terms\n- Rule block 1 <none> has no rules\n" := by decide +kernel

/-- the problems of the specification, for the same engine -/
example : (Problem.noTerms 1 (cs! "z")).Of engine ∧ (Problem.noRules 0 (cs! "none")).Of engine ∧
    ¬ (Problem.noInputs (cs! "e")).Of engine := by
  refine ⟨⟨_, rfl, rfl, rfl⟩, ⟨_, rfl, rfl, rfl⟩, fun h => ?_⟩
  exact absurd h.2 (by simp [engine])

/-- the second rule uses both connectives, the third uses none before `then` -/
example : Uses (cs! "and") (cs! "if a is low or b is low and a is low then y is low") ∧
    ¬ Uses (cs! "and") (cs! "if a is low then y is low and y is low") := by
  rw [← textRequires_iff, ← textRequires_iff]
  decide +kernel

end StatusDemo

end Engine

end FL
