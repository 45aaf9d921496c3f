/-
C51: exported FLL text is a fixed point of import followed by export.
-/
import Verif.Lemmas.Fll
import Verif.Props.Parameters
import Verif.Props.Formula

namespace FL
open Scalar

namespace Op

instance (s : Str) : Decidable (NoBlank s) := inferInstanceAs (Decidable (∀ c ∈ s, isSpace c = false))

theorem mem_join_of {ts : List Str} {sep t : Str} {c : Char} (ht : t ∈ ts) (hc : c ∈ t) : c ∈ join ts sep := by
  induction ts with
  | nil => simp at ht
  | cons u us ih =>
    cases us with
    | nil =>
      obtain rfl : t = u := by simpa using ht
      exact hc
    | cons v vs =>
      rw [join_cons _ _ _ (by simp)]
      rcases List.mem_cons.1 ht with rfl | ht
      · simp [hc]
      · simp [ih ht]

end Op

section
variable {S : Type} [ScalarText S]

/-! ### what is read where an engine was written -/

namespace Fll

/-- the term read where `t` was written: a new term of the class, with a valid name, that refers to
the engine and is configured from the parameters -/
def readTerm (F : ElementFactory S) (ctx : Ctx S) (t : Term S) : Except Err (Term S) :=
  match ({ Engine.updateTerm F ctx t.fresh with name := Op.validName t.name } : Term S).configure F ctx t.parameters with
  | (t, none) => .ok t
  | (_, some e) => .error e

/-- the input variable read where `v` was written -/
def readInput (F : ElementFactory S) (ctx : Ctx S) (v : Variable S) : Except Err (Variable S) := do
  let ts ← v.terms.mapM (readTerm F ctx)
  .ok { name := Op.validName v.name, description := v.description, terms := ts, value := nan,
        minimum := reread v.minimum, maximum := reread v.maximum, enabled := v.enabled, lockRange := v.lockRange }

/-- the output variable read where `v` was written -/
def readOutput (F : ElementFactory S) (ctx : Ctx S) (v : OutputVariable S) : Except Err (OutputVariable S) := do
  let ts ← v.terms.mapM (readTerm F ctx)
  .ok { name := Op.validName v.name, description := v.description, terms := ts, value := nan,
        minimum := reread v.minimum, maximum := reread v.maximum, enabled := v.enabled, lockRange := v.lockRange,
        fuzzy := ⟨Op.validName v.name, reread v.minimum, reread v.maximum, v.fuzzy.aggregation, []⟩,
        defuzzifier := v.defuzzifier, previous := nan, default := reread v.default, lockPrevious := v.lockPrevious }

/-- the activation method read where `a` was written -/
def readActivation : Activation S → Activation S
  | .first n t => .first n (reread t)
  | .last n t => .last n (reread t)
  | .threshold c v => .threshold c (reread v)
  | a => a

/-- the rule block read where `b` was written: without an activation method it gets the method
General, and rules are loaded from their text -/
def readBlock (G : Registry S) (V : Vocabulary) (b : RuleBlock S) : RuleBlock S :=
  { b with activation := some (readActivation (b.activation.getD .general)),
           rules := b.rules.map fun r => ((Rule.new r.text).reload G V).1 }

/-- the engine read where `e` was written: every variable is read with the variables before it in
the engine, then the rule blocks are -/
def reading (G : Registry S) (e : Engine S) : Except Err (Engine S) := do
  let is ← e.inputs.foldlM (fun d v => do
    let v ← readInput G.functions d.world.ctx v
    .ok { d with inputs := d.inputs ++ [v] }) (⟨e.name, e.description, [], [], []⟩ : Engine S)
  let os ← e.outputs.foldlM (fun d v => do
    let v ← readOutput G.functions d.world.ctx v
    .ok { d with outputs := d.outputs ++ [v] }) is
  .ok { os with blocks := e.blocks.map (readBlock G os.world.vocabulary) }

/-! ### engines that can be written -/

/-- `n` is a number of type `int` -/
def IsInt (n : Int) : Prop := -2147483648 ≤ n ∧ n ≤ 2147483647

/-- a term with a name that has a valid character; formulas are words separated by single blanks,
without comments -/
structure GoodTerm (t : Term S) : Prop where
  name : Op.validName t.name ≠ []
  formula : ∀ f, t.kind = .function f → Op.join (Op.words f.formula) (cs! " ") = f.formula ∧ '#' ∉ f.formula

structure GoodVariable (v : Variable S) : Prop where
  name : Op.validName v.name ≠ []
  description : Clean v.description
  terms : ∀ t ∈ v.terms, GoodTerm t

structure GoodOutput (v : OutputVariable S) : Prop extends GoodVariable v.toVariable where
  aggregation : ∀ k, v.fuzzy.aggregation = some k → ∃ j, k = .builtin j
  resolution : ∀ k r, v.defuzzifier = some (.integral k r) → IsInt r

structure GoodBlock (b : RuleBlock S) : Prop where
  name : Clean b.name
  description : Clean b.description
  conjunction : ∀ k, b.conjunction = some k → ∃ j, k = .builtin j
  disjunction : ∀ k, b.disjunction = some k → ∃ j, k = .builtin j
  implication : ∀ k, b.implication = some k → ∃ j, k = .builtin j
  rules : ∀ r ∈ b.rules, Clean r.text
  number : ∀ n t, b.activation = some (.first n t) ∨ b.activation = some (.last n t) ∨
    b.activation = some (.highest n) ∨ b.activation = some (.lowest n) → IsInt n

/-- engines with well-formed names: names of variables and terms have a valid character, other texts
are trimmed and without line feeds and comments, and norms are the ones of the library -/
structure Good (e : Engine S) : Prop where
  name : Clean e.name
  description : Clean e.description
  inputs : ∀ v ∈ e.inputs, GoodVariable v
  outputs : ∀ v ∈ e.outputs, GoodOutput v
  blocks : ∀ b ∈ e.blocks, GoodBlock b

/-! ### terms -/

theorem registered_find (t : Term S) :
    (Term.registered (S := S)).find? (fun u => u.className == t.className) = some t.fresh := by
  obtain ⟨n, h, k⟩ := t
  cases k with
  | shape s => cases s <;> rfl
  | discrete xy => rfl
  | constant v => rfl
  | linear c e => rfl
  | function f => rfl

theorem className_word (t : Term S) : t.className ≠ [] ∧ Op.NoBlank t.className ∧ '#' ∉ t.className := by
  obtain ⟨n, h, k⟩ := t
  cases k with
  | shape s => cases s <;> simp only [Term.className, Shape.className] <;> decide
  | discrete xy => simp only [Term.className]; decide
  | constant v => simp only [Term.className]; decide
  | linear c e => simp only [Term.className]; decide
  | function f => simp only [Term.className]; decide

theorem validName_word (n : Str) : Op.NoBlank (Op.validName n) ∧ '#' ∉ Op.validName n ∧ '\n' ∉ Op.validName n := by
  have h := (Op.validName_partial n).1
  have hb : Op.NoBlank (Op.validName n) := by
    intro c hc
    by_contra hs
    rw [Bool.not_eq_false] at hs
    have := h c hc
    unfold isSpace at hs
    simp only [Bool.or_eq_true, beq_iff_eq] at hs
    rcases hs with ((((e | e) | e) | e) | e) | e <;> subst e <;> exact absurd this (by decide)
  exact ⟨hb, fun hc => absurd (h _ hc) (by decide), fun hc => absurd (hb _ hc) (by decide)⟩

theorem parameters_words [LawfulText S] (t : Term S) (h : GoodTerm t) :
    ∃ ws : List Str, t.parameters = Op.join ws (cs! " ") ∧ ∀ w ∈ ws, w ≠ [] ∧ Op.NoBlank w ∧ '#' ∉ w := by
  have strs : ∀ xs : List S, ∀ w ∈ xs.map ScalarText.str, w ≠ [] ∧ Op.NoBlank w ∧ '#' ∉ w := by
    intro xs w hw
    obtain ⟨x, -, rfl⟩ := List.mem_map.1 hw
    exact ⟨LawfulText.str_ne x, fun c hc => (LawfulText.str_char x c hc).1, fun hc => (LawfulText.str_char x _ hc).2 rfl⟩
  cases hk : t.kind with
  | shape s =>
    refine ⟨_, ?_, strs (s.written ++ if Op.isEq t.height (lit 1) then [] else [t.height])⟩
    have hw : s.written ≠ [] := by cases s <;> simp [Shape.written]
    unfold Term.parameters
    rw [hk]
    simp only
    split_ifs with h
    · simp
    · rw [List.map_append, List.map_singleton, Op.join_snoc _ (by simpa using hw)]
      simp
  | discrete xy =>
    refine ⟨_, ?_, strs (Discrete.toVector xy ++ if Op.isEq t.height (lit 1) then [] else [t.height])⟩
    unfold Term.parameters
    rw [hk]
    simp only
    rw [Term.heightText_eq]
    split_ifs <;> simp
  | constant v => exact ⟨[v].map ScalarText.str, by unfold Term.parameters; rw [hk]; rfl, strs [v]⟩
  | linear c e => exact ⟨c.map ScalarText.str, by unfold Term.parameters; rw [hk], strs c⟩
  | function f =>
    obtain ⟨h1, h2⟩ := h.formula f hk
    refine ⟨Op.words f.formula, by unfold Term.parameters; rw [hk]; exact h1.symm, fun w hw => ?_⟩
    obtain ⟨a, b⟩ := Op.words_mem f.formula w hw
    refine ⟨a, b, fun hc => h2 ?_⟩
    rw [← h1]
    exact Op.mem_join_of hw hc

/-- the value of the line of a term -/
def termValue (t : Term S) : Str :=
  Op.join ([Op.validName t.name, t.className] ++ if t.parameters.isEmpty then [] else [t.parameters]) (cs! " ")

theorem term_text (t : Term S) : FllExporter.term t = cs! "term" ++ (cs! ": " ++ termValue t) := by
  unfold FllExporter.term termValue
  rw [List.cons_append, Op.join_cons _ _ _ (by simp)]
  simp

theorem termValue_words [LawfulText S] (t : Term S) (h : GoodTerm t) :
    ∃ ws : List Str, t.parameters = Op.join ws (cs! " ") ∧
      termValue t = Op.join (Op.validName t.name :: t.className :: ws) (cs! " ") ∧
      ∀ w ∈ Op.validName t.name :: t.className :: ws, w ≠ [] ∧ Op.NoBlank w ∧ '#' ∉ w := by
  obtain ⟨ws, h1, h2⟩ := parameters_words t h
  refine ⟨ws, h1, ?_, ?_⟩
  · unfold termValue
    cases ws with
    | nil =>
      have : t.parameters = [] := by rw [h1]; rfl
      simp [this]
    | cons w ws =>
      have hne : t.parameters ≠ [] := by
        rw [h1]; exact Op.join_ne_nil _ _ (by simp) fun w hw => (h2 w hw).1
      rw [if_neg (by simpa using hne), h1]
      show Op.join [Op.validName t.name, t.className, Op.join (w :: ws) (cs! " ")] (cs! " ") = _
      simp [Op.join]
  · intro w hw
    rcases List.mem_cons.1 hw with rfl | hw
    · exact ⟨h.name, (validName_word _).1, (validName_word _).2.1⟩
    · rcases List.mem_cons.1 hw with rfl | hw
      · exact className_word t
      · exact h2 w hw

theorem words_clean (ws : List Str) (h : ∀ w ∈ ws, w ≠ [] ∧ Op.NoBlank w ∧ '#' ∉ w) : Clean (Op.join ws (cs! " ")) := by
  refine ⟨Op.trim_words ws fun w hw => ⟨(h w hw).1, (h w hw).2.1⟩, fun hc => ?_, fun hc => ?_⟩
  · rcases Op.mem_join hc with ⟨w, hw, hc⟩ | hc
    · exact (h w hw).2.2 hc
    · exact absurd hc (by decide)
  · rcases Op.mem_join hc with ⟨w, hw, hc⟩ | hc
    · exact absurd ((h w hw).2.1 _ hc) (by decide)
    · exact absurd hc (by decide)

theorem parseTerm_value [LawfulText S] (F : ElementFactory S) (ctx : Ctx S) (t : Term S) (h : GoodTerm t) :
    FllImporter.parseTerm F ctx (termValue t) = readTerm F ctx t := by
  obtain ⟨ws, h1, h2, h3⟩ := termValue_words t h
  unfold FllImporter.parseTerm readTerm
  rw [h2, Op.split_words _ (by simp) fun w hw => ⟨(h3 w hw).1, (h3 w hw).2.1⟩]
  simp only
  rw [if_neg (className_word t).1, registered_find]
  simp only
  rw [← h1, (Op.validName_partial t.name).2.2 h.name]
  rfl

/-! ### variables -/

theorem ok_bind {α β : Type} (a : α) (f : α → Except Err β) : (Except.ok a >>= f) = f a := rfl

theorem bool_clean (b : Bool) : Clean (FllExporter.bool b) := by cases b <;> decide

theorem parseBoolean_bool (b : Bool) : FllImporter.parseBoolean (FllExporter.bool b) = .ok b := by cases b <;> rfl

theorem parseKeyValue_key (k v : Str) (h : Key k) : FllImporter.parseKeyValue (k ++ cs! ":" ++ v) ':' = .ok (k, v) := by
  have hc : ':' ∉ k := fun hc => (h.2 _ hc).2.1 rfl
  unfold FllImporter.parseKeyValue
  rw [List.append_assoc, List.singleton_append, FllImporter.cut_append ':' k v hc]

theorem toScalar_str [LawfulText S] (x : S) : toScalar (ScalarText.str x) = .ok (reread x) := by
  unfold toScalar
  rw [ofText_str]

theorem parseRange_text [LawfulText S] (a b : S) :
    FllImporter.parseRange (Op.join [ScalarText.str a, ScalarText.str b] (cs! " ")) = .ok (reread a, reread b) := by
  have hc : ' ' ∉ ScalarText.str a := fun hc => absurd (LawfulText.str_char a _ hc).1 (by decide)
  have : Op.join [ScalarText.str a, ScalarText.str b] (cs! " ") = ScalarText.str a ++ ' ' :: ScalarText.str b := by
    simp [Op.join]
  unfold FllImporter.parseRange FllImporter.parseKeyValue
  rw [this, FllImporter.cut_append ' ' _ _ hc]
  show (toScalar (ScalarText.str a) >>= _) = _
  rw [toScalar_str]
  show (toScalar (ScalarText.str b) >>= _) = _
  rw [toScalar_str]
  rfl

theorem range_clean [LawfulText S] (a b : S) : Clean (Op.join [ScalarText.str a, ScalarText.str b] (cs! " ")) := by
  apply words_clean
  intro w hw
  have : ∀ x : S, ScalarText.str x ≠ [] ∧ Op.NoBlank (ScalarText.str x) ∧ '#' ∉ ScalarText.str x := fun x =>
    ⟨LawfulText.str_ne x, fun c hc => (LawfulText.str_char x c hc).1, fun hc => (LawfulText.str_char x _ hc).2 rfl⟩
  simp only [List.mem_cons, List.not_mem_nil, or_false] at hw
  rcases hw with rfl | rfl <;> exact this _

theorem name_clean (n : Str) : Clean (Op.validName n) :=
  ⟨Op.trim_noBlank _ (validName_word n).1, (validName_word n).2.1, (validName_word n).2.2⟩

/-- the line of a description -/
def descriptionOf (d : Str) : List (Str × Str) := if d.isEmpty then [] else [(cs! "description", d)]

def inputComponent (v : Variable S) : Component where
  tag := cs! "InputVariable"
  name := Op.validName v.name
  body := descriptionOf v.description ++
    [(cs! "enabled", FllExporter.bool v.enabled),
     (cs! "range", Op.join [ScalarText.str v.minimum, ScalarText.str v.maximum] (cs! " ")),
     (cs! "lock-range", FllExporter.bool v.lockRange)] ++
    v.terms.map fun t => (cs! "term", termValue t)

theorem description_lines (x : FllExporter) (d : Str) :
    x.description d = (descriptionOf d).map fun p => x.indent ++ (p.1 ++ (cs! ": " ++ p.2)) := by
  unfold FllExporter.description descriptionOf
  split_ifs <;> simp

theorem inputVariable_text (x : FllExporter) (v : Variable S) :
    x.inputVariable v = Op.join ((inputComponent v).lines x.indent) x.separator := by
  unfold FllExporter.inputVariable Component.lines inputComponent
  rw [description_lines]
  simp [Function.comp_def, term_text]

theorem input_good [LawfulText S] (v : Variable S) (h : GoodVariable v) : (inputComponent v).Good := by
  refine ⟨by show cs! "InputVariable" ∈ Component.tags; decide, name_clean _, ?_, ?_⟩
  · intro p hp
    simp only [inputComponent, List.mem_append, List.mem_cons, List.not_mem_nil, or_false, List.mem_map] at hp
    rcases hp with (hp | rfl | rfl | rfl) | ⟨t, -, rfl⟩
    · unfold descriptionOf at hp
      split_ifs at hp
      · simp at hp
      · obtain rfl : p = _ := by simpa using hp
        constructor <;> simp only <;> decide
    all_goals constructor <;> simp only <;> decide
  · intro p hp
    simp only [inputComponent, List.mem_append, List.mem_cons, List.not_mem_nil, or_false, List.mem_map] at hp
    rcases hp with (hp | rfl | rfl | rfl) | ⟨t, ht, rfl⟩
    · unfold descriptionOf at hp
      split_ifs at hp
      · simp at hp
      · obtain rfl : p = _ := by simpa using hp
        exact h.description
    · exact bool_clean _
    · exact range_clean _ _
    · exact bool_clean _
    · obtain ⟨ws, -, h2, h3⟩ := termValue_words t (h.terms t ht)
      show Clean (termValue t)
      rw [h2]
      exact words_clean _ h3

theorem inputStep_terms [LawfulText S] (F : ElementFactory S) (ctx : Ctx S) (ts : List (Term S)) (h : ∀ t ∈ ts, GoodTerm t)
    (v : Variable S) :
    (ts.map fun t => cs! "term" ++ cs! ":" ++ termValue t).foldlM (FllImporter.inputStep F ctx) v =
      (do let us ← ts.mapM (readTerm F ctx)
          .ok { v with terms := v.terms ++ us }) := by
  induction ts generalizing v with
  | nil => simp [pure, Except.pure, bind, Except.bind]
  | cons t ts ih =>
    have e : FllImporter.inputStep F ctx v (cs! "term" ++ cs! ":" ++ termValue t) =
        (do let u ← readTerm F ctx t
            .ok (v.addTerm u)) := by
      unfold FllImporter.inputStep
      rw [parseKeyValue_key _ _ (by decide), ← parseTerm_value F ctx t (h t (by simp))]
      rfl
    rw [List.map_cons, List.foldlM_cons, e, List.mapM_cons]
    cases readTerm F ctx t with
    | error err => rfl
    | ok u =>
      have := ih (fun t ht => h t (List.mem_cons_of_mem _ ht)) (v.addTerm u)
      refine this.trans ?_
      cases ts.mapM (readTerm F ctx) with
      | error err => rfl
      | ok us => simp [bind, Except.bind, pure, Except.pure, Variable.addTerm]

theorem inputStep_description (F : ElementFactory S) (ctx : Ctx S) (d : Str) (v : Variable S) (hv : v.description = []) :
    ((descriptionOf d).map fun p => p.1 ++ cs! ":" ++ p.2).foldlM (FllImporter.inputStep F ctx) v =
      .ok { v with description := d } := by
  unfold descriptionOf
  split_ifs with h
  · obtain rfl : d = [] := by simpa using h
    obtain ⟨⟩ := v
    simp only at hv
    subst hv
    rfl
  · rw [List.map_singleton, List.foldlM_cons]
    unfold FllImporter.inputStep
    rw [parseKeyValue_key (cs! "description") d (by decide)]
    rfl

theorem processInputVariable_component [LawfulText S] (G : Registry S) (e : Engine S) (v : Variable S) (h : GoodVariable v) :
    FllImporter.processInputVariable G (Op.join (inputComponent v).block (cs! "\n")) e =
      (do let v ← readInput G.functions e.world.ctx v
          .ok { e with inputs := e.inputs ++ [v] }) := by
  unfold FllImporter.processInputVariable
  rw [Component.block_lines _ (input_good v h)]
  have hb : (inputComponent v).block = (cs! "InputVariable" ++ cs! ":" ++ Op.validName v.name) ::
      (((descriptionOf v.description).map fun p => p.1 ++ cs! ":" ++ p.2) ++
      ((cs! "enabled" ++ cs! ":" ++ FllExporter.bool v.enabled) ::
       (cs! "range" ++ cs! ":" ++ Op.join [ScalarText.str v.minimum, ScalarText.str v.maximum] (cs! " ")) ::
       (cs! "lock-range" ++ cs! ":" ++ FllExporter.bool v.lockRange) ::
       v.terms.map fun t => cs! "term" ++ cs! ":" ++ termValue t)) := by
    simp [Component.block, inputComponent, Function.comp_def]
  rw [hb, List.foldlM_cons]
  have e1 : ∀ u : Variable S, FllImporter.inputStep G.functions e.world.ctx u
      (cs! "InputVariable" ++ cs! ":" ++ Op.validName v.name) = .ok { u with name := Op.validName v.name } := by
    intro u
    unfold FllImporter.inputStep
    rw [parseKeyValue_key _ _ (by decide)]
    show Except.ok { u with name := Op.validName (Op.validName v.name) } = _
    rw [(Op.validName_partial v.name).2.2 h.name]
  have e2 : ∀ u : Variable S, FllImporter.inputStep G.functions e.world.ctx u
      (cs! "enabled" ++ cs! ":" ++ FllExporter.bool v.enabled) = .ok { u with enabled := v.enabled } := by
    intro u
    unfold FllImporter.inputStep
    rw [parseKeyValue_key _ _ (by decide)]
    show (FllImporter.parseBoolean (FllExporter.bool v.enabled) >>= _) = _
    rw [parseBoolean_bool]
    rfl
  have e3 : ∀ u : Variable S, FllImporter.inputStep G.functions e.world.ctx u
      (cs! "range" ++ cs! ":" ++ Op.join [ScalarText.str v.minimum, ScalarText.str v.maximum] (cs! " "))
        = .ok { u with minimum := reread v.minimum, maximum := reread v.maximum } := by
    intro u
    unfold FllImporter.inputStep
    rw [parseKeyValue_key _ _ (by decide)]
    show (FllImporter.parseRange (Op.join [ScalarText.str v.minimum, ScalarText.str v.maximum] (cs! " ")) >>= _) = _
    rw [parseRange_text]
    rfl
  have e4 : ∀ u : Variable S, FllImporter.inputStep G.functions e.world.ctx u
      (cs! "lock-range" ++ cs! ":" ++ FllExporter.bool v.lockRange) = .ok { u with lockRange := v.lockRange } := by
    intro u
    unfold FllImporter.inputStep
    rw [parseKeyValue_key _ _ (by decide)]
    show (FllImporter.parseBoolean (FllExporter.bool v.lockRange) >>= _) = _
    rw [parseBoolean_bool]
    rfl
  rw [e1, ok_bind, List.foldlM_append, inputStep_description _ _ _ _ rfl, ok_bind]
  simp only [List.foldlM_cons, ok_bind, e2, e3, e4]
  rw [inputStep_terms _ _ _ h.terms]
  unfold readInput
  cases v.terms.mapM (readTerm G.functions e.world.ctx) <;> rfl

/-- the texts written for integers are words -/
theorem intText_word (n : Int) : intText n ≠ [] ∧ Op.NoBlank (intText n) ∧ '#' ∉ intText n := by
  have h : ∀ k, ∀ c ∈ Nat.toDigits 10 k, isSpace c = false ∧ c ≠ '#' := fun k c hc =>
    Decimal.digit_char c (Nat.isDigit_of_mem_toDigits (by decide) (by decide) hc)
  cases n with
  | ofNat k => exact ⟨Nat.toDigits_ne_nil, fun c hc => (h k c hc).1, fun hc => (h k _ hc).2 rfl⟩
  | negSucc k =>
    refine ⟨by simp [intText], ?_, ?_⟩
    · intro c hc
      rcases List.mem_cons.1 hc with rfl | hc
      · decide
      · exact (h (k + 1) c hc).1
    · intro hc
      rcases List.mem_cons.1 hc with e | hc
      · exact absurd e (by decide)
      · exact (h (k + 1) _ hc).2 rfl

theorem toInt_text [Truncate S] [LawfulInt S] (n : Int) (h : IsInt n) : toInt S (intText n) = .ok n := by
  obtain ⟨x, h1, h2⟩ := LawfulInt.reads (S := S) n h.1 h.2
  unfold toInt
  rw [h1]
  simp only [h2]

theorem str_word [LawfulText S] (x : S) : ScalarText.str x ≠ [] ∧ Op.NoBlank (ScalarText.str x) ∧ '#' ∉ ScalarText.str x :=
  ⟨LawfulText.str_ne x, fun c hc => (LawfulText.str_char x c hc).1, fun hc => (LawfulText.str_char x _ hc).2 rfl⟩

theorem word_clean (w : Str) (h : Op.NoBlank w ∧ '#' ∉ w) : Clean w :=
  ⟨Op.trim_noBlank w h.1, h.2, fun hc => absurd (h.1 _ hc) (by decide)⟩

theorem tnorm_clean (k : Option (TNorm S)) : Clean (FllExporter.tnorm k) := by
  cases k with
  | none => simp only [FllExporter.tnorm]; decide
  | some k => cases k with
    | builtin j => cases j <;> simp only [FllExporter.tnorm, TNorm.className, TNormKind.className] <;> decide
    | function f => simp only [FllExporter.tnorm, TNorm.className]; decide

theorem snorm_clean (k : Option (SNorm S)) : Clean (FllExporter.snorm k) := by
  cases k with
  | none => simp only [FllExporter.snorm]; decide
  | some k => cases k with
    | builtin j => cases j <;> simp only [FllExporter.snorm, SNorm.className, SNormKind.className] <;> decide
    | function f => simp only [FllExporter.snorm, SNorm.className]; decide

theorem parseTNorm_text (k : Option (TNorm S)) (h : ∀ n, k = some n → ∃ j, n = .builtin j) :
    FllImporter.parseTNorm (FllExporter.tnorm k) = .ok k := by
  cases k with
  | none => rfl
  | some n =>
    obtain ⟨j, rfl⟩ := h n rfl
    cases j <;> rfl

theorem parseSNorm_text (k : Option (SNorm S)) (h : ∀ n, k = some n → ∃ j, n = .builtin j) :
    FllImporter.parseSNorm (FllExporter.snorm k) = .ok k := by
  cases k with
  | none => rfl
  | some n =>
    obtain ⟨j, rfl⟩ := h n rfl
    cases j <;> rfl

theorem integral_word (k : IntegralKind) : k.className ≠ [] ∧ Op.NoBlank k.className ∧ '#' ∉ k.className := by
  cases k <;> decide

theorem weighted_word (k : WeightedKind) : k.className ≠ [] ∧ Op.NoBlank k.className ∧ '#' ∉ k.className := by
  cases k <;> decide

theorem type_word (t : WeightedType) : t.typeName ≠ [] ∧ Op.NoBlank t.typeName ∧ '#' ∉ t.typeName := by
  cases t <;> decide

/-- the words written for a defuzzifier -/
def defuzzifierWords (x : FllExporter) : Option Defuzzifier → List Str
  | none => [cs! "none"]
  | some (.integral k r) => k.className :: if r = x.resolution then [] else [intText r]
  | some (.weighted k t) => k.className :: if t = .automatic then [] else [t.typeName]

theorem defuzzifier_text (x : FllExporter) (d : Option Defuzzifier) :
    x.defuzzifier d = Op.join (defuzzifierWords x d) (cs! " ") ∧ defuzzifierWords x d ≠ [] ∧
    ∀ w ∈ defuzzifierWords x d, w ≠ [] ∧ Op.NoBlank w ∧ '#' ∉ w := by
  cases d with
  | none =>
    refine ⟨rfl, by simp [defuzzifierWords], ?_⟩
    intro w hw
    obtain rfl : w = cs! "none" := by simpa [defuzzifierWords] using hw
    decide
  | some d => cases d with
    | integral k r =>
      refine ⟨?_, by simp [defuzzifierWords], ?_⟩
      · simp only [FllExporter.defuzzifier, defuzzifierWords]
        split_ifs <;> simp [Op.join]
      · intro w hw
        rcases List.mem_cons.1 hw with rfl | hw
        · exact integral_word k
        · split_ifs at hw
          · simp at hw
          · obtain rfl : w = intText r := by simpa using hw
            exact intText_word r
    | weighted k t =>
      refine ⟨?_, by simp [defuzzifierWords], ?_⟩
      · simp only [FllExporter.defuzzifier, defuzzifierWords]
        split_ifs <;> simp [Op.join]
      · intro w hw
        rcases List.mem_cons.1 hw with rfl | hw
        · exact weighted_word k
        · split_ifs at hw
          · simp at hw
          · obtain rfl : w = t.typeName := by simpa using hw
            exact type_word t

theorem parseDefuzzifier_text [Truncate S] [LawfulInt S] (x : FllExporter) (y : FllImporter) (hr : x.resolution = y.resolution)
    (d : Option Defuzzifier) (h : ∀ k r, d = some (.integral k r) → IsInt r) :
    y.parseDefuzzifier S (x.defuzzifier d) = .ok d := by
  obtain ⟨h1, h2, h3⟩ := defuzzifier_text x d
  unfold FllImporter.parseDefuzzifier
  rw [h1, Op.split_words _ h2 fun w hw => ⟨(h3 w hw).1, (h3 w hw).2.1⟩]
  cases d with
  | none => rfl
  | some d => cases d with
    | integral k r =>
      have hf : (Defuzzifier.registered y.resolution).find? (fun d => d.className == k.className)
          = some (.integral k y.resolution) := by cases k <;> rfl
      have hn : ¬ (k.className = cs! "none" ∨ k.className = []) := by cases k <;> decide
      simp only [defuzzifierWords]
      rw [if_neg hn, hf]
      simp only
      split_ifs with hx
      · rw [hx, hr]
      · simp only [FllImporter.configureDefuzzifier, toInt_text r (h k r rfl)]
        rfl
    | weighted k t =>
      have hf : (Defuzzifier.registered y.resolution).find? (fun d => d.className == k.className)
          = some (.weighted k .automatic) := by cases k <;> rfl
      have hn : ¬ (k.className = cs! "none" ∨ k.className = []) := by cases k <;> decide
      simp only [defuzzifierWords]
      rw [if_neg hn, hf]
      cases t <;> rfl

def outputComponent (x : FllExporter) (v : OutputVariable S) : Component where
  tag := cs! "OutputVariable"
  name := Op.validName v.name
  body := descriptionOf v.description ++
    [(cs! "enabled", FllExporter.bool v.enabled),
     (cs! "range", Op.join [ScalarText.str v.minimum, ScalarText.str v.maximum] (cs! " ")),
     (cs! "lock-range", FllExporter.bool v.lockRange),
     (cs! "aggregation", FllExporter.snorm v.fuzzy.aggregation),
     (cs! "defuzzifier", x.defuzzifier v.defuzzifier),
     (cs! "default", ScalarText.str v.default),
     (cs! "lock-previous", FllExporter.bool v.lockPrevious)] ++
    v.terms.map fun t => (cs! "term", termValue t)

theorem outputVariable_text (x : FllExporter) (v : OutputVariable S) :
    x.outputVariable v = Op.join ((outputComponent x v).lines x.indent) x.separator := by
  unfold FllExporter.outputVariable Component.lines outputComponent
  rw [description_lines]
  simp [Function.comp_def, term_text]

theorem output_good [LawfulText S] (x : FllExporter) (v : OutputVariable S) (h : GoodOutput v) :
    (outputComponent x v).Good := by
  refine ⟨by show cs! "OutputVariable" ∈ Component.tags; decide, name_clean _, ?_, ?_⟩
  · intro p hp
    simp only [outputComponent, List.mem_append, List.mem_cons, List.not_mem_nil, or_false, List.mem_map] at hp
    rcases hp with (hp | rfl | rfl | rfl | rfl | rfl | rfl | rfl) | ⟨t, -, rfl⟩
    · unfold descriptionOf at hp
      split_ifs at hp
      · simp at hp
      · obtain rfl : p = _ := by simpa using hp
        constructor <;> simp only <;> decide
    all_goals constructor <;> simp only <;> decide
  · intro p hp
    simp only [outputComponent, List.mem_append, List.mem_cons, List.not_mem_nil, or_false, List.mem_map] at hp
    rcases hp with (hp | rfl | rfl | rfl | rfl | rfl | rfl | rfl) | ⟨t, ht, rfl⟩
    · unfold descriptionOf at hp
      split_ifs at hp
      · simp at hp
      · obtain rfl : p = _ := by simpa using hp
        exact h.description
    · exact bool_clean _
    · exact range_clean _ _
    · exact bool_clean _
    · exact snorm_clean _
    · show Clean (x.defuzzifier v.defuzzifier)
      obtain ⟨h1, h2, h3⟩ := defuzzifier_text x v.defuzzifier
      rw [h1]
      exact words_clean _ h3
    · exact word_clean _ (str_word v.default).2
    · exact bool_clean _
    · obtain ⟨ws, -, h2, h3⟩ := termValue_words t (h.terms t ht)
      show Clean (termValue t)
      rw [h2]
      exact words_clean _ h3

theorem outputStep_terms [LawfulText S] [Truncate S] (y : FllImporter) (F : ElementFactory S) (ctx : Ctx S)
    (ts : List (Term S)) (h : ∀ t ∈ ts, GoodTerm t) (v : OutputVariable S) :
    (ts.map fun t => cs! "term" ++ cs! ":" ++ termValue t).foldlM (y.outputStep F ctx) v =
      (do let us ← ts.mapM (readTerm F ctx)
          .ok { v with terms := v.terms ++ us }) := by
  induction ts generalizing v with
  | nil => simp [pure, Except.pure, bind, Except.bind]
  | cons t ts ih =>
    have e : y.outputStep F ctx v (cs! "term" ++ cs! ":" ++ termValue t) =
        (do let u ← readTerm F ctx t
            .ok { v with terms := v.terms ++ [u] }) := by
      unfold FllImporter.outputStep
      rw [parseKeyValue_key _ _ (by decide), ← parseTerm_value F ctx t (h t (by simp))]
      rfl
    rw [List.map_cons, List.foldlM_cons, e, List.mapM_cons]
    cases readTerm F ctx t with
    | error err => rfl
    | ok u =>
      have := ih (fun t ht => h t (List.mem_cons_of_mem _ ht)) { v with terms := v.terms ++ [u] }
      refine this.trans ?_
      cases ts.mapM (readTerm F ctx) with
      | error err => rfl
      | ok us => simp [bind, Except.bind, pure, Except.pure]

theorem outputStep_description [Truncate S] (y : FllImporter) (F : ElementFactory S) (ctx : Ctx S) (d : Str)
    (v : OutputVariable S) (hv : v.description = []) :
    ((descriptionOf d).map fun p => p.1 ++ cs! ":" ++ p.2).foldlM (y.outputStep F ctx) v =
      .ok { v with description := d } := by
  unfold descriptionOf
  split_ifs with h
  · obtain rfl : d = [] := by simpa using h
    obtain ⟨⟨⟩⟩ := v
    simp only at hv
    subst hv
    rfl
  · rw [List.map_singleton, List.foldlM_cons]
    unfold FllImporter.outputStep
    rw [parseKeyValue_key (cs! "description") d (by decide)]
    rfl

theorem processOutputVariable_component [LawfulText S] [Truncate S] [LawfulInt S] (x : FllExporter) (y : FllImporter)
    (hr : x.resolution = y.resolution) (G : Registry S) (e : Engine S) (v : OutputVariable S) (h : GoodOutput v) :
    y.processOutputVariable G (Op.join (outputComponent x v).block (cs! "\n")) e =
      (do let v ← readOutput G.functions e.world.ctx v
          .ok { e with outputs := e.outputs ++ [v] }) := by
  unfold FllImporter.processOutputVariable
  rw [Component.block_lines _ (output_good x v h)]
  have hb : (outputComponent x v).block = (cs! "OutputVariable" ++ cs! ":" ++ Op.validName v.name) ::
      (((descriptionOf v.description).map fun p => p.1 ++ cs! ":" ++ p.2) ++
      ((cs! "enabled" ++ cs! ":" ++ FllExporter.bool v.enabled) ::
       (cs! "range" ++ cs! ":" ++ Op.join [ScalarText.str v.minimum, ScalarText.str v.maximum] (cs! " ")) ::
       (cs! "lock-range" ++ cs! ":" ++ FllExporter.bool v.lockRange) ::
       (cs! "aggregation" ++ cs! ":" ++ FllExporter.snorm v.fuzzy.aggregation) ::
       (cs! "defuzzifier" ++ cs! ":" ++ x.defuzzifier v.defuzzifier) ::
       (cs! "default" ++ cs! ":" ++ ScalarText.str v.default) ::
       (cs! "lock-previous" ++ cs! ":" ++ FllExporter.bool v.lockPrevious) ::
       v.terms.map fun t => cs! "term" ++ cs! ":" ++ termValue t)) := by
    simp [Component.block, outputComponent, Function.comp_def]
  rw [hb, List.foldlM_cons]
  have e1 : ∀ u : OutputVariable S, y.outputStep G.functions e.world.ctx u
      (cs! "OutputVariable" ++ cs! ":" ++ Op.validName v.name) = .ok (u.setName (Op.validName v.name)) := by
    intro u
    unfold FllImporter.outputStep
    rw [parseKeyValue_key _ _ (by decide)]
    show Except.ok (u.setName (Op.validName (Op.validName v.name))) = _
    rw [(Op.validName_partial v.name).2.2 h.name]
  have e2 : ∀ u : OutputVariable S, y.outputStep G.functions e.world.ctx u
      (cs! "enabled" ++ cs! ":" ++ FllExporter.bool v.enabled) = .ok { u with enabled := v.enabled } := by
    intro u
    unfold FllImporter.outputStep
    rw [parseKeyValue_key _ _ (by decide)]
    show (FllImporter.parseBoolean (FllExporter.bool v.enabled) >>= _) = _
    rw [parseBoolean_bool]
    rfl
  have e3 : ∀ u : OutputVariable S, y.outputStep G.functions e.world.ctx u
      (cs! "range" ++ cs! ":" ++ Op.join [ScalarText.str v.minimum, ScalarText.str v.maximum] (cs! " "))
        = .ok ((u.setMinimum (reread v.minimum)).setMaximum (reread v.maximum)) := by
    intro u
    unfold FllImporter.outputStep
    rw [parseKeyValue_key _ _ (by decide)]
    show (FllImporter.parseRange (Op.join [ScalarText.str v.minimum, ScalarText.str v.maximum] (cs! " ")) >>= _) = _
    rw [parseRange_text]
    rfl
  have e4 : ∀ u : OutputVariable S, y.outputStep G.functions e.world.ctx u
      (cs! "lock-range" ++ cs! ":" ++ FllExporter.bool v.lockRange) = .ok { u with lockRange := v.lockRange } := by
    intro u
    unfold FllImporter.outputStep
    rw [parseKeyValue_key _ _ (by decide)]
    show (FllImporter.parseBoolean (FllExporter.bool v.lockRange) >>= _) = _
    rw [parseBoolean_bool]
    rfl
  have e5 : ∀ u : OutputVariable S, y.outputStep G.functions e.world.ctx u
      (cs! "aggregation" ++ cs! ":" ++ FllExporter.snorm v.fuzzy.aggregation) =
        .ok { u with fuzzy := { u.fuzzy with aggregation := v.fuzzy.aggregation } } := by
    intro u
    unfold FllImporter.outputStep
    rw [parseKeyValue_key _ _ (by decide)]
    show (FllImporter.parseSNorm (FllExporter.snorm v.fuzzy.aggregation) >>= _) = _
    rw [parseSNorm_text _ h.aggregation]
    rfl
  have e6 : ∀ u : OutputVariable S, y.outputStep G.functions e.world.ctx u
      (cs! "defuzzifier" ++ cs! ":" ++ x.defuzzifier v.defuzzifier) = .ok { u with defuzzifier := v.defuzzifier } := by
    intro u
    unfold FllImporter.outputStep
    rw [parseKeyValue_key _ _ (by decide)]
    show (y.parseDefuzzifier S (x.defuzzifier v.defuzzifier) >>= _) = _
    rw [parseDefuzzifier_text x y hr _ h.resolution]
    rfl
  have e7 : ∀ u : OutputVariable S, y.outputStep G.functions e.world.ctx u
      (cs! "default" ++ cs! ":" ++ ScalarText.str v.default) = .ok { u with default := reread v.default } := by
    intro u
    unfold FllImporter.outputStep
    rw [parseKeyValue_key _ _ (by decide)]
    show (toScalar (ScalarText.str v.default) >>= _) = _
    rw [toScalar_str]
    rfl
  have e8 : ∀ u : OutputVariable S, y.outputStep G.functions e.world.ctx u
      (cs! "lock-previous" ++ cs! ":" ++ FllExporter.bool v.lockPrevious) = .ok { u with lockPrevious := v.lockPrevious } := by
    intro u
    unfold FllImporter.outputStep
    rw [parseKeyValue_key _ _ (by decide)]
    show (FllImporter.parseBoolean (FllExporter.bool v.lockPrevious) >>= _) = _
    rw [parseBoolean_bool]
    rfl
  rw [e1, ok_bind, List.foldlM_append, outputStep_description _ _ _ _ _ rfl, ok_bind]
  simp only [List.foldlM_cons, ok_bind, e2, e3, e4, e5, e6, e7, e8]
  rw [outputStep_terms _ _ _ _ h.terms]
  unfold readOutput
  cases v.terms.mapM (readTerm G.functions e.world.ctx) <;> rfl

/-! ### rule blocks -/

/-- the words written for an activation method -/
def activationWords : Option (Activation S) → List Str
  | none => [cs! "none"]
  | some a => a.className :: match a with
    | .general => []
    | .proportional => []
    | .first n t => [intText n, ScalarText.str t]
    | .last n t => [intText n, ScalarText.str t]
    | .highest n => [intText n]
    | .lowest n => [intText n]
    | .threshold c v => [c.operator, ScalarText.str v]

theorem operator_word (c : Comparison) : c.operator ≠ [] ∧ Op.NoBlank c.operator ∧ '#' ∉ c.operator := by
  cases c <;> decide

theorem activation_word (a : Activation S) : a.className ≠ [] ∧ Op.NoBlank a.className ∧ '#' ∉ a.className := by
  cases a <;> simp only [Activation.className] <;> decide

theorem activation_text [LawfulText S] (a : Option (Activation S)) :
    FllExporter.activation a = Op.join (activationWords a) (cs! " ") ∧ activationWords a ≠ [] ∧
    ∀ w ∈ activationWords a, w ≠ [] ∧ Op.NoBlank w ∧ '#' ∉ w := by
  cases a with
  | none =>
    refine ⟨rfl, by simp [activationWords], ?_⟩
    intro w hw
    obtain rfl : w = cs! "none" := by simpa [activationWords] using hw
    decide
  | some a =>
    refine ⟨?_, by simp [activationWords], ?_⟩
    · cases a <;>
        simp [FllExporter.activation, activationWords, Activation.parameters, Op.join, intText_word]
    · intro w hw
      rcases List.mem_cons.1 hw with rfl | hw
      · exact activation_word a
      · cases a <;> simp only [List.mem_cons, List.not_mem_nil, or_false] at hw
        · rcases hw with rfl | rfl
          exacts [intText_word _, str_word _]
        · rcases hw with rfl | rfl
          exacts [intText_word _, str_word _]
        · subst hw; exact intText_word _
        · subst hw; exact intText_word _
        · rcases hw with rfl | rfl
          exacts [operator_word _, str_word _]

theorem parse_operator (c : Comparison) : Comparison.parse c.operator = .ok c := by cases c <;> rfl

theorem parseActivation_text [LawfulText S] [Truncate S] [LawfulInt S] (a : Option (Activation S))
    (h : ∀ n t, a = some (.first n t) ∨ a = some (.last n t) ∨ a = some (.highest n) ∨ a = some (.lowest n) → IsInt n) :
    FllImporter.parseActivation (FllExporter.activation a) = .ok (a.map readActivation) := by
  obtain ⟨h1, h2, h3⟩ := activation_text a
  cases a with
  | none => rfl
  | some a =>
    have hne : FllExporter.activation (some a) ≠ cs! "none" := by
      cases a <;> simp [FllExporter.activation, Activation.className, Activation.parameters, intText_word]
    unfold FllImporter.parseActivation
    rw [if_neg hne, h1, Op.split_words _ h2 fun w hw => ⟨(h3 w hw).1, (h3 w hw).2.1⟩]
    have hw : ∀ w ∈ (activationWords (some a)).tail, w ≠ [] ∧ Op.NoBlank w := fun w hw =>
      ⟨(h3 w (List.mem_of_mem_tail hw)).1, (h3 w (List.mem_of_mem_tail hw)).2.1⟩
    have hj : (activationWords (some a)).tail ≠ [] → Op.join (activationWords (some a)).tail (cs! " ") ≠ [] := fun h0 =>
      Op.join_ne_nil _ _ h0 fun w hm => (hw w hm).1
    have hs := fun h0 => Op.split_words (activationWords (some a)).tail h0 hw
    cases a with
    | general => rfl
    | proportional => rfl
    | first n t =>
      have hn := toInt_text (S := S) n (h n t (by simp))
      show (Activation.configure (.first 1 (lit 0)) (Op.join [intText n, ScalarText.str t] (cs! " ")) >>= _) = _
      unfold Activation.configure
      rw [if_neg (by simpa [activationWords] using hj (by simp [activationWords]))]
      have := hs (by simp [activationWords])
      simp only [activationWords, List.tail_cons] at this
      simp only [this, hn, toScalar_str]
      rfl
    | last n t =>
      have hn := toInt_text (S := S) n (h n t (by simp))
      show (Activation.configure (.last 1 (lit 0)) (Op.join [intText n, ScalarText.str t] (cs! " ")) >>= _) = _
      unfold Activation.configure
      rw [if_neg (by simpa [activationWords] using hj (by simp [activationWords]))]
      have := hs (by simp [activationWords])
      simp only [activationWords, List.tail_cons] at this
      simp only [this, hn, toScalar_str]
      rfl
    | highest n =>
      have hn := toInt_text (S := S) n (h n (lit 0) (by simp))
      show (Activation.configure (.highest 1) (Op.join [intText n] (cs! " ")) >>= _) = _
      unfold Activation.configure
      rw [if_neg (by simpa [activationWords] using hj (by simp [activationWords]))]
      have := hs (by simp [activationWords])
      simp only [activationWords, List.tail_cons] at this
      simp only [this, hn]
      rfl
    | lowest n =>
      have hn := toInt_text (S := S) n (h n (lit 0) (by simp))
      show (Activation.configure (.lowest 1) (Op.join [intText n] (cs! " ")) >>= _) = _
      unfold Activation.configure
      rw [if_neg (by simpa [activationWords] using hj (by simp [activationWords]))]
      have := hs (by simp [activationWords])
      simp only [activationWords, List.tail_cons] at this
      simp only [this, hn]
      rfl
    | threshold c v =>
      show (Activation.configure (.threshold .greaterThanOrEqualTo (lit 0))
        (Op.join [c.operator, ScalarText.str v] (cs! " ")) >>= _) = _
      unfold Activation.configure
      rw [if_neg (by simpa [activationWords] using hj (by simp [activationWords]))]
      have := hs (by simp [activationWords])
      simp only [activationWords, List.tail_cons] at this
      simp only [this, parse_operator, toScalar_str]
      rfl

/-- the texts of activation methods are not names of T-Norms -/
theorem activation_ne_tnorm (a : Option (Activation S)) :
    ¬ (FllExporter.activation a = [] ∨
      (TNormKind.registered.any fun k => k.className == FllExporter.activation a) = true) := by
  cases a with
  | none => simp only [FllExporter.activation]; decide
  | some a =>
    cases a <;> simp only [FllExporter.activation, Activation.className] <;> split_ifs <;>
      simp [TNormKind.registered, TNormKind.className]

def blockComponent (b : RuleBlock S) : Component where
  tag := cs! "RuleBlock"
  name := b.name
  body := descriptionOf b.description ++
    [(cs! "enabled", FllExporter.bool b.enabled),
     (cs! "conjunction", FllExporter.tnorm b.conjunction),
     (cs! "disjunction", FllExporter.snorm b.disjunction),
     (cs! "implication", FllExporter.tnorm b.implication),
     (cs! "activation", FllExporter.activation b.activation)] ++
    b.rules.map fun r => (cs! "rule", r.text)

theorem ruleBlock_text (x : FllExporter) (b : RuleBlock S) :
    x.ruleBlock b = Op.join ((blockComponent b).lines x.indent) x.separator := by
  unfold FllExporter.ruleBlock Component.lines blockComponent
  rw [description_lines]
  simp [Function.comp_def]

theorem block_good [LawfulText S] (b : RuleBlock S) (h : GoodBlock b) : (blockComponent b).Good := by
  refine ⟨by show cs! "RuleBlock" ∈ Component.tags; decide, h.name, ?_, ?_⟩
  · intro p hp
    simp only [blockComponent, List.mem_append, List.mem_cons, List.not_mem_nil, or_false, List.mem_map] at hp
    rcases hp with (hp | rfl | rfl | rfl | rfl | rfl) | ⟨t, -, rfl⟩
    · unfold descriptionOf at hp
      split_ifs at hp
      · simp at hp
      · obtain rfl : p = _ := by simpa using hp
        constructor <;> simp only <;> decide
    all_goals constructor <;> simp only <;> decide
  · intro p hp
    simp only [blockComponent, List.mem_append, List.mem_cons, List.not_mem_nil, or_false, List.mem_map] at hp
    rcases hp with (hp | rfl | rfl | rfl | rfl | rfl) | ⟨r, hr, rfl⟩
    · unfold descriptionOf at hp
      split_ifs at hp
      · simp at hp
      · obtain rfl : p = _ := by simpa using hp
        exact h.description
    · exact bool_clean _
    · exact tnorm_clean _
    · exact snorm_clean _
    · exact tnorm_clean _
    · show Clean (FllExporter.activation b.activation)
      obtain ⟨h1, h2, h3⟩ := activation_text b.activation
      rw [h1]
      exact words_clean _ h3
    · exact h.rules r hr

theorem blockStep_rules [Truncate S] (G : Registry S) (V : Vocabulary) (rs : List (Rule S)) (b : RuleBlock S) :
    (rs.map fun r => cs! "rule" ++ cs! ":" ++ r.text).foldlM (FllImporter.blockStep G V) b =
      .ok { b with rules := b.rules ++ rs.map fun r => ((Rule.new r.text).reload G V).1 } := by
  induction rs generalizing b with
  | nil => simp [pure, Except.pure]
  | cons r rs ih =>
    have e : FllImporter.blockStep G V b (cs! "rule" ++ cs! ":" ++ r.text) =
        .ok { b with rules := b.rules ++ [((Rule.new r.text).reload G V).1] } := by
      unfold FllImporter.blockStep
      rw [parseKeyValue_key _ _ (by decide)]
      rfl
    rw [List.map_cons, List.foldlM_cons, e]
    refine (ih _).trans ?_
    simp

theorem blockStep_description [Truncate S] (G : Registry S) (V : Vocabulary) (d : Str) (b : RuleBlock S)
    (hb : b.description = []) :
    ((descriptionOf d).map fun p => p.1 ++ cs! ":" ++ p.2).foldlM (FllImporter.blockStep G V) b =
      .ok { b with description := d } := by
  unfold descriptionOf
  split_ifs with h
  · obtain rfl : d = [] := by simpa using h
    obtain ⟨⟩ := b
    simp only at hb
    subst hb
    rfl
  · rw [List.map_singleton, List.foldlM_cons]
    unfold FllImporter.blockStep
    rw [parseKeyValue_key (cs! "description") d (by decide)]
    rfl

theorem processRuleBlock_component [LawfulText S] [Truncate S] [LawfulInt S] (G : Registry S) (e : Engine S)
    (b : RuleBlock S) (h : GoodBlock b) :
    FllImporter.processRuleBlock G (Op.join (blockComponent b).block (cs! "\n")) e =
      .ok { e with blocks := e.blocks ++ [readBlock G e.world.vocabulary b] } := by
  unfold FllImporter.processRuleBlock
  rw [Component.block_lines _ (block_good b h)]
  have hb : (blockComponent b).block = (cs! "RuleBlock" ++ cs! ":" ++ b.name) ::
      (((descriptionOf b.description).map fun p => p.1 ++ cs! ":" ++ p.2) ++
      ((cs! "enabled" ++ cs! ":" ++ FllExporter.bool b.enabled) ::
       (cs! "conjunction" ++ cs! ":" ++ FllExporter.tnorm b.conjunction) ::
       (cs! "disjunction" ++ cs! ":" ++ FllExporter.snorm b.disjunction) ::
       (cs! "implication" ++ cs! ":" ++ FllExporter.tnorm b.implication) ::
       (cs! "activation" ++ cs! ":" ++ FllExporter.activation b.activation) ::
       b.rules.map fun r => cs! "rule" ++ cs! ":" ++ r.text)) := by
    simp [Component.block, blockComponent, Function.comp_def]
  rw [hb, List.foldlM_cons]
  have e1 : ∀ u : RuleBlock S, FllImporter.blockStep G e.world.vocabulary u (cs! "RuleBlock" ++ cs! ":" ++ b.name)
      = .ok { u with name := b.name } := by
    intro u
    unfold FllImporter.blockStep
    rw [parseKeyValue_key _ _ (by decide)]
    rfl
  have e2 : ∀ u : RuleBlock S, FllImporter.blockStep G e.world.vocabulary u
      (cs! "enabled" ++ cs! ":" ++ FllExporter.bool b.enabled) = .ok { u with enabled := b.enabled } := by
    intro u
    unfold FllImporter.blockStep
    rw [parseKeyValue_key _ _ (by decide)]
    show (FllImporter.parseBoolean (FllExporter.bool b.enabled) >>= _) = _
    rw [parseBoolean_bool]
    rfl
  have e3 : ∀ u : RuleBlock S, FllImporter.blockStep G e.world.vocabulary u
      (cs! "conjunction" ++ cs! ":" ++ FllExporter.tnorm b.conjunction) = .ok { u with conjunction := b.conjunction } := by
    intro u
    unfold FllImporter.blockStep
    rw [parseKeyValue_key _ _ (by decide)]
    show (FllImporter.parseTNorm (FllExporter.tnorm b.conjunction) >>= _) = _
    rw [parseTNorm_text _ h.conjunction]
    rfl
  have e4 : ∀ u : RuleBlock S, FllImporter.blockStep G e.world.vocabulary u
      (cs! "disjunction" ++ cs! ":" ++ FllExporter.snorm b.disjunction) = .ok { u with disjunction := b.disjunction } := by
    intro u
    unfold FllImporter.blockStep
    rw [parseKeyValue_key _ _ (by decide)]
    show (FllImporter.parseSNorm (FllExporter.snorm b.disjunction) >>= _) = _
    rw [parseSNorm_text _ h.disjunction]
    rfl
  have e5 : ∀ u : RuleBlock S, FllImporter.blockStep G e.world.vocabulary u
      (cs! "implication" ++ cs! ":" ++ FllExporter.tnorm b.implication) = .ok { u with implication := b.implication } := by
    intro u
    unfold FllImporter.blockStep
    rw [parseKeyValue_key _ _ (by decide)]
    show (FllImporter.parseTNorm (FllExporter.tnorm b.implication) >>= _) = _
    rw [parseTNorm_text _ h.implication]
    rfl
  have e6 : ∀ u : RuleBlock S, FllImporter.blockStep G e.world.vocabulary u
      (cs! "activation" ++ cs! ":" ++ FllExporter.activation b.activation) =
        .ok { u with activation := b.activation.map readActivation } := by
    intro u
    unfold FllImporter.blockStep
    rw [parseKeyValue_key _ _ (by decide)]
    show (if FllExporter.activation b.activation = [] ∨ _ then _ else
      (FllImporter.parseActivation (FllExporter.activation b.activation) >>= _)) = _
    rw [if_neg (activation_ne_tnorm b.activation), parseActivation_text _ h.number]
    rfl
  rw [e1, ok_bind, List.foldlM_append, blockStep_description _ _ _ _ rfl, ok_bind]
  simp only [List.foldlM_cons, ok_bind, e2, e3, e4, e5, e6]
  rw [blockStep_rules]
  unfold readBlock
  cases b.activation <;> rfl

/-! ### engines -/

def components (x : FllExporter) (e : Engine S) : List Component :=
  e.inputs.map inputComponent ++ e.outputs.map (outputComponent x) ++ e.blocks.map blockComponent

theorem toString_text (x : FllExporter) (e : Engine S) :
    x.toString e = Op.join ((cs! "Engine: " ++ e.name) ::
      ((if e.description.isEmpty then [] else [cs! "description: " ++ e.description])
        ++ (components x e).flatMap (Component.lines x.indent))) x.separator := by
  have h := Op.join_joins ([[cs! "Engine: " ++ e.name]] ++
    (if e.description.isEmpty then [] else [[cs! "description: " ++ e.description]]) ++
    (components x e).map (Component.lines x.indent)) x.separator (by
      intro xs hxs
      simp only [List.mem_append, List.mem_singleton, List.mem_map] at hxs
      rcases hxs with (rfl | hxs) | ⟨c, -, rfl⟩
      · simp
      · split_ifs at hxs
        · simp at hxs
        · obtain rfl : xs = _ := by simpa using hxs
          simp
      · simp [Component.lines])
  unfold FllExporter.toString
  have e1 : x.inputVariable (S := S) = fun v => Op.join ((inputComponent v).lines x.indent) x.separator :=
    funext fun v => inputVariable_text x v
  have e2 : x.outputVariable (S := S) = fun v => Op.join ((outputComponent x v).lines x.indent) x.separator :=
    funext fun v => outputVariable_text x v
  have e3 : x.ruleBlock (S := S) = fun v => Op.join ((blockComponent v).lines x.indent) x.separator :=
    funext fun v => ruleBlock_text x v
  rw [e1, e2, e3]
  by_cases hd : e.description.isEmpty = true
  · simp only [hd, if_true] at h ⊢
    simpa [components, Function.comp_def, Op.join, List.flatMap_def] using h
  · simp only [hd, if_false, Bool.false_eq_true] at h ⊢
    simpa [components, Function.comp_def, Op.join, List.flatMap_def] using h

/-- C51.  What the importer makes of the exported text of an engine, exactly: the engine read, or the
exception of a `Function` term whose formula cannot be loaded. -/
theorem fromString_toString [LawfulText S] [Truncate S] [LawfulInt S] (x : FllExporter) (y : FllImporter)
    (hx : x.separator = cs! "\n") (hy : y.separator = cs! "\n") (hr : x.resolution = y.resolution)
    (hi : x.indent.all isSpace = true) (hn : '\n' ∉ x.indent) (G : Registry S) (e : Engine S) (h : Good e) :
    y.fromString G (x.toString e) = reading G e := by
  rw [toString_text, hx, fromString_lines y G hy x.indent e.name e.description hi hn h.name h.description]
  · unfold components
    rw [List.foldlM_append, List.foldlM_append]
    simp only [List.foldlM_map]
    have hI : ∀ (vs : List (Variable S)), (∀ v ∈ vs, GoodVariable v) → ∀ d : Engine S,
        vs.foldlM (fun e v => y.process G (inputComponent v).tag (Op.join (inputComponent v).block (cs! "\n")) e) d =
        vs.foldlM (fun d v => do
          let v ← readInput G.functions d.world.ctx v
          .ok { d with inputs := d.inputs ++ [v] }) d := by
      intro vs hvs
      induction vs with
      | nil => intro d; rfl
      | cons v vs ih =>
        intro d
        rw [List.foldlM_cons, List.foldlM_cons]
        have : y.process G (inputComponent v).tag (Op.join (inputComponent v).block (cs! "\n")) d = _ :=
          processInputVariable_component G d v (hvs v (by simp))
        rw [this]
        congr 1
        funext d
        exact ih (fun v hv => hvs v (List.mem_cons_of_mem _ hv)) d
    have hO : ∀ (vs : List (OutputVariable S)), (∀ v ∈ vs, GoodOutput v) → ∀ d : Engine S,
        vs.foldlM (fun e v => y.process G (outputComponent x v).tag (Op.join (outputComponent x v).block (cs! "\n")) e) d =
        vs.foldlM (fun d v => do
          let v ← readOutput G.functions d.world.ctx v
          .ok { d with outputs := d.outputs ++ [v] }) d := by
      intro vs hvs
      induction vs with
      | nil => intro d; rfl
      | cons v vs ih =>
        intro d
        rw [List.foldlM_cons, List.foldlM_cons]
        have : y.process G (outputComponent x v).tag (Op.join (outputComponent x v).block (cs! "\n")) d = _ :=
          processOutputVariable_component x y hr G d v (hvs v (by simp))
        rw [this]
        congr 1
        funext d
        exact ih (fun v hv => hvs v (List.mem_cons_of_mem _ hv)) d
    have hB : ∀ (bs : List (RuleBlock S)), (∀ b ∈ bs, GoodBlock b) → ∀ d : Engine S,
        bs.foldlM (fun e v => y.process G (blockComponent v).tag (Op.join (blockComponent v).block (cs! "\n")) e) d =
        .ok { d with blocks := d.blocks ++ bs.map (readBlock G d.world.vocabulary) } := by
      intro bs hbs
      induction bs with
      | nil => intro d; simp [pure, Except.pure]
      | cons b bs ih =>
        intro d
        rw [List.foldlM_cons]
        have : y.process G (blockComponent b).tag (Op.join (blockComponent b).block (cs! "\n")) d = _ :=
          processRuleBlock_component G d b (hbs b (by simp))
        rw [this]
        refine (ih (fun v hv => hbs v (List.mem_cons_of_mem _ hv)) _).trans ?_
        simp [Engine.world]
    have hblocks1 : ∀ (vs : List (Variable S)) (d d' : Engine S), vs.foldlM (fun d v => do
          let v ← readInput G.functions d.world.ctx v
          .ok { d with inputs := d.inputs ++ [v] }) d = .ok d' → d'.blocks = d.blocks := by
      intro vs
      induction vs with
      | nil => intro d d' hd; cases hd; rfl
      | cons v vs ih =>
        intro d d' hd
        rw [List.foldlM_cons] at hd
        cases hv : readInput G.functions d.world.ctx v with
        | error err => rw [hv] at hd; cases hd
        | ok w => rw [hv] at hd; exact ih { d with inputs := d.inputs ++ [w] } _ hd
    have hblocks2 : ∀ (vs : List (OutputVariable S)) (d d' : Engine S), vs.foldlM (fun d v => do
          let v ← readOutput G.functions d.world.ctx v
          .ok { d with outputs := d.outputs ++ [v] }) d = .ok d' → d'.blocks = d.blocks := by
      intro vs
      induction vs with
      | nil => intro d d' hd; cases hd; rfl
      | cons v vs ih =>
        intro d d' hd
        rw [List.foldlM_cons] at hd
        cases hv : readOutput G.functions d.world.ctx v with
        | error err => rw [hv] at hd; cases hd
        | ok w => rw [hv] at hd; exact ih { d with outputs := d.outputs ++ [w] } _ hd
    unfold reading
    rw [hI _ h.inputs]
    cases h1 : e.inputs.foldlM (fun d v => do
          let v ← readInput G.functions d.world.ctx v
          .ok { d with inputs := d.inputs ++ [v] }) (⟨e.name, e.description, [], [], []⟩ : Engine S) with
    | error err => rfl
    | ok d =>
      have hd := hblocks1 _ _ _ h1
      show (List.foldlM _ d e.outputs >>= _) = (List.foldlM _ d e.outputs >>= _)
      rw [hO _ h.outputs]
      cases h2 : e.outputs.foldlM (fun d v => do
          let v ← readOutput G.functions d.world.ctx v
          .ok { d with outputs := d.outputs ++ [v] }) d with
      | error err => rfl
      | ok d2 =>
        have hd2 := hblocks2 _ _ _ h2
        refine (hB _ h.blocks d2).trans ?_
        rw [hd2, hd]
        rfl
  · intro c hc
    simp only [components, List.mem_append, List.mem_map] at hc
    rcases hc with (⟨v, hv, rfl⟩ | ⟨v, hv, rfl⟩) | ⟨b, hb, rfl⟩
    · exact input_good v (h.inputs v hv)
    · exact output_good x v (h.outputs v hv)
    · exact block_good b (h.blocks b hb)

/-! ### the terms read -/

theorem configure_name (F : ElementFactory S) (ctx : Ctx S) (t : Term S) (n text : Str) :
    ({ t with name := n } : Term S).configure F ctx text =
      ({ (t.configure F ctx text).1 with name := n }, (t.configure F ctx text).2) := by
  obtain ⟨m, h, k⟩ := t
  cases k with
  | shape s => simp only [Term.configure]; repeat' split
               all_goals rfl
  | discrete xy => simp only [Term.configure]; repeat' split
                   all_goals rfl
  | constant v => simp only [Term.configure]; repeat' split
                  all_goals rfl
  | linear c e => simp only [Term.configure]; repeat' split
                  all_goals rfl
  | function f => rfl

/-- the height read where `h` was written -/
def readHeight (h : S) : S := if Op.isEq h (lit 1) then lit 1 else reread h

theorem readTerm_shape [LawfulText S] (F : ElementFactory S) (ctx : Ctx S) (t : Term S) (s : Shape S) (hk : t.kind = .shape s) :
    readTerm F ctx t = .ok ⟨Op.validName t.name, readHeight t.height, .shape (s.each reread)⟩ := by
  have : Engine.updateTerm F ctx t.fresh = t.fresh := by unfold Engine.updateTerm Term.fresh; rw [hk]
  unfold readTerm
  rw [this, configure_name, Term.configure_shape F ctx t s hk]
  rfl

theorem readTerm_discrete [LawfulText S] (F : ElementFactory S) (ctx : Ctx S) (t : Term S) (xy : List (S × S))
    (hk : t.kind = .discrete xy) :
    readTerm F ctx t = .ok ⟨Op.validName t.name, readHeight t.height,
      .discrete (xy.map fun p => (reread p.1, reread p.2))⟩ := by
  have : Engine.updateTerm F ctx t.fresh = t.fresh := by unfold Engine.updateTerm Term.fresh; rw [hk]
  unfold readTerm
  rw [this, configure_name, Term.configure_discrete F ctx t xy hk]
  rfl

theorem readTerm_constant [LawfulText S] (F : ElementFactory S) (ctx : Ctx S) (t : Term S) (v : S) (hk : t.kind = .constant v) :
    readTerm F ctx t = .ok ⟨Op.validName t.name, lit 1, .constant (reread v)⟩ := by
  have : Engine.updateTerm F ctx t.fresh = t.fresh := by unfold Engine.updateTerm Term.fresh; rw [hk]
  unfold readTerm
  rw [this, configure_name, Term.configure_constant F ctx t v hk]

theorem readTerm_linear [LawfulText S] (F : ElementFactory S) (ctx : Ctx S) (t : Term S) (c : List S) (b : Bool)
    (hk : t.kind = .linear c b) :
    readTerm F ctx t = .ok ⟨Op.validName t.name, lit 1, .linear (c.map reread) true⟩ := by
  have : Engine.updateTerm F ctx t.fresh = ⟨[], lit 1, .linear [] true⟩ := by
    unfold Engine.updateTerm Term.fresh; rw [hk]
  have e : t.parameters = Op.join (c.map ScalarText.str) (cs! " ") := by unfold Term.parameters; rw [hk]
  unfold readTerm
  rw [this]
  simp only [Term.configure]
  cases c with
  | nil => rw [e]; simp [Op.join]
  | cons x xs =>
    have hne : t.parameters ≠ [] := by
      rw [e]; exact Op.join_ne_nil _ _ (by simp) fun w hw => (Term.words_strs (x :: xs) w hw).1
    rw [if_neg (by simpa using hne), e, Op.split_words _ (by simp) (Term.words_strs _), Term.toScalars_strs]

/-- a `Function` term: the formula is loaded with the values of the variables before it -/
theorem readTerm_function (F : ElementFactory S) (ctx : Ctx S) (t : Term S) (f : Fun S) (hk : t.kind = .function f) :
    readTerm F ctx t =
      match Fun.load F ⟨[], none, true, fun _ => none⟩ f.formula true ctx with
      | (g, none) => .ok ⟨Op.validName t.name, lit 1, .function g⟩
      | (_, some e) => .error e := by
  have : Engine.updateTerm F ctx t.fresh = ⟨[], lit 1, .function ⟨[], none, true, fun _ => none⟩⟩ := by
    unfold Engine.updateTerm Term.fresh; rw [hk]; rfl
  have e : t.parameters = f.formula := by unfold Term.parameters; rw [hk]
  unfold readTerm
  rw [this, e]
  simp only [Term.configure]
  rcases Fun.load F ⟨[], none, true, fun _ => none⟩ f.formula true ctx with ⟨g, _ | err⟩ <;> rfl

theorem load_formula (F : ElementFactory S) (f : Fun S) (text : Str) (b : Bool) (ctx : Ctx S) :
    (f.load F text b ctx).1.formula = text := by
  unfold Fun.load Fun.membershipS
  cases Formula.parse F text with
  | error e => rfl
  | ok n => simp only; split <;> rfl

/-- the height is printed as it was read: 1 when it is close to 1, otherwise not close to 1 after
rounding -/
def Steady (h : S) : Prop := Op.isEq h (lit 1) = true ∨ Op.isEq (reread h) (lit 1) = false

/-- the heights that are written are steady -/
def SteadyTerm (t : Term S) : Prop :=
  match t.kind with
  | .shape _ => Steady t.height
  | .discrete _ => Steady t.height
  | _ => True

theorem readHeight_eq (h : S) (hs : Steady h) (h1 : Op.isEq (lit 1 : S) (lit 1) = true) :
    Op.isEq (readHeight h) (lit 1) = Op.isEq h (lit 1) := by
  unfold readHeight
  rcases hs with e | e
  · rw [if_pos e, h1, e]
  · split_ifs with e'
    · rw [h1, e']
    · rw [e]; simpa using Eq.symm (by simpa using e')

theorem str_readHeight [LawfulText S] (h : S) (hn : Op.isEq h (lit 1) = false) :
    ScalarText.str (readHeight h) = ScalarText.str h := by
  unfold readHeight
  rw [if_neg (by simp [hn]), str_reread]

theorem readTerm_text [LawfulText S] (h1 : Op.isEq (lit 1 : S) (lit 1) = true) (F : ElementFactory S) (ctx : Ctx S)
    (t u : Term S) (hg : GoodTerm t) (hs : SteadyTerm t) (hu : readTerm F ctx t = .ok u) :
    termValue u = termValue t := by
  have hn := (Op.validName_partial t.name).2.2 hg.name
  have key : Op.validName u.name = Op.validName t.name ∧ u.className = t.className ∧ u.parameters = t.parameters := by
    unfold SteadyTerm at hs
    cases hk : t.kind with
    | shape s =>
      rw [hk] at hs
      rw [readTerm_shape F ctx t s hk] at hu
      cases hu
      refine ⟨hn, ?_, ?_⟩
      · simp only [Term.className, hk]; cases s <;> rfl
      · simp only [Term.parameters, hk, readHeight_eq _ hs h1]
        have : (s.each reread).written.map ScalarText.str = s.written.map ScalarText.str := by
          cases s <;> simp [Shape.each, Shape.written, str_reread]
        rw [this]
        by_cases hh : Op.isEq t.height (lit 1) = true
        · rw [if_pos hh, if_pos hh]
        · rw [if_neg hh, if_neg hh, str_readHeight _ (by simpa using hh)]
    | discrete xy =>
      rw [hk] at hs
      rw [readTerm_discrete F ctx t xy hk] at hu
      cases hu
      refine ⟨hn, by simp only [Term.className, hk], ?_⟩
      simp only [Term.parameters, hk]
      have : (Discrete.toVector (xy.map fun p => (reread p.1, reread p.2))).map ScalarText.str
          = (Discrete.toVector xy).map ScalarText.str := by
        simp [Discrete.toVector, List.flatMap_map, List.map_flatMap, str_reread]
      rw [this]
      unfold Term.heightText
      rw [readHeight_eq _ hs h1]
      by_cases hh : Op.isEq t.height (lit 1) = true
      · rw [if_pos hh, if_pos hh]
      · rw [if_neg hh, if_neg hh, str_readHeight _ (by simpa using hh)]
    | constant v =>
      rw [readTerm_constant F ctx t v hk] at hu
      cases hu
      exact ⟨hn, by simp only [Term.className, hk], by simp only [Term.parameters, hk, str_reread]⟩
    | linear c b =>
      rw [readTerm_linear F ctx t c b hk] at hu
      cases hu
      refine ⟨hn, by simp only [Term.className, hk], ?_⟩
      simp only [Term.parameters, hk, List.map_map]
      congr 1
      exact List.map_congr_left fun x _ => str_reread x
    | function f =>
      rw [readTerm_function F ctx t f hk] at hu
      have hf := load_formula F (⟨[], none, true, fun _ => none⟩ : Fun S) f.formula true ctx
      rcases hl : Fun.load F (⟨[], none, true, fun _ => none⟩ : Fun S) f.formula true ctx with ⟨g, _ | err⟩
      · rw [hl] at hu hf
        cases hu
        exact ⟨hn, by simp only [Term.className, hk], by simpa only [Term.parameters, hk] using hf⟩
      · rw [hl] at hu
        cases hu
  unfold termValue
  rw [key.1, key.2.1, key.2.2]

theorem mapM_text [LawfulText S] (h1 : Op.isEq (lit 1 : S) (lit 1) = true) (F : ElementFactory S) (ctx : Ctx S)
    (ts us : List (Term S)) (hg : ∀ t ∈ ts, GoodTerm t) (hs : ∀ t ∈ ts, SteadyTerm t)
    (hu : ts.mapM (readTerm F ctx) = .ok us) : us.map termValue = ts.map termValue := by
  induction ts generalizing us with
  | nil => rw [List.mapM_nil] at hu; cases hu; rfl
  | cons t ts ih =>
    rw [List.mapM_cons] at hu
    cases ht : readTerm F ctx t with
    | error e => rw [ht] at hu; cases hu
    | ok u =>
      rw [ht, ok_bind] at hu
      cases hts : ts.mapM (readTerm F ctx) with
      | error e => rw [hts] at hu; cases hu
      | ok ws =>
        rw [hts, ok_bind] at hu
        cases hu
        rw [List.map_cons, List.map_cons, readTerm_text h1 F ctx t u (hg t (by simp)) (hs t (by simp)) ht,
          ih ws (fun t ht => hg t (List.mem_cons_of_mem _ ht)) (fun t ht => hs t (List.mem_cons_of_mem _ ht)) hts]

theorem readInput_text [LawfulText S] (h1 : Op.isEq (lit 1 : S) (lit 1) = true) (F : ElementFactory S) (ctx : Ctx S)
    (v w : Variable S) (hg : GoodVariable v) (hs : ∀ t ∈ v.terms, SteadyTerm t) (hw : readInput F ctx v = .ok w) :
    inputComponent w = inputComponent v := by
  unfold readInput at hw
  cases hts : v.terms.mapM (readTerm F ctx) with
  | error e => rw [hts] at hw; cases hw
  | ok us =>
    rw [hts, ok_bind] at hw
    cases hw
    have := mapM_text h1 F ctx _ _ hg.terms hs hts
    have e : us.map (fun t => (cs! "term", termValue t)) = v.terms.map fun t => (cs! "term", termValue t) := by
      simpa only [List.map_map, Function.comp_def] using congrArg (List.map fun s => (cs! "term", s)) this
    unfold inputComponent
    simp only [str_reread, (Op.validName_partial v.name).2.2 hg.name, e]

theorem readOutput_text [LawfulText S] (h1 : Op.isEq (lit 1 : S) (lit 1) = true) (x : FllExporter) (F : ElementFactory S)
    (ctx : Ctx S) (v w : OutputVariable S) (hg : GoodOutput v) (hs : ∀ t ∈ v.terms, SteadyTerm t)
    (hw : readOutput F ctx v = .ok w) : outputComponent x w = outputComponent x v := by
  unfold readOutput at hw
  cases hts : v.terms.mapM (readTerm F ctx) with
  | error e => rw [hts] at hw; cases hw
  | ok us =>
    rw [hts, ok_bind] at hw
    cases hw
    have := mapM_text h1 F ctx _ _ hg.terms hs hts
    have e : us.map (fun t => (cs! "term", termValue t)) = v.terms.map fun t => (cs! "term", termValue t) := by
      simpa only [List.map_map, Function.comp_def] using congrArg (List.map fun s => (cs! "term", s)) this
    unfold outputComponent
    simp only [str_reread, (Op.validName_partial v.name).2.2 hg.name, e]

theorem reload_text (G : Registry S) (V : Vocabulary) (text : Str) : ((Rule.new text : Rule S).reload G V).1.text = text := by
  unfold Rule.reload Rule.load
  simp only
  repeat' split
  all_goals rfl

theorem readBlock_text [LawfulText S] (G : Registry S) (V : Vocabulary) (b : RuleBlock S) (ha : b.activation ≠ none) :
    blockComponent (readBlock G V b) = blockComponent b := by
  obtain ⟨a, ha⟩ := Option.ne_none_iff_exists'.1 ha
  have e1 : FllExporter.activation (some (readActivation a)) = FllExporter.activation (some a) := by
    cases a <;> (simp only [readActivation, FllExporter.activation, Activation.parameters, Activation.className, str_reread]; rfl)
  unfold blockComponent readBlock
  simp only [ha, Option.getD_some, e1, List.map_map]
  congr 2
  exact List.map_congr_left fun r _ => by simp [reload_text]

/-- the heights that are written are steady and every rule block has an activation method -/
structure Steadfast (e : Engine S) : Prop where
  inputs : ∀ v ∈ e.inputs, ∀ t ∈ v.terms, SteadyTerm t
  outputs : ∀ v ∈ e.outputs, ∀ t ∈ v.terms, SteadyTerm t
  activation : ∀ b ∈ e.blocks, b.activation ≠ none

/-- the engine read is written like the original -/
theorem toString_reading [LawfulText S] (h1 : Op.isEq (lit 1 : S) (lit 1) = true) (x : FllExporter) (G : Registry S)
    (e e' : Engine S) (hg : Good e) (hs : Steadfast e) (h : reading G e = .ok e') : x.toString e' = x.toString e := by
  have hI : ∀ (vs : List (Variable S)), (∀ v ∈ vs, GoodVariable v) → (∀ v ∈ vs, ∀ t ∈ v.terms, SteadyTerm t) →
      ∀ d d' : Engine S, vs.foldlM (fun d v => do
          let v ← readInput G.functions d.world.ctx v
          .ok { d with inputs := d.inputs ++ [v] }) d = .ok d' →
        d'.name = d.name ∧ d'.description = d.description ∧ d'.outputs = d.outputs ∧
        d'.inputs.map inputComponent = d.inputs.map inputComponent ++ vs.map inputComponent := by
    intro vs
    induction vs with
    | nil => intro _ _ d d' hd; cases hd; simp
    | cons v vs ih =>
      intro hg hs d d' hd
      rw [List.foldlM_cons] at hd
      cases hv : readInput G.functions d.world.ctx v with
      | error err => rw [hv] at hd; cases hd
      | ok w =>
        rw [hv] at hd
        obtain ⟨a1, a2, a3, a4⟩ := ih (fun v hv => hg v (List.mem_cons_of_mem _ hv))
          (fun v hv => hs v (List.mem_cons_of_mem _ hv)) { d with inputs := d.inputs ++ [w] } _ hd
        refine ⟨a1, a2, a3, ?_⟩
        rw [a4]
        simp [readInput_text h1 _ _ v w (hg v (by simp)) (hs v (by simp)) hv]
  have hO : ∀ (vs : List (OutputVariable S)), (∀ v ∈ vs, GoodOutput v) → (∀ v ∈ vs, ∀ t ∈ v.terms, SteadyTerm t) →
      ∀ d d' : Engine S, vs.foldlM (fun d v => do
          let v ← readOutput G.functions d.world.ctx v
          .ok { d with outputs := d.outputs ++ [v] }) d = .ok d' →
        d'.name = d.name ∧ d'.description = d.description ∧ d'.inputs = d.inputs ∧
        d'.outputs.map (outputComponent x) = d.outputs.map (outputComponent x) ++ vs.map (outputComponent x) := by
    intro vs
    induction vs with
    | nil => intro _ _ d d' hd; cases hd; simp
    | cons v vs ih =>
      intro hg hs d d' hd
      rw [List.foldlM_cons] at hd
      cases hv : readOutput G.functions d.world.ctx v with
      | error err => rw [hv] at hd; cases hd
      | ok w =>
        rw [hv] at hd
        obtain ⟨a1, a2, a3, a4⟩ := ih (fun v hv => hg v (List.mem_cons_of_mem _ hv))
          (fun v hv => hs v (List.mem_cons_of_mem _ hv)) { d with outputs := d.outputs ++ [w] } _ hd
        refine ⟨a1, a2, a3, ?_⟩
        rw [a4]
        simp [readOutput_text h1 x _ _ v w (hg v (by simp)) (hs v (by simp)) hv]
  unfold reading at h
  cases h2 : e.inputs.foldlM (fun d v => do
        let v ← readInput G.functions d.world.ctx v
        .ok { d with inputs := d.inputs ++ [v] }) (⟨e.name, e.description, [], [], []⟩ : Engine S) with
  | error err => rw [h2] at h; cases h
  | ok d =>
    rw [h2, ok_bind] at h
    obtain ⟨a1, a2, a3, a4⟩ := hI _ hg.inputs hs.inputs _ _ h2
    cases h3 : e.outputs.foldlM (fun d v => do
        let v ← readOutput G.functions d.world.ctx v
        .ok { d with outputs := d.outputs ++ [v] }) d with
    | error err => rw [h3] at h; cases h
    | ok d2 =>
      rw [h3, ok_bind] at h
      obtain ⟨b1, b2, b3, b4⟩ := hO _ hg.outputs hs.outputs _ _ h3
      cases h
      rw [toString_text, toString_text]
      have hc : components x { d2 with blocks := e.blocks.map (readBlock G d2.world.vocabulary) } = components x e := by
        unfold components
        simp only [b3, a4, b4, a3, List.map_nil, List.nil_append, List.map_map]
        congr 1
        exact List.map_congr_left fun b hb => readBlock_text G _ b (hs.activation b hb)
      rw [hc]
      simp only [b1, b2, a1, a2]

/-! ### when importing succeeds -/

/-- the formula of a `Function` term can be loaded when only `x` and the variables `known` have
values -/
def Loadable (F : ElementFactory S) (known : List Str) (t : Term S) : Prop :=
  ∀ f, t.kind = .function f → ∃ n, Formula.parse F f.formula = .ok n ∧ ∀ v ∈ n.vars, v = cs! "x" ∨ v ∈ known

/-- every term can be loaded: formulas mention only `x` and variables before their own, where input
variables come before output variables -/
def Loads (F : ElementFactory S) (e : Engine S) : Prop :=
  (∀ i v, e.inputs[i]? = some v → ∀ t ∈ v.terms,
    Loadable F ((e.inputs.take i).map fun v => Op.validName v.name) t) ∧
  (∀ i v, e.outputs[i]? = some v → ∀ t ∈ v.terms,
    Loadable F ((e.inputs.map fun v => Op.validName v.name) ++ (e.outputs.take i).map fun v => Op.validName v.name) t)

theorem readTerm_ok_iff [LawfulText S] (F : ElementFactory S) (ctx : Ctx S) (t : Term S) :
    (∃ u, readTerm F ctx t = .ok u) ↔ Loadable F (ctx.inputs.map Prod.fst ++ ctx.outputs.map Prod.fst) t := by
  unfold Loadable
  cases hk : t.kind with
  | shape s => simp [readTerm_shape F ctx t s hk]
  | discrete xy => simp [readTerm_discrete F ctx t xy hk]
  | constant v => simp [readTerm_constant F ctx t v hk]
  | linear c b => simp [readTerm_linear F ctx t c b hk]
  | function f =>
    rw [readTerm_function F ctx t f hk]
    have key : ∀ n : Node S, (∃ y, n.evaluate ((⟨f.formula, some n, true, fun _ => none⟩ : Fun S).bind ctx (Scalar.ofRat 0)) = .ok y) ↔
        ∀ v ∈ n.vars, v = cs! "x" ∨ v ∈ ctx.inputs.map Prod.fst ++ ctx.outputs.map Prod.fst := by
      intro n
      rw [Node.evaluate_ok_iff]
      refine forall_congr' fun v => imp_congr_right fun _ => ?_
      rw [Fun.bind_apply _ rfl]
      by_cases hx : v = cs! "x"
      · simp [hx]
      · have mem : ∀ xs : List (Str × S), v ∈ xs.map Prod.fst ↔
            ∃ y, ((xs.reverse.find? fun p => p.1 = v).map Prod.snd) = some y := by
          intro xs
          cases hf : xs.reverse.find? fun p => p.1 = v with
          | none =>
            rw [List.find?_eq_none] at hf
            simp only [Option.map_none, reduceCtorEq, exists_false, iff_false, List.mem_map, not_exists, not_and]
            intro p hp e
            exact absurd e (by simpa using hf p (by simpa using hp))
          | some p =>
            have h1 := List.mem_of_find?_eq_some hf
            have h2 := List.find?_some hf
            simp only [Option.map_some, Option.some.injEq, exists_eq', iff_true, List.mem_map]
            exact ⟨p, by simpa using h1, by simpa using h2⟩
        simp only [hx, if_false, false_or, List.mem_append, mem]
        cases ((ctx.outputs.reverse.find? fun p => p.1 = v).map Prod.snd) <;>
          cases ((ctx.inputs.reverse.find? fun p => p.1 = v).map Prod.snd) <;> simp
    unfold Fun.load
    cases hp : Formula.parse F f.formula with
    | error err => simp [hp]
    | ok n =>
      simp only [Fun.membershipS]
      have hb : (⟨f.formula, some n, true, fun _ => none⟩ : Fun S).bind ctx (Scalar.ofRat 0) =
        (⟨f.formula, some n, true, fun _ => none⟩ : Fun S).bind ctx (Scalar.ofRat 0) := rfl
      constructor
      · rintro ⟨u, hu⟩ g hg
        cases hg
        refine ⟨n, hp, (key n).1 ?_⟩
        cases he : n.evaluate ((⟨f.formula, some n, true, fun _ => none⟩ : Fun S).bind ctx (Scalar.ofRat 0)) with
        | ok y => exact ⟨y, rfl⟩
        | error err => rw [he] at hu; cases hu
      · intro h
        obtain ⟨m, hm, hv⟩ := h f rfl
        rw [hp] at hm
        cases hm
        obtain ⟨y, hy⟩ := (key n).2 hv
        rw [hy]
        exact ⟨_, rfl⟩

theorem mapM_ok_iff {α β : Type} (f : α → Except Err β) (xs : List α) :
    (∃ ys, xs.mapM f = .ok ys) ↔ ∀ x ∈ xs, ∃ y, f x = .ok y := by
  induction xs with
  | nil => simp [pure, Except.pure]
  | cons x xs ih =>
    rw [List.mapM_cons]
    simp only [List.mem_cons, forall_eq_or_imp, ← ih]
    cases f x with
    | error e => simp [bind, Except.bind]
    | ok y =>
      rw [ok_bind]
      cases xs.mapM f with
      | error e => simp [bind, Except.bind]
      | ok ys => simp [bind, Except.bind, pure, Except.pure]

theorem readInput_ok_iff [LawfulText S] (F : ElementFactory S) (ctx : Ctx S) (v : Variable S) :
    (∃ w, readInput F ctx v = .ok w) ↔
      ∀ t ∈ v.terms, Loadable F (ctx.inputs.map Prod.fst ++ ctx.outputs.map Prod.fst) t := by
  simp only [← readTerm_ok_iff, ← mapM_ok_iff]
  unfold readInput
  cases v.terms.mapM (readTerm F ctx) with
  | error e => simp [bind, Except.bind]
  | ok ys => simp [bind, Except.bind]

theorem readOutput_ok_iff [LawfulText S] (F : ElementFactory S) (ctx : Ctx S) (v : OutputVariable S) :
    (∃ w, readOutput F ctx v = .ok w) ↔
      ∀ t ∈ v.terms, Loadable F (ctx.inputs.map Prod.fst ++ ctx.outputs.map Prod.fst) t := by
  simp only [← readTerm_ok_iff, ← mapM_ok_iff]
  unfold readOutput
  cases v.terms.mapM (readTerm F ctx) with
  | error e => simp [bind, Except.bind]
  | ok ys => simp [bind, Except.bind]

/-- C51.  Importing the text of a well-formed engine succeeds exactly when the formulas of its
`Function` terms can be loaded while the engine is being read. -/
theorem reading_ok_iff [LawfulText S] (G : Registry S) (e : Engine S) :
    (∃ e', reading G e = .ok e') ↔ Loads G.functions e := by
  have hctx : ∀ d : Engine S, d.world.ctx.inputs.map Prod.fst ++ d.world.ctx.outputs.map Prod.fst =
      (d.inputs.map fun v => v.name) ++ d.outputs.map fun v => v.name := by
    intro d; simp [Engine.world, World.ctx, Function.comp_def]
  have hI : ∀ (vs : List (Variable S)) (d : Engine S), d.outputs = [] →
      ((∃ d', vs.foldlM (fun d v => do
          let v ← readInput G.functions d.world.ctx v
          .ok { d with inputs := d.inputs ++ [v] }) d = .ok d') ↔
        ∀ i v, vs[i]? = some v → ∀ t ∈ v.terms,
          Loadable G.functions ((d.inputs.map fun v => v.name) ++ (vs.take i).map fun v => Op.validName v.name) t) ∧
      (∀ d', vs.foldlM (fun d v => do
          let v ← readInput G.functions d.world.ctx v
          .ok { d with inputs := d.inputs ++ [v] }) d = .ok d' →
        (d'.inputs.map fun v => v.name) = (d.inputs.map fun v => v.name) ++ (vs.map fun v => Op.validName v.name) ∧
        d'.outputs = []) := by
    intro vs
    induction vs with
    | nil => intro d hd; refine ⟨by simp [pure, Except.pure], fun d' h => ?_⟩; cases h; simp [hd]
    | cons v vs ih =>
      intro d hd
      simp only [List.foldlM_cons]
      have hv := readInput_ok_iff G.functions d.world.ctx v
      rw [hctx, hd, List.map_nil, List.append_nil] at hv
      cases hr : readInput G.functions d.world.ctx v with
      | error err =>
        rw [hr] at hv
        refine ⟨⟨fun ⟨_, h⟩ => (by cases h), fun h => ?_⟩, fun d' h => (by cases h)⟩
        have := hv.2 fun t ht => by simpa using h 0 v rfl t ht
        obtain ⟨w, hw⟩ := this
        cases hw
      | ok w =>
        have hname : w.name = Op.validName v.name := by
          unfold readInput at hr
          cases hts : v.terms.mapM (readTerm G.functions d.world.ctx) with
          | error e => rw [hts] at hr; cases hr
          | ok us => rw [hts] at hr; cases hr; rfl
        rw [hr] at hv
        obtain ⟨i1, i2⟩ := ih { d with inputs := d.inputs ++ [w] } hd
        constructor
        · refine i1.trans ⟨fun h i u hu t ht => ?_, fun h i u hu t ht => ?_⟩
          · cases i with
            | zero =>
              obtain rfl : v = u := by simpa using hu
              simpa using hv.1 ⟨w, rfl⟩ t ht
            | succ i => simpa [hname] using h i u (by simpa using hu) t ht
          · simpa [hname] using h (i + 1) u (by simpa using hu) t ht
        · intro d' h
          simpa [hname] using i2 d' h
  have hO : ∀ (vs : List (OutputVariable S)) (d : Engine S),
      ((∃ d', vs.foldlM (fun d v => do
          let v ← readOutput G.functions d.world.ctx v
          .ok { d with outputs := d.outputs ++ [v] }) d = .ok d') ↔
        ∀ i v, vs[i]? = some v → ∀ t ∈ v.terms,
          Loadable G.functions ((d.inputs.map fun v => v.name) ++ (d.outputs.map fun v => v.name)
            ++ (vs.take i).map fun v => Op.validName v.name) t) := by
    intro vs
    induction vs with
    | nil => intro d; simp [pure, Except.pure]
    | cons v vs ih =>
      intro d
      simp only [List.foldlM_cons]
      have hv := readOutput_ok_iff G.functions d.world.ctx v
      rw [hctx] at hv
      cases hr : readOutput G.functions d.world.ctx v with
      | error err =>
        rw [hr] at hv
        refine ⟨fun ⟨_, h⟩ => (by cases h), fun h => ?_⟩
        have := hv.2 fun t ht => by simpa using h 0 v rfl t ht
        obtain ⟨w, hw⟩ := this
        cases hw
      | ok w =>
        have hname : w.name = Op.validName v.name := by
          unfold readOutput at hr
          cases hts : v.terms.mapM (readTerm G.functions d.world.ctx) with
          | error e => rw [hts] at hr; cases hr
          | ok us => rw [hts] at hr; cases hr; rfl
        rw [hr] at hv
        refine (ih { d with outputs := d.outputs ++ [w] }).trans ⟨fun h i u hu t ht => ?_, fun h i u hu t ht => ?_⟩
        · cases i with
          | zero =>
            obtain rfl : v = u := by simpa using hu
            simpa using hv.1 ⟨w, rfl⟩ t ht
          | succ i => simpa [hname] using h i u (by simpa using hu) t ht
        · simpa [hname] using h (i + 1) u (by simpa using hu) t ht
  obtain ⟨i1, i2⟩ := hI e.inputs ⟨e.name, e.description, [], [], []⟩ rfl
  unfold reading Loads
  cases h2 : e.inputs.foldlM (fun d v => do
        let v ← readInput G.functions d.world.ctx v
        .ok { d with inputs := d.inputs ++ [v] }) (⟨e.name, e.description, [], [], []⟩ : Engine S) with
  | error err =>
    rw [h2] at i1
    refine ⟨fun ⟨_, h⟩ => (by cases h), fun h => ?_⟩
    obtain ⟨d, hd⟩ := i1.2 (by simpa using h.1)
    cases hd
  | ok d =>
    have hI1 := i1.1 ⟨d, h2⟩
    obtain ⟨a1, a2⟩ := i2 d h2
    have o1 := hO e.outputs d
    rw [a1, a2] at o1
    simp only [List.map_nil, List.nil_append, List.append_nil] at o1 hI1
    rw [ok_bind]
    constructor
    · rintro ⟨e', h⟩
      refine ⟨hI1, o1.1 ?_⟩
      cases h3 : e.outputs.foldlM (fun d v => do
        let v ← readOutput G.functions d.world.ctx v
        .ok { d with outputs := d.outputs ++ [v] }) d with
      | error err => rw [h3] at h; cases h
      | ok d2 => exact ⟨d2, rfl⟩
    · rintro ⟨-, h⟩
      obtain ⟨d2, h3⟩ := o1.2 h
      rw [h3]
      exact ⟨_, rfl⟩

/-- C51 without `Function` terms: importing succeeds. -/
theorem loads_of_noFunction (F : ElementFactory S) (e : Engine S)
    (hi : ∀ v ∈ e.inputs, ∀ t ∈ v.terms, ∀ f, t.kind ≠ .function f)
    (ho : ∀ v ∈ e.outputs, ∀ t ∈ v.terms, ∀ f, t.kind ≠ .function f) : Loads F e :=
  ⟨fun _ v hv t ht f hf => absurd hf (hi v (List.mem_of_getElem? hv) t ht f),
   fun _ v hv t ht f hf => absurd hf (ho v (List.mem_of_getElem? hv) t ht f)⟩

/-- C51.  Importing the exported text of an engine succeeds, and exporting the result yields the same
text, provided that names are well formed, that formulas mention only variables before their own,
that written heights are steady and that rule blocks have activation methods.  Missing: the engines
without these properties, for which it fails (`…_violated` below). -/
theorem roundTrip_partial [LawfulText S] [Truncate S] [LawfulInt S] (h1 : Op.isEq (lit 1 : S) (lit 1) = true)
    (x : FllExporter) (y : FllImporter)
    (hx : x.separator = cs! "\n") (hy : y.separator = cs! "\n") (hr : x.resolution = y.resolution)
    (hi : x.indent.all isSpace = true) (hn : '\n' ∉ x.indent) (G : Registry S) (e : Engine S) (hg : Good e)
    (hs : Steadfast e) (hl : Loads G.functions e) :
    ∃ e', y.fromString G (x.toString e) = .ok e' ∧ x.toString e' = x.toString e := by
  obtain ⟨e', h⟩ := (reading_ok_iff G e).2 hl
  exact ⟨e', (fromString_toString x y hx hy hr hi hn G e hg).trans h, toString_reading h1 x G e e' hg hs h⟩

end Fll
end

/-! ### Rational scalars -/

namespace Decimal

theorem digits_head (n : Nat) : ∃ c r, digits n = c :: r ∧ c.isDigit = true := by
  cases h : digits n with
  | nil => exact absurd h (digits_ne n)
  | cons c r => exact ⟨c, r, rfl, digits_isDigit n c (by rw [h]; simp)⟩

theorem readUnsigned_digits (n : Nat) : readUnsigned (digits n) = some (n : ℚ) := by
  have h := takeWhile_digits (s := digits n) (r := []) (digits_isDigit n) (by simp)
  rw [List.append_nil] at h
  have hne : (digits n).isEmpty = false := by
    cases hd : digits n with
    | nil => exact absurd hd (digits_ne n)
    | cons => rfl
  unfold readUnsigned
  simp only [h.1, h.2, hne, Bool.false_and, Bool.false_eq_true, if_false, readNat_nil, readNat_digits]
  simp

theorem ofText_digits (n : Nat) : ofText (digits n) = some (.fin (n : ℚ)) := by
  obtain ⟨c, r, h, hc⟩ := digits_head n
  have hread := readUnsigned_digits n
  rw [h] at hread ⊢
  have e1 : c ≠ 'n' := by rintro rfl; revert hc; decide
  have e2 : c ≠ 'i' := by rintro rfl; revert hc; decide
  have e3 : c ≠ '-' := by rintro rfl; revert hc; decide
  have e4 : c ≠ '+' := by rintro rfl; revert hc; decide
  unfold ofText
  rw [if_neg (by simp [e1]), if_neg (by simp [e2]), if_neg (by simp [e3])]
  split
  · rename_i heq; exact absurd (by simpa using (List.cons.inj heq).1) e3
  · rename_i heq; exact absurd (by simpa using (List.cons.inj heq).1) e4
  · rw [hread]; rfl

theorem ofText_neg_digits (n : Nat) : ofText ('-' :: digits n) = some (.fin (-(n : ℚ))) := by
  obtain ⟨c, r, h, hc⟩ := digits_head n
  have hread := readUnsigned_digits n
  have e2 : c ≠ 'i' := by rintro rfl; revert hc; decide
  unfold ofText
  rw [if_neg (by simp), if_neg (by simp), if_neg (by rw [h]; simp [e2])]
  simp [hread]

end Decimal

instance instLawfulIntRat : LawfulInt (Ext ℚ) where
  reads n h1 h2 := by
    refine ⟨.fin (n : ℚ), ?_, ?_⟩
    · cases n with
      | ofNat k => exact Decimal.ofText_digits k
      | negSucc k =>
        have := Decimal.ofText_neg_digits (k + 1)
        rw [show ((Int.negSucc k : ℤ) : ℚ) = -((k + 1 : ℕ) : ℚ) by push_cast [Int.negSucc_eq]; ring]
        exact this
    · show intOf (if (0 : ℚ) ≤ (n : ℚ) then (n : ℚ).floor else (n : ℚ).ceil) = some n
      rw [Rat.floor_intCast, Rat.ceil_intCast]
      simp [intOf, h1, h2]

namespace FllExamples
open Fll

def G : Registry (Ext ℚ) := Registry.default
def x : FllExporter := {}
def y : FllImporter := {}

/-- an engine is written and read with the default exporter and importer -/
def outcome (e : Engine (Ext ℚ)) : Str ⊕ Err :=
  match y.fromString G (x.toString e) with
  | .ok e' => .inl (x.toString e')
  | .error err => .inr err

theorem outcome_ok (e : Engine (Ext ℚ)) (t : Str) (h : outcome e = .inl t) :
    ∃ e', y.fromString G (x.toString e) = .ok e' ∧ x.toString e' = t := by
  unfold outcome at h
  cases hr : y.fromString G (x.toString e) with
  | ok e' => rw [hr] at h; exact ⟨e', rfl, by simpa using h⟩
  | error err => rw [hr] at h; cases h

theorem outcome_error (e : Engine (Ext ℚ)) (err : Err) (h : outcome e = .inr err) :
    y.fromString G (x.toString e) = .error err := by
  unfold outcome at h
  cases hr : y.fromString G (x.toString e) with
  | ok e' => rw [hr] at h; cases h
  | error err' => rw [hr] at h; rw [show err' = err by simpa using h]

def engine : Engine (Ext ℚ) where
  name := cs! "Fan control"
  description := cs! "a fan: with a dial"
  inputs := [{ Variable.new (cs! "the dial") (.fin 0) (.fin 10) [
      ⟨cs! "low", .fin 1, .shape (.ramp (.fin 5) (.fin (1/3)))⟩,
      ⟨cs! "high", .fin (1/2), .discrete [(.fin 0, .fin 0), (.fin 10, .fin 1)]⟩] with description := cs! "in steps" }]
  outputs := [{ OutputVariable.new (cs! "speed") (.fin 0) (.fin 100) [
      ⟨cs! "a", .fin 1, .constant (.fin (-7/2))⟩, ⟨cs! "b", .fin 1, .linear [.fin 1, .fin 2] true⟩,
      ⟨cs! "c", .fin 1, .function ⟨cs! "x * thedial", none, false, fun _ => none⟩⟩] with
    fuzzy := ⟨cs! "speed", .fin 0, .fin 100, some (.builtin .maximum), []⟩,
    defuzzifier := some (.integral .centroid 200), lockPrevious := true }]
  blocks := [⟨cs! "rules", [], true, some (.builtin .minimum), none, some (.builtin .algebraicProduct),
    some (.first 3 (.fin (1/4))), [Rule.new (cs! "if thedial is low then speed is a with 0.500")]⟩]

/-- Non-vacuity of C51. -/
theorem good_engine : Good engine where
  name := by decide
  description := by decide
  inputs v hv := by
    obtain rfl : v = _ := by simpa [engine] using hv
    exact ⟨by decide, by decide, fun t ht => by
      simp only [Variable.new, List.mem_cons, List.not_mem_nil, or_false] at ht
      rcases ht with rfl | rfl <;> exact ⟨by show Op.validName _ ≠ []; decide, fun f hf => by simp at hf⟩⟩
  outputs v hv := by
    obtain rfl : v = _ := by simpa [engine] using hv
    refine ⟨⟨by decide, by decide, fun t ht => ?_⟩, fun k hk => ?_, fun k r hk => ?_⟩
    · simp only [OutputVariable.new, Variable.new, List.mem_cons, List.not_mem_nil, or_false] at ht
      rcases ht with rfl | rfl | rfl
      · exact ⟨by show Op.validName _ ≠ []; decide, fun f hf => by simp at hf⟩
      · exact ⟨by show Op.validName _ ≠ []; decide, fun f hf => by simp at hf⟩
      · refine ⟨by show Op.validName _ ≠ []; decide, fun f hf => ?_⟩
        obtain rfl : _ = f := by simpa using hf
        decide
    · exact ⟨.maximum, (by simpa using hk.symm)⟩
    · obtain ⟨-, rfl⟩ : _ ∧ 200 = r := by simpa using hk
      exact ⟨by decide, by decide⟩
  blocks b hb := by
    obtain rfl : b = _ := by simpa [engine] using hb
    refine ⟨by decide, by decide, fun k hk => ⟨.minimum, by simpa using hk.symm⟩, fun k hk => (by simp at hk),
      fun k hk => ⟨.algebraicProduct, by simpa using hk.symm⟩, fun r hr => ?_, fun n t hn => ?_⟩
    · obtain rfl : r = _ := by simpa using hr
      decide
    · simp only [Option.some.injEq, Activation.first.injEq, reduceCtorEq, or_false] at hn
      obtain ⟨rfl, -⟩ := hn
      exact ⟨by decide, by decide⟩

theorem text_engine : x.toString engine = cs! "Engine: Fan control\ndescription: a fan: with a dial\nInputVariable: thedial\n  description: in steps\n  enabled: true\n  range: 0.000 10.000\n  lock-range: false\n  term: low Ramp 5.000 0.333\n  term: high Discrete 0.000 0.000 10.000 1.000 0.500\nOutputVariable: speed\n  enabled: true\n  range: 0.000 100.000\n  lock-range: false\n  aggregation: Maximum\n  defuzzifier: Centroid 200\n  default: nan\n  lock-previous: true\n  term: a Constant -3.500\n  term: b Linear 1.000 2.000\n  term: c Function x * thedial\nRuleBlock: rules\n  enabled: true\n  conjunction: Minimum\n  disjunction: none\n  implication: AlgebraicProduct\n  activation: First 3 0.250\n  rule: if thedial is low then speed is a with 0.500" := by
  decide +kernel

theorem steadfast_engine : Steadfast engine where
  inputs v hv t ht := by
    obtain rfl : v = _ := by simpa [engine] using hv
    simp only [Variable.new, List.mem_cons, List.not_mem_nil, or_false] at ht
    rcases ht with rfl | rfl
    · left; decide +kernel
    · right; decide +kernel
  outputs v hv t ht := by
    obtain rfl : v = _ := by simpa [engine] using hv
    simp only [OutputVariable.new, Variable.new, List.mem_cons, List.not_mem_nil, or_false] at ht
    rcases ht with rfl | rfl | rfl <;> trivial
  activation b hb := by
    obtain rfl : b = _ := by simpa [engine] using hb
    simp

theorem loads_engine : Loads G.functions engine := by
  obtain ⟨e', h, -⟩ := outcome_ok engine (x.toString engine) (by decide +kernel)
  exact (reading_ok_iff G engine).1 ⟨e', (fromString_toString x y rfl rfl rfl (by decide) (by decide) G engine good_engine) ▸ h⟩

example : ∃ e', y.fromString G (x.toString engine) = .ok e' ∧ x.toString e' = x.toString engine :=
  roundTrip_partial (by decide +kernel) x y rfl rfl rfl (by decide) (by decide) G engine good_engine steadfast_engine loads_engine

/-! ### engines whose text is not a fixed point -/

def small (ts : List (Term (Ext ℚ))) (bs : List (RuleBlock (Ext ℚ))) : Engine (Ext ℚ) :=
  ⟨cs! "e", [], [Variable.new (cs! "v") (.fin 0) (.fin 1) ts], [], bs⟩

/-- C51 fails for a rule block without activation method: `none` is written, and the importer sets
the method General. -/
theorem activation_violated : ∃ e', y.fromString G (x.toString (small [] [RuleBlock.new (cs! "r")])) = .ok e' ∧
    x.toString e' ≠ x.toString (small [] [RuleBlock.new (cs! "r")]) := by
  obtain ⟨e', h1, h2⟩ := outcome_ok (small [] [RuleBlock.new (cs! "r")])
    (x.toString (small [] [{ RuleBlock.new (cs! "r") with activation := some .general }])) (by decide +kernel)
  exact ⟨e', h1, by rw [h2]; decide +kernel⟩

/-- C51 fails for a height that differs from 1 but is written as 1.000: the height disappears the
second time. -/
theorem height_violated :
    ∃ e', y.fromString G (x.toString (small [⟨cs! "t", .fin (10001/10000), .shape (.ramp (.fin 0) (.fin 1))⟩] [])) = .ok e' ∧
    x.toString e' ≠ x.toString (small [⟨cs! "t", .fin (10001/10000), .shape (.ramp (.fin 0) (.fin 1))⟩] []) := by
  obtain ⟨e', h1, h2⟩ := outcome_ok (small [⟨cs! "t", .fin (10001/10000), .shape (.ramp (.fin 0) (.fin 1))⟩] [])
    (x.toString (small [⟨cs! "t", .fin 1, .shape (.ramp (.fin 0) (.fin 1))⟩] [])) (by decide +kernel)
  exact ⟨e', h1, by rw [h2]; decide +kernel⟩

/-- C51 fails for a formula with several blanks between words: they are merged. -/
theorem blanks_violated :
    ∃ e', y.fromString G (x.toString (small [⟨cs! "t", .fin 1, .function ⟨cs! "x  + 1", none, false, fun _ => none⟩⟩] [])) = .ok e' ∧
    x.toString e' ≠ x.toString (small [⟨cs! "t", .fin 1, .function ⟨cs! "x  + 1", none, false, fun _ => none⟩⟩] []) := by
  obtain ⟨e', h1, h2⟩ := outcome_ok (small [⟨cs! "t", .fin 1, .function ⟨cs! "x  + 1", none, false, fun _ => none⟩⟩] [])
    (x.toString (small [⟨cs! "t", .fin 1, .function ⟨cs! "x + 1", none, false, fun _ => none⟩⟩] [])) (by decide +kernel)
  exact ⟨e', h1, by rw [h2]; decide +kernel⟩

/-- C51 fails for a rule with a comment, which is lost. -/
theorem comment_violated :
    ∃ e', y.fromString G (x.toString (small [] [{ RuleBlock.new (cs! "r") with
      activation := some .general, rules := [Rule.new (cs! "if v is t then w is u # note")] }])) = .ok e' ∧
    x.toString e' ≠ x.toString (small [] [{ RuleBlock.new (cs! "r") with
      activation := some .general, rules := [Rule.new (cs! "if v is t then w is u # note")] }]) := by
  obtain ⟨e', h1, h2⟩ := outcome_ok (small [] [{ RuleBlock.new (cs! "r") with
      activation := some .general, rules := [Rule.new (cs! "if v is t then w is u # note")] }])
    (x.toString (small [] [{ RuleBlock.new (cs! "r") with
      activation := some .general, rules := [Rule.new (cs! "if v is t then w is u")] }])) (by decide +kernel)
  exact ⟨e', h1, by rw [h2]; decide +kernel⟩

/-- C51 fails for a formula that mentions a variable that is not read before: importing raises.  Here
the formula mentions its own variable, which `Engine::process` evaluates without trouble. -/
theorem formula_violated :
    y.fromString G (x.toString (small [⟨cs! "t", .fin 1, .function ⟨cs! "x * v", none, false, fun _ => none⟩⟩] []))
      = .error .evaluation := outcome_error _ _ (by decide +kernel)

/-- C51 fails for norms defined by formulas: importing raises. -/
theorem norm_violated :
    y.fromString G (x.toString (small [] [{ RuleBlock.new (cs! "r") with conjunction := some (.function ⟨cs! "a * b", none, false, fun _ => none⟩) }]))
      = .error .outOfRange := outcome_error _ _ (by decide +kernel)

/-- C51 fails for a term whose name has no valid character: the class is read as the name. -/
theorem name_violated :
    y.fromString G (x.toString (small [⟨cs! "!", .fin 1, .shape (.ramp (.fin 0) (.fin 1))⟩] []))
      = .error .outOfRange := outcome_error _ _ (by decide +kernel)

/-- C51 fails for a description of several lines: importing raises. -/
theorem description_violated :
    y.fromString G (x.toString { small [] [] with description := cs! "one\ntwo" }) = .error .importing :=
  outcome_error _ _ (by decide +kernel)

end FllExamples
end FL
