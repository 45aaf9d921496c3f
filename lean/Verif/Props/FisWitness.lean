/-
C70: examples of the FIS format, and what it cannot express.
-/
import Verif.Props.FisLoad

namespace FL
open Scalar

namespace FisExamples
open Fis Formula

def G : Registry (Ext ℚ) := Registry.default
def y : FisImporter := {}

/-- a loaded rule -/
def rule (w : ℚ) (a : Expr (Ext ℚ)) (cs : List (Proposition (Ext ℚ))) : Rule (Ext ℚ) :=
  ⟨true, [], .fin w, .fin 0, false, [], some a, [], cs⟩

def engine : Engine (Ext ℚ) where
  name := cs! "Fan control"
  description := cs! "a fan"
  inputs := [
    { Variable.new (cs! "the dial") (.fin 0) (.fin 10) [
        ⟨cs! "low", .fin (1/2), .shape (.ramp (.fin 5) (.fin (1/3)))⟩,
        ⟨cs! "high", .fin 1, .discrete [(.fin 0, .fin 0), (.fin 10, .fin 1)]⟩] with enabled := false },
    Variable.new (cs! "temp") (.fin (-10)) (.fin 40) [
        ⟨cs! "hot", .fin 1, .shape (.gaussian (.fin 30) (.fin 5))⟩]]
  outputs := [{ OutputVariable.new (cs! "speed") (.fin 0) (.fin 100) [
      ⟨cs! "a", .fin 1, .constant (.fin (-7/2))⟩, ⟨cs! "b", .fin 1, .linear [.fin 1, .fin 2, .fin 0] true⟩,
      ⟨cs! "c", .fin 1, .function ⟨cs! "x * temp", none, false, fun _ => none⟩⟩] with
    defuzzifier := some (.weighted .average .takagiSugeno), lockPrevious := true, default := .fin 3 }]
  blocks := [⟨cs! "rules", [], true, some (.builtin .algebraicProduct), none, none, some (.first 3 (.fin (1/4))), [
    rule (1/2) (.conj (.prop ⟨.input 1, [.builtin .not, .builtin .very], some 0⟩) (.prop ⟨.input 0, [], some 1⟩))
      [⟨.output 0, [], some 2⟩],
    rule 1 (.prop ⟨.input 0, [.builtin .any], none⟩) [⟨.output 0, [.builtin .somewhat], some 0⟩]]⟩]

def lines : List Str := [cs! "#Code automatically generated with fuzzylite 7.0.0.", [],
    cs! "[System]", cs! "Name='Fan control'", cs! "Type='sugeno'", cs! "Version=7.0.0", cs! "NumInputs=2", cs! "NumOutputs=1",
    cs! "NumRules=2", cs! "AndMethod='prod'", cs! "OrMethod='max'", cs! "ImpMethod='min'", cs! "AggMethod='max'",
    cs! "DefuzzMethod='wtaver'", [],
    cs! "[Input1]", cs! "Name='thedial'", cs! "Range=[0.000 10.000]", cs! "NumMFs=2", cs! "MF1='low':'rampmf',[5.000 0.333]",
    cs! "MF2='high':'discretemf',[0.000 0.000 10.000 1.000]", [],
    cs! "[Input2]", cs! "Name='temp'", cs! "Range=[-10.000 40.000]", cs! "NumMFs=1", cs! "MF1='hot':'gaussmf',[5.000 30.000]", [],
    cs! "[Output1]", cs! "Name='speed'", cs! "Range=[0.000 100.000]", cs! "NumMFs=3", cs! "MF1='a':'constant',[-3.500]",
    cs! "MF2='b':'linear',[1.000 2.000 0.000]", cs! "MF3='c':'function',[x * temp]", [],
    cs! "[Rules]", cs! "2.000 -1.200 , 3.000 (0.500) : 1", cs! "0.990 0.000 , 1.050 (1.000) : 1"]

/-- the text written -/
theorem text_engine : FisExporter.toString engine = .ok (FclExporter.text lines) := by decide +kernel

/-- what is read where `e` was written -/
def readBack {α : Type} (e : Engine (Ext ℚ)) (f : Engine (Ext ℚ) → α) : Except Err α := do
  let t ← FisExporter.toString e
  (y.fromString G t).map f

theorem good_shape (n : Str) (h : Ext ℚ) (s : Shape (Ext ℚ)) (hn : Op.validName n ≠ []) : GoodTerm (⟨n, h, .shape s⟩ : Term (Ext ℚ)) :=
  ⟨hn, by simp, by simp, by simp⟩

theorem good_proposition (v : VarRef) (ks : List HedgeKind) (j : Nat) (n : Nat) (m : Modifier)
    (hm : others (ks.map (Hedge.builtin (S := Ext ℚ))) = m.hedges.map HedgeKind.name) (hj : j < n) :
    GoodProposition n (⟨v, ks.map Hedge.builtin, some j⟩ : Proposition (Ext ℚ)) :=
  ⟨⟨m, hm, by simp⟩, fun i hi => by obtain rfl := Option.some.inj hi; exact hj⟩

theorem good_engine : Good engine where
  name := by
    refine ⟨by decide, ?_, by decide⟩
    show ¬ cs! "//" <:+: cs! "Fan control"
    decide
  quotes := by decide
  inputs v hv := by
    simp only [engine, List.mem_cons, List.not_mem_nil, or_false] at hv
    rcases hv with rfl | rfl
    · refine ⟨by show Op.validName _ ≠ []; decide, fun t ht => ?_, by decide⟩
      simp only [Variable.new, List.mem_cons, List.not_mem_nil, or_false] at ht
      rcases ht with rfl | rfl <;> exact ⟨by show Op.validName _ ≠ []; decide, by simp, by simp, by simp⟩
    · refine ⟨by show Op.validName _ ≠ []; decide, fun t ht => ?_, by decide⟩
      simp only [Variable.new, List.mem_cons, List.not_mem_nil, or_false] at ht
      subst ht
      exact ⟨by show Op.validName _ ≠ []; decide, by simp, by simp, by simp⟩
  outputs v hv := by
    obtain rfl : v = _ := by simpa [engine] using hv
    refine ⟨by show Op.validName _ ≠ []; decide, fun t ht => ?_, by decide⟩
    simp only [OutputVariable.new, Variable.new, List.mem_cons, List.not_mem_nil, or_false] at ht
    rcases ht with rfl | rfl | rfl
    · exact ⟨by show Op.validName _ ≠ []; decide, by simp, by simp, by simp⟩
    · exact ⟨by show Op.validName _ ≠ []; decide, by simp, by simp, by simp⟩
    · refine ⟨by show Op.validName _ ≠ []; decide, by simp, by simp, fun f hf => ?_⟩
      obtain rfl : _ = f := by simpa using hf
      refine ⟨⟨by decide, ?_, by decide⟩, by decide, by decide, by decide⟩
      show ¬ cs! "//" <:+: cs! "x * temp"
      decide
  conjunction k hk := by
    simp only [engine, List.findSome?_cons] at hk
    exact ⟨_, (Option.some.inj hk).symm⟩
  disjunction k hk := by simp [engine] at hk
  implication k hk := by simp [engine] at hk
  aggregation k hk := by simp [engine, OutputVariable.new] at hk
  titles h := by simp [engine] at h
  rules b hb r hr a ha _ := by
    obtain rfl : b = _ := by simpa [engine] using hb
    simp only [List.mem_cons, List.not_mem_nil, or_false] at hr
    rcases hr with rfl | rfl
    · obtain rfl : _ = a := Option.some.inj ha
      refine ⟨by decide, fun p hp => ?_, by decide, fun p hp => ?_⟩
      · simp only [Expr.props, List.singleton_append, List.mem_cons, List.not_mem_nil, or_false] at hp
        rcases hp with rfl | rfl
        · exact ⟨1, _, rfl, rfl, good_proposition _ [.not, .very] 0 _ .very (by decide) (by decide)⟩
        · exact ⟨0, _, rfl, rfl, good_proposition _ [] 1 _ .plain (by decide) (by decide)⟩
      · obtain rfl : p = _ := by simpa [rule] using hp
        exact ⟨0, _, rfl, rfl, good_proposition _ [] 2 _ .plain (by decide) (by decide)⟩
    · obtain rfl : _ = a := Option.some.inj ha
      refine ⟨by decide, fun p hp => ?_, by decide, fun p hp => ?_⟩
      · obtain rfl : p = _ := by simpa [Expr.props] using hp
        exact ⟨0, _, rfl, rfl, ⟨⟨.any, by decide, fun _ => rfl⟩, fun j hj => by simp at hj⟩⟩
      · obtain rfl : p = _ := by simpa [rule] using hp
        exact ⟨0, _, rfl, rfl, good_proposition _ [.somewhat] 0 _ .somewhat (by decide) (by decide)⟩

theorem terms_of (V : Vocabulary) (v : VarRef) : V.terms v = [] ∨ V.terms v ∈ (V.inputs ++ V.outputs).map Prod.snd := by
  cases v with
  | input i =>
    unfold Vocabulary.terms
    cases h : V.inputs[i]? with
    | none => left; simp [h]
    | some p => right; simp only [h]; exact List.mem_map.2 ⟨p, List.mem_append_left _ (List.mem_of_getElem? h), rfl⟩
  | output i =>
    unfold Vocabulary.terms
    cases h : V.outputs[i]? with
    | none => left; simp [h]
    | some p => right; simp only [h]; exact List.mem_map.2 ⟨p, List.mem_append_right _ (List.mem_of_getElem? h), rfl⟩

theorem term_of (V : Vocabulary) (v : VarRef) (t : Str) (h : t ∈ V.terms v) : t ∈ (V.inputs ++ V.outputs).flatMap Prod.snd := by
  rcases terms_of V v with e | e
  · rw [e] at h; cases h
  · obtain ⟨p, hp, e⟩ := List.mem_map.1 e
    exact List.mem_flatMap.2 ⟨p, hp, e ▸ h⟩

theorem usable_names : ∀ t ∈ [cs! "thedial", cs! "temp", cs! "speed", cs! "low", cs! "high", cs! "hot", cs! "a", cs! "b", cs! "c"],
    Usable (defaultFactory : ElementFactory (Ext ℚ)) t := by
  intro t ht
  refine ⟨?_, ?_⟩
  · have : ∀ t ∈ [cs! "thedial", cs! "temp", cs! "speed", cs! "low", cs! "high", cs! "hot", cs! "a", cs! "b", cs! "c"],
        Lexeme t := by unfold Lexeme Op.NoBlank; decide
    exact this t ht
  · simp only [List.mem_cons, List.not_mem_nil, or_false] at ht
    rcases ht with rfl | rfl | rfl | rfl | rfl | rfl | rfl | rfl | rfl <;> exact ⟨rfl, by decide, by decide, by decide⟩

theorem vocabulary_engine : vocabulary engine = ⟨[(cs! "thedial", [cs! "low", cs! "high"]), (cs! "temp", [cs! "hot"])],
    [(cs! "speed", [cs! "a", cs! "b", cs! "c"])]⟩ := by decide

theorem named_engine : Named G engine := by
  have ht : ∀ v, ∀ t ∈ (vocabulary engine).terms v, t ∈ [cs! "low", cs! "high", cs! "hot", cs! "a", cs! "b", cs! "c"] := by
    intro v t h
    have := term_of _ v t h
    rw [vocabulary_engine] at this
    simpa using this
  refine ⟨Antecedent.default_tidy _ (by decide) (fun v => ?_) (fun t h => ?_) (fun v t h => ⟨?_, ?_⟩), ⟨by decide, fun v h => ?_⟩,
    by decide, fun v h => ?_⟩
  · have : ∀ l ∈ ((vocabulary engine).inputs ++ (vocabulary engine).outputs).map Prod.snd, l.Nodup := by decide
    rcases terms_of (vocabulary engine) v with e | e
    · rw [e]; exact List.nodup_nil
    · exact this _ e
  · refine usable_names t ?_
    rw [vocabulary_engine] at h
    simp only [Vocabulary.names, List.map_cons, List.map_nil, List.cons_append, List.nil_append, List.mem_cons, List.not_mem_nil, or_false] at h
    rcases h with rfl | rfl | rfl <;> decide
  · refine usable_names t ?_
    have := ht v t h
    clear * - this
    revert t; decide
  · have := ht v t h
    intro k
    clear * - this
    revert t; cases k <;> decide
  · exact absurd (ht v _ h) (by decide)
  · exact absurd (ht v _ h) (by decide)

theorem loads_engine : Loads G.functions engine := by
  obtain ⟨t, h1, h2⟩ := fromString_toString y G engine good_engine
  have h3 : readBack engine (fun e => e.name) = .ok (cs! "Fan control") := by decide +kernel
  unfold readBack at h3
  rw [h1] at h3
  refine (reading_ok_iff y G engine).1 ?_
  rw [← h2]
  change Except.map _ (y.fromString G t) = _ at h3
  cases hr : y.fromString G t with
  | ok e => exact ⟨e, rfl⟩
  | error e => rw [hr] at h3; cases h3

theorem readable_engine : ∀ b ∈ engine.blocks, ∀ r ∈ b.rules, ∀ a, r.antecedent = some a → r.conclusions ≠ [] → Readable G engine r a := by
  intro b hb r hr a ha hcon
  have hg := good_engine.rules b hb r hr a ha hcon
  have hN : ∀ (ks : List HedgeKind), ∀ h ∈ ks.map (Hedge.builtin (S := Ext ℚ)), G.hedges h.name = some h := by
    intro ks h hh
    obtain ⟨k, -, rfl⟩ := List.mem_map.1 hh
    exact Antecedent.defaultHedges_name k
  obtain rfl : b = _ := by simpa [engine] using hb
  simp only [List.mem_cons, List.not_mem_nil, or_false] at hr
  rcases hr with rfl | rfl
  · obtain rfl : _ = a := Option.some.inj ha
    refine ⟨hg, fun p hp => ?_, fun p hp => ?_, hcon⟩
    · simp only [Expr.props, List.singleton_append, List.mem_cons, List.not_mem_nil, or_false] at hp
      rcases hp with rfl | rfl
      · exact ⟨by decide, hN [.not, .very], by decide, by decide⟩
      · exact ⟨by decide, hN [], by decide, by decide⟩
    · obtain rfl : p = _ := by simpa [rule] using hp
      exact ⟨⟨by decide, hN [], by decide, by decide⟩, by simp⟩
  · obtain rfl : _ = a := Option.some.inj ha
    refine ⟨hg, fun p hp => ?_, fun p hp => ?_, hcon⟩
    · obtain rfl : p = _ := by simpa [Expr.props] using hp
      exact ⟨by decide, hN [.any], [], .builtin .any, rfl, rfl, by simp⟩
    · obtain rfl : p = _ := by simpa [rule] using hp
      exact ⟨⟨by decide, hN [.somewhat], by decide, by decide⟩, by simp⟩

/-- Non-vacuity of C70. -/
example : ∃ text e', FisExporter.toString engine = .ok text ∧ y.fromString G text = .ok e' ∧
    e'.blocks.map RuleBlock.rules = [(engine.blocks.flatMap RuleBlock.rules).filterMap fun r =>
      if r.isLoaded then r.antecedent.map (readRule engine r) else none] := by
  obtain ⟨t, e', is, os, h1, h2, -, -, rfl⟩ := roundTrip_partial y G default_coherent Antecedent.default_connectives engine good_engine
    named_engine loads_engine readable_engine
  exact ⟨t, _, h1, h2, rfl⟩

/-- a rule that is read as it was written -/
example : ∃ A C, (Rule.new (cs! "if thedial is any  then speed is somewhat a")).reload G (vocabulary engine) =
    (⟨true, cs! "if thedial is any  then speed is somewhat a", .fin 1, .fin 0, false, A,
      some (.prop ⟨.input 0, [.builtin .any], none⟩), C, [⟨.output 0, [.builtin .somewhat], some 0⟩]⟩, none) := by
  have hb : engine.blocks[0]'(by decide) ∈ engine.blocks := List.getElem_mem _
  have h := readable_engine _ hb (rule 1 (.prop ⟨.input 0, [.builtin .any], none⟩) [⟨.output 0, [.builtin .somewhat], some 0⟩])
    (by simp [engine]) _ rfl (by simp [rule])
  obtain ⟨A, C, e⟩ := rule_same G default_coherent Antecedent.default_connectives engine named_engine _ true
    ⟨.input 0, [.builtin .any], none⟩ [] h ⟨[0], by simp, rfl⟩ ⟨[0], by simp, rfl⟩
    (fun q hq => by obtain rfl := List.mem_singleton.1 hq; rfl) (fun q hq => by obtain rfl := List.mem_singleton.1 hq; rfl)
  rw [show ruleSaid engine _ _ = cs! "if thedial is any  then speed is somewhat a" by decide +kernel,
    show readWeight (rule 1 _ _).weight = (.fin 1 : Ext ℚ) by decide +kernel] at e
  exact ⟨A, C, e⟩

/-- the rules read: the propositions are in the order of the variables -/
example : readBack engine (fun e => e.blocks.map fun b => b.rules.map fun r => (r.text, r.weight, r.isLoaded)) =
    .ok [[(cs! "if thedial is high and temp is not very hot then speed is c with 0.500", .fin (1/2), true),
      (cs! "if thedial is any  then speed is somewhat a", .fin 1, true)]] := by decide +kernel

/-- the terms read: heights are lost, and blanks of formulas -/
example : readBack engine (fun e => e.outputs.map fun v => v.terms.map fun t => (t.className, t.parameters)) =
    .ok [[(cs! "Constant", cs! "-3.500"), (cs! "Linear", cs! "1.000 2.000 0.000"), (cs! "Function", cs! "x*temp")]] := by
  decide +kernel

/-! ### what the format cannot express -/

/-- C70 fails for descriptions, disabled variables, default values, locks and heights: they are not written. -/
theorem flags_violated :
    readBack engine (fun e => (e.description, e.inputs.map fun v => v.enabled)) = .ok ([], [true, true]) ∧
    (engine.description, engine.inputs.map fun v => v.enabled) = (cs! "a fan", [false, true]) ∧
    readBack engine (fun e => e.outputs.map fun v => (v.default, v.lockPrevious)) = .ok [(.nan, false)] ∧
    engine.outputs.map (fun v => (v.default, v.lockPrevious)) = [(.fin 3, true)] ∧
    readBack engine (fun e => e.inputs.map fun v => v.terms.map fun t => t.height) = .ok [[.fin 1, .fin 1], [.fin 1]] ∧
    engine.inputs.map (fun v => v.terms.map fun t => t.height) = [[.fin (1/2), .fin 1], [.fin 1]] :=
  ⟨by decide +kernel, rfl, by decide +kernel, rfl, by decide +kernel, rfl⟩

/-- C70 fails for activation methods and for types of weighted defuzzifiers. -/
theorem activation_violated :
    readBack engine (fun e => e.blocks.map fun b => b.activation.map Activation.className) = .ok [some (cs! "General")] ∧
    engine.blocks.map (fun b => b.activation) = [some (.first 3 (.fin (1/4)))] ∧
    readBack engine (fun e => e.outputs.map fun v => v.defuzzifier) = .ok [some (.weighted .average .automatic)] ∧
    engine.outputs.map (fun v => v.defuzzifier) = [some (.weighted .average .takagiSugeno)] :=
  ⟨by decide +kernel, rfl, by decide +kernel, rfl⟩

/-- C70 fails for missing operators: minimum and maximum are read. -/
theorem operators_violated :
    readBack engine (fun e => e.blocks.map fun b => (b.disjunction.map SNorm.className, b.implication.map TNorm.className)) =
      .ok [(some (cs! "Maximum"), some (cs! "Minimum"))] ∧
    engine.blocks.map (fun b => (b.disjunction, b.implication)) = [(none, none)] := ⟨by decide +kernel, rfl⟩

def var (n : Str) (ts : List Str) : Variable (Ext ℚ) :=
  Variable.new n (.fin 0) (.fin 1) (ts.map fun t => ⟨t, .fin 1, .shape (.ramp (.fin 0) (.fin 1))⟩)

def out (n : Str) (d : Option Defuzzifier) (a : Option (SNorm (Ext ℚ))) : OutputVariable (Ext ℚ) :=
  { OutputVariable.new n (.fin 0) (.fin 1) [⟨cs! "t", .fin 1, .constant (.fin 1)⟩] with
    defuzzifier := d, fuzzy := ⟨n, .fin 0, .fin 1, a, []⟩ }

def block (n : Str) (c : Option (TNorm (Ext ℚ))) (rs : List (Rule (Ext ℚ))) : RuleBlock (Ext ℚ) :=
  ⟨n, [], true, c, none, none, none, rs⟩

/-- two inputs, two outputs and these blocks -/
def plant (bs : List (RuleBlock (Ext ℚ))) : Engine (Ext ℚ) :=
  ⟨cs! "e", [], [var (cs! "u") [cs! "t", cs! "s"], var (cs! "v") [cs! "t"]],
    [out (cs! "w") (some (.integral .centroid 200)) none,
     out (cs! "z") (some (.integral .bisector 300)) (some (.builtin .algebraicSum))], bs⟩

/-- the texts of rules read -/
def rulesBack (e : Engine (Ext ℚ)) : Except Err (List (List Str)) := readBack e fun e => e.blocks.map fun b => b.rules.map Rule.text

/-- C70 fails for engines with several outputs: all get the first defuzzifier and the first aggregation, and
the resolution of the importer. -/
theorem outputs_violated :
    readBack (plant []) (fun e => e.outputs.map fun v => (v.defuzzifier, v.fuzzy.aggregation.map SNorm.className)) =
      .ok [(some (.integral .centroid 1000), some (cs! "AlgebraicSum")), (some (.integral .centroid 1000), some (cs! "AlgebraicSum"))] ∧
    (plant []).outputs.map (fun v => (v.defuzzifier, v.fuzzy.aggregation.map SNorm.className)) =
      [(some (.integral .centroid 200), none), (some (.integral .bisector 300), some (cs! "AlgebraicSum"))] :=
  ⟨by decide +kernel, by decide +kernel⟩

def isT (n : VarRef) (hs : List HedgeKind) : Proposition (Ext ℚ) := ⟨n, hs.map Hedge.builtin, some 0⟩

/-- C70 fails for engines with several blocks: one is read, with the first conjunction.  Rules that are not
loaded are not written. -/
theorem blocks_violated :
    readBack (plant [block (cs! "one") none [rule 1 (.prop (isT (.input 0) [])) [isT (.output 0) []], Rule.new (cs! "if u is t then w is t")],
        block (cs! "two") (some (.builtin .drasticProduct)) [rule 1 (.prop (isT (.input 1) [])) [isT (.output 1) []]]])
      (fun e => e.blocks.map fun b => (b.name, b.conjunction.map TNorm.className, b.rules.map Rule.text)) =
    .ok [([], some (cs! "DrasticProduct"), [cs! "if u is t then w is t", cs! "if v is t then z is t"])] := by decide +kernel

/-- C70 fails for `very not`: `not very` is read, which is another hedge. -/
theorem hedges_violated :
    rulesBack (plant [block [] none [rule 1 (.prop (isT (.input 0) [.very, .not])) [isT (.output 0) []]]]) =
      .ok [[cs! "if u is not very t then w is t"]] ∧
    applyHedges [.builtin .not, .builtin .very] (.fin (1/2) : Ext ℚ) = .ok (.fin (3/4)) ∧
    applyHedges [.builtin .very, .builtin .not] (.fin (1/2) : Ext ℚ) = .ok (.fin (1/4)) :=
  ⟨by decide +kernel, by decide +kernel, by decide +kernel⟩

/-- C70 fails for several hedges: the fractions are added, and `somewhat` four times is `very`. -/
theorem fractions_violated :
    rulesBack (plant [block [] none [rule 1 (.prop (isT (.input 0) [.somewhat, .somewhat, .somewhat, .somewhat]))
      [isT (.output 0) [.seldom, .seldom, .seldom, .seldom, .seldom]]]]) =
      .ok [[cs! "if u is very t then w is somewhat t"]] := by decide +kernel

/-- C70 fails for other combinations of hedges: the text is rejected. -/
theorem combinations_violated :
    rulesBack (plant [block [] none [rule 1 (.prop (isT (.input 0) [.seldom, .very])) [isT (.output 0) []]]]) =
      .error .syntaxError := by decide +kernel

/-- C70 fails for rules with several propositions about a variable, or several conclusions: the first met is written. -/
theorem propositions_violated :
    rulesBack (plant [block [] none [rule 1 (.conj (.prop (isT (.input 0) [.very])) (.prop (isT (.input 0) [.not])))
      [isT (.output 0) [], isT (.output 0) [.very]]]]) =
      .ok [[cs! "if u is very t then w is t"]] := by decide +kernel

/-- C70 fails for rules with propositions about output variables: they are not written. -/
theorem antecedent_violated :
    rulesBack (plant [block [] none [rule 1 (.conj (.prop (isT (.input 0) [])) (.prop (isT (.output 1) []))) [isT (.output 0) []]]]) =
      .ok [[cs! "if u is t then w is t"]] := by decide +kernel

/-- C70 fails for rules with both operators: the exporter raises. -/
theorem connectors_violated :
    FisExporter.toString (plant [block [] none [rule 1 (.disj (.prop (isT (.input 0) []))
      (.conj (.prop (isT (.input 1) [])) (.prop (isT (.input 0) [.not])))) [isT (.output 0) []]]]) = .error .exporting := by decide +kernel

/-- C70 fails for weights near 1: no weight is written in the text of the rule. -/
theorem weight_violated :
    readBack (plant [block [] none [rule (9999/10000) (.prop (isT (.input 0) [])) [isT (.output 0) []]]])
      (fun e => e.blocks.map fun b => b.rules.map Rule.weight) = .ok [[.fin 1]] := by decide +kernel

/-- C70 fails for rules of an engine without input variables: their line cannot be read. -/
theorem inputs_violated :
    rulesBack ⟨cs! "e", [], [], [out (cs! "w") none none], [block [] none [rule 1 (.prop (isT (.output 0) [])) [isT (.output 0) []]]]⟩ =
      .error .syntaxError := by decide +kernel

/-- one output with one term -/
def single (k : TermKind (Ext ℚ)) : Engine (Ext ℚ) :=
  ⟨cs! "e", [], [], [OutputVariable.new (cs! "w") (.fin 0) (.fin 1) [⟨cs! "t", .fin 1, k⟩]], []⟩

def formula (s : Str) : TermKind (Ext ℚ) := .function ⟨s, none, true, fun _ => none⟩

/-- C70 fails for formulas with `,`, such as those with functions of two arguments, and for terms without
parameters: the text is rejected. -/
theorem formula_violated :
    readBack (single (formula (cs! "max(x,1)"))) (fun _ => ()) = .error .syntaxError ∧
    readBack (single (.linear [] true)) (fun _ => ()) = .error .syntaxError ∧
    readBack (single (.discrete [])) (fun _ => ()) = .error .syntaxError := ⟨by decide +kernel, by decide +kernel, by decide +kernel⟩

/-- C70 fails for formulas with words: blanks are lost, and an unknown variable `xand1` is read. -/
theorem blanks_violated : readBack (single (formula (cs! "x and 1"))) (fun _ => ()) = .error .evaluation := by decide +kernel

def named (n : Str) : Engine (Ext ℚ) := ⟨n, [], [], [], []⟩

/-- C70 fails for names of engines with `=`, `'`, `#` or `//`. -/
theorem name_violated :
    readBack (named (cs! "a=b")) Engine.name = .ok (cs! "ab") ∧ readBack (named (cs! "a's")) Engine.name = .ok (cs! "as") ∧
    readBack (named (cs! "a#b")) Engine.name = .ok (cs! "a") ∧ readBack (named (cs! "a//b")) Engine.name = .ok (cs! "a") :=
  ⟨by decide +kernel, by decide +kernel, by decide +kernel, by decide +kernel⟩

/-- C70 fails for operators given by functions: the class cannot be constructed. -/
theorem function_violated :
    readBack (plant [block [] (some (.function ⟨cs! "a*b", none, true, fun _ => none⟩)) []]) (fun _ => ()) = .error .outOfRange := by
  decide +kernel

/-! ### texts on which the importer fails badly -/

def importing (ls : List Str) : Except Err Str := (y.fromString G (FclExporter.text ls)).map Engine.name

/-- The importer converts numbers out of the range of `int`: undefined behaviour. -/
theorem code_ub :
    importing [cs! "[Input1]", cs! "Name='u'", cs! "[Rules]", cs! "1e10, (1) : 1"] = .error .ub ∧
    importing [cs! "[Input1]", cs! "Name='u'", cs! "[Rules]", cs! "nan, (1) : 1"] = .error .ub := ⟨by decide +kernel, by decide +kernel⟩

/-- The importer dereferences a null pointer for a term without class: undefined behaviour. -/
theorem class_ub : importing [cs! "[Input1]", cs! "Name='u'", cs! "MF1='t':' ',[1 2]"] = .error .ub := by decide +kernel

/-- Two texts for which `std::out_of_range` escapes instead of the documented exception. -/
theorem outOfRange_witness : importing [cs! "[System]", cs! "="] = .error .outOfRange ∧
    importing [cs! "[Input1]", cs! "Name='u'", cs! "[Rules]", cs! "1, : 1"] = .error .outOfRange := ⟨by decide +kernel, by decide +kernel⟩

end FisExamples
end FL
