/-
The C++ code that `CppExporter` writes builds the engine that it was written for (C74).

The fragment of C++ and its execution are in Model/Cpp.lean.
-/
import Verif.Lemmas.CppExec

namespace FL
open Scalar

section
variable {S : Type} [ScalarText S]

namespace Cpp

/-! ### the engine that the code builds -/

/-- the term built where `t` was written, in an engine that has the components of `E`: parameters are
read from their texts, the height of a term `Discrete` is not written, `Linear::create` reads as many
coefficients as the engine has input variables, and one more, and formulas are loaded -/
def readTerm (F : ElementFactory S) (E : Engine S) (t : Term S) : Except Err (Term S) :=
  match t.kind with
  | .shape sh => .ok ⟨t.name, Fll.readHeight t.height, .shape (sh.each reread)⟩
  | .discrete xy => .ok ⟨t.name, lit 1, .discrete (xy.map fun p => (reread p.1, reread p.2))⟩
  | .constant v => .ok ⟨t.name, lit 1, .constant (reread v)⟩
  | .linear c _ =>
    if c.length < E.inputs.length + 1 then .error .ub
    else .ok ⟨t.name, lit 1, .linear ((c.map reread).take (E.inputs.length + 1)) true⟩
  | .function f =>
    match (⟨[], none, false, fun _ => none⟩ : Fun S).load F f.formula true E.world.ctx with
    | (g, none) => .ok ⟨t.name, lit 1, .function g⟩
    | (_, some e) => .error e

/-- an input variable is added with its terms -/
def addInput (F : ElementFactory S) (E : Engine S) (v : Variable S) : Except Err (Engine S) := do
  let ts ← v.terms.mapM (readTerm F E)
  .ok { E with inputs := E.inputs ++ [{
    name := v.name, description := v.description, terms := ts, value := nan, minimum := reread v.minimum,
    maximum := reread v.maximum, enabled := v.enabled, lockRange := v.lockRange }] }

/-- an output variable is added with its terms -/
def addOutput (F : ElementFactory S) (E : Engine S) (v : OutputVariable S) : Except Err (Engine S) := do
  let ts ← v.terms.mapM (readTerm F E)
  .ok { E with outputs := E.outputs ++ [{
    name := v.name, description := v.description, terms := ts, value := nan, minimum := reread v.minimum,
    maximum := reread v.maximum, enabled := v.enabled, lockRange := v.lockRange,
    fuzzy := ⟨v.name, reread v.minimum, reread v.maximum, v.fuzzy.aggregation, []⟩,
    defuzzifier := v.defuzzifier, previous := nan, default := reread v.default, lockPrevious := v.lockPrevious }] }

/-- rules are loaded from their texts -/
def readRule (G : Registry S) (V : Vocabulary) (r : Rule S) : Except Err (Rule S) :=
  match (Rule.new []).load G V r.text with
  | (r, none) => .ok r
  | (_, some e) => .error e

/-- a rule block is added with its rules -/
def addBlock (G : Registry S) (E : Engine S) (b : RuleBlock S) : Except Err (Engine S) := do
  let rs ← b.rules.mapM (readRule G E.world.vocabulary)
  .ok { E with blocks := E.blocks ++ [{ b with activation := b.activation.map Fll.readActivation, rules := rs }] }

/-- the engine built where `e` was written -/
def reading (G : Registry S) (e : Engine S) : Except Err (Engine S) := do
  let E ← e.inputs.foldlM (addInput G.functions) ⟨e.name, e.description, [], [], []⟩
  let E ← e.outputs.foldlM (addOutput G.functions) E
  e.blocks.foldlM (addBlock G) E

/-! ### engines whose code is accepted -/

/-- the names of the local variables for the components of an engine -/
def localNames (x : CppExporter) (e : Engine S) : List Str :=
  e.inputs.mapIdx (x.inputName e) ++ e.outputs.mapIdx (x.outputName e) ++ e.blocks.mapIdx (x.blockName e)

/-- names of the library that are looked up after local variables have been declared -/
def libraryNames : List Str :=
  [cs! "InputVariable", cs! "OutputVariable", cs! "RuleBlock", cs! "inf",
   cs! "Constant", cs! "Bell", cs! "Binary", cs! "Concave", cs! "Cosine", cs! "Gaussian", cs! "GaussianProduct", cs! "PiShape",
   cs! "Ramp", cs! "Rectangle", cs! "SShape", cs! "Sigmoid", cs! "SigmoidDifference", cs! "SigmoidProduct", cs! "Spike",
   cs! "Trapezoid", cs! "Triangle", cs! "ZShape",
   cs! "AlgebraicProduct", cs! "BoundedDifference", cs! "DrasticProduct", cs! "EinsteinProduct", cs! "HamacherProduct",
   cs! "Minimum", cs! "NilpotentMinimum",
   cs! "AlgebraicSum", cs! "BoundedSum", cs! "DrasticSum", cs! "EinsteinSum", cs! "HamacherSum", cs! "Maximum",
   cs! "NilpotentMaximum", cs! "NormalizedSum", cs! "UnboundedSum",
   cs! "Bisector", cs! "Centroid", cs! "LargestOfMaximum", cs! "MeanOfMaximum", cs! "SmallestOfMaximum",
   cs! "WeightedAverage", cs! "WeightedSum",
   cs! "First", cs! "General", cs! "Highest", cs! "Last", cs! "Lowest", cs! "Proportional", cs! "Threshold"]

/-- `Op::str` writes a number that C++ reads: not `nan`, and `inf` only with `using namespace` -/
def Readable (x : CppExporter) (v : S) : Prop := Op.isNaN v = false ∧ (Op.isInf v = true → x.usingNamespace = false)

/-- the numbers written for a term -/
def termValues (t : Term S) : List S :=
  match t.kind with
  | .shape sh => shapeValues t.height sh
  | .discrete xy => Discrete.toVector xy
  | .constant v => [v]
  | .linear c _ => c
  | .function _ => []

structure GoodTerm (x : CppExporter) (t : Term S) : Prop where
  name : Plain t.name
  formula : ∀ f, t.kind = .function f → Plain f.formula
  values : ∀ v ∈ termValues t, Readable x v
  some : (∃ f, t.kind = .function f) ∨ termValues t ≠ []
  count : ∀ xy, t.kind = .discrete xy → Fll.IsInt (xy.length * 2 : Nat)

structure GoodVariable (x : CppExporter) (v : Variable S) : Prop where
  name : Plain v.name
  description : Plain v.description
  terms : ∀ t ∈ v.terms, GoodTerm x t

structure GoodOutput (x : CppExporter) (v : OutputVariable S) : Prop extends GoodVariable x v.toVariable where
  aggregation : ∀ k, v.fuzzy.aggregation = some k → ∃ j, k = .builtin j
  resolution : ∀ k r, v.defuzzifier = some (.integral k r) → Fll.IsInt r
  weighted : ∀ k t, v.defuzzifier = some (.weighted k t) → x.usingNamespace = false

/-- what does not depend on how defuzzifiers are written -/
structure SoundOutput (x : CppExporter) (v : OutputVariable S) : Prop where
  aggregation : ∀ k, v.fuzzy.aggregation = some k → ∃ j, k = .builtin j
  terms : ∀ t ∈ v.terms, GoodTerm x t

structure GoodBlock (x : CppExporter) (b : RuleBlock S) : Prop where
  name : Plain b.name
  description : Plain b.description
  conjunction : ∀ k, b.conjunction = some k → ∃ j, k = .builtin j
  disjunction : ∀ k, b.disjunction = some k → ∃ j, k = .builtin j
  implication : ∀ k, b.implication = some k → ∃ j, k = .builtin j
  rules : ∀ r ∈ b.rules, Plain r.text
  number : IntActivation b.activation
  threshold : ∀ n c v, b.activation = some (.first n v) ∨ b.activation = some (.last n v) ∨ b.activation = some (.threshold c v) →
    Readable x v

/-- engines whose code is accepted: the names of local variables are distinct identifiers and hide no
name of the library, texts need no escape sequences, and numbers are numbers -/
structure Good (x : CppExporter) (e : Engine S) : Prop where
  library : '\n' ∉ x.library
  name : Plain e.name
  description : Plain e.description
  distinct : (cs! "engine" :: localNames x e).Nodup
  identifiers : ∀ n ∈ localNames x e, IsIdent n ∧ n ∉ keywords
  hidden : x.usingNamespace = true ∨ ∀ n ∈ localNames x e, n ∉ libraryNames
  inputs : ∀ v ∈ e.inputs, GoodVariable x v
  outputs : ∀ v ∈ e.outputs, GoodOutput x v
  blocks : ∀ b ∈ e.blocks, GoodBlock x b

/-- what executing the statements for an engine needs, other than how defuzzifiers are written -/
structure Sound (x : CppExporter) (e : Engine S) : Prop where
  distinct : (cs! "engine" :: localNames x e).Nodup
  keywords : ∀ n ∈ localNames x e, n ∉ keywords
  hidden : x.usingNamespace = true ∨ ∀ n ∈ localNames x e, n ∉ libraryNames
  inputs : ∀ v ∈ e.inputs, GoodVariable x v
  outputs : ∀ v ∈ e.outputs, SoundOutput x v
  blocks : ∀ b ∈ e.blocks, GoodBlock x b

theorem Good.sound {x : CppExporter} {e : Engine S} (h : Good x e) : Sound x e :=
  ⟨h.distinct, fun n hn => (h.identifiers n hn).2, h.hidden, h.inputs,
   fun v hv => ⟨(h.outputs v hv).aggregation, (h.outputs v hv).terms⟩, h.blocks⟩

/-! ### arguments -/

/-- the local variables `D` hide no name of the library -/
def Free (x : CppExporter) (D : List Str) : Prop := x.usingNamespace = true ∨ ∀ n ∈ D, n ∉ libraryNames

theorem View.undeclared {o : Bool} {E : Engine S} {D : List Str} {s : Scope S} (h : View o E D s) {c : Str} (hc : c ∉ D) :
    s.declared c = false := by
  have := (not_congr (h.declared c)).2 hc
  simpa using this

variable {x : CppExporter} {E : Engine S} {D : List Str} {s : Scope S}

theorem Free.finds (hf : Free x D) (h : View (!x.usingNamespace) E D s) {c : Str} (hc : c ∈ libraryNames) :
    s.finds x.usingNamespace c = true := by
  unfold Scope.finds
  rcases hf with hf | hf
  · rw [hf]; rfl
  · rw [h.opened, h.undeclared fun hm => hf c hm hc]
    cases x.usingNamespace <;> rfl

theorem scalarOf_plain [CppText S] (hf : Free x D) (h : View (!x.usingNamespace) E D s) (v : S) (hv : Readable x v) :
    scalarOf s (plainAtom v) = some (reread v) := by
  refine scalarOf_plainAtom s v hv.1 fun hi => ?_
  have hx := hv.2 hi
  refine ⟨by rw [h.opened, hx]; rfl, h.undeclared fun hm => ?_⟩
  rcases hf with hf | hf
  · rw [hx] at hf; cases hf
  · exact hf _ hm (by decide)

theorem mapM_plain [CppText S] (hf : Free x D) (h : View (!x.usingNamespace) E D s) (vs : List S) (hv : ∀ v ∈ vs, Readable x v) :
    (vs.map plainAtom).mapM (scalarOf s) = some (vs.map reread) := by
  induction vs with
  | nil => rfl
  | cons v vs ih =>
    rw [List.map_cons, List.mapM_cons, scalarOf_plain hf h v (hv v (by simp)), ih fun w hw => hv w (by simp [hw])]
    rfl

theorem variable_plain [CppText S] (hf : Free x D) (h : View (!x.usingNamespace) E D s) (vs : List S) (hv : ∀ v ∈ vs, Readable x v)
    (n : Nat) : variable_ s n (vs.map plainAtom) = if vs.length < n then .error (.raised .ub) else .ok ((vs.map reread).take n) := by
  unfold variable_
  rw [mapM_plain hf h vs hv]
  simp only [List.length_map]
  split_ifs with h1 h2
  · rfl
  · rfl
  · exfalso
    refine h2 (List.all_eq_true.2 fun a ha => ?_)
    have hs : ∀ a ∈ vs.map plainAtom, isScalar a = true := by
      intro a ha
      obtain ⟨v, -, rfl⟩ := List.mem_map.1 ha
      exact isScalar_plainAtom v
    have ha' := List.mem_of_mem_take ha
    have hd : isScalar ((vs.map plainAtom).headD a) = true := by
      cases vs with
      | nil => cases ha'
      | cons v vs => exact isScalar_plainAtom v
    rw [hs a ha', hd]
    rfl

theorem toPairs_reread (xy : List (S × S)) :
    Discrete.toPairs ((Discrete.toVector xy).map reread) = .ok (xy.map fun p => (reread p.1, reread p.2)) := by
  induction xy with
  | nil => rfl
  | cons p xy ih =>
    have : (Discrete.toVector (p :: xy)).map reread = reread p.1 :: reread p.2 :: (Discrete.toVector xy).map reread := by
      simp [Discrete.toVector]
    rw [this, Discrete.toPairs, ih]
    rfl

theorem toVector_length (xy : List (S × S)) : (Discrete.toVector xy).length = xy.length * 2 := by
  induction xy with
  | nil => rfl
  | cons p xy ih =>
    have : Discrete.toVector (p :: xy) = p.1 :: p.2 :: Discrete.toVector xy := by simp [Discrete.toVector]
    rw [this, List.length_cons, List.length_cons, ih, List.length_cons]
    omega

theorem newTerm_shape [CppText S] (name : Str) (h : S) (sh : Shape S) (hn : ∀ v ∈ shapeValues h sh, Op.isNaN v = false) :
    newTerm sh.className name ((shapeValues h sh).map reread) = some ⟨name, Fll.readHeight h, .shape (sh.each reread)⟩ := by
  have hr : ∀ v ∈ sh.written, Op.isNaN (reread v) = false := fun v hv => by
    rw [CppText.number]
    exact hn v (by unfold shapeValues; simp [hv])
  unfold shapeValues Fll.readHeight
  by_cases h1 : Op.isEq h (lit 1) = true
  · rw [if_pos h1, if_pos h1, List.append_nil]
    cases sh <;>
      simp only [Shape.written, List.mem_cons, List.not_mem_nil, or_false, forall_eq_or_imp, forall_eq] at hr <;>
      simp [Shape.written, Shape.className, newTerm, shapeOf, Shape.each, hr]
  · rw [if_neg h1, if_neg h1]
    cases sh <;>
      simp only [Shape.written, List.mem_cons, List.not_mem_nil, or_false, forall_eq_or_imp, forall_eq] at hr <;>
      simp [Shape.written, Shape.className, newTerm, shapeOf, Shape.each, hr]

theorem shape_library (sh : Shape S) : sh.className ∈ libraryNames := by
  cases sh <;> (simp only [Shape.className]; decide)

theorem findsClass_view (h : View (!x.usingNamespace) E D s) : s.findsClass x.usingNamespace = true := by
  unfold Scope.findsClass
  rw [h.opened]
  cases x.usingNamespace <;> rfl

theorem termArg_term [CppText S] (F : ElementFactory S) (hf : Free x D) (h : View (!x.usingNamespace) E D s) (t : Term S)
    (ht : GoodTerm x t) : termArg F s (termArgs x t) = (readTerm F E t).mapError Fault.raised := by
  have hv := ht.values
  have hs := ht.some
  have hc := findsClass_view h
  unfold termValues at hv hs
  unfold termArgs readTerm
  cases hk : t.kind with
  | shape sh =>
    rw [hk] at hv
    simp only [termArg]
    rw [if_pos (hf.finds h (shape_library sh)), mapM_plain hf h _ hv]
    simp only
    rw [newTerm_shape _ _ _ fun v hm => (hv v hm).1]
    rfl
  | constant v =>
    rw [hk] at hv
    simp only [termArg]
    have := mapM_plain hf h [v] hv
    simp only [List.map_cons, List.map_nil] at this
    rw [if_pos (hf.finds h (by decide)), this]
    rfl
  | discrete xy =>
    rw [hk] at hv hs
    simp only [termArg]
    rw [if_pos ⟨hc, trivial⟩, if_pos trivial]
    simp only [intOf_intAtom _ (ht.count xy hk)]
    have hne : xy ≠ [] := by
      rintro rfl
      rcases hs with ⟨f, hf⟩ | hs
      · cases hf
      · exact hs rfl
    obtain ⟨a, b, r, e⟩ : ∃ a b r, (Discrete.toVector xy).map plainAtom = plainAtom a :: plainAtom b :: r := by
      cases xy with
      | nil => exact absurd rfl hne
      | cons p xy => exact ⟨p.1, p.2, (Discrete.toVector xy).map plainAtom, by simp [Discrete.toVector]⟩
    have hl : 1 ≤ xy.length := List.length_pos_iff.2 hne
    have hvar := variable_plain hf h _ hv (xy.length * 2)
    rw [toVector_length, if_neg (lt_irrefl _), List.take_of_length_le (by rw [List.length_map, toVector_length])] at hvar
    unfold createDiscrete
    rw [e] at hvar ⊢
    simp only [isScalar_plainAtom, bne_self_eq_false, Bool.false_eq_true, false_or]
    rw [if_neg (by omega), if_neg (by omega)]
    simp only [Int.toNat_natCast]
    rw [hvar]
    have hm : ((Discrete.toVector xy).map (reread (S := S))).length % 2 = 0 := by rw [List.length_map, toVector_length]; omega
    show (match Discrete.toPairs (if ((Discrete.toVector xy).map (reread (S := S))).length % 2 ≠ 0 then
        ((Discrete.toVector xy).map (reread (S := S))).dropLast else (Discrete.toVector xy).map reread) with
      | .ok ps => Except.ok (⟨t.name, if ((Discrete.toVector xy).map (reread (S := S))).length % 2 ≠ 0 then
          ((Discrete.toVector xy).map (reread (S := S))).getLastD (lit 1) else lit 1, .discrete ps⟩ : Term S)
      | .error e => Except.error (Fault.raised e)) = _
    simp only [hm, ne_eq, not_true_eq_false, if_false, toPairs_reread]
    rfl
  | linear c b =>
    rw [hk] at hv hs
    simp only [termArg]
    rw [if_pos ⟨hc, trivial⟩, if_neg (by decide), if_pos trivial]
    simp only [h.engine]
    have hne : c ≠ [] := by
      rintro rfl
      rcases hs with ⟨f, hf⟩ | hs
      · cases hf
      · exact hs rfl
    have hvar := variable_plain hf h c hv (E.inputs.length + 1)
    unfold createLinear
    cases c with
    | nil => exact absurd rfl hne
    | cons v c =>
      simp only [List.map_cons] at hvar ⊢
      rw [hvar]
      split_ifs <;> rfl
  | function f =>
    simp only [termArg]
    rw [if_pos ⟨hc, trivial⟩, if_neg (by decide), if_neg (by decide), if_pos trivial]
    simp only [h.engine, createFunction]
    rcases (⟨[], none, false, fun _ => none⟩ : Fun S).load F f.formula true E.world.ctx with ⟨g, _ | e⟩ <;> rfl

theorem isNull_null : isNull s (.name false true (cs! "null")) = true := rfl

theorem tnormArg_tnorm (hf : Free x D) (h : View (!x.usingNamespace) E D s) (k : Option (TNorm S))
    (hk : ∀ n, k = some n → ∃ j, n = .builtin j) : tnormArg s (tnormArgs x k) = .ok k := by
  cases k with
  | none => rfl
  | some n =>
    obtain ⟨j, rfl⟩ := hk n rfl
    simp only [tnormArgs, tnormArg, TNorm.className]
    rw [if_pos (hf.finds h (by cases j <;> decide))]
    cases j <;> rfl

theorem snormArg_snorm (hf : Free x D) (h : View (!x.usingNamespace) E D s) (k : Option (SNorm S))
    (hk : ∀ n, k = some n → ∃ j, n = .builtin j) : snormArg s (snormArgs x k) = .ok k := by
  cases k with
  | none => rfl
  | some n =>
    obtain ⟨j, rfl⟩ := hk n rfl
    simp only [snormArgs, snormArg, SNorm.className]
    rw [if_pos (hf.finds h (by cases j <;> decide))]
    cases j <;> rfl

theorem defuzzifierArg_defuzzifier (hf : Free x D) (h : View (!x.usingNamespace) E D s) (d : Option Defuzzifier)
    (hr : ∀ k r, d = some (.integral k r) → Fll.IsInt r) (hw : ∀ k t, d = some (.weighted k t) → x.usingNamespace = false) :
    defuzzifierArg s (defuzzifierArgs x d) = .ok d := by
  rcases d with _ | ⟨k, r⟩ | ⟨k, t⟩
  · rfl
  · simp only [defuzzifierArgs, defuzzifierArg]
    rw [if_pos (hf.finds h (by cases k <;> decide))]
    have hi := intOf_intAtom r (hr k r rfl)
    have : (Defuzzifier.registered 0).find? (fun d => d.className == k.className) = some (.integral k 0) := by cases k <;> rfl
    rw [this]
    simp only [hi]
  · have hx := hw k t rfl
    simp only [defuzzifierArgs, defuzzifierArg]
    have hfind := hf.finds h (c := k.className) (by cases k <;> decide)
    rw [hx] at hfind
    rw [if_pos hfind]
    cases k <;> cases t <;> rfl

theorem activationArg_activation [CppText S] (hf : Free x D) (h : View (!x.usingNamespace) E D s) (a : Option (Activation S))
    (hi : IntActivation a)
    (hv : ∀ n c v, a = some (.first n v) ∨ a = some (.last n v) ∨ a = some (.threshold c v) → Readable x v) :
    activationArg s (activationArgs x a) = .ok (a.map Fll.readActivation) := by
  cases a with
  | none => rfl
  | some a =>
    have hl : a.className ∈ libraryNames := by cases a <;> (simp only [Activation.className]; decide)
    simp only [activationArgs, activationArg]
    rw [if_pos (hf.finds h hl)]
    cases a with
    | general => rfl
    | proportional => rfl
    | first n v =>
      have h1 := intOf_intAtom n (hi n v (by simp))
      have h2 := scalarOf_plain hf h v (hv n .lessThan v (by simp))
      show (match intOf _, scalarOf s _ with | some n, some t => _ | _, _ => _) = _
      rw [h1, h2]
      rfl
    | last n v =>
      have h1 := intOf_intAtom n (hi n v (by simp))
      have h2 := scalarOf_plain hf h v (hv n .lessThan v (by simp))
      show (match intOf _, scalarOf s _ with | some n, some t => _ | _, _ => _) = _
      rw [h1, h2]
      rfl
    | highest n =>
      have h1 := intOf_intAtom n (hi n (lit 0) (by simp))
      show (match intOf _ with | some n => _ | none => _) = _
      rw [h1]
      rfl
    | lowest n =>
      have h1 := intOf_intAtom n (hi n (lit 0) (by simp))
      show (match intOf _ with | some n => _ | none => _) = _
      rw [h1]
      rfl
    | threshold c v =>
      have h2 := scalarOf_plain hf h v (hv 0 c v (by simp))
      show (match scalarOf s _ with | some n => _ | none => _) = _
      rw [h2]
      simp only [Fll.parse_operator]
      rfl

theorem ruleArg_rule (G : Registry S) (h : View (!x.usingNamespace) E D s) (r : Rule S) :
    ruleArg G s (ruleArgs x r) = (readRule G E.world.vocabulary r).mapError Fault.raised := by
  simp only [ruleArgs, ruleArg]
  rw [if_pos ⟨findsClass_view h, trivial, trivial⟩]
  simp only [h.engine, parseRule, readRule]
  rcases (Rule.new []).load G E.world.vocabulary r.text with ⟨g, _ | e⟩ <;> rfl

theorem boolArg_bool (b : Bool) : boolArg (boolArgs b) = .ok b := by cases b <;> rfl

theorem scalarArg_scalar [CppText S] (v : S) : scalarArg s (.atoms [scalarAtom v]) = .ok (reread v) := by
  unfold scalarArg
  simp only [scalarOf_scalarAtom]
  rfl

theorem rangeArg_range [CppText S] (a b : S) : rangeArg s (.atoms [scalarAtom a, scalarAtom b]) = .ok (reread a, reread b) := by
  unfold rangeArg
  simp only [scalarOf_scalarAtom]
  rfl

/-! ### statements -/

variable {n : Str} {G : Registry S}

theorem Free.sub {D' : List Str} (h : Free x D) (hs : ∀ y ∈ D', y ∈ D) : Free x D' := h.imp id fun h y hy => h y (hs y hy)

theorem does_declare {c : Str} {obj : Obj S} (ho : newObj c = some obj) (hc : c ∈ libraryNames) (hn : n ∉ D) (hk : n ∉ keywords)
    (hf : Free x (D ++ [n])) (s : Scope S) (hs : State (!x.usingNamespace) E D s) :
    ∃ s', exec G s (.declare x.usingNamespace c n x.usingNamespace c) = .ok s' ∧ Building (!x.usingNamespace) E D n obj s' := by
  refine exec_declare ho hn hk ?_ s hs
  cases hx : x.usingNamespace with
  | true => exact .inl rfl
  | false =>
    refine .inr ⟨rfl, fun hm => ?_⟩
    rcases hf with hf | hf
    · rw [hx] at hf; cases hf
    · exact hf c hm hc

theorem mapM_cons_ok {α β : Type} (f : α → Except Err β) (a : α) (as : List α) :
    (a :: as).mapM f = f a >>= fun b => as.mapM f >>= fun bs => .ok (b :: bs) := by
  rw [List.mapM_cons]
  rfl

/-- the items of a component are added in order -/
theorem does_items {α β : Type} (m : Str) (args : α → Args) (read : α → Except Err β) (obj : List β → Obj S)
    (o : Bool) (as : List α) (bs : List β)
    (h : ∀ a ∈ as, ∀ bs s, View o E (D ++ [n]) s →
      objCall G s (obj bs) m (args a) = ((read a).mapError Fault.raised).map fun b => obj (bs ++ [b])) :
    Does G (Building o E D n (obj bs)) (as.map fun a => .call n m (args a)) (as.mapM read) fun cs => Building o E D n (obj (bs ++ cs)) := by
  induction as generalizing bs with
  | nil => exact Does.nil [] fun s hs => by simpa using hs
  | cons a as ih =>
    rw [mapM_cons_ok]
    refine Does.append (ss := [_]) (does_building (f := fun b => obj (bs ++ [b])) fun s hs => h a (by simp) bs s hs) fun b => ?_
    have := Does.append (f := fun cs => .ok (b :: cs)) (ss' := []) (ih (bs ++ [b]) fun a ha => h a (by simp [ha]))
      (R := fun cs => Building o E D n (obj (bs ++ cs))) fun cs => Does.nil _ fun s hs => by simpa using hs
    simpa using this

theorem does_input [CppText S] (hf : Free x (D ++ [n])) (hn : n ∉ D) (hk : n ∉ keywords) (v : Variable S) (hv : GoodVariable x v) :
    Does G (State (!x.usingNamespace) E D) (inputStmts x n v) (addInput G.functions E v) fun E' => State (!x.usingNamespace) E' (D ++ [n]) := by
  unfold inputStmts addInput
  simp only [List.cons_append, List.nil_append]
  have step : ∀ {v v' : Variable S} {m : Str} {as : Args}, (∀ s, inputCall G s v m as = .ok v') → ∀ s,
      Building (!x.usingNamespace) E D n (.input v) s →
      ∃ s', exec G s (.call n m as) = .ok s' ∧ Building (!x.usingNamespace) E D n (.input v') s' :=
    fun h => exec_building fun s _ => by simp only [objCall, h s]; rfl
  refine Does.cons (does_declare rfl (by decide) hn hk hf) ?_
  refine Does.cons (step (v' := { Variable.new v.name ninf inf [] with }) fun s => rfl) ?_
  refine Does.cons (step (v' := { Variable.new v.name ninf inf [] with description := v.description }) fun s => rfl) ?_
  refine Does.cons (step (v' := { Variable.new v.name ninf inf [] with description := v.description, enabled := v.enabled }) fun s => ?_) ?_
  · cases v.enabled <;> rfl
  refine Does.cons (step (v' := { Variable.new v.name (reread v.minimum) (reread v.maximum) [] with
    description := v.description, enabled := v.enabled }) fun s => ?_) ?_
  · show (do let r ← rangeArg s _; Except.ok _ : Except Fault (Variable S)) = _
    rw [rangeArg_range]
    rfl
  refine Does.cons (step (v' := { Variable.new v.name (reread v.minimum) (reread v.maximum) [] with
    description := v.description, enabled := v.enabled, lockRange := v.lockRange }) fun s => ?_) ?_
  · cases v.lockRange <;> rfl
  refine Does.append (Q := fun ts => Building (!x.usingNamespace) E D n (.input {
      Variable.new v.name (reread v.minimum) (reread v.maximum) ([] ++ ts) with
      description := v.description, enabled := v.enabled, lockRange := v.lockRange })) ?_ fun ts => ?_
  · refine does_items (cs! "addTerm") (termArgs x) (readTerm G.functions E) (fun ts => .input {
      Variable.new v.name (reread v.minimum) (reread v.maximum) ts with
      description := v.description, enabled := v.enabled, lockRange := v.lockRange }) _ _ [] fun t ht ts s hs => ?_
    have e := termArg_term G.functions hf hs t (hv.terms t ht)
    show Except.map Obj.input (do let t ← termArg G.functions s _; Except.ok _ : Except Fault (Variable S)) = _
    rw [e]
    cases readTerm G.functions E t <;> rfl
  · exact Does.cons exec_addInput (Does.nil _ fun s hs => hs)

theorem does_output [CppText S] (hf : Free x (D ++ [n])) (hn : n ∉ D) (hk : n ∉ keywords) (d : Args) (v : OutputVariable S) (hv : SoundOutput x v)
    (hd : ∀ s, View (!x.usingNamespace) E (D ++ [n]) s → defuzzifierArg s d = .ok v.defuzzifier) :
    Does G (State (!x.usingNamespace) E D) (outputStmtsOf x d n v) (addOutput G.functions E v) fun E' => State (!x.usingNamespace) E' (D ++ [n]) := by
  unfold outputStmtsOf addOutput
  simp only [List.cons_append, List.nil_append]
  have step : ∀ {v v' : OutputVariable S} {m : Str} {as : Args}, (∀ s, View (!x.usingNamespace) E (D ++ [n]) s → outputCall G s v m as = .ok v') → ∀ s,
      Building (!x.usingNamespace) E D n (.output v) s →
      ∃ s', exec G s (.call n m as) = .ok s' ∧ Building (!x.usingNamespace) E D n (.output v') s' :=
    fun h => exec_building fun s hs => by simp only [objCall, h s hs]; rfl
  let w := OutputVariable.new v.name (ninf : S) inf []
  let w' := OutputVariable.new v.name (reread v.minimum) (reread v.maximum) []
  let fz : Aggregated S := ⟨v.name, reread v.minimum, reread v.maximum, v.fuzzy.aggregation, []⟩
  refine Does.cons (does_declare rfl (by decide) hn hk hf) ?_
  refine Does.cons (step (v' := w) fun s _ => rfl) ?_
  refine Does.cons (step (v' := { w with description := v.description }) fun s _ => rfl) ?_
  refine Does.cons (step (v' := { w with description := v.description, enabled := v.enabled }) fun s _ => ?_) ?_
  · cases v.enabled <;> rfl
  refine Does.cons (step (v' := { w' with description := v.description, enabled := v.enabled }) fun s _ => ?_) ?_
  · show (do let r ← rangeArg s _; Except.ok _ : Except Fault (OutputVariable S)) = _
    rw [rangeArg_range]
    rfl
  refine Does.cons (step (v' := { w' with description := v.description, enabled := v.enabled, lockRange := v.lockRange }) fun s _ => ?_) ?_
  · cases v.lockRange <;> rfl
  refine Does.cons (step (v' := { w' with description := v.description, enabled := v.enabled, lockRange := v.lockRange, fuzzy := fz })
    fun s hs => ?_) ?_
  · show (do let r ← snormArg s _; Except.ok _ : Except Fault (OutputVariable S)) = _
    rw [snormArg_snorm hf hs _ hv.aggregation]
    rfl
  refine Does.cons (step (v' := { w' with
    description := v.description, enabled := v.enabled, lockRange := v.lockRange, fuzzy := fz,
    defuzzifier := v.defuzzifier }) fun s hs => ?_) ?_
  · show (do let r ← defuzzifierArg s _; Except.ok _ : Except Fault (OutputVariable S)) = _
    rw [hd s hs]
    rfl
  refine Does.cons (step (v' := { w' with
    description := v.description, enabled := v.enabled, lockRange := v.lockRange, fuzzy := fz,
    defuzzifier := v.defuzzifier, default := reread v.default }) fun s hs => ?_) ?_
  · show (do let r ← scalarArg s _; Except.ok _ : Except Fault (OutputVariable S)) = _
    rw [scalarArg_scalar]
    rfl
  refine Does.cons (step (v' := { w' with
    description := v.description, enabled := v.enabled, lockRange := v.lockRange, fuzzy := fz,
    defuzzifier := v.defuzzifier, default := reread v.default, lockPrevious := v.lockPrevious }) fun s hs => ?_) ?_
  · cases v.lockPrevious <;> rfl
  refine Does.append (Q := fun ts => Building (!x.usingNamespace) E D n (.output { w' with
      description := v.description, enabled := v.enabled, lockRange := v.lockRange, fuzzy := fz,
      defuzzifier := v.defuzzifier, default := reread v.default, lockPrevious := v.lockPrevious, terms := [] ++ ts })) ?_ fun ts => ?_
  · refine does_items (cs! "addTerm") (termArgs x) (readTerm G.functions E) (fun ts => .output { w' with
      description := v.description, enabled := v.enabled, lockRange := v.lockRange, fuzzy := fz,
      defuzzifier := v.defuzzifier, default := reread v.default, lockPrevious := v.lockPrevious, terms := ts }) _ _ [] fun t ht ts s hs => ?_
    have e := termArg_term G.functions hf hs t (hv.terms t ht)
    show Except.map Obj.output (do let t ← termArg G.functions s _; Except.ok _ : Except Fault (OutputVariable S)) = _
    rw [e]
    cases readTerm G.functions E t <;> rfl
  · exact Does.cons exec_addOutput (Does.nil _ fun s hs => hs)

theorem does_block [CppText S] (hf : Free x (D ++ [n])) (hn : n ∉ D) (hk : n ∉ keywords) (b : RuleBlock S) (hb : GoodBlock x b) :
    Does G (State (!x.usingNamespace) E D) (blockStmts x n b) (addBlock G E b) fun E' => State (!x.usingNamespace) E' (D ++ [n]) := by
  unfold blockStmts addBlock
  simp only [List.cons_append, List.nil_append]
  have step : ∀ {v v' : RuleBlock S} {m : Str} {as : Args}, (∀ s, View (!x.usingNamespace) E (D ++ [n]) s → blockCall G s v m as = .ok v') → ∀ s,
      Building (!x.usingNamespace) E D n (.block v) s →
      ∃ s', exec G s (.call n m as) = .ok s' ∧ Building (!x.usingNamespace) E D n (.block v') s' :=
    fun h => exec_building fun s hs => by simp only [objCall, h s hs]; rfl
  refine Does.cons (does_declare rfl (by decide) hn hk hf) ?_
  refine Does.cons (step (v' := ⟨b.name, [], true, none, none, none, none, []⟩) fun s _ => rfl) ?_
  refine Does.cons (step (v' := ⟨b.name, b.description, true, none, none, none, none, []⟩) fun s _ => rfl) ?_
  refine Does.cons (step (v' := ⟨b.name, b.description, b.enabled, none, none, none, none, []⟩) fun s _ => ?_) ?_
  · cases b.enabled <;> rfl
  refine Does.cons (step (v' := ⟨b.name, b.description, b.enabled, b.conjunction, none, none, none, []⟩) fun s hs => ?_) ?_
  · show (do let r ← tnormArg s _; Except.ok _ : Except Fault (RuleBlock S)) = _
    rw [tnormArg_tnorm hf hs _ hb.conjunction]
    rfl
  refine Does.cons (step (v' := ⟨b.name, b.description, b.enabled, b.conjunction, b.disjunction, none, none, []⟩) fun s hs => ?_) ?_
  · show (do let r ← snormArg s _; Except.ok _ : Except Fault (RuleBlock S)) = _
    rw [snormArg_snorm hf hs _ hb.disjunction]
    rfl
  refine Does.cons (step (v' := ⟨b.name, b.description, b.enabled, b.conjunction, b.disjunction, b.implication, none, []⟩) fun s hs => ?_) ?_
  · show (do let r ← tnormArg s _; Except.ok _ : Except Fault (RuleBlock S)) = _
    rw [tnormArg_tnorm hf hs _ hb.implication]
    rfl
  refine Does.cons (step (v' := ⟨b.name, b.description, b.enabled, b.conjunction, b.disjunction, b.implication,
    b.activation.map Fll.readActivation, []⟩) fun s hs => ?_) ?_
  · show (do let r ← activationArg s _; Except.ok _ : Except Fault (RuleBlock S)) = _
    rw [activationArg_activation hf hs _ hb.number hb.threshold]
    rfl
  refine Does.append (Q := fun rs => Building (!x.usingNamespace) E D n (.block ⟨b.name, b.description, b.enabled, b.conjunction,
      b.disjunction, b.implication, b.activation.map Fll.readActivation, [] ++ rs⟩)) ?_ fun rs => ?_
  · refine does_items (cs! "addRule") (ruleArgs x) (readRule G E.world.vocabulary) (fun rs => .block ⟨b.name, b.description, b.enabled,
      b.conjunction, b.disjunction, b.implication, b.activation.map Fll.readActivation, rs⟩) _ _ [] fun r hr rs s hs => ?_
    have e := ruleArg_rule G hs r
    show Except.map Obj.block (do let t ← ruleArg G s _; Except.ok _ : Except Fault (RuleBlock S)) = _
    rw [e]
    cases readRule G E.world.vocabulary r <;> rfl
  · exact Does.cons exec_addBlock (Does.nil _ fun s hs => hs)

/-! ### the engine -/

/-- the statements for an engine, with the arguments `dz` for defuzzifiers -/
def stmtsOf (x : CppExporter) (dz : Option Defuzzifier → Args) (e : Engine S) : List Stmt :=
  engineStmts x e
  ++ indexed (fun i v => inputStmts x (x.inputName e i v) v) 0 e.inputs
  ++ indexed (fun i v => outputStmtsOf x (dz v.defuzzifier) (x.outputName e i v) v) 0 e.outputs
  ++ indexed (fun i b => blockStmts x (x.blockName e i b) b) 0 e.blocks

/-- the statements written for an engine -/
def stmts (x : CppExporter) (e : Engine S) : List Stmt := stmtsOf x (defuzzifierArgs x) e

theorem GoodTerm.text {t : Term S} (h : GoodTerm x t) : TermText t where
  name := h.name
  formula := h.formula
  discrete hk := by
    rcases h.some with ⟨f, hf⟩ | hs
    · rw [hk] at hf; cases hf
    · exact hs (by unfold termValues; rw [hk]; rfl)
  linear b hk := by
    rcases h.some with ⟨f, hf⟩ | hs
    · rw [hk] at hf; cases hf
    · exact hs (by unfold termValues; rw [hk])

theorem mem_mapIdx {α β : Type} (f : Nat → α → β) (as : List α) (j : Nat) (a : α) (h : as[j]? = some a) : f j a ∈ as.mapIdx f := by
  refine List.mem_mapIdx.2 ?_
  obtain ⟨hj, e⟩ := List.getElem?_eq_some_iff.1 h
  exact ⟨j, hj, by rw [e]⟩

/-- the text written for an engine consists of its statements -/
theorem lines_toString [CppText S] (e : Engine S) (h : Good x e) : Lines (x.toString e) (stmts x e) := by
  have h1 := lines_engine x e h.library h.name h.description
  have h2 := lines_components (fun i v => x.inputVariable (x.inputName e i v) v) (fun i v => inputStmts x (x.inputName e i v) v) e.inputs 0
    fun j v hv => by
      rw [Nat.zero_add]
      have hm : x.inputName e j v ∈ localNames x e := by
        unfold localNames; simp only [List.mem_append]; exact .inl (.inl (mem_mapIdx _ _ j v hv))
      have hg := h.inputs v (List.mem_of_getElem? hv)
      exact lines_input x _ v (h.identifiers _ hm).1 (h.identifiers _ hm).2 hg.name hg.description fun t ht => (hg.terms t ht).text
  have h3 := lines_components (fun i v => x.outputVariable (x.outputName e i v) v) (fun i v => outputStmts x (x.outputName e i v) v) e.outputs 0
    fun j v hv => by
      rw [Nat.zero_add]
      have hm : x.outputName e j v ∈ localNames x e := by
        unfold localNames; simp only [List.mem_append]; exact .inl (.inr (mem_mapIdx _ _ j v hv))
      have hg := h.outputs v (List.mem_of_getElem? hv)
      exact lines_output x _ v (h.identifiers _ hm).1 (h.identifiers _ hm).2 hg.name hg.description fun t ht => (hg.terms t ht).text
  have h4 := lines_components (fun i b => x.ruleBlock (x.blockName e i b) b) (fun i b => blockStmts x (x.blockName e i b) b) e.blocks 0
    fun j b hb => by
      rw [Nat.zero_add]
      have hm : x.blockName e j b ∈ localNames x e := by
        unfold localNames; simp only [List.mem_append]; exact .inr (mem_mapIdx _ _ j b hb)
      have hg := h.blocks b (List.mem_of_getElem? hb)
      exact lines_block x _ b (h.identifiers _ hm).1 (h.identifiers _ hm).2 hg.name hg.description hg.rules hg.number
  exact ((h1.append h2).append h3).append h4

theorem does_engine (e : Engine S) : Does G (fun s => s = ⟨false, []⟩) (engineStmts x e) (.ok ())
    fun _ => State (!x.usingNamespace) ⟨e.name, e.description, [], [], []⟩ [cs! "engine"] := by
  rintro s rfl
  have key : ∀ o : Bool, State o ⟨e.name, e.description, [], [], []⟩ [cs! "engine"]
      (⟨o, [(cs! "engine", .engine e.name e.description [] [] [])]⟩ : Scope S) := by
    refine fun o => ⟨rfl, fun y => ?_, [], [], [], ⟨rfl, .nil, .nil, .nil⟩⟩
    by_cases hy : y = cs! "engine"
    · subst hy; exact ⟨fun _ => by simp, fun _ => rfl⟩
    · have : (y == cs! "engine") = false := by simpa using hy
      simp [Scope.declared, Scope.find, List.lookup_cons, this, hy]
  unfold engineStmts
  cases hx : x.usingNamespace with
  | true => exact key false
  | false => exact key true

/-- the statements for an engine build the engine that `reading` describes, or raise the exception that it
raises -/
theorem exec_stmtsOf [CppText S] (G : Registry S) (x : CppExporter) (dz : Option Defuzzifier → Args) (e : Engine S) (h : Sound x e)
    (hdz : ∀ v ∈ e.outputs, ∀ D E s, Free x D → View (S := S) (!x.usingNamespace) E D s → defuzzifierArg s (dz v.defuzzifier) = .ok v.defuzzifier) :
    ((stmtsOf x dz e).foldlM (exec G) (⟨false, []⟩ : Scope S) >>= fun s => orReject (s.engine (cs! "engine"))) =
      (reading G e).mapError Fault.raised := by
  have hd : ((cs! "engine") :: localNames x e) =
      (([cs! "engine"] ++ e.inputs.mapIdx (x.inputName e)) ++ e.outputs.mapIdx (x.outputName e)) ++ e.blocks.mapIdx (x.blockName e) := by
    unfold localNames; simp
  have hn := h.distinct
  have hfree : Free x ((cs! "engine") :: localNames x e) := by
    refine h.hidden.imp id fun hh n hm => ?_
    rcases List.mem_cons.1 hm with rfl | hm
    · decide
    · exact hh n hm
  rw [hd] at hn hfree
  have hall : ∀ n, n ∈ (([cs! "engine"] ++ e.inputs.mapIdx (x.inputName e)) ++ e.outputs.mapIdx (x.outputName e)) ++
      e.blocks.mapIdx (x.blockName e) → n ∉ keywords := by
    intro n hm
    rw [← hd] at hm
    rcases List.mem_cons.1 hm with rfl | hm
    · decide
    · exact h.keywords n hm
  have n1 := (List.nodup_append.1 hn).1
  have n2 := (List.nodup_append.1 n1).1
  have run : Does G (fun s => s = ⟨false, []⟩) (stmtsOf x dz e) (reading G e) fun E s => s.engine (cs! "engine") = some E := by
    have d1 := does_engine (G := G) (x := x) e
    have d2 := fun E => does_indexed (G := G) (o := !x.usingNamespace) (fun i v => inputStmts x (x.inputName e i v) v) (x.inputName e)
      (addInput G.functions) e.inputs 0 E [cs! "engine"]
      (fun j v hv E' D' hm hsub => by
        rw [Nat.zero_add] at hm hsub ⊢
        simp only [Nat.zero_add] at hsub
        have hmem := hsub _ (List.mem_append_right _ (List.mem_singleton.2 rfl))
        exact does_input (hfree.sub fun y hy => List.mem_append_left _ (List.mem_append_left _ (hsub y hy))) hm
          (hall _ (List.mem_append_left _ (List.mem_append_left _ hmem))) v (h.inputs v (List.mem_of_getElem? hv)))
      (by simpa only [Nat.zero_add] using n2)
    have d3 := fun E => does_indexed (G := G) (o := !x.usingNamespace) (fun i v => outputStmtsOf x (dz v.defuzzifier) (x.outputName e i v) v) (x.outputName e)
      (addOutput G.functions) e.outputs 0 E ([cs! "engine"] ++ e.inputs.mapIdx (x.inputName e))
      (fun j v hv E' D' hm hsub => by
        rw [Nat.zero_add] at hm hsub ⊢
        simp only [Nat.zero_add] at hsub
        have hmem := hsub _ (List.mem_append_right _ (List.mem_singleton.2 rfl))
        exact does_output (hfree.sub fun y hy => List.mem_append_left _ (hsub y hy)) hm
          (hall _ (List.mem_append_left _ hmem)) _ v (h.outputs v (List.mem_of_getElem? hv))
          fun s hs => hdz v (List.mem_of_getElem? hv) _ _ s (hfree.sub fun y hy => List.mem_append_left _ (hsub y hy)) hs)
      (by simpa only [Nat.zero_add] using n1)
    have d4 := fun E => does_indexed (G := G) (o := !x.usingNamespace) (fun i b => blockStmts x (x.blockName e i b) b) (x.blockName e)
      (addBlock G) e.blocks 0 E (([cs! "engine"] ++ e.inputs.mapIdx (x.inputName e)) ++ e.outputs.mapIdx (x.outputName e))
      (fun j b hb E' D' hm hsub => by
        rw [Nat.zero_add] at hm hsub ⊢
        simp only [Nat.zero_add] at hsub
        have hmem := hsub _ (List.mem_append_right _ (List.mem_singleton.2 rfl))
        exact does_block (hfree.sub hsub) hm (hall _ hmem) b (h.blocks b (List.mem_of_getElem? hb)))
      (by simpa only [Nat.zero_add] using hn)
    simp only [Nat.zero_add] at d2 d3 d4
    have all := Does.append d1 fun _ => Does.append (d2 ⟨e.name, e.description, [], [], []⟩) fun E => Does.append (d3 E) d4
    intro s hs
    have := all s hs
    unfold stmtsOf
    rw [List.append_assoc, List.append_assoc]
    have er : reading G e = (Except.ok () : Except Err Unit) >>= fun _ => e.inputs.foldlM (addInput G.functions) ⟨e.name, e.description, [], [], []⟩ >>= fun E =>
      e.outputs.foldlM (addOutput G.functions) E >>= fun E => e.blocks.foldlM (addBlock G) E := rfl
    rw [er]
    revert this
    generalize ((Except.ok () : Except Err Unit) >>= fun _ => e.inputs.foldlM (addInput G.functions) ⟨e.name, e.description, [], [], []⟩ >>= fun E =>
      e.outputs.foldlM (addOutput G.functions) E >>= fun E => e.blocks.foldlM (addBlock G) E) = r
    generalize List.foldlM (exec G) s _ = m
    intro this
    cases r with
    | ok a =>
      cases m with
      | ok s' => exact this.view.engine
      | error f => exact this
    | error err => cases m <;> exact this
  have := run _ rfl
  revert this
  generalize List.foldlM (exec G) (⟨false, []⟩ : Scope S) (stmtsOf x dz e) = m
  generalize reading G e = r
  intro this
  cases r with
  | ok a =>
    cases m with
    | ok s' =>
      show orReject (s'.engine (cs! "engine")) = _
      rw [show s'.engine (cs! "engine") = some a from this]
      rfl
    | error f => exact this.elim
  | error err =>
    cases m with
    | ok s' => exact this.elim
    | error f => rw [show f = .raised err from this]; rfl

/-- C74: executing the code written for an engine builds the engine that `reading` describes, or raises
the exception that it raises. -/
theorem execute_toString [CppText S] (G : Registry S) (x : CppExporter) (e : Engine S) (h : Good x e) :
    execute G (x.toString e) = (reading G e).mapError Fault.raised := by
  unfold execute
  rw [parse_lines (lines_toString e h)]
  exact exec_stmtsOf G x (defuzzifierArgs x) e h.sound fun v hv D E s hf hs =>
    defuzzifierArg_defuzzifier hf hs _ (h.outputs v hv).resolution (h.outputs v hv).weighted


/-! ### nothing that is written to FLL is lost -/

/-- what the code keeps of a term in an engine of `n` input variables -/
def FaithfulTerm (n : Nat) (t : Term S) : Prop :=
  match t.kind with
  | .shape _ => Fll.Steady t.height
  | .discrete _ => Op.isEq t.height (lit 1) = true
  | .linear c _ => c.length = n + 1
  | _ => True

/-- engines of which the code keeps what is written to FLL -/
structure Faithful (e : Engine S) : Prop where
  inputs : ∀ i v, e.inputs[i]? = some v → ∀ t ∈ v.terms, FaithfulTerm i t
  outputs : ∀ v ∈ e.outputs, ∀ t ∈ v.terms, FaithfulTerm e.inputs.length t

theorem readTerm_text [LawfulText S] (h1 : Op.isEq (lit 1 : S) (lit 1) = true) (F : ElementFactory S) (E : Engine S)
    (t u : Term S) (hs : FaithfulTerm E.inputs.length t) (hu : readTerm F E t = .ok u) :
    FllExporter.term u = FllExporter.term t := by
  have key : u.name = t.name ∧ u.className = t.className ∧ u.parameters = t.parameters := by
    unfold FaithfulTerm at hs
    unfold readTerm at hu
    cases hk : t.kind with
    | shape s =>
      rw [hk] at hs hu
      cases hu
      refine ⟨rfl, ?_, ?_⟩
      · simp only [Term.className, hk]; cases s <;> rfl
      · simp only [Term.parameters, hk, Fll.readHeight_eq _ hs h1]
        have : (s.each reread).written.map ScalarText.str = s.written.map ScalarText.str := by
          cases s <;> simp [Shape.each, Shape.written, str_reread]
        rw [this]
        by_cases hh : Op.isEq t.height (lit 1) = true
        · rw [if_pos hh, if_pos hh]
        · rw [if_neg hh, if_neg hh, Fll.str_readHeight _ (by simpa using hh)]
    | discrete xy =>
      rw [hk] at hs hu
      cases hu
      refine ⟨rfl, by simp only [Term.className, hk], ?_⟩
      simp only [Term.parameters, hk]
      have : (Discrete.toVector (xy.map fun p => (reread p.1, reread p.2))).map ScalarText.str
          = (Discrete.toVector xy).map ScalarText.str := by
        simp [Discrete.toVector, List.flatMap_map, List.map_flatMap, str_reread]
      rw [this]
      unfold Term.heightText
      simp only at hs
      rw [if_pos h1, if_pos hs]
    | constant v =>
      rw [hk] at hu
      cases hu
      exact ⟨rfl, by simp only [Term.className, hk], by simp only [Term.parameters, hk, str_reread]⟩
    | linear c b =>
      rw [hk] at hs hu
      simp only at hs hu
      rw [if_neg (by omega)] at hu
      cases hu
      refine ⟨rfl, by simp only [Term.className, hk], ?_⟩
      simp only [Term.parameters, hk]
      rw [List.take_of_length_le (by simp [hs]), List.map_map]
      congr 1
      exact List.map_congr_left fun x _ => str_reread x
    | function f =>
      rw [hk] at hu
      have hf := Fll.load_formula F (⟨[], none, false, fun _ => none⟩ : Fun S) f.formula true E.world.ctx
      simp only at hu
      rcases hl : Fun.load F (⟨[], none, false, fun _ => none⟩ : Fun S) f.formula true E.world.ctx with ⟨g, _ | err⟩
      · rw [hl] at hu hf
        cases hu
        exact ⟨rfl, by simp only [Term.className, hk], by simpa only [Term.parameters, hk] using hf⟩
      · rw [hl] at hu
        cases hu
  unfold FllExporter.term
  rw [key.1, key.2.1, key.2.2]

/-- mapping along a successful traversal -/
theorem map_of_mapM {α β γ : Type} (f : α → Except Err β) (p : α → γ) (q : β → γ) (as : List α) (bs : List β)
    (h : as.mapM f = .ok bs) (hf : ∀ a ∈ as, ∀ b, f a = .ok b → q b = p a) : bs.map q = as.map p := by
  induction as generalizing bs with
  | nil => rw [List.mapM_nil] at h; cases h; rfl
  | cons a as ih =>
    rw [List.mapM_cons] at h
    cases ha : f a with
    | error e => rw [ha] at h; cases h
    | ok b =>
      rw [ha] at h
      cases hs : as.mapM f with
      | error e => rw [hs] at h; cases h
      | ok cs =>
        rw [hs] at h
        cases h
        rw [List.map_cons, List.map_cons, hf a (by simp) b ha, ih cs hs fun a ha => hf a (by simp [ha])]

theorem addInput_text [LawfulText S] (h1 : Op.isEq (lit 1 : S) (lit 1) = true) (x : FllExporter) (F : ElementFactory S)
    (E E' : Engine S) (v : Variable S) (hs : ∀ t ∈ v.terms, FaithfulTerm E.inputs.length t) (h : addInput F E v = .ok E') :
    E'.name = E.name ∧ E'.description = E.description ∧ E'.outputs = E.outputs ∧ E'.blocks = E.blocks ∧
    E'.inputs.length = E.inputs.length + 1 ∧
    E'.inputs.map x.inputVariable = E.inputs.map x.inputVariable ++ [x.inputVariable v] := by
  unfold addInput at h
  cases hts : v.terms.mapM (readTerm F E) with
  | error e => rw [hts] at h; cases h
  | ok us =>
    rw [hts] at h
    cases h
    have := map_of_mapM _ (fun t => x.indent ++ FllExporter.term t) (fun t => x.indent ++ FllExporter.term t) _ _ hts
      fun t ht u hu => by rw [readTerm_text h1 F E t u (hs t ht) hu]
    refine ⟨rfl, rfl, rfl, rfl, by simp, ?_⟩
    rw [List.map_append, List.map_cons, List.map_nil]
    unfold FllExporter.inputVariable
    simp only [str_reread, this]

theorem addOutput_text [LawfulText S] (h1 : Op.isEq (lit 1 : S) (lit 1) = true) (x : FllExporter) (F : ElementFactory S)
    (E E' : Engine S) (v : OutputVariable S) (hs : ∀ t ∈ v.terms, FaithfulTerm E.inputs.length t) (h : addOutput F E v = .ok E') :
    E'.name = E.name ∧ E'.description = E.description ∧ E'.inputs = E.inputs ∧ E'.blocks = E.blocks ∧
    E'.outputs.map x.outputVariable = E.outputs.map x.outputVariable ++ [x.outputVariable v] := by
  unfold addOutput at h
  cases hts : v.terms.mapM (readTerm F E) with
  | error e => rw [hts] at h; cases h
  | ok us =>
    rw [hts] at h
    cases h
    have := map_of_mapM _ (fun t => x.indent ++ FllExporter.term t) (fun t => x.indent ++ FllExporter.term t) _ _ hts
      fun t ht u hu => by rw [readTerm_text h1 F E t u (hs t ht) hu]
    refine ⟨rfl, rfl, rfl, rfl, ?_⟩
    rw [List.map_append, List.map_cons, List.map_nil]
    unfold FllExporter.outputVariable
    simp only [str_reread, this]

theorem load_text (G : Registry S) (V : Vocabulary) (r : Rule S) (text : Str) : (r.load G V text).1.text = text := by
  unfold Rule.load
  simp only
  repeat' split
  all_goals rfl

theorem readRule_text (G : Registry S) (V : Vocabulary) (r q : Rule S) (h : readRule G V r = .ok q) : q.text = r.text := by
  unfold readRule at h
  have := load_text G V (Rule.new []) r.text
  rcases hl : (Rule.new [] : Rule S).load G V r.text with ⟨g, _ | e⟩
  · rw [hl] at h this
    cases h
    exact this
  · rw [hl] at h
    cases h

theorem addBlock_text [LawfulText S] (x : FllExporter) (G : Registry S) (E E' : Engine S) (b : RuleBlock S)
    (h : addBlock G E b = .ok E') :
    E'.name = E.name ∧ E'.description = E.description ∧ E'.inputs = E.inputs ∧ E'.outputs = E.outputs ∧
    E'.blocks.map x.ruleBlock = E.blocks.map x.ruleBlock ++ [x.ruleBlock b] := by
  unfold addBlock at h
  cases hr : b.rules.mapM (readRule G E.world.vocabulary) with
  | error e => rw [hr] at h; cases h
  | ok rs =>
    rw [hr] at h
    cases h
    have := map_of_mapM _ (fun r => x.indent ++ (cs! "rule: " ++ r.text)) (fun r => x.indent ++ (cs! "rule: " ++ r.text)) _ _ hr
      fun r _ q hq => by rw [readRule_text G _ r q hq]
    have ha : FllExporter.activation (b.activation.map Fll.readActivation) = FllExporter.activation b.activation := by
      rcases b.activation with _ | a
      · rfl
      · cases a <;> (simp only [Option.map_some, Fll.readActivation, FllExporter.activation, Activation.parameters,
          Activation.className, str_reread]; try rfl)
    refine ⟨rfl, rfl, rfl, rfl, ?_⟩
    rw [List.map_append, List.map_cons, List.map_nil]
    unfold FllExporter.ruleBlock
    simp only [ha, this]

/-- the engine that the code builds is written to FLL like the original -/
theorem toString_reading [LawfulText S] (h1 : Op.isEq (lit 1 : S) (lit 1) = true) (x : FllExporter) (G : Registry S)
    (e e' : Engine S) (hs : Faithful e) (h : reading G e = .ok e') : x.toString e' = x.toString e := by
  have hI : ∀ (vs : List (Variable S)) (E E' : Engine S),
      (∀ i v, vs[i]? = some v → ∀ t ∈ v.terms, FaithfulTerm (E.inputs.length + i) t) →
      vs.foldlM (addInput G.functions) E = .ok E' →
      E'.name = E.name ∧ E'.description = E.description ∧ E'.outputs = E.outputs ∧ E'.blocks = E.blocks ∧
      E'.inputs.length = E.inputs.length + vs.length ∧
      E'.inputs.map x.inputVariable = E.inputs.map x.inputVariable ++ vs.map x.inputVariable := by
    intro vs
    induction vs with
    | nil => intro E E' _ h; cases h; simp
    | cons v vs ih =>
      intro E E' hs h
      rw [List.foldlM_cons] at h
      cases hv : addInput G.functions E v with
      | error err => rw [hv] at h; cases h
      | ok D =>
        rw [hv] at h
        obtain ⟨a1, a2, a3, a4, a5, a6⟩ := addInput_text h1 x _ E D v (hs 0 v rfl) hv
        obtain ⟨b1, b2, b3, b4, b5, b6⟩ := ih D E' (fun i w hw t ht => by
          have := hs (i + 1) w hw t ht
          rwa [a5, Nat.add_assoc, Nat.add_comm 1 i]) h
        refine ⟨b1.trans a1, b2.trans a2, b3.trans a3, b4.trans a4, by rw [b5, a5, List.length_cons]; omega, ?_⟩
        rw [b6, a6, List.append_assoc]
        rfl
  have hO : ∀ (vs : List (OutputVariable S)) (E E' : Engine S),
      (∀ v ∈ vs, ∀ t ∈ v.terms, FaithfulTerm E.inputs.length t) →
      vs.foldlM (addOutput G.functions) E = .ok E' →
      E'.name = E.name ∧ E'.description = E.description ∧ E'.inputs = E.inputs ∧ E'.blocks = E.blocks ∧
      E'.outputs.map x.outputVariable = E.outputs.map x.outputVariable ++ vs.map x.outputVariable := by
    intro vs
    induction vs with
    | nil => intro E E' _ h; cases h; simp
    | cons v vs ih =>
      intro E E' hs h
      rw [List.foldlM_cons] at h
      cases hv : addOutput G.functions E v with
      | error err => rw [hv] at h; cases h
      | ok D =>
        rw [hv] at h
        obtain ⟨a1, a2, a3, a4, a6⟩ := addOutput_text h1 x _ E D v (hs v (by simp)) hv
        obtain ⟨b1, b2, b3, b4, b6⟩ := ih D E' (fun w hw t ht => by
          rw [a3]; exact hs w (List.mem_cons_of_mem _ hw) t ht) h
        refine ⟨b1.trans a1, b2.trans a2, b3.trans a3, b4.trans a4, ?_⟩
        rw [b6, a6, List.append_assoc]
        rfl
  have hB : ∀ (bs : List (RuleBlock S)) (E E' : Engine S), bs.foldlM (addBlock G) E = .ok E' →
      E'.name = E.name ∧ E'.description = E.description ∧ E'.inputs = E.inputs ∧ E'.outputs = E.outputs ∧
      E'.blocks.map x.ruleBlock = E.blocks.map x.ruleBlock ++ bs.map x.ruleBlock := by
    intro bs
    induction bs with
    | nil => intro E E' h; cases h; simp
    | cons b bs ih =>
      intro E E' h
      rw [List.foldlM_cons] at h
      cases hv : addBlock G E b with
      | error err => rw [hv] at h; cases h
      | ok D =>
        rw [hv] at h
        obtain ⟨a1, a2, a3, a4, a6⟩ := addBlock_text x G E D b hv
        obtain ⟨b1, b2, b3, b4, b6⟩ := ih D E' h
        refine ⟨b1.trans a1, b2.trans a2, b3.trans a3, b4.trans a4, ?_⟩
        rw [b6, a6, List.append_assoc]
        rfl
  unfold reading at h
  cases h2 : e.inputs.foldlM (addInput G.functions) (⟨e.name, e.description, [], [], []⟩ : Engine S) with
  | error err => rw [h2] at h; cases h
  | ok D =>
    rw [h2] at h
    obtain ⟨a1, a2, a3, a4, a5, a6⟩ := hI _ _ _ (fun i v hv t ht => by
      simpa using hs.inputs i v hv t ht) h2
    simp only [List.length_nil, Nat.zero_add, List.map_nil, List.nil_append] at a1 a2 a3 a4 a5 a6
    change (e.outputs.foldlM (addOutput G.functions) D >>= fun E => e.blocks.foldlM (addBlock G) E) = .ok e' at h
    cases h3 : e.outputs.foldlM (addOutput G.functions) D with
    | error err => rw [h3] at h; cases h
    | ok D2 =>
      rw [h3] at h
      obtain ⟨b1, b2, b3, b4, b6⟩ := hO _ _ _ (fun v hv t ht => by rw [a5]; exact hs.outputs v hv t ht) h3
      obtain ⟨c1, c2, c3, c4, c6⟩ := hB _ _ _ h
      unfold FllExporter.toString
      rw [c1, c2, c3, c4, c6, b1, b2, b3, b4, b6, a1, a2, a3, a4, a6]
      simp

/-! ### when the code builds an engine -/

/-- the term can be built after the variables `known`, of which `n` are input variables: its formula mentions only these
variables and `x`, and there are enough coefficients -/
def Buildable (F : ElementFactory S) (known : List Str) (n : Nat) (t : Term S) : Prop :=
  Fll.Loadable F known t ∧ ∀ c b, t.kind = .linear c b → n + 1 ≤ c.length

/-- every term can be built and every rule can be loaded -/
structure Builds (G : Registry S) (e : Engine S) : Prop where
  inputs : ∀ i v, e.inputs[i]? = some v → ∀ t ∈ v.terms, Buildable G.functions ((e.inputs.take i).map fun v => v.name) i t
  outputs : ∀ i v, e.outputs[i]? = some v → ∀ t ∈ v.terms,
    Buildable G.functions ((e.inputs.map fun v => v.name) ++ (e.outputs.take i).map fun v => v.name) e.inputs.length t
  blocks : ∀ b ∈ e.blocks, ∀ r ∈ b.rules, ((Rule.new [] : Rule S).load G e.world.vocabulary r.text).2 = none

theorem readTerm_ok_iff [LawfulText S] (F : ElementFactory S) (E : Engine S) (t : Term S) :
    (∃ u, readTerm F E t = .ok u) ↔
      Buildable F ((E.inputs.map fun v => v.name) ++ E.outputs.map fun v => v.name) E.inputs.length t := by
  have hl : (∃ u, Fll.readTerm F E.world.ctx t = .ok u) ↔
      Fll.Loadable F ((E.inputs.map fun v => v.name) ++ E.outputs.map fun v => v.name) t := by
    rw [Fll.readTerm_ok_iff]
    simp [Engine.world, World.ctx, Function.comp_def]
  unfold Buildable
  rw [← hl]
  unfold readTerm
  cases hk : t.kind with
  | shape s => simp [Fll.readTerm_shape F _ t s hk]
  | discrete xy => simp [Fll.readTerm_discrete F _ t xy hk]
  | constant v => simp [Fll.readTerm_constant F _ t v hk]
  | linear c b =>
    simp only [Fll.readTerm_linear F _ t c b hk]
    constructor
    · rintro ⟨u, hu⟩
      refine ⟨⟨_, rfl⟩, fun c' b' h => ?_⟩
      cases h
      split_ifs at hu with h
      omega
    · rintro ⟨-, h⟩
      have := h c b rfl
      rw [if_neg (by omega)]
      exact ⟨_, rfl⟩
  | function f =>
    rw [Fll.readTerm_function F _ t f hk]
    have : (⟨[], none, false, fun _ => none⟩ : Fun S).load F f.formula true E.world.ctx =
      (⟨[], none, true, fun _ => none⟩ : Fun S).load F f.formula true E.world.ctx := rfl
    simp only [this]
    rcases Fun.load F (⟨[], none, true, fun _ => none⟩ : Fun S) f.formula true E.world.ctx with ⟨g, _ | err⟩ <;> simp

theorem readTerm_name (F : ElementFactory S) (E : Engine S) (t u : Term S) (h : readTerm F E t = .ok u) : u.name = t.name := by
  unfold readTerm at h
  split at h
  · cases h; rfl
  · cases h; rfl
  · cases h; rfl
  · split_ifs at h; cases h; rfl
  · split at h
    · cases h; rfl
    · cases h

/-- the names of a variable and of its terms -/
def names (v : Variable S) : Str × List Str := (v.name, v.terms.map Term.name)

theorem addInput_ok_iff [LawfulText S] (F : ElementFactory S) (E : Engine S) (v : Variable S) :
    (∃ E', addInput F E v = .ok E') ↔
      ∀ t ∈ v.terms, Buildable F ((E.inputs.map fun v => v.name) ++ E.outputs.map fun v => v.name) E.inputs.length t := by
  simp only [← readTerm_ok_iff, ← Fll.mapM_ok_iff]
  unfold addInput
  cases v.terms.mapM (readTerm F E) with
  | error e => simp [bind, Except.bind]
  | ok ys => simp [bind, Except.bind]

theorem addOutput_ok_iff [LawfulText S] (F : ElementFactory S) (E : Engine S) (v : OutputVariable S) :
    (∃ E', addOutput F E v = .ok E') ↔
      ∀ t ∈ v.terms, Buildable F ((E.inputs.map fun v => v.name) ++ E.outputs.map fun v => v.name) E.inputs.length t := by
  simp only [← readTerm_ok_iff, ← Fll.mapM_ok_iff]
  unfold addOutput
  cases v.terms.mapM (readTerm F E) with
  | error e => simp [bind, Except.bind]
  | ok ys => simp [bind, Except.bind]

theorem addInput_names (F : ElementFactory S) (E E' : Engine S) (v : Variable S) (h : addInput F E v = .ok E') :
    E'.inputs.map names = E.inputs.map names ++ [names v] ∧ E'.outputs = E.outputs := by
  unfold addInput at h
  cases hts : v.terms.mapM (readTerm F E) with
  | error e => rw [hts] at h; cases h
  | ok us =>
    rw [hts] at h
    cases h
    have := map_of_mapM _ Term.name Term.name _ _ hts fun t _ u hu => readTerm_name F E t u hu
    refine ⟨?_, rfl⟩
    rw [List.map_append, List.map_cons, List.map_nil]
    simp only [names, this]

theorem addOutput_names (F : ElementFactory S) (E E' : Engine S) (v : OutputVariable S) (h : addOutput F E v = .ok E') :
    E'.outputs.map (fun v => names v.toVariable) = E.outputs.map (fun v => names v.toVariable) ++ [names v.toVariable] ∧
    E'.inputs = E.inputs := by
  unfold addOutput at h
  cases hts : v.terms.mapM (readTerm F E) with
  | error e => rw [hts] at h; cases h
  | ok us =>
    rw [hts] at h
    cases h
    have := map_of_mapM _ Term.name Term.name _ _ hts fun t _ u hu => readTerm_name F E t u hu
    refine ⟨?_, rfl⟩
    rw [List.map_append, List.map_cons, List.map_nil]
    simp only [names, this]

theorem addBlock_ok_iff (G : Registry S) (E : Engine S) (b : RuleBlock S) :
    (∃ E', addBlock G E b = .ok E') ↔ ∀ r ∈ b.rules, ((Rule.new [] : Rule S).load G E.world.vocabulary r.text).2 = none := by
  have hr : ∀ r : Rule S, (∃ q, readRule G E.world.vocabulary r = .ok q) ↔
      ((Rule.new [] : Rule S).load G E.world.vocabulary r.text).2 = none := by
    intro r
    unfold readRule
    rcases (Rule.new [] : Rule S).load G E.world.vocabulary r.text with ⟨g, _ | err⟩ <;> simp
  simp only [← hr, ← Fll.mapM_ok_iff]
  unfold addBlock
  cases b.rules.mapM (readRule G E.world.vocabulary) with
  | error e => simp [bind, Except.bind]
  | ok ys => simp [bind, Except.bind]

theorem addBlock_world (G : Registry S) (E E' : Engine S) (b : RuleBlock S) (h : addBlock G E b = .ok E') : E'.world = E.world := by
  unfold addBlock at h
  cases hr : b.rules.mapM (readRule G E.world.vocabulary) with
  | error e => rw [hr] at h; cases h
  | ok rs => rw [hr] at h; cases h; rfl

theorem names_fst (vs : List (Variable S)) : (vs.map names).map Prod.fst = vs.map fun v => v.name := by simp [names, Function.comp_def]

/-- the code builds an engine exactly when every term can be built and every rule can be loaded -/
theorem reading_ok_iff [LawfulText S] (G : Registry S) (e : Engine S) : (∃ e', reading G e = .ok e') ↔ Builds G e := by
  have hI : ∀ (vs : List (Variable S)) (E : Engine S), E.outputs = [] →
      ((∃ E', vs.foldlM (addInput G.functions) E = .ok E') ↔
        ∀ i v, vs[i]? = some v → ∀ t ∈ v.terms,
          Buildable G.functions ((E.inputs.map fun v => v.name) ++ (vs.take i).map fun v => v.name) (E.inputs.length + i) t) ∧
      (∀ E', vs.foldlM (addInput G.functions) E = .ok E' →
        E'.inputs.map names = E.inputs.map names ++ vs.map names ∧ E'.outputs = []) := by
    intro vs
    induction vs with
    | nil => intro E hE; refine ⟨by simp [pure, Except.pure], fun E' h => ?_⟩; cases h; simp [hE]
    | cons v vs ih =>
      intro E hE
      simp only [List.foldlM_cons]
      have hv := addInput_ok_iff G.functions E v
      rw [hE, List.map_nil, List.append_nil] at hv
      cases hr : addInput G.functions E v with
      | error err =>
        rw [hr] at hv
        refine ⟨⟨fun ⟨_, h⟩ => (by cases h), fun h => ?_⟩, fun d' h => (by cases h)⟩
        obtain ⟨w, hw⟩ := hv.2 fun t ht => by simpa using h 0 v rfl t ht
        cases hw
      | ok D =>
        obtain ⟨n1, n2⟩ := addInput_names G.functions E D v hr
        rw [hr] at hv
        obtain ⟨i1, i2⟩ := ih D (n2.trans hE)
        have m1 : (D.inputs.map fun v => v.name) = (E.inputs.map fun v => v.name) ++ [v.name] := by
          have := congrArg (List.map Prod.fst) n1
          rwa [List.map_append, names_fst, names_fst] at this
        have m2 : D.inputs.length = E.inputs.length + 1 := by
          have := congrArg List.length n1
          simpa using this
        constructor
        · refine i1.trans ⟨fun h i u hu t ht => ?_, fun h i u hu t ht => ?_⟩
          · cases i with
            | zero =>
              obtain rfl : v = u := by simpa using hu
              simpa using hv.1 ⟨D, rfl⟩ t ht
            | succ i =>
              have := h i u (by simpa using hu) t ht
              rw [m1, m2] at this
              simpa [Nat.add_assoc, Nat.add_comm 1 i] using this
          · have := h (i + 1) u (by simpa using hu) t ht
            rw [m1, m2]
            simpa [Nat.add_assoc, Nat.add_comm 1 i] using this
        · intro E' h
          obtain ⟨j1, j2⟩ := i2 E' h
          exact ⟨by rw [j1, n1]; simp, j2⟩
  have hO : ∀ (vs : List (OutputVariable S)) (E : Engine S),
      ((∃ E', vs.foldlM (addOutput G.functions) E = .ok E') ↔
        ∀ i v, vs[i]? = some v → ∀ t ∈ v.terms,
          Buildable G.functions ((E.inputs.map fun v => v.name) ++ (E.outputs.map fun v => v.name)
            ++ (vs.take i).map fun v => v.name) E.inputs.length t) ∧
      (∀ E', vs.foldlM (addOutput G.functions) E = .ok E' →
        E'.outputs.map (fun v => names v.toVariable) = E.outputs.map (fun v => names v.toVariable) ++ vs.map (fun v => names v.toVariable) ∧
        E'.inputs = E.inputs) := by
    intro vs
    induction vs with
    | nil => intro E; refine ⟨by simp [pure, Except.pure], fun E' h => ?_⟩; cases h; simp
    | cons v vs ih =>
      intro E
      simp only [List.foldlM_cons]
      have hv := addOutput_ok_iff G.functions E v
      cases hr : addOutput G.functions E v with
      | error err =>
        rw [hr] at hv
        refine ⟨⟨fun ⟨_, h⟩ => (by cases h), fun h => ?_⟩, fun d' h => (by cases h)⟩
        obtain ⟨w, hw⟩ := hv.2 fun t ht => by simpa using h 0 v rfl t ht
        cases hw
      | ok D =>
        obtain ⟨n1, n2⟩ := addOutput_names G.functions E D v hr
        rw [hr] at hv
        obtain ⟨i1, i2⟩ := ih D
        have m1 : (D.outputs.map fun v => v.name) = (E.outputs.map fun v => v.name) ++ [v.name] := by
          have := congrArg (List.map Prod.fst) n1
          simpa [names, Function.comp_def] using this
        rw [n2, m1] at i1
        constructor
        · refine i1.trans ⟨fun h i u hu t ht => ?_, fun h i u hu t ht => ?_⟩
          · cases i with
            | zero =>
              obtain rfl : v = u := by simpa using hu
              simpa using hv.1 ⟨D, rfl⟩ t ht
            | succ i => simpa using h i u (by simpa using hu) t ht
          · simpa using h (i + 1) u (by simpa using hu) t ht
        · intro E' h
          obtain ⟨j1, j2⟩ := i2 E' h
          exact ⟨by rw [j1, n1]; simp, j2.trans n2⟩
  have hB : ∀ (bs : List (RuleBlock S)) (E : Engine S), (∃ E', bs.foldlM (addBlock G) E = .ok E') ↔
      ∀ b ∈ bs, ∀ r ∈ b.rules, ((Rule.new [] : Rule S).load G E.world.vocabulary r.text).2 = none := by
    intro bs
    induction bs with
    | nil => intro E; simp [pure, Except.pure]
    | cons b bs ih =>
      intro E
      rw [List.foldlM_cons, List.forall_mem_cons]
      have hb := addBlock_ok_iff G E b
      cases hr : addBlock G E b with
      | error err =>
        rw [hr] at hb
        refine ⟨fun ⟨_, h⟩ => (by cases h), fun h => ?_⟩
        obtain ⟨w, hw⟩ := hb.2 h.1
        cases hw
      | ok D =>
        rw [hr] at hb
        have := ih D
        rw [addBlock_world G E D b hr] at this
        exact this.trans ⟨fun h => ⟨hb.1 ⟨D, rfl⟩, h⟩, fun h => h.2⟩
  obtain ⟨i1, i2⟩ := hI e.inputs ⟨e.name, e.description, [], [], []⟩ rfl
  simp only [List.map_nil, List.nil_append, List.length_nil, Nat.zero_add] at i1 i2
  have er : reading G e = e.inputs.foldlM (addInput G.functions) ⟨e.name, e.description, [], [], []⟩ >>= fun E =>
    e.outputs.foldlM (addOutput G.functions) E >>= fun E => e.blocks.foldlM (addBlock G) E := rfl
  rw [er]
  cases h2 : e.inputs.foldlM (addInput G.functions) (⟨e.name, e.description, [], [], []⟩ : Engine S) with
  | error err =>
    rw [h2] at i1
    refine ⟨fun ⟨_, h⟩ => (by cases h), fun h => ?_⟩
    obtain ⟨d, hd⟩ := i1.2 h.inputs
    cases hd
  | ok D =>
    have b1 := i1.1 ⟨D, h2⟩
    obtain ⟨a1, a2⟩ := i2 D h2
    obtain ⟨o1, o2⟩ := hO e.outputs D
    have m1 : (D.inputs.map fun v => v.name) = e.inputs.map fun v => v.name := by
      have := congrArg (List.map Prod.fst) a1
      rwa [names_fst, names_fst] at this
    have m2 : D.inputs.length = e.inputs.length := by simpa using congrArg List.length a1
    rw [m1, m2, a2] at o1
    simp only [List.map_nil, List.append_nil] at o1
    rw [Fll.ok_bind]
    cases h3 : e.outputs.foldlM (addOutput G.functions) D with
    | error err =>
      rw [h3] at o1
      refine ⟨fun ⟨_, h⟩ => (by cases h), fun h => ?_⟩
      obtain ⟨d, hd⟩ := o1.2 h.outputs
      cases hd
    | ok D2 =>
      have b2 := o1.1 ⟨D2, h3⟩
      obtain ⟨c1, c2⟩ := o2 D2 h3
      rw [a2] at c1
      rw [Fll.ok_bind, hB]
      have hV : D2.world.vocabulary = e.world.vocabulary := by
        unfold World.vocabulary Engine.world
        simp only [Vocabulary.mk.injEq]
        refine ⟨?_, ?_⟩
        · rw [c2]; exact a1
        · simpa [names] using c1
      rw [hV]
      exact ⟨fun h => ⟨b1, b2, h⟩, fun h => h.blocks⟩

/-- C74.  The code written for an engine is accepted, and it builds an engine that is written to FLL like the original, provided
that names, texts and numbers are well formed, that terms can be built and rules loaded, that coefficients match the number of
input variables and that terms `Discrete` have height 1.  Missing: the engines without these properties, for which it fails
(`…_violated` below). -/
theorem roundTrip_partial [CppText S] (h1 : Op.isEq (lit 1 : S) (lit 1) = true) (x : CppExporter) (y : FllExporter) (G : Registry S)
    (e : Engine S) (hg : Good x e) (hs : Faithful e) (hb : Builds G e) :
    ∃ e', execute G (x.toString e) = .ok e' ∧ y.toString e' = y.toString e := by
  obtain ⟨e', h⟩ := (reading_ok_iff G e).2 hb
  refine ⟨e', ?_, toString_reading h1 y G e e' hs h⟩
  rw [execute_toString G x e hg, h]
  rfl

/-! ### the names of local variables -/

theorem digits_injective {m n : Nat} (h : Nat.toDigits 10 m = Nat.toDigits 10 n) : m = n := by
  have := whole_digits m
  rw [h, whole_digits n] at this
  exact (Option.some.inj this).symm

theorem isIdent_numbered {k : Str} (hk : IsIdent k) (count i : Nat) : IsIdent (CppExporter.numbered k count i) := by
  unfold CppExporter.numbered
  split_ifs
  · obtain ⟨⟨c, hc, hl⟩, ha⟩ := hk
    refine ⟨⟨c, ?_, hl⟩, fun d hd => ?_⟩
    · rw [List.head?_append, hc]; rfl
    · rcases List.mem_append.1 hd with hd | hd
      · exact ha d hd
      · right
        rw [isDigit_eq]
        exact Decimal.digits_isDigit (i + 1) d hd
  · exact hk

theorem prefix_numbered (k : Str) (count i : Nat) : k.isPrefixOf (CppExporter.numbered k count i) = true := by
  unfold CppExporter.numbered
  split_ifs
  · simp
  · simp

theorem numbered_injective (k : Str) (count i j : Nat) (hi : i < count) (hj : j < count)
    (h : CppExporter.numbered k count i = CppExporter.numbered k count j) : i = j := by
  unfold CppExporter.numbered at h
  split_ifs at h with hc
  · have := digits_injective (List.append_cancel_left h : Nat.toDigits 10 (i + 1) = Nat.toDigits 10 (j + 1))
    omega
  · omega

theorem nodup_numbered {α : Type} (k : Str) (as : List α) :
    (as.mapIdx fun i _ => CppExporter.numbered k as.length i).Nodup := by
  rw [List.nodup_iff_injective_get]
  intro i j h
  simp only [List.get_eq_getElem, List.getElem_mapIdx] at h
  have hi : i.1 < as.length := lt_of_lt_of_eq i.2 List.length_mapIdx
  have hj : j.1 < as.length := lt_of_lt_of_eq j.2 List.length_mapIdx
  exact Fin.ext (numbered_injective k as.length i j hi hj h)

theorem mem_numbered {α : Type} {k n : Str} {as : List α} (h : n ∈ as.mapIdx fun i _ => CppExporter.numbered k as.length i) :
    ∃ i, n = CppExporter.numbered k as.length i := by
  obtain ⟨i, hi, rfl⟩ := List.mem_mapIdx.1 h
  exact ⟨i, rfl⟩

/-- without the names of variables, the local variables are distinct identifiers that hide no name of the library -/
theorem localNames_numbered (x : CppExporter) (hx : x.usingVariableNames = false) (e : Engine S) :
    (cs! "engine" :: localNames x e).Nodup ∧ (∀ n ∈ localNames x e, IsIdent n ∧ n ∉ keywords) ∧
    ∀ n ∈ localNames x e, n ∉ libraryNames := by
  have e1 : localNames x e = (e.inputs.mapIdx fun i _ => CppExporter.numbered (cs! "inputVariable") e.inputs.length i)
      ++ (e.outputs.mapIdx fun i _ => CppExporter.numbered (cs! "outputVariable") e.outputs.length i)
      ++ (e.blocks.mapIdx fun i _ => CppExporter.numbered (cs! "ruleBlock") e.blocks.length i) := by
    unfold localNames CppExporter.inputName CppExporter.outputName CppExporter.blockName
    simp [hx]
  have hm : ∀ n ∈ localNames x e, ∃ k ∈ [cs! "inputVariable", cs! "outputVariable", cs! "ruleBlock"], ∃ c i,
      n = CppExporter.numbered k c i := by
    intro n hn
    rw [e1] at hn
    simp only [List.mem_append] at hn
    rcases hn with (hn | hn) | hn
    · obtain ⟨i, h⟩ := mem_numbered hn; exact ⟨_, by simp, _, i, h⟩
    · obtain ⟨i, h⟩ := mem_numbered hn; exact ⟨_, by simp, _, i, h⟩
    · obtain ⟨i, h⟩ := mem_numbered hn; exact ⟨_, by simp, _, i, h⟩
  have avoid : ∀ L : List Str, (∀ k ∈ [cs! "inputVariable", cs! "outputVariable", cs! "ruleBlock"], ∀ w ∈ L, k.isPrefixOf w = false) →
      ∀ n ∈ localNames x e, n ∉ L := by
    intro L hL n hn hw
    obtain ⟨k, hk, c, i, rfl⟩ := hm n hn
    have := hL k hk _ hw
    rw [prefix_numbered] at this
    cases this
  refine ⟨?_, fun n hn => ⟨?_, ?_⟩, avoid _ (by decide)⟩
  · rw [List.nodup_cons]
    refine ⟨fun h => avoid [cs! "engine"] (by decide) _ h (by simp), ?_⟩
    rw [e1, List.nodup_append, List.nodup_append]
    have start : ∀ (k k' : Str) (c i c' i' : Nat), k.head? ≠ k'.head? → k ≠ [] → k' ≠ [] →
        CppExporter.numbered k c i ≠ CppExporter.numbered k' c' i' := by
      intro k k' c i c' i' hh h1 h2 he
      have e1 := prefix_numbered k c i
      have e2 := prefix_numbered k' c' i'
      rw [he] at e1
      rw [List.isPrefixOf_iff_prefix] at e1 e2
      obtain ⟨a, e1⟩ := e1
      obtain ⟨b, e2⟩ := e2
      rw [← e1] at e2
      cases k with
      | nil => exact h1 rfl
      | cons c k =>
        cases k' with
        | nil => exact h2 rfl
        | cons d k' =>
          simp only [List.cons_append, List.cons.injEq] at e2
          exact hh (by simp [e2.1])
    refine ⟨⟨nodup_numbered _ _, nodup_numbered _ _, ?_⟩, nodup_numbered _ _, ?_⟩
    · intro a ha b hb
      obtain ⟨i, rfl⟩ := mem_numbered ha
      obtain ⟨j, rfl⟩ := mem_numbered hb
      exact start _ _ _ _ _ _ (by decide) (by decide) (by decide)
    · intro a ha b hb
      obtain ⟨j, rfl⟩ := mem_numbered hb
      rcases List.mem_append.1 ha with ha | ha
      · obtain ⟨i, rfl⟩ := mem_numbered ha
        exact start _ _ _ _ _ _ (by decide) (by decide) (by decide)
      · obtain ⟨i, rfl⟩ := mem_numbered ha
        exact start _ _ _ _ _ _ (by decide) (by decide) (by decide)
  · obtain ⟨k, hk, c, i, rfl⟩ := hm n hn
    exact isIdent_numbered ((by decide : ∀ k ∈ [cs! "inputVariable", cs! "outputVariable", cs! "ruleBlock"], IsIdent k) k hk) c i
  · exact avoid keywords (by decide +kernel) n hn

/-- the name of a variable is turned into an identifier unless it has a full stop, begins with a digit, or nothing is left of it -/
theorem isIdent_validName (n : Str) :
    IsIdent (Op.validName n) ↔ '.' ∉ n ∧ ∃ c, (Op.validName n).head? = some c ∧ isDigit c = false := by
  have kept : ∀ c ∈ Op.validName n, Op.isNameChar c = true := by
    intro c hc
    have := (Op.validName_partial n).1 c hc
    unfold Op.isNameChar
    rcases this with h | h | h <;> simp [h]
  have dot : '.' ∈ Op.validName n ↔ '.' ∈ n := by
    unfold Op.validName
    split_ifs with h
    · constructor
      · intro h; exact absurd h (by decide)
      · intro hd
        exfalso
        have h := (Op.trim_empty_iff n).1 (List.isEmpty_iff.1 h)
        exact absurd (List.all_eq_true.1 h '.' hd) (by decide)
    · rw [List.mem_filter]
      exact ⟨fun h => h.1, fun h => ⟨h, by decide⟩⟩
  have letter : ∀ c, Op.isNameChar c = true → c ≠ '.' → isLetter c = true ∨ isDigit c = true := by
    intro c hc hd
    unfold Op.isNameChar at hc
    unfold isLetter
    by_cases h1 : isDigit c = true
    · exact .inr h1
    · left
      simp only [Bool.or_eq_true, beq_iff_eq, hd, or_false] at hc
      simp only [Bool.not_eq_true] at h1
      rcases hc with h | h <;> simp [h, h1]
  constructor
  · rintro ⟨⟨c, hc, hl⟩, ha⟩
    refine ⟨fun hd => ?_, c, hc, ?_⟩
    · have := ha '.' (dot.2 hd)
      exact absurd this (by decide)
    · unfold isLetter at hl
      by_contra h
      simp only [Bool.not_eq_false] at h
      simp [h] at hl
      subst hl
      exact absurd h (by decide)
  · rintro ⟨hd, c, hc, hl⟩
    have hm : c ∈ Op.validName n := List.mem_of_mem_head? (by simp [hc])
    have all : ∀ c ∈ Op.validName n, isLetter c = true ∨ isDigit c = true := fun c hc =>
      letter c (kept c hc) (by rintro rfl; exact hd (dot.1 hc))
    refine ⟨⟨c, hc, ?_⟩, all⟩
    rcases all c hm with h | h
    · exact h
    · rw [hl] at h; cases h

end Cpp
end
end FL
