/-
The Java code that `JavaExporter` writes builds the engine that it was written for (C77).

Java and what it does to the classes of the library are in Model/Java.lean.
-/
import Verif.Lemmas.Java
import Verif.Props.CppText

namespace FL
open Scalar

namespace Java
open Cpp

section
variable {S : Type} [ScalarText S]

/-! ### engines whose code is accepted -/

/-- the classes whose names are written before a point -/
def classes : List Str := [cs! "Double", cs! "Rule", cs! "Discrete", cs! "Function", cs! "Linear"]

structure GoodOutput (x : JavaExporter) (v : OutputVariable S) : Prop extends GoodVariable (cpp x) v.toVariable where
  aggregation : ∀ k, v.fuzzy.aggregation = some k → ∃ j, k = .builtin j
  resolution : ∀ k r, v.defuzzifier = some (.integral k r) → Fll.IsInt r

/-- engines whose code is accepted: the names of variables are distinct identifiers of Java and of C++ and not those of classes
before a point, texts need no escape sequences, and the numbers of terms and activation methods are finite -/
structure Good (x : JavaExporter) (e : Engine S) : Prop where
  library : '\n' ∉ x.library
  name : Plain e.name
  description : Plain e.description
  distinct : (cs! "engine" :: localNames (cpp x) e).Nodup
  identifiers : ∀ n ∈ localNames (cpp x) e, IsIdent n ∧ n ∉ Cpp.keywords ∧ n ∉ keywords ∧ n ∉ classes
  inputs : ∀ v ∈ e.inputs, GoodVariable (cpp x) v
  outputs : ∀ v ∈ e.outputs, GoodOutput x v
  blocks : ∀ b ∈ e.blocks, GoodBlock (cpp x) b

theorem Good.sound {x : JavaExporter} {e : Engine S} (h : Good x e) : Sound (cpp x) e :=
  ⟨h.distinct, fun n hn => (h.identifiers n hn).2.1, .inl rfl, h.inputs,
   fun v hv => ⟨(h.outputs v hv).aggregation, (h.outputs v hv).terms⟩, h.blocks⟩

/-- If C++ with prefixes accepts an engine, so does Java, except for names that are keywords or classes of Java. -/
theorem Good.of_cpp {x : JavaExporter} {e : Engine S} (h : Cpp.Good (cpp x) e)
    (hn : ∀ n ∈ localNames (cpp x) e, n ∉ keywords ∧ n ∉ classes) : Good x e :=
  ⟨h.library, h.name, h.description, h.distinct, fun n m => ⟨(h.identifiers n m).1, (h.identifiers n m).2, hn n m⟩, h.inputs,
   fun v hv => ⟨(h.outputs v hv).toGoodVariable, (h.outputs v hv).aggregation, (h.outputs v hv).resolution⟩, h.blocks⟩

theorem finite_readable {x : JavaExporter} {v : S} (h : Readable (cpp x) v) : Finite v :=
  ⟨h.1, by
    cases hi : Op.isInf v with
    | false => rfl
    | true => exact absurd (h.2 hi) (by simp [cpp])⟩

/-! ### the statements -/

/-- the statements written for an engine: those of C++ with all names qualified -/
def stmts (x : JavaExporter) (e : Engine S) : List Stmt := stmtsOf (cpp x) defuzzifierArgs e

theorem lines_toString [CppText S] (x : JavaExporter) (e : Engine S) (h : Good x e) : Lines (x.toString e) (stmts x e) := by
  have nn : ∀ n ∈ localNames (cpp x) e, n ≠ cs! "null" := fun n hn => by
    rintro rfl
    exact (h.identifiers _ hn).2.2.1 (by decide)
  have h1 := lines_engine x e h.library h.name h.description
  have h2 := lines_components (fun i v => JavaExporter.inputVariable (x.inputName e i v) v) (fun i v => inputStmts (cpp x) ((cpp x).inputName e i v) v) e.inputs 0
    fun j v hv => by
      rw [Nat.zero_add]
      have hm : (cpp x).inputName e j v ∈ localNames (cpp x) e := by
        unfold localNames; simp only [List.mem_append]; exact .inl (.inl (mem_mapIdx _ _ j v hv))
      have hg := h.inputs v (List.mem_of_getElem? hv)
      exact lines_input x _ v (h.identifiers _ hm).1 (nn _ hm) hg.name hg.description (fun t ht => (hg.terms t ht).text)
        fun t ht y hy => finite_readable ((hg.terms t ht).values y hy)
  have h3 := lines_components (fun i v => JavaExporter.outputVariable (x.outputName e i v) v)
    (fun i v => outputStmtsOf (cpp x) (defuzzifierArgs v.defuzzifier) ((cpp x).outputName e i v) v) e.outputs 0
    fun j v hv => by
      rw [Nat.zero_add]
      have hm : (cpp x).outputName e j v ∈ localNames (cpp x) e := by
        unfold localNames; simp only [List.mem_append]; exact .inl (.inr (mem_mapIdx _ _ j v hv))
      have hg := h.outputs v (List.mem_of_getElem? hv)
      exact lines_output x _ v (h.identifiers _ hm).1 (nn _ hm) hg.name hg.description (fun t ht => (hg.terms t ht).text)
        fun t ht y hy => finite_readable ((hg.terms t ht).values y hy)
  have h4 := lines_components (fun i b => JavaExporter.ruleBlock (x.blockName e i b) b) (fun i b => blockStmts (cpp x) ((cpp x).blockName e i b) b) e.blocks 0
    fun j b hb => by
      rw [Nat.zero_add]
      have hm : (cpp x).blockName e j b ∈ localNames (cpp x) e := by
        unfold localNames; simp only [List.mem_append]; exact .inr (mem_mapIdx _ _ j b hb)
      have hg := h.blocks b (List.mem_of_getElem? hb)
      exact lines_block x _ b (h.identifiers _ hm).1 (nn _ hm) hg.name hg.description hg.rules hg.number
        fun n c v hv => finite_readable (hg.threshold n c v hv)
  exact ((h1.append h2).append h3).append h4

/-! ### they are accepted -/

/-- statements that only name the classes and declare the variables of a list -/
def Fair (N : List Str) (st : Stmt) : Prop :=
  (∀ q1 c1 n q2 c2, st = .declare q1 c1 n q2 c2 → n ∈ N) ∧ ∀ n m as, st = .call n m as → ∀ c ∈ types as, c ∈ classes

theorem accepted_fair (N : List Str) (hN : ∀ n ∈ N, n ∉ keywords ∧ n ∉ classes) (ss : List Stmt) (h : ∀ st ∈ ss, Fair N st)
    (D : List Str) (hD : ∀ n ∈ D, n ∈ N) : accepted D ss = true := by
  induction ss generalizing D with
  | nil => rfl
  | cons st ss ih =>
    have h0 := h st (by simp)
    have ih := ih fun s hs => h s (by simp [hs])
    cases st with
    | usingNamespace => exact ih D hD
    | declare q1 c1 n q2 c2 =>
      have hn := h0.1 _ _ _ _ _ rfl
      rw [accepted, ih (n :: D) (by simpa using ⟨hn, hD⟩)]
      simpa using (hN n hn).1
    | call n m as =>
      rw [accepted, ih D hD, Bool.and_true, List.all_eq_true]
      intro c hc
      have := h0.2 _ _ _ rfl c hc
      simp only [decide_eq_true_eq]
      exact fun hm => (hN c (hD c hm)).2 this

theorem fair_declare {N : List Str} {q1 q2 : Bool} {c1 c2 n : Str} (h : n ∈ N) : Fair N (.declare q1 c1 n q2 c2) :=
  ⟨fun _ _ _ _ _ e => by cases e; exact h, fun _ _ _ e => by cases e⟩

theorem fair_call {N : List Str} {n m : Str} {as : Args} (h : ∀ c ∈ types as, c ∈ classes) : Fair N (.call n m as) :=
  ⟨fun _ _ _ _ _ e => (by cases e), fun _ _ _ e c hc => by cases e; exact h c hc⟩

theorem types_number (v : S) : typesOf (numberAtom v) = [] := by
  unfold numberAtom
  split <;> rfl

theorem types_plain (v : S) : typesOf (plainAtom v) = [] := by
  unfold plainAtom
  split_ifs
  · rfl
  · rfl
  · exact types_number v

theorem types_plains (vs : List S) : (vs.map plainAtom).flatMap typesOf = [] := by
  induction vs with
  | nil => rfl
  | cons v vs ih => rw [List.map_cons, List.flatMap_cons, types_plain, ih]; rfl

theorem types_int (n : Int) : typesOf (intAtom n) = [] := by cases n <;> rfl

theorem types_scalar (v : S) : ∀ c ∈ typesOf (scalarAtom v), c ∈ classes := by
  unfold scalarAtom
  split_ifs
  · decide
  · cases gt v (lit 0) <;> decide
  · rw [types_number]; simp

theorem typesOf_text (s : Str) : typesOf (.text s) = [] := rfl

theorem typesOf_engine : typesOf (.name false false (cs! "engine")) = [] := rfl

theorem types_term (x : JavaExporter) (t : Term S) : ∀ c ∈ types (termArgs (cpp x) t), c ∈ classes := by
  unfold termArgs
  split <;> simp [types, typesOf_text, typesOf_engine, types_int, types_plains, types_plain, classes]

theorem types_null : ∀ c ∈ types nullArgs, c ∈ classes := by decide

theorem types_tnorm (x : JavaExporter) (k : Option (TNorm S)) : ∀ c ∈ types (tnormArgs (cpp x) k), c ∈ classes := by
  cases k
  · exact types_null
  · simp [tnormArgs, types]

theorem types_snorm (x : JavaExporter) (k : Option (SNorm S)) : ∀ c ∈ types (snormArgs (cpp x) k), c ∈ classes := by
  cases k
  · exact types_null
  · simp [snormArgs, types]

theorem types_defuzzifier (d : Option Defuzzifier) : ∀ c ∈ types (defuzzifierArgs d), c ∈ classes := by
  rcases d with _ | ⟨k, r⟩ | ⟨k, t⟩
  · exact types_null
  · simp [defuzzifierArgs, types, types_int]
  · simp [defuzzifierArgs, types, typesOf]

theorem types_activation (x : JavaExporter) (a : Option (Activation S)) : ∀ c ∈ types (activationArgs (cpp x) a), c ∈ classes := by
  cases a with
  | none => exact types_null
  | some a => cases a <;> simp [activationArgs, activationAtoms, types, types_int, types_plain, typesOf_text]

theorem types_bool (b : Bool) : ∀ c ∈ types (boolArgs b), c ∈ classes := by cases b <;> decide

theorem types_text (s : Str) : ∀ c ∈ types (.atoms [.text s]), c ∈ classes := by simp [types, typesOf]

theorem types_name (s : Str) : ∀ c ∈ types (.atoms [.name false false s]), c ∈ classes := by simp [types, typesOf]

theorem types_range (a b : S) : ∀ c ∈ types (.atoms [scalarAtom a, scalarAtom b]), c ∈ classes := by
  intro c hc
  simp only [types, List.flatMap_cons, List.flatMap_nil, List.append_nil, List.mem_append] at hc
  exact hc.elim (types_scalar a c) (types_scalar b c)

theorem fair_indexed {α : Type} {N : List Str} (f : Nat → α → List Stmt) (as : List α) (i : Nat)
    (h : ∀ j a, as[j]? = some a → ∀ st ∈ f (i + j) a, Fair N st) : ∀ st ∈ indexed f i as, Fair N st := by
  induction as generalizing i with
  | nil => simp [indexed]
  | cons a as ih =>
    intro st hst
    rw [indexed, List.mem_append] at hst
    rcases hst with hst | hst
    · exact h 0 a rfl st hst
    · exact ih (i + 1) (fun j b hb st hs => h (j + 1) b hb st (by rwa [show i + (j + 1) = i + 1 + j by omega])) st hst

theorem stmts_fair (x : JavaExporter) (e : Engine S) : ∀ st ∈ stmts x e, Fair (cs! "engine" :: localNames (cpp x) e) st := by
  unfold stmts stmtsOf
  intro st hst
  simp only [List.mem_append] at hst
  rcases hst with ((hst | hst) | hst) | hst
  · simp only [engineStmts, cpp, if_true, List.nil_append, List.mem_cons, List.not_mem_nil, or_false] at hst
    rcases hst with rfl | rfl | rfl
    · exact fair_declare (by simp)
    · exact fair_call (types_text _)
    · exact fair_call (types_text _)
  · refine fair_indexed _ _ 0 (fun j v hv st hst => ?_) st hst
    rw [Nat.zero_add] at hst
    simp only [inputStmts, List.mem_append, List.mem_cons, List.not_mem_nil, or_false, List.mem_map] at hst
    rcases hst with ((rfl | rfl | rfl | rfl | rfl | rfl) | ⟨t, -, rfl⟩) | rfl
    · exact fair_declare (List.mem_cons_of_mem _ (by
        unfold localNames; simp only [List.mem_append]; exact .inl (.inl (mem_mapIdx _ _ j v hv))))
    · exact fair_call (types_text _)
    · exact fair_call (types_text _)
    · exact fair_call (types_bool _)
    · exact fair_call (types_range _ _)
    · exact fair_call (types_bool _)
    · exact fair_call (types_term _ _)
    · exact fair_call (types_name _)
  · refine fair_indexed _ _ 0 (fun j v hv st hst => ?_) st hst
    rw [Nat.zero_add] at hst
    simp only [outputStmtsOf, List.mem_append, List.mem_cons, List.not_mem_nil, or_false, List.mem_map] at hst
    rcases hst with ((rfl | rfl | rfl | rfl | rfl | rfl | rfl | rfl | rfl | rfl) | ⟨t, -, rfl⟩) | rfl
    · exact fair_declare (List.mem_cons_of_mem _ (by
        unfold localNames; simp only [List.mem_append]; exact .inl (.inr (mem_mapIdx _ _ j v hv))))
    · exact fair_call (types_text _)
    · exact fair_call (types_text _)
    · exact fair_call (types_bool _)
    · exact fair_call (types_range _ _)
    · exact fair_call (types_bool _)
    · exact fair_call (types_snorm _ _)
    · exact fair_call (types_defuzzifier _)
    · exact fair_call (by simpa [types] using types_scalar v.default)
    · exact fair_call (types_bool _)
    · exact fair_call (types_term _ _)
    · exact fair_call (types_name _)
  · refine fair_indexed _ _ 0 (fun j b hb st hst => ?_) st hst
    rw [Nat.zero_add] at hst
    simp only [blockStmts, List.mem_append, List.mem_cons, List.not_mem_nil, or_false, List.mem_map] at hst
    rcases hst with ((rfl | rfl | rfl | rfl | rfl | rfl | rfl | rfl) | ⟨t, -, rfl⟩) | rfl
    · exact fair_declare (List.mem_cons_of_mem _ (by
        unfold localNames; simp only [List.mem_append]; exact .inr (mem_mapIdx _ _ j b hb)))
    · exact fair_call (types_text _)
    · exact fair_call (types_text _)
    · exact fair_call (types_bool _)
    · exact fair_call (types_tnorm _ _)
    · exact fair_call (types_snorm _ _)
    · exact fair_call (types_tnorm _ _)
    · exact fair_call (types_activation _ _)
    · exact fair_call (by simp [ruleArgs, types, typesOf, classes])
    · exact fair_call (types_name _)

/-! ### the engine that is built -/

theorem defuzzifierArg_java (s : Cpp.Scope S) (d : Option Defuzzifier) (hr : ∀ k r, d = some (.integral k r) → Fll.IsInt r) :
    defuzzifierArg s (defuzzifierArgs d) = .ok d := by
  rcases d with _ | ⟨k, r⟩ | ⟨k, t⟩
  · rfl
  · simp only [defuzzifierArgs, defuzzifierArg]
    have hi := intOf_intAtom r (hr k r rfl)
    have : (Defuzzifier.registered 0).find? (fun d => d.className == k.className) = some (.integral k 0) := by cases k <;> rfl
    rw [this]
    simp [hi, Cpp.Scope.finds]
  · simp only [defuzzifierArgs, defuzzifierArg]
    rw [if_pos (by simp [Cpp.Scope.finds])]
    cases k <;> cases t <;> rfl

/-- C77: executing the Java code written for an engine builds the engine that `Cpp.reading` describes, or raises the exception
that it raises. -/
theorem execute_toString [CppText S] (G : Registry S) (x : JavaExporter) (e : Engine S) (h : Good x e) :
    execute G (x.toString e) = (reading G e).mapError Fault.raised := by
  unfold execute
  rw [parse_lines (lines_toString x e h)]
  show (if accepted [] (stmts x e) = true then _ else _) = _
  rw [if_pos (accepted_fair _ (fun n hn => ?_) _ (stmts_fair x e) [] (by simp))]
  · exact exec_stmtsOf G (cpp x) defuzzifierArgs e h.sound fun v hv D E s _ _ => defuzzifierArg_java s _ (h.outputs v hv).resolution
  · rcases List.mem_cons.1 hn with rfl | hn
    · decide
    · exact (h.identifiers n hn).2.2

/-- C77: the Java code builds what the C++ code builds. -/
theorem execute_cpp [CppText S] (G : Registry S) (x : JavaExporter) (y : CppExporter) (e : Engine S) (h : Good x e) (h' : Cpp.Good y e) :
    execute G (x.toString e) = Cpp.execute G (y.toString e) := by
  rw [execute_toString G x e h, Cpp.execute_toString G y e h']

/-- C77.  The Java code written for an engine is accepted, and it builds an engine that is written to FLL like the original, provided
that names, texts and numbers are well formed, that terms can be built and rules loaded, that coefficients match the number of
input variables and that terms `Discrete` have height 1.  Missing: the engines without these properties, for which it fails
(`…_violated` below, and those of C74). -/
theorem roundTrip_partial [CppText S] (h1 : Op.isEq (lit 1 : S) (lit 1) = true) (x : JavaExporter) (y : FllExporter) (G : Registry S)
    (e : Engine S) (hg : Good x e) (hs : Faithful e) (hb : Builds G e) :
    ∃ e', execute G (x.toString e) = .ok e' ∧ y.toString e' = y.toString e := by
  obtain ⟨e', h⟩ := (reading_ok_iff G e).2 hb
  refine ⟨e', ?_, toString_reading h1 y G e e' hs h⟩
  rw [execute_toString G x e hg, h]
  rfl

end
end Java

/-- C77 for doubles with at least one decimal -/
theorem Double.java_partial {lib1 : Fn1 → Ext ℚ → Ext ℚ} {lib2 : Fn2 → Ext ℚ → Ext ℚ → Ext ℚ} [Decimals]
    (hd : 1 ≤ Decimals.decimals) (x : JavaExporter) (y : FllExporter) (G : Registry (Flt (binary64 lib1 lib2)))
    (e : Engine (Flt (binary64 lib1 lib2))) (hg : Java.Good x e) (hs : Cpp.Faithful e) (hb : Cpp.Builds G e) :
    ∃ e', Java.execute G (x.toString e) = .ok e' ∧ y.toString e' = y.toString e := by
  haveI := Double.cppText (lib1 := lib1) (lib2 := lib2) hd
  exact Java.roundTrip_partial Double.isEq_one x y G e hg hs hb

namespace JavaExamples
open Java CppExamples
open Cpp (Fault Readable GoodVariable GoodBlock localNames localNames_numbered)

def j : JavaExporter := {}
/-- without the names of variables -/
def k : JavaExporter := { usingVariableNames := false }

/-- the text of the engine that the code builds -/
def outcome (x : JavaExporter) (e : Engine (Ext ℚ)) : Str ⊕ Fault :=
  match execute G (x.toString e) with
  | .ok e' => .inl (y.toString e')
  | .error f => .inr f

theorem outcome_ok (x : JavaExporter) (e : Engine (Ext ℚ)) (t : Str) (h : outcome x e = .inl t) :
    ∃ e', execute G (x.toString e) = .ok e' ∧ y.toString e' = t := by
  unfold outcome at h
  cases hr : execute G (x.toString e) with
  | ok e' => rw [hr] at h; exact ⟨e', rfl, by simpa using h⟩
  | error err => rw [hr] at h; cases h

theorem outcome_error (x : JavaExporter) (e : Engine (Ext ℚ)) (f : Fault) (h : outcome x e = .inr f) :
    execute G (x.toString e) = .error f := by
  unfold outcome at h
  cases hr : execute G (x.toString e) with
  | ok e' => rw [hr] at h; cases h
  | error f' => rw [hr] at h; rw [show f' = f by simpa using h]

theorem text_engine : j.toString engine = cs! "//Code automatically generated with fuzzylite 7.0.0.\n\nEngine engine = new Engine();\nengine.setName(\"Fan control\");\nengine.setDescription(\"a fan: with a dial\");\n\nInputVariable dial = new InputVariable();\ndial.setName(\"dial\");\ndial.setDescription(\"in steps\");\ndial.setEnabled(true);\ndial.setRange(0.000, Double.POSITIVE_INFINITY);\ndial.setLockValueInRange(false);\ndial.addTerm(new Ramp(\"low\", 5.000, -0.333, 0.500));\ndial.addTerm(Discrete.create(\"high\", 0.000, 0.000, 10.000, 1.000));\nengine.addInputVariable(dial);\n\nOutputVariable speed = new OutputVariable();\nspeed.setName(\"speed\");\nspeed.setDescription(\"\");\nspeed.setEnabled(true);\nspeed.setRange(0.000, 100.000);\nspeed.setLockValueInRange(false);\nspeed.setAggregation(new Maximum());\nspeed.setDefuzzifier(new Centroid(200));\nspeed.setDefaultValue(Double.NaN);\nspeed.setLockPreviousValue(true);\nspeed.addTerm(new Constant(\"a\", -3.500));\nspeed.addTerm(Linear.create(\"b\", engine, 1.000, 2.000));\nspeed.addTerm(Function.create(\"c\", \"x * dial\", engine));\nengine.addOutputVariable(speed);\n\nRuleBlock ruleBlock = new RuleBlock();\nruleBlock.setName(\"\");\nruleBlock.setDescription(\"\");\nruleBlock.setEnabled(true);\nruleBlock.setConjunction(new Minimum());\nruleBlock.setDisjunction(null);\nruleBlock.setImplication(new AlgebraicProduct());\nruleBlock.setActivation(new First(3, 0.250));\nruleBlock.addRule(Rule.parse(\"if dial is low then speed is a with 0.500\", engine));\nengine.addRuleBlock(ruleBlock);\n\n" := by
  decide +kernel

/-- Non-vacuity of C77: the engine of C74. -/
theorem good_engine (x : JavaExporter) (hl : '\n' ∉ x.library) : Good x engine := by
  refine .of_cpp (CppExamples.good_engine (cpp x) hl) fun n hn => ?_
  have : localNames (cpp x) engine = [cs! "dial", cs! "speed", cs! "ruleBlock"] ∨
      localNames (cpp x) engine = [cs! "inputVariable", cs! "outputVariable", cs! "ruleBlock"] := by
    rcases x with ⟨_ | _, l⟩
    · right; rfl
    · left; rfl
  rcases this with e | e <;> (rw [e] at hn; revert n; decide)

example : ∃ e', execute G (j.toString engine) = .ok e' ∧ y.toString e' = y.toString engine :=
  roundTrip_partial (by decide +kernel) j y G engine (good_engine j (by decide)) faithful_engine builds_engine

example : execute G (k.toString engine) = Cpp.execute G (z.toString engine) :=
  execute_cpp G k z engine (good_engine k (by decide)) (CppExamples.good_engine z (by decide))

/-- weighted defuzzifiers are accepted, as they are not with prefixes in C++ -/
example : ∃ e', execute G (j.toString (output (cs! "o") (.weighted .average .tsukamoto))) = .ok e' ∧
    y.toString e' = y.toString (output (cs! "o") (.weighted .average .tsukamoto)) := outcome_ok _ _ _ (by decide +kernel)

/-- a variable with the name of a class is accepted, as it is not in C++ without prefixes -/
example : ∃ e', execute G (j.toString (small (cs! "Ramp") [ramp (.fin 0) (.fin 1)])) = .ok e' ∧
    y.toString e' = y.toString (small (cs! "Ramp") [ramp (.fin 0) (.fin 1)]) := outcome_ok _ _ _ (by decide +kernel)

/-! ### engines whose code is not accepted -/

/-- C77 fails for infinite parameters of terms, which are written as `inf`; C++ accepts them. -/
theorem infinite_violated :
    execute G (j.toString (small (cs! "v") [ramp (.fin 0) .pinf])) = .error .rejected ∧
    execute G (j.toString (small (cs! "v") [ramp .ninf (.fin 0)])) = .error .rejected ∧
    ∃ e', Cpp.execute G (x.toString (small (cs! "v") [ramp (.fin 0) .pinf])) = .ok e' :=
  ⟨outcome_error _ _ _ (by decide +kernel), outcome_error _ _ _ (by decide +kernel), CppExamples.infinite_violated.2⟩

/-- C77 fails for parameters that are not numbers, such as those of a new term, which are written as `nan`. -/
theorem nan_violated : execute G (j.toString (small (cs! "v") [ramp .nan .nan])) = .error .rejected :=
  outcome_error _ _ _ (by decide +kernel)

/-- C77 fails for texts with quotes and of several lines: they are not escaped. -/
theorem quote_violated :
    execute G (j.toString { small (cs! "v") [] with description := cs! "a \"fan\"" }) = .error .rejected ∧
    execute G (j.toString { small (cs! "v") [] with description := cs! "one\ntwo" }) = .error .rejected :=
  ⟨outcome_error _ _ _ (by decide +kernel), outcome_error _ _ _ (by decide +kernel)⟩

/-- C77 fails for names that are not identifiers, although these are valid names for fuzzylite, for keywords and for the variable
`engine`. -/
theorem identifier_violated :
    execute G (j.toString (small (cs! "oil.level") [])) = .error .rejected ∧
    execute G (j.toString (small (cs! "2nd") [])) = .error .rejected ∧
    execute G (j.toString (small (cs! "final") [])) = .error .rejected ∧
    execute G (j.toString (small (cs! "engine") [])) = .error .rejected :=
  ⟨outcome_error _ _ _ (by decide +kernel), outcome_error _ _ _ (by decide +kernel), outcome_error _ _ _ (by decide +kernel),
   outcome_error _ _ _ (by decide +kernel)⟩

/-- The words that Java reserves, in the order of its specification, are those that are refused: keywords of C++ or others. -/
theorem keywords_listed (w : Str) : w ∈ keywords ↔ w ∉ Cpp.keywords ∧ w ∈ (cs! "abstract continue for new switch assert default if package synchronized boolean do goto private this break double implements protected throw byte else import public throws case enum instanceof return transient catch extends int short try char final interface static void class finally long strictfp volatile const float native super while _ true false null").splitOn ' ' := by
  have h : keywords.Perm (((cs! "abstract continue for new switch assert default if package synchronized boolean do goto private this break double implements protected throw byte else import public throws case enum instanceof return transient catch extends int short try char final interface static void class finally long strictfp volatile const float native super while _ true false null").splitOn ' ').filter fun w => w ∉ Cpp.keywords) := by
    decide +kernel
  rw [h.mem_iff, List.mem_filter, and_comm, decide_eq_true_iff]

/-- C77 fails for a variable with the name of a class that is needed before a point; C++ accepts it. -/
theorem class_violated :
    execute G (j.toString (small (cs! "Discrete") [⟨cs! "t", .fin 1, .discrete [(.fin 0, .fin 1)]⟩])) = .error .rejected ∧
    execute G (j.toString (small (cs! "Double") [])) ≠ .error .rejected ∧
    execute G (j.toString { small (cs! "Double") [] with inputs := [Variable.new (cs! "Double") .ninf .pinf []] }) = .error .rejected ∧
    execute G (j.toString { small (cs! "Double") [] with inputs := [Variable.new (cs! "Double") .nan .nan []] }) = .error .rejected ∧
    ∃ e', Cpp.execute G (x.toString (small (cs! "Discrete") [⟨cs! "t", .fin 1, .discrete [(.fin 0, .fin 1)]⟩])) = .ok e' := by
  refine ⟨outcome_error _ _ _ (by decide +kernel), fun h => ?_, outcome_error _ _ _ (by decide +kernel), outcome_error _ _ _ (by decide +kernel), ?_⟩
  · obtain ⟨e', h', -⟩ := outcome_ok j (small (cs! "Double") []) (y.toString (small (cs! "Double") [])) (by decide +kernel)
    rw [h] at h'
    cases h'
  · exact (CppExamples.outcome_ok x _ (y.toString (small (cs! "Discrete") [⟨cs! "t", .fin 1, .discrete [(.fin 0, .fin 1)]⟩]))
      (by decide +kernel)).imp fun _ h => h.1

/-- C77 fails for a term `Discrete` whose height is not 1: the height is lost. -/
theorem height_violated :
    ∃ e', execute G (j.toString (small (cs! "v") [⟨cs! "t", .fin (1/2), .discrete [(.fin 0, .fin 1)]⟩])) = .ok e' ∧
    y.toString e' ≠ y.toString (small (cs! "v") [⟨cs! "t", .fin (1/2), .discrete [(.fin 0, .fin 1)]⟩]) := by
  obtain ⟨e', h1, h2⟩ := outcome_ok j (small (cs! "v") [⟨cs! "t", .fin (1/2), .discrete [(.fin 0, .fin 1)]⟩])
    (y.toString (small (cs! "v") [⟨cs! "t", .fin 1, .discrete [(.fin 0, .fin 1)]⟩])) (by decide +kernel)
  exact ⟨e', h1, by rw [h2]; decide +kernel⟩

end JavaExamples
end FL
