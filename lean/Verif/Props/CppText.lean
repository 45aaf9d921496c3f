/-
The numbers of the C++ code are read as `Op::str` wrote them, for rationals and for doubles; examples of engines for C74, and
engines whose code is not accepted or builds another engine.
-/
import Verif.Props.Cpp
import Verif.Props.DoubleText
namespace FL
open Scalar

theorem Decimal.digits_floating (n : Nat) (f : Str) (h : ∀ c ∈ f, c.isDigit = true) : Cpp.isFloating (Decimal.digits n ++ '.' :: f) = true := by
  have hd : (Cpp.isDigit : Char → Bool) = Char.isDigit := funext Cpp.isDigit_eq
  have ht := Decimal.takeWhile_digits (s := Decimal.digits n) (r := '.' :: f) (Decimal.digits_isDigit n)
    (fun c hc => by obtain rfl : '.' = c := by simpa using hc
                    decide)
  unfold Cpp.isFloating
  simp only [hd, ht.1, ht.2]
  have : (Decimal.digits n).isEmpty = false := by
    cases hn : Decimal.digits n with
    | nil => exact absurd hn (Decimal.digits_ne n)
    | cons => rfl
  rw [this]
  simp only [List.head?_cons, List.tail_cons, Bool.not_false, Bool.true_and, beq_self_eq_true]
  exact List.all_eq_true.2 h

instance instCppTextRat : Cpp.CppText (Ext ℚ) where
  nan x hx := by
    cases x with
    | nan => exact ⟨rfl, rfl⟩
    | pinf => cases hx
    | ninf => cases hx
    | fin q =>
      change (!decide (q = q)) = true at hx
      simp at hx
  inf x hx hi := by
    cases x with
    | pinf => exact ⟨rfl, rfl⟩
    | ninf => exact ⟨rfl, rfl⟩
    | nan => cases hx
    | fin q => cases hi
  finite x hx hi := by
    cases x with
    | pinf => cases hi
    | ninf => cases hi
    | nan => cases hx
    | fin q =>
      have fl : ∀ n, Cpp.isFloating (Decimal.thousandths n) = true := fun n => by
        rw [Decimal.thousandths_eq]; exact Decimal.digits_floating _ _ (Decimal.frac_isDigit n)
      have e : reread (Ext.fin q) = (Decimal.ofText (Decimal.str (.fin q))).getD .nan := rfl
      rw [e]
      show ∃ (n : Bool) (t : Str) (y : Ext ℚ), Decimal.str (.fin q) = _ ∧ _ ∧ Decimal.ofText t = some y ∧ _
      by_cases h1 : |q| < 1/1000
      · have : Decimal.str (.fin q) = cs! "0.000" := by simp only [Decimal.str]; rw [if_pos h1]
        exact ⟨false, _, .fin 0, this, by decide, by decide +kernel, by rw [this]; decide +kernel⟩
      · by_cases h2 : q < 0
        · have : Decimal.str (.fin q) = '-' :: Decimal.thousandths (Decimal.nearest (-q * 1000)) := by
            simp only [Decimal.str]; rw [if_neg h1, if_pos h2]
          exact ⟨true, _, _, this, fl _, Decimal.ofText_thousandths _, by rw [this, Decimal.ofText_neg_thousandths]; rfl⟩
        · have : Decimal.str (.fin q) = Decimal.thousandths (Decimal.nearest (q * 1000)) := by
            simp only [Decimal.str]; rw [if_neg h1, if_neg h2]
          exact ⟨false, _, _, this, fl _, Decimal.ofText_thousandths _, by rw [this, Decimal.ofText_thousandths]; rfl⟩
  number x := by
    cases x with
    | fin q =>
      obtain ⟨r, h, -⟩ := Decimal.reads_fin q
      have e : reread (Ext.fin q) = (Decimal.ofText (Decimal.str (.fin q))).getD .nan := rfl
      rw [e, h]
      show (!decide (r = r)) = (!decide (q = q))
      simp
    | _ => rfl
  int n h1 h2 := by
    obtain ⟨y, hy, -⟩ := LawfulInt.reads (S := Ext ℚ) n h1 h2
    exact ⟨y, hy⟩

namespace Flt
open Ext
variable {ρ : Format} [Decimals]

/-- numbers with at least one decimal -/
theorem cppText (N : ρ.Nearest) [PlainText (Flt ρ)] [LawfulInt (Flt ρ)] (hd : 1 ≤ Decimals.decimals) : Cpp.CppText (Flt ρ) := by
  have fl : ∀ n, Cpp.isFloating (Decimal.fixed Decimals.decimals n) = true := fun n => by
    unfold Decimal.fixed
    rw [if_neg (by omega)]
    exact Decimal.digits_floating _ _ (Decimal.padded_isDigit _ n)
  have e0 : (lit 0 : Flt ρ) = of 0 Format.rep_zero := lit_rep Format.rep_zero
  have re : ∀ x : Flt ρ, reread x = (ofText (str x)).getD nan := fun x => rfl
  have fin_nan : ∀ (q : ℚ) (hv : ρ.round (.fin q) = .fin q), Op.isNaN (⟨.fin q, hv⟩ : Flt ρ) = false :=
    fun q hv => isNaN_fin (ρ := ρ) (q := q) hv
  refine { nan := fun x hx => ?_, inf := fun x hx hi => ?_, finite := fun x hx hi => ?_, number := fun x => ?_, int := fun n h1 h2 => ?_ }
  · obtain ⟨v, hv⟩ := x
    cases v with
    | nan => exact ⟨rfl, rfl⟩
    | pinf => cases hx
    | ninf => cases hx
    | fin q => rw [fin_nan] at hx; cases hx
  · obtain ⟨v, hv⟩ := x
    cases v with
    | nan => cases hx
    | pinf =>
      rw [re, e0]
      have h1 : str (⟨.pinf, hv⟩ : Flt ρ) = cs! "inf" := str_pinf
      exact ⟨h1, by rw [h1]; rfl⟩
    | ninf =>
      rw [re, e0]
      have h1 : str (⟨.ninf, hv⟩ : Flt ρ) = cs! "-inf" := str_ninf
      exact ⟨h1, by rw [h1]; rfl⟩
    | fin q => cases hi
  · obtain ⟨v, hq⟩ := x
    cases v with
    | nan => cases hx
    | pinf => cases hi
    | ninf => cases hi
    | fin q =>
      change ρ.Rep q at hq
      change ∃ (n : Bool) (t : Str) (y : Flt ρ), str (of q hq) = _ ∧ _ ∧ ofText t = some y ∧ reread (of q hq) = _
      rw [re]
      obtain ⟨θ, hθ, hθ2⟩ := N.unit Decimals.decimals Decimals.bound
      change last < 2 * θ at hθ2
      change ρ.rnd last = .fin θ at hθ
      have hl := last_pos
      have h0 : 0 < θ := by linarith
      rcases lt_or_ge |q| θ with h | h
      · obtain ⟨hz, e⟩ := ofText_rep (ρ := ρ) (Decimal.ofText_fixed Decimals.decimals 0) (by
          rw [Nat.cast_zero, zero_div]
          exact ρ.rnd_zero)
        exact ⟨false, _, _, str_small hq hθ h0 h, fl 0, e, by rw [str_small hq hθ h0 h, e]; rfl⟩
      · rcases le_or_gt 0 q with hs | hs
        · rw [_root_.abs_of_nonneg hs] at h
          obtain ⟨n, p, hn, hp, -⟩ := reads_pos N hq hθ hθ2 h
          obtain ⟨hz, e⟩ := ofText_rep (ρ := ρ) (Decimal.ofText_fixed Decimals.decimals n) hp
          have hstr := str_pos hq hθ h0 h
          rw [← hn] at hstr
          exact ⟨false, _, _, hstr, fl n, e, by rw [hstr, e]; rfl⟩
        · rw [_root_.abs_of_neg hs] at h
          obtain ⟨n, p, hn, hp, -⟩ := reads_pos N (Format.rep_neg hq) hθ hθ2 h
          obtain ⟨hz, e⟩ := ofText_rep (ρ := ρ) (Decimal.ofText_fixed Decimals.decimals n) hp
          obtain ⟨hz', e'⟩ := ofText_rep (ρ := ρ) (p := -p) (Decimal.ofText_neg_fixed Decimals.decimals n) (by
            rw [ρ.rnd_neg, hp]; rfl)
          have hstr := str_neg hq hθ h0 h
          rw [← hn] at hstr
          exact ⟨true, _, _, hstr, fl n, e, by rw [hstr, e', if_pos rfl, neg_of]; rfl⟩
  · obtain ⟨v, hq⟩ := x
    cases v with
    | nan => rfl
    | pinf => rw [re, show str (⟨.pinf, hq⟩ : Flt ρ) = cs! "inf" from str_pinf]; rfl
    | ninf => rw [re, show str (⟨.ninf, hq⟩ : Flt ρ) = cs! "-inf" from str_ninf]; rfl
    | fin q =>
      obtain ⟨p, hp, e, -⟩ := reads_fin N (q := q) hq
      have : reread (⟨.fin q, hq⟩ : Flt ρ) = of p hp := by
        rw [re, show str (⟨.fin q, hq⟩ : Flt ρ) = str (of q hq) from rfl, e]
        rfl
      rw [this, isNaN_fin, fin_nan]
  · obtain ⟨y, hy, -⟩ := LawfulInt.reads (S := Flt ρ) n h1 h2
    exact ⟨y, hy⟩

end Flt

namespace Double
variable {lib1 : Fn1 → Ext ℚ → Ext ℚ} {lib2 : Fn2 → Ext ℚ → Ext ℚ → Ext ℚ} [Decimals]

/-- doubles with at least one decimal -/
theorem cppText (hd : 1 ≤ Decimals.decimals) : Cpp.CppText (Flt (binary64 lib1 lib2)) :=
  Flt.cppText (Binary64.nearest lib1 lib2) hd

/-- C74 for doubles with at least one decimal -/
theorem cpp_partial (hd : 1 ≤ Decimals.decimals) (x : CppExporter) (y : FllExporter) (G : Registry (Flt (binary64 lib1 lib2)))
    (e : Engine (Flt (binary64 lib1 lib2))) (hg : Cpp.Good x e) (hs : Cpp.Faithful e) (hb : Cpp.Builds G e) :
    ∃ e', Cpp.execute G (x.toString e) = .ok e' ∧ y.toString e' = y.toString e := by
  haveI := cppText (lib1 := lib1) (lib2 := lib2) hd
  exact Cpp.roundTrip_partial isEq_one x y G e hg hs hb

end Double

namespace CppExamples
open Cpp

def G : Registry (Ext ℚ) := Registry.default
def y : FllExporter := {}
def x : CppExporter := {}
/-- with prefixes, and without the names of variables -/
def z : CppExporter := { usingNamespace := true, usingVariableNames := false }

/-- the text of the engine that the code builds -/
def outcome (x : CppExporter) (e : Engine (Ext ℚ)) : Str ⊕ Fault :=
  match execute G (x.toString e) with
  | .ok e' => .inl (y.toString e')
  | .error f => .inr f

theorem outcome_ok (x : CppExporter) (e : Engine (Ext ℚ)) (t : Str) (h : outcome x e = .inl t) :
    ∃ e', execute G (x.toString e) = .ok e' ∧ y.toString e' = t := by
  unfold outcome at h
  cases hr : execute G (x.toString e) with
  | ok e' => rw [hr] at h; exact ⟨e', rfl, by simpa using h⟩
  | error err => rw [hr] at h; cases h

theorem outcome_error (x : CppExporter) (e : Engine (Ext ℚ)) (f : Fault) (h : outcome x e = .inr f) :
    execute G (x.toString e) = .error f := by
  unfold outcome at h
  cases hr : execute G (x.toString e) with
  | ok e' => rw [hr] at h; cases h
  | error f' => rw [hr] at h; rw [show f' = f by simpa using h]

def engine : Engine (Ext ℚ) where
  name := cs! "Fan control"
  description := cs! "a fan: with a dial"
  inputs := [{ Variable.new (cs! "dial") (.fin 0) .pinf [
      ⟨cs! "low", .fin (1/2), .shape (.ramp (.fin 5) (.fin (-1/3)))⟩,
      ⟨cs! "high", .fin 1, .discrete [(.fin 0, .fin 0), (.fin 10, .fin 1)]⟩] with description := cs! "in steps" }]
  outputs := [{ OutputVariable.new (cs! "speed") (.fin 0) (.fin 100) [
      ⟨cs! "a", .fin 1, .constant (.fin (-7/2))⟩, ⟨cs! "b", .fin 1, .linear [.fin 1, .fin 2] true⟩,
      ⟨cs! "c", .fin 1, .function ⟨cs! "x * dial", none, false, fun _ => none⟩⟩] with
    fuzzy := ⟨cs! "speed", .fin 0, .fin 100, some (.builtin .maximum), []⟩,
    defuzzifier := some (.integral .centroid 200), lockPrevious := true }]
  blocks := [⟨[], [], true, some (.builtin .minimum), none, some (.builtin .algebraicProduct),
    some (.first 3 (.fin (1/4))), [Rule.new (cs! "if dial is low then speed is a with 0.500")]⟩]

theorem text_engine : x.toString engine = cs! "//Code automatically generated with fuzzylite 7.0.0.\n\nusing namespace fuzzylite;\n\nEngine* engine = new Engine;\nengine->setName(\"Fan control\");\nengine->setDescription(\"a fan: with a dial\");\n\nInputVariable* dial = new InputVariable;\ndial->setName(\"dial\");\ndial->setDescription(\"in steps\");\ndial->setEnabled(true);\ndial->setRange(0.000, fl::inf);\ndial->setLockValueInRange(false);\ndial->addTerm(new Ramp(\"low\", 5.000, -0.333, 0.500));\ndial->addTerm(Discrete::create(\"high\", 4, 0.000, 0.000, 10.000, 1.000));\nengine->addInputVariable(dial);\n\nOutputVariable* speed = new OutputVariable;\nspeed->setName(\"speed\");\nspeed->setDescription(\"\");\nspeed->setEnabled(true);\nspeed->setRange(0.000, 100.000);\nspeed->setLockValueInRange(false);\nspeed->setAggregation(new Maximum);\nspeed->setDefuzzifier(new Centroid(200));\nspeed->setDefaultValue(fl::nan);\nspeed->setLockPreviousValue(true);\nspeed->addTerm(new Constant(\"a\", -3.500));\nspeed->addTerm(Linear::create(\"b\", engine, 1.000, 2.000));\nspeed->addTerm(Function::create(\"c\", \"x * dial\", engine));\nengine->addOutputVariable(speed);\n\nRuleBlock* ruleBlock = new RuleBlock;\nruleBlock->setName(\"\");\nruleBlock->setDescription(\"\");\nruleBlock->setEnabled(true);\nruleBlock->setConjunction(new Minimum);\nruleBlock->setDisjunction(fl::null);\nruleBlock->setImplication(new AlgebraicProduct);\nruleBlock->setActivation(new First(3, 0.250));\nruleBlock->addRule(Rule::parse(\"if dial is low then speed is a with 0.500\", engine));\nengine->addRuleBlock(ruleBlock);\n\n" := by
  decide +kernel

theorem readable_fin (x : CppExporter) (q : ℚ) : Readable x (.fin q : Ext ℚ) :=
  ⟨by show (!decide (q = q)) = false; simp, fun h => by cases h⟩

/-- Non-vacuity of C74. -/
theorem good_engine (x : CppExporter) (hl : '\n' ∉ x.library) : Good x engine where
  library := hl
  name := by decide
  description := by decide
  distinct := by
    cases h : x.usingVariableNames with
    | false => exact (localNames_numbered x h engine).1
    | true =>
      have : localNames x engine = [cs! "dial", cs! "speed", cs! "ruleBlock"] := by
        simp [localNames, engine, CppExporter.inputName, CppExporter.outputName, CppExporter.blockName, CppExporter.numbered, h]
        decide
      rw [this]
      decide
  identifiers := by
    cases h : x.usingVariableNames with
    | false => exact (localNames_numbered x h engine).2.1
    | true =>
      have : localNames x engine = [cs! "dial", cs! "speed", cs! "ruleBlock"] := by
        simp [localNames, engine, CppExporter.inputName, CppExporter.outputName, CppExporter.blockName, CppExporter.numbered, h]
        decide
      rw [this]
      decide
  hidden := by
    right
    cases h : x.usingVariableNames with
    | false => exact (localNames_numbered x h engine).2.2
    | true =>
      have : localNames x engine = [cs! "dial", cs! "speed", cs! "ruleBlock"] := by
        simp [localNames, engine, CppExporter.inputName, CppExporter.outputName, CppExporter.blockName, CppExporter.numbered, h]
        decide
      rw [this]
      decide
  inputs v hv := by
    obtain rfl : v = _ := by simpa [engine] using hv
    refine ⟨by decide, by decide, fun t ht => ?_⟩
    simp only [Variable.new, List.mem_cons, List.not_mem_nil, or_false] at ht
    rcases ht with rfl | rfl
    · refine ⟨by decide, fun f hf => by simp at hf, fun v hv => ?_, .inr (by simp [termValues, shapeValues, Shape.written]),
        fun xy h => by simp at h⟩
      simp only [termValues, shapeValues, Shape.written] at hv
      rw [if_neg (by decide +kernel)] at hv
      simp only [List.cons_append, List.nil_append, List.mem_cons, List.not_mem_nil, or_false] at hv
      rcases hv with rfl | rfl | rfl <;> exact readable_fin _ _
    · refine ⟨by decide, fun f hf => by simp at hf, fun v hv => ?_, .inr (by simp [termValues, Discrete.toVector]), fun xy h => ?_⟩
      · simp only [termValues, Discrete.toVector, List.flatMap_cons, List.flatMap_nil, List.cons_append, List.nil_append,
          List.mem_cons, List.not_mem_nil, or_false] at hv
        rcases hv with rfl | rfl | rfl | rfl <;> exact readable_fin _ _
      · obtain rfl : _ = xy := by simpa using h
        exact ⟨by decide, by decide⟩
  outputs v hv := by
    obtain rfl : v = _ := by simpa [engine] using hv
    refine ⟨⟨by decide, by decide, fun t ht => ?_⟩, fun k hk => ?_, fun k r hk => ?_, fun k r hk => by simp at hk⟩
    · simp only [OutputVariable.new, Variable.new, List.mem_cons, List.not_mem_nil, or_false] at ht
      rcases ht with rfl | rfl | rfl
      · refine ⟨by decide, fun f hf => by simp at hf, fun v hv => ?_, .inr (by simp [termValues]), fun xy h => by simp at h⟩
        simp only [termValues, List.mem_cons, List.not_mem_nil, or_false] at hv
        subst hv
        exact readable_fin _ _
      · refine ⟨by decide, fun f hf => by simp at hf, fun v hv => ?_, .inr (by simp [termValues]), fun xy h => by simp at h⟩
        simp only [termValues, List.mem_cons, List.not_mem_nil, or_false] at hv
        rcases hv with rfl | rfl <;> exact readable_fin _ _
      · refine ⟨by decide, fun f hf => ?_, fun v hv => by simp [termValues] at hv, .inl ⟨_, rfl⟩, fun xy h => by simp at h⟩
        obtain rfl : _ = f := by simpa using hf
        decide
    · exact ⟨.maximum, (by simpa using hk.symm)⟩
    · obtain ⟨-, rfl⟩ : _ ∧ 200 = r := by simpa using hk
      exact ⟨by decide, by decide⟩
  blocks b hb := by
    obtain rfl : b = _ := by simpa [engine] using hb
    refine ⟨by decide, by decide, fun k hk => ⟨.minimum, by simpa using hk.symm⟩, fun k hk => (by simp at hk),
      fun k hk => ⟨.algebraicProduct, by simpa using hk.symm⟩, fun r hr => ?_, ?_, fun n c v hn => ?_⟩
    · obtain rfl : r = _ := by simpa using hr
      decide
    · intro n t hn
      simp only [Option.some.injEq, Activation.first.injEq, reduceCtorEq, or_false] at hn
      obtain ⟨rfl, -⟩ := hn
      exact ⟨by decide, by decide⟩
    · simp only [Option.some.injEq, Activation.first.injEq, reduceCtorEq, or_false] at hn
      obtain ⟨-, rfl⟩ := hn
      exact readable_fin _ _

theorem faithful_engine : Faithful engine where
  inputs i v hv t ht := by
    match i, hv with
    | 0, hv =>
      obtain rfl : v = _ := by simpa [engine] using hv.symm
      simp only [Variable.new, List.mem_cons, List.not_mem_nil, or_false] at ht
      rcases ht with rfl | rfl
      · right; decide +kernel
      · show Op.isEq (Ext.fin 1 : Ext ℚ) (lit 1) = true; decide +kernel
    | i + 1, hv => simp [engine] at hv
  outputs v hv t ht := by
    obtain rfl : v = _ := by simpa [engine] using hv
    simp only [OutputVariable.new, Variable.new, List.mem_cons, List.not_mem_nil, or_false] at ht
    rcases ht with rfl | rfl | rfl
    · trivial
    · rfl
    · trivial

theorem builds_engine : Builds G engine := by
  obtain ⟨e', h, -⟩ := outcome_ok x engine (y.toString engine) (by decide +kernel)
  refine (reading_ok_iff G engine).1 ?_
  rw [execute_toString G x engine (good_engine x (by decide))] at h
  cases hr : reading G engine with
  | ok e'' => exact ⟨e'', rfl⟩
  | error err => rw [hr] at h; cases h

example : ∃ e', execute G (z.toString engine) = .ok e' ∧ y.toString e' = y.toString engine :=
  roundTrip_partial (by decide +kernel) z y G engine (good_engine z (by decide)) faithful_engine builds_engine

/-! ### engines whose code is not accepted -/

def small (name : Str) (ts : List (Term (Ext ℚ))) : Engine (Ext ℚ) :=
  ⟨cs! "e", [], [Variable.new name (.fin 0) (.fin 1) ts], [], []⟩

def ramp (a b : Ext ℚ) : Term (Ext ℚ) := ⟨cs! "t", .fin 1, .shape (.ramp a b)⟩

def output (name : Str) (d : Defuzzifier) : Engine (Ext ℚ) :=
  ⟨cs! "e", [], [], [{ OutputVariable.new name (.fin 0) (.fin 1) [] with defuzzifier := some d }], []⟩

/-- C74 fails with prefixes for weighted defuzzifiers: their class is written without prefix, src/imex/CppExporter.cpp:239-242. -/
theorem weighted_violated :
    execute G (z.toString (output (cs! "o") (.weighted .average .automatic))) = .error .rejected ∧
    ∃ e', execute G (x.toString (output (cs! "o") (.weighted .average .automatic))) = .ok e' :=
  ⟨outcome_error _ _ _ (by decide +kernel),
   (outcome_ok _ _ (y.toString (output (cs! "o") (.weighted .average .automatic))) (by decide +kernel)).imp fun _ h => h.1⟩

/-- C74 fails with prefixes for infinite parameters, which are written as `inf`. -/
theorem infinite_violated :
    execute G (z.toString (small (cs! "v") [ramp (.fin 0) .pinf])) = .error .rejected ∧
    ∃ e', execute G (x.toString (small (cs! "v") [ramp (.fin 0) .pinf])) = .ok e' :=
  ⟨outcome_error _ _ _ (by decide +kernel),
   (outcome_ok _ _ (y.toString (small (cs! "v") [ramp (.fin 0) .pinf])) (by decide +kernel)).imp fun _ h => h.1⟩

/-- C74 fails for parameters that are not numbers, such as those of a new term: `nan` is a function of the C library. -/
theorem nan_violated :
    execute G (x.toString (small (cs! "v") [ramp .nan .nan])) = .error .rejected ∧
    execute G (z.toString (small (cs! "v") [ramp .nan .nan])) = .error .rejected :=
  ⟨outcome_error _ _ _ (by decide +kernel), outcome_error _ _ _ (by decide +kernel)⟩

/-- C74 fails for texts with quotes: they are not escaped. -/
theorem quote_violated :
    execute G (x.toString { small (cs! "v") [] with description := cs! "a \"fan\"" }) = .error .rejected :=
  outcome_error _ _ _ (by decide +kernel)

/-- C74 fails for texts of several lines. -/
theorem newline_violated :
    execute G (x.toString { small (cs! "v") [] with description := cs! "one\ntwo" }) = .error .rejected :=
  outcome_error _ _ _ (by decide +kernel)

/-- C74 fails for texts with backslashes, which are read as escape sequences: the code builds another engine. -/
theorem backslash_violated : ∃ e', execute G (x.toString { small (cs! "v") [] with description := cs! "a\\tb" }) = .ok e' ∧
    y.toString e' ≠ y.toString { small (cs! "v") [] with description := cs! "a\\tb" } := by
  obtain ⟨e', h1, h2⟩ := outcome_ok x { small (cs! "v") [] with description := cs! "a\\tb" }
    (y.toString { small (cs! "v") [] with description := cs! "a\tb" }) (by decide +kernel)
  exact ⟨e', h1, by rw [h2]; decide +kernel⟩

/-- C74 fails for names that are not identifiers, although these are valid names for fuzzylite, for keywords, and for names of
the library that are needed later. -/
theorem identifier_violated :
    execute G (x.toString (small (cs! "oil.level") [])) = .error .rejected ∧
    execute G (x.toString (small (cs! "2nd") [])) = .error .rejected ∧
    execute G (x.toString (small (cs! "switch") [])) = .error .rejected ∧
    execute G (x.toString (small (cs! "engine") [])) = .error .rejected ∧
    execute G (x.toString (small (cs! "Ramp") [ramp (.fin 0) (.fin 1)])) = .error .rejected :=
  ⟨outcome_error _ _ _ (by decide +kernel), outcome_error _ _ _ (by decide +kernel), outcome_error _ _ _ (by decide +kernel),
   outcome_error _ _ _ (by decide +kernel), outcome_error _ _ _ (by decide +kernel)⟩

/-- C74 fails for a variable and a rule block of the same name. -/
theorem duplicate_violated :
    execute G (x.toString { small (cs! "v") [] with blocks := [RuleBlock.new (cs! "v")] }) = .error .rejected :=
  outcome_error _ _ _ (by decide +kernel)

/-- C74 fails for a term `Discrete` without pairs: there is a comma without argument. -/
theorem empty_violated :
    execute G (x.toString (small (cs! "v") [⟨cs! "t", .fin 1, .discrete []⟩])) = .error .rejected :=
  outcome_error _ _ _ (by decide +kernel)

/-! ### engines whose code raises or builds another engine -/

/-- C74 fails for a term `Linear` with fewer coefficients than `Linear::create` reads, which is undefined behaviour. -/
theorem linear_violated :
    execute G (x.toString { small (cs! "v") [] with
      outputs := [OutputVariable.new (cs! "o") (.fin 0) (.fin 1) [⟨cs! "t", .fin 1, .linear [.fin 3] true⟩]] })
      = .error (.raised .ub) :=
  outcome_error _ _ _ (by decide +kernel)

/-- C74 fails for a term `Linear` of an input variable: the variable is not yet in the engine when its coefficients are counted. -/
theorem linear_input_violated :
    ∃ e', execute G (x.toString (small (cs! "v") [⟨cs! "t", .fin 1, .linear [.fin 3, .fin 4] true⟩])) = .ok e' ∧
    y.toString e' ≠ y.toString (small (cs! "v") [⟨cs! "t", .fin 1, .linear [.fin 3, .fin 4] true⟩]) := by
  obtain ⟨e', h1, h2⟩ := outcome_ok x (small (cs! "v") [⟨cs! "t", .fin 1, .linear [.fin 3, .fin 4] true⟩])
    (y.toString (small (cs! "v") [⟨cs! "t", .fin 1, .linear [.fin 3] true⟩])) (by decide +kernel)
  exact ⟨e', h1, by rw [h2]; decide +kernel⟩

/-- C74 fails for a term `Discrete` whose height is not 1, src/imex/CppExporter.cpp:183-189: the height is lost. -/
theorem height_violated :
    ∃ e', execute G (x.toString (small (cs! "v") [⟨cs! "t", .fin (1/2), .discrete [(.fin 0, .fin 1)]⟩])) = .ok e' ∧
    y.toString e' ≠ y.toString (small (cs! "v") [⟨cs! "t", .fin (1/2), .discrete [(.fin 0, .fin 1)]⟩]) := by
  obtain ⟨e', h1, h2⟩ := outcome_ok x (small (cs! "v") [⟨cs! "t", .fin (1/2), .discrete [(.fin 0, .fin 1)]⟩])
    (y.toString (small (cs! "v") [⟨cs! "t", .fin 1, .discrete [(.fin 0, .fin 1)]⟩])) (by decide +kernel)
  exact ⟨e', h1, by rw [h2]; decide +kernel⟩

/-- C74 fails for a formula that mentions its own variable: loading it raises. -/
theorem formula_violated :
    execute G (x.toString (small (cs! "v") [⟨cs! "t", .fin 1, .function ⟨cs! "x * v", none, false, fun _ => none⟩⟩]))
      = .error (.raised .evaluation) :=
  outcome_error _ _ _ (by decide +kernel)

/-- C74 fails for a rule that cannot be loaded, which an engine may hold: the code raises. -/
theorem rule_violated :
    execute G (x.toString { small (cs! "v") [] with
      blocks := [{ RuleBlock.new (cs! "r") with rules := [Rule.new (cs! "if v is t then w is u")] }] })
      = .error (.raised .syntaxError) :=
  outcome_error _ _ _ (by decide +kernel)

/-- what is seen of the engine that the code builds -/
theorem seen {α : Type} (x : CppExporter) (e : Engine (Ext ℚ)) (f : Engine (Ext ℚ) → α) (a : α)
    (h : (execute G (x.toString e)).toOption.map f = some a) : ∃ e', execute G (x.toString e) = .ok e' ∧ f e' = a := by
  cases hr : execute G (x.toString e) with
  | ok e' => rw [hr] at h; exact ⟨e', rfl, Option.some.inj h⟩
  | error err => rw [hr] at h; cases h

/-- the formulas of conjunctions -/
def formulas (e : Engine (Ext ℚ)) : List Str :=
  e.blocks.filterMap fun b => match b.conjunction with
    | some (.function f) => some f.formula
    | _ => none

/-- C74 fails for norms defined by formulas: the formula is not written. -/
theorem norm_violated : ∃ e e' : Engine (Ext ℚ),
    execute G (x.toString e) = .ok e' ∧ formulas e = [cs! "a * b"] ∧ formulas e' = [[]] := by
  obtain ⟨e', h1, h2⟩ := seen x { small (cs! "v") [] with
      blocks := [{ RuleBlock.new (cs! "r") with conjunction := some (.function ⟨cs! "a * b", none, false, fun _ => none⟩) }] }
    formulas [[]] (by decide +kernel)
  exact ⟨_, e', h1, by decide, h2⟩

/-- C74 fails for rules that are not enabled: the code enables them. -/
theorem enabled_violated : ∃ e e' : Engine (Ext ℚ), execute G (x.toString e) = .ok e' ∧
    (e.blocks.flatMap fun b => b.rules.map fun r => (r.enabled, r.text))
      = [(false, cs! "if dial is low then speed is a")] ∧
    (e'.blocks.flatMap fun b => b.rules.map fun r => (r.enabled, r.text))
      = [(true, cs! "if dial is low then speed is a")] := by
  obtain ⟨e', h1, h2⟩ := seen x { engine with
      blocks := [{ RuleBlock.new (cs! "r") with rules := [{ Rule.new (cs! "if dial is low then speed is a") with enabled := false }] }] }
    (fun e => e.blocks.flatMap fun b => b.rules.map fun r => (r.enabled, r.text))
    [(true, cs! "if dial is low then speed is a")] (by decide +kernel)
  exact ⟨_, e', h1, by decide, h2⟩

end CppExamples
end FL
