/-
C61: what makes an engine sound: terms, norms and hedges of every class, and rules loaded from text.
-/
import Verif.Props.Total
import Verif.Props.RuleText
import Verif.Props.Ready
import Verif.Props.Run

namespace FL
open Scalar

/-! ### classes that can be evaluated -/
section general
variable {S : Type} [Scalar S]

theorem TNorm.builtin_evaluates (k : TNormKind) : (TNorm.builtin k : TNorm S).Evaluates := fun _ _ => ⟨_, rfl⟩

theorem SNorm.builtin_evaluates (k : SNormKind) : (SNorm.builtin k : SNorm S).Evaluates := fun _ _ => ⟨_, rfl⟩

theorem Hedge.builtin_evaluates (k : HedgeKind) : (Hedge.builtin k : Hedge S).Evaluates := fun _ => ⟨_, rfl⟩

omit [Scalar S] in
theorem Fun.setAll_isSome (env : Env S) (xs : List (Str × S)) (t : Str) :
    (∃ v, Fun.setAll env xs t = some v) ↔ t ∈ xs.map Prod.fst ∨ ∃ v, env t = some v := by
  simp only [← Option.isSome_iff_exists]
  rw [Fun.setAll_apply, Option.isSome_or, Bool.or_eq_true, Option.isSome_map, List.find?_isSome]
  simp only [List.mem_reverse, decide_eq_true_eq, List.mem_map]

/-- the names that a function knows -/
def Fun.Knows (f : Fun S) (ins outs : List Str) (t : Str) : Prop :=
  t = cs! "x" ∨ (f.hasEngine = true ∧ (t ∈ ins ∨ t ∈ outs)) ∨ ∃ v, f.vars t = some v

omit [Scalar S] in
theorem Fun.bind_isSome (f : Fun S) (ctx : Ctx S) (x : S) (t : Str) :
    (∃ v, f.bind ctx x t = some v) ↔ f.Knows (ctx.inputs.map Prod.fst) (ctx.outputs.map Prod.fst) t := by
  unfold Fun.bind Fun.Knows
  by_cases hx : t = cs! "x"
  · simp [Env.set, hx]
  · simp only [Env.set, hx, if_false, false_or]
    cases f.hasEngine with
    | false => simp
    | true =>
      simp only [if_true, Fun.setAll_isSome, true_and]
      tauto

/-- Whether the membership of a term is defined for every value: always for a shape or a constant, with an
engine for a linear term, and for a function when it has a formula that mentions only known names. -/
theorem Term.evaluates_iff (ins outs : List Str) (t : Term S) :
    match t.kind with
    | .shape _ => t.Evaluates ins outs
    | .constant _ => t.Evaluates ins outs
    | .linear _ e => t.Evaluates ins outs ↔ e = true
    | .function f => t.Evaluates ins outs ↔ ∃ n, f.root = some n ∧ ∀ v ∈ n.vars, f.Knows ins outs v
    | .discrete xy => t.Evaluates ins outs ↔ ∀ x, ∃ y, Discrete.membership t.height xy x = .ok y := by
  obtain ⟨n, h, k⟩ := t
  have hex : ∃ ctx : Ctx S, ctx.inputs.map Prod.fst = ins ∧ ctx.outputs.map Prod.fst = outs :=
    ⟨⟨ins.map fun n => (n, nan), outs.map fun n => (n, nan)⟩, by simp [Function.comp_def], by simp [Function.comp_def]⟩
  cases k with
  | shape s => exact fun _ _ _ _ => ⟨_, rfl⟩
  | constant v => exact fun _ _ _ _ => ⟨_, rfl⟩
  | discrete xy =>
    obtain ⟨ctx, h1, h2⟩ := hex
    exact ⟨fun h x => h ctx h1 h2 x, fun h _ _ _ x => h x⟩
  | linear c e =>
    constructor
    · intro h
      obtain ⟨ctx, h1, h2⟩ := hex
      obtain ⟨y, hy⟩ := h ctx h1 h2 nan
      cases e with
      | true => rfl
      | false => simp [membership, linearMembership] at hy
    · rintro rfl _ _ _ _
      exact ⟨_, rfl⟩
  | function f =>
    constructor
    · intro h
      obtain ⟨ctx, h1, h2⟩ := hex
      obtain ⟨y, hy⟩ := h ctx h1 h2 nan
      simp only [membership, Fun.membership, Fun.membershipS] at hy
      cases hr : f.root with
      | none => simp [hr] at hy
      | some n =>
        refine ⟨n, rfl, fun v hv => ?_⟩
        rw [hr] at hy
        have := (Node.evaluate_ok_iff n _).1 ⟨y, hy⟩ v hv
        rwa [Fun.bind_isSome, h1, h2] at this
    · rintro ⟨n, hr, hn⟩ ctx h1 h2 x
      simp only [membership, Fun.membership, Fun.membershipS, hr]
      refine (Node.evaluate_ok_iff n _).2 fun v hv => ?_
      rw [Fun.bind_isSome, h1, h2]
      exact hn v hv

end general

/-- a formula that loads can be evaluated ever after, as long as the variables keep their names -/
theorem Fun.load_evaluates {S : Type} [ScalarText S] (F : ElementFactory S) (f : Fun S) (formula : Str) (e : Bool)
    (ctx : Ctx S) (h : (f.load F formula e ctx).2 = none) (name : Str) (height : S) :
    (⟨name, height, .function (f.load F formula e ctx).1⟩ : Term S).Evaluates (ctx.inputs.map Prod.fst)
      (ctx.outputs.map Prod.fst) := by
  obtain ⟨n, -, hroot, hv⟩ := Fun.load_ok F f formula e ctx h
  refine (Term.evaluates_iff _ _ (⟨name, height, .function (f.load F formula e ctx).1⟩ : Term S)).2 ⟨n, hroot, fun v hm => ?_⟩
  obtain ⟨y, hy⟩ := hv (lit 0)
  simp only [membership, membershipS, hroot] at hy
  have := (Node.evaluate_ok_iff n _).1 ⟨y, hy⟩ v hm
  rwa [Fun.bind_isSome] at this

section real
open Ext
variable [Tol ℝ]

/-- a discrete term with points in increasing order -/
theorem Discrete.increasing_evaluates (name : Str) (h : ℝ) (hh : 0 ≤ h) (ps : List (ℝ × ℝ)) (h0 : ps ≠ [])
    (hs : Discrete.Increasing ps) (ins outs : List Str) :
    (⟨name, fin h, .discrete (Discrete.points ps)⟩ : Term (Ext ℝ)).Evaluates ins outs := by
  rintro ctx - - x
  by_cases hx : x = Ext.nan
  · subst hx
    exact ⟨_, by simp [Term.membership, Discrete.membership]; rfl⟩
  · obtain ⟨lo, hlo⟩ : ∃ lo, ∀ p ∈ ps, lo ≤ p.2 := by
      obtain ⟨lo, h⟩ := (ps.map Prod.snd).toFinset.bddBelow
      exact ⟨lo, fun p hp => h (by simpa using ⟨p.1, hp⟩)⟩
    obtain ⟨hi, hhi⟩ : ∃ hi, ∀ p ∈ ps, p.2 ≤ hi := by
      obtain ⟨lo, h⟩ := (ps.map Prod.snd).toFinset.bddAbove
      exact ⟨lo, fun p hp => h (by simpa using ⟨p.1, hp⟩)⟩
    obtain ⟨r, hr, -⟩ := Discrete.membership_bounded ps h lo hi x hs h0 hh hlo hhi hx
    exact ⟨_, hr⟩

end real

/-! ### rules loaded from text -/
section load
variable {S : Type} [Scalar S]

theorem Vocabulary.findOutput_some {V : Vocabulary} {n : Str} {v : VarRef} (h : V.findOutput n = some v) :
    ∃ i, v = .output i ∧ i < V.outputs.length := by
  obtain ⟨i, hi, rfl⟩ := Option.map_eq_some_iff.1 h
  exact ⟨i, rfl, (List.findIdx?_eq_some_iff_getElem.1 hi).1⟩

theorem Vocabulary.find_some {V : Vocabulary} {n : Str} {v : VarRef} (h : V.find n = some v) :
    (∃ i, v = .input i ∧ i < V.inputs.length) ∨ ∃ i, v = .output i ∧ i < V.outputs.length := by
  unfold Vocabulary.find at h
  split at h
  · rename_i i hi
    cases h
    exact .inl ⟨i, rfl, (List.findIdx?_eq_some_iff_getElem.1 hi).1⟩
  · exact .inr (Vocabulary.findOutput_some h)

theorem Vocabulary.findTerm_lt {V : Vocabulary} {v : VarRef} {n : Str} {j : Nat} (h : V.findTerm v n = some j) :
    j < (V.terms v).length := (List.findIdx?_eq_some_iff_getElem.1 h).1

namespace Engine
variable (e : Engine S)

theorem termsOf_find {n : Str} {v : VarRef} (h : e.world.vocabulary.find n = some v) :
    ∃ ts, e.termsOf v = some ts ∧ e.world.vocabulary.terms v = ts.map Term.name := by
  rcases Vocabulary.find_some h with ⟨i, rfl, hi⟩ | ⟨i, rfl, hi⟩
  · simp only [World.vocabulary, world, List.length_map] at hi
    exact ⟨_, by simp only [termsOf, List.getElem?_eq_getElem hi]; rfl,
      by simp [Vocabulary.terms, World.vocabulary, world, List.getElem?_eq_getElem hi]⟩
  · simp only [World.vocabulary, world, List.length_map] at hi
    exact ⟨_, by simp only [termsOf, List.getElem?_eq_getElem hi]; rfl,
      by simp [Vocabulary.terms, World.vocabulary, world, List.getElem?_eq_getElem hi]⟩

theorem serial_refers {H : HedgeFactory S} (hH : ∀ n h, H n = some h → h.Evaluates) {a : Expr S} {ts : List Str}
    (h : Antecedent.Serial H e.world.vocabulary a ts) : a.All e.Refers := by
  have hplain : ∀ {ns hs}, Antecedent.Plain H ns hs → ∀ h ∈ hs, h.Evaluates := by
    intro ns hs hp h hm
    obtain ⟨n, hn⟩ : ∃ n, H n = some h := by
      induction hp with
      | nil => simp at hm
      | cons hd _ ih =>
        rcases List.mem_cons.1 hm with rfl | hm
        · exact ⟨_, hd.1⟩
        · exact ih hm
    exact hH n h hn
  induction h with
  | prop p ts h =>
    cases h with
    | term x v ns hs t j hx hh ht hj =>
      obtain ⟨ts, h1, h2⟩ := e.termsOf_find hx
      have := Vocabulary.findTerm_lt hj
      rw [h2, List.length_map] at this
      exact ⟨hplain hh, ts, h1, .inr ⟨j, rfl, this⟩⟩
    | any x v ns hs n a hx hh hn ha =>
      obtain ⟨ts, h1, -⟩ := e.termsOf_find hx
      refine ⟨fun h hm => ?_, ts, h1, .inl (by simp [ha])⟩
      rcases List.mem_append.1 hm with hm | hm
      · exact hplain hh h hm
      · rw [List.mem_singleton.1 hm]
        exact hH n a hn
  | conj l r s t _ _ _ ihl ihr => exact ⟨ihl, ihr⟩
  | disj l r s t _ _ _ ihl ihr => exact ⟨ihl, ihr⟩

theorem sentence_concludes {H : HedgeFactory S} (hH : ∀ n h, H n = some h → h.Evaluates) {ps : List (Proposition S)}
    {ts : List Str} (h : Consequent.Sentence H e.world.vocabulary ps ts) : ∀ p ∈ ps, e.Concludes p := by
  have key : ∀ {p ts}, Consequent.Writes H e.world.vocabulary p ts → e.Concludes p := by
    rintro p ts ⟨x, ns, t, j, -, hx, hhs, -, hj, ht⟩
    refine ⟨fun h hm => ?_, ?_⟩
    · obtain ⟨n, hn⟩ : ∃ n, H n = some h := by
        clear ht hj hx
        generalize p.hedges = hs at *
        induction hhs with
        | nil => simp at hm
        | cons hd _ ih =>
          rcases List.mem_cons.1 hm with rfl | hm
          · exact ⟨_, hd⟩
          · exact ih hm
      exact hH n h hn
    · obtain ⟨i, hi, hlt⟩ := Vocabulary.findOutput_some hx
      have hlt' : i < e.outputs.length := by simpa [World.vocabulary, world] using hlt
      refine ⟨i, e.outputs[i], j, hi, List.getElem?_eq_getElem hlt', hj, ?_⟩
      have := Vocabulary.findTerm_lt ht
      rw [hi] at this
      simpa [Vocabulary.terms, World.vocabulary, world, List.getElem?_eq_getElem hlt'] using this
  induction h with
  | one p ts h =>
    intro q hq
    rw [List.mem_singleton.1 hq]
    exact key h
  | more ps p us ts _ h ih =>
    intro q hq
    rcases List.mem_append.1 hq with hq | hq
    · exact ih q hq
    · rw [List.mem_singleton.1 hq]
      exact key h

end Engine
end load

theorem defaultHedges_evaluate {S : Type} [Scalar S] (n : Str) (h : Hedge S) (hn : defaultHedges n = some h) : h.Evaluates := by
  obtain ⟨k, -, rfl⟩ := Option.map_eq_some_iff.1 hn
  exact Hedge.builtin_evaluates k

/-- **C61.**  An engine is sound when its rules were loaded from texts with the names of its variables and
terms, it has the operators and defuzzifiers that they need, and its terms, norms and hedges can be
evaluated. -/
theorem Engine.sound_of_loaded {S : Type} [ScalarText S] (G : Registry S) (e : Engine S)
    (hG : ∀ n h, G.hedges n = some h → h.Evaluates)
    (hload : ∀ b ∈ e.blocks, ∀ r ∈ b.rules, r.isLoaded = true → ∃ (q : Rule S) (text : Str),
      r.antecedent = (q.load G e.world.vocabulary text).1.antecedent ∧
      r.conclusions = (q.load G e.world.vocabulary text).1.conclusions)
    (heq : e.Equipped)
    (hnorm : ∀ b ∈ e.blocks, (∀ k, b.conjunction = some k → k.Evaluates) ∧ (∀ k, b.disjunction = some k → k.Evaluates) ∧
      ∀ k, b.implication = some k → k.Evaluates)
    (hagg : ∀ o ∈ e.outputs, ∀ k, o.fuzzy.aggregation = some k → k.Evaluates)
    (hterm : ∀ v ∈ e.inputs, ∀ t ∈ v.terms, t.Evaluates e.inputNames e.outputNames)
    (hserve : ∀ o ∈ e.outputs, ∀ d, o.defuzzifier = some d → d.Serves e.inputNames e.outputNames o) : e.Sound := by
  have hrule : ∀ b ∈ e.blocks, ∀ r ∈ b.rules, r.isLoaded = true →
      (∀ a, r.antecedent = some a → a.All e.Refers) ∧ ∀ p ∈ r.conclusions, e.Concludes p := by
    intro b hb r hr hl
    obtain ⟨q, text, h1, h2⟩ := hload b hb r hr hl
    rcases Rule.load_outcome G e.world.vocabulary q text with ⟨hn, -⟩ | ⟨-, -, h3, -⟩
    · obtain ⟨a, ps, w, A, C, hL, heq⟩ := (Rule.load_iff G e.world.vocabulary q (q.load G e.world.vocabulary text).1 text).1
        (by rw [← hn])
      rw [heq] at h1 h2
      obtain ⟨u, -, hser⟩ := hL.antecedent
      refine ⟨fun a' ha' => ?_, ?_⟩
      · obtain rfl : a = a' := by rw [h1] at ha'; simpa using ha'
        exact e.serial_refers hG hser
      · rw [h2]
        exact e.sentence_concludes hG hL.consequent
    · rw [h3] at h1
      simp [Rule.isLoaded, h1] at hl
  refine ⟨hterm, fun b hb r hr hl => (hrule b hb r hr hl).1, fun b hb r hr hl => (hrule b hb r hr hl).2, ?_, ?_, ?_, hagg, ?_⟩
  · intro b hb r hr _ a ha hc
    obtain ⟨k, hk⟩ := Option.isSome_iff_exists.1 (heq.conjunction b hb r hr a ha hc)
    exact ⟨k, hk, (hnorm b hb).1 k hk⟩
  · intro b hb r hr _ a ha hc
    obtain ⟨k, hk⟩ := Option.isSome_iff_exists.1 (heq.disjunction b hb r hr a ha hc)
    exact ⟨k, hk, (hnorm b hb).2.1 k hk⟩
  · intro b hb r hr hl p hp i o hv ho hint
    rcases heq.implication b hb with h | h
    · obtain ⟨k, hk⟩ := Option.isSome_iff_exists.1 h
      exact ⟨k, hk, (hnorm b hb).2.2 k hk⟩
    · exfalso
      have := h r hr
      rw [Engine.ruleRequiresImplication, hl, Bool.true_and, List.any_eq_false] at this
      have := this p hp
      simp [hv, ho, hint] at this
  · intro o ho _
    obtain ⟨d, hd⟩ := Option.isSome_iff_exists.1 (heq.output o ho).1
    exact ⟨d, hd, hserve o ho d hd⟩
/-- **C61.**  A sound engine answers every row of inputs with a value for every output variable. -/
theorem Engine.Sound.answer {S : Type} [Scalar S] [Heap S] {e : Engine S} (hs : e.Sound) (xs : List S) :
    ∃ ys, e.answer xs = .ok ys ∧ ys.length = e.outputs.length := by
  have h : (e.setInputs xs).process.2 = none :=
    Engine.Sound.process ((Engine.sound_config _).1 (by rw [Engine.setInputs_config]; exact (Engine.sound_config e).2 hs))
  have : ∃ ys, e.answer xs = .ok ys := by
    unfold Engine.answer
    revert h
    cases (e.setInputs xs).process with
    | mk q err => rintro rfl; exact ⟨_, rfl⟩
  obtain ⟨ys, hy⟩ := this
  exact ⟨ys, hy, e.answer_length xs ys hy⟩

/-- **C61.**  Running a benchmark on a sound engine fails only for a row that is too short. -/
theorem Benchmark.rows_sound {S : Type} [Scalar S] [Heap S] {e : Engine S} (hs : e.Sound) (rs : List (List S))
    (hr : ∀ r ∈ rs, e.inputs.length ≤ r.length) :
    (Benchmark.rows e rs).2 = none ∧ (Benchmark.rows e rs).1.length = rs.length := by
  induction rs with
  | nil => exact ⟨rfl, rfl⟩
  | cons r rs ih =>
    obtain ⟨ys, hy, -⟩ := hs.answer (r.take e.inputs.length)
    unfold Benchmark.rows
    rw [if_neg (by have := hr r List.mem_cons_self; omega), hy]
    obtain ⟨i1, i2⟩ := ih fun r h => hr r (List.mem_cons_of_mem _ h)
    exact ⟨i1, by simp [i2]⟩

namespace SoundDemo

local instance : Heap (Ext Rat) := RuleBlock.stableHeap _

def low : Term (Ext Rat) := ⟨cs! "low", .fin 1, .shape (.ramp (.fin 1) (.fin 0))⟩
def high : Term (Ext Rat) := ⟨cs! "high", .fin 1, .shape (.ramp (.fin 0) (.fin 1))⟩
def tri : Term (Ext Rat) := ⟨cs! "tri", .fin 1, .shape (.triangle (.fin 0) (.fin 5) (.fin 10))⟩
def constant : Term (Ext Rat) := ⟨cs! "five", .fin 1, .constant (.fin 5)⟩

/-- two inputs, an integral and a weighted output, and a block of rules -/
def engine (ts : List (Term (Ext Rat))) (d : Defuzzifier) (rules : List Str) : Engine (Ext Rat) :=
  let ins := [Variable.new (cs! "a") (.fin 0) (.fin 1) [low, high], Variable.new (cs! "b") (.fin 0) (.fin 1) [low, high]]
  let y : OutputVariable (Ext Rat) := OutputVariable.new (cs! "y") (.fin 0) (.fin 10) [tri]
  let outs := [{ y with defuzzifier := some (.integral .centroid 4),
                        fuzzy := { y.fuzzy with aggregation := some (.builtin .maximum) } },
               { OutputVariable.new (cs! "z") (.fin 0) (.fin 10) ts with defuzzifier := some d }]
  let block : RuleBlock (Ext Rat) := RuleBlock.new []
  ⟨[], [], ins, outs,
   [{ block with
      conjunction := some (.builtin .minimum), disjunction := some (.builtin .maximum),
      implication := some (.builtin .algebraicProduct), activation := some .general,
      rules := (loadRules Registry.default (World.mk ins outs).vocabulary (rules.map Rule.new)).1 }]⟩

def rules : List Str :=
  [cs! "if a is low and b is very high then y is tri", cs! "if y is tri or b is any then z is five"]

def sound : Engine (Ext Rat) := engine [constant] (.weighted .average .automatic) rules

/-- the engine satisfies the hypotheses of `Engine.sound_of_loaded` -/
theorem demo_sound : sound.Sound := by
  refine Engine.sound_of_loaded Registry.default sound defaultHedges_evaluate ?_ ⟨?_, ?_, ?_, ?_⟩ ?_ ?_ ?_ ?_
  · intro b hb r hr _
    obtain rfl := List.mem_singleton.1 hb
    rw [show (RuleBlock.rules _) = (loadRules Registry.default sound.world.vocabulary (rules.map Rule.new)).1 from rfl,
      loadRules_eq] at hr
    obtain ⟨q, -, rfl⟩ := List.mem_map.1 hr
    exact ⟨q, q.text, rfl, rfl⟩
  · decide +kernel
  · intro b hb
    obtain rfl := List.mem_singleton.1 hb
    exact .inl rfl
  · intro b hb r hr a _ _
    obtain rfl := List.mem_singleton.1 hb
    rfl
  · intro b hb r hr a _ _
    obtain rfl := List.mem_singleton.1 hb
    rfl
  · intro b hb
    obtain rfl := List.mem_singleton.1 hb
    refine ⟨?_, ?_, ?_⟩ <;> rintro _ ⟨⟩
    · exact TNorm.builtin_evaluates _
    · exact SNorm.builtin_evaluates _
    · exact TNorm.builtin_evaluates _
  · intro o ho
    rcases List.mem_cons.1 ho with rfl | ho
    · rintro _ ⟨⟩
      exact SNorm.builtin_evaluates _
    · obtain rfl := List.mem_singleton.1 ho
      rintro _ ⟨⟩
  · intro v hv t ht
    have : t = low ∨ t = high := by
      rcases List.mem_cons.1 hv with rfl | hv
      · simpa [Variable.new] using ht
      · obtain rfl := List.mem_singleton.1 hv
        simpa [Variable.new] using ht
    rcases this with rfl | rfl
    · exact Term.evaluates_iff _ _ low
    · exact Term.evaluates_iff _ _ high
  · intro o ho
    rcases List.mem_cons.1 ho with rfl | ho
    · rintro _ ⟨⟩
      refine ⟨nofun, rfl, fun t ht => ?_⟩
      obtain rfl := List.mem_singleton.1 ht
      exact Term.evaluates_iff _ _ tri
    · obtain rfl := List.mem_singleton.1 ho
      rintro _ ⟨⟩
      refine .inl fun t ht => ?_
      obtain rfl := List.mem_singleton.1 ht
      exact ⟨.inl ⟨_, rfl⟩, Term.evaluates_iff _ _ constant⟩

/-- it processes infinities and NaN as well as numbers -/
example : (∀ b ∈ sound.blocks, ∀ r ∈ b.rules, r.isLoaded = true) ∧
    (sound.setInputs [.fin (1/2), .fin (3/4)]).process.1.outputValues = [.fin 5, .fin 5] ∧
    (sound.setInputs [.nan, .pinf]).process.2 = none ∧ (sound.setInputs [.ninf, .nan]).process.2 = none := by
  decide +kernel

/-- an engine that is ready, with loaded rules, but whose terms the defuzzifier does not serve -/
theorem demo_mixed_violated :
    let e := engine [constant, low] (.weighted .average .automatic) (rules ++ [cs! "if a is high then z is low"])
    e.isReady = true ∧ (e.setInputs [.fin (1/2), .fin (3/4)]).process.2 = some .unsupported := by decide +kernel

/-- an engine that is ready, with loaded rules, and a linear term that was given no engine -/
theorem demo_linear_violated :
    let e := engine [⟨cs! "five", .fin 1, .linear [.fin 1] false⟩] (.weighted .average .automatic) rules
    e.isReady = true ∧ (e.setInputs [.fin (1/2), .fin (3/4)]).process.2 = some .evaluation := by decide +kernel

end SoundDemo
end FL
