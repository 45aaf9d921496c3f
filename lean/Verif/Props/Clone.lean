/-
C44: a cloned engine computes the same outputs.
-/
import Verif.Props.Process
import Verif.Props.RuleText

namespace FL
open Scalar
variable {S : Type}

/-! ### terms that are replaced by equivalent ones -/

section
variable [Scalar S]

def Variable.mapTerms (u : Term S → Term S) (v : Variable S) : Variable S := { v with terms := v.terms.map u }

def OutputVariable.mapTerms (u : Term S → Term S) (o : OutputVariable S) : OutputVariable S :=
  { o with terms := o.terms.map u,
           fuzzy := { o.fuzzy with terms := o.fuzzy.terms.map fun a => { a with term := u a.term } } }

def World.mapTerms (u : Term S → Term S) (w : World S) : World S :=
  ⟨w.inputs.map (Variable.mapTerms u), w.outputs.map (OutputVariable.mapTerms u)⟩

theorem World.mapTerms_ctx (u : Term S → Term S) (w : World S) : (w.mapTerms u).ctx = w.ctx := by
  simp only [World.ctx, World.mapTerms, List.map_map]
  rfl

theorem mapTerms_modifyLoop (u : Term S → Term S) (imp : Option (TNorm S)) (ps : List (Proposition S)) (w : World S) (d : S) :
    modifyLoop imp (w.mapTerms u) d ps = ((modifyLoop imp w d ps).1.mapTerms u, (modifyLoop imp w d ps).2) := by
  induction ps generalizing w d with
  | nil => rfl
  | cons p ps ih =>
    obtain ⟨v, hs, t⟩ := p
    cases v with
    | input i => rfl
    | output i =>
      cases t with
      | none => rfl
      | some j =>
        simp only [modifyLoop]
        have e1 : (w.mapTerms u).outputs[i]? = w.outputs[i]?.map (OutputVariable.mapTerms u) := by
          show (w.outputs.map _)[i]? = _
          rw [List.getElem?_map]
        rw [e1]
        cases ho : w.outputs[i]? with
        | none => rfl
        | some o =>
          simp only [Option.map_some]
          have e2 : (o.mapTerms u).enabled = o.enabled := rfl
          have e3 : (o.mapTerms u).terms[j]? = o.terms[j]?.map u := by
            show (o.terms.map u)[j]? = _
            rw [List.getElem?_map]
          rw [e2, e3]
          split
          · exact ih w d
          · cases applyHedges hs d with
            | error e => rfl
            | ok d' =>
              simp only
              cases o.terms[j]? with
              | none => rfl
              | some t =>
                simp only [Option.map_some]
                rw [← ih]
                congr 1
                show World.mk _ _ = World.mk _ _
                rw [List.map_set]
                congr 2
                simp only [OutputVariable.mapTerms, Aggregated.addTerm, List.map_append, List.map_cons, List.map_nil]

/-- the names of the variables -/
def World.names (w : World S) : List Str × List Str := (w.inputs.map fun v => v.name, w.outputs.map fun o => o.name)

def Ctx.names (c : Ctx S) : List Str × List Str := (c.inputs.map Prod.fst, c.outputs.map Prod.fst)

theorem World.names_ctx (w : World S) : w.ctx.names = w.names := by
  simp only [Ctx.names, World.names, World.ctx, List.map_map]
  rfl

/-- `u` keeps what can be observed of the term, in an engine whose variables have the given names -/
def Term.Kept (u : Term S → Term S) (names : List Str × List Str) (t : Term S) : Prop :=
  ∀ ctx : Ctx S, ctx.names = names → Term.Alike ctx ctx (u t) t

theorem mapTerms_blind (u : Term S → Term S) (I : List (Variable S)) (NO : List Str)
    (hI : ∀ v ∈ I, ∀ t ∈ v.terms, t.Kept u (I.map fun v => v.name, NO)) :
    RuleBlock.Blind (World.mapTerms u) fun w : World S => w.inputs = I ∧ (w.outputs.map fun o => o.name) = NO := by
  refine ⟨?_, ?_, ?_⟩
  · rintro w ⟨h1, h2⟩ e c d
    have hprop : ∀ p : Proposition S, p.degree (w.mapTerms u) = p.degree w := by
      intro p
      have e1 : (w.mapTerms u).isEnabled p.var = w.isEnabled p.var := by
        cases p.var with
        | input i => simp only [World.isEnabled, World.mapTerms, List.getElem?_map, Option.map_map]; rfl
        | output i => simp only [World.isEnabled, World.mapTerms, List.getElem?_map, Option.map_map]; rfl
      have e2 : ∀ j, (w.mapTerms u).termDegree p.var j = w.termDegree p.var j := by
        intro j
        cases p.var with
        | input i =>
          simp only [World.termDegree]
          have : (w.mapTerms u).inputs[i]? = w.inputs[i]?.map (Variable.mapTerms u) := by
            show (w.inputs.map _)[i]? = _
            rw [List.getElem?_map]
          rw [this]
          cases hv : w.inputs[i]? with
          | none => rfl
          | some v =>
            have e3 : (v.mapTerms u).terms[j]? = v.terms[j]?.map u := by
              show (v.terms.map u)[j]? = _
              rw [List.getElem?_map]
            simp only [Option.map_some, e3]
            cases ht : v.terms[j]? with
            | none => rfl
            | some t =>
              simp only [Option.map_some, World.mapTerms_ctx]
              refine (hI v (by rw [← h1]; exact List.mem_of_getElem? hv) t (List.mem_of_getElem? ht) w.ctx ?_).membership _
              rw [World.names_ctx, World.names, h1, h2]
        | output i =>
          simp only [World.termDegree, World.mapTerms, List.getElem?_map]
          cases w.outputs[i]? with
          | none => rfl
          | some o =>
            simp only [Option.map_some, OutputVariable.mapTerms, Aggregated.activationDegree]
            rw [List.foldlM_map]
      unfold Proposition.degree
      rw [e1]
      simp only [e2]
    induction e with
    | prop p => exact hprop p
    | conj l r ihl ihr => simp only [Expr.degree, ihl, ihr]
    | disj l r ihl ihr => simp only [Expr.degree, ihl, ihr]
  · intro w _ x imp ps
    unfold modify
    split
    · rfl
    · exact mapTerms_modifyLoop u imp ps w x
  · rintro w ⟨h1, h2⟩ x imp ps
    have := modify_frame w x imp ps
    exact ⟨this.inputs.trans h1, this.names.trans h2⟩

theorem OutputVariable.defuzzify_mapTerms (u : Term S → Term S) (ctx : Ctx S) (o : OutputVariable S)
    (h : ∀ a ∈ o.fuzzy.terms, a.term.Kept u ctx.names) :
    (o.mapTerms u).defuzzify ctx = (o.defuzzify ctx).map (OutputVariable.mapTerms u) := by
  unfold OutputVariable.defuzzify
  have e1 : (o.mapTerms u).enabled = o.enabled := rfl
  have e2 : (o.mapTerms u).defuzzifier = o.defuzzifier := rfl
  rw [e1, e2]
  split
  · rfl
  · cases o.defuzzifier with
    | none => rfl
    | some d =>
      have := d.defuzzify_alike (ctx := ctx) (ctx' := ctx) (g := (o.mapTerms u).fuzzy) (g' := o.fuzzy) o.minimum o.maximum rfl
        (by
          show List.Forall₂ _ (o.fuzzy.terms.map _) o.fuzzy.terms
          rw [List.forall₂_map_left_iff, List.forall₂_same]
          exact fun a ha => ⟨rfl, rfl, h a ha ctx rfl⟩)
      have e3 : d.defuzzify ctx (o.mapTerms u).fuzzy (o.mapTerms u).minimum (o.mapTerms u).maximum =
          d.defuzzify ctx o.fuzzy o.minimum o.maximum := this
      simp only [e3]
      cases d.defuzzify ctx o.fuzzy o.minimum o.maximum with
      | error e => rfl
      | ok z => rfl

/-- engines that differ in replaced terms, fuzzy outputs, degrees and marks of rules only, compute the same -/
theorem Engine.process_mapTerms [Heap S] (u : Term S → Term S) (e e' : Engine S) (hw : e'.cleared = e.cleared.mapTerms u)
    (hb : e'.blocks.map RuleBlock.fresh = e.blocks.map RuleBlock.fresh)
    (hi : ∀ v ∈ e.inputs, ∀ t ∈ v.terms, t.Kept u e.world.names)
    (ho : ∀ o ∈ e.outputs, ∀ t ∈ o.terms, t.Kept u e.world.names) :
    e'.process.2 = e.process.2 ∧ (e.process.2 = none → e'.process.1.outputs = e.process.1.outputs.map (OutputVariable.mapTerms u)) := by
  have hnc : (e.cleared.outputs.map fun o => o.name) = e.outputs.map fun o => o.name := by
    simp only [cleared, List.map_map]; rfl
  have hblind := mapTerms_blind u e.inputs (e.outputs.map fun o : OutputVariable S => o.name) hi
  have k := activateBlocks_fresh e.blocks e.cleared
  have k' := activateBlocks_fresh e'.blocks e'.cleared
  have b1 := (activateBlocks_blind hblind (e.blocks.map RuleBlock.fresh) e.cleared ⟨rfl, hnc⟩).1
  rw [hw, hb, b1] at k'
  have ew : (activateBlocks e'.cleared e'.blocks).1 = (activateBlocks e.cleared e.blocks).1.mapTerms u := by
    rw [hw, ← k'.1, ← k.1]
  have ee : (activateBlocks e'.cleared e'.blocks).2.2 = (activateBlocks e.cleared e.blocks).2.2 := by
    rw [hw, ← k'.2, ← k.2]
  have hf := activateBlocks_frame e.blocks e.cleared
  have hinputs : (activateBlocks e.cleared e.blocks).1.inputs = e.inputs := hf.inputs
  have hterms : ∀ o ∈ (activateBlocks e.cleared e.blocks).1.outputs, ∀ a ∈ o.fuzzy.terms, a.term.Kept u e.world.names := by
    intro o hmem
    obtain ⟨i, hi', rfl⟩ := List.mem_iff_getElem.1 hmem
    have hfo := hf.outputs
    have hi0 : i < e.cleared.outputs.length := by rw [hfo.length_eq]; exact hi'
    obtain ⟨-, -, l, q2, q3⟩ := (List.forall₂_iff_get.1 hfo).2 i hi0 hi'
    have hi1 : i < e.outputs.length := by simpa [cleared] using hi0
    have hc : e.cleared.outputs[i] = { e.outputs[i] with fuzzy := e.outputs[i].fuzzy.clear } := by simp [cleared]
    simp only [List.get_eq_getElem] at q2 q3
    rw [hc] at q2 q3
    have q2' : (activateBlocks e.cleared e.blocks).1.outputs[i].fuzzy.terms = l := q2
    rw [q2']
    exact fun a ha => ho _ (List.getElem_mem hi1) _ (q3 a ha)
  rw [process_eq, process_eq, ee, ew]
  cases herr : (activateBlocks e.cleared e.blocks).2.2 with
  | some err => exact ⟨rfl, fun h => (by simp at h)⟩
  | none =>
    have e1 : ((activateBlocks e.cleared e.blocks).1.mapTerms u).inputs = e.inputs.map (Variable.mapTerms u) := by
      show List.map _ _ = _
      rw [hinputs]
    have e2 : ((activateBlocks e.cleared e.blocks).1.mapTerms u).outputs =
        (activateBlocks e.cleared e.blocks).1.outputs.map (OutputVariable.mapTerms u) := rfl
    simp only [e1, e2, hinputs]
    have key := defuzzifyAll_rel e.inputs (e.inputs.map (Variable.mapTerms u)) (e.outputs.map fun o => o.name)
      (fun o o' : OutputVariable S => o' = o.mapTerms u ∧ ∀ a ∈ o.fuzzy.terms, a.term.Kept u e.world.names)
      (fun q q' : OutputVariable S => q' = q.mapTerms u)
      (by
        rintro done done' o o' os os' hd ⟨rfl, h1⟩ hos n1 n2
        have hdone : done' = done.map (OutputVariable.mapTerms u) := by
          clear n1 n2
          induction hd with
          | nil => rfl
          | cons h _ ih => rw [h, ih]; rfl
        have hos' : os' = os.map (OutputVariable.mapTerms u) := by
          clear n1 n2
          induction hos with
          | nil => rfl
          | cons h _ ih => rw [h.1, ih]; rfl
        have hctx : World.ctx ⟨e.inputs.map (Variable.mapTerms u), done' ++ o.mapTerms u :: os'⟩ =
            World.ctx ⟨e.inputs, done ++ o :: os⟩ := by
          rw [← World.mapTerms_ctx u ⟨e.inputs, done ++ o :: os⟩, hdone, hos']
          simp only [World.mapTerms, List.map_append, List.map_cons]
        rw [hctx, OutputVariable.defuzzify_mapTerms u _ o (by
          rw [World.names_ctx]
          intro a ha
          have := h1 a ha
          unfold World.names at this ⊢
          rw [n1]
          exact this)]
        cases o.defuzzify (World.ctx ⟨e.inputs, done ++ o :: os⟩) with
        | error x => exact Or.inl ⟨x, rfl, rfl⟩
        | ok q => exact Or.inr ⟨q, q.mapTerms u, rfl, rfl, rfl⟩)
      (os := (activateBlocks e.cleared e.blocks).1.outputs)
      (os' := (activateBlocks e.cleared e.blocks).1.outputs.map (OutputVariable.mapTerms u))
      (by rw [List.forall₂_map_right_iff, List.forall₂_same]; exact fun o ho => ⟨rfl, hterms o ho⟩)
      (done := []) (done' := []) .nil (by rw [List.nil_append, hf.names, hnc])
      (by rw [List.nil_append, List.map_map, ← hnc, ← hf.names]; rfl)
    refine ⟨key.1.symm, fun hn => ?_⟩
    have := key.2 hn
    clear key
    revert this
    generalize (defuzzifyAll e.inputs [] (activateBlocks e.cleared e.blocks).1.outputs).1 = l
    generalize (defuzzifyAll (e.inputs.map (Variable.mapTerms u)) []
      ((activateBlocks e.cleared e.blocks).1.outputs.map (OutputVariable.mapTerms u))).1 = l'
    intro h
    show l' = l.map _
    induction h with
    | nil => rfl
    | cons h _ ih => rw [h, ih]; rfl

end

/-! ### the clone -/

section
variable [ScalarText S]

/-- the references of the term are up to date: as `Engine::updateReferences` leaves them, and without
formulas that were set but not loaded -/
def Term.Current (F : ElementFactory S) (t : Term S) : Prop :=
  (∀ c b, t.kind = .linear c b → b = true) ∧
  ∀ f, t.kind = .function f → f.hasEngine = true ∧ ∀ root, Formula.parse F f.formula = .ok root → f.root = some root

theorem Term.Current.kept {F : ElementFactory S} {t : Term S} (h : t.Current F) (c0 : Ctx S) :
    t.Kept (Engine.updateTerm F c0) c0.names := by
  intro ctx hctx
  obtain ⟨h1, h2⟩ := h
  have hn1 : ctx.inputs.map Prod.fst = c0.inputs.map Prod.fst := congrArg Prod.fst hctx
  have hn2 : ctx.outputs.map Prod.fst = c0.outputs.map Prod.fst := congrArg Prod.snd hctx
  obtain ⟨n, ht, k⟩ := t
  cases k with
  | shape s => exact ⟨rfl, fun _ => rfl, fun _ => rfl, rfl⟩
  | discrete xy => exact ⟨rfl, fun _ => rfl, fun _ => rfl, rfl⟩
  | constant v => exact ⟨rfl, fun _ => rfl, fun _ => rfl, rfl⟩
  | linear c b =>
    obtain rfl := h1 c b rfl
    exact ⟨rfl, fun _ => rfl, fun _ => rfl, rfl⟩
  | function f =>
    obtain ⟨he, hr⟩ := h2 f rfl
    refine ⟨rfl, fun x => ?_, fun _ => rfl, rfl⟩
    show (f.updateReference F c0).membership ctx x = f.membership ctx x
    obtain ⟨formula, root, eng, vars⟩ := f
    simp only at he hr
    subst he
    unfold Fun.updateReference Fun.load
    simp only
    cases hp : Formula.parse F formula with
    | error e => rfl
    | ok r =>
      obtain rfl := hr r hp
      simp only
      have hs := Fun.membership_stateless ⟨formula, some r, true, vars⟩ c0 ctx (Scalar.ofRat 0) x hn1 hn2
      rw [← hs]
      cases (Fun.membershipS ⟨formula, some r, true, vars⟩ c0 (Scalar.ofRat 0)).1 <;> rfl

/-- the rule is as loading its text leaves a new rule, apart from degree and mark: it was not disabled,
given a weight, or given another text since -/
def Rule.AsLoaded (G : Registry S) (V : Vocabulary) (r : Rule S) : Prop :=
  ∃ w, r.deactivate = (({ Rule.new r.text with weight := w } : Rule S).load G V r.text).1.deactivate

theorem Rule.AsLoaded.clone {G : Registry S} {V : Vocabulary} {r : Rule S} (h : r.AsLoaded G V) :
    (r.clone.load G V r.clone.text).1.deactivate = r.deactivate := by
  obtain ⟨w, hw⟩ := h
  cases hl : (({ Rule.new r.text with weight := w } : Rule S).load G V r.text).2 with
  | none =>
    have : r.clone.load G V r.text = _ := Rule.load_text_only G V _ r.clone r.text hl
    show (r.clone.load G V r.text).1.deactivate = _
    rw [this, hw]
  | some err =>
    have hweight : r.weight = w := by
      have : r.weight = (({ Rule.new r.text with weight := w } : Rule S).load G V r.text).1.deactivate.weight := by rw [← hw]; rfl
      rw [this]
      revert hl
      unfold Rule.load
      simp only
      split
      · intro; rfl
      · split
        · intro; rfl
        · split
          · intro; rfl
          · intro h; simp at h
    have e1 : r.clone.load G V r.text = (({ Rule.new r.text with weight := w } : Rule S).load G V r.text) := by
      rw [← hweight]; rfl
    show (r.clone.load G V r.text).1.deactivate = _
    rw [e1, hw]

theorem Engine.updateTerm_name (F : ElementFactory S) (c : Ctx S) (t : Term S) : (updateTerm F c t).name = t.name := by
  unfold updateTerm; split <;> rfl

theorem Engine.clone_ctx (e : Engine S) : (World.mk e.inputs (e.outputs.map cloneOutput)).ctx = e.world.ctx := by
  simp only [World.ctx, world, List.map_map]
  rfl

theorem Engine.clone_vocabulary (F : ElementFactory S) (e : Engine S) :
    (updateReferences F ⟨e.inputs, e.outputs.map cloneOutput⟩).vocabulary = e.world.vocabulary := by
  simp only [World.vocabulary, updateReferences, world, List.map_map]
  congr 1 <;>
  · apply List.map_congr_left
    intro v _
    simp only [Function.comp_apply, List.map_map, cloneOutput, Prod.mk.injEq, true_and]
    apply List.map_congr_left
    intro t _
    exact updateTerm_name _ _ _

/-- C44: the configuration of the copy: variables and blocks are those of the original, with terms
whose references are updated and rules that are loaded anew from their texts. -/
theorem Engine.clone_spec (G : Registry S) (e : Engine S) :
    (e.clone G).name = e.name ∧ (e.clone G).description = e.description ∧
    (e.clone G).inputs = e.inputs.map (Variable.mapTerms (updateTerm G.functions e.world.ctx)) ∧
    (e.clone G).cleared.outputs = (e.cleared.mapTerms (updateTerm G.functions e.world.ctx)).outputs ∧
    (e.clone G).blocks = e.blocks.map fun b =>
      { b with rules := b.rules.map fun r => (r.clone.load G e.world.vocabulary r.text).1 } := by
  refine ⟨rfl, rfl, ?_, ?_, ?_⟩
  · unfold clone updateReferences
    simp only [clone_ctx]
    rfl
  · unfold clone updateReferences cleared World.mapTerms
    simp only [clone_ctx, List.map_map]
    rfl
  · unfold clone
    simp only [clone_vocabulary]
    apply List.map_congr_left
    intro b _
    simp only [RuleBlock.loadRules, RuleBlock.clone, loadRules_eq, List.map_map]
    rfl

/-- **C44 (partial).**  A copy, given the same inputs, reports the same exception or the same values of
all output variables as the original, provided that the references of terms are up to date and that
the rules are as loading their texts leaves them.  Missing: rules disabled or given a weight by the
program, for which the claim is false (`clone_enabled_violated`, `clone_weight_violated`), and rules or
formulas that were changed but not loaded. -/
theorem Engine.clone_partial [Heap S] (G : Registry S) (e : Engine S) (xs : List S)
    (hi : ∀ v ∈ e.inputs, ∀ t ∈ v.terms, t.Current G.functions)
    (ho : ∀ o ∈ e.outputs, ∀ t ∈ o.terms, t.Current G.functions)
    (hr : ∀ b ∈ e.blocks, ∀ r ∈ b.rules, r.AsLoaded G e.world.vocabulary) :
    ((e.clone G).setInputs xs).process.2 = (e.setInputs xs).process.2 ∧
    ((e.setInputs xs).process.2 = none →
      ((e.clone G).setInputs xs).process.1.outputValues = (e.setInputs xs).process.1.outputValues) := by
  obtain ⟨-, -, c1, c2, c3⟩ := e.clone_spec G
  have hnames : (e.setInputs xs).world.names = e.world.ctx.names := by
    rw [World.names_ctx]
    show ((e.setInputs xs).inputs.map _, _) = (e.inputs.map _, _)
    congr 1
    unfold setInputs
    apply List.ext_getElem?
    intro i
    simp only [List.getElem?_map, List.getElem?_append, List.length_zipWith, List.getElem?_zipWith, List.getElem?_drop]
    by_cases hix : i < xs.length
    · by_cases hiv : i < e.inputs.length
      · simp [hix, hiv, Variable.setValue]
      · have : ¬ i < min e.inputs.length xs.length := by omega
        rw [if_neg this]
        have h1 : e.inputs[i]? = none := List.getElem?_eq_none (by omega)
        rw [h1, List.getElem?_eq_none (by omega)]
    · by_cases hiv : i < e.inputs.length
      · have : ¬ i < min e.inputs.length xs.length := by omega
        rw [if_neg this]
        congr 2
        omega
      · have : ¬ i < min e.inputs.length xs.length := by omega
        rw [if_neg this]
        have h1 : e.inputs[i]? = none := List.getElem?_eq_none (by omega)
        rw [h1, List.getElem?_eq_none (by omega)]
  have key := process_mapTerms (updateTerm G.functions e.world.ctx) (e.setInputs xs) ((e.clone G).setInputs xs) (by
      show World.mk _ _ = World.mk _ _
      rw [World.mk.injEq]
      refine ⟨?_, c2⟩
      unfold setInputs
      simp only [c1, cleared, List.map_append, List.map_drop, List.map_zipWith, List.zipWith_map_left]
      rfl)
    (by
      show (e.clone G).blocks.map _ = e.blocks.map _
      rw [c3, List.map_map]
      apply List.map_congr_left
      intro b hb
      simp only [Function.comp_apply, RuleBlock.fresh, List.map_map]
      congr 1
      apply List.map_congr_left
      intro r hrb
      exact (hr b hb r hrb).clone)
    (by
      rw [hnames]
      intro v hv t ht
      obtain ⟨u, hu, huv⟩ := e.setInputs_terms xs hv
      exact (hi u hu t (huv ▸ ht)).kept _)
    (by
      rw [hnames]
      exact fun o h t ht => (ho o h t ht).kept _)
  refine ⟨key.1, fun h => ?_⟩
  unfold outputValues
  rw [key.2 h, List.map_map]
  rfl

end

namespace CloneDemo

def low : Term (Ext Rat) := ⟨cs! "low", .fin 1, .shape (.ramp (.fin 1) (.fin 0))⟩

/-- an engine with two rules, and a formula that reads the input -/
def engine (texts : List Str) : Engine (Ext Rat) :=
  let ins := [{ Variable.new (cs! "a") (.fin 0) (.fin 1) [low] with value := .fin (1/4) }]
  let outs := [{ OutputVariable.new (cs! "y") (.fin 0) (.fin 10)
      [⟨cs! "t", .fin 1, .constant (.fin 5)⟩,
       ⟨cs! "f", .fin 1, .function (Fun.updateReference defaultFactory ⟨cs! "a * 8", none, false, fun _ => none⟩
         ⟨[(cs! "a", .fin 0)], [(cs! "y", .nan)]⟩)⟩] with defuzzifier := some (.weighted .sum .takagiSugeno) }]
  ⟨[], [], ins, outs,
   [{ RuleBlock.new [] with rules := (loadRules Registry.default (World.mk ins outs).vocabulary (texts.map Rule.new)).1 }]⟩

def texts : List Str := [cs! "if a is low then y is t with 0.5", cs! "if a is not low then y is f"]

local instance : Heap (Ext Rat) := RuleBlock.stableHeap _

/-- the copy of an engine as loaded computes the same: 3/4 · 1/2 · 5 + 1/4 · 2 -/
example : (engine texts).process.2 = none ∧ (engine texts).process.1.outputValues = [.fin (19/8)] ∧
    ((engine texts).clone Registry.default).process.1.outputValues = [.fin (19/8)] ∧
    (((engine texts).process.1.clone Registry.default).setInputs [.fin (1/2)]).process.1.outputValues =
      ((engine texts).setInputs [.fin (1/2)]).process.1.outputValues := by decide +kernel

/-- the hypothesis on rules holds after loading, whatever the texts, and also after processing -/
example (r : Rule (Ext Rat)) (V : Vocabulary) (text : Str)
    (h : r.deactivate = ((Rule.new text).load Registry.default V text).1.deactivate) (ht : r.text = text) :
    r.AsLoaded Registry.default V := by subst ht; exact ⟨lit 1, h⟩

def modifyFirst (f : Rule (Ext Rat) → Rule (Ext Rat)) (e : Engine (Ext Rat)) : Engine (Ext Rat) :=
  { e with blocks := e.blocks.map fun b => { b with rules := b.rules.modify 0 f } }

/-- C44 is violated by a disabled rule, which is enabled in the copy. -/
theorem clone_enabled_violated :
    let e := modifyFirst (fun r => { r with enabled := false }) (engine texts)
    e.process.2 = none ∧ (e.clone Registry.default).process.2 = none ∧
    e.process.1.outputValues = [.fin (1/2)] ∧ (e.clone Registry.default).process.1.outputValues = [.fin (19/8)] := by
  decide +kernel

/-- C44 is violated by a weight set by `Rule::setWeight`, which the copy takes from the text instead. -/
theorem clone_weight_violated :
    let e := modifyFirst (fun r => { r with weight := .fin 1 }) (engine texts)
    e.process.2 = none ∧ (e.clone Registry.default).process.2 = none ∧
    e.process.1.outputValues = [.fin (17/4)] ∧ (e.clone Registry.default).process.1.outputValues = [.fin (19/8)] := by
  decide +kernel

end CloneDemo
end FL
