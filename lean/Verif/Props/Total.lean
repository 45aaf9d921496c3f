/-
C61: well-formed engines never fail.
-/
import Verif.Props.Process
import Verif.Props.Discrete
import Verif.Props.Weighted

namespace FL
open Scalar
variable {S : Type} [Scalar S]

/-! ### what can be evaluated -/

/-- the term has a membership for every value, whatever the values of variables with these names -/
def Term.Evaluates (ins outs : List Str) (t : Term S) : Prop :=
  ∀ ctx : Ctx S, ctx.inputs.map Prod.fst = ins → ctx.outputs.map Prod.fst = outs → ∀ x, ∃ y, t.membership ctx x = .ok y

def TNorm.Evaluates (k : TNorm S) : Prop := ∀ a b, ∃ c, k.compute a b = .ok c

def SNorm.Evaluates (k : SNorm S) : Prop := ∀ a b, ∃ c, k.compute a b = .ok c

def Hedge.Evaluates (h : Hedge S) : Prop := ∀ x, ∃ y, h.hedge x = .ok y

/-- a property of all propositions of an expression -/
def Expr.All (P : Proposition S → Prop) : Expr S → Prop
  | .prop p => P p
  | .conj l r => l.All P ∧ r.All P
  | .disj l r => l.All P ∧ r.All P

/-- the terms of a variable of the engine -/
def Engine.termsOf (e : Engine S) : VarRef → Option (List (Term S))
  | .input i => e.inputs[i]?.map Variable.terms
  | .output i => e.outputs[i]?.map fun o => o.terms

/-- the proposition is about a variable of the engine and, unless its last hedge is `any`, about one of
the terms of the variable -/
def Engine.Refers (e : Engine S) (p : Proposition S) : Prop :=
  (∀ h ∈ p.hedges, h.Evaluates) ∧ ∃ ts, e.termsOf p.var = some ts ∧
    ((p.hedges.getLast?.map Hedge.isAny).getD false = true ∨ ∃ j, p.term = some j ∧ j < ts.length)

/-- the conclusion is about an output variable of the engine and one of its terms -/
def Engine.Concludes (e : Engine S) (p : Proposition S) : Prop :=
  (∀ h ∈ p.hedges, h.Evaluates) ∧ ∃ i o j, p.var = .output i ∧ e.outputs[i]? = some o ∧ p.term = some j ∧ j < o.terms.length

/-- the defuzzifier can deal with every fuzzy output of the variable -/
def Defuzzifier.Serves (ins outs : List Str) (o : OutputVariable S) : Defuzzifier → Prop
  | .integral k r => (k = .bisector → 0 ≤ r) ∧ o.fuzzy.aggregation.isSome = true ∧ ∀ t ∈ o.terms, t.Evaluates ins outs
  | .weighted _ .takagiSugeno => ∀ t ∈ o.terms, t.Evaluates ins outs
  | .weighted _ .tsukamoto => ∀ t ∈ o.terms, t.isMonotonic = true
  | .weighted _ .automatic =>
    (∀ t ∈ o.terms, Weighted.IsSugeno t ∧ t.Evaluates ins outs) ∨ ∀ t ∈ o.terms, t.isMonotonic = true

def Engine.inputNames (e : Engine S) : List Str := e.inputs.map fun v => v.name
def Engine.outputNames (e : Engine S) : List Str := e.outputs.map fun o => o.name

/-- Everything the engine uses is there and can be evaluated. -/
structure Engine.Sound (e : Engine S) : Prop where
  terms : ∀ v ∈ e.inputs, ∀ t ∈ v.terms, t.Evaluates e.inputNames e.outputNames
  antecedent : ∀ b ∈ e.blocks, ∀ r ∈ b.rules, r.isLoaded = true → ∀ a, r.antecedent = some a → a.All e.Refers
  conclusions : ∀ b ∈ e.blocks, ∀ r ∈ b.rules, r.isLoaded = true → ∀ p ∈ r.conclusions, e.Concludes p
  conjunction : ∀ b ∈ e.blocks, ∀ r ∈ b.rules, r.isLoaded = true → ∀ a, r.antecedent = some a → a.hasConj = true →
    ∃ k, b.conjunction = some k ∧ k.Evaluates
  disjunction : ∀ b ∈ e.blocks, ∀ r ∈ b.rules, r.isLoaded = true → ∀ a, r.antecedent = some a → a.hasDisj = true →
    ∃ k, b.disjunction = some k ∧ k.Evaluates
  implication : ∀ b ∈ e.blocks, ∀ r ∈ b.rules, r.isLoaded = true → ∀ p ∈ r.conclusions, ∀ i o, p.var = .output i → e.outputs[i]? = some o →
    Engine.isIntegral o.defuzzifier = true → ∃ k, b.implication = some k ∧ k.Evaluates
  aggregation : ∀ o ∈ e.outputs, ∀ k, o.fuzzy.aggregation = some k → k.Evaluates
  defuzzifier : ∀ o ∈ e.outputs, o.enabled = true → ∃ d, o.defuzzifier = some d ∧ d.Serves e.inputNames e.outputNames o

theorem bind_succeeds {α β : Type} {x : Except Err α} (h : ∃ a, x = .ok a) (f : α → Except Err β)
    (hf : ∀ a, ∃ b, f a = .ok b) : ∃ b, (x >>= f) = .ok b := by
  obtain ⟨a, rfl⟩ := h
  exact hf a

/-! ### activation methods -/

namespace RuleBlock

/-- a loop over rules succeeds when its body does -/
theorem eachRule_ok {σ : Type} {f : σ → Rule S → σ × Rule S × Option Err} (I : σ → Prop) (rs : List (Rule S))
    (h : ∀ s, I s → ∀ r ∈ rs, (f s r).2.2 = none ∧ I (f s r).1) (s : σ) (hs : I s) :
    (eachRule f s rs).2.2 = none ∧ I (eachRule f s rs).1 := by
  induction rs generalizing s with
  | nil => exact ⟨rfl, hs⟩
  | cons r rs ih =>
    obtain ⟨h1, h2⟩ := h s hs r List.mem_cons_self
    rw [eachRule_cons, h1]
    exact ih (fun s hs r hr => h s hs r (List.mem_cons_of_mem _ hr)) _ h2

variable (I : World S → Prop) (b : RuleBlock S)

theorem activateWith_ok (r : Rule S) (w : World S) (hl : r.isLoaded = true)
    (hd : ∀ a, r.antecedent = some a → ∃ d, a.degree w b.conjunction b.disjunction = .ok d) :
    (r.activateWith w b.conjunction b.disjunction).2 = none := by
  unfold Rule.activateWith
  rw [hl]
  simp only [Bool.not_true, Bool.false_eq_true, if_false]
  cases ha : r.antecedent with
  | none => simp [Rule.isLoaded, ha] at hl
  | some a =>
    obtain ⟨d, hd⟩ := hd a ha
    simp only [hd]

theorem trigger_ok (r : Rule S) (w : World S) (hl : r.isLoaded = true) (hw : I w)
    (hm : ∀ d, (modify w d b.implication r.conclusions).2 = none ∧ I (modify w d b.implication r.conclusions).1) :
    (r.trigger w b.implication).2.2 = none ∧ I (r.trigger w b.implication).1 := by
  unfold Rule.trigger
  rw [hl]
  simp only [Bool.not_true, Bool.false_eq_true, if_false]
  split
  · have h := hm r.degree
    cases hmod : modify w r.degree b.implication r.conclusions with
    | mk w' x =>
      rw [hmod] at h
      obtain ⟨rfl, h2⟩ := h
      exact ⟨rfl, h2⟩
  · exact ⟨rfl, hw⟩

/-- triggering loaded rules by valid indices succeeds -/
theorem triggerAll_succeeds (rs : List (Rule S)) (is : List Nat) (w : World S) (hw : I w)
    (hm : ∀ r ∈ rs, r.isLoaded = true → ∀ w, I w → ∀ d,
      (modify w d b.implication r.conclusions).2 = none ∧ I (modify w d b.implication r.conclusions).1)
    (his : ∀ i ∈ is, ∃ r, rs[i]? = some r ∧ r.isLoaded = true) :
    (triggerAll b.implication w rs is).2.2 = none ∧ I (triggerAll b.implication w rs is).1 := by
  induction is generalizing w rs with
  | nil => exact ⟨rfl, hw⟩
  | cons i is ih =>
    obtain ⟨r, hr, hl⟩ := his i List.mem_cons_self
    have hmem := List.mem_of_getElem? hr
    obtain ⟨h1, h2⟩ := b.trigger_ok I r w hl hw (hm r hmem hl w hw)
    have hf := (Rule.trigger_frame w b.implication r).1
    rw [triggerAll_cons, hr]
    simp only [h1]
    refine ih _ _ h2 ?_ ?_
    · intro q hq hql
      rcases List.mem_or_eq_of_mem_set hq with hq | rfl
      · exact hm q hq hql
      · rw [hf.conclusions]
        exact hm r hmem hl
    · intro k hk
      obtain ⟨q, hq, hql⟩ := his k (List.mem_cons_of_mem _ hk)
      rw [List.getElem?_set]
      by_cases hik : i = k
      · subst hik
        rw [if_pos rfl, if_pos (List.getElem?_eq_some_iff.1 hr).1]
        exact ⟨_, rfl, hf.isLoaded.trans hl⟩
      · rw [if_neg hik]
        exact ⟨q, hq, hql⟩

/-- the indices of candidates are those of loaded rules -/
theorem candidates_loaded (rs : List (Rule S)) (c : Nat × S) (hc : c ∈ candidates rs) :
    ∃ r, rs[c.1]? = some r ∧ r.isLoaded = true := by
  unfold candidates at hc
  obtain ⟨p, hp, h⟩ := List.mem_filterMap.1 hc
  split at h
  · rename_i hcond
    rw [Bool.and_eq_true] at hcond
    obtain ⟨i, hi, rfl⟩ := List.mem_iff_getElem.1 hp
    simp only [List.getElem_zip, List.getElem_range, Option.some.injEq] at h hcond
    subst h
    simp only [List.length_zip, List.length_range, Nat.min_self] at hi
    exact ⟨rs[i], List.getElem?_eq_getElem hi, hcond.1⟩
  · simp at h

/-- if degrees can be computed and consequents applied, then every activation method succeeds -/
theorem activateBy_ok [Heap S]
    (hd : ∀ r ∈ b.rules, r.isLoaded = true → ∀ a, r.antecedent = some a → ∀ w, I w →
      ∃ d, a.degree w b.conjunction b.disjunction = .ok d)
    (hm : ∀ r ∈ b.rules, r.isLoaded = true → ∀ w, I w → ∀ d,
      (modify w d b.implication r.conclusions).2 = none ∧ I (modify w d b.implication r.conclusions).1)
    (a : Activation S) (w : World S) (hw : I w) : (b.activateBy a w).2.2 = none ∧ I (b.activateBy a w).1 := by
  have hsel : ∀ choose rs, (∀ r ∈ rs, r ∈ b.rules) →
      (eachRule (b.selectStep choose) (w, 0) rs).2.2 = none ∧ I (eachRule (b.selectStep choose) (w, 0) rs).1.1 := by
    intro choose rs hrs
    refine eachRule_ok (fun s : World S × Nat => I s.1) rs ?_ (w, 0) hw
    intro s hs r hr
    unfold selectStep
    simp only
    cases hl : r.deactivate.isLoaded with
    | false => exact ⟨rfl, hs⟩
    | true =>
      simp only [Bool.not_true, Bool.false_eq_true, if_false]
      have hl' : r.isLoaded = true := hl
      have h1 := b.activateWith_ok r.deactivate s.1 hl fun a ha => hd r (hrs r hr) hl' a ha s.1 hs
      have hf := Rule.activateWith_frame s.1 b.conjunction b.disjunction r.deactivate
      revert h1 hf
      cases r.deactivate.activateWith s.1 b.conjunction b.disjunction with
      | mk q x =>
        rintro rfl hf
        have hq : q.isLoaded = true := hf.1.isLoaded.trans hl
        have h2 := b.trigger_ok I q s.1 hq hs (by
          rw [show q.conclusions = r.conclusions from hf.1.conclusions]
          exact hm r (hrs r hr) hl' s.1 hs)
        simp only
        split
        · revert h2
          cases q.trigger s.1 b.implication with
          | mk w' p =>
            obtain ⟨q', x⟩ := p
            rintro ⟨rfl, h2⟩
            exact ⟨rfl, h2⟩
        · exact ⟨rfl, hs⟩
  have hdeg : (eachRule b.degreeStep w b.rules).2.2 = none ∧ (eachRule b.degreeStep w b.rules).1 = w := by
    refine eachRule_ok (fun s : World S => s = w) b.rules ?_ w rfl
    rintro _ rfl r hr
    refine ⟨?_, (b.degreeStep_frame _ r).2.2⟩
    unfold degreeStep
    simp only
    cases hl : r.deactivate.isLoaded with
    | false => rfl
    | true =>
      simp only [Bool.not_true, Bool.false_eq_true, if_false]
      exact b.activateWith_ok r.deactivate _ hl fun a ha => hd r hr hl a ha _ hw
  have hrules := eachRule_rules (f := b.degreeStep) Rule.Frame Rule.Frame.refl b.rules
    (fun s r _ => (b.degreeStep_frame s r).1) w
  have hm' : ∀ q ∈ (eachRule b.degreeStep w b.rules).2.1, q.isLoaded = true → ∀ w, I w → ∀ d,
      (modify w d b.implication q.conclusions).2 = none ∧ I (modify w d b.implication q.conclusions).1 := by
    intro q hq hql
    obtain ⟨r, hr, hf⟩ : ∃ r ∈ b.rules, Rule.Frame r q := by
      obtain ⟨i, hi, rfl⟩ := List.mem_iff_getElem.1 hq
      have hlen := hrules.length_eq
      exact ⟨b.rules[i], List.getElem_mem _, (List.forall₂_iff_get.1 hrules).2 i (by omega) hi⟩
    rw [hf.conclusions]
    exact hm r hr (by rw [← hf.isLoaded]; exact hql)
  have hord : ∀ less n, (b.activateOrdered less n w).2.2 = none ∧ I (b.activateOrdered less n w).1 := by
    intro less n
    unfold activateOrdered
    revert hdeg hm'
    cases eachRule b.degreeStep w b.rules with
    | mk w1 p =>
      obtain ⟨rs, x⟩ := p
      rintro ⟨rfl, rfl⟩ hm'
      refine b.triggerAll_succeeds I rs _ _ hw hm' ?_
      intro i hi
      obtain ⟨k, -, hk⟩ := List.mem_filterMap.1 (List.mem_of_mem_take hi)
      obtain ⟨c, hc, rfl⟩ := Option.map_eq_some_iff.1 hk
      exact candidates_loaded rs c (List.mem_of_getElem? hc)
  cases a with
  | general => exact hsel _ _ fun _ h => h
  | first n t => exact hsel _ _ fun _ h => h
  | last n t => exact hsel _ _ fun _ h => List.mem_reverse.1 h
  | highest n => exact hord _ _
  | lowest n => exact hord _ _
  | threshold c v => exact hsel _ _ fun _ h => h
  | proportional =>
    show (b.activateProportional w).2.2 = none ∧ I (b.activateProportional w).1
    unfold activateProportional
    revert hdeg hm'
    cases eachRule b.degreeStep w b.rules with
    | mk w1 p =>
      obtain ⟨rs, x⟩ := p
      rintro ⟨rfl, rfl⟩ hm'
      refine eachRule_ok I rs ?_ _ hw
      intro s hs r hr
      unfold proportionalStep
      cases hl : r.isLoaded with
      | false => exact ⟨rfl, hs⟩
      | true =>
        simp only [Bool.not_true, Bool.false_eq_true, if_false]
        exact b.trigger_ok I _ s hl hs (hm' r hr hl s hs)

end RuleBlock

/-! ### propositions and conclusions -/

theorem foldlM_ok {α β : Type} {f : β → α → Except Err β} {l : List α} (h : ∀ b, ∀ a ∈ l, ∃ c, f b a = .ok c) (b : β) :
    ∃ c, l.foldlM f b = .ok c := by
  induction l generalizing b with
  | nil => exact ⟨b, rfl⟩
  | cons a l ih =>
    obtain ⟨c, hc⟩ := h b a List.mem_cons_self
    rw [List.foldlM_cons, hc]
    exact ih (fun b a ha => h b a (List.mem_cons_of_mem _ ha)) c

theorem mapM_ok {α β : Type} {f : α → Except Err β} {l : List α} (h : ∀ a ∈ l, ∃ b, f a = .ok b) :
    ∃ bs, l.mapM f = .ok bs := by
  induction l with
  | nil => exact ⟨[], rfl⟩
  | cons a l ih =>
    obtain ⟨b, hb⟩ := h a List.mem_cons_self
    obtain ⟨bs, hbs⟩ := ih fun a ha => h a (List.mem_cons_of_mem _ ha)
    exact ⟨b :: bs, by rw [List.mapM_cons, hb, hbs]; rfl⟩

theorem applyHedges_ok {hs : List (Hedge S)} (h : ∀ k ∈ hs, k.Evaluates) (x : S) : ∃ y, applyHedges hs x = .ok y :=
  foldlM_ok (fun b a ha => h a (List.mem_reverse.1 ha) b) x

/-- what remains true of the variables while the rules of a sound engine are activated: they are those
of the engine, with activated terms of their own, which have an implication where one is needed -/
def Engine.Active (e : Engine S) (w : World S) : Prop :=
  e.cleared.Frame w ∧ ∀ o ∈ w.outputs, Engine.isIntegral o.defuzzifier = true →
    ∀ a ∈ o.fuzzy.terms, ∃ k, a.implication = some k ∧ k.Evaluates

namespace Engine
variable {e : Engine S}

theorem Active.inputs {w : World S} (h : e.Active w) : w.inputs = e.inputs := h.1.inputs

/-- the output variables are those of the engine up to the fuzzy output -/
theorem Active.output {w : World S} (h : e.Active w) (i : Nat) :
    (w.outputs[i]? = none ∧ e.outputs[i]? = none) ∨ ∃ o l, e.outputs[i]? = some o ∧
      w.outputs[i]? = some { o with fuzzy := { o.fuzzy with terms := l } } ∧ ∀ a ∈ l, a.term ∈ o.terms := by
  have hf := h.1.outputs
  have hc : e.cleared.outputs = e.outputs.map fun o => { o with fuzzy := o.fuzzy.clear } := rfl
  rw [hc, List.forall₂_map_left_iff] at hf
  have hlen := hf.length_eq
  by_cases hi : i < e.outputs.length
  · right
    obtain ⟨h1, -, l, h2, h3⟩ := (List.forall₂_iff_get.1 hf).2 i hi (by omega)
    refine ⟨e.outputs[i], l, List.getElem?_eq_getElem hi, ?_, ?_⟩
    · rw [List.getElem?_eq_getElem (by omega), Option.some.injEq]
      simp only [List.get_eq_getElem] at h1 h2
      rw [h1, h2]
      rfl
    · exact h3
  · left
    exact ⟨List.getElem?_eq_none (by omega), List.getElem?_eq_none (by omega)⟩

theorem Active.mem {w : World S} (h : e.Active w) {q : OutputVariable S} (hq : q ∈ w.outputs) :
    ∃ o l, o ∈ e.outputs ∧ q = { o with fuzzy := { o.fuzzy with terms := l } } ∧ ∀ a ∈ l, a.term ∈ o.terms := by
  obtain ⟨i, hi⟩ := List.mem_iff_getElem?.1 hq
  rcases h.output i with ⟨h1, -⟩ | ⟨o, l, h1, h2, h3⟩
  · rw [h1] at hi; simp at hi
  · rw [h2, Option.some.injEq] at hi
    exact ⟨o, l, List.mem_of_getElem? h1, hi.symm, h3⟩

theorem Active.names {w : World S} (h : e.Active w) :
    w.ctx.inputs.map Prod.fst = e.inputNames ∧ w.ctx.outputs.map Prod.fst = e.outputNames := by
  constructor
  · simp only [World.ctx, List.map_map, h.inputs]; rfl
  · rw [World.ctx_names, h.1.names]
    simp only [cleared, outputNames, List.map_map]; rfl

theorem Sound.proposition (hs : e.Sound) {w : World S} (hw : e.Active w) (p : Proposition S) (hp : e.Refers p) :
    ∃ d, p.degree w = .ok d := by
  obtain ⟨hh, ts, ht, hj⟩ := hp
  unfold Proposition.degree
  have hen : ∃ b, w.isEnabled p.var = some b := by
    cases hv : p.var with
    | input i =>
      rw [hv] at ht
      obtain ⟨v, hv, -⟩ := Option.map_eq_some_iff.1 ht
      exact ⟨v.enabled, by simp only [World.isEnabled, hw.inputs, hv, Option.map_some]⟩
    | output i =>
      rw [hv] at ht
      obtain ⟨o, ho, -⟩ := Option.map_eq_some_iff.1 ht
      rcases hw.output i with ⟨-, h⟩ | ⟨o', l, -, h, -⟩
      · rw [h] at ho; simp at ho
      · exact ⟨o'.enabled, by simp only [World.isEnabled, h, Option.map_some]⟩
  obtain ⟨b, hb⟩ := hen
  rw [hb]
  cases b with
  | false => exact ⟨_, rfl⟩
  | true =>
    simp only
    split
    · exact applyHedges_ok hh _
    · rename_i hany
      obtain ⟨j, hpt, hlt⟩ := hj.resolve_left hany
      rw [hpt]
      simp only
      have htd : ∃ x, w.termDegree p.var j = .ok x := by
        cases hv : p.var with
        | input i =>
          rw [hv] at ht
          obtain ⟨v, hv', rfl⟩ := Option.map_eq_some_iff.1 ht
          simp only [World.termDegree, hw.inputs, hv', List.getElem?_eq_getElem hlt]
          exact hs.terms v (List.mem_of_getElem? hv') _ (List.getElem_mem _) _ hw.names.1 hw.names.2 _
        | output i =>
          rw [hv] at ht
          obtain ⟨o, ho, rfl⟩ := Option.map_eq_some_iff.1 ht
          rcases hw.output i with ⟨-, h⟩ | ⟨o', l, h1, h, -⟩
          · rw [h] at ho; simp at ho
          · simp only [World.termDegree, h]
            refine foldlM_ok (fun b a _ => ?_) _
            split
            · split
              · rename_i k hk
                exact hs.aggregation o' (List.mem_of_getElem? h1) k hk _ _
              · exact ⟨_, rfl⟩
            · exact ⟨_, rfl⟩
      obtain ⟨x, hx⟩ := htd
      rw [hx]
      exact applyHedges_ok hh x

theorem Sound.degree (hs : e.Sound) {w : World S} (hw : e.Active w) (c : Option (TNorm S)) (d : Option (SNorm S)) (a : Expr S)
    (ha : a.All e.Refers) (hc : a.hasConj = true → ∃ k, c = some k ∧ k.Evaluates)
    (hd : a.hasDisj = true → ∃ k, d = some k ∧ k.Evaluates) : ∃ y, a.degree w c d = .ok y := by
  induction a with
  | prop p => exact hs.proposition hw p ha
  | conj l r ihl ihr =>
    obtain ⟨k, rfl, hk⟩ := hc rfl
    obtain ⟨x, hx⟩ := ihl ha.1 (fun _ => hc rfl) (fun h => hd (by simp [Expr.hasDisj, h]))
    obtain ⟨y, hy⟩ := ihr ha.2 (fun _ => hc rfl) (fun h => hd (by simp [Expr.hasDisj, h]))
    obtain ⟨z, hz⟩ := hk x y
    exact ⟨z, by simp only [Expr.degree, hx, hy]; exact hz⟩
  | disj l r ihl ihr =>
    obtain ⟨k, rfl, hk⟩ := hd rfl
    obtain ⟨x, hx⟩ := ihl ha.1 (fun h => hc (by simp [Expr.hasConj, h])) (fun _ => hd rfl)
    obtain ⟨y, hy⟩ := ihr ha.2 (fun h => hc (by simp [Expr.hasConj, h])) (fun _ => hd rfl)
    obtain ⟨z, hz⟩ := hk x y
    exact ⟨z, by simp only [Expr.degree, hx, hy]; exact hz⟩

theorem Sound.modifyLoop (imp : Option (TNorm S)) (ps : List (Proposition S)) (hps : ∀ p ∈ ps, e.Concludes p)
    (himp : ∀ p ∈ ps, ∀ i o, p.var = .output i → e.outputs[i]? = some o →
      Engine.isIntegral o.defuzzifier = true → ∃ k, imp = some k ∧ k.Evaluates)
    (w : World S) (hw : e.Active w) (d : S) : (modifyLoop imp w d ps).2 = none ∧ e.Active (FL.modifyLoop imp w d ps).1 := by
  induction ps generalizing w d with
  | nil => exact ⟨rfl, hw⟩
  | cons p ps ih =>
    obtain ⟨hh, i, o, j, hv, ho, ht, hlt⟩ := hps p List.mem_cons_self
    have ih' := ih (fun p hp => hps p (List.mem_cons_of_mem _ hp)) (fun p hp => himp p (List.mem_cons_of_mem _ hp))
    rcases hw.output i with ⟨-, h⟩ | ⟨o', l, h1, h, hl⟩
    · rw [h] at ho; simp at ho
    · rw [ho, Option.some.injEq] at h1
      subst h1
      obtain ⟨y, hy⟩ := applyHedges_ok hh d
      have hcons : FL.modifyLoop imp w d (p :: ps) =
          if o.enabled = false then FL.modifyLoop imp w d ps
          else FL.modifyLoop imp { w with outputs := (w.outputs.set i { o with fuzzy :=
            { o.fuzzy with terms := l ++ [⟨j, o.terms[j], y, imp⟩] } }) } y ps := by
        simp only [FL.modifyLoop, hv, ht, h, hy, List.getElem?_eq_getElem hlt]
        cases o.enabled <;> rfl
      have hframe := modifyLoop_frame imp [p] w d
      have hone : FL.modifyLoop imp w d [p] =
          if o.enabled = false then (w, none)
          else ({ w with outputs := (w.outputs.set i { o with fuzzy :=
            { o.fuzzy with terms := l ++ [⟨j, o.terms[j], y, imp⟩] } }) }, none) := by
        simp only [FL.modifyLoop, hv, ht, h, hy, List.getElem?_eq_getElem hlt]
        cases o.enabled <;> rfl
      rw [hcons]
      split
      · exact ih' w hw d
      · rename_i hen
        rw [hone, if_neg hen] at hframe
        refine ih' _ ⟨World.Frame.trans _ _ _ hw.1 hframe, ?_⟩ y
        intro q hq hint a ha
        rcases List.mem_or_eq_of_mem_set hq with hq | rfl
        · exact hw.2 q hq hint a ha
        · rcases List.mem_append.1 ha with ha | ha
          · exact hw.2 _ (List.mem_of_getElem? h) hint a ha
          · obtain rfl := List.mem_singleton.1 ha
            exact himp p List.mem_cons_self i o hv ho hint

/-! ### rule blocks -/

theorem Sound.block [Heap S] (hs : e.Sound) (b : RuleBlock S) (hb : b ∈ e.blocks) (w : World S) (hw : e.Active w) :
    (b.activate w).2.2 = none ∧ e.Active (b.activate w).1 := by
  have h := b.activateBy_ok e.Active (fun r hr hl a ha w hw => hs.degree hw _ _ a (hs.antecedent b hb r hr hl a ha)
      (hs.conjunction b hb r hr hl a ha) (hs.disjunction b hb r hr hl a ha))
    (fun r hr hl w hw d => by
      have hne : r.conclusions.isEmpty = false := by
        simp only [Rule.isLoaded, Bool.and_eq_true, Bool.not_eq_true'] at hl; exact hl.2
      unfold modify
      rw [hne]
      exact Sound.modifyLoop _ _ (hs.conclusions b hb r hr hl) (hs.implication b hb r hr hl) w hw d)
    (b.activation.getD .general) w hw
  exact h

theorem Sound.blocks [Heap S] (hs : e.Sound) (bs : List (RuleBlock S)) (hbs : ∀ b ∈ bs, b ∈ e.blocks) (w : World S)
    (hw : e.Active w) : (activateBlocks w bs).2.2 = none ∧ e.Active (activateBlocks w bs).1 := by
  induction bs generalizing w with
  | nil => exact ⟨rfl, hw⟩
  | cons b bs ih =>
    have htl := fun b' hb' => hbs b' (List.mem_cons_of_mem _ hb')
    rw [activateBlocks_cons]
    split
    · exact ih htl w hw
    · obtain ⟨h1, h2⟩ := hs.block b (hbs b List.mem_cons_self) w hw
      rw [h1]
      exact ih htl _ h2

/-! ### defuzzification -/

theorem Sound.weighted (o : OutputVariable S) (ins outs : List Str) (k : WeightedKind) (ty : WeightedType)
    (hd : (Defuzzifier.weighted k ty).Serves ins outs o) (hagg : ∀ s, o.fuzzy.aggregation = some s → s.Evaluates)
    (ctx : Ctx S) (hi : ctx.inputs.map Prod.fst = ins) (ho : ctx.outputs.map Prod.fst = outs)
    (hterm : ∀ a ∈ o.fuzzy.terms, a.term ∈ o.terms) : ∃ z, Weighted.defuzzify ctx k ty o.fuzzy = .ok z := by
  unfold Weighted.defuzzify
  split
  · exact ⟨_, rfl⟩
  · rename_i hne
    have hgrouped : ∃ g, o.fuzzy.grouped = .ok g ∧ ∀ a ∈ g.terms, a.term ∈ o.terms := by
      have hagg' : (o.fuzzy.aggregation.getD (.builtin .unboundedSum)).Evaluates := by
        cases ha : o.fuzzy.aggregation with
        | none => exact fun a b => ⟨_, rfl⟩
        | some s => exact hagg s ha
      obtain ⟨G, hG⟩ := foldlM_ok (f := Aggregated.groupStep (o.fuzzy.aggregation.getD (.builtin .unboundedSum)))
        (l := o.fuzzy.terms) (fun G a _ => by
          unfold Aggregated.groupStep
          split
          · exact ⟨_, rfl⟩
          · rename_i p _
            obtain ⟨c, hc⟩ := hagg' p.2.degree a.degree
            exact ⟨_, by rw [hc]; rfl⟩) []
      have hg : ∃ g, o.fuzzy.grouped = .ok g := ⟨_, by unfold Aggregated.grouped; simp only []; rw [hG]; rfl⟩
      obtain ⟨g, hg⟩ := hg
      refine ⟨g, hg, fun a ha => ?_⟩
      obtain ⟨-, -, -, h⟩ := Aggregated.grouped_spec _ _ hg
      obtain ⟨first, rest, h1, h2, -⟩ := h a ha
      have hf : first ∈ o.fuzzy.terms := (List.mem_filter.1 (h1 ▸ List.mem_cons_self : first ∈ _)).1
      rw [h2]
      exact hterm first hf
    obtain ⟨g, hg, hgt⟩ := hgrouped
    have hTS : (∀ t ∈ o.terms, t.Evaluates ins outs) → ∃ s, Weighted.sums (fun a => a.term.membership ctx a.degree) g.terms = .ok s := by
      intro h
      refine foldlM_ok (fun s a ha => ?_) _
      obtain ⟨z, hz⟩ := h a.term (hgt a ha) ctx hi ho a.degree
      exact ⟨_, by simp only [hz]; rfl⟩
    have hTk : (∀ t ∈ o.terms, t.isMonotonic = true) → ∃ s, Weighted.sums (fun a => a.term.tsukamoto a.degree) g.terms = .ok s := by
      intro h
      refine foldlM_ok (fun s a ha => ?_) _
      have hz : ∃ z, a.term.tsukamoto a.degree = .ok z := by
        have := h a.term (hgt a ha)
        unfold Term.isMonotonic at this
        unfold Term.tsukamoto
        split at this
        · rename_i sh hk
          cases sh <;> first | exact ⟨_, rfl⟩ | (simp [Shape.isMonotonic] at this)
        · simp at this
      obtain ⟨z, hz⟩ := hz
      exact ⟨_, by simp only [hz]; rfl⟩
    have hne' : o.fuzzy.terms.map Activated.term ≠ [] := by simpa using hne
    have hmem : ∀ t ∈ o.fuzzy.terms.map Activated.term, t ∈ o.terms := by
      intro t ht
      obtain ⟨a, ha, rfl⟩ := List.mem_map.1 ht
      exact hterm a ha
    obtain ⟨i1, i2, -, -⟩ := Weighted.inferTypes_spec (o.fuzzy.terms.map Activated.term)
    cases ty with
    | takagiSugeno =>
      obtain ⟨s, hs⟩ := hTS hd
      simp only [reduceCtorEq, if_false, bind, Except.bind, hg, hs]
      exact ⟨_, rfl⟩
    | tsukamoto =>
      obtain ⟨s, hs⟩ := hTk hd
      simp only [reduceCtorEq, if_false, bind, Except.bind, hg, hs]
      exact ⟨_, rfl⟩
    | automatic =>
      rcases hd with h | h
      · obtain ⟨s, hs⟩ := hTS fun t ht => (h t ht).2
        simp only [if_true, i1.2 ⟨hne', fun t ht => (h t (hmem t ht)).1⟩, bind, Except.bind, hg, hs]
        exact ⟨_, rfl⟩
      · obtain ⟨s, hs⟩ := hTk h
        simp only [if_true, i2.2 ⟨hne', fun t ht => h t (hmem t ht)⟩, bind, Except.bind, hg, hs]
        exact ⟨_, rfl⟩

theorem Sound.integral (o : OutputVariable S) (ins outs : List Str) (k : IntegralKind) (r : Int)
    (hd : (Defuzzifier.integral k r).Serves ins outs o) (hagg : ∀ s, o.fuzzy.aggregation = some s → s.Evaluates)
    (ctx : Ctx S) (hi : ctx.inputs.map Prod.fst = ins) (ho : ctx.outputs.map Prod.fst = outs)
    (hterm : ∀ a ∈ o.fuzzy.terms, a.term ∈ o.terms) (himp : ∀ a ∈ o.fuzzy.terms, ∃ k, a.implication = some k ∧ k.Evaluates)
    (mn mx : S) : ∃ z, Integral.defuzzify k r (o.fuzzy.membership ctx) mn mx = .ok z := by
  obtain ⟨h1, h2, h3⟩ := hd
  have hmu : ∀ x, ∃ y, o.fuzzy.membership ctx x = .ok y := by
    intro x
    unfold Aggregated.membership
    split
    · exact ⟨_, rfl⟩
    · obtain ⟨s, hs⟩ := Option.isSome_iff_exists.1 h2
      rw [hs]
      refine foldlM_ok (fun b a ha => ?_) _
      have ham : ∃ y, a.membership ctx x = .ok y := by
        unfold Activated.membership
        split
        · exact ⟨_, rfl⟩
        · obtain ⟨k, hk, hke⟩ := himp a ha
          rw [hk]
          obtain ⟨y, hy⟩ := h3 a.term (hterm a ha) ctx hi ho x
          obtain ⟨z, hz⟩ := hke y a.degree
          first | exact ⟨z, by rw [hy]; exact hz⟩ | (obtain ⟨z, hz⟩ := hke a.degree y; exact ⟨z, by rw [hy]; exact hz⟩)
      obtain ⟨y, hy⟩ := ham
      obtain ⟨z, hz⟩ := hagg s hs b y
      exact ⟨z, by rw [hy]; exact hz⟩
  unfold Integral.defuzzify
  split
  · exact ⟨_, rfl⟩
  · split
    · rename_i h
      have := h1 h.1
      omega
    · obtain ⟨l, hl⟩ : ∃ l, Integral.samples (o.fuzzy.membership ctx) mn mx r = .ok l := by
        refine mapM_ok fun i _ => ?_
        obtain ⟨y, hy⟩ := hmu (mn + (lit (i : Rat) + lit (1/2)) * ((mx - mn) / lit (r : Rat)))
        exact ⟨_, by simp only [hy]; rfl⟩
      rw [hl]
      exact ⟨_, rfl⟩

theorem _root_.FL.OutputVariable.defuzzify_succeeds (v : OutputVariable S) (ctx : Ctx S)
    (h : v.enabled = true → ∃ d, v.defuzzifier = some d ∧ ∃ z, d.defuzzify ctx v.fuzzy v.minimum v.maximum = .ok z) :
    ∃ v', v.defuzzify ctx = .ok v' := by
  unfold OutputVariable.defuzzify
  cases hen : v.enabled with
  | false => exact ⟨_, rfl⟩
  | true =>
    obtain ⟨d, hd, hz⟩ := h hen
    simp only [Bool.not_true, Bool.false_eq_true, if_false, hd]
    exact bind_succeeds hz _ fun z => ⟨_, rfl⟩

theorem Sound.defuzzifyAll (hs : e.Sound) (I : List (Variable S)) (hI : (I.map fun v => v.name) = e.inputNames)
    (os done : List (OutputVariable S)) (hn : ((done ++ os).map fun o => o.name) = e.outputNames)
    (hos : ∀ q ∈ os, (∃ o l, o ∈ e.outputs ∧ q = { o with fuzzy := { o.fuzzy with terms := l } } ∧ ∀ a ∈ l, a.term ∈ o.terms) ∧
      (Engine.isIntegral q.defuzzifier = true → ∀ a ∈ q.fuzzy.terms, ∃ k, a.implication = some k ∧ k.Evaluates)) :
    (defuzzifyAll I done os).2 = none := by
  induction os generalizing done with
  | nil => rfl
  | cons q os ih =>
    rw [defuzzifyAll_cons]
    obtain ⟨⟨o, l, ho, rfl, hl⟩, himp⟩ := hos q List.mem_cons_self
    have hctx : ∀ w : World S, w.inputs = I → (w.outputs.map fun o => o.name) = e.outputNames →
        w.ctx.inputs.map Prod.fst = e.inputNames ∧ w.ctx.outputs.map Prod.fst = e.outputNames := by
      rintro w rfl h
      exact ⟨by rw [← hI]; simp [World.ctx, Function.comp_def], by rw [World.ctx_names, h]⟩
    obtain ⟨c1, c2⟩ := hctx ⟨I, done ++ _ :: os⟩ rfl hn
    have hok : ∃ o', ({ o with fuzzy := { o.fuzzy with terms := l } } : OutputVariable S).defuzzify
        (World.ctx ⟨I, done ++ { o with fuzzy := { o.fuzzy with terms := l } } :: os⟩) = .ok o' := by
      refine OutputVariable.defuzzify_succeeds _ _ fun hen => ?_
      obtain ⟨d, hd, hserve⟩ := hs.defuzzifier o ho hen
      refine ⟨d, hd, ?_⟩
      cases d with
      | integral k r =>
        exact Sound.integral ({ o with fuzzy := { o.fuzzy with terms := l } }) _ _ k r hserve
          (hs.aggregation o ho) _ c1 c2 hl (himp (by simp only [hd]; rfl)) _ _
      | weighted k t =>
        exact Sound.weighted ({ o with fuzzy := { o.fuzzy with terms := l } }) _ _ k t
          (by cases t <;> exact hserve) (hs.aggregation o ho) _ c1 c2 hl
    obtain ⟨o', ho'⟩ := hok
    rw [ho']
    refine ih (done ++ [o']) ?_ fun q hq => hos q (List.mem_cons_of_mem _ hq)
    have := (defuzzify_frame _ _ _ ho').1
    rw [← hn]
    simp only [List.map_append, List.map_cons, List.append_assoc, List.map_nil, List.cons_append, List.nil_append]
    rw [this]

/-- **C61.**  A sound engine never raises an exception (and never has undefined behaviour), whatever the
values of its input variables. -/
theorem Sound.process [Heap S] (hs : e.Sound) : e.process.2 = none := by
  have h0 : e.Active e.cleared := by
    refine ⟨.refl _, fun o ho _ a ha => ?_⟩
    simp only [cleared, List.mem_map] at ho
    obtain ⟨o', -, rfl⟩ := ho
    simp [Aggregated.clear] at ha
  obtain ⟨h1, h2⟩ := hs.blocks e.blocks (fun _ h => h) e.cleared h0
  rw [process_eq, h1]
  refine hs.defuzzifyAll _ ?_ _ [] ?_ fun q hq => ⟨h2.mem hq, h2.2 q hq⟩
  · rw [h2.inputs]; rfl
  · rw [List.nil_append, ← World.ctx_names, h2.names.2]

/-! ### histories -/

theorem config_termsOf (e : Engine S) (v : VarRef) : e.config.termsOf v = e.termsOf v := by
  cases v with
  | input i => simp only [termsOf, config, List.getElem?_map, Option.map_map]; rfl
  | output i => simp only [termsOf, config, forget, fresh, List.getElem?_map, Option.map_map]; rfl

theorem config_refers (e : Engine S) : e.config.Refers = e.Refers := by
  funext p
  simp only [Refers, config_termsOf]

theorem config_concludes (e : Engine S) (p : Proposition S) : e.config.Concludes p ↔ e.Concludes p := by
  unfold Concludes
  simp only [config, forget, fresh, List.getElem?_map, Option.map_map, Option.map_eq_some_iff]
  refine and_congr_right fun _ => exists_congr fun i => ⟨?_, ?_⟩
  · rintro ⟨_, j, h1, ⟨o, ho, rfl⟩, h3, h4⟩
    exact ⟨o, j, h1, ho, h3, h4⟩
  · rintro ⟨o, j, h1, ho, h3, h4⟩
    exact ⟨_, j, h1, ⟨o, ho, rfl⟩, h3, h4⟩

/-- soundness is a matter of the configuration, not of values -/
theorem sound_config (e : Engine S) : e.config.Sound ↔ e.Sound := by
  have hin : e.config.inputNames = e.inputNames := by
    simp only [inputNames, config, List.map_map]; rfl
  have hon : e.config.outputNames = e.outputNames := by
    simp only [outputNames, config, forget, fresh, List.map_map]; rfl
  have hi : ∀ P : Variable S → Prop, (∀ v ∈ e.config.inputs, P v) ↔ ∀ v ∈ e.inputs, P { v with value := nan } := by
    intro P; simp only [config, List.forall_mem_map]
  have ho : ∀ P : OutputVariable S → Prop, (∀ o ∈ e.config.outputs, P o) ↔
      ∀ o ∈ e.outputs, P { o with fuzzy := { o.fuzzy with terms := [] }, value := nan, previous := nan } := by
    intro P; simp only [config, forget, fresh, List.forall_mem_map, List.map_map]; rfl
  have hb : ∀ P : RuleBlock S → Rule S → Prop, (∀ b ∈ e.config.blocks, ∀ r ∈ b.rules, P b r) ↔
      ∀ b ∈ e.blocks, ∀ r ∈ b.rules, P b.fresh r.deactivate := by
    intro P; simp only [config, forget, fresh, RuleBlock.fresh, List.forall_mem_map]
  constructor
  · rintro ⟨h1, h2, h3, h4, h5, h6, h7, h8⟩
    rw [hin, hon] at h1 h8
    rw [hi] at h1
    rw [hb] at h2 h3 h4 h5 h6
    rw [ho] at h7 h8
    rw [config_refers] at h2
    refine ⟨h1, h2, ?_, h4, h5, ?_, h7, ?_⟩
    · intro b hb r hr hl p hp
      exact (e.config_concludes p).1 (h3 b hb r hr hl p hp)
    · intro b hb r hr hl p hp i o hv ho hint
      refine h6 b hb r hr hl p hp i { o with fuzzy := { o.fuzzy with terms := [] }, value := nan, previous := nan } hv ?_ hint
      simp only [config, forget, fresh, List.getElem?_map, ho]; rfl
    · intro o ho hen
      obtain ⟨d, hd, hd'⟩ := h8 o ho hen
      refine ⟨d, hd, ?_⟩
      cases d with
      | integral k r => exact hd'
      | weighted k t => cases t <;> exact hd'
  · rintro ⟨h1, h2, h3, h4, h5, h6, h7, h8⟩
    refine ⟨?_, ?_, ?_, ?_, ?_, ?_, ?_, ?_⟩
    · rw [hin, hon, hi]; exact h1
    · rw [hb, config_refers]; exact h2
    · rw [hb]
      intro b hb r hr hl p hp
      exact (e.config_concludes p).2 (h3 b hb r hr hl p hp)
    · rw [hb]; exact h4
    · rw [hb]; exact h5
    · rw [hb]
      intro b hb r hr hl p hp i o' hv ho' hint
      simp only [config, forget, fresh, List.getElem?_map, Option.map_map, Option.map_eq_some_iff] at ho'
      obtain ⟨o, ho, rfl⟩ := ho'
      exact h6 b hb r hr hl p hp i o hv ho hint
    · rw [ho]; exact h7
    · rw [ho, hin, hon]
      intro o ho hen
      obtain ⟨d, hd, hd'⟩ := h8 o ho hen
      refine ⟨d, hd, ?_⟩
      cases d with
      | integral k r => exact hd'
      | weighted k t => cases t <;> exact hd'

/-- **C61.**  After any history of setting inputs, processing and restarting, processing a sound engine
succeeds. -/
theorem Sound.history [Heap S] (hs : e.Sound) (as : List (Action S)) : (as.foldl act e).process.2 = none :=
  Sound.process ((sound_config _).1 (by rw [acts_config]; exact (sound_config e).2 hs))

end Engine
end FL
