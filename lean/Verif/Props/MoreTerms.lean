/-
C109: terms that are added to variables do not matter to rules that are there already.
-/
import Verif.Props.Extra

namespace FL
open Scalar
variable {S : Type} [Scalar S]

/-- the variable with further terms, which may depend on its name -/
def Variable.addTerms (p : Str → List (Term S)) (v : Variable S) : Variable S := { v with terms := v.terms ++ p v.name }

/-- the output variable with further terms -/
def OutputVariable.addTerms (p : Str → List (Term S)) (o : OutputVariable S) : OutputVariable S :=
  { o with toVariable := o.toVariable.addTerms p }

def World.addTerms (p q : Str → List (Term S)) (w : World S) : World S :=
  ⟨w.inputs.map (Variable.addTerms p), w.outputs.map (OutputVariable.addTerms q)⟩

/-! ### rules -/

omit [Scalar S] in
theorem World.addTerms_ctx (p q : Str → List (Term S)) (w : World S) : (w.addTerms p q).ctx = w.ctx := by
  simp only [World.ctx, World.addTerms, List.map_map]
  rfl

omit [Scalar S] in
theorem World.addTerms_isEnabled (p q : Str → List (Term S)) (w : World S) (v : VarRef) : (w.addTerms p q).isEnabled v = w.isEnabled v := by
  cases v with
  | input i => simp only [World.isEnabled, World.addTerms, List.getElem?_map, Option.map_map]; rfl
  | output i => simp only [World.isEnabled, World.addTerms, List.getElem?_map, Option.map_map]; rfl

theorem World.addTerms_termDegree (p q : Str → List (Term S)) (w : World S) (v : VarRef) (j : Nat) (x : S) (h : w.termDegree v j = .ok x) :
    (w.addTerms p q).termDegree v j = .ok x := by
  cases v with
  | input i =>
    simp only [World.termDegree] at h ⊢
    have : (w.addTerms p q).inputs[i]? = w.inputs[i]?.map (Variable.addTerms p) := List.getElem?_map
    rw [this, World.addTerms_ctx]
    cases hv : w.inputs[i]? with
    | none => rw [hv] at h; simp at h
    | some v =>
      rw [hv] at h
      simp only [Option.map_some] at h ⊢
      cases ht : v.terms[j]? with
      | none => rw [ht] at h; simp at h
      | some t =>
        rw [ht] at h
        have : (v.addTerms p).terms[j]? = some t := by
          show (v.terms ++ p v.name)[j]? = some t
          rw [List.getElem?_append_left (List.getElem?_eq_some_iff.1 ht).1, ht]
        rw [this]
        exact h
  | output i =>
    simp only [World.termDegree] at h ⊢
    have : (w.addTerms p q).outputs[i]? = w.outputs[i]?.map (OutputVariable.addTerms q) := List.getElem?_map
    rw [this]
    cases hv : w.outputs[i]? with
    | none => rw [hv] at h; simp at h
    | some v =>
      rw [hv] at h
      exact h

theorem Proposition.addTerms_degree (p q : Str → List (Term S)) (w : World S) (a : Proposition S) (x : S) (h : a.degree w = .ok x) :
    a.degree (w.addTerms p q) = .ok x := by
  unfold Proposition.degree at h ⊢
  rw [World.addTerms_isEnabled]
  cases he : w.isEnabled a.var with
  | none => rw [he] at h; simp at h
  | some b =>
    rw [he] at h
    cases b with
    | false => exact h
    | true =>
      simp only at h ⊢
      split
      · rename_i hl
        rw [if_pos hl] at h
        exact h
      · rename_i hl
        rw [if_neg hl] at h
        cases hj : a.term with
        | none => rw [hj] at h; simp at h
        | some j =>
          rw [hj] at h
          simp only at h ⊢
          cases hd : w.termDegree a.var j with
          | error e => rw [hd] at h; simp [bind, Except.bind] at h
          | ok y =>
            rw [hd] at h
            rw [World.addTerms_termDegree p q w a.var j y hd]
            exact h

theorem Expr.degree_of_propositions {w w' : World S} (hp : ∀ (a : Proposition S) x, a.degree w = .ok x → a.degree w' = .ok x) (e : Expr S)
    (c : Option (TNorm S)) (d : Option (SNorm S)) (x : S) (h : e.degree w c d = .ok x) : e.degree w' c d = .ok x := by
  induction e generalizing x with
  | prop a => exact hp a x h
  | conj l r ihl ihr =>
    simp only [Expr.degree] at h ⊢
    cases c with
    | none => simp at h
    | some k =>
      simp only at h ⊢
      cases hl : l.degree w (some k) d with
      | error e => rw [hl] at h; simp [bind, Except.bind] at h
      | ok a =>
        cases hr : r.degree w (some k) d with
        | error e => rw [hl, hr] at h; simp [bind, Except.bind] at h
        | ok b =>
          rw [hl, hr] at h
          rw [ihl a hl, ihr b hr]
          exact h
  | disj l r ihl ihr =>
    simp only [Expr.degree] at h ⊢
    cases d with
    | none => simp at h
    | some k =>
      simp only at h ⊢
      cases hl : l.degree w c (some k) with
      | error e => rw [hl] at h; simp [bind, Except.bind] at h
      | ok a =>
        cases hr : r.degree w c (some k) with
        | error e => rw [hl, hr] at h; simp [bind, Except.bind] at h
        | ok b =>
          rw [hl, hr] at h
          rw [ihl a hl, ihr b hr]
          exact h

theorem addTerms_modifyLoop (p q : Str → List (Term S)) (imp : Option (TNorm S)) (ps : List (Proposition S)) (w : World S) (d : S)
    (hok : (modifyLoop imp w d ps).2 = none) :
    modifyLoop imp (w.addTerms p q) d ps = ((modifyLoop imp w d ps).1.addTerms p q, none) := by
  induction ps generalizing w d with
  | nil => rfl
  | cons a ps ih =>
    obtain ⟨var, hedges, term⟩ := a
    cases var with
    | input i => simp [modifyLoop] at hok
    | output i =>
      cases term with
      | none => simp [modifyLoop] at hok
      | some j =>
        simp only [modifyLoop] at hok ⊢
        have : (w.addTerms p q).outputs[i]? = w.outputs[i]?.map (OutputVariable.addTerms q) := List.getElem?_map
        rw [this]
        cases ho : w.outputs[i]? with
        | none => rw [ho] at hok; simp at hok
        | some o =>
          rw [ho] at hok
          have hen' : (o.addTerms q).enabled = o.enabled := rfl
          simp only [Option.map_some, hen'] at hok ⊢
          split
          · rename_i hen
            rw [if_pos hen] at hok
            exact ih w d hok
          · rename_i hen
            rw [if_neg hen] at hok
            cases hd : applyHedges hedges d with
            | error e => rw [hd] at hok; simp at hok
            | ok d' =>
              rw [hd] at hok
              simp only at hok ⊢
              cases ht : o.terms[j]? with
              | none => rw [ht] at hok; simp at hok
              | some t =>
                rw [ht] at hok
                have ht' : (o.addTerms q).terms[j]? = some t := by
                  show (o.terms ++ q o.name)[j]? = some t
                  rw [List.getElem?_append_left (List.getElem?_eq_some_iff.1 ht).1, ht]
                rw [ht']
                simp only at hok ⊢
                have hs : (⟨(w.addTerms p q).inputs, (w.addTerms p q).outputs.set i
                      ({ o.addTerms q with fuzzy := (o.addTerms q).fuzzy.addTerm ⟨j, t, d', imp⟩ } : OutputVariable S)⟩ : World S) =
                    World.addTerms p q ⟨w.inputs, w.outputs.set i { o with fuzzy := o.fuzzy.addTerm ⟨j, t, d', imp⟩ }⟩ := by
                  simp only [World.addTerms, List.map_set]
                  rfl
                rw [hs]
                exact ih _ d' hok

theorem World.sees_addTerms (p q : Str → List (Term S)) : RuleBlock.Sees (World.addTerms p q) (fun _ => True) where
  degree w _ e c d x h := e.degree_of_propositions (fun a x h => a.addTerms_degree p q w x h) c d x h
  modify w _ x imp ps hok := by
    unfold modify at hok ⊢
    split
    · rename_i hl
      rw [if_pos hl] at hok
      simp at hok
    · rename_i hl
      rw [if_neg hl] at hok
      exact ⟨addTerms_modifyLoop p q imp ps w x hok, trivial⟩

/-! ### defuzzification -/

theorem OutputVariable.addTerms_defuzzify (q : Str → List (Term S)) (o : OutputVariable S) (ctx : Ctx S) :
    (o.addTerms q).defuzzify ctx = (o.defuzzify ctx).map (OutputVariable.addTerms q) := by
  unfold OutputVariable.defuzzify
  have e1 : (o.addTerms q).enabled = o.enabled := rfl
  have e2 : (o.addTerms q).defuzzifier = o.defuzzifier := rfl
  rw [e1, e2]
  split
  · rfl
  · cases o.defuzzifier with
    | none => rfl
    | some d =>
      have e3 : d.defuzzify ctx (o.addTerms q).fuzzy (o.addTerms q).minimum (o.addTerms q).maximum = d.defuzzify ctx o.fuzzy o.minimum o.maximum := rfl
      simp only [e3]
      cases d.defuzzify ctx o.fuzzy o.minimum o.maximum with
      | error e => rfl
      | ok z => rfl

namespace Engine

theorem defuzzifyAll_addTerms (p q : Str → List (Term S)) (ins : List (Variable S)) (os done : List (OutputVariable S)) :
    defuzzifyAll (ins.map (Variable.addTerms p)) (done.map (OutputVariable.addTerms q)) (os.map (OutputVariable.addTerms q)) =
      ((defuzzifyAll ins done os).1.map (OutputVariable.addTerms q), (defuzzifyAll ins done os).2) := by
  induction os generalizing done with
  | nil => rfl
  | cons o os ih =>
    rw [List.map_cons, defuzzifyAll_cons, defuzzifyAll_cons]
    have hc : World.ctx ⟨ins.map (Variable.addTerms p), done.map (OutputVariable.addTerms q) ++ o.addTerms q :: os.map (OutputVariable.addTerms q)⟩ =
        World.ctx ⟨ins, done ++ o :: os⟩ := by
      rw [← World.addTerms_ctx p q ⟨ins, done ++ o :: os⟩]
      simp only [World.addTerms, List.map_append, List.map_cons]
    rw [hc, OutputVariable.addTerms_defuzzify]
    cases o.defuzzify (World.ctx ⟨ins, done ++ o :: os⟩) with
    | error e => simp only [Except.map, List.map_append, List.map_cons]
    | ok o' =>
      have := ih (done ++ [o'])
      rw [List.map_append, List.map_singleton] at this
      exact this

/-- C109: take an engine that is processed without an exception and append terms of any kind to any of its variables.  Then it is
processed without an exception too, and everything but these lists of terms is the same afterwards: values, previous values, fuzzy
outputs, rules and rule blocks. -/
theorem process_addTerms [Heap S] (e : Engine S) (p q : Str → List (Term S)) (hok : e.process.2 = none) :
    ({ e with inputs := e.inputs.map (Variable.addTerms p), outputs := e.outputs.map (OutputVariable.addTerms q) } : Engine S).process =
      ({ e.process.1 with
          inputs := e.process.1.inputs.map (Variable.addTerms p)
          outputs := e.process.1.outputs.map (OutputVariable.addTerms q) }, none) := by
  set e' : Engine S := { e with inputs := e.inputs.map (Variable.addTerms p), outputs := e.outputs.map (OutputVariable.addTerms q) } with he'
  have hcl : e'.cleared = e.cleared.addTerms p q := by
    simp only [cleared, World.addTerms, he', List.map_map]
    rfl
  have hb : (activateBlocks e.cleared e.blocks).2.2 = none := by
    rw [process_eq] at hok
    split at hok
    · simp at hok
    · assumption
  obtain ⟨h1, -⟩ := activateBlocks_sees (World.sees_addTerms p q) e.blocks e.cleared trivial hb
  have hblocks : e'.blocks = e.blocks := rfl
  rw [process_eq, hb] at hok
  simp only at hok
  have hd := defuzzifyAll_addTerms p q (activateBlocks e.cleared e.blocks).1.inputs (activateBlocks e.cleared e.blocks).1.outputs []
  rw [hok, List.map_nil] at hd
  rw [process_eq, process_eq e, hblocks, hcl, h1, hb]
  simp only [World.addTerms, hd]
  rfl

end Engine

/-! ### loading -/

/-- the same variables, with further terms behind the ones they had -/
structure Vocabulary.Grows (V V' : Vocabulary) : Prop where
  inputs : List.Forall₂ (fun a b : Str × List Str => b.1 = a.1 ∧ a.2 <+: b.2) V.inputs V'.inputs
  outputs : List.Forall₂ (fun a b : Str × List Str => b.1 = a.1 ∧ a.2 <+: b.2) V.outputs V'.outputs

omit [Scalar S] in
theorem World.grows_addTerms (p q : Str → List (Term S)) (w : World S) : w.vocabulary.Grows (w.addTerms p q).vocabulary := by
  constructor
  · simp only [World.vocabulary, World.addTerms, List.map_map, List.forall₂_map_left_iff, List.forall₂_map_right_iff]
    exact List.forall₂_same.2 fun v _ => ⟨rfl, by simp [Variable.addTerms]⟩
  · simp only [World.vocabulary, World.addTerms, List.map_map, List.forall₂_map_left_iff, List.forall₂_map_right_iff]
    exact List.forall₂_same.2 fun v _ => ⟨rfl, by simp [OutputVariable.addTerms, Variable.addTerms]⟩

namespace Vocabulary

theorem findIdx_names {l l' : List (Str × List Str)} (h : List.Forall₂ (fun a b : Str × List Str => b.1 = a.1 ∧ a.2 <+: b.2) l l') (n : Str) :
    l'.findIdx? (fun p => p.1 == n) = l.findIdx? (fun p => p.1 == n) := by
  induction h with
  | nil => rfl
  | cons h _ ih => rw [List.findIdx?_cons, List.findIdx?_cons, ih, h.1]

theorem Grows.findOutput {V V' : Vocabulary} (h : V.Grows V') (n : Str) : V'.findOutput n = V.findOutput n := by
  unfold Vocabulary.findOutput
  rw [findIdx_names h.outputs]

theorem Grows.find {V V' : Vocabulary} (h : V.Grows V') (n : Str) : V'.find n = V.find n := by
  unfold Vocabulary.find
  rw [findIdx_names h.inputs, h.findOutput]

theorem prefix_terms {l l' : List (Str × List Str)} (h : List.Forall₂ (fun a b : Str × List Str => b.1 = a.1 ∧ a.2 <+: b.2) l l') (i : Nat) :
    (l[i]?.map Prod.snd).getD [] <+: (l'[i]?.map Prod.snd).getD [] := by
  induction h generalizing i with
  | nil => simp
  | cons h _ ih =>
    cases i with
    | zero => exact h.2
    | succ i => exact ih i

theorem Grows.findTerm {V V' : Vocabulary} (h : V.Grows V') (v : VarRef) (n : Str) (j : Nat) (hj : V.findTerm v n = some j) :
    V'.findTerm v n = some j := by
  have hp : V.terms v <+: V'.terms v := by
    cases v with
    | input i => exact prefix_terms h.inputs i
    | output i => exact prefix_terms h.outputs i
  obtain ⟨ts, ht⟩ := hp
  unfold Vocabulary.findTerm at hj ⊢
  rw [← ht, List.findIdx?_append, hj]
  rfl

end Vocabulary

theorem foldlM_ok_of_step {α β : Type} {f g : α → β → Except Err α} (h : ∀ s x s', f s x = .ok s' → g s x = .ok s') (l : List β) (s r : α)
    (hr : l.foldlM f s = .ok r) : l.foldlM g s = .ok r := by
  induction l generalizing s with
  | nil => exact hr
  | cons x l ih =>
    rw [List.foldlM_cons] at hr ⊢
    cases hf : f s x with
    | error e => rw [hf] at hr; simp [bind, Except.bind] at hr
    | ok s' =>
      rw [hf] at hr
      rw [h s x s' hf]
      exact ih s' hr

omit [Scalar S] in
theorem Antecedent.load_of_step {V V' : Vocabulary} (F : ElementFactory S) (H : HedgeFactory S)
    (hstep : ∀ s x s', Antecedent.step H V s x = .ok s' → Antecedent.step H V' s x = .ok s') (text : Str) (a : Expr S)
    (ha : Antecedent.load F H V text = .ok a) : Antecedent.load F H V' text = .ok a := by
  unfold Antecedent.load at ha ⊢
  split
  · rename_i he
    rw [if_pos he] at ha
    simp at ha
  · rename_i he
    rw [if_neg he] at ha
    cases hp : Formula.toPostfix F text with
    | error e => rw [hp] at ha; simp [bind, Except.bind] at ha
    | ok t =>
      rw [hp] at ha
      replace ha : Antecedent.build H V (Op.words t) = .ok a := ha
      show Antecedent.build H V' (Op.words t) = .ok a
      unfold Antecedent.build at ha ⊢
      cases hf : (Op.words t).foldlM (Antecedent.step H V) ⟨[], .ready⟩ with
      | error e => rw [hf] at ha; simp [bind, Except.bind] at ha
      | ok s =>
        rw [hf] at ha
        rw [foldlM_ok_of_step hstep _ _ _ hf]
        exact ha

omit [Scalar S] in
theorem Antecedent.load_grows {V V' : Vocabulary} (h : V.Grows V') (F : ElementFactory S) (H : HedgeFactory S) (text : Str) (a : Expr S)
    (ha : Antecedent.load F H V text = .ok a) : Antecedent.load F H V' text = .ok a := by
  have hstep : ∀ s x s', Antecedent.step H V s x = .ok s' → Antecedent.step H V' s x = .ok s' := by
    rintro ⟨stack, state⟩ x s' hs
    cases state with
    | ready =>
      simp only [Antecedent.step, h.find] at hs ⊢
      exact hs
    | expectIs v => exact hs
    | expectTerm v hs' =>
      simp only [Antecedent.step] at hs ⊢
      cases hH : H x with
      | some k => rw [hH] at hs; exact hs
      | none =>
        rw [hH] at hs
        simp only at hs ⊢
        cases ht : V.findTerm v x with
        | none => rw [ht] at hs; simp at hs
        | some j =>
          rw [ht] at hs
          rw [h.findTerm v x j ht]
          exact hs
  exact Antecedent.load_of_step F H hstep text a ha

omit [Scalar S] in
theorem Consequent.load_of_step {V V' : Vocabulary} (H : HedgeFactory S)
    (hstep : ∀ s x s', Consequent.step H V s x = .ok s' → Consequent.step H V' s x = .ok s') (text : Str) (c : List (Proposition S))
    (hc : Consequent.load H V text = .ok c) : Consequent.load H V' text = .ok c := by
  unfold Consequent.load at hc ⊢
  split
  · rename_i he
    rw [if_pos he] at hc
    simp at hc
  · rename_i he
    rw [if_neg he] at hc
    cases hf : (Op.words text).foldlM (Consequent.step H V) ⟨[], .expectVariable⟩ with
    | error e => rw [hf] at hc; simp [bind, Except.bind] at hc
    | ok s =>
      rw [hf] at hc
      rw [foldlM_ok_of_step hstep _ _ _ hf]
      exact hc

omit [Scalar S] in
theorem Consequent.load_grows {V V' : Vocabulary} (h : V.Grows V') (H : HedgeFactory S) (text : Str) (c : List (Proposition S))
    (hc : Consequent.load H V text = .ok c) : Consequent.load H V' text = .ok c := by
  have hstep : ∀ s x s', Consequent.step H V s x = .ok s' → Consequent.step H V' s x = .ok s' := by
    rintro ⟨stack, state⟩ x s' hs
    cases state with
    | expectVariable =>
      simp only [Consequent.step, h.findOutput] at hs ⊢
      exact hs
    | expectIs v => exact hs
    | expectAnd => exact hs
    | expectTerm v hs' =>
      simp only [Consequent.step] at hs ⊢
      cases hH : H x with
      | some k => rw [hH] at hs; exact hs
      | none =>
        rw [hH] at hs
        simp only at hs ⊢
        cases ht : V.findTerm v x with
        | none => rw [ht] at hs; simp at hs
        | some j =>
          rw [ht] at hs
          rw [h.findTerm v x j ht]
          exact hs
  exact Consequent.load_of_step H hstep text c hc

/-- C109: a rule that can be loaded is loaded as the same rule, with the same variables and terms, after terms were appended to
variables, even if their names are already in use. -/
theorem Rule.load_addTerms {S : Type} [ScalarText S] (G : Registry S) (w : World S) (p q : Str → List (Term S)) (r : Rule S) (text : Str)
    (hok : (r.load G w.vocabulary text).2 = none) :
    r.load G (w.addTerms p q).vocabulary text = r.load G w.vocabulary text := by
  have h := World.grows_addTerms p q w
  unfold Rule.load at hok ⊢
  simp only at hok ⊢
  cases hp : Rule.parts (S := S) text with
  | error e => rfl
  | ok s =>
    rw [hp] at hok
    simp only at hok ⊢
    cases ha : Antecedent.load G.functions G.hedges w.vocabulary s.antecedent with
    | error e => rw [ha] at hok; simp at hok
    | ok a =>
      rw [ha] at hok
      rw [Antecedent.load_grows h _ _ _ a ha]
      simp only at hok ⊢
      cases hc : Consequent.load G.hedges w.vocabulary s.consequent with
      | error e => rw [hc] at hok; simp at hok
      | ok c => rw [Consequent.load_grows h _ _ c hc]

theorem loadRules_of_load {S : Type} [ScalarText S] (G : Registry S) {V V' : Vocabulary}
    (h : ∀ (r : Rule S) text, (r.load G V text).2 = none → r.load G V' text = r.load G V text) (rs : List (Rule S))
    (hok : (loadRules G V rs).2 = []) : loadRules G V' rs = loadRules G V rs := by
  induction rs with
  | nil => rfl
  | cons r rs ih =>
    simp only [loadRules, List.append_eq_nil_iff, Option.toList_eq_nil_iff] at hok ⊢
    have h1 : ∀ q : Rule S, (q.reload G V).2 = none → q.reload G V' = q.reload G V := fun q => h q q.text
    rw [h1 _ hok.1, ih hok.2]

/-- C109: the rules of a block that can all be loaded are loaded as before after terms were appended to variables. -/
theorem loadRules_addTerms {S : Type} [ScalarText S] (G : Registry S) (w : World S) (p q : Str → List (Term S)) (rs : List (Rule S))
    (hok : (loadRules G w.vocabulary rs).2 = []) : loadRules G (w.addTerms p q).vocabulary rs = loadRules G w.vocabulary rs :=
  loadRules_of_load G (fun r text => r.load_addTerms G w p q text) rs hok

end FL

namespace FL.MoreTermsDemo
open Scalar FL.Rounded FL.Rounded.Demo

local instance : Heap (Flt dbl) := RuleBlock.stableHeap _

/-- a second term low, and a Linear term without an engine, which raises an exception if it is evaluated -/
def more (n : Str) : List (Term (Flt dbl)) :=
  if n = cs! "x" then [term (cs! "low") (.ramp (lit 0) (lit 3)), ⟨cs! "line", lit 1, .linear [] false⟩] else [⟨cs! "one", lit 1, .constant (lit 7)⟩]

def controller (v : Flt dbl) : Engine (Flt dbl) := { engine with inputs := [{ input with value := v }] }

def extended (v : Flt dbl) : Engine (Flt dbl) :=
  { controller v with
    inputs := (controller v).inputs.map (Variable.addTerms more)
    outputs := (controller v).outputs.map (OutputVariable.addTerms more) }

/-- the theorem applies to it, for every value of x -/
example (v : Flt dbl) (hok : (controller v).process.2 = none) :
    (extended v).process.2 = none ∧ (extended v).process.1.outputValues = (controller v).process.1.outputValues := by
  have h := Engine.process_addTerms (controller v) more more hok
  refine ⟨congrArg Prod.snd h, (congrArg (fun r : Engine (Flt dbl) × Option Err => r.1.outputValues) h).trans ?_⟩
  simp only [Engine.outputValues, List.map_map]
  rfl

/-- and this is what is computed -/
example : (extended (lit 0)).process.2 = none ∧ (extended (lit 0)).process.1.outputValues = [lit 1] ∧
    ((extended (lit 0)).inputs.map fun v => v.terms.length) = [4] ∧ ((extended (lit 0)).outputs.map fun o => o.terms.length) = [3] := by
  decide +kernel

/-- the first term of a name is found, so that the added ones of the same name are not used -/
example : (World.vocabulary ⟨(extended (lit 0)).inputs, (extended (lit 0)).outputs⟩).findTerm (.input 0) (cs! "low") = some 0 ∧
    (World.vocabulary ⟨(extended (lit 0)).inputs, (extended (lit 0)).outputs⟩).findTerm (.input 0) (cs! "line") = some 3 ∧
    (World.vocabulary ⟨(controller (lit 0)).inputs, (controller (lit 0)).outputs⟩).findTerm (.input 0) (cs! "line") = none := by decide +kernel

/-- the rules do matter: one that mentions the added term raises the exception of that term -/
example : ({ extended (lit 0) with blocks := [{ block with rules := [conclude [] 3 0] }] } : Engine (Flt dbl)).process.2 = some .evaluation := by
  decide +kernel

end FL.MoreTermsDemo
