/-
C108: variables that are added to an engine do not matter to the others.
-/
import Verif.Props.Rename
import Verif.Props.Tune

namespace FL
open Scalar
variable {S : Type} [Scalar S]

namespace RuleBlock

/-- As long as there is no exception, `N w` cannot be told apart from `w` by rules, for the `w` satisfying `P`. -/
structure Sees (N : World S → World S) (P : World S → Prop) : Prop where
  degree : ∀ w, P w → ∀ (e : Expr S) c d x, e.degree w c d = .ok x → e.degree (N w) c d = .ok x
  modify : ∀ w, P w → ∀ x imp ps, (FL.modify w x imp ps).2 = none →
    FL.modify (N w) x imp ps = (N (FL.modify w x imp ps).1, none) ∧ P (FL.modify w x imp ps).1

variable {N : World S → World S} {P : World S → Prop}

theorem eachRule_sees {σ : Type} {f : σ → Rule S → σ × Rule S × Option Err} (M : σ → σ) (Q : σ → Prop)
    (hf : ∀ s r, Q s → (f s r).2.2 = none → f (M s) r = (M (f s r).1, (f s r).2) ∧ Q (f s r).1)
    (rs : List (Rule S)) (s : σ) (hs : Q s) (hok : (eachRule f s rs).2.2 = none) :
    eachRule f (M s) rs = (M (eachRule f s rs).1, (eachRule f s rs).2) ∧ Q (eachRule f s rs).1 := by
  induction rs generalizing s with
  | nil => exact ⟨rfl, hs⟩
  | cons r rs ih =>
    rw [eachRule_cons] at hok
    cases he : (f s r).2.2 with
    | some e => rw [he] at hok; simp at hok
    | none =>
      rw [he] at hok
      obtain ⟨h1, h2⟩ := hf s r hs he
      obtain ⟨h3, h4⟩ := ih _ h2 hok
      rw [eachRule_cons, eachRule_cons, h1]
      simp only [he, h3]
      exact ⟨trivial, h4⟩

theorem Sees.trigger (h : Sees N P) (w : World S) (hw : P w) (imp : Option (TNorm S)) (r : Rule S) (hok : (r.trigger w imp).2.2 = none) :
    r.trigger (N w) imp = (N (r.trigger w imp).1, (r.trigger w imp).2) ∧ P (r.trigger w imp).1 := by
  unfold Rule.trigger at hok ⊢
  split
  · exact ⟨rfl, hw⟩
  · rename_i hl
    rw [if_neg hl] at hok
    split
    · rename_i hg
      rw [if_pos hg] at hok
      have hm : (FL.modify w r.degree imp r.conclusions).2 = none := by
        generalize FL.modify w r.degree imp r.conclusions = q at hok ⊢
        obtain ⟨w1, e⟩ := q
        cases e with
        | none => rfl
        | some e => simp at hok
      obtain ⟨h1, h2⟩ := h.modify w hw _ _ _ hm
      rw [h1]
      generalize FL.modify w r.degree imp r.conclusions = q at hm h2 ⊢
      obtain ⟨w1, e⟩ := q
      simp only at hm
      subst hm
      exact ⟨rfl, h2⟩
    · exact ⟨rfl, hw⟩

theorem Sees.activateWith (h : Sees N P) (w : World S) (hw : P w) (c : Option (TNorm S)) (d : Option (SNorm S)) (r : Rule S)
    (hok : (r.activateWith w c d).2 = none) : r.activateWith (N w) c d = r.activateWith w c d := by
  unfold Rule.activateWith at hok ⊢
  split
  · rfl
  · rename_i hl
    rw [if_neg hl] at hok
    cases ha : r.antecedent with
    | none => rfl
    | some a =>
      rw [ha] at hok
      simp only at hok ⊢
      cases hd : a.degree w c d with
      | error e => rw [hd] at hok; simp at hok
      | ok x => rw [h.degree w hw a c d x hd]

theorem Sees.selectStep (h : Sees N P) (b : RuleBlock S) (choose : Nat → S → Bool) (s : World S × Nat) (r : Rule S) (hs : P s.1)
    (hok : (b.selectStep choose s r).2.2 = none) : b.selectStep choose (N s.1, s.2) r =
      ((N (b.selectStep choose s r).1.1, (b.selectStep choose s r).1.2), (b.selectStep choose s r).2) ∧
      P (b.selectStep choose s r).1.1 := by
  unfold RuleBlock.selectStep at hok ⊢
  simp only at hok ⊢
  by_cases hl : r.deactivate.isLoaded = true
  · simp only [hl, Bool.not_true, Bool.false_eq_true, if_false] at hok ⊢
    have ha : (r.deactivate.activateWith s.1 b.conjunction b.disjunction).2 = none := by
      generalize r.deactivate.activateWith s.1 b.conjunction b.disjunction = q at hok ⊢
      obtain ⟨r1, e⟩ := q
      cases e with
      | none => rfl
      | some e => simp at hok
    rw [h.activateWith s.1 hs _ _ _ ha]
    generalize r.deactivate.activateWith s.1 b.conjunction b.disjunction = q at hok ha ⊢
    obtain ⟨r1, e⟩ := q
    simp only at ha
    subst ha
    simp only at hok ⊢
    split
    · rename_i hc
      rw [if_pos hc] at hok
      have ht : (r1.trigger s.1 b.implication).2.2 = none := by
        generalize r1.trigger s.1 b.implication = q at hok ⊢
        obtain ⟨w1, r2, e⟩ := q
        cases e with
        | none => rfl
        | some e => simp at hok
      obtain ⟨h1, h2⟩ := h.trigger s.1 hs b.implication r1 ht
      rw [h1]
      revert h2
      cases r1.trigger s.1 b.implication with
      | mk w2 p => obtain ⟨r2, e2⟩ := p; cases e2 <;> exact fun h => ⟨rfl, h⟩
    · exact ⟨rfl, hs⟩
  · simp only [hl, Bool.not_false, if_true]
    exact ⟨trivial, hs⟩

theorem Sees.degreeStep (h : Sees N P) (b : RuleBlock S) (w : World S) (r : Rule S) (hw : P w) (hok : (b.degreeStep w r).2.2 = none) :
    b.degreeStep (N w) r = (N (b.degreeStep w r).1, (b.degreeStep w r).2) ∧ P (b.degreeStep w r).1 := by
  unfold RuleBlock.degreeStep at hok ⊢
  simp only at hok ⊢
  by_cases hl : r.deactivate.isLoaded = true
  · simp only [hl, Bool.not_true, Bool.false_eq_true, if_false] at hok ⊢
    rw [h.activateWith w hw _ _ _ hok]
    exact ⟨rfl, hw⟩
  · simp only [hl, Bool.not_false, if_true]
    exact ⟨trivial, hw⟩

theorem Sees.proportionalStep (h : Sees N P) (b : RuleBlock S) (sum : S) (w : World S) (r : Rule S) (hw : P w)
    (hok : (b.proportionalStep sum w r).2.2 = none) :
    b.proportionalStep sum (N w) r = (N (b.proportionalStep sum w r).1, (b.proportionalStep sum w r).2) ∧
    P (b.proportionalStep sum w r).1 := by
  unfold RuleBlock.proportionalStep at hok ⊢
  split
  · exact ⟨rfl, hw⟩
  · rename_i hl
    rw [if_neg hl] at hok
    exact h.trigger w hw _ _ hok

theorem Sees.triggerAll (h : Sees N P) (imp : Option (TNorm S)) (is : List Nat) (w : World S) (hw : P w)
    (rs : List (Rule S)) (hok : (triggerAll imp w rs is).2.2 = none) :
    triggerAll imp (N w) rs is = (N (triggerAll imp w rs is).1, (triggerAll imp w rs is).2) ∧ P (triggerAll imp w rs is).1 := by
  induction is generalizing w rs with
  | nil => exact ⟨rfl, hw⟩
  | cons i is ih =>
    rw [triggerAll_cons] at hok
    rw [triggerAll_cons, triggerAll_cons]
    cases hr : rs[i]? with
    | none => exact ⟨rfl, hw⟩
    | some r =>
      rw [hr] at hok
      simp only at hok
      cases he : (r.trigger w imp).2.2 with
      | some e => rw [he] at hok; simp at hok
      | none =>
        rw [he] at hok
        obtain ⟨h1, h2⟩ := h.trigger w hw imp r he
        simp only [h1, he]
        exact ih _ h2 _ hok

theorem Sees.activate [Heap S] (h : Sees N P) (b : RuleBlock S) (w : World S) (hw : P w) (hok : (b.activate w).2.2 = none) :
    b.activate (N w) = (N (b.activate w).1, (b.activate w).2) ∧ P (b.activate w).1 := by
  have hsel : ∀ choose rs, (eachRule (b.selectStep choose) (w, 0) rs).2.2 = none → eachRule (b.selectStep choose) (N w, 0) rs =
      ((N (eachRule (b.selectStep choose) (w, 0) rs).1.1, (eachRule (b.selectStep choose) (w, 0) rs).1.2),
        (eachRule (b.selectStep choose) (w, 0) rs).2) ∧ P (eachRule (b.selectStep choose) (w, 0) rs).1.1 :=
    fun choose rs => eachRule_sees (f := b.selectStep choose) (fun s => (N s.1, s.2)) (fun s => P s.1)
      (fun s r hs => h.selectStep b choose s r hs) rs (w, 0) hw
  have hdeg := eachRule_sees (f := b.degreeStep) N P (fun s r hs => h.degreeStep b s r hs) b.rules w hw
  have hord : ∀ (less : S → S → Bool) (n : Int), (b.activateOrdered less n w).2.2 = none → b.activateOrdered less n (N w) =
      (N (b.activateOrdered less n w).1, (b.activateOrdered less n w).2) ∧ P (b.activateOrdered less n w).1 := by
    intro less n hok
    unfold activateOrdered at hok ⊢
    have hd : (eachRule b.degreeStep w b.rules).2.2 = none := by
      generalize eachRule b.degreeStep w b.rules = q at hok ⊢
      obtain ⟨w1, rs1, e⟩ := q
      cases e with
      | none => rfl
      | some e => simp at hok
    obtain ⟨h1, h2⟩ := hdeg hd
    rw [h1]
    generalize eachRule b.degreeStep w b.rules = q at hok h2 hd ⊢
    obtain ⟨w1, rs1, e1⟩ := q
    simp only at hd
    subst hd
    exact h.triggerAll _ _ _ h2 _ hok
  have hby : ∀ a, (b.activateBy a w).2.2 = none → b.activateBy a (N w) = (N (b.activateBy a w).1, (b.activateBy a w).2) ∧ P (b.activateBy a w).1 := by
    intro a hok
    cases a with
    | general =>
      obtain ⟨h1, h2⟩ := hsel (fun _ _ => true) b.rules hok
      exact ⟨by simp only [activateBy, activateGeneral, h1], h2⟩
    | first n t =>
      obtain ⟨h1, h2⟩ := hsel (firstChoice n t) b.rules hok
      exact ⟨by simp only [activateBy, activateFirst, h1], h2⟩
    | last n t =>
      obtain ⟨h1, h2⟩ := hsel (firstChoice n t) b.rules.reverse hok
      exact ⟨by simp only [activateBy, activateLast, h1], h2⟩
    | highest n => exact hord _ _ hok
    | lowest n => exact hord _ _ hok
    | threshold c v =>
      obtain ⟨h1, h2⟩ := hsel (fun _ d => c.activates d v) b.rules hok
      exact ⟨by simp only [activateBy, activateThreshold, h1], h2⟩
    | proportional =>
      replace hok : (b.activateProportional w).2.2 = none := hok
      show b.activateProportional (N w) = (N (b.activateProportional w).1, (b.activateProportional w).2) ∧ P (b.activateProportional w).1
      unfold activateProportional at hok ⊢
      have hd : (eachRule b.degreeStep w b.rules).2.2 = none := by
        generalize eachRule b.degreeStep w b.rules = q at hok ⊢
        obtain ⟨w1, rs1, e⟩ := q
        cases e with
        | none => rfl
        | some e => simp at hok
      obtain ⟨h1, h2⟩ := hdeg hd
      rw [h1]
      generalize eachRule b.degreeStep w b.rules = q at hok h2 hd ⊢
      obtain ⟨w1, rs1, e1⟩ := q
      simp only at hd
      subst hd
      exact eachRule_sees N P (fun s r hs => h.proportionalStep b _ s r hs) rs1 w1 h2 hok
  obtain ⟨h1, h2⟩ := hby (b.activation.getD .general) hok
  exact ⟨by simp only [RuleBlock.activate, h1], h2⟩

end RuleBlock

namespace Engine

theorem activateBlocks_sees [Heap S] {N : World S → World S} {P : World S → Prop} (h : RuleBlock.Sees N P)
    (bs : List (RuleBlock S)) (w : World S) (hw : P w) (hok : (activateBlocks w bs).2.2 = none) :
    activateBlocks (N w) bs = (N (activateBlocks w bs).1, (activateBlocks w bs).2) ∧ P (activateBlocks w bs).1 := by
  induction bs generalizing w with
  | nil => exact ⟨rfl, hw⟩
  | cons b bs ih =>
    rw [activateBlocks_cons] at hok
    rw [activateBlocks_cons, activateBlocks_cons]
    split
    · rename_i hen
      rw [if_pos hen] at hok
      obtain ⟨h1, h2⟩ := ih w hw hok
      rw [h1]
      exact ⟨rfl, h2⟩
    · rename_i hen
      rw [if_neg hen] at hok
      cases he : (b.activate w).2.2 with
      | some e => rw [he] at hok; simp at hok
      | none =>
        rw [he] at hok
        obtain ⟨h1, h2⟩ := h.activate b w hw he
        obtain ⟨h3, h4⟩ := ih _ h2 hok
        simp only [h1, he, h3]
        exact ⟨trivial, h4⟩

end Engine

/-! ### more variables -/

/-- the membership of the term does not depend on the variables of the engine -/
def Term.Closed (t : Term S) : Prop := ∀ (ctx ctx' : Ctx S) (x : S), t.membership ctx x = t.membership ctx' x

/-- every term but Linear and Function is closed -/
theorem Term.closed_of_kind {t : Term S} (hl : ∀ c e, t.kind ≠ .linear c e) (hf : ∀ f, t.kind ≠ .function f) : t.Closed := by
  intro ctx ctx' x
  unfold Term.membership
  cases hk : t.kind with
  | shape s => rfl
  | discrete xy => rfl
  | constant v => rfl
  | linear c e => exact absurd hk (hl c e)
  | function f => exact absurd hk (hf f)

/-- the variables and further ones behind them -/
def World.extend (I : List (Variable S)) (O : List (OutputVariable S)) (w : World S) : World S := ⟨w.inputs ++ I, w.outputs ++ O⟩

/-- all terms of the variables, and all terms in the fuzzy outputs, are closed -/
def World.Closed (w : World S) : Prop :=
  (∀ v ∈ w.inputs, ∀ t ∈ v.terms, t.Closed) ∧
  ∀ o ∈ w.outputs, (∀ t ∈ o.terms, t.Closed) ∧ ∀ a ∈ o.fuzzy.terms, a.term.Closed

theorem World.extend_termDegree (I : List (Variable S)) (O : List (OutputVariable S)) {w : World S} (hw : w.Closed) (v : VarRef) (j : Nat) (x : S)
    (h : w.termDegree v j = .ok x) : (w.extend I O).termDegree v j = .ok x := by
  cases v with
  | input i =>
    simp only [World.termDegree] at h ⊢
    cases hv : w.inputs[i]? with
    | none => rw [hv] at h; simp at h
    | some v =>
      have hv' : (w.extend I O).inputs[i]? = some v := by
        show (w.inputs ++ I)[i]? = some v
        rw [List.getElem?_append_left (List.getElem?_eq_some_iff.1 hv).1, hv]
      rw [hv] at h
      rw [hv']
      simp only at h ⊢
      cases ht : v.terms[j]? with
      | none => rw [ht] at h; simp at h
      | some t =>
        rw [ht] at h
        simp only at h ⊢
        rw [hw.1 v (List.mem_of_getElem? hv) t (List.mem_of_getElem? ht) _ w.ctx, h]
  | output i =>
    simp only [World.termDegree] at h ⊢
    cases hv : w.outputs[i]? with
    | none => rw [hv] at h; simp at h
    | some v =>
      have hv' : (w.extend I O).outputs[i]? = some v := by
        show (w.outputs ++ O)[i]? = some v
        rw [List.getElem?_append_left (List.getElem?_eq_some_iff.1 hv).1, hv]
      rw [hv] at h
      rw [hv']
      exact h

omit [Scalar S] in
theorem World.extend_isEnabled (I : List (Variable S)) (O : List (OutputVariable S)) (w : World S) (v : VarRef) (b : Bool)
    (h : w.isEnabled v = some b) : (w.extend I O).isEnabled v = some b := by
  cases v with
  | input i =>
    simp only [World.isEnabled, Option.map_eq_some_iff] at h
    obtain ⟨v, hv, hb⟩ := h
    show (w.inputs ++ I)[i]?.map Variable.enabled = some b
    rw [List.getElem?_append_left (List.getElem?_eq_some_iff.1 hv).1, hv, ← hb]
    rfl
  | output i =>
    simp only [World.isEnabled, Option.map_eq_some_iff] at h
    obtain ⟨v, hv, hb⟩ := h
    show (w.outputs ++ O)[i]?.map (fun o => o.enabled) = some b
    rw [List.getElem?_append_left (List.getElem?_eq_some_iff.1 hv).1, hv, ← hb]
    rfl

theorem Proposition.extend_degree (I : List (Variable S)) (O : List (OutputVariable S)) {w : World S} (hw : w.Closed) (p : Proposition S) (x : S)
    (h : p.degree w = .ok x) : p.degree (w.extend I O) = .ok x := by
  unfold Proposition.degree at h ⊢
  cases he : w.isEnabled p.var with
  | none => rw [he] at h; simp at h
  | some b =>
    rw [he] at h
    rw [World.extend_isEnabled I O w p.var b he]
    cases b with
    | false => exact h
    | true =>
      simp only at h ⊢
      split
      · rename_i hl
        rw [if_pos hl] at h
        exact h
      · rename_i hl
        rw [if_neg hl] at h
        cases hj : p.term with
        | none => rw [hj] at h; simp at h
        | some j =>
          rw [hj] at h
          simp only at h ⊢
          cases hd : w.termDegree p.var j with
          | error e => rw [hd] at h; simp [bind, Except.bind] at h
          | ok y =>
            rw [hd] at h
            rw [World.extend_termDegree I O hw p.var j y hd]
            exact h

theorem Expr.extend_degree (I : List (Variable S)) (O : List (OutputVariable S)) {w : World S} (hw : w.Closed) (e : Expr S) (c : Option (TNorm S))
    (d : Option (SNorm S)) (x : S) (h : e.degree w c d = .ok x) : e.degree (w.extend I O) c d = .ok x := by
  induction e generalizing x with
  | prop p => exact p.extend_degree I O hw x h
  | conj l r ihl ihr =>
    simp only [Expr.degree] at h ⊢
    cases c with
    | none => simp at h
    | some k =>
      simp only at h ⊢
      cases hl : l.degree w (some k) d with
      | error e => rw [hl] at h; simp [bind, Except.bind] at h
      | ok a =>
        cases hr : r.degree w (some k) d with
        | error e => rw [hl, hr] at h; simp [bind, Except.bind] at h
        | ok b =>
          rw [hl, hr] at h
          rw [ihl a hl, ihr b hr]
          exact h
  | disj l r ihl ihr =>
    simp only [Expr.degree] at h ⊢
    cases d with
    | none => simp at h
    | some k =>
      simp only at h ⊢
      cases hl : l.degree w c (some k) with
      | error e => rw [hl] at h; simp [bind, Except.bind] at h
      | ok a =>
        cases hr : r.degree w c (some k) with
        | error e => rw [hl, hr] at h; simp [bind, Except.bind] at h
        | ok b =>
          rw [hl, hr] at h
          rw [ihl a hl, ihr b hr]
          exact h

theorem extend_modifyLoop (I : List (Variable S)) (O : List (OutputVariable S)) (imp : Option (TNorm S)) (ps : List (Proposition S)) (w : World S) (d : S)
    (hw : w.Closed) (hok : (modifyLoop imp w d ps).2 = none) :
    modifyLoop imp (w.extend I O) d ps = ((modifyLoop imp w d ps).1.extend I O, none) ∧ (modifyLoop imp w d ps).1.Closed := by
  induction ps generalizing w d with
  | nil => exact ⟨rfl, hw⟩
  | cons p ps ih =>
    obtain ⟨var, hedges, term⟩ := p
    cases var with
    | input i => simp [modifyLoop] at hok
    | output i =>
      cases term with
      | none => simp [modifyLoop] at hok
      | some j =>
        simp only [modifyLoop] at hok ⊢
        cases ho : w.outputs[i]? with
        | none => rw [ho] at hok; simp at hok
        | some o =>
          have hi := (List.getElem?_eq_some_iff.1 ho).1
          have ho' : (w.extend I O).outputs[i]? = some o := by
            show (w.outputs ++ O)[i]? = some o
            rw [List.getElem?_append_left hi, ho]
          rw [ho] at hok
          rw [ho']
          simp only at hok ⊢
          split
          · rename_i hen
            rw [if_pos hen] at hok
            exact ih w d hw hok
          · rename_i hen
            rw [if_neg hen] at hok
            cases hd : applyHedges hedges d with
            | error e => rw [hd] at hok; simp at hok
            | ok d' =>
              rw [hd] at hok
              simp only at hok ⊢
              cases ht : o.terms[j]? with
              | none => rw [ht] at hok; simp at hok
              | some t =>
                rw [ht] at hok
                simp only at hok ⊢
                have hs : (w.extend I O).outputs.set i { o with fuzzy := o.fuzzy.addTerm ⟨j, t, d', imp⟩ } =
                    w.outputs.set i { o with fuzzy := o.fuzzy.addTerm ⟨j, t, d', imp⟩ } ++ O := List.set_append_left i _ hi
                rw [hs]
                refine ih { w with outputs := w.outputs.set i { o with fuzzy := o.fuzzy.addTerm ⟨j, t, d', imp⟩ } } d' ⟨hw.1, ?_⟩ hok
                intro q hq
                rcases List.mem_or_eq_of_mem_set hq with hq | rfl
                · exact hw.2 q hq
                · have h0 := hw.2 o (List.mem_of_getElem? ho)
                  refine ⟨h0.1, ?_⟩
                  intro a ha
                  simp only [Aggregated.addTerm, List.mem_append, List.mem_singleton] at ha
                  rcases ha with ha | rfl
                  · exact h0.2 a ha
                  · exact h0.1 t (List.mem_of_getElem? ht)

theorem World.sees_extend (I : List (Variable S)) (O : List (OutputVariable S)) : RuleBlock.Sees (World.extend I O) World.Closed where
  degree w hw e c d x h := e.extend_degree I O hw c d x h
  modify w hw x imp ps hok := by
    unfold modify at hok ⊢
    split
    · rename_i hl
      rw [if_pos hl] at hok
      simp at hok
    · rename_i hl
      rw [if_neg hl] at hok
      exact extend_modifyLoop I O imp ps w x hw hok

/-! ### defuzzification -/

theorem OutputVariable.closed_defuzzify {o : OutputVariable S} (h : ∀ a ∈ o.fuzzy.terms, a.term.Closed) (ctx ctx' : Ctx S) :
    o.defuzzify ctx' = o.defuzzify ctx := by
  have hr : o.fuzzy.rename id = o.fuzzy := by
    have : (Activated.rename id : Activated S → Activated S) = id := rfl
    simp only [Aggregated.rename, this, List.map_id]
  have hd : ∀ d : Defuzzifier, d.defuzzify ctx' o.fuzzy o.minimum o.maximum = d.defuzzify ctx o.fuzzy o.minimum o.maximum := by
    intro d
    have := Defuzzifier.rename_defuzzify (s := id) Function.injective_id d (g := o.fuzzy) o.minimum o.maximum (ctx := ctx) (ctx' := ctx')
      (fun a ha x => h a ha ctx' ctx x)
    rwa [hr] at this
  unfold OutputVariable.defuzzify
  simp only [hd]

namespace Engine

theorem defuzzifyAll_extend (ins I : List (Variable S)) (O os done : List (OutputVariable S)) (h : ∀ o ∈ os, ∀ a ∈ o.fuzzy.terms, a.term.Closed)
    (hok : (defuzzifyAll ins done os).2 = none) :
    defuzzifyAll (ins ++ I) done (os ++ O) = defuzzifyAll (ins ++ I) (defuzzifyAll ins done os).1 O := by
  induction os generalizing done with
  | nil => simp [defuzzifyAll]
  | cons o os ih =>
    rw [defuzzifyAll_cons] at hok
    rw [List.cons_append, defuzzifyAll_cons, defuzzifyAll_cons ins,
      OutputVariable.closed_defuzzify (h o (by simp)) (World.ctx ⟨ins, done ++ o :: os⟩)]
    cases hd : o.defuzzify (World.ctx ⟨ins, done ++ o :: os⟩) with
    | error e => rw [hd] at hok; simp at hok
    | ok o' =>
      rw [hd] at hok
      exact ih (done ++ [o']) (fun q hq => h q (by simp [hq])) hok

/-- C108: take an engine that is processed without an exception and whose terms do not read variables (no Linear, no formula of
variables).  Add input variables and output variables behind the ones it has, whatever they are.  Then the output variables it had
end up as before in every respect, the rules and rule blocks too; the fuzzy outputs of the added ones are empty, and there is no
exception if none of the added output variables is enabled.  Partial: terms that read variables are excluded. -/
theorem process_extend_partial [Heap S] (e : Engine S) (I : List (Variable S)) (O : List (OutputVariable S))
    (hi : ∀ v ∈ e.inputs, ∀ t ∈ v.terms, t.Closed) (ho : ∀ o ∈ e.outputs, ∀ t ∈ o.terms, t.Closed) (hok : e.process.2 = none) :
    ∃ O', ({ e with inputs := e.inputs ++ I, outputs := e.outputs ++ O } : Engine S).process.1 =
        { e.process.1 with inputs := e.inputs ++ I, outputs := e.process.1.outputs ++ O' } ∧
      List.Forall₂ (fun o o' : OutputVariable S => o'.fuzzy.terms = [] ∧ (o.enabled = false → o'.value = o.value)) O O' ∧
      ((∀ o ∈ O, o.enabled = false) →
        ({ e with inputs := e.inputs ++ I, outputs := e.outputs ++ O } : Engine S).process.2 = none) := by
  set e' : Engine S := { e with inputs := e.inputs ++ I, outputs := e.outputs ++ O } with he'
  set O0 : List (OutputVariable S) := O.map fun o => { o with fuzzy := o.fuzzy.clear } with hO0
  have hcl : e'.cleared = e.cleared.extend I O0 := by
    simp only [cleared, World.extend, he', hO0, List.map_append]
  have hc : e.cleared.Closed := by
    refine ⟨hi, ?_⟩
    intro o hm
    obtain ⟨q, hq, rfl⟩ := List.mem_map.1 hm
    exact ⟨ho q hq, by simp [Aggregated.clear]⟩
  have hb : (activateBlocks e.cleared e.blocks).2.2 = none := by
    rw [process_eq] at hok
    split at hok
    · simp at hok
    · assumption
  obtain ⟨h1, h2⟩ := activateBlocks_sees (World.sees_extend I O0) e.blocks e.cleared hc hb
  have hin : (activateBlocks e.cleared e.blocks).1.inputs = e.inputs := (activateBlocks_frame e.blocks e.cleared).inputs
  rw [process_eq, hb] at hok
  simp only at hok
  have hd := defuzzifyAll_extend (activateBlocks e.cleared e.blocks).1.inputs I O0 (activateBlocks e.cleared e.blocks).1.outputs []
    (fun o hm => (h2.2 o hm).2) hok
  have hblocks : e'.blocks = e.blocks := rfl
  have hp : e'.process = ({ e.process.1 with
      inputs := e.inputs ++ I
      outputs := (defuzzifyAll (e.inputs ++ I) e.process.1.outputs O0).1 }, (defuzzifyAll (e.inputs ++ I) e.process.1.outputs O0).2) := by
    rw [process_eq, process_eq e, hblocks, hcl, h1, hb]
    rw [hin] at hd
    simp only [World.extend, hin, hd]
    rfl
  obtain ⟨O', h3, h4⟩ := defuzzifyAll_frame (e.inputs ++ I) O0 e.process.1.outputs
  refine ⟨O', ?_, ?_, ?_⟩
  · rw [hp]
    simp only [h3]
  · rw [hO0, List.forall₂_map_left_iff] at h4
    refine h4.imp ?_
    rintro o o' ⟨k1, k2⟩
    refine ⟨by rw [k1]; rfl, fun hen => by rw [k2 hen]⟩
  · intro hen
    rw [hp]
    have : ∀ (os done : List (OutputVariable S)), (∀ o ∈ os, o.enabled = false) → (defuzzifyAll (e.inputs ++ I) done os).2 = none := by
      intro os
      induction os with
      | nil => intro done _; rfl
      | cons o os ih =>
        intro done hall
        rw [defuzzifyAll_cons]
        have : o.defuzzify (World.ctx ⟨e.inputs ++ I, done ++ o :: os⟩) = .ok o := by
          unfold OutputVariable.defuzzify
          rw [hall o (by simp)]
          rfl
        rw [this]
        exact ih _ fun q hq => hall q (by simp [hq])
    refine this O0 _ ?_
    intro o hm
    obtain ⟨q, hq, rfl⟩ := List.mem_map.1 hm
    exact hen q hq

end Engine
end FL

namespace FL.ExtraDemo
open Scalar FL.Rounded FL.Rounded.Demo

local instance : Heap (Flt dbl) := RuleBlock.stableHeap _

/-- the engine with another value of x, other terms of y, and more variables -/
def controller (v : Flt dbl) (ts : List (Term (Flt dbl))) (I : List (Variable (Flt dbl))) (O : List (OutputVariable (Flt dbl))) : Engine (Flt dbl) :=
  ⟨[], [], { input with value := v } :: I, { output with terms := ts } :: O, [block]⟩

/-- z is 5 and has no terms -/
def z : Variable (Flt dbl) := { Variable.new (cs! "z") (lit 0) (lit 9) [] with value := lit 5 }

/-- the theorem applies to it, for every value of x and all variables added -/
example (v : Flt dbl) (I : List (Variable (Flt dbl))) (O : List (OutputVariable (Flt dbl)))
    (hok : (controller v output.terms [] []).process.2 = none) :
    (controller v output.terms I O).process.1.outputs.head? = (controller v output.terms [] []).process.1.outputs.head? := by
  obtain ⟨O', h, -, -⟩ := Engine.process_extend_partial (controller v output.terms [] []) I O
    (by
      simp only [controller, forall_eq, input, Variable.new, List.mem_cons, List.not_mem_nil, or_false]
      rintro t (rfl | rfl) <;> exact Term.closed_of_kind (by simp [term]) (by simp [term]))
    (by
      simp only [controller, forall_eq, output, OutputVariable.new, Variable.new, List.mem_cons, List.not_mem_nil, or_false]
      rintro t (rfl | rfl) <;> exact Term.closed_of_kind (by simp) (by simp)) hok
  have hlen := (Engine.process_variables (controller v output.terms [] [])).2.length_eq
  show ({ controller v output.terms [] [] with
    inputs := (controller v output.terms [] []).inputs ++ I
    outputs := (controller v output.terms [] []).outputs ++ O } : Engine (Flt dbl)).process.1.outputs.head? = _
  rw [h]
  show ((controller v output.terms [] []).process.1.outputs ++ O').head? = _
  cases ho : (controller v output.terms [] []).process.1.outputs with
  | nil => rw [ho] at hlen; simp [controller] at hlen
  | cons o os => rfl

/-- and this is what is computed: the added output variable gets its default value, NaN -/
example : (controller (lit 0) output.terms [] []).process.2 = none ∧ (controller (lit 0) output.terms [] []).process.1.outputValues = [lit 1] ∧
    (controller (lit 0) output.terms [z] [output]).process.2 = none ∧
    (controller (lit 0) output.terms [z] [output]).process.1.outputValues = [lit 1, nan] := by decide +kernel

/-- y is x + 4 -/
def line : Term (Flt dbl) := ⟨cs! "line", lit 1, .linear [lit 1, lit 4] true⟩

/-- **C108 is violated by Linear**: with one more input variable, the constant becomes a coefficient. -/
theorem linear_violated :
    (controller (lit 0) [line, line] [] []).process.2 = none ∧ (controller (lit 0) [line, line] [] []).process.1.outputValues = [lit 4] ∧
    (controller (lit 0) [line, line] [z] []).process.2 = none ∧ (controller (lit 0) [line, line] [z] []).process.1.outputValues = [lit 20] := by
  decide +kernel

/-- y is z, a variable of the formula itself, which is 3 -/
def formula : Term (Flt dbl) := ⟨cs! "f", lit 1, .function ⟨cs! "z", some (.var (cs! "z")), true, Env.set (fun _ => none) (cs! "z") (lit 3)⟩⟩

/-- **C108 is violated by Function**: a variable of the engine replaces the variable of the formula of that name. -/
theorem formula_violated :
    (controller (lit 0) [formula, formula] [] []).process.2 = none ∧ (controller (lit 0) [formula, formula] [] []).process.1.outputValues = [lit 3] ∧
    (controller (lit 0) [formula, formula] [z] []).process.2 = none ∧ (controller (lit 0) [formula, formula] [z] []).process.1.outputValues = [lit 5] := by
  decide +kernel

/-- **C108 is violated by exceptions**: an added output variable that is enabled and has no defuzzifier raises one; the other
variables have got their values by then. -/
theorem exception_violated :
    (controller (lit 0) output.terms [] [{ output with defuzzifier := none }]).process.2 = some .missingDefuzzifier ∧
    (controller (lit 0) output.terms [] [{ output with defuzzifier := none }]).process.1.outputValues = [lit 1, nan] := by decide +kernel

/-- **Loading rules again is another matter**: an added input variable with the name of an output variable is found first in
antecedents. -/
theorem capture_violated :
    (World.vocabulary ⟨[input], [output]⟩).find (cs! "y") = some (.output 0) ∧
    (World.vocabulary ⟨[input, { z with name := cs! "y" }], [output]⟩).find (cs! "y") = some (.input 1) := by decide +kernel

end FL.ExtraDemo
