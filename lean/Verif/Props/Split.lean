/-
C95: a rule with several conclusions is the same as several rules with one conclusion each.
-/
import Verif.Props.RuleOrder

namespace FL
open Scalar

section split
variable {S : Type} [Scalar S]

/-- The rule can be written as the given rules: these have the same antecedent and weight, and share its conclusions in
order.  Only the last may have hedges. -/
inductive Rule.Splits : Rule S → List (Rule S) → Prop
  | one (r : Rule S) : Splits r [r]
  | more (r : Rule S) (ps qs : List (Proposition S)) (t1 t2 t3 t4 : Str) (rs : List (Rule S)) (hc : r.conclusions = ps ++ qs)
      (hp : ps ≠ []) (hq : qs ≠ []) (hh : ∀ p ∈ ps, p.hedges = [])
      (h : Splits { r with
        text := t1
        consequentText := t2
        conclusions := qs } rs) :
      Splits r ({ r with
        text := t3
        consequentText := t4
        conclusions := ps } :: rs)

/-- conclusions without hedges leave the degree to those after them -/
theorem modifyLoop_split (imp : Option (TNorm S)) (w : World S) (d : S) (ps qs : List (Proposition S)) (h : ∀ p ∈ ps, p.hedges = []) :
    modifyLoop imp w d (ps ++ qs) = match modifyLoop imp w d ps with
      | (w, some e) => (w, some e)
      | (w, none) => modifyLoop imp w d qs := by
  induction ps generalizing w with
  | nil => simp [modifyLoop]
  | cons p ps ih =>
    have ih := fun w => ih w fun q hq => h q (List.mem_cons_of_mem _ hq)
    have hp := h p List.mem_cons_self
    obtain ⟨v, hs, t⟩ := p
    simp only at hp
    subst hp
    match v, t with
    | .input i, t => simp [modifyLoop]
    | .output i, none => simp [modifyLoop]
    | .output i, some j =>
      cases ho : w.outputs[i]? with
      | none => simp [modifyLoop, ho]
      | some o =>
        cases hen : o.enabled with
        | false => simp [modifyLoop, ho, hen, ih]
        | true =>
          have h0 : applyHedges ([] : List (Hedge S)) d = .ok d := rfl
          cases ht : o.terms[j]? with
          | none => simp [modifyLoop, ho, hen, h0, ht]
          | some t => simp [modifyLoop, ho, hen, h0, ht, ih]

namespace RuleBlock

/-- what a step of a loop does besides changing the rule and counting -/
def effect {κ : Type} {ρ : Type} (q : (World S × κ) × ρ × Option Err) : World S × Option Err := (q.1.1, q.2.2)

/-- the step that activates a rule and, if it is chosen by its degree, triggers it -/
theorem selectStep_effect (b : RuleBlock S) (choose : S → Bool) (w : World S) (k : Nat) (r : Rule S) (a : Expr S)
    (ha : r.antecedent = some a) (hc : r.conclusions ≠ []) :
    effect (b.selectStep (fun _ => choose) (w, k) r) = match a.degree w b.conjunction b.disjunction with
      | .error e => (w, some e)
      | .ok d =>
        if choose (r.weight * d) && (r.enabled && Op.isGt (r.weight * d) (lit 0)) then
          modifyLoop b.implication w (r.weight * d) r.conclusions
        else (w, none) := by
  have hl : r.deactivate.isLoaded = true := by
    cases h : r.conclusions with
    | nil => exact absurd h hc
    | cons p ps => simp [Rule.isLoaded, Rule.deactivate, ha, h]
  have ha' : r.deactivate.antecedent = some a := ha
  have hc' : r.conclusions.isEmpty = false := by
    cases h : r.conclusions with
    | nil => exact absurd h hc
    | cons p ps => rfl
  simp only [selectStep, hl, Bool.not_true, Bool.false_eq_true, if_false, Rule.activateWith, ha']
  cases hd : a.degree w b.conjunction b.disjunction with
  | error e => rfl
  | ok d =>
    simp only
    cases hch : choose (r.weight * d) with
    | false => simp [effect, Rule.deactivate, hch]
    | true =>
      have hl2 : Rule.isLoaded { r.deactivate with degree := r.deactivate.weight * d } = true := hl
      cases hg : (r.enabled && Op.isGt (r.weight * d) (lit 0)) with
      | false => simp [effect, Rule.deactivate, hch, Rule.trigger, Rule.isLoaded, hg, ha, hc']
      | true =>
        cases hm : modifyLoop b.implication w (r.weight * d) r.conclusions with
        | mk w' e => cases e <;> simp [effect, Rule.deactivate, hch, Rule.trigger, Rule.isLoaded, hg, ha, hc', modify, hm]

/-- the rules into which a rule is split do together what it does -/
theorem splits_effect (b : RuleBlock S) (choose : S → Bool) (w : World S) (k : Nat) {r : Rule S} {rs : List (Rule S)}
    (h : r.Splits rs) (hin : r.OnInputs) (xs : List (VarRef × Activated S)) :
    effect (eachRule (b.selectStep fun _ => choose) (w.append xs, k) rs) =
      effect (b.selectStep (fun _ => choose) (w.append xs, k) r) := by
  induction h generalizing k xs with
  | one r =>
    cases hq : b.selectStep (fun _ => choose) (w.append xs, k) r with
    | mk s q =>
      obtain ⟨r', e⟩ := q
      cases e <;> simp [eachRule, hq, effect]
  | more r ps qs t1 t2 t3 t4 rs hc hp hq hh h ih =>
    set r1 : Rule S := { r with
      text := t3
      consequentText := t4
      conclusions := ps } with hr1
    set r2 : Rule S := { r with
      text := t1
      consequentText := t2
      conclusions := qs } with hr2
    have hin1 : r1.OnInputs := hin
    have hin2 : r2.OnInputs := hin
    obtain ⟨A, k1, r1', e1, h1⟩ := selectStep_steady b (fun _ => choose) w r1 hin1 k
    have h1 := h1 xs
    cases ha : r.antecedent with
    | none =>
      have hun : ∀ q : Rule S, q.antecedent = none → ∀ s : World S × Nat,
          b.selectStep (fun _ => choose) s q = (s, q.deactivate, none) := by
        intro q hq s
        simp [selectStep, Rule.isLoaded, Rule.deactivate, hq]
      have h2 := ih k hin2 xs
      rw [hun r2 ha] at h2
      rw [hun r ha]
      simp only [eachRule, hun r1 ha]
      exact h2
    | some a =>
      have hdeg := fun ys => Expr.degree_append w ys b.conjunction b.disjunction a (hin a ha)
      have E := selectStep_effect b choose (w.append xs) k r a ha (by rw [hc]; simp [hp])
      have E1 := selectStep_effect b choose (w.append xs) k r1 a ha hp
      rw [h1] at E1
      rw [E]
      simp only [eachRule, h1]
      simp only [effect, hr1] at E1
      cases hd : a.degree w b.conjunction b.disjunction with
      | error e =>
        rw [hdeg, hd] at E1 ⊢
        simp only [Prod.mk.injEq] at E1
        obtain ⟨h3, rfl⟩ := E1
        simp only [effect, h3]
      | ok d =>
        rw [hdeg, hd] at E1 ⊢
        simp only at E1 ⊢
        cases hg : (choose (r.weight * d) && (r.enabled && Op.isGt (r.weight * d) (lit 0))) with
        | false =>
          rw [hg] at E1
          simp only [Bool.false_eq_true, if_false, Prod.mk.injEq] at E1
          obtain ⟨h3, rfl⟩ := E1
          have h2 := ih k1 hin2 (xs ++ A)
          rw [selectStep_effect b choose _ k1 r2 a ha hq, hdeg, hd] at h2
          simp only [hr2, hg, Bool.false_eq_true, if_false, h3] at h2
          simpa [effect, h3] using h2
        | true =>
          rw [hg] at E1
          simp only [if_true] at E1 ⊢
          rw [hc, modifyLoop_split _ _ _ _ _ hh, ← E1]
          cases e1 with
          | some e => rfl
          | none =>
            have h2 := ih k1 hin2 (xs ++ A)
            rw [selectStep_effect b choose _ k1 r2 a ha hq, hdeg, hd] at h2
            simp only [hr2, hg, if_true] at h2
            simpa [effect] using h2

omit [Scalar S] in
theorem eachRule_append_effect {κ : Type} (f : World S × κ → Rule S → (World S × κ) × Rule S × Option Err) (s : World S × κ)
    (as bs : List (Rule S)) :
    effect (eachRule f s (as ++ bs)) = match (eachRule f s as).2.2 with
      | some e => ((eachRule f s as).1.1, some e)
      | none => effect (eachRule f (eachRule f s as).1 bs) := by
  induction as generalizing s with
  | nil => rfl
  | cons r as ih =>
    cases hq : f s r with
    | mk s' q =>
      obtain ⟨r', e⟩ := q
      cases e with
      | some e => simp [eachRule, hq, effect]
      | none =>
        have := ih s'
        simp only [List.cons_append, eachRule, hq]
        simpa [effect] using this

/-- a loop over groups of rules -/
theorem groups_effect (b : RuleBlock S) (choose : S → Bool) (w : World S) {rs : List (Rule S)} {gs : List (List (Rule S))}
    (h : List.Forall₂ Rule.Splits rs gs) (hin : ∀ r ∈ rs, r.OnInputs) (k k' : Nat) (xs : List (VarRef × Activated S)) :
    effect (eachRule (b.selectStep fun _ => choose) (w.append xs, k) gs.flatten) =
      effect (eachRule (b.selectStep fun _ => choose) (w.append xs, k') rs) := by
  induction h generalizing k k' xs with
  | nil => rfl
  | @cons r g rs gs hr _ ih =>
    obtain ⟨A, k1, r', e, h1⟩ := selectStep_steady b (fun _ => choose) w r (hin r List.mem_cons_self) k'
    have h1 := h1 xs
    have hk : effect (b.selectStep (fun _ => choose) (w.append xs, k) r) = effect (b.selectStep (fun _ => choose) (w.append xs, k') r) := by
      unfold selectStep
      simp only
      split
      · rfl
      · split
        · rfl
        · split
          · split <;> rfl
          · rfl
    have h2 := splits_effect b choose w k hr (hin r List.mem_cons_self) xs
    rw [hk, h1] at h2
    rw [List.flatten_cons, eachRule_append_effect]
    generalize eachRule (b.selectStep fun _ => choose) (w.append xs, k) g = q at h2 ⊢
    obtain ⟨⟨w1, k2⟩, rs1, e1⟩ := q
    simp only [effect, Prod.mk.injEq] at h2
    obtain ⟨rfl, rfl⟩ := h2
    cases e1 with
    | some e => simp [eachRule, h1, effect]
    | none =>
      have h3 := ih (fun q hq => hin q (List.mem_cons_of_mem _ hq)) k2 k1 (xs ++ A)
      simp only [h3]
      simp [eachRule, h1, effect]

/-- the activation methods that decide about each rule on its own -/
def _root_.FL.Activation.Single : Activation S → Prop
  | .general => True
  | .threshold _ _ => True
  | _ => False

/-- the second block has the rules of the first, split if the method decides about each rule on its own, and is otherwise the same -/
structure Split (b c : RuleBlock S) : Prop where
  same : c = { b with rules := c.rules }
  rules : c.rules = b.rules ∨ (b.activation.getD .general).Single ∧ ∃ gs, List.Forall₂ Rule.Splits b.rules gs ∧ c.rules = gs.flatten

/-- **C95 (partial).**  A block whose rules are split adds the same to the fuzzy outputs, in the same order, and raises the same exception. -/
theorem activate_split_partial [Heap S] {b c : RuleBlock S} (h : b.Split c) (hin : ∀ r ∈ b.rules, r.OnInputs) (w : World S) :
    (c.activate w).1 = (b.activate w).1 ∧ (c.activate w).2.2 = (b.activate w).2.2 := by
  obtain ⟨hs, hr⟩ := h
  rcases hr with hr | ⟨ha, gs, hg, hr⟩
  · have : c = b := by rw [hs, hr]
    rw [this]
    exact ⟨rfl, rfl⟩
  · have hact : c.activation = b.activation := by rw [hs]
    have hstep : ∀ choose : Nat → S → Bool, c.selectStep choose = b.selectStep choose := by
      intro choose
      rw [hs]
      rfl
    have key := fun choose : S → Bool => groups_effect b choose w hg hin 0 0 []
    rw [World.append_nil] at key
    unfold activate
    rw [hact]
    generalize b.activation.getD .general = a at ha ⊢
    have fin : ∀ choose : S → Bool, (eachRule (b.selectStep fun _ => choose) (w, 0) gs.flatten).1.1 = (eachRule (b.selectStep fun _ => choose) (w, 0) b.rules).1.1 ∧
        (eachRule (b.selectStep fun _ => choose) (w, 0) gs.flatten).2.2 = (eachRule (b.selectStep fun _ => choose) (w, 0) b.rules).2.2 := by
      intro choose
      have := key choose
      simpa [effect] using this
    cases a with
    | general =>
      have := fin fun _ => true
      simp only [activateBy, activateGeneral, hstep, hr]
      exact this
    | threshold o v =>
      have := fin fun d => o.activates d v
      simp only [activateBy, activateThreshold, hstep, hr]
      exact this
    | _ => exact ha.elim

end RuleBlock

namespace Engine

theorem blocks_split_partial [Heap S] {bs cs : List (RuleBlock S)} (h : List.Forall₂ RuleBlock.Split bs cs)
    (hin : ∀ b ∈ bs, ∀ r ∈ b.rules, r.OnInputs) (w : World S) :
    (activateBlocks w cs).1 = (activateBlocks w bs).1 ∧ (activateBlocks w cs).2.2 = (activateBlocks w bs).2.2 := by
  induction h generalizing w with
  | nil => exact ⟨rfl, rfl⟩
  | @cons b c bs cs hbc _ ih =>
    have ih := fun w => ih (fun b hb => hin b (List.mem_cons_of_mem _ hb)) w
    have hen : c.enabled = b.enabled := by rw [hbc.same]
    obtain ⟨h1, h2⟩ := RuleBlock.activate_split_partial hbc (hin b List.mem_cons_self) w
    cases hb : b.enabled with
    | false =>
      rw [hb] at hen
      simp [activateBlocks, hb, hen, ih]
    | true =>
      rw [hb] at hen
      cases hq : b.activate w with
      | mk w1 q =>
        cases hq' : c.activate w with
        | mk w2 q' =>
          obtain ⟨b1, e1⟩ := q
          obtain ⟨c1, e2⟩ := q'
          rw [hq, hq'] at h1 h2
          simp only at h1 h2
          subst h1 h2
          cases e2 <;> simp [activateBlocks, hb, hen, hq, hq', ih]

/-- **C95 (partial: the antecedents are about input variables, only the last of the rules has hedges in its conclusion, and the
method decides about each rule on its own).**  If rules with several conclusions are split, the engine computes the same: the output
variables are the same, with their fuzzy values, and so is the exception. -/
theorem process_split_partial [Heap S] (e : Engine S) (cs : List (RuleBlock S)) (h : List.Forall₂ RuleBlock.Split e.blocks cs)
    (hin : ∀ b ∈ e.blocks, ∀ r ∈ b.rules, r.OnInputs) :
    ({ e with blocks := cs }).process.1.outputs = e.process.1.outputs ∧ ({ e with blocks := cs }).process.2 = e.process.2 := by
  unfold process
  simp only
  generalize hw : (⟨e.inputs, e.outputs.map fun o => { o with fuzzy := o.fuzzy.clear }⟩ : World S) = w
  obtain ⟨h1, h2⟩ := blocks_split_partial h hin w
  cases hq : activateBlocks w e.blocks with
  | mk w1 q =>
    cases hq' : activateBlocks w cs with
    | mk w2 q' =>
      obtain ⟨b1, e1⟩ := q
      obtain ⟨c1, e2⟩ := q'
      rw [hq, hq'] at h1 h2
      simp only at h1 h2
      subst h1 h2
      cases e2 <;> simp

end Engine
end split
end FL

/-! ### examples -/

namespace FL.SplitDemo
open Scalar FL.Rounded FL.Rounded.Demo

local instance : Heap (Flt dbl) := RuleBlock.stableHeap _

/-- if x is … then y is … and y is … -/
def both (x : VarRef) (ps : List (Proposition (Flt dbl))) : Rule (Flt dbl) :=
  { Rule.new [] with
    antecedent := some (.prop ⟨x, [], some 0⟩)
    conclusions := ps }

def one : Proposition (Flt dbl) := ⟨.output 0, [], some 0⟩
def four : Proposition (Flt dbl) := ⟨.output 0, [], some 1⟩
def veryFour : Proposition (Flt dbl) := ⟨.output 0, [.builtin .very], some 1⟩

def run (a : Activation (Flt dbl)) (rules : List (Rule (Flt dbl))) : Engine (Flt dbl) :=
  { engine with blocks := [{ block with
      activation := some a
      rules := rules }] }

/-- "if x is low then y is one and y is very four" as two rules -/
theorem splits : (both (.input 0) [one, veryFour]).Splits [both (.input 0) [one], both (.input 0) [veryFour]] :=
  .more _ [one] [veryFour] [] [] [] [] _ rfl (by simp) (by simp) (by simp [one]) (.one _)

theorem onInputs (ps : List (Proposition (Flt dbl))) : (both (.input 0) ps).OnInputs := by
  intro a ha p hp
  simp only [both, Option.mem_some_iff] at ha
  subst ha
  simp only [Expr.props, List.mem_singleton] at hp
  subst hp
  exact ⟨0, rfl⟩

/-- the theorem applies to them -/
example : (run .general [both (.input 0) [one], both (.input 0) [veryFour]]).process.1.outputs =
    (run .general [both (.input 0) [one, veryFour]]).process.1.outputs := by
  refine (Engine.process_split_partial (run .general [both (.input 0) [one, veryFour]])
    [{ block with
      activation := some .general
      rules := [both (.input 0) [one], both (.input 0) [veryFour]] }]
    (.cons ⟨rfl, .inr ⟨trivial, [_], .cons splits .nil, rfl⟩⟩ .nil) ?_).1
  intro b hb r hr
  simp only [run, List.mem_singleton] at hb
  subst hb
  simp only [List.mem_singleton] at hr
  subst hr
  exact onInputs _

/-- and this is what is computed: the degrees of the two conclusions differ -/
example : ((run .general [both (.input 0) [one, veryFour]]).process.1.outputs.map fun o => o.fuzzy.terms.map fun a => a.id) = [[0, 1]] ∧
    (run .general [both (.input 0) [one, veryFour]]).process.1.outputValues =
      (run .general [both (.input 0) [one], both (.input 0) [veryFour]]).process.1.outputValues ∧
    (run .general [both (.input 0) [one, veryFour]]).process.1.outputValues ≠
      (run .general [both (.input 0) [one, four]]).process.1.outputValues := by
  decide +kernel

/-- **C95 is violated by hedges before the last conclusion**: "then y is very four and y is one" also squares the degree of
"y is one", and the rules "then y is very four" and "then y is one" do not. -/
theorem hedge_violated :
    (run .general [both (.input 0) [veryFour, one]]).process.2 = none ∧
    (run .general [both (.input 0) [veryFour], both (.input 0) [one]]).process.2 = none ∧
    (run .general [both (.input 0) [veryFour, one]]).process.1.outputValues ≠
      (run .general [both (.input 0) [veryFour], both (.input 0) [one]]).process.1.outputValues := by
  decide +kernel

/-- **C95 is violated by methods that count rules** -/
theorem first_violated :
    (both (.input 0) [one, four]).Splits [both (.input 0) [one], both (.input 0) [four]] ∧
    (run (.first 1 (lit 0)) [both (.input 0) [one, four]]).process.1.outputValues = [lit (5 / 2)] ∧
    (run (.first 1 (lit 0)) [both (.input 0) [one], both (.input 0) [four]]).process.1.outputValues = [lit 1] :=
  ⟨.more _ [one] [four] [] [] [] [] _ rfl (by simp) (by simp) (by simp [one]) (.one _), by decide +kernel, by decide +kernel⟩

/-- y is the sum of its conclusions -/
def summed (rules : List (Rule (Flt dbl))) : Engine (Flt dbl) :=
  { run .proportional rules with outputs := [{ output with defuzzifier := some (.weighted .sum .automatic) }] }

/-- **C95 is violated by Proportional**, which divides by the sum of the degrees of the rules -/
theorem proportional_violated :
    (summed [both (.input 0) [one, four]]).process.1.outputValues = [lit 5] ∧
    (summed [both (.input 0) [one], both (.input 0) [four]]).process.1.outputValues = [lit (5 / 2)] := by
  decide +kernel

/-- **C95 is violated by antecedents about output variables**: the first rule changes what the second reads -/
theorem output_violated :
    (run .general [both (.input 0) [one], both (.output 0) [one, four]]).process.2 = none ∧
    (run .general [both (.input 0) [one], both (.output 0) [one], both (.output 0) [four]]).process.2 = none ∧
    (run .general [both (.input 0) [one], both (.output 0) [one, four]]).process.1.outputValues ≠
      (run .general [both (.input 0) [one], both (.output 0) [one], both (.output 0) [four]]).process.1.outputValues := by
  decide +kernel

end FL.SplitDemo
