/-
C43: disabled components.  C54: restart.
-/
import Verif.Lemmas.Frame
import Verif.Lemmas.Activation
import Verif.Lemmas.ScalarOrd
import Verif.Props.Activation
import Verif.Model.Ext

namespace FL
open Scalar

/-! ### C54 -/
section
variable {S : Type} [ScalarOrd S]

theorem bound_nan (mn mx : S) : Op.bound (nan : S) mn mx = nan := by
  unfold Op.bound
  have h1 : gt (nan : S) mx = false := by
    by_contra h
    exact (ScalarOrd.ne_nan_of_lt (by simpa [gt] using h)).2 rfl
  have h2 : lt (nan : S) mn = false := by
    by_contra h
    exact (ScalarOrd.ne_nan_of_lt (by simpa using h)).1 rfl
  simp [h1, h2]

/-- C54: after `restart`, whatever the state of the engine: values of inputs, values and previous
values of outputs are NaN, fuzzy outputs are empty, and nothing else has changed. -/
theorem Engine.restart_spec (e : Engine S) :
    e.restart = { e with
      inputs := e.inputs.map fun v => { v with value := nan }
      outputs := e.outputs.map fun o => { o with value := nan, previous := nan, fuzzy := { o.fuzzy with terms := [] } } } := by
  have h1 : ∀ v : Variable S, v.setValue nan = { v with value := nan } := by
    intro v; unfold Variable.setValue; rw [bound_nan, ite_self]
  have h2 : ∀ o : OutputVariable S, o.clear =
      { o with value := nan, previous := nan, fuzzy := { o.fuzzy with terms := [] } } := by
    intro o
    unfold OutputVariable.clear OutputVariable.setValue
    rw [h1]; rfl
  unfold restart
  simp only [h1]
  rw [funext h2]

/-- C54: the same, per variable -/
theorem Engine.restart_values (e : Engine S) :
    (∀ v ∈ e.restart.inputs, v.value = nan) ∧
    (∀ o ∈ e.restart.outputs, o.value = nan ∧ o.previous = nan ∧ o.fuzzy.terms = []) ∧
    e.restart.blocks = e.blocks ∧ e.restart.inputs.length = e.inputs.length ∧
    e.restart.outputs.length = e.outputs.length := by
  rw [restart_spec]
  refine ⟨?_, ?_, rfl, by simp, by simp⟩
  · intro v hv
    obtain ⟨u, _, rfl⟩ := List.mem_map.1 hv
    rfl
  · intro o ho
    obtain ⟨u, _, rfl⟩ := List.mem_map.1 ho
    exact ⟨rfl, rfl, rfl⟩

/-- C54: `restart` is idempotent -/
theorem Engine.restart_idempotent (e : Engine S) : e.restart.restart = e.restart := by
  rw [restart_spec e.restart]
  rw [restart_spec e]
  simp only [List.map_map]
  congr 1

end

/-! ### C43 -/
section
variable {S : Type} [Scalar S]

/-- what the application of consequents can change: fuzzy outputs of enabled output variables -/
structure World.Frame (w w' : World S) : Prop where
  inputs : w'.inputs = w.inputs
  outputs : List.Forall₂ (fun o o' : OutputVariable S =>
    o' = { o with fuzzy := { o.fuzzy with terms := o'.fuzzy.terms } } ∧ (o.enabled = false → o' = o) ∧
    ∃ l, o'.fuzzy.terms = o.fuzzy.terms ++ l ∧ ∀ a ∈ l, a.term ∈ o.terms) w.outputs w'.outputs

theorem World.Frame.refl (w : World S) : w.Frame w :=
  ⟨rfl, List.forall₂_same.2 fun o _ => ⟨rfl, fun _ => rfl, [], by simp, by simp⟩⟩

theorem World.Frame.trans (a b c : World S) (h : a.Frame b) (h' : b.Frame c) : a.Frame c := by
  refine ⟨h'.inputs.trans h.inputs, RuleBlock.forall₂_trans ?_ h.outputs h'.outputs⟩
  rintro x y z ⟨h1, h2, l, h3, hl⟩ ⟨h4, h5, m, h6, hm⟩
  refine ⟨by rw [h4, h1], fun he => ?_, l ++ m, by rw [h6, h3, List.append_assoc], ?_⟩
  · have := h2 he
    subst this
    exact h5 he
  · intro a ha
    rcases List.mem_append.1 ha with ha | ha
    · exact hl a ha
    · have := hm a ha
      rw [h1] at this
      exact this

theorem modifyLoop_frame (imp : Option (TNorm S)) (ps : List (Proposition S)) (w : World S) (d : S) :
    w.Frame (modifyLoop imp w d ps).1 := by
  induction ps generalizing w d with
  | nil => exact .refl w
  | cons p ps ih =>
    unfold modifyLoop
    split
    · rename_i i j hv ht
      split
      · exact .refl w
      · rename_i o ho
        split
        · exact ih w d
        · rename_i hen
          split
          · exact .refl w
          · rename_i d' hd
            split
            · exact .refl w
            · rename_i t ht'
              refine World.Frame.trans _ _ _ ?_ (ih _ d')
              refine ⟨rfl, RuleBlock.forall₂_set (fun o => ⟨rfl, fun _ => rfl, [], by simp, by simp⟩) _ i o _ ho ?_⟩
              exact ⟨rfl, fun h => absurd h (by simpa using hen), _, rfl, by
                simpa using List.mem_of_getElem? ht'⟩
    · exact .refl w

theorem modify_frame (w : World S) (d : S) (imp : Option (TNorm S)) (ps : List (Proposition S)) :
    w.Frame (modify w d imp ps).1 := by
  unfold modify
  split
  · exact .refl w
  · exact modifyLoop_frame imp ps w d

namespace RuleBlock

theorem activate_frame [Heap S] (b : RuleBlock S) (w : World S) : w.Frame (b.activate w).1 ∧
    (b.activate w).2.1 = { b with rules := (b.activate w).2.1.rules, activation := some (b.activation.getD .general) } ∧
    List.Forall₂ Rule.Frame b.rules (b.activate w).2.1.rules :=
  ⟨activateBy_world b World.Frame .refl World.Frame.trans (fun _ _ _ w d => modify_frame w d _ _) _ w, rfl,
    (activateBy_rules b _ w).1.imp fun _ _ h => h.1⟩

end RuleBlock

namespace Engine

theorem activateBlocks_cons [Heap S] (w : World S) (b : RuleBlock S) (bs : List (RuleBlock S)) :
    activateBlocks w (b :: bs) =
      if b.enabled = false then
        ((activateBlocks w bs).1, b :: (activateBlocks w bs).2.1, (activateBlocks w bs).2.2)
      else match (b.activate w).2.2 with
        | some e => ((b.activate w).1, (b.activate w).2.1 :: bs, some e)
        | none => ((activateBlocks (b.activate w).1 bs).1, (b.activate w).2.1 :: (activateBlocks (b.activate w).1 bs).2.1,
            (activateBlocks (b.activate w).1 bs).2.2) := by
  conv_lhs => unfold activateBlocks
  cases b.enabled with
  | false => rfl
  | true =>
    simp only [Bool.not_true, Bool.false_eq_true, if_false]
    cases b.activate w with
    | mk w1 p => obtain ⟨b1, e1⟩ := p; cases e1 <;> rfl

/-- a property of blocks and of what processing makes of them -/
theorem activateBlocks_blocks [Heap S] (T : RuleBlock S → RuleBlock S → Prop) (hrefl : ∀ b, T b b)
    (h : ∀ b w, b.enabled = true → T b (b.activate w).2.1) (bs : List (RuleBlock S)) (w : World S) :
    List.Forall₂ T bs (activateBlocks w bs).2.1 := by
  induction bs generalizing w with
  | nil => exact .nil
  | cons b bs ih =>
    rw [activateBlocks_cons]
    split
    · exact .cons (hrefl b) (ih w)
    · rename_i hb
      have := h b w (by simpa using hb)
      split
      · exact .cons this (List.forall₂_same.2 fun x _ => hrefl x)
      · exact .cons this (ih _)

/-- the same when no exception is raised -/
theorem activateBlocks_blocks_ok [Heap S] (T : RuleBlock S → RuleBlock S → Prop) (hrefl : ∀ b, b.enabled = false → T b b)
    (h : ∀ b w, b.enabled = true → (b.activate w).2.2 = none → T b (b.activate w).2.1) (bs : List (RuleBlock S)) (w : World S)
    (hok : (activateBlocks w bs).2.2 = none) :
    List.Forall₂ T bs (activateBlocks w bs).2.1 := by
  induction bs generalizing w with
  | nil => exact .nil
  | cons b bs ih =>
    rw [activateBlocks_cons] at hok ⊢
    split at hok
    · rename_i hb
      rw [if_pos hb]
      exact .cons (hrefl b hb) (ih w hok)
    · rename_i hb
      rw [if_neg hb]
      cases he : (b.activate w).2.2 with
      | some e => rw [he] at hok; simp at hok
      | none =>
        rw [he] at hok
        exact .cons (h b w (by simpa using hb) he) (ih _ hok)

theorem activateBlocks_frame [Heap S] (bs : List (RuleBlock S)) (w : World S) : w.Frame (activateBlocks w bs).1 := by
  induction bs generalizing w with
  | nil => exact .refl w
  | cons b bs ih =>
    rw [activateBlocks_cons]
    split
    · exact ih w
    · split
      · exact (b.activate_frame w).1
      · exact .trans _ _ _ (b.activate_frame w).1 (ih _)

/-- what defuzzification can change: value and previous value of enabled output variables -/
def Defuzzified (o o' : OutputVariable S) : Prop :=
  o' = { o with value := o'.value, previous := o'.previous } ∧ (o.enabled = false → o' = o)

theorem defuzzify_frame (ctx : Ctx S) (o o' : OutputVariable S) (h : o.defuzzify ctx = .ok o') : Defuzzified o o' := by
  unfold OutputVariable.defuzzify at h
  cases he : o.enabled with
  | false =>
    rw [he] at h
    obtain rfl : o = o' := by simpa using h
    exact ⟨rfl, fun _ => rfl⟩
  | true =>
    rw [he] at h
    simp only [Bool.not_true, Bool.false_eq_true, if_false] at h
    refine ⟨?_, fun h => (by simp [he] at h)⟩
    split at h
    · simp at h
    · rename_i d _
      cases hz : d.defuzzify ctx o.fuzzy o.minimum o.maximum with
      | error e => rw [hz] at h; cases h
      | ok z =>
        rw [hz] at h
        simp only [bind, Except.bind, Except.ok.injEq] at h
        rw [← h]; rfl

theorem defuzzifyAll_cons (inputs : List (Variable S)) (done : List (OutputVariable S)) (o : OutputVariable S)
    (os : List (OutputVariable S)) : defuzzifyAll inputs done (o :: os) =
      match o.defuzzify (World.ctx ⟨inputs, done ++ o :: os⟩) with
      | .error e => (done ++ o :: os, some e)
      | .ok o => defuzzifyAll inputs (done ++ [o]) os := rfl

theorem defuzzifyAll_frame (inputs : List (Variable S)) (os done : List (OutputVariable S)) :
    ∃ os', (defuzzifyAll inputs done os).1 = done ++ os' ∧ List.Forall₂ Defuzzified os os' := by
  induction os generalizing done with
  | nil => exact ⟨[], by simp [defuzzifyAll], .nil⟩
  | cons o os ih =>
    rw [defuzzifyAll_cons]
    cases h : o.defuzzify (World.ctx ⟨inputs, done ++ o :: os⟩) with
    | error e => exact ⟨o :: os, rfl, List.forall₂_same.2 fun x _ => ⟨rfl, fun _ => rfl⟩⟩
    | ok o' =>
      obtain ⟨os', h1, h2⟩ := ih (done ++ [o'])
      exact ⟨o' :: os', by simp only [h1, List.append_assoc, List.singleton_append],
        .cons (defuzzify_frame _ _ _ h) h2⟩

/-- the state in which blocks are activated -/
def cleared (e : Engine S) : World S := ⟨e.inputs, e.outputs.map fun o => { o with fuzzy := o.fuzzy.clear }⟩

theorem process_eq [Heap S] (e : Engine S) : e.process =
    match (activateBlocks e.cleared e.blocks).2.2 with
    | some err => ({ e with inputs := (activateBlocks e.cleared e.blocks).1.inputs,
                            outputs := (activateBlocks e.cleared e.blocks).1.outputs,
                            blocks := (activateBlocks e.cleared e.blocks).2.1 }, some err)
    | none => ({ e with inputs := (activateBlocks e.cleared e.blocks).1.inputs,
                        outputs := (defuzzifyAll (activateBlocks e.cleared e.blocks).1.inputs []
                          (activateBlocks e.cleared e.blocks).1.outputs).1,
                        blocks := (activateBlocks e.cleared e.blocks).2.1 },
        (defuzzifyAll (activateBlocks e.cleared e.blocks).1.inputs [] (activateBlocks e.cleared e.blocks).1.outputs).2) := by
  unfold process cleared
  simp only
  cases activateBlocks ⟨e.inputs, e.outputs.map fun o => { o with fuzzy := o.fuzzy.clear }⟩ e.blocks with
  | mk w p => obtain ⟨bs, err⟩ := p; cases err <;> rfl

/-- C43: whatever the engine and the outcome (exception or not), `process` changes nothing of the input
variables, only value, previous value and fuzzy output of output variables, and empties the fuzzy
output of a disabled output variable without touching anything else of it. -/
theorem process_variables [Heap S] (e : Engine S) :
    e.process.1.inputs = e.inputs ∧
    List.Forall₂ (fun o o' : OutputVariable S =>
      o' = { o with value := o'.value, previous := o'.previous, fuzzy := { o.fuzzy with terms := o'.fuzzy.terms } } ∧
      (o.enabled = false → o' = { o with fuzzy := { o.fuzzy with terms := [] } })) e.outputs e.process.1.outputs := by
  have hw := activateBlocks_frame e.blocks e.cleared
  have hin : (activateBlocks e.cleared e.blocks).1.inputs = e.inputs := hw.inputs
  have hout : List.Forall₂ (fun o o' : OutputVariable S =>
      o' = { o with fuzzy := { o.fuzzy with terms := o'.fuzzy.terms } } ∧
      (o.enabled = false → o' = { o with fuzzy := { o.fuzzy with terms := [] } })) e.outputs
      (activateBlocks e.cleared e.blocks).1.outputs := by
    have h := hw.outputs
    have hc : e.cleared.outputs = e.outputs.map fun o => { o with fuzzy := o.fuzzy.clear } := rfl
    rw [hc, List.forall₂_map_left_iff] at h
    refine h.imp ?_
    rintro o o' ⟨h1, h2, -⟩
    exact ⟨by rw [h1]; rfl, fun he => h2 he⟩
  rw [process_eq]
  split
  · refine ⟨hin, hout.imp ?_⟩
    rintro o o' ⟨h1, h2⟩
    exact ⟨by rw [h1], h2⟩
  · refine ⟨hin, ?_⟩
    obtain ⟨os', h1, h2⟩ := defuzzifyAll_frame (activateBlocks e.cleared e.blocks).1.inputs
      (activateBlocks e.cleared e.blocks).1.outputs []
    simp only [h1, List.nil_append]
    revert hout h2
    generalize (activateBlocks e.cleared e.blocks).1.outputs = os
    generalize e.outputs = os0
    intro hout h2
    clear h1
    induction hout generalizing os' with
    | nil => cases h2; exact .nil
    | cons h _ ih =>
      cases h2 with
      | cons h3 h4 =>
        refine .cons ⟨?_, fun he => ?_⟩ (ih _ h4)
        · rw [h3.1, h.1]
        · have h5 := h.2 he
          rw [h3.2 (by rw [h5]; exact he), h5]

/-- C43: a disabled rule block is left as it is; of the rules of an enabled one only degree and mark
change, and no disabled rule is triggered; a missing activation method becomes General (if there is an exception, a rule may still be marked from
an earlier call). -/
theorem process_blocks [Heap S] (e : Engine S) :
    List.Forall₂ (fun b b' : RuleBlock S => b' = { b with rules := b'.rules, activation := b'.activation } ∧
      (b'.activation = b.activation ∨ b'.activation = some (b.activation.getD .general)) ∧
      (b.enabled = false → b' = b) ∧
      List.Forall₂ (fun r r' : Rule S => r' = { r with degree := r'.degree, triggered := r'.triggered } ∧
        (r.enabled = false → r'.triggered = true → r.triggered = true)) b.rules b'.rules) e.blocks e.process.1.blocks ∧
    (e.process.2 = none → List.Forall₂ (fun b b' : RuleBlock S => b.enabled = true →
      ∀ r ∈ b'.rules, r.enabled = false → r.triggered = false) e.blocks e.process.1.blocks) := by
  have hb : e.process.1.blocks = (activateBlocks e.cleared e.blocks).2.1 := by rw [process_eq]; split <;> rfl
  rw [hb]
  constructor
  · refine activateBlocks_blocks _ (fun b => ⟨rfl, Or.inl rfl, fun _ => rfl, List.forall₂_same.2 fun r _ => ⟨rfl, fun _ => id⟩⟩) ?_ _ _
    intro b w hen
    exact ⟨(b.activate_frame w).2.1, Or.inr rfl, fun h => (by simp [hen] at h), (b.activateBy_rules _ w).1⟩
  · intro hok
    refine activateBlocks_blocks_ok _ (fun b hb h => (by simp [hb] at h)) ?_ _ _ ?_
    · intro b w _ hnone _ q hq hqe
      have h1 := (b.activateBy_rules (b.activation.getD .general) w).1
      have h2 := (b.activateBy_rules (b.activation.getD .general) w).2 hnone
      obtain ⟨i, hi, rfl⟩ := List.mem_iff_getElem.1 hq
      have hlen := h1.length_eq
      have hi' : i < b.rules.length := by rw [hlen]; exact hi
      have k1 := (List.forall₂_iff_get.1 h1).2 i hi' hi
      have k2 := (List.forall₂_iff_get.1 h2).2 i hi' hi
      refine k2 ?_
      have := k1.1.enabled
      exact this.symm.trans hqe
    · rw [process_eq] at hok
      split at hok
      · simp at hok
      · assumption

theorem activateBlocks_filter [Heap S] (bs : List (RuleBlock S)) (w : World S) :
    (activateBlocks w (bs.filter RuleBlock.enabled)).1 = (activateBlocks w bs).1 ∧
    (activateBlocks w (bs.filter RuleBlock.enabled)).2.2 = (activateBlocks w bs).2.2 := by
  induction bs generalizing w with
  | nil => exact ⟨rfl, rfl⟩
  | cons b bs ih =>
    cases hb : b.enabled with
    | false =>
      rw [List.filter_cons_of_neg (by simp [hb]), activateBlocks_cons, if_pos hb]
      exact ih w
    | true =>
      rw [List.filter_cons_of_pos hb, activateBlocks_cons, activateBlocks_cons, if_neg (by simp [hb]), if_neg (by simp [hb])]
      cases (b.activate w).2.2 with
      | some e => exact ⟨rfl, rfl⟩
      | none => exact ih _

/-- C43: disabled rule blocks have no influence: variables and exception are those of the engine
without them. -/
theorem process_without_disabled_blocks [Heap S] (e : Engine S) :
    ({ e with blocks := e.blocks.filter RuleBlock.enabled } : Engine S).process.1.inputs = e.process.1.inputs ∧
    ({ e with blocks := e.blocks.filter RuleBlock.enabled } : Engine S).process.1.outputs = e.process.1.outputs ∧
    ({ e with blocks := e.blocks.filter RuleBlock.enabled } : Engine S).process.2 = e.process.2 := by
  have h := activateBlocks_filter e.blocks e.cleared
  have hc : ({ e with blocks := e.blocks.filter RuleBlock.enabled } : Engine S).cleared = e.cleared := rfl
  rw [process_eq, process_eq, hc]
  simp only [h.1, h.2]
  split <;> exact ⟨rfl, rfl, rfl⟩

end Engine

/-- C43: a proposition on a disabled variable has degree 0, whatever its hedges and term -/
theorem Proposition.degree_disabled (w : World S) (c : Option (TNorm S)) (d : Option (SNorm S)) (p : Proposition S)
    (h : w.isEnabled p.var = some false) : (Expr.prop p).degree w c d = .ok (lit 0) :=
  (Expr.degree_iff w c d (.prop p) (lit 0)).2 (.disabled p h)

/-- C43: under the method General, a disabled rule contributes nothing: if activation raises no
exception, the variables afterwards are the ones obtained without the disabled rules. -/
theorem RuleBlock.general_without_disabled (b : RuleBlock S) (w w' : World S) (rs' : List (Rule S))
    (h : b.activateGeneral w = (w', rs', none)) :
    ∃ rs'', ({ b with rules := b.rules.filter Rule.enabled } : RuleBlock S).activateGeneral w = (w', rs'', none) := by
  have key : ∀ (rs : List (Rule S)) (w : World S) (k k' : Nat) (s : World S × Nat) rs',
      eachRule (b.selectStep fun _ _ => true) (w, k) rs = (s, rs', none) →
      ∃ n rs'', eachRule (b.selectStep fun _ _ => true) (w, k') (rs.filter Rule.enabled) = ((s.1, n), rs'', none) := by
    intro rs
    induction rs with
    | nil =>
      intro w k k' s rs' h
      simp only [eachRule, Prod.mk.injEq, and_true] at h
      obtain ⟨rfl, rfl⟩ := h
      exact ⟨k', [], rfl⟩
    | cons r rs ih =>
      intro w k k' s rs' h
      have hstep : ∀ k, ((b.selectStep (fun _ _ => true) (w, k) r).1.1 = (b.selectStep (fun _ _ => true) (w, k') r).1.1) ∧
          (b.selectStep (fun _ _ => true) (w, k) r).2.2 = (b.selectStep (fun _ _ => true) (w, k') r).2.2 := by
        intro k
        unfold selectStep
        simp only
        split
        · exact ⟨rfl, rfl⟩
        · cases r.deactivate.activateWith w b.conjunction b.disjunction with
          | mk r1 e1 =>
            cases e1 with
            | some e => exact ⟨rfl, rfl⟩
            | none =>
              simp only [if_true]
              cases r1.trigger w b.implication with
              | mk w2 p => obtain ⟨r2, e2⟩ := p; cases e2 <;> exact ⟨rfl, rfl⟩
      rw [eachRule_cons] at h
      cases he : (b.selectStep (fun _ _ => true) (w, k) r).2.2 with
      | some e => rw [he] at h; simp at h
      | none =>
        rw [he] at h
        simp only [Prod.mk.injEq] at h
        cases hen : r.enabled with
        | false =>
          rw [List.filter_cons_of_neg (by simp [hen])]
          have hsame := (b.selectStep_frame (fun _ _ => true) (w, k) r).2.1 hen
          have : (b.selectStep (fun _ _ => true) (w, k) r).1 = (w, (b.selectStep (fun _ _ => true) (w, k) r).1.2) :=
            Prod.ext hsame.2 rfl
          rw [this] at h
          exact ih w _ k' s _ (by rw [← h.1, ← h.2.2])
        | true =>
          rw [List.filter_cons_of_pos hen, eachRule_cons, ← (hstep k).2, he]
          simp only [Prod.mk.injEq]
          have e1 : (b.selectStep (fun _ _ => true) (w, k) r).1 =
              ((b.selectStep (fun _ _ => true) (w, k') r).1.1, (b.selectStep (fun _ _ => true) (w, k) r).1.2) :=
            Prod.ext (hstep k).1 rfl
          rw [e1] at h
          obtain ⟨n, rs'', hr⟩ := ih (b.selectStep (fun _ _ => true) (w, k') r).1.1
            (b.selectStep (fun _ _ => true) (w, k) r).1.2 (b.selectStep (fun _ _ => true) (w, k') r).1.2 s _
            (by rw [← h.1, ← h.2.2])
          rw [Prod.mk.eta] at hr
          rw [hr]
          exact ⟨n, _, rfl, rfl, rfl⟩
  unfold activateGeneral at h ⊢
  cases hq : eachRule (b.selectStep fun _ _ => true) (w, 0) b.rules with
  | mk s p =>
    obtain ⟨rs1, e1⟩ := p
    rw [hq] at h
    simp only [Prod.mk.injEq] at h
    obtain ⟨rfl, rfl, rfl⟩ := h
    obtain ⟨n, rs'', hr⟩ := key _ _ _ 0 _ _ hq
    have hb : ({ b with rules := b.rules.filter Rule.enabled } : RuleBlock S).selectStep = b.selectStep := rfl
    rw [hb, hr]
    exact ⟨rs'', rfl⟩

end

/-! ### an engine on the exact numbers with everything that can be disabled -/
namespace DisabledDemo

def term (n : Str) (v : Rat) : Term (Ext Rat) := ⟨n, .fin 1, .constant (.fin v)⟩

def input (n : Str) (on : Bool) : Variable (Ext Rat) :=
  { Variable.new n (.fin 0) (.fin 1) [⟨cs! "low", .fin 1, .shape (.ramp (.fin 1) (.fin 0))⟩] with value := .fin (1/4), enabled := on }

def output (n : Str) (on : Bool) : OutputVariable (Ext Rat) :=
  { OutputVariable.new n (.fin 0) (.fin 10) [term (cs! "t") 5, term (cs! "u") 9] with
    defuzzifier := some (.weighted .average .takagiSugeno), value := .fin 7, enabled := on,
    fuzzy := ⟨n, .fin 0, .fin 10, none, [⟨0, term (cs! "t") 5, .fin 1, none⟩]⟩ }

def rule (on : Bool) (v : Nat) (o j : Nat) : Rule (Ext Rat) :=
  { Rule.new [] with enabled := on, triggered := true, antecedent := some (.prop ⟨.input v, [], some 0⟩),
                     conclusions := [⟨.output o, [], some j⟩] }

def engine : Engine (Ext Rat) :=
  ⟨[], [], [input (cs! "a") true, input (cs! "b") false], [output (cs! "y") true, output (cs! "z") false],
   [{ RuleBlock.new [] with rules := [rule true 0 0 0, rule false 0 0 1, rule true 1 0 1, rule true 0 1 0] },
    { RuleBlock.new [] with rules := [rule true 0 0 1], enabled := false }]⟩

local instance : Heap (Ext Rat) := RuleBlock.stableHeap _

/-- the first rule fires; the second is disabled, the third has degree 0 because its variable is
disabled, the fourth concludes on a disabled variable, and the second block is disabled and keeps the
mark of its rule -/
example : engine.process.2 = none ∧ engine.process.1.outputs.map (fun o => (o.value, o.fuzzy.terms.length)) =
      [(.fin 5, 1), (.fin 7, 0)] ∧
    engine.process.1.blocks.map (fun b => b.rules.map fun r => (r.degree, r.triggered)) =
      [[(.fin (3/4), true), (.fin (3/4), false), (.fin 0, false), (.fin (3/4), true)], [(.fin 0, true)]] := by decide +kernel

example : engine.restart.outputs.map (fun o => (o.value, o.previous, o.fuzzy.terms.length)) =
      [(.nan, .nan, 0), (.nan, .nan, 0)] ∧ engine.restart.inputs.map (fun v => v.value) = [.nan, .nan] := by decide +kernel

end DisabledDemo
end FL
