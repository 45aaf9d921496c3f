/-
C105: complementary thresholds divide the rules of a block.
-/
import Verif.Props.RuleOrder
import Verif.Props.Idle

namespace FL
open Scalar

section any
variable {S : Type} [Scalar S]

namespace RuleBlock

/-- of the two choices exactly one is made for every rule that is active -/
def Complementary (c c' : S → Bool) : Prop := ∀ d, Op.isGt d (lit 0) = true → c d = !c' d

/-- what a rule adds under a choice, whatever other rules have added -/
def StepAdds (b : RuleBlock S) (w : World S) (c : S → Bool) (r : Rule S) (A : List (VarRef × Activated S)) : Prop :=
  ∀ k xs, ∃ k' r', b.selectStep (fun _ => c) (w.append xs, k) r = ((w.append (xs ++ A), k'), r', none)

theorem step_divide (b : RuleBlock S) (w : World S) (c c' : S → Bool) (hc : Complementary c c') (r : Rule S) (h : r.OnInputs)
    (k : Nat) (xs : List (VarRef × Activated S)) (hok : (b.selectStep (fun _ _ => true) (w.append xs, k) r).2.2 = none) :
    ∃ A B C, A = B ++ C ∧ b.StepAdds w (fun _ => true) r A ∧ b.StepAdds w c r B ∧ b.StepAdds w c' r C := by
  by_cases hl : r.deactivate.isLoaded = true
  · have ha := fun xs => Rule.activateWith_append w xs b.conjunction b.disjunction r.deactivate h
    have hf := (Rule.activateWith_frame w b.conjunction b.disjunction r.deactivate).1
    cases hq : r.deactivate.activateWith w b.conjunction b.disjunction with
    | mk r1 e1 =>
      rw [hq] at hf
      cases e1 with
      | some e => simp [selectStep, hl, ha, hq] at hok
      | none =>
        have hl1 : r1.isLoaded = true := hf.isLoaded.trans hl
        by_cases hg : Op.isGt r1.degree (lit 0) = true
        · obtain ⟨A, r2, e2, ht⟩ := Rule.trigger_steady b.implication w r1
          cases e2 with
          | some e => simp [selectStep, hl, ha, hq, ht] at hok
          | none =>
            have hcd := hc _ hg
            cases hc1 : c' r1.degree with
            | true =>
              rw [hc1] at hcd
              exact ⟨A, [], A, rfl, fun k xs => ⟨k + 1, r2, by simp [selectStep, hl, ha, hq, ht]⟩,
                fun k xs => ⟨k, r1, by simp [selectStep, hl, ha, hq, hcd]⟩,
                fun k xs => ⟨k + 1, r2, by simp [selectStep, hl, ha, hq, hc1, ht]⟩⟩
            | false =>
              rw [hc1] at hcd
              exact ⟨A, A, [], by simp, fun k xs => ⟨k + 1, r2, by simp [selectStep, hl, ha, hq, ht]⟩,
                fun k xs => ⟨k + 1, r2, by simp [selectStep, hl, ha, hq, hcd, ht]⟩,
                fun k xs => ⟨k, r1, by simp [selectStep, hl, ha, hq, hc1]⟩⟩
        · have hi : r1.Idle := fun h => hg h.2
          have ht := fun w => Rule.trigger_idle r1 w b.implication hl1 hi
          have key : ∀ c : S → Bool, b.StepAdds w c r [] := by
            intro c k xs
            cases hcd : c r1.degree with
            | true => exact ⟨k + 1, r1, by simp [selectStep, hl, ha, hq, hcd, ht]⟩
            | false => exact ⟨k, r1, by simp [selectStep, hl, ha, hq, hcd]⟩
          exact ⟨[], [], [], rfl, key _, key _, key _⟩
  · have key : ∀ c : S → Bool, b.StepAdds w c r [] := fun c k xs => ⟨k, r.deactivate, by simp [selectStep, hl]⟩
    exact ⟨[], [], [], rfl, key _, key _, key _⟩

/-- what the rules add under a choice -/
def RulesAdd (b : RuleBlock S) (w : World S) (c : S → Bool) (rs : List (Rule S)) (A : List (VarRef × Activated S)) : Prop :=
  ∀ k xs, ∃ k' rs', eachRule (b.selectStep fun _ => c) (w.append xs, k) rs = ((w.append (xs ++ A), k'), rs', none)

theorem RulesAdd.cons {b : RuleBlock S} {w : World S} {c : S → Bool} {r : Rule S} {rs : List (Rule S)} {A B : List (VarRef × Activated S)}
    (h : b.StepAdds w c r A) (h' : b.RulesAdd w c rs B) : b.RulesAdd w c (r :: rs) (A ++ B) := by
  intro k xs
  obtain ⟨k1, r1, h1⟩ := h k xs
  obtain ⟨k2, rs2, h2⟩ := h' k1 (xs ++ A)
  exact ⟨k2, r1 :: rs2, by simp [eachRule, h1, h2]⟩

theorem rules_divide (b : RuleBlock S) (w : World S) (c c' : S → Bool) (hc : Complementary c c') (rs : List (Rule S)) (h : ∀ r ∈ rs, r.OnInputs)
    (k : Nat) (xs : List (VarRef × Activated S)) (hok : (eachRule (b.selectStep fun _ _ => true) (w.append xs, k) rs).2.2 = none) :
    ∃ A B C, A.Perm (B ++ C) ∧ b.RulesAdd w (fun _ => true) rs A ∧ b.RulesAdd w c rs B ∧ b.RulesAdd w c' rs C := by
  induction rs generalizing k xs with
  | nil =>
    have key : ∀ c : S → Bool, b.RulesAdd w c [] [] := fun c k xs => ⟨k, [], by simp [eachRule]⟩
    exact ⟨[], [], [], .refl _, key _, key _, key _⟩
  | cons r rs ih =>
    rw [eachRule_cons] at hok
    cases he : (b.selectStep (fun _ _ => true) (w.append xs, k) r).2.2 with
    | some e => rw [he] at hok; simp at hok
    | none =>
      rw [he] at hok
      obtain ⟨A, B, C, h0, h1, h2, h3⟩ := b.step_divide w c c' hc r (h r List.mem_cons_self) k xs he
      obtain ⟨k', r', hs⟩ := h1 k xs
      simp only at hs hok
      rw [hs] at hok
      obtain ⟨A', B', C', p, i1, i2, i3⟩ := ih (fun q hq => h q (List.mem_cons_of_mem _ hq)) k' (xs ++ A) hok
      refine ⟨A ++ A', B ++ B', C ++ C', ?_, RulesAdd.cons h1 i1, RulesAdd.cons h2 i2, RulesAdd.cons h3 i3⟩
      subst h0
      calc (B ++ C ++ A').Perm (B ++ C ++ (B' ++ C')) := p.append_left _
        _ = B ++ (C ++ B' ++ C') := by simp
        _ |>.Perm (B ++ (B' ++ C ++ C')) := (List.perm_append_comm.append_right _).append_left _
        _ = B ++ B' ++ (C ++ C') := by simp

end RuleBlock

namespace Engine

/-- some of the blocks with General are divided in two with complementary comparisons to thresholds -/
inductive Divided : List (RuleBlock S) → List (RuleBlock S) → Prop
  | nil : Divided [] []
  | keep (b : RuleBlock S) {bs cs : List (RuleBlock S)} : Divided bs cs → Divided (b :: bs) (b :: cs)
  | divide (b : RuleBlock S) (c c' : Comparison) (v v' : S) {bs cs : List (RuleBlock S)} : b.activation.getD .general = .general →
      RuleBlock.Complementary (fun d => c.activates d v) (fun d => c'.activates d v') → Divided bs cs →
      Divided (b :: bs) ({ b with activation := some (.threshold c v) } :: { b with activation := some (.threshold c' v') } :: cs)

/-- what a block adds by the activation method, if its rules are chosen by their degrees alone -/
theorem adds_threshold [Heap S] {b : RuleBlock S} {w : World S} {c : Comparison} {v : S} {A : List (VarRef × Activated S)} (hen : b.enabled = true)
    (h : b.RulesAdd w (fun d => c.activates d v) b.rules A) (xs : List (VarRef × Activated S)) :
    ∃ b', activateBlocks (w.append xs) [{ b with activation := some (.threshold c v) }] = (w.append (xs ++ A), [b'], none) := by
  obtain ⟨k', rs', hs⟩ := h 0 xs
  have ha : ({ b with activation := some (.threshold c v) } : RuleBlock S).activateThreshold c v (w.append xs) = (w.append (xs ++ A), rs', none) := by
    show (match RuleBlock.eachRule (b.selectStep fun _ d => c.activates d v) (w.append xs, 0) b.rules with | (s, rs, e) => (s.1, rs, e)) = _
    rw [hs]
  exact ⟨{ b with activation := some (.threshold c v), rules := rs' }, by
    simp only [activateBlocks, RuleBlock.activate, RuleBlock.activateBy, Option.getD_some, ha]
    simp [hen]⟩

theorem adds_general [Heap S] {b : RuleBlock S} {w : World S} (hg : b.activation.getD .general = .general) {A : List (VarRef × Activated S)}
    (hen : b.enabled = true) (h : b.RulesAdd w (fun _ => true) b.rules A) (xs : List (VarRef × Activated S)) :
    ∃ b', activateBlocks (w.append xs) [b] = (w.append (xs ++ A), [b'], none) := by
  obtain ⟨k', rs', hs⟩ := h 0 xs
  have ha : b.activateGeneral (w.append xs) = (w.append (xs ++ A), rs', none) := by
    unfold RuleBlock.activateGeneral
    rw [hs]
  exact ⟨{ b with activation := some .general, rules := rs' }, by simp [activateBlocks, hen, RuleBlock.activate, hg, RuleBlock.activateBy, ha]⟩

/-- **C105.**  If blocks are divided, what they add is the same, in another order, and they raise no exception if the
undivided blocks raise none. -/
theorem blocks_divide [Heap S] (w : World S) {bs cs : List (RuleBlock S)} (hd : Divided bs cs) (h : ∀ b ∈ bs, ∀ r ∈ b.rules, r.OnInputs)
    (xs : List (VarRef × Activated S)) (hok : (activateBlocks (w.append xs) bs).2.2 = none) :
    ∃ A B : List (VarRef × Activated S), A.Perm B ∧
      (∀ ys, ∃ bs', activateBlocks (w.append ys) bs = (w.append (ys ++ A), bs', none)) ∧
      (∀ ys, ∃ cs', activateBlocks (w.append ys) cs = (w.append (ys ++ B), cs', none)) := by
  induction hd generalizing xs with
  | nil => exact ⟨[], [], .refl _, fun ys => ⟨[], by simp [activateBlocks]⟩, fun ys => ⟨[], by simp [activateBlocks]⟩⟩
  | @keep b bs cs _ ih =>
    obtain ⟨A, b', hb⟩ := adds_of_none bs (h b List.mem_cons_self) xs hok
    rw [blocks_cons bs (hb xs)] at hok
    obtain ⟨A', B', p, h1, h2⟩ := ih (fun b hb => h b (List.mem_cons_of_mem _ hb)) _ hok
    refine ⟨A ++ A', A ++ B', p.append_left _, fun ys => ?_, fun ys => ?_⟩
    · obtain ⟨bs', e⟩ := h1 (ys ++ A)
      exact ⟨b' :: bs', by rw [blocks_cons bs (hb ys), e, List.append_assoc]⟩
    · obtain ⟨cs', e⟩ := h2 (ys ++ A)
      exact ⟨b' :: cs', by rw [blocks_cons cs (hb ys), e, List.append_assoc]⟩
  | @divide b c c' v v' bs cs hg hc _ ih =>
    cases hen : b.enabled with
    | false =>
      simp only [activateBlocks, hen, Bool.not_false, if_true] at hok
      obtain ⟨A', B', p, h1, h2⟩ := ih (fun b hb => h b (List.mem_cons_of_mem _ hb)) _ hok
      refine ⟨A', B', p, fun ys => ?_, fun ys => ?_⟩
      · obtain ⟨bs', e⟩ := h1 ys
        exact ⟨b :: bs', by simp [activateBlocks, hen, e]⟩
      · obtain ⟨cs', e⟩ := h2 ys
        exact ⟨_ :: _ :: cs', by simp [activateBlocks, e]; exact ⟨rfl, rfl⟩⟩
    | true =>
      have hn : (RuleBlock.eachRule (b.selectStep fun _ _ => true) (w.append xs, 0) b.rules).2.2 = none := by
        simp only [activateBlocks, hen, Bool.not_true, Bool.false_eq_true, if_false, RuleBlock.activate, hg, RuleBlock.activateBy,
          RuleBlock.activateGeneral] at hok
        generalize RuleBlock.eachRule (b.selectStep fun _ _ => true) (w.append xs, 0) b.rules = q at hok ⊢
        obtain ⟨s, rs, e⟩ := q
        cases e with
        | none => rfl
        | some e => simp at hok
      obtain ⟨A, B, C, p, g1, g2, g3⟩ := b.rules_divide w _ _ hc b.rules (h b List.mem_cons_self) 0 xs hn
      obtain ⟨b', hb⟩ := adds_general hg hen g1 xs
      rw [blocks_cons bs hb] at hok
      obtain ⟨A', B', p', h1, h2⟩ := ih (fun b hb => h b (List.mem_cons_of_mem _ hb)) _ hok
      refine ⟨A ++ A', B ++ C ++ B', p.append p', fun ys => ?_, fun ys => ?_⟩
      · obtain ⟨b', hb⟩ := adds_general hg hen g1 ys
        obtain ⟨bs', e⟩ := h1 (ys ++ A)
        exact ⟨b' :: bs', by rw [blocks_cons bs hb, e, List.append_assoc]⟩
      · obtain ⟨b1, hb1⟩ := adds_threshold hen g2 ys
        obtain ⟨b2, hb2⟩ := adds_threshold hen g3 (ys ++ B)
        obtain ⟨cs', e⟩ := h2 (ys ++ B ++ C)
        rw [hen] at hb1 hb2
        exact ⟨b1 :: b2 :: cs', by rw [blocks_cons _ hb1, blocks_cons cs hb2, e]; simp⟩

/-- if the blocks of two engines add the same activated terms, in any order, the values are the same -/
theorem process_permuted_partial [Heap S] {e e' : Engine S} (hi : e'.inputs = e.inputs) (ho : e'.outputs = e.outputs)
    (hb : ∀ w : World S, (activateBlocks w e.blocks).2.2 = none → ∃ (A B : List (VarRef × Activated S)) (bs' cs' : List (RuleBlock S)), A.Perm B ∧
      activateBlocks w e.blocks = (w.append A, bs', none) ∧ activateBlocks w e'.blocks = (w.append B, cs', none))
    (hok : e.process.2 = none) (hu : ∀ o ∈ e.process.1.outputs, o.Unordered (e.inputs.map fun v => (v.name, v.value))) :
    e'.process.2 = none ∧ List.Forall₂ OutputVariable.Reordered e.process.1.outputs e'.process.1.outputs ∧
      e'.process.1.outputValues = e.process.1.outputValues := by
  have main : e'.process.2 = none ∧ List.Forall₂ OutputVariable.Reordered e.process.1.outputs e'.process.1.outputs := by
    unfold process at hok hu ⊢
    rw [hi, ho]
    generalize hcl : (e.outputs.map fun o => { o with fuzzy := o.fuzzy.clear }) = cleared at *
    simp only at hok hu ⊢
    have hn : (activateBlocks ⟨e.inputs, cleared⟩ e.blocks).2.2 = none := by
      generalize activateBlocks ⟨e.inputs, cleared⟩ e.blocks = q at hok ⊢
      obtain ⟨w1, b1, e1⟩ := q
      cases e1 with
      | none => rfl
      | some e => simp at hok
    obtain ⟨A, B, bs', cs', p, h1, h2⟩ := hb ⟨e.inputs, cleared⟩ hn
    rw [h1] at hok hu
    rw [h1, h2]
    simp only [] at hok hu ⊢
    have hrel := World.append_reordered ⟨e.inputs, cleared⟩ p
    have hins : ∀ L, (World.append ⟨e.inputs, cleared⟩ L).inputs = e.inputs := fun _ => rfl
    rw [hins] at hok hu ⊢
    rw [hins]
    cases hr : defuzzifyAll e.inputs [] (World.append ⟨e.inputs, cleared⟩ A).outputs with
    | mk r err =>
      rw [hr] at hok hu
      simp only at hok hu
      subst hok
      obtain ⟨qs, hq1, hq2⟩ := defuzzifyAll_kept e.inputs _ hr
      rw [List.nil_append] at hq1
      subst hq1
      have hu' : ∀ o ∈ (World.append ⟨e.inputs, cleared⟩ A).outputs, o.Unordered (e.inputs.map fun v => (v.name, v.value)) := by
        intro o ho
        obtain ⟨p, hp, z, y, hz⟩ : ∃ p ∈ r, ∃ z y, p = { o with
            value := z
            previous := y } := by
          rw [List.forall₂_iff_get] at hq2
          obtain ⟨i, hi, rfl⟩ := List.getElem_of_mem ho
          exact ⟨r[i]'(hq2.1 ▸ hi), List.getElem_mem _, hq2.2 i hi (hq2.1 ▸ hi)⟩
        have := hu p hp
        rw [hz] at this
        exact this
      obtain ⟨r', hr', hrr⟩ := defuzzifyAll_reordered e.inputs hrel hu' (done := []) (done' := []) .nil hr
      rw [hr']
      exact ⟨rfl, hrr⟩
  refine ⟨main.1, main.2, ?_⟩
  have h := main.2
  unfold outputValues
  generalize e.process.1.outputs = os at h ⊢
  generalize e'.process.1.outputs = ps at h ⊢
  induction h with
  | nil => rfl
  | cons h1 _ ih => rw [List.map_cons, List.map_cons, ih, h1.same]

/-- **C105 (partial: not if the value of an output variable depends on the order in which terms were activated).**  If blocks with
General are divided in two by complementary comparisons of the degrees to thresholds, processing raises no exception if it
raised none before, the fuzzy outputs have the same activated terms, in another order, and the values are the same. -/
theorem process_divide_partial [Heap S] {e e' : Engine S} (hb : Divided e.blocks e'.blocks) (hi : e'.inputs = e.inputs) (ho : e'.outputs = e.outputs)
    (hin : ∀ b ∈ e.blocks, ∀ r ∈ b.rules, r.OnInputs) (hok : e.process.2 = none)
    (hu : ∀ o ∈ e.process.1.outputs, o.Unordered (e.inputs.map fun v => (v.name, v.value))) :
    e'.process.2 = none ∧ List.Forall₂ OutputVariable.Reordered e.process.1.outputs e'.process.1.outputs ∧
      e'.process.1.outputValues = e.process.1.outputValues := by
  refine process_permuted_partial hi ho (fun w hn => ?_) hok hu
  obtain ⟨A, B, p, h1, h2⟩ := blocks_divide w hb hin [] (by rw [World.append_nil]; exact hn)
  obtain ⟨bs', h1⟩ := h1 []
  obtain ⟨cs', h2⟩ := h2 []
  rw [World.append_nil, List.nil_append] at h1 h2
  exact ⟨A, B, bs', cs', p, h1, h2⟩

end Engine
end any

section ordered
variable {S : Type} [ScalarOrd S]

/-- **C105.**  `==` and `!=`, `<` and `>=`, and `<=` and `>` are complementary for all thresholds but NaN. -/
theorem Comparison.complementary (c c' : Comparison) (v : S) (hv : v ≠ nan)
    (h : (c, c') ∈ [(equalTo, notEqualTo), (notEqualTo, equalTo), (lessThan, greaterThanOrEqualTo), (greaterThanOrEqualTo, lessThan),
      (lessThanOrEqualTo, greaterThan), (greaterThan, lessThanOrEqualTo)]) :
    RuleBlock.Complementary (fun d => c.activates d v) (fun d => c'.activates d v) := by
  intro d hd
  have hn : d ≠ nan := by
    rintro rfl
    simp [Op.isGt, Op.isGtT, Scalar.gt, (ScalarOrd.lt_nan _).1] at hd
  have e1 : Op.isLt d v = (!Op.isEq d v && lt d v) := rfl
  have e2 : Op.isGt d v = (!Op.isEq d v && lt v d) := rfl
  have e3 : Op.isLE d v = (Op.isEq d v || lt d v) := rfl
  have e4 : Op.isGE d v = (Op.isEq d v || lt v d) := rfl
  have ht : Op.isEq d v = false → lt d v = !lt v d := by
    intro he
    rcases ScalarOrd.lt_total d v hn hv with h | h | h
    · rw [h, ScalarOrd.lt_asymm h]; rfl
    · subst h
      have : Scalar.eq d d = true := (ScalarOrd.eq_iff d d).2 ⟨rfl, hn⟩
      simp [Op.isEq, Op.isEqT, this] at he
    · rw [h, ScalarOrd.lt_asymm h]; rfl
  simp only [List.mem_cons, Prod.mk.injEq, List.not_mem_nil, or_false] at h
  rcases h with ⟨rfl, rfl⟩ | ⟨rfl, rfl⟩ | ⟨rfl, rfl⟩ | ⟨rfl, rfl⟩ | ⟨rfl, rfl⟩ | ⟨rfl, rfl⟩ <;>
    simp only [activates, e1, e2, e3, e4, Bool.not_not] <;> cases he : Op.isEq d v <;> simp [ht, he]

end ordered
end FL

namespace FL.DivideDemo
open Scalar FL.Rounded FL.Rounded.Demo

local instance : Heap (Flt dbl) := RuleBlock.stableHeap _

/-- the engine with its block divided by the comparisons to thresholds -/
def divided (e : Engine (Flt dbl)) (c c' : Comparison) (v : Flt dbl) : Engine (Flt dbl) :=
  { e with blocks := e.blocks.flatMap fun b => [{ b with activation := some (.threshold c v) }, { b with activation := some (.threshold c' v) }] }

/-- the Mamdani controller in double precision: the rules with degrees less than 1/2 and the others -/
def halves : Engine (Flt dbl) := divided mamdani .lessThan .greaterThanOrEqualTo (lit (1 / 2))

/-- the theorem applies to it: the output is the same to the last bit -/
example : halves.process.2 = none ∧ halves.process.1.outputValues = mamdani.process.1.outputValues := by
  have hd : Engine.Divided mamdani.blocks halves.blocks :=
    .divide control _ _ _ _ rfl (Comparison.complementary _ _ _ (ScalarOrd.lit_ne_nan _) (by simp)) .nil
  have hin : ∀ b ∈ mamdani.blocks, ∀ r ∈ b.rules, r.OnInputs := by
    intro b hb r hr
    simp only [mamdani, List.mem_singleton] at hb
    subst hb
    simp only [FL.Rounded.Demo.control, List.mem_cons, List.not_mem_nil, or_false] at hr
    rcases hr with rfl | rfl <;> exact RuleOrder.onInputs_conclude _ _ _
  have hu : ∀ o ∈ mamdani.process.1.outputs, o.Unordered (mamdani.inputs.map fun v => (v.name, v.value)) := by
    have h : mamdani.process.1.outputs.all RuleOrder.plain = true := by decide +kernel
    exact fun o ho => RuleOrder.plain_unordered _ o (List.all_eq_true.1 h o ho)
  have h := Engine.process_divide_partial hd rfl rfl hin (by decide +kernel) hu
  exact ⟨h.1, h.2.2⟩

/-- and this is what is computed: the rules are triggered in the other order -/
example : halves.process.1.outputValues = mamdani.process.1.outputValues ∧
    (mamdani.process.1.outputs.map fun o => o.fuzzy.terms.map fun a => a.id) = [[0, 1]] ∧
    (halves.process.1.outputs.map fun o => o.fuzzy.terms.map fun a => a.id) = [[1, 0]] := by decide +kernel

/-- **C105 is violated by comparisons to NaN**: neither `<` nor `>=` holds, and no rule is triggered. -/
theorem nan_violated : mamdani.process.2 = none ∧ (mamdani.process.1.outputs.map fun o => o.fuzzy.terms.length) = [2] ∧
    (divided mamdani .lessThan .greaterThanOrEqualTo nan).process.2 = none ∧
    ((divided mamdani .lessThan .greaterThanOrEqualTo nan).process.1.outputs.map fun o => o.fuzzy.terms.length) = [0] := by decide +kernel

/-- `<` and `>` leave out the degrees that are equal to the threshold, and `<=` and `>=` take them twice -/
theorem equal_violated : (mamdani.process.1.outputs.map fun o => o.fuzzy.terms.length) = [2] ∧
    (let v := (mamdani.process.1.outputs.flatMap fun o => o.fuzzy.terms.map fun a => a.degree).headD nan
     ((divided mamdani .lessThan .greaterThan v).process.1.outputs.map fun o => o.fuzzy.terms.length) = [1] ∧
     ((divided mamdani .lessThanOrEqualTo .greaterThanOrEqualTo v).process.1.outputs.map fun o => o.fuzzy.terms.length) = [3]) := by decide +kernel

/-- if x is low then y is one; if y is not one then y is four -/
def chained : Engine (Flt dbl) :=
  { engine with blocks := [{ block with
      rules := [conclude [] 0 0, { conclude [] 0 1 with antecedent := some (.prop ⟨.output 0, [.builtin .not], some 0⟩) }] }] }

/-- **C105 is violated by antecedents about output variables**: the rule "if y is not one" has the degree 1/3 in the undivided
block, but 1 when it is compared to be less than 1/2, and 1/3 when it is compared not to be. -/
theorem output_violated : (chained.process.1.outputs.map fun o => o.fuzzy.terms.length) = [2] ∧
    ((divided chained .lessThan .greaterThanOrEqualTo (lit (1 / 2))).process.1.outputs.map fun o => o.fuzzy.terms.length) = [1] := by
  decide +kernel

end FL.DivideDemo
