/-
C106: with enough rules every activation method but Proportional does the same as General, in another order.
-/
import Verif.Props.Divide
import Verif.Props.More

namespace FL
open Scalar
variable {S : Type} [Scalar S]

namespace RuleBlock

/-- What General does with a rule: `q` is the rule with its degree, `A` what it adds. -/
structure Does1 (b : RuleBlock S) (w : World S) (r q : Rule S) (A : List (VarRef × Activated S)) : Prop where
  adds : b.StepAdds w (fun _ => true) r A
  degree : ∀ ys, b.degreeStep (w.append ys) r = (w.append ys, q, none)
  trigger : active q = true → ∃ q', ∀ ys, q.trigger (w.append ys) b.implication = (w.append (ys ++ A), q', none)
  idle : active q = false → A = []

theorem step_does (b : RuleBlock S) (w : World S) (r : Rule S) (h : r.OnInputs)
    (k : Nat) (xs : List (VarRef × Activated S)) (hok : (b.selectStep (fun _ _ => true) (w.append xs, k) r).2.2 = none) :
    ∃ q A, b.Does1 w r q A := by
  by_cases hl : r.deactivate.isLoaded = true
  · have ha := fun xs => Rule.activateWith_append w xs b.conjunction b.disjunction r.deactivate h
    have hf := (Rule.activateWith_frame w b.conjunction b.disjunction r.deactivate).1
    cases hq : r.deactivate.activateWith w b.conjunction b.disjunction with
    | mk r1 e1 =>
      rw [hq] at hf
      cases e1 with
      | some e => simp [selectStep, hl, ha, hq] at hok
      | none =>
        have hl1 : r1.isLoaded = true := hf.isLoaded.trans hl
        by_cases hg : Op.isGt r1.degree (lit 0) = true
        · obtain ⟨A, r2, e2, ht⟩ := Rule.trigger_steady b.implication w r1
          cases e2 with
          | some e => simp [selectStep, hl, ha, hq, ht] at hok
          | none =>
            exact ⟨r1, A, fun k xs => ⟨k + 1, r2, by simp [selectStep, hl, ha, hq, ht]⟩, fun ys => by simp [degreeStep, hl, ha, hq],
              fun _ => ⟨r2, ht⟩, fun hn => by simp [active, hl1, hg] at hn⟩
        · have hi : r1.Idle := fun h => hg h.2
          have ht := fun w => Rule.trigger_idle r1 w b.implication hl1 hi
          exact ⟨r1, [], fun k xs => ⟨k + 1, r1, by simp [selectStep, hl, ha, hq, ht]⟩, fun ys => by simp [degreeStep, hl, ha, hq],
            fun ha => by simp [active, hg] at ha, fun _ => rfl⟩
  · exact ⟨r.deactivate, [], fun k xs => ⟨k, r.deactivate, by simp [selectStep, hl]⟩, fun ys => by simp [degreeStep, hl],
      fun ha => by simp [active, hl] at ha, fun _ => rfl⟩

theorem rules_does (b : RuleBlock S) (w : World S) (rs : List (Rule S)) (h : ∀ r ∈ rs, r.OnInputs)
    (k : Nat) (xs : List (VarRef × Activated S)) (hok : (eachRule (b.selectStep fun _ _ => true) (w.append xs, k) rs).2.2 = none) :
    ∀ r ∈ rs, ∃ q A, b.Does1 w r q A := by
  induction rs generalizing k xs with
  | nil => simp
  | cons r rs ih =>
    rw [eachRule_cons] at hok
    cases he : (b.selectStep (fun _ _ => true) (w.append xs, k) r).2.2 with
    | some e => rw [he] at hok; simp at hok
    | none =>
      rw [he] at hok
      obtain ⟨q, A, h1⟩ := b.step_does w r (h r List.mem_cons_self) k xs he
      obtain ⟨k', r', hs⟩ := h1.adds k xs
      simp only at hs hok
      rw [hs] at hok
      intro p hp
      rcases List.mem_cons.1 hp with rfl | hp
      · exact ⟨q, A, h1⟩
      · exact ih (fun q hq => h q (List.mem_cons_of_mem _ hq)) k' (xs ++ A) hok p hp

theorem rules_add (b : RuleBlock S) (w : World S) (g : Rule S → List (VarRef × Activated S)) (rs : List (Rule S))
    (h : ∀ r ∈ rs, b.StepAdds w (fun _ => true) r (g r)) : b.RulesAdd w (fun _ => true) rs (rs.flatMap g) := by
  induction rs with
  | nil => exact fun k xs => ⟨k, [], by simp [eachRule]⟩
  | cons r rs ih => exact RulesAdd.cons (h r List.mem_cons_self) (ih fun q hq => h q (List.mem_cons_of_mem _ hq))

theorem rules_degrees (b : RuleBlock S) (w : World S) (f : Rule S → Rule S) (rs : List (Rule S))
    (h : ∀ r ∈ rs, b.degreeStep w r = (w, f r, none)) : eachRule b.degreeStep w rs = (w, rs.map f, none) := by
  induction rs with
  | nil => rfl
  | cons r rs ih => simp [eachRule, h r List.mem_cons_self, ih fun q hq => h q (List.mem_cons_of_mem _ hq)]

/-- rules that are triggered in turn, none of them twice -/
theorem triggerAll_adds (imp : Option (TNorm S)) (w : World S) (f : Nat → List (VarRef × Activated S)) (is : List Nat) (hnd : is.Nodup)
    (rs : List (Rule S)) (h : ∀ i ∈ is, ∃ q, rs[i]? = some q ∧ ∃ q', ∀ ys, q.trigger (w.append ys) imp = (w.append (ys ++ f i), q', none))
    (ys : List (VarRef × Activated S)) : ∃ rs', triggerAll imp (w.append ys) rs is = (w.append (ys ++ is.flatMap f), rs', none) := by
  induction is generalizing rs ys with
  | nil => exact ⟨rs, by simp [triggerAll]⟩
  | cons i is ih =>
    obtain ⟨hi, hnd⟩ := List.nodup_cons.1 hnd
    obtain ⟨q, hq, q', ht⟩ := h i List.mem_cons_self
    obtain ⟨rs', e⟩ := ih hnd (rs.set i q') (fun j hj => by
      obtain ⟨p, hp, hp'⟩ := h j (List.mem_cons_of_mem _ hj)
      have : i ≠ j := by rintro rfl; exact hi hj
      exact ⟨p, by rw [List.getElem?_set_ne this, hp], hp'⟩) (ys ++ f i)
    exact ⟨rs', by simp [triggerAll, hq, ht, e]⟩

theorem candidates_adds (f : Rule S → Rule S) (g : Rule S → List (VarRef × Activated S)) (rs : List (Rule S))
    (h : ∀ r ∈ rs, active (f r) = false → g r = []) :
    ((candidates (rs.map f)).map Prod.fst).flatMap (fun i => (rs[i]?.map g).getD []) = rs.flatMap g := by
  induction rs with
  | nil => rfl
  | cons r rs ih =>
    have h1 := ih fun q hq => h q (List.mem_cons_of_mem _ hq)
    have h2 := h r List.mem_cons_self
    rw [List.map_cons, candidates_cons, List.map_append, List.flatMap_append, List.flatMap_cons, ← h1]
    congr 1
    · by_cases ha : active (f r) = true
      · have : ((f r).isLoaded && Op.isGt (f r).degree (lit 0)) = true := ha
        simp [this]
      · rw [Bool.not_eq_true] at ha
        have : ((f r).isLoaded && Op.isGt (f r).degree (lit 0)) = false := ha
        simp [this, h2 ha]
    · simp [List.map_map, List.flatMap_map, Function.comp_def]

omit [Scalar S] in
theorem order_perm [Heap S] [LawfulHeap S] (less : S → S → Bool) (cs : List (Nat × S)) :
    ((Heap.pops less (cs.map Prod.snd)).filterMap fun i => cs[i]?.map Prod.fst).Perm (cs.map Prod.fst) := by
  have hperm : (Heap.pops less (cs.map Prod.snd)).Perm (List.range cs.length) := by
    have := LawfulHeap.perm less (cs.map Prod.snd)
    rwa [List.length_map] at this
  have e1 : (List.range cs.length).filterMap (fun i => cs[i]?.map Prod.fst) = cs.map Prod.fst := by
    have e3 := range_filterMap (cs.map Prod.fst)
    rw [List.length_map] at e3
    rw [← e3]
    apply List.filterMap_congr
    intro i _
    simp
  rw [← e1]
  exact hperm.filterMap _

/-- the activation method can trigger all active rules of the block -/
def Enough (b : RuleBlock S) : Activation S → Prop
  | .general => True
  | .first n t | .last n t => (b.rules.length : Int) ≤ n ∧ ∀ d : S, Op.isGt d (lit 0) = true → Op.isGE d t = true
  | .highest n | .lowest n => (b.rules.length : Int) ≤ n
  | .proportional => False
  | .threshold c v => ∀ d : S, Op.isGt d (lit 0) = true → c.activates d v = true

/-- **C106.**  If General raises no exception, an activation method that can trigger all active rules raises none, and it adds
the same activated terms as General, in another order. -/
theorem enough_general [Heap S] [LawfulHeap S] (b : RuleBlock S) (w : World S) (h : ∀ r ∈ b.rules, r.OnInputs) (a : Activation S) (ha : b.Enough a)
    (xs : List (VarRef × Activated S)) (hok : (b.activateBy .general (w.append xs)).2.2 = none) :
    ∃ A B : List (VarRef × Activated S), A.Perm B ∧
      (∀ ys, ∃ rs, b.activateBy .general (w.append ys) = (w.append (ys ++ A), rs, none)) ∧
      (∀ ys, ∃ rs, b.activateBy a (w.append ys) = (w.append (ys ++ B), rs, none)) := by
  have hd := b.rules_does w b.rules h 0 xs hok
  have hd' : ∀ r, ∃ p : Rule S × List (VarRef × Activated S), r ∈ b.rules → b.Does1 w r p.1 p.2 := by
    intro r
    by_cases hr : r ∈ b.rules
    · obtain ⟨q, A, h1⟩ := hd r hr
      exact ⟨(q, A), fun _ => h1⟩
    · exact ⟨(r, []), fun h => absurd h hr⟩
  choose p hp using hd'
  have hgen : ∀ rs, (∀ r ∈ rs, r ∈ b.rules) → b.RulesAdd w (fun _ => true) rs (rs.flatMap fun r => (p r).2) :=
    fun rs hrs => b.rules_add w _ rs fun r hr => (hp r (hrs r hr)).adds
  have hG : ∀ ys, ∃ rs, b.activateBy .general (w.append ys) = (w.append (ys ++ b.rules.flatMap fun r => (p r).2), rs, none) := by
    intro ys
    obtain ⟨k, rs, e⟩ := hgen b.rules (fun _ h => h) 0 ys
    exact ⟨rs, by simp [activateBy, activateGeneral, e]⟩
  have hord : ∀ less n, (b.rules.length : Int) ≤ n → ∃ B, (b.rules.flatMap fun r => (p r).2).Perm B ∧
      ∀ ys, ∃ rs, b.activateOrdered less n (w.append ys) = (w.append (ys ++ B), rs, none) := by
    intro less n hn
    have hp1 := order_perm less (candidates (b.rules.map fun r => (p r).1))
    have hnd := hp1.nodup_iff.2 (candidates_nodup _)
    have hca := candidates_adds (fun r => (p r).1) (fun r => (p r).2) b.rules fun r hr => (hp r hr).idle
    have hp2 := hp1.symm.flatMap_right fun i => ((b.rules[i]?).map fun r => (p r).2).getD []
    rw [hca] at hp2
    refine ⟨_, hp2, fun ys => ?_⟩
    have hlen : ((Heap.pops less ((candidates (b.rules.map fun r => (p r).1)).map Prod.snd)).filterMap fun i =>
        (candidates (b.rules.map fun r => (p r).1))[i]?.map Prod.fst).length ≤ n.toNat := by
      rw [hp1.length_eq, List.length_map, candidates_length]
      have := List.countP_le_length (p := active) (l := b.rules.map fun r => (p r).1)
      rw [List.length_map] at this
      omega
    obtain ⟨rs, e⟩ := triggerAll_adds b.implication w (fun i => ((b.rules[i]?).map fun r => (p r).2).getD []) _ hnd (b.rules.map fun r => (p r).1)
      (fun i hi => by
        rw [hp1.mem_iff, List.mem_map] at hi
        obtain ⟨⟨j, d⟩, hm, rfl⟩ := hi
        obtain ⟨q, hq, hact, -⟩ := (mem_candidates _ j d).1 hm
        rw [List.getElem?_map, Option.map_eq_some_iff] at hq
        obtain ⟨r, hr, rfl⟩ := hq
        refine ⟨(p r).1, by simp [hr], ?_⟩
        simp only [hr, Option.map_some, Option.getD_some]
        exact (hp r (List.mem_of_getElem? hr)).trigger hact) ys
    refine ⟨rs, ?_⟩
    unfold activateOrdered
    rw [b.rules_degrees (w.append ys) (fun r => (p r).1) b.rules fun r hr => (hp r hr).degree ys]
    simp only [List.take_of_length_le hlen]
    exact e
  cases a with
  | general => exact ⟨_, _, .refl _, hG, hG⟩
  | first n t => exact ⟨_, _, .refl _, hG, fun ys => by rw [b.first_general (n := n) (t := t) ha.1 ha.2]; exact hG ys⟩
  | threshold c v => exact ⟨_, _, .refl _, hG, fun ys => by rw [b.threshold_general c v ha]; exact hG ys⟩
  | last n t =>
    refine ⟨_, b.rules.reverse.flatMap fun r => (p r).2, (List.reverse_perm _).symm.flatMap_right _, hG, fun ys => ?_⟩
    obtain ⟨k, rs, e⟩ := hgen b.rules.reverse (fun r hr => List.mem_reverse.1 hr) 0 ys
    have hs := b.select_general b.rules.length (firstChoice n t) (fun k d hk hd => by
      have : (k : Int) < n := by have := ha.1; omega
      simp [firstChoice, this, hd, ha.2 d hd]) b.rules.reverse (w.append ys) 0 0 (by simp)
    rw [e] at hs
    refine ⟨rs.reverse, ?_⟩
    simp only [activateBy, activateLast]
    generalize eachRule (b.selectStep (firstChoice n t)) (w.append ys, 0) b.rules.reverse = q at hs ⊢
    obtain ⟨s, rs1, e1⟩ := q
    simp only [Prod.mk.injEq] at hs
    obtain ⟨h1, rfl, rfl⟩ := hs
    rw [h1]
  | highest n =>
    obtain ⟨B, p1, h1⟩ := hord (fun x y => lt x y) n ha
    exact ⟨_, B, p1, hG, h1⟩
  | lowest n =>
    obtain ⟨B, p1, h1⟩ := hord (fun x y => lt y x) n ha
    exact ⟨_, B, p1, hG, h1⟩
  | proportional => exact ha.elim

end RuleBlock

namespace Engine

/-- the block with an activation method that can trigger all active rules in place of General -/
inductive Replaced : RuleBlock S → RuleBlock S → Prop
  | keep (b : RuleBlock S) : Replaced b b
  | replace (b : RuleBlock S) (a : Activation S) : b.activation.getD .general = .general → b.Enough a → Replaced b { b with activation := some a }

theorem blocks_replace [Heap S] [LawfulHeap S] (w : World S) {bs cs : List (RuleBlock S)} (hd : List.Forall₂ Replaced bs cs)
    (h : ∀ b ∈ bs, ∀ r ∈ b.rules, r.OnInputs) (xs : List (VarRef × Activated S)) (hok : (activateBlocks (w.append xs) bs).2.2 = none) :
    ∃ A B : List (VarRef × Activated S), A.Perm B ∧
      (∀ ys, ∃ bs', activateBlocks (w.append ys) bs = (w.append (ys ++ A), bs', none)) ∧
      (∀ ys, ∃ cs', activateBlocks (w.append ys) cs = (w.append (ys ++ B), cs', none)) := by
  induction hd generalizing xs with
  | nil => exact ⟨[], [], .refl _, fun ys => ⟨[], by simp [activateBlocks]⟩, fun ys => ⟨[], by simp [activateBlocks]⟩⟩
  | @cons b c bs cs hbc _ ih =>
    have hstep : ∃ A B : List (VarRef × Activated S), A.Perm B ∧
        (∀ ys, ∃ b', activateBlocks (w.append ys) [b] = (w.append (ys ++ A), [b'], none)) ∧
        (∀ ys, ∃ c', activateBlocks (w.append ys) [c] = (w.append (ys ++ B), [c'], none)) := by
      cases hbc with
      | keep =>
        obtain ⟨A, b', hb⟩ := adds_of_none bs (h b List.mem_cons_self) xs hok
        exact ⟨A, A, .refl _, fun ys => ⟨b', hb ys⟩, fun ys => ⟨b', hb ys⟩⟩
      | replace a hg ha =>
        by_cases hen : b.enabled = true
        · have hn : (b.activateBy .general (w.append xs)).2.2 = none := by
            simp only [activateBlocks, hen, Bool.not_true, Bool.false_eq_true, if_false, RuleBlock.activate, hg] at hok
            generalize b.activateBy .general (w.append xs) = q at hok ⊢
            obtain ⟨s, rs, e⟩ := q
            cases e with
            | none => rfl
            | some e => simp at hok
          obtain ⟨A, B, p, h1, h2⟩ := b.enough_general w (h b List.mem_cons_self) a ha xs hn
          refine ⟨A, B, p, fun ys => ?_, fun ys => ?_⟩
          · obtain ⟨rs, e⟩ := h1 ys
            exact ⟨{ b with activation := some .general, rules := rs }, by simp [activateBlocks, hen, RuleBlock.activate, hg, e]⟩
          · obtain ⟨rs, e⟩ := h2 ys
            have e' : ({ b with activation := some a } : RuleBlock S).activateBy a (w.append ys) = (w.append (ys ++ B), rs, none) := by
              rw [← e]
              cases a <;> rfl
            exact ⟨{ b with activation := some a, rules := rs }, by
              simp only [activateBlocks, RuleBlock.activate, Option.getD_some, e']
              simp [hen]⟩
        · exact ⟨[], [], .refl _, fun ys => ⟨b, by simp [activateBlocks, hen]⟩, fun ys => ⟨_, by simp [activateBlocks, hen]; rfl⟩⟩
    obtain ⟨A, B, p, h1, h2⟩ := hstep
    obtain ⟨b', hb⟩ := h1 xs
    rw [blocks_cons bs hb] at hok
    obtain ⟨A', B', p', h3, h4⟩ := ih (fun b hb => h b (List.mem_cons_of_mem _ hb)) _ hok
    refine ⟨A ++ A', B ++ B', p.append p', fun ys => ?_, fun ys => ?_⟩
    · obtain ⟨b', hb⟩ := h1 ys
      obtain ⟨bs', e⟩ := h3 (ys ++ A)
      exact ⟨b' :: bs', by rw [blocks_cons bs hb, e, List.append_assoc]⟩
    · obtain ⟨c', hc⟩ := h2 ys
      obtain ⟨cs', e⟩ := h4 (ys ++ B)
      exact ⟨c' :: cs', by rw [blocks_cons cs hc, e, List.append_assoc]⟩

/-- **C106 (partial: not if the value of an output variable depends on the order in which terms were activated).**  If General is
replaced, in any blocks, by activation methods that can trigger all active rules, processing raises no exception if it raised
none before, the fuzzy outputs have the same activated terms, in another order, and the values are the same. -/
theorem process_enough_partial [Heap S] [LawfulHeap S] {e e' : Engine S} (hb : List.Forall₂ Replaced e.blocks e'.blocks) (hi : e'.inputs = e.inputs)
    (ho : e'.outputs = e.outputs) (hin : ∀ b ∈ e.blocks, ∀ r ∈ b.rules, r.OnInputs) (hok : e.process.2 = none)
    (hu : ∀ o ∈ e.process.1.outputs, o.Unordered (e.inputs.map fun v => (v.name, v.value))) :
    e'.process.2 = none ∧ List.Forall₂ OutputVariable.Reordered e.process.1.outputs e'.process.1.outputs ∧
      e'.process.1.outputValues = e.process.1.outputValues := by
  refine process_permuted_partial hi ho (fun w hn => ?_) hok hu
  obtain ⟨A, B, p, h1, h2⟩ := blocks_replace w hb hin [] (by rw [World.append_nil]; exact hn)
  obtain ⟨bs', h1⟩ := h1 []
  obtain ⟨cs', h2⟩ := h2 []
  rw [World.append_nil, List.nil_append] at h1 h2
  exact ⟨A, B, bs', cs', p, h1, h2⟩

end Engine

/-- **C106.**  All degrees that make a rule active are at least zero: First and Last with the threshold zero leave out no rule
that General triggers. -/
theorem RuleBlock.enough_zero (b : RuleBlock S) (n : Int) (hn : (b.rules.length : Int) ≤ n) :
    b.Enough (.first n (lit 0)) ∧ b.Enough (.last n (lit 0)) := by
  have h : ∀ d : S, Op.isGt d (lit 0) = true → Op.isGE d (lit 0) = true := by
    intro d hd
    simp only [Op.isGt, Op.isGtT, Op.isGE, Op.isGET, Bool.and_eq_true] at hd ⊢
    simp [hd.2]
  exact ⟨⟨hn, h⟩, ⟨hn, h⟩⟩

end FL

namespace FL.EnoughDemo
open Scalar FL.Rounded FL.Rounded.Demo

local instance : Heap (Flt dbl) := RuleBlock.stableHeap _
local instance : LawfulHeap (Flt dbl) := RuleBlock.stableHeap_lawful _

/-- the engine with another activation method -/
def withMethod (e : Engine (Flt dbl)) (a : Activation (Flt dbl)) : Engine (Flt dbl) :=
  { e with blocks := e.blocks.map fun b => { b with activation := some a } }

/-- the theorem applies to the Mamdani controller in double precision: the output is the same to the last bit -/
example (a : Activation (Flt dbl)) (ha : control.Enough a) :
    (withMethod mamdani a).process.2 = none ∧ (withMethod mamdani a).process.1.outputValues = mamdani.process.1.outputValues := by
  have hd : List.Forall₂ Engine.Replaced mamdani.blocks (withMethod mamdani a).blocks := .cons (.replace control a rfl ha) .nil
  have hin : ∀ b ∈ mamdani.blocks, ∀ r ∈ b.rules, r.OnInputs := by
    intro b hb r hr
    simp only [mamdani, List.mem_singleton] at hb
    subst hb
    simp only [FL.Rounded.Demo.control, List.mem_cons, List.not_mem_nil, or_false] at hr
    rcases hr with rfl | rfl <;> exact RuleOrder.onInputs_conclude _ _ _
  have hu : ∀ o ∈ mamdani.process.1.outputs, o.Unordered (mamdani.inputs.map fun v => (v.name, v.value)) := by
    have h : mamdani.process.1.outputs.all RuleOrder.plain = true := by decide +kernel
    exact fun o ho => RuleOrder.plain_unordered _ o (List.all_eq_true.1 h o ho)
  have h := Engine.process_enough_partial hd rfl rfl hin (by decide +kernel) hu
  exact ⟨h.1, h.2.2⟩

example : control.Enough (.highest 2) ∧ control.Enough (.lowest 2) ∧ control.Enough (.last 2 (lit 0)) ∧ ¬ control.Enough (.highest 1) :=
  ⟨show (2 : Int) ≤ 2 by decide, show (2 : Int) ≤ 2 by decide, (control.enough_zero 2 (by decide)).2, show ¬ (2 : Int) ≤ 1 by decide⟩

def terms (e : Engine (Flt dbl)) : List (List Nat) := e.process.1.outputs.map fun o => o.fuzzy.terms.map fun a => a.id

/-- and this is what is computed -/
example : terms mamdani = [[0, 1]] ∧ terms (withMethod mamdani (.highest 2)) = [[0, 1]] ∧ terms (withMethod mamdani (.lowest 2)) = [[1, 0]] ∧
    terms (withMethod mamdani (.last 2 (lit 0))) = [[1, 0]] ∧ terms (withMethod mamdani (.highest 1)) = [[0]] ∧
    (withMethod mamdani (.lowest 2)).process.1.outputValues = mamdani.process.1.outputValues := by decide +kernel

/-- if x is low then y is one; if y is one then y is four -/
def chained : Engine (Flt dbl) := { engine with blocks := [{ block with rules := [conclude [] 0 0, RuleOrder.onOutput] }] }

/-- **C106 is violated by antecedents about output variables**: Highest and Lowest compute all degrees before they trigger a rule. -/
theorem output_violated : terms chained = [[0, 1]] ∧ terms (withMethod chained (.highest 2)) = [[0]] ∧
    terms (withMethod chained (.last 2 (lit 0))) = [[0]] := by decide +kernel

/-- **C106 is violated by Proportional**: the same rules are triggered, to other degrees. -/
theorem proportional_violated : terms (withMethod mamdani .proportional) = terms mamdani ∧
    (let e : Engine (Flt dbl) := { engine with blocks := [{ block with rules := [conclude [] 0 0] }] }
     (e.process.1.outputs.flatMap fun o => o.fuzzy.terms.map fun a => decide (a.degree = lit 1)) = [false] ∧
     ((withMethod e .proportional).process.1.outputs.flatMap fun o => o.fuzzy.terms.map fun a => decide (a.degree = lit 1)) = [true]) := by
  decide +kernel

end FL.EnoughDemo
