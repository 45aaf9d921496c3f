/-
The order of rules and of rule blocks does not matter to engines whose antecedents are about input variables.
-/
import Verif.Props.RoundedMamdani
import Verif.Props.Weighted
import Verif.Props.Integral

namespace FL
open Scalar

section steady
variable {S : Type} [Scalar S]

/-! ### what rules add to fuzzy outputs does not depend on what other rules have added -/

/-- the antecedent of a rule is about input variables -/
def Rule.OnInputs (r : Rule S) : Prop := ∀ a ∈ r.antecedent, a.OnInputs

theorem modifyLoop_steady (imp : Option (TNorm S)) (w : World S) (d : S) (ps : List (Proposition S)) :
    ∃ (A : List (VarRef × Activated S)) (e : Option Err), ∀ xs, modifyLoop imp (w.append xs) d ps = (w.append (xs ++ A), e) := by
  induction ps generalizing d with
  | nil => exact ⟨[], none, fun xs => by simp [modifyLoop]⟩
  | cons p ps ih =>
    obtain ⟨v, hs, t⟩ := p
    match v, t with
    | .input i, t => exact ⟨[], some .ub, fun xs => by simp [modifyLoop]⟩
    | .output i, none => exact ⟨[], some .ub, fun xs => by simp [modifyLoop]⟩
    | .output i, some j =>
      cases ho : w.outputs[i]? with
      | none => exact ⟨[], some .ub, fun xs => by simp [modifyLoop, World.append_outputs, ho]⟩
      | some o =>
        cases hen : o.enabled with
        | false =>
          obtain ⟨A, e, h⟩ := ih d
          exact ⟨A, e, fun xs => by simp [modifyLoop, World.append_outputs, ho, hen, h]⟩
        | true =>
          cases hd : applyHedges hs d with
          | error e => exact ⟨[], some e, fun xs => by simp [modifyLoop, World.append_outputs, ho, hen, hd]⟩
          | ok d' =>
            cases ht : o.terms[j]? with
            | none => exact ⟨[], some .ub, fun xs => by simp [modifyLoop, World.append_outputs, ho, hen, hd, ht]⟩
            | some t =>
              obtain ⟨A, e, h⟩ := ih d'
              refine ⟨(.output i, ⟨j, t, d', imp⟩) :: A, e, fun xs => ?_⟩
              have h1 := h (xs ++ [(.output i, ⟨j, t, d', imp⟩)])
              rw [← World.append_append] at h1
              have ho' := World.append_outputs w xs i
              rw [ho] at ho'
              have h2 := World.append_one (w.append xs) i _ ⟨j, t, d', imp⟩ ho'
              simp only [modifyLoop, ho', hen, hd, ht, Option.map_some, Bool.not_true, Bool.false_eq_true, if_false]
              rw [h2, h1]
              simp

theorem Rule.trigger_steady (imp : Option (TNorm S)) (w : World S) (r : Rule S) :
    ∃ (A : List (VarRef × Activated S)) (r' : Rule S) (e : Option Err),
      ∀ xs, r.trigger (w.append xs) imp = (w.append (xs ++ A), r', e) := by
  by_cases hl : r.isLoaded = true
  · by_cases ht : (r.enabled && Op.isGt r.degree (lit 0)) = true
    · obtain ⟨A, e, h⟩ := modifyLoop_steady imp w r.degree r.conclusions
      have hc : r.conclusions.isEmpty = false := by
        simp only [Rule.isLoaded, Bool.and_eq_true, Bool.not_eq_true'] at hl
        exact hl.2
      cases e with
      | none => exact ⟨A, { r with triggered := true }, none, fun xs => by simp [Rule.trigger, hl, ht, modify, hc, h]⟩
      | some e => exact ⟨A, r, some e, fun xs => by simp [Rule.trigger, hl, ht, modify, hc, h]⟩
    · exact ⟨[], r, none, fun xs => by
        unfold Rule.trigger
        rw [hl, if_neg (by simp), if_neg ht, List.append_nil]⟩
  · exact ⟨[], r, some .notLoaded, fun xs => by simp [Rule.trigger, hl]⟩

theorem Rule.activateWith_append (w : World S) (xs : List (VarRef × Activated S)) (c : Option (TNorm S)) (d : Option (SNorm S))
    (r : Rule S) (h : r.OnInputs) : r.activateWith (w.append xs) c d = r.activateWith w c d := by
  unfold Rule.activateWith
  cases ha : r.antecedent with
  | none => rfl
  | some a =>
    have := Expr.degree_append w xs c d a (h a ha)
    simp only [this]

namespace RuleBlock

/-- one step of a loop over the rules adds the same to the fuzzy outputs whatever these contain -/
def Steady {κ : Type} (w : World S) (f : World S × κ → Rule S → (World S × κ) × Rule S × Option Err) (r : Rule S) : Prop :=
  ∀ k, ∃ (A : List (VarRef × Activated S)) (k' : κ) (r' : Rule S) (e : Option Err),
    ∀ xs, f (w.append xs, k) r = ((w.append (xs ++ A), k'), r', e)

theorem selectStep_steady (b : RuleBlock S) (choose : Nat → S → Bool) (w : World S) (r : Rule S) (h : r.OnInputs) :
    Steady w (b.selectStep choose) r := by
  intro k
  by_cases hl : r.deactivate.isLoaded = true
  · have ha := fun xs => Rule.activateWith_append w xs b.conjunction b.disjunction r.deactivate h
    cases hq : r.deactivate.activateWith w b.conjunction b.disjunction with
    | mk r1 e1 =>
      cases e1 with
      | some e => exact ⟨[], k, r1, some e, fun xs => by simp [selectStep, hl, ha, hq]⟩
      | none =>
        by_cases hc : choose k r1.degree = true
        · obtain ⟨A, r2, e2, ht⟩ := Rule.trigger_steady b.implication w r1
          cases e2 with
          | none => exact ⟨A, k + 1, r2, none, fun xs => by simp [selectStep, hl, ha, hq, hc, ht]⟩
          | some e => exact ⟨A, k, r2, some e, fun xs => by simp [selectStep, hl, ha, hq, hc, ht]⟩
        · exact ⟨[], k, r1, none, fun xs => by simp [selectStep, hl, ha, hq, hc]⟩
  · exact ⟨[], k, r.deactivate, none, fun xs => by simp [selectStep, hl]⟩

theorem eachRule_steady {κ : Type} (w : World S) (f : World S × κ → Rule S → (World S × κ) × Rule S × Option Err)
    (rs : List (Rule S)) (h : ∀ r ∈ rs, Steady w f r) (k : κ) :
    ∃ (A : List (VarRef × Activated S)) (k' : κ) (rs' : List (Rule S)) (e : Option Err),
      ∀ xs, eachRule f (w.append xs, k) rs = ((w.append (xs ++ A), k'), rs', e) := by
  induction rs generalizing k with
  | nil => exact ⟨[], k, [], none, fun xs => by simp [eachRule]⟩
  | cons r rs ih =>
    obtain ⟨A, k1, r1, e1, h1⟩ := h r List.mem_cons_self k
    cases e1 with
    | some e => exact ⟨A, k1, r1 :: rs, some e, fun xs => by simp [eachRule, h1]⟩
    | none =>
      obtain ⟨B, k2, rs2, e2, h2⟩ := ih (fun q hq => h q (List.mem_cons_of_mem _ hq)) k1
      exact ⟨A ++ B, k2, r1 :: rs2, e2, fun xs => by simp [eachRule, h1, h2]⟩

/-- the first loop of Highest, Lowest and Proportional does not read the fuzzy outputs -/
theorem degreeStep_append (b : RuleBlock S) (w : World S) (rs : List (Rule S)) (h : ∀ r ∈ rs, r.OnInputs) :
    ∃ (rs' : List (Rule S)) (e : Option Err), ∀ xs, eachRule b.degreeStep (w.append xs) rs = (w.append xs, rs', e) := by
  induction rs with
  | nil => exact ⟨[], none, fun xs => by simp [eachRule]⟩
  | cons r rs ih =>
    obtain ⟨rs2, e2, h2⟩ := ih fun q hq => h q (List.mem_cons_of_mem _ hq)
    have ha := fun xs => Rule.activateWith_append w xs b.conjunction b.disjunction r.deactivate (h r List.mem_cons_self)
    by_cases hl : r.deactivate.isLoaded = true
    · cases hq : r.deactivate.activateWith w b.conjunction b.disjunction with
      | mk r1 e1 =>
        cases e1 with
        | some e => exact ⟨r1 :: rs, some e, fun xs => by simp [eachRule, degreeStep, hl, ha, hq]⟩
        | none => exact ⟨r1 :: rs2, e2, fun xs => by simp [eachRule, degreeStep, hl, ha, hq, h2]⟩
    · exact ⟨r.deactivate :: rs2, e2, fun xs => by simp [eachRule, degreeStep, hl, h2]⟩

theorem triggerAll_steady (imp : Option (TNorm S)) (w : World S) (is : List Nat) (rs : List (Rule S)) :
    ∃ (A : List (VarRef × Activated S)) (rs' : List (Rule S)) (e : Option Err),
      ∀ xs, triggerAll imp (w.append xs) rs is = (w.append (xs ++ A), rs', e) := by
  induction is generalizing rs with
  | nil => exact ⟨[], rs, none, fun xs => by simp [triggerAll]⟩
  | cons i is ih =>
    cases hi : rs[i]? with
    | none => exact ⟨[], rs, some .ub, fun xs => by simp [triggerAll, hi]⟩
    | some r =>
      obtain ⟨A, r1, e1, h1⟩ := Rule.trigger_steady imp w r
      cases e1 with
      | some e => exact ⟨A, rs.set i r1, some e, fun xs => by simp [triggerAll, hi, h1]⟩
      | none =>
        obtain ⟨B, rs2, e2, h2⟩ := ih (rs.set i r1)
        exact ⟨A ++ B, rs2, e2, fun xs => by simp [triggerAll, hi, h1, h2]⟩

/-- a loop over rules whose only state is the variables, with a state of no information besides -/
theorem eachRule_unit (f : World S → Rule S → World S × Rule S × Option Err) (w : World S) (rs : List (Rule S)) :
    eachRule (fun (s : World S × Unit) r => ((fun q => ((q.1, ()), q.2)) (f s.1 r))) (w, ()) rs =
      (fun q => ((q.1, ()), q.2)) (eachRule f w rs) := by
  induction rs generalizing w with
  | nil => rfl
  | cons r rs ih =>
    cases hq : f w r with
    | mk w1 q =>
      obtain ⟨r1, e1⟩ := q
      cases e1 <;> simp [eachRule, hq, ih]

theorem proportionalStep_steady (b : RuleBlock S) (sum : S) (w : World S) (r : Rule S) :
    ∃ (A : List (VarRef × Activated S)) (r' : Rule S) (e : Option Err),
      ∀ xs, b.proportionalStep sum (w.append xs) r = (w.append (xs ++ A), r', e) := by
  by_cases hl : r.isLoaded = true
  · obtain ⟨A, r1, e, h⟩ := Rule.trigger_steady b.implication w
      { r with degree := if Op.isNaN (r.degree / sum) then lit 0 else r.degree / sum }
    exact ⟨A, r1, e, fun xs => by simp [proportionalStep, hl, h]⟩
  · exact ⟨[], r, none, fun xs => by simp [proportionalStep, hl]⟩

theorem proportional_steady (b : RuleBlock S) (sum : S) (w : World S) (rs : List (Rule S)) :
    ∃ (A : List (VarRef × Activated S)) (rs' : List (Rule S)) (e : Option Err),
      ∀ xs, eachRule (b.proportionalStep sum) (w.append xs) rs = (w.append (xs ++ A), rs', e) := by
  obtain ⟨A, _, rs', e, h⟩ := eachRule_steady w
    (fun (s : World S × Unit) r => ((fun q => ((q.1, ()), q.2)) (b.proportionalStep sum s.1 r))) rs
    (fun r _ k => by
      obtain ⟨A, r', e, h⟩ := proportionalStep_steady b sum w r
      exact ⟨A, (), r', e, fun xs => by simp only [h]⟩) ()
  refine ⟨A, rs', e, fun xs => ?_⟩
  have := h xs
  rw [eachRule_unit] at this
  revert this
  generalize eachRule (b.proportionalStep sum) (w.append xs) rs = q
  intro this
  simp only [Prod.mk.injEq, and_true] at this
  rw [← this.1, ← this.2]

/-- **C92.**  What a block adds to the fuzzy outputs, the exception it raises and what becomes of its rules do not
depend on what the fuzzy outputs contain, whatever the activation method. -/
theorem activate_steady [Heap S] (b : RuleBlock S) (w : World S) (h : ∀ r ∈ b.rules, r.OnInputs) :
    ∃ (A : List (VarRef × Activated S)) (b' : RuleBlock S) (e : Option Err),
      ∀ xs, b.activate (w.append xs) = (w.append (xs ++ A), b', e) := by
  suffices hs : ∀ a : Activation S, ∃ (A : List (VarRef × Activated S)) (rs : List (Rule S)) (e : Option Err),
      ∀ xs, b.activateBy a (w.append xs) = (w.append (xs ++ A), rs, e) by
    obtain ⟨A, rs, e, h⟩ := hs (b.activation.getD .general)
    exact ⟨A, { b with activation := some (b.activation.getD .general), rules := rs }, e, fun xs => by simp [activate, h]⟩
  have hsel : ∀ (choose : Nat → S → Bool) (rs : List (Rule S)), (∀ r ∈ rs, r.OnInputs) →
      ∃ (A : List (VarRef × Activated S)) (k : Nat) (rs' : List (Rule S)) (e : Option Err),
        ∀ xs, eachRule (b.selectStep choose) (w.append xs, 0) rs = ((w.append (xs ++ A), k), rs', e) :=
    fun choose rs hrs => eachRule_steady w (b.selectStep choose) rs (fun r hr => selectStep_steady b choose w r (hrs r hr)) 0
  have hord : ∀ (less : S → S → Bool) (n : Int), ∃ (A : List (VarRef × Activated S)) (rs : List (Rule S)) (e : Option Err),
      ∀ xs, b.activateOrdered less n (w.append xs) = (w.append (xs ++ A), rs, e) := by
    intro less n
    obtain ⟨rs, e, h1⟩ := degreeStep_append b w b.rules h
    cases e with
    | some e => exact ⟨[], rs, some e, fun xs => by simp [activateOrdered, h1]⟩
    | none =>
      obtain ⟨A, rs', e, h2⟩ := triggerAll_steady b.implication w
        (((Heap.pops less ((candidates rs).map Prod.snd)).filterMap fun i => (candidates rs)[i]?.map Prod.fst).take n.toNat) rs
      exact ⟨A, rs', e, fun xs => by simp only [activateOrdered, h1, h2]⟩
  intro a
  cases a with
  | general =>
    obtain ⟨A, k, rs, e, h1⟩ := hsel (fun _ _ => true) b.rules h
    exact ⟨A, rs, e, fun xs => by simp [activateBy, activateGeneral, h1]⟩
  | first n t =>
    obtain ⟨A, k, rs, e, h1⟩ := hsel (firstChoice n t) b.rules h
    exact ⟨A, rs, e, fun xs => by simp [activateBy, activateFirst, h1]⟩
  | last n t =>
    obtain ⟨A, k, rs, e, h1⟩ := hsel (firstChoice n t) b.rules.reverse fun r hr => h r (List.mem_reverse.1 hr)
    exact ⟨A, rs.reverse, e, fun xs => by simp [activateBy, activateLast, h1]⟩
  | highest n => exact hord _ n
  | lowest n => exact hord _ n
  | proportional =>
    obtain ⟨rs, e, h1⟩ := degreeStep_append b w b.rules h
    cases e with
    | some e => exact ⟨[], rs, some e, fun xs => by simp [activateBy, activateProportional, h1]⟩
    | none =>
      obtain ⟨A, rs', e, h2⟩ := proportional_steady b (degreeSum rs) w rs
      exact ⟨A, rs', e, fun xs => by simp [activateBy, activateProportional, h1, h2]⟩
  | threshold c v =>
    obtain ⟨A, k, rs, e, h1⟩ := hsel (fun _ d => c.activates d v) b.rules h
    exact ⟨A, rs, e, fun xs => by simp [activateBy, activateThreshold, h1]⟩


/-! ### the order of the rules of a block -/

/-- a step of a loop over the rules that does the same whatever the other rules have done: what it adds, what becomes of
the rule and the exception -/
def Does {κ : Type} (w : World S) (f : World S × κ → Rule S → (World S × κ) × Rule S × Option Err)
    (F : Rule S → List (VarRef × Activated S) × Rule S × Option Err) (r : Rule S) : Prop :=
  ∀ k xs, ∃ k', f (w.append xs, k) r = ((w.append (xs ++ (F r).1), k'), (F r).2)

theorem eachRule_all {κ : Type} {w : World S} {f : World S × κ → Rule S → (World S × κ) × Rule S × Option Err}
    {F : Rule S → List (VarRef × Activated S) × Rule S × Option Err} (rs : List (Rule S)) (h : ∀ r ∈ rs, Does w f F r)
    (he : ∀ r ∈ rs, (F r).2.2 = none) (k : κ) (xs : List (VarRef × Activated S)) :
    ∃ k', eachRule f (w.append xs, k) rs = ((w.append (xs ++ rs.flatMap fun r => (F r).1), k'), rs.map fun r => (F r).2.1, none) := by
  induction rs generalizing k xs with
  | nil => exact ⟨k, by simp [eachRule]⟩
  | cons r rs ih =>
    obtain ⟨k1, h1⟩ := h r List.mem_cons_self k xs
    obtain ⟨k2, h2⟩ := ih (fun q hq => h q (List.mem_cons_of_mem _ hq)) (fun q hq => he q (List.mem_cons_of_mem _ hq)) k1
      (xs ++ (F r).1)
    have e1 := he r List.mem_cons_self
    refine ⟨k2, ?_⟩
    unfold eachRule
    rw [h1]
    generalize hF : (F r).2 = q at *
    obtain ⟨r1, e⟩ := q
    simp only at e1
    subst e1
    simp [h2, hF]

theorem eachRule_none {κ : Type} {w : World S} {f : World S × κ → Rule S → (World S × κ) × Rule S × Option Err}
    {F : Rule S → List (VarRef × Activated S) × Rule S × Option Err} (rs : List (Rule S)) (h : ∀ r ∈ rs, Does w f F r)
    (k : κ) (xs : List (VarRef × Activated S)) (he : (eachRule f (w.append xs, k) rs).2.2 = none) : ∀ r ∈ rs, (F r).2.2 = none := by
  induction rs generalizing k xs with
  | nil => simp
  | cons r rs ih =>
    obtain ⟨k1, h1⟩ := h r List.mem_cons_self k xs
    unfold eachRule at he
    rw [h1] at he
    generalize hF : (F r).2 = q at *
    obtain ⟨r1, e⟩ := q
    cases e with
    | some e => simp at he
    | none =>
      simp only at he
      intro q hq
      rcases List.mem_cons.1 hq with rfl | hq
      · simp [hF]
      · exact ih (fun q hq => h q (List.mem_cons_of_mem _ hq)) k1 (xs ++ (F r).1) he q hq

/-- The activation methods for which the order of the rules does not matter: General, Threshold and, if degrees may be
added in any order, Proportional. -/
def _root_.FL.Activation.Unordered : Activation S → Prop
  | .general => True
  | .threshold _ _ => True
  | .proportional => ∀ a b c : S, a + b + c = a + c + b
  | _ => False

/-- the second block has the rules of the first in any order, provided that the activation method is one of those above,
and is otherwise the same -/
structure Reordered (b c : RuleBlock S) : Prop where
  same : c = { b with rules := c.rules }
  rules : b.rules = c.rules ∨ (b.enabled = true → (b.activation.getD .general).Unordered) ∧ b.rules.Perm c.rules

/-- a step of a loop that chooses the rules to trigger by their degree only does the same in any order -/
theorem select_does (b : RuleBlock S) (choose : S → Bool) (w : World S) :
    ∃ F, ∀ r : Rule S, r.OnInputs → Does w (b.selectStep fun _ => choose) F r := by
  have h : ∀ r : Rule S, ∃ q : List (VarRef × Activated S) × Rule S × Option Err, r.OnInputs →
      ∀ k xs, ∃ k', b.selectStep (fun _ => choose) (w.append xs, k) r = ((w.append (xs ++ q.1), k'), q.2) := by
    intro r
    by_cases hr : r.OnInputs
    · obtain ⟨A, k1, r1, e, h⟩ := selectStep_steady b (fun _ => choose) w r hr 0
      refine ⟨(A, r1, e), fun _ k xs => ?_⟩
      have h0 := h xs
      have key : ∀ k k1 : Nat, ∃ k2, b.selectStep (fun _ => choose) (w.append xs, k) r =
          (((b.selectStep (fun _ => choose) (w.append xs, k1) r).1.1, k2), (b.selectStep (fun _ => choose) (w.append xs, k1) r).2) := by
        intro k k1
        unfold selectStep
        simp only
        split
        · exact ⟨k, rfl⟩
        · split
          · exact ⟨k, rfl⟩
          · split
            · split
              · exact ⟨k, rfl⟩
              · exact ⟨k + 1, rfl⟩
            · exact ⟨k, rfl⟩
      obtain ⟨k2, h2⟩ := key k 0
      rw [h0] at h2
      exact ⟨k2, h2⟩
    · exact ⟨([], r, none), fun h => absurd h hr⟩
  choose F hF using h
  exact ⟨F, fun r hr => hF r hr⟩

/-- the same for a loop whose only state is the variables -/
theorem unit_does (f : World S → Rule S → World S × Rule S × Option Err) (w : World S) (P : Rule S → Prop)
    (h : ∀ r, P r → ∃ (A : List (VarRef × Activated S)) (r' : Rule S) (e : Option Err), ∀ xs, f (w.append xs) r = (w.append (xs ++ A), r', e)) :
    ∃ F, ∀ r : Rule S, P r → Does w (fun (s : World S × Unit) r => ((fun q => ((q.1, ()), q.2)) (f s.1 r))) F r := by
  have h' : ∀ r : Rule S, ∃ q : List (VarRef × Activated S) × Rule S × Option Err, P r →
      ∀ xs, f (w.append xs) r = (w.append (xs ++ q.1), q.2) := by
    intro r
    by_cases hr : P r
    · obtain ⟨A, r', e, h⟩ := h r hr
      exact ⟨(A, r', e), fun _ => h⟩
    · exact ⟨([], r, none), fun h => absurd h hr⟩
  choose F hF using h'
  exact ⟨F, fun r hr k xs => ⟨(), by simp only [hF r hr xs]⟩⟩

theorem eachRule_unit' (f : World S → Rule S → World S × Rule S × Option Err) (w : World S) (rs : List (Rule S)) :
    eachRule f w rs = ((eachRule (fun (s : World S × Unit) r => ((fun q => ((q.1, ()), q.2)) (f s.1 r))) (w, ()) rs).1.1,
      (eachRule (fun (s : World S × Unit) r => ((fun q => ((q.1, ()), q.2)) (f s.1 r))) (w, ()) rs).2) := by
  rw [eachRule_unit]

theorem degreeSum_perm (hadd : ∀ a b c : S, a + b + c = a + c + b) {rs qs : List (Rule S)} (h : rs.Perm qs) : degreeSum rs = degreeSum qs := by
  unfold degreeSum
  exact List.Perm.foldl_eq' (h.filter _) (fun x _ y _ z => hadd z x.degree y.degree) _

/-- **C92.**  If the rules of a block are reordered, what it adds to the fuzzy outputs is reordered, and nothing else
changes: it raises no exception if it did not before, and the rules have the same degrees. -/
theorem activateBy_reorder [Heap S] (b c : RuleBlock S) (hc : c = { b with rules := c.rules }) (hp : b.rules.Perm c.rules) (a : Activation S)
    (ha : a.Unordered) (w : World S) (h : ∀ r ∈ b.rules, r.OnInputs) (xs : List (VarRef × Activated S))
    (he : (b.activateBy a (w.append xs)).2.2 = none) :
    ∃ (A B : List (VarRef × Activated S)) (rs qs : List (Rule S)), A.Perm B ∧ rs.Perm qs ∧
      (∀ ys, b.activateBy a (w.append ys) = (w.append (ys ++ A), rs, none)) ∧
      ∀ ys, c.activateBy a (w.append ys) = (w.append (ys ++ B), qs, none) := by
  have h' : ∀ r ∈ c.rules, r.OnInputs := fun r hr => h r (hp.mem_iff.2 hr)
  have hsel : ∀ choose : S → Bool, (eachRule (b.selectStep fun _ => choose) (w.append xs, 0) b.rules).2.2 = none →
      ∃ (A B : List (VarRef × Activated S)) (rs qs : List (Rule S)), A.Perm B ∧ rs.Perm qs ∧
      (∀ ys, ∃ k, eachRule (b.selectStep fun _ => choose) (w.append ys, 0) b.rules = ((w.append (ys ++ A), k), rs, none)) ∧
      ∀ ys, ∃ k, eachRule (b.selectStep fun _ => choose) (w.append ys, 0) c.rules = ((w.append (ys ++ B), k), qs, none) := by
    intro choose h0
    obtain ⟨F, hF⟩ := select_does b choose w
    have hn := eachRule_none b.rules (fun r hr => hF r (h r hr)) 0 xs h0
    exact ⟨_, _, _, _, hp.flatMap_right _, hp.map _, fun ys => eachRule_all b.rules (fun r hr => hF r (h r hr)) hn 0 ys,
      fun ys => eachRule_all c.rules (fun r hr => hF r (h' r hr)) (fun r hr => hn r (hp.mem_iff.2 hr)) 0 ys⟩
  have hcs : ∀ choose : Nat → S → Bool, c.selectStep choose = b.selectStep choose := by
    intro choose; rw [hc]; rfl
  cases a with
  | general =>
    obtain ⟨A, B, rs, qs, h1, h2, h3, h4⟩ := hsel (fun _ => true) he
    refine ⟨A, B, rs, qs, h1, h2, fun ys => ?_, fun ys => ?_⟩
    · obtain ⟨k, h5⟩ := h3 ys
      simp only [activateBy, activateGeneral, h5]
    · obtain ⟨k, h5⟩ := h4 ys
      simp only [activateBy, activateGeneral, hcs, h5]
  | threshold o v =>
    obtain ⟨A, B, rs, qs, h1, h2, h3, h4⟩ := hsel (fun d => o.activates d v) he
    refine ⟨A, B, rs, qs, h1, h2, fun ys => ?_, fun ys => ?_⟩
    · obtain ⟨k, h5⟩ := h3 ys
      simp only [activateBy, activateThreshold, h5]
    · obtain ⟨k, h5⟩ := h4 ys
      simp only [activateBy, activateThreshold, hcs, h5]
  | proportional =>
    have hcd : c.degreeStep = b.degreeStep := by rw [hc]; rfl
    have hcp : ∀ s, c.proportionalStep s = b.proportionalStep s := by intro s; rw [hc]; rfl
    have hdeg : ∀ r : Rule S, r.OnInputs → ∃ q : Rule S × Option Err, ∀ ys, b.degreeStep (w.append ys) r = (w.append ys, q) := by
      intro r hr
      have ha := fun ys => Rule.activateWith_append w ys b.conjunction b.disjunction r.deactivate hr
      by_cases hl : r.deactivate.isLoaded = true
      · exact ⟨r.deactivate.activateWith w b.conjunction b.disjunction, fun ys => by simp [degreeStep, hl, ha]⟩
      · exact ⟨(r.deactivate, none), fun ys => by simp [degreeStep, hl]⟩
    have hd' : ∀ r : Rule S, ∃ q : Rule S × Option Err, r.OnInputs → ∀ ys, b.degreeStep (w.append ys) r = (w.append ys, q) := by
      intro r
      by_cases hr : r.OnInputs
      · obtain ⟨q, hq⟩ := hdeg r hr
        exact ⟨q, fun _ => hq⟩
      · exact ⟨(r, none), fun h => absurd h hr⟩
    choose D hD using hd'
    have hDoes : ∀ r : Rule S, r.OnInputs →
        Does w (fun (s : World S × Unit) r => ((fun q => ((q.1, ()), q.2)) (b.degreeStep s.1 r))) (fun r => ([], D r)) r := by
      intro r hr k ys
      exact ⟨(), by simp only [hD r hr ys, List.append_nil]⟩
    have hnone : (eachRule b.degreeStep (w.append xs) b.rules).2.2 = none := by
      simp only [activateBy, activateProportional] at he
      generalize eachRule b.degreeStep (w.append xs) b.rules = q at he ⊢
      obtain ⟨w1, rs1, e1⟩ := q
      cases e1 with
      | none => rfl
      | some e => simp at he
    rw [eachRule_unit'] at hnone
    have hn := eachRule_none b.rules (fun r hr => hDoes r (h r hr)) () xs hnone
    have hnil : ∀ l : List (Rule S), (l.flatMap fun r => ((([] : List (VarRef × Activated S)), D r)).1) = [] := by
      intro l
      simp
    have hb1 : ∀ ys, eachRule b.degreeStep (w.append ys) b.rules = (w.append ys, b.rules.map fun r => (D r).1, none) := by
      intro ys
      obtain ⟨_, h1⟩ := eachRule_all b.rules (fun r hr => hDoes r (h r hr)) hn () ys
      rw [eachRule_unit', h1, hnil, List.append_nil]
    have hc1 : ∀ ys, eachRule b.degreeStep (w.append ys) c.rules = (w.append ys, c.rules.map fun r => (D r).1, none) := by
      intro ys
      obtain ⟨_, h1⟩ := eachRule_all c.rules (fun r hr => hDoes r (h' r hr)) (fun r hr => hn r (hp.mem_iff.2 hr)) () ys
      rw [eachRule_unit', h1, hnil, List.append_nil]
    have hsum := degreeSum_perm ha (hp.map fun r => (D r).1)
    generalize hs : degreeSum (b.rules.map fun r => (D r).1) = sum at *
    obtain ⟨F, hF⟩ := unit_does (b.proportionalStep sum) w (fun _ => True) fun r _ => proportionalStep_steady b sum w r
    have he' : (eachRule (b.proportionalStep sum) (w.append xs) (b.rules.map fun r => (D r).1)).2.2 = none := by
      simp only [activateBy, activateProportional, hb1, hs] at he
      exact he
    rw [eachRule_unit'] at he'
    have hn2 := eachRule_none _ (fun r _ => hF r trivial) () xs he'
    have hpm := hp.map fun r => (D r).1
    refine ⟨_, _, _, _, hpm.flatMap_right fun r => (F r).1, hpm.map fun r => (F r).2.1, fun ys => ?_, fun ys => ?_⟩
    · obtain ⟨_, h1⟩ := eachRule_all _ (fun r _ => hF r trivial) hn2 () ys
      simp only [activateBy, activateProportional, hb1, hs]
      rw [eachRule_unit', h1]
    · obtain ⟨_, h1⟩ := eachRule_all (c.rules.map fun r => (D r).1) (fun r _ => hF r trivial)
        (fun r hr => hn2 r (hpm.mem_iff.2 hr)) () ys
      simp only [activateBy, activateProportional, hcd, hcp, hc1, ← hsum]
      rw [eachRule_unit', h1]
  | _ => exact ha.elim


theorem activate_reorder [Heap S] {b c : RuleBlock S} (hbc : b.Reordered c) (hen : b.enabled = true) (w : World S) (h : ∀ r ∈ b.rules, r.OnInputs)
    (xs : List (VarRef × Activated S)) (he : (b.activate (w.append xs)).2.2 = none) :
    ∃ (A B : List (VarRef × Activated S)) (b' c' : RuleBlock S), A.Perm B ∧ b'.Reordered c' ∧
      (∀ ys, b.activate (w.append ys) = (w.append (ys ++ A), b', none)) ∧
      ∀ ys, c.activate (w.append ys) = (w.append (ys ++ B), c', none) := by
  obtain ⟨hsame, hr⟩ := hbc
  rcases hr with hr | ⟨ha, hp⟩
  · have hc : c = b := by rw [hsame, ← hr]
    obtain ⟨A, b', e, h1⟩ := activate_steady b w h
    rw [h1 xs] at he
    simp only at he
    subst he
    exact ⟨A, A, b', b', .refl _, ⟨rfl, .inl rfl⟩, h1, by rw [hc]; exact h1⟩
  · have hact : c.activation = b.activation := by rw [hsame]
    obtain ⟨A, B, rs, qs, h1, h2, h3, h4⟩ := activateBy_reorder b c hsame hp (b.activation.getD .general) (ha hen) w h xs he
    refine ⟨A, B, { b with activation := some (b.activation.getD .general), rules := rs },
      { b with activation := some (b.activation.getD .general), rules := qs }, h1, ⟨rfl, .inr ⟨fun _ => ha hen, h2⟩⟩, fun ys => ?_, fun ys => ?_⟩
    · simp only [activate, h3]
    · simp only [activate, hact, h4]
      rw [hsame]

end RuleBlock

/-! ### the order of the blocks of an engine -/

namespace Engine

/-- what a block of an engine adds to the fuzzy outputs, and what becomes of it, without exception -/
def Adds [Heap S] (w : World S) (b : RuleBlock S) (A : List (VarRef × Activated S)) (b' : RuleBlock S) : Prop :=
  ∀ xs, activateBlocks (w.append xs) [b] = (w.append (xs ++ A), [b'], none)

theorem blocks_cons [Heap S] {w w' : World S} {b b' : RuleBlock S} (bs : List (RuleBlock S)) (h : activateBlocks w [b] = (w', [b'], none)) :
    activateBlocks w (b :: bs) = ((activateBlocks w' bs).1, b' :: (activateBlocks w' bs).2.1, (activateBlocks w' bs).2.2) := by
  cases hb : b.enabled with
  | false =>
    simp only [activateBlocks, hb, Bool.not_false, if_true, Prod.mk.injEq, List.cons.injEq, and_true] at h ⊢
    obtain ⟨rfl, rfl⟩ := h
    exact ⟨rfl, ⟨rfl, rfl⟩, rfl⟩
  | true =>
    simp only [activateBlocks, hb, Bool.not_true, Bool.false_eq_true, if_false] at h ⊢
    generalize b.activate w = q at h ⊢
    obtain ⟨w1, b1, e1⟩ := q
    cases e1 with
    | some e => simp at h
    | none =>
      simp only [Prod.mk.injEq, List.cons.injEq, and_true] at h ⊢
      obtain ⟨rfl, rfl⟩ := h
      exact ⟨rfl, ⟨rfl, rfl⟩, rfl⟩

theorem adds_of_none [Heap S] {w : World S} {b : RuleBlock S} (bs : List (RuleBlock S)) (h : ∀ r ∈ b.rules, r.OnInputs)
    (xs : List (VarRef × Activated S)) (he : (activateBlocks (w.append xs) (b :: bs)).2.2 = none) : ∃ A b', Adds w b A b' := by
  cases hb : b.enabled with
  | false => exact ⟨[], b, fun ys => by simp [activateBlocks, hb]⟩
  | true =>
    obtain ⟨A, b', e, h1⟩ := RuleBlock.activate_steady b w h
    cases e with
    | none => exact ⟨A, b', fun ys => by simp [activateBlocks, hb, h1]⟩
    | some e => simp [activateBlocks, hb, h1] at he

theorem blocks_none [Heap S] {w : World S} (bs : List (RuleBlock S)) (h : ∀ b ∈ bs, ∀ r ∈ b.rules, r.OnInputs)
    (xs : List (VarRef × Activated S)) (he : (activateBlocks (w.append xs) bs).2.2 = none) : ∀ b ∈ bs, ∃ A b', Adds w b A b' := by
  induction bs generalizing xs with
  | nil => simp
  | cons b bs ih =>
    obtain ⟨A, b', h1⟩ := adds_of_none bs (h b List.mem_cons_self) xs he
    rw [blocks_cons bs (h1 xs)] at he
    intro c hc
    rcases List.mem_cons.1 hc with rfl | hc
    · exact ⟨A, b', h1⟩
    · exact ih (fun b hb => h b (List.mem_cons_of_mem _ hb)) _ he c hc

theorem blocks_all [Heap S] {w : World S} (g : RuleBlock S → List (VarRef × Activated S) × RuleBlock S) (bs : List (RuleBlock S))
    (h : ∀ b ∈ bs, Adds w b (g b).1 (g b).2) (xs : List (VarRef × Activated S)) :
    activateBlocks (w.append xs) bs = (w.append (xs ++ bs.flatMap fun b => (g b).1), bs.map fun b => (g b).2, none) := by
  induction bs generalizing xs with
  | nil => simp [activateBlocks]
  | cons b bs ih =>
    rw [blocks_cons bs (h b List.mem_cons_self xs), ih fun b hb => h b (List.mem_cons_of_mem _ hb)]
    simp

/-- **C92.**  If the blocks are reordered, whatever their activation methods, what they add is reordered. -/
theorem blocks_perm [Heap S] (w : World S) {bs cs : List (RuleBlock S)} (hp : bs.Perm cs) (h : ∀ b ∈ bs, ∀ r ∈ b.rules, r.OnInputs)
    (he : (activateBlocks w bs).2.2 = none) :
    ∃ (A B : List (VarRef × Activated S)) (bs' cs' : List (RuleBlock S)), A.Perm B ∧ bs'.Perm cs' ∧
      activateBlocks w bs = (w.append A, bs', none) ∧ activateBlocks w cs = (w.append B, cs', none) := by
  have h1 := blocks_none (w := w) bs h [] (by rw [World.append_nil]; exact he)
  have h2 : ∀ b, ∃ q : List (VarRef × Activated S) × RuleBlock S, b ∈ bs → Adds w b q.1 q.2 := by
    intro b
    by_cases hb : b ∈ bs
    · obtain ⟨A, b', h3⟩ := h1 b hb
      exact ⟨(A, b'), fun _ => h3⟩
    · exact ⟨([], b), fun h => absurd h hb⟩
  choose g hg using h2
  have e1 := blocks_all g bs hg []
  have e2 := blocks_all g cs (fun b hb => hg b (hp.mem_iff.2 hb)) []
  rw [World.append_nil, List.nil_append] at e1 e2
  exact ⟨_, _, _, _, hp.flatMap_right _, hp.map _, e1, e2⟩

/-- **C92.**  If the rules of blocks are reordered, what they add is reordered. -/
theorem blocks_reorder [Heap S] (w : World S) {bs cs : List (RuleBlock S)} (hp : List.Forall₂ RuleBlock.Reordered bs cs)
    (h : ∀ b ∈ bs, ∀ r ∈ b.rules, r.OnInputs) (xs : List (VarRef × Activated S)) (he : (activateBlocks (w.append xs) bs).2.2 = none) :
    ∃ (A B : List (VarRef × Activated S)) (bs' cs' : List (RuleBlock S)), A.Perm B ∧ List.Forall₂ RuleBlock.Reordered bs' cs' ∧
      (∀ ys, activateBlocks (w.append ys) bs = (w.append (ys ++ A), bs', none)) ∧
      ∀ ys, activateBlocks (w.append ys) cs = (w.append (ys ++ B), cs', none) := by
  induction hp generalizing xs with
  | nil => exact ⟨[], [], [], [], .refl _, .nil, fun ys => by simp [activateBlocks], fun ys => by simp [activateBlocks]⟩
  | @cons b c bs cs hbc _ ih =>
    have hstep : ∃ (A B : List (VarRef × Activated S)) (b' c' : RuleBlock S), A.Perm B ∧ b'.Reordered c' ∧ Adds w b A b' ∧ Adds w c B c' := by
      have hcen : c.enabled = b.enabled := by rw [hbc.same]
      cases hb : b.enabled with
      | false =>
        rw [hb] at hcen
        exact ⟨[], [], b, c, .refl _, hbc, fun ys => by simp [activateBlocks, hb], fun ys => by simp [activateBlocks, hcen]⟩
      | true =>
        rw [hb] at hcen
        have hn : (b.activate (w.append xs)).2.2 = none := by
          simp only [activateBlocks, hb, Bool.not_true, Bool.false_eq_true, if_false] at he
          generalize b.activate (w.append xs) = q at he ⊢
          obtain ⟨w1, b1, e1⟩ := q
          cases e1 with
          | none => rfl
          | some e => simp at he
        obtain ⟨A, B, b', c', h1, h2, h3, h4⟩ := RuleBlock.activate_reorder hbc hb w (h b List.mem_cons_self) xs hn
        exact ⟨A, B, b', c', h1, h2, fun ys => by simp [activateBlocks, hb, h3], fun ys => by simp [activateBlocks, hcen, h4]⟩
    obtain ⟨A, B, b', c', h1, h2, h3, h4⟩ := hstep
    rw [blocks_cons bs (h3 xs)] at he
    obtain ⟨A', B', bs', cs', h5, h6, h7, h8⟩ := ih (fun b hb => h b (List.mem_cons_of_mem _ hb)) _ he
    refine ⟨A ++ A', B ++ B', b' :: bs', c' :: cs', h1.append h5, .cons h2 h6, fun ys => ?_, fun ys => ?_⟩
    · rw [blocks_cons bs (h3 ys), h7]; simp
    · rw [blocks_cons cs (h4 ys), h8]; simp

end Engine

/-! ### engines -/

/-- the same output variable, except that the activated terms of its fuzzy output are in another order -/
structure OutputVariable.Reordered (o p : OutputVariable S) : Prop where
  same : p = { o with fuzzy := { o.fuzzy with terms := p.fuzzy.terms } }
  terms : o.fuzzy.terms.Perm p.fuzzy.terms

theorem OutputVariable.Reordered.refl (o : OutputVariable S) : o.Reordered o := ⟨rfl, .refl _⟩

theorem OutputVariable.Reordered.trans {o p q : OutputVariable S} (h : o.Reordered p) (h' : p.Reordered q) : o.Reordered q :=
  ⟨by rw [h'.same]; simp only; rw [h.same], h.terms.trans h'.terms⟩

theorem World.append_reordered (w : World S) {A B : List (VarRef × Activated S)} (h : A.Perm B) :
    List.Forall₂ OutputVariable.Reordered (w.append A).outputs (w.append B).outputs := by
  rw [List.forall₂_iff_get]
  refine ⟨by simp [World.append], fun i h1 h2 => ?_⟩
  simp only [World.append, List.get_eq_getElem, List.getElem_mapIdx]
  exact ⟨rfl, ((h.filter _).map _).append_left _⟩

namespace Engine

/-- The second engine is the first with its blocks in any order, the rules of blocks of certain activation methods in any
order, and the activated terms of its fuzzy outputs in any order. -/
structure Reordered (e e' : Engine S) : Prop where
  name : e'.name = e.name
  description : e'.description = e.description
  inputs : e'.inputs = e.inputs
  outputs : List.Forall₂ OutputVariable.Reordered e.outputs e'.outputs
  blocks : ∃ bs, e.blocks.Perm bs ∧ List.Forall₂ RuleBlock.Reordered bs e'.blocks

theorem Reordered.values {e e' : Engine S} (h : e.Reordered e') : e'.outputValues = e.outputValues := by
  have h1 := h.outputs
  unfold outputValues
  generalize e.outputs = os at h1 ⊢
  generalize e'.outputs = ps at h1 ⊢
  induction h1 with
  | nil => rfl
  | cons h2 _ ih =>
    rw [List.map_cons, List.map_cons, ih, h2.same]

/-- the crisp value of an output variable does not depend on the order of the activated terms, whatever the values of
other output variables are -/
def _root_.FL.OutputVariable.Unordered (ins : List (Str × S)) (o : OutputVariable S) : Prop :=
  o.enabled = true → ∀ d, o.defuzzifier = some d → ∀ (outs : List (Str × S)) (ts : List (Activated S)), o.fuzzy.terms.Perm ts →
    d.defuzzify ⟨ins, outs⟩ { o.fuzzy with terms := ts } o.minimum o.maximum = d.defuzzify ⟨ins, outs⟩ o.fuzzy o.minimum o.maximum

theorem defuzzify_kept {ctx : Ctx S} {o p : OutputVariable S} (h : o.defuzzify ctx = .ok p) :
    ∃ z y, p = { o with
      value := z
      previous := y } := by
  unfold OutputVariable.defuzzify at h
  split at h
  · cases h; exact ⟨o.value, o.previous, rfl⟩
  · split at h
    · simp at h
    · rename_i d hd
      cases hz : d.defuzzify ctx o.fuzzy o.minimum o.maximum with
      | error e => rw [hz] at h; simp [bind, Except.bind] at h
      | ok z =>
        rw [hz] at h
        simp only [bind, Except.bind, Except.ok.injEq] at h
        subst h
        exact ⟨_, _, rfl⟩

theorem defuzzify_reordered {ins outs : List (Str × S)} {o p o' : OutputVariable S} (hop : o.Reordered p) (hu : o.Unordered ins)
    (h : o.defuzzify ⟨ins, outs⟩ = .ok o') : ∃ p', p.defuzzify ⟨ins, outs⟩ = .ok p' ∧ o'.Reordered p' := by
  obtain ⟨hsame, ht⟩ := hop
  generalize p.fuzzy.terms = ts at hsame ht
  subst hsame
  unfold OutputVariable.defuzzify at h ⊢
  cases hen : o.enabled with
  | false =>
    simp only [hen, Bool.not_false, if_true, Except.ok.injEq] at h ⊢
    subst h
    exact ⟨_, rfl, rfl, ht⟩
  | true =>
    simp only [hen, Bool.not_true, Bool.false_eq_true, if_false] at h ⊢
    cases hd : o.defuzzifier with
    | none => simp [hd] at h
    | some d =>
      simp only [hd] at h ⊢
      rw [hu hen d hd outs ts ht]
      cases hz : d.defuzzify ⟨ins, outs⟩ o.fuzzy o.minimum o.maximum with
      | error e => rw [hz] at h; simp [bind, Except.bind] at h
      | ok z =>
        rw [hz] at h
        simp only [bind, Except.bind, Except.ok.injEq] at h ⊢
        subst h
        exact ⟨_, rfl, rfl, ht⟩

theorem ctx_reordered {ins : List (Variable S)} {os ps : List (OutputVariable S)} (h : List.Forall₂ OutputVariable.Reordered os ps) :
    World.ctx ⟨ins, ps⟩ = World.ctx ⟨ins, os⟩ := by
  unfold World.ctx
  congr 1
  simp only
  induction h with
  | nil => rfl
  | cons h2 _ ih =>
    rw [List.map_cons, List.map_cons, ih, h2.same]

theorem defuzzifyAll_reordered (ins : List (Variable S)) {os ps : List (OutputVariable S)} (h : List.Forall₂ OutputVariable.Reordered os ps)
    (hu : ∀ o ∈ os, o.Unordered (ins.map fun v => (v.name, v.value))) {done done' : List (OutputVariable S)}
    (hd : List.Forall₂ OutputVariable.Reordered done done') {r : List (OutputVariable S)} (hr : defuzzifyAll ins done os = (r, none)) :
    ∃ r', defuzzifyAll ins done' ps = (r', none) ∧ List.Forall₂ OutputVariable.Reordered r r' := by
  induction h generalizing done done' with
  | nil =>
    simp only [defuzzifyAll, Prod.mk.injEq, and_true] at hr
    subst hr
    exact ⟨done', rfl, hd⟩
  | @cons o p os ps hop hrest ih =>
    simp only [defuzzifyAll] at hr ⊢
    have hctx : World.ctx ⟨ins, done' ++ p :: ps⟩ = World.ctx ⟨ins, done ++ o :: os⟩ :=
      ctx_reordered (List.rel_append hd (.cons hop hrest))
    rw [hctx]
    cases ho : o.defuzzify (World.ctx ⟨ins, done ++ o :: os⟩) with
    | error e => rw [ho] at hr; simp at hr
    | ok o' =>
      rw [ho] at hr
      obtain ⟨p', hp', hop'⟩ := defuzzify_reordered hop (hu o List.mem_cons_self) ho
      rw [show p.defuzzify (World.ctx ⟨ins, done ++ o :: os⟩) = .ok p' from hp']
      exact ih (fun o ho => hu o (List.mem_cons_of_mem _ ho)) (List.rel_append hd (.cons hop' .nil)) hr

theorem defuzzifyAll_kept (ins : List (Variable S)) (os : List (OutputVariable S)) {done r : List (OutputVariable S)}
    (hr : defuzzifyAll ins done os = (r, none)) : ∃ qs, r = done ++ qs ∧
      List.Forall₂ (fun o p => ∃ z y, p = { o with
        value := z
        previous := y }) os qs := by
  induction os generalizing done with
  | nil =>
    simp only [defuzzifyAll, Prod.mk.injEq, and_true] at hr
    exact ⟨[], by simp [hr], .nil⟩
  | cons o os ih =>
    simp only [defuzzifyAll] at hr
    cases ho : o.defuzzify (World.ctx ⟨ins, done ++ o :: os⟩) with
    | error e => rw [ho] at hr; simp at hr
    | ok o' =>
      rw [ho] at hr
      obtain ⟨qs, h1, h2⟩ := ih hr
      exact ⟨o' :: qs, by rw [h1]; simp, .cons (defuzzify_kept ho) h2⟩

/-- **C92 (partial: antecedents are about input variables, and the method and the outputs must not depend on the order).**
The order of blocks and rules does not matter: if an engine is processed without exception, so is one that
differs from it in the order of its blocks and rules.  Afterwards the two engines differ in order only; in particular,
the values of the output variables are the same. -/
theorem process_reordered_partial [Heap S] {e e' : Engine S} (h : e.Reordered e') (hin : ∀ b ∈ e.blocks, ∀ r ∈ b.rules, r.OnInputs)
    (hok : e.process.2 = none) (hu : ∀ o ∈ e.process.1.outputs, o.Unordered (e.inputs.map fun v => (v.name, v.value))) :
    e'.process.2 = none ∧ e.process.1.Reordered e'.process.1 := by
  obtain ⟨bs, hp, hbs⟩ := h.blocks
  have hclear : (e'.outputs.map fun o => { o with fuzzy := o.fuzzy.clear }) = e.outputs.map fun o => { o with fuzzy := o.fuzzy.clear } := by
    have h1 := h.outputs
    generalize e.outputs = os at h1 ⊢
    generalize e'.outputs = ps at h1 ⊢
    induction h1 with
    | nil => rfl
    | cons h1 _ ih =>
      rw [List.map_cons, List.map_cons, ih, h1.same]
      rfl
  unfold process at hok hu ⊢
  rw [hclear, h.inputs]
  generalize hcl : (e.outputs.map fun o => { o with fuzzy := o.fuzzy.clear }) = cleared at *
  simp only at hok hu ⊢
  have hn : (activateBlocks ⟨e.inputs, cleared⟩ e.blocks).2.2 = none := by
    generalize activateBlocks ⟨e.inputs, cleared⟩ e.blocks = q at hok ⊢
    obtain ⟨w1, b1, e1⟩ := q
    cases e1 with
    | none => rfl
    | some e => simp at hok
  obtain ⟨A, B, as', bs', h1, h2, h3, h4⟩ := blocks_perm ⟨e.inputs, cleared⟩ hp hin hn
  obtain ⟨B', C, bs'', cs', h5, h6, h7, h8⟩ := blocks_reorder ⟨e.inputs, cleared⟩ hbs
    (fun b hb => hin b (hp.mem_iff.2 hb)) [] (by rw [World.append_nil, h4])
  have h7' := h7 []
  have h8' := h8 []
  rw [World.append_nil, List.nil_append, h4] at h7'
  rw [World.append_nil, List.nil_append] at h8'
  simp only [Prod.mk.injEq, and_true] at h7'
  obtain ⟨hw, rfl⟩ := h7'
  rw [h3] at hok hu
  rw [h3, h8']
  simp only [] at hok hu ⊢
  have hrel : List.Forall₂ OutputVariable.Reordered (World.append ⟨e.inputs, cleared⟩ A).outputs (World.append ⟨e.inputs, cleared⟩ C).outputs := by
    have r1 := World.append_reordered ⟨e.inputs, cleared⟩ h1
    have r2 := World.append_reordered ⟨e.inputs, cleared⟩ h5
    rw [hw] at r1
    rw [List.forall₂_iff_get] at r1 r2 ⊢
    exact ⟨r1.1.trans r2.1, fun i i1 i2 => (r1.2 i i1 (by rw [← r1.1]; exact i1)).trans (r2.2 i (by rw [← r1.1]; exact i1) i2)⟩
  have hins : ∀ L, (World.append ⟨e.inputs, cleared⟩ L).inputs = e.inputs := fun _ => rfl
  rw [hins] at hok hu ⊢
  rw [hins] 
  cases hr : defuzzifyAll e.inputs [] (World.append ⟨e.inputs, cleared⟩ A).outputs with
  | mk r err =>
    rw [hr] at hok hu
    simp only at hok hu
    subst hok
    obtain ⟨qs, hq1, hq2⟩ := defuzzifyAll_kept e.inputs _ hr
    rw [List.nil_append] at hq1
    subst hq1
    have hu' : ∀ o ∈ (World.append ⟨e.inputs, cleared⟩ A).outputs, o.Unordered (e.inputs.map fun v => (v.name, v.value)) := by
      intro o ho
      obtain ⟨p, hp, z, y, hz⟩ : ∃ p ∈ r, ∃ z y, p = { o with
          value := z
          previous := y } := by
        rw [List.forall₂_iff_get] at hq2
        obtain ⟨i, hi, rfl⟩ := List.getElem_of_mem ho
        exact ⟨r[i]'(hq2.1 ▸ hi), List.getElem_mem _, hq2.2 i hi (hq2.1 ▸ hi)⟩
      have := hu p hp
      rw [hz] at this
      exact this
    obtain ⟨r', hr', hrr⟩ := defuzzifyAll_reordered e.inputs hrel hu' (done := []) (done' := []) .nil hr
    rw [hr']
    exact ⟨rfl, h.name, h.description, rfl, hrr, bs', h2, h6⟩

/-- **C92 (partial as above).**  The values are the same. -/
theorem values_reordered_partial [Heap S] {e e' : Engine S} (h : e.Reordered e') (hin : ∀ b ∈ e.blocks, ∀ r ∈ b.rules, r.OnInputs)
    (hok : e.process.2 = none) (hu : ∀ o ∈ e.process.1.outputs, o.Unordered (e.inputs.map fun v => (v.name, v.value))) :
    e'.process.1.outputValues = e.process.1.outputValues :=
  (process_reordered_partial h hin hok hu).2.values

end Engine
end steady
end FL

/-! ### outputs whose values do not depend on the order -/

namespace FL
open Scalar

section maximum
variable {S : Type} [ScalarOrd S]
open ScalarOrd

theorem opMax_comm (a b : S) : Op.max a b = Op.max b a := by
  unfold Op.max Op.stdMax
  cases ha : Op.isNaN a with
  | true => simp
  | false =>
    cases hb : Op.isNaN b with
    | true => simp
    | false =>
      simp only [Bool.or_self, Bool.false_eq_true, if_false]
      rw [isNaN_false_iff] at ha hb
      rcases lt_total a b ha hb with h | h | h
      · have : lt b a = false := by
          by_contra hc
          have := lt_trans a b a h (by simpa using hc)
          rw [ScalarOrd.lt_irrefl] at this
          exact Bool.noConfusion this
        simp [h, this]
      · simp [h]
      · have : lt a b = false := by
          by_contra hc
          have := lt_trans b a b h (by simpa using hc)
          rw [ScalarOrd.lt_irrefl] at this
          exact Bool.noConfusion this
        simp [h, this]

theorem opMax_assoc (a b c : S) : Op.max (Op.max a b) c = Op.max a (Op.max b c) := by
  have hn : Op.isNaN (nan : S) = true := (isNaN_iff _).2 rfl
  cases ha : Op.isNaN a with
  | true => simp [Op.max, ha, hn]
  | false =>
    cases hb : Op.isNaN b with
    | true => simp [Op.max, hb, hn]
    | false =>
      cases hc : Op.isNaN c with
      | true => simp [Op.max, hc, hn]
      | false =>
        have na := (isNaN_false_iff a).1 ha
        have nb := (isNaN_false_iff b).1 hb
        have nc := (isNaN_false_iff c).1 hc
        cases hab : lt a b with
        | true =>
          cases hbc : lt b c with
          | true => simp [Op.max, Op.stdMax, ha, hb, hc, hab, hbc, lt_trans a b c hab hbc]
          | false => simp [Op.max, Op.stdMax, ha, hb, hc, hab, hbc]
        | false =>
          cases hbc : lt b c with
          | true => simp [Op.max, Op.stdMax, ha, hb, hc, hab, hbc]
          | false =>
            have hac : lt a c = false := by
              by_contra h
              have h : lt a c = true := by simpa using h
              rcases lt_total b c nb nc with h1 | h1 | h1
              · rw [hbc] at h1; exact Bool.noConfusion h1
              · rw [h1, h] at hab; exact Bool.noConfusion hab
              · rw [lt_trans a c b h h1] at hab; exact Bool.noConfusion hab
            simp [Op.max, Op.stdMax, ha, hb, hc, hab, hbc, hac]

/-- **C92.**  With Maximum and a defuzzifier that integrates, the order of the activated terms does not matter in any
format of numbers: nothing is rounded when taking the maximum. -/
theorem OutputVariable.unordered_maximum (ins : List (Str × S)) (o : OutputVariable S) (k : IntegralKind) (n : Int)
    (hd : o.defuzzifier = some (.integral k n)) (hagg : o.fuzzy.aggregation = some (.builtin .maximum))
    (hm : ∀ a ∈ o.fuzzy.terms, ∀ outs x, ∃ v, a.membership ⟨ins, outs⟩ x = .ok v) : o.Unordered ins := by
  intro _ d hd' outs ts hp
  rw [hd, Option.some.injEq] at hd'
  subst hd'
  unfold Defuzzifier.defuzzify
  simp only
  congr 1
  funext x
  refine (Aggregated.membership_perm ⟨ins, outs⟩ o.fuzzy { o.fuzzy with terms := ts } x _ (fun _ => True) (fun a b => Op.max a b) ?_ ?_ ?_
    trivial hagg hagg hp ?_).symm
  · exact fun a b _ _ => ⟨rfl, trivial⟩
  · exact fun a b _ _ => opMax_comm a b
  · exact fun a b c _ _ _ => opMax_assoc a b c
  · intro a ha
    obtain ⟨v, hv⟩ := hm a ha outs x
    exact ⟨v, hv, trivial⟩

end maximum

section real
variable [Tol ℝ]
open Ext

/-- in exact arithmetic degrees may be added in any order -/
theorem Activation.unordered_proportional : (Activation.proportional : Activation (Ext ℝ)).Unordered := by
  intro a b c
  cases a <;> cases b <;> cases c <;> first | rfl | simp [add_right_comm]

theorem finite_sum {x y : Ext ℝ} (h : Op.isFinite (x + y) = true) : ∃ a b : ℝ, x = fin a ∧ y = fin b := by
  cases x <;> cases y
  case fin.fin a b => exact ⟨a, b, rfl, rfl⟩
  all_goals
    exfalso
    revert h
    first
      | exact fun h => Bool.noConfusion (isFinite_nan.symm.trans h)
      | exact fun h => Bool.noConfusion (isFinite_pinf.symm.trans h)
      | exact fun h => Bool.noConfusion (isFinite_ninf.symm.trans h)

/-- **C92.**  In exact arithmetic, with any operator other than HamacherSum and a defuzzifier that integrates. -/
theorem OutputVariable.unordered_integral (ins : List (Str × Ext ℝ)) (o : OutputVariable (Ext ℝ)) (k : IntegralKind) (n : Int) (s : SNormKind)
    (hd : o.defuzzifier = some (.integral k n)) (hs : s ≠ .hamacherSum) (hagg : o.fuzzy.aggregation = some (.builtin s))
    (hm : ∀ a ∈ o.fuzzy.terms, ∀ outs (x : ℝ), ∃ v : ℝ, a.membership ⟨ins, outs⟩ (fin x) = .ok (fin v) ∧ 0 ≤ v ∧ v ≤ 1) :
    o.Unordered ins := by
  intro _ d hd' outs ts hp
  rw [hd, Option.some.injEq] at hd'
  subst hd'
  unfold Defuzzifier.defuzzify
  simp only
  have hmem : ∀ x : ℝ, Aggregated.membership ⟨ins, outs⟩ { o.fuzzy with terms := ts } (fin x) = o.fuzzy.membership ⟨ins, outs⟩ (fin x) := by
    intro x
    exact (Aggregated.membership_order_partial ⟨ins, outs⟩ o.fuzzy { o.fuzzy with terms := ts } (fin x) s hs hagg hagg hp
      fun a ha => hm a ha outs x).symm
  unfold Integral.defuzzify
  by_cases hf : Op.isFinite (o.minimum + o.maximum) = true
  · obtain ⟨a, b, ha, hb⟩ := finite_sum hf
    have hsamp : Integral.samples (Aggregated.membership ⟨ins, outs⟩ { o.fuzzy with terms := ts }) o.minimum o.maximum n =
        Integral.samples (o.fuzzy.membership ⟨ins, outs⟩) o.minimum o.maximum n := by
      unfold Integral.samples
      rw [ha, hb]
      by_cases hn : n ≤ 0
      · rw [Int.toNat_of_nonpos hn]; rfl
      · have hn' : (((n : Int) : ℚ) : ℝ) ≠ 0 := by
          have : n ≠ 0 := by omega
          exact_mod_cast this
        show List.mapM _ _ = List.mapM _ _
        congr 1
        funext i
        have e : fin a + (lit (i : Rat) + lit (1/2)) * ((fin b - fin a) / lit ((n : Int) : Rat)) =
            fin (a + ((i : ℝ) + 1 / 2) * ((b - a) / n)) := by
          simp only [ofRat_def, sub_fin, div_fin _ _ hn', add_fin, mul_fin, Ext.fin.injEq]
          push_cast; ring
        simp only [e, hmem]
    rw [hsamp]
  · simp [hf]

/-- the type with which a weighted defuzzifier computes: that set or, if automatic, that of all the terms -/
def Weighted.Resolved {S : Type} (type : WeightedType) (ts : List (Activated S)) (actual : WeightedType) : Prop :=
  (type = actual ∧ actual ≠ .automatic) ∨
  (type = .automatic ∧ actual = .takagiSugeno ∧ ∀ a ∈ ts, Weighted.IsSugeno a.term) ∨
  (type = .automatic ∧ actual = .tsukamoto ∧ ∀ a ∈ ts, a.term.isMonotonic = true)

/-- **C92.**  In exact arithmetic, with any operator other than HamacherSum, or none, and a weighted defuzzifier, provided
that names identify terms and that the groups of activated terms have finite values. -/
theorem OutputVariable.unordered_weighted (ins : List (Str × Ext ℝ)) (o : OutputVariable (Ext ℝ)) (k : WeightedKind) (type actual : WeightedType)
    (s : SNormKind) (hd : o.defuzzifier = some (.weighted k type)) (ht : Weighted.Resolved type o.fuzzy.terms actual) (hs : s ≠ .hamacherSum)
    (hagg : o.fuzzy.aggregation = none ∨ o.fuzzy.aggregation = some (.builtin s))
    (hname : ∀ a ∈ o.fuzzy.terms, ∀ b ∈ o.fuzzy.terms, a.term.name = b.term.name → a.term = b.term)
    (hdeg : ∀ a ∈ o.fuzzy.terms, ∃ d : ℝ, a.degree = fin d ∧ 0 ≤ d ∧ d ≤ 1)
    (hz : ∀ g, o.fuzzy.grouped = .ok g → ∀ a ∈ g.terms, ∀ outs, ∃ w v : ℝ, a.degree = fin w ∧ Weighted.value ⟨ins, outs⟩ actual a = .ok (fin v)) :
    o.Unordered ins := by
  intro _ d hd' outs ts hp
  rw [hd, Option.some.injEq] at hd'
  subst hd'
  unfold Defuzzifier.defuzzify
  simp only
  obtain ⟨g, hg⟩ := Aggregated.grouped_ok o.fuzzy (by intro f; rcases hagg with h | h <;> simp [h])
  have hact : actual ≠ .automatic := by
    rcases ht with ⟨_, h⟩ | ⟨_, h, _⟩ | ⟨_, h, _⟩
    · exact h
    · rw [h]; simp
    · rw [h]; simp
  have hmain := (Weighted.weighted_order_partial ⟨ins, outs⟩ k actual hact o.fuzzy { o.fuzzy with terms := ts } g hg s hs hagg rfl hp hname hdeg
    fun a ha => hz g hg a ha outs).symm
  by_cases hne : o.fuzzy.terms = []
  · have hts : ts = [] := by rw [hne] at hp; simpa using hp.symm
    rw [Weighted.defuzzify_empty _ _ _ o.fuzzy hne, Weighted.defuzzify_empty _ _ _ { o.fuzzy with terms := ts } hts]
  · have hne' : ts ≠ [] := fun h => hne (by rw [h] at hp; simpa using hp)
    rcases ht with ⟨h1, _⟩ | ⟨h1, h2, h3⟩ | ⟨h1, h2, h3⟩
    · rw [h1]; exact hmain
    · rw [h2] at hmain
      rw [h1, (Weighted.defuzzify_automatic _ k o.fuzzy hne).1 h3,
        (Weighted.defuzzify_automatic _ k { o.fuzzy with terms := ts } hne').1 fun a ha => h3 a (hp.mem_iff.2 ha)]
      exact hmain
    · rw [h2] at hmain
      rw [h1, (Weighted.defuzzify_automatic _ k o.fuzzy hne).2.1 h3,
        (Weighted.defuzzify_automatic _ k { o.fuzzy with terms := ts } hne').2.1 fun a ha => h3 a (hp.mem_iff.2 ha)]
      exact hmain

end real
end FL

/-! ### examples -/

namespace FL.RuleOrder
open Scalar FL.Rounded FL.Rounded.Demo

local instance : Heap (Flt dbl) := RuleBlock.stableHeap _

/-- the Mamdani controller in double precision, with its rules in reverse -/
def reversed : Engine (Flt dbl) := { mamdani with blocks := [{ control with rules := control.rules.reverse }] }

theorem mamdani_reversed : mamdani.Reordered reversed :=
  ⟨rfl, rfl, rfl, .cons ⟨rfl, .refl _⟩ .nil, _, .refl _, .cons ⟨rfl, .inr ⟨fun _ => trivial, (List.reverse_perm _).symm⟩⟩ .nil⟩

theorem onInputs_conclude (hs : List (Hedge (Flt dbl))) (x y : Nat) : (conclude hs x y).OnInputs := by
  intro a ha p hp
  simp only [conclude, Option.mem_some_iff] at ha
  subst ha
  simp only [Expr.props, List.mem_singleton] at hp
  subst hp
  exact ⟨0, rfl⟩

/-- outputs to which `unordered_maximum` applies -/
def plain (o : OutputVariable (Flt dbl)) : Bool :=
  (match o.defuzzifier, o.fuzzy.aggregation with
    | some (.integral _ _), some (.builtin .maximum) => true
    | _, _ => false) &&
  o.fuzzy.terms.all fun a => match a.term.kind, a.implication with
    | .shape _, some (.builtin _) => true
    | _, _ => false

theorem plain_unordered (ins : List (Str × Flt dbl)) (o : OutputVariable (Flt dbl)) (h : plain o = true) : o.Unordered ins := by
  unfold plain at h
  rw [Bool.and_eq_true] at h
  obtain ⟨h1, h2⟩ := h
  split at h1
  · rename_i k n hd ha
    refine OutputVariable.unordered_maximum ins o k n hd ha fun a ha' outs x => ?_
    have h3 := List.all_eq_true.1 h2 a ha'
    split at h3
    · rename_i sh t hk hi
      unfold Activated.membership Term.membership
      rw [hk, hi]
      split
      · exact ⟨_, rfl⟩
      · exact ⟨_, rfl⟩
    · simp at h3
  · simp at h1

/-- the theorem applies to it: the output is the same to the last bit -/
example : reversed.process.2 = none ∧ mamdani.process.1.Reordered reversed.process.1 := by
  refine Engine.process_reordered_partial mamdani_reversed ?_ (by decide +kernel) ?_
  · intro b hb r hr
    simp only [mamdani, List.mem_singleton] at hb
    subst hb
    simp only [FL.Rounded.Demo.control, List.mem_cons, List.not_mem_nil, or_false] at hr
    rcases hr with rfl | rfl <;> exact onInputs_conclude _ _ _
  · have h : mamdani.process.1.outputs.all plain = true := by decide +kernel
    exact fun o ho => plain_unordered _ o (List.all_eq_true.1 h o ho)

/-- and this is what is computed -/
example : reversed.process.1.outputValues = mamdani.process.1.outputValues ∧
    (mamdani.process.1.outputs.map fun o => o.fuzzy.terms.map fun a => a.id) = [[0, 1]] ∧
    (reversed.process.1.outputs.map fun o => o.fuzzy.terms.map fun a => a.id) = [[1, 0]] := by decide +kernel

/-- the first rule that applies is triggered -/
def first (rules : List (Rule (Flt dbl))) : Engine (Flt dbl) :=
  { engine with blocks := [{ block with
      activation := some (.first 1 (lit 0))
      rules := rules }] }

/-- **C92 is violated by First, Last, Highest and Lowest**: the order of the rules decides which are triggered, also when
their degrees are equal. -/
theorem first_violated :
    [conclude [] 0 0, conclude [] 1 1].Perm ([conclude [] 1 1, conclude [] 0 0] : List (Rule (Flt dbl))) ∧
    (first [conclude [] 0 0, conclude [] 1 1]).process.1.outputValues = [lit 1] ∧
    (first [conclude [] 1 1, conclude [] 0 0]).process.1.outputValues = [lit 4] :=
  ⟨.swap _ _ _, by decide +kernel, by decide +kernel⟩

/-- two rules with the same degree, of which the highest is triggered -/
def highest (rules : List (Rule (Flt dbl))) : Engine (Flt dbl) :=
  { engine with blocks := [{ block with
      activation := some (.highest 1)
      rules := rules }] }

theorem highest_violated :
    (highest [conclude [] 0 0, conclude [] 0 1]).process.1.outputValues = [lit 1] ∧
    (highest [conclude [] 0 1, conclude [] 0 0]).process.1.outputValues = [lit 4] := by
  decide +kernel

/-- if y is one then y is four -/
def onOutput : Rule (Flt dbl) :=
  { Rule.new [] with
    antecedent := some (.prop ⟨.output 0, [], some 0⟩)
    conclusions := [⟨.output 0, [], some 1⟩] }

def chained (rules : List (Rule (Flt dbl))) : Engine (Flt dbl) := { engine with blocks := [{ block with rules := rules }] }

/-- **C92 is violated by antecedents about output variables**: they read what the rules before them have concluded. -/
theorem output_violated :
    (chained [conclude [] 0 0, onOutput]).process.1.outputValues = [lit (5 / 2)] ∧
    (chained [onOutput, conclude [] 0 0]).process.1.outputValues = [lit 1] := by
  decide +kernel

/-- y has the constants 0.1, 0.2 and 0.3, and its value is their weighted sum -/
def tenths : OutputVariable (Flt dbl) :=
  { OutputVariable.new (cs! "y") (lit 0) (lit 9) [⟨cs! "one", lit 1, .constant (lit (1 / 10))⟩, ⟨cs! "two", lit 1, .constant (lit (2 / 10))⟩,
      ⟨cs! "three", lit 1, .constant (lit (3 / 10))⟩] with
    defuzzifier := some (.weighted .sum .automatic) }

def added (ys : List Nat) : Engine (Flt dbl) :=
  ⟨[], [], [{ input with value := lit 0 }], [tenths], [{ block with rules := ys.map (conclude [] 0) }]⟩

/-- **C92 is violated by sums in double precision**: 0.1 + 0.2 + 0.3 is not 0.3 + 0.2 + 0.1. -/
theorem rounded_violated : (added [0, 1, 2]).process.2 = none ∧ (added [2, 1, 0]).process.2 = none ∧
    (added [0, 1, 2]).process.1.outputValues ≠ (added [2, 1, 0]).process.1.outputValues := by
  decide +kernel

end FL.RuleOrder

namespace FL.RuleOrder
open Scalar Ext
variable [Tol ℝ]

/-- an activated constant -/
noncomputable def activated (name : Str) (v d : ℝ) : Activated (Ext ℝ) := ⟨0, ⟨name, fin 1, .constant (fin v)⟩, fin d, some (.builtin .minimum)⟩

noncomputable def real (agg : Option (SNorm (Ext ℝ))) (d : Defuzzifier) : OutputVariable (Ext ℝ) :=
  { OutputVariable.new (cs! "y") (fin 0) (fin 1) [] with
    defuzzifier := some d
    fuzzy := ⟨cs! "y", fin 0, fin 1, agg, [activated (cs! "a") (1 / 2) (1 / 4), activated (cs! "b") (1 / 3) (3 / 4)]⟩ }

/-- `unordered_integral` applies with AlgebraicSum and Centroid -/
example (ins : List (Str × Ext ℝ)) : (real (some (.builtin .algebraicSum)) (.integral .centroid 100)).Unordered ins := by
  refine OutputVariable.unordered_integral ins _ .centroid 100 .algebraicSum rfl (by simp) rfl fun a ha outs x => ?_
  simp only [real, List.mem_cons, List.not_mem_nil, or_false] at ha
  rcases ha with rfl | rfl
  · refine ⟨1 / 4, ?_, by norm_num, by norm_num⟩
    simp [activated, Activated.membership, Term.membership, TNorm.compute, TNormKind.compute, Op.min, Op.stdMin, bind, Except.bind]
    norm_num
  · refine ⟨1 / 3, ?_, by norm_num, by norm_num⟩
    simp [activated, Activated.membership, Term.membership, TNorm.compute, TNormKind.compute, Op.min, Op.stdMin, bind, Except.bind]
    norm_num

/-- `unordered_weighted` applies with no aggregation operator and WeightedAverage -/
example (ins : List (Str × Ext ℝ)) : (real none (.weighted .average .automatic)).Unordered ins := by
  refine OutputVariable.unordered_weighted ins _ .average .automatic .takagiSugeno .maximum rfl (.inr (.inl ⟨rfl, rfl, ?_⟩)) (by simp) (.inl rfl) ?_ ?_ ?_
  · intro a ha
    simp only [real, List.mem_cons, List.not_mem_nil, or_false] at ha
    rcases ha with rfl | rfl <;> exact .inl ⟨_, rfl⟩
  · intro a ha b hb h
    simp only [real, List.mem_cons, List.not_mem_nil, or_false] at ha hb
    rcases ha with rfl | rfl <;> rcases hb with rfl | rfl
    · rfl
    · simp [activated] at h
    · simp [activated] at h
    · rfl
  · intro a ha
    simp only [real, List.mem_cons, List.not_mem_nil, or_false] at ha
    rcases ha with rfl | rfl
    · exact ⟨1 / 4, rfl, by norm_num, by norm_num⟩
    · exact ⟨3 / 4, rfl, by norm_num, by norm_num⟩
  · intro g hg a ha outs
    simp [real, activated, Aggregated.grouped, Aggregated.groupStep, Aggregated.ungroupStep, bind, Except.bind, pure, Except.pure] at hg
    subst hg
    simp only [List.mem_cons, List.not_mem_nil, or_false] at ha
    rcases ha with rfl | rfl
    · exact ⟨4⁻¹, 2⁻¹, rfl, rfl⟩
    · exact ⟨3 / 4, 3⁻¹, rfl, rfl⟩

end FL.RuleOrder
