/-
Two runs of the activation of rules: on the same rules with different marks, and on variables that
differ in ways that rules cannot observe.
-/
import Verif.Props.Restart

namespace FL
open Scalar
variable {S : Type} [Scalar S]

namespace RuleBlock

/-- the block without traces of earlier activations -/
def fresh (b : RuleBlock S) : RuleBlock S :=
  { b with activation := some (b.activation.getD .general), rules := b.rules.map Rule.deactivate }

section
variable {σ : Type} {f : σ → Rule S → σ × Rule S × Option Err}

theorem eachRule_map (g : Rule S → Rule S) (h : ∀ s r, f s (g r) = f s r) (rs : List (Rule S)) (s : σ) :
    (eachRule f s (rs.map g)).1 = (eachRule f s rs).1 ∧ (eachRule f s (rs.map g)).2.2 = (eachRule f s rs).2.2 ∧
    ((eachRule f s rs).2.2 = none → (eachRule f s (rs.map g)).2.1 = (eachRule f s rs).2.1) := by
  induction rs generalizing s with
  | nil => exact ⟨rfl, rfl, fun _ => rfl⟩
  | cons r rs ih =>
    rw [List.map_cons, eachRule_cons, eachRule_cons, h]
    obtain ⟨h1, h2, h3⟩ := ih (f s r).1
    cases (f s r).2.2 with
    | some e => exact ⟨rfl, rfl, by simp⟩
    | none => exact ⟨h1, h2, fun he => by simp only [h3 he]⟩

theorem eachRule_sim (M : σ → σ) (Q : σ → Prop) (rs : List (Rule S))
    (hf : ∀ s, ∀ r ∈ rs, Q s → f (M s) r = (M (f s r).1, (f s r).2) ∧ Q (f s r).1) (s : σ) (hs : Q s) :
    eachRule f (M s) rs = (M (eachRule f s rs).1, (eachRule f s rs).2) ∧ Q (eachRule f s rs).1 := by
  induction rs generalizing s with
  | nil => exact ⟨rfl, hs⟩
  | cons r rs ih =>
    obtain ⟨h1, h2⟩ := hf s r List.mem_cons_self hs
    obtain ⟨h3, h4⟩ := ih (fun s q hq => hf s q (List.mem_cons_of_mem _ hq)) _ h2
    rw [eachRule_cons, eachRule_cons, h1]
    simp only
    cases (f s r).2.2 with
    | some e => exact ⟨rfl, h2⟩
    | none =>
      dsimp only
      rw [h3]
      exact ⟨rfl, h4⟩

end

/-- earlier degrees and marks of rules do not matter -/
theorem activate_fresh [Heap S] (b : RuleBlock S) (w : World S) :
    (b.fresh.activate w).1 = (b.activate w).1 ∧ (b.fresh.activate w).2.2 = (b.activate w).2.2 ∧
    ((b.activate w).2.2 = none → (b.fresh.activate w).2.1 = (b.activate w).2.1) := by
  have hsel : ∀ choose s r, b.selectStep choose s r.deactivate = b.selectStep choose s r := fun _ _ _ => rfl
  have hdeg : ∀ s r, b.degreeStep s r.deactivate = b.degreeStep s r := fun _ _ => rfl
  have e1 : ∀ (less : S → S → Bool) (n : Int), b.fresh.activateOrdered less n w =
      match eachRule b.degreeStep w (b.rules.map Rule.deactivate) with
      | (w, rs, some e) => (w, rs, some e)
      | (w, rs, none) => triggerAll b.implication w rs
          (((Heap.pops less ((candidates rs).map Prod.snd)).filterMap fun i => (candidates rs)[i]?.map Prod.fst).take n.toNat) :=
    fun _ _ => rfl
  have e2 : b.fresh.activateProportional w =
      match eachRule b.degreeStep w (b.rules.map Rule.deactivate) with
      | (w, rs, some e) => (w, rs, some e)
      | (w, rs, none) => eachRule (b.proportionalStep (degreeSum rs)) w rs := rfl
  have hseq : ∀ choose rs, _ := fun choose rs => eachRule_map (f := b.selectStep choose) Rule.deactivate (hsel choose) rs (w, 0)
  have hd := eachRule_map (f := b.degreeStep) Rule.deactivate hdeg b.rules w
  have hord : ∀ (less : S → S → Bool) (n : Int),
      (b.fresh.activateOrdered less n w).1 = (b.activateOrdered less n w).1 ∧
      (b.fresh.activateOrdered less n w).2.2 = (b.activateOrdered less n w).2.2 ∧
      ((b.activateOrdered less n w).2.2 = none → (b.fresh.activateOrdered less n w).2.1 = (b.activateOrdered less n w).2.1) := by
    intro less n
    rw [e1]
    unfold activateOrdered
    revert hd
    cases eachRule b.degreeStep w (b.rules.map Rule.deactivate) with
    | mk w1 p =>
      obtain ⟨rs1, x1⟩ := p
      cases eachRule b.degreeStep w b.rules with
      | mk w2 p =>
        obtain ⟨rs2, x2⟩ := p
        rintro ⟨h1, h2, h3⟩
        simp only at h1 h2 h3
        subst h1 h2
        cases x1 with
        | some x => exact ⟨rfl, rfl, by simp⟩
        | none =>
          obtain rfl := h3 rfl
          exact ⟨rfl, rfl, fun _ => rfl⟩
  have hby : ∀ a, (b.fresh.activateBy a w).1 = (b.activateBy a w).1 ∧
      (b.fresh.activateBy a w).2.2 = (b.activateBy a w).2.2 ∧
      ((b.activateBy a w).2.2 = none → (b.fresh.activateBy a w).2.1 = (b.activateBy a w).2.1) := by
    intro a
    cases a with
    | general =>
      obtain ⟨h1, h2, h3⟩ := hseq (fun _ _ => true) b.rules
      have k := congrArg Prod.fst h1
      exact ⟨k, h2, h3⟩
    | first n t =>
      obtain ⟨h1, h2, h3⟩ := hseq (firstChoice n t) b.rules
      have k := congrArg Prod.fst h1
      exact ⟨k, h2, h3⟩
    | last n t =>
      obtain ⟨h1, h2, h3⟩ := hseq (firstChoice n t) b.rules.reverse
      have er : b.fresh.rules.reverse = b.rules.reverse.map Rule.deactivate := by simp [fresh]
      have e3 : b.fresh.activateLast n t w =
          ((eachRule (b.selectStep (firstChoice n t)) (w, 0) b.fresh.rules.reverse).1.1,
           (eachRule (b.selectStep (firstChoice n t)) (w, 0) b.fresh.rules.reverse).2.1.reverse,
           (eachRule (b.selectStep (firstChoice n t)) (w, 0) b.fresh.rules.reverse).2.2) := rfl
      show (b.fresh.activateLast n t w).1 = (b.activateLast n t w).1 ∧
        (b.fresh.activateLast n t w).2.2 = (b.activateLast n t w).2.2 ∧
        ((b.activateLast n t w).2.2 = none → (b.fresh.activateLast n t w).2.1 = (b.activateLast n t w).2.1)
      rw [e3, er]
      have k := congrArg Prod.fst h1
      exact ⟨k, h2, fun h => congrArg List.reverse (h3 h)⟩
    | highest n => exact hord _ _
    | lowest n => exact hord _ _
    | threshold c v =>
      obtain ⟨h1, h2, h3⟩ := hseq (fun _ d => c.activates d v) b.rules
      have k := congrArg Prod.fst h1
      exact ⟨k, h2, h3⟩
    | proportional =>
      show (b.fresh.activateProportional w).1 = (b.activateProportional w).1 ∧
        (b.fresh.activateProportional w).2.2 = (b.activateProportional w).2.2 ∧
        ((b.activateProportional w).2.2 = none → (b.fresh.activateProportional w).2.1 = (b.activateProportional w).2.1)
      rw [e2]
      unfold activateProportional
      revert hd
      cases eachRule b.degreeStep w (b.rules.map Rule.deactivate) with
      | mk w1 p =>
        obtain ⟨rs1, x1⟩ := p
        cases eachRule b.degreeStep w b.rules with
        | mk w2 p =>
          obtain ⟨rs2, x2⟩ := p
          rintro ⟨h1, h2, h3⟩
          simp only at h1 h2 h3
          subst h1 h2
          cases x1 with
          | some x => exact ⟨rfl, rfl, by simp⟩
          | none =>
            obtain rfl := h3 rfl
            exact ⟨rfl, rfl, fun _ => rfl⟩
  obtain ⟨h1, h2, h3⟩ := hby (b.activation.getD .general)
  refine ⟨h1, h2, fun h => ?_⟩
  have := h3 h
  show ({ b.fresh with rules := (b.fresh.activateBy (b.activation.getD .general) w).2.1,
                       activation := some (b.activation.getD .general) } : RuleBlock S) = _
  rw [this]
  rfl

/-! ### variables that rules cannot tell apart -/

/-- `N w` cannot be told apart from `w` by rules, for the `w` satisfying `P` -/
structure Blind (N : World S → World S) (P : World S → Prop) : Prop where
  degree : ∀ w, P w → ∀ (e : Expr S) c d, e.degree (N w) c d = e.degree w c d
  modify : ∀ w, P w → ∀ x imp ps, FL.modify (N w) x imp ps = (N (FL.modify w x imp ps).1, (FL.modify w x imp ps).2)
  keeps : ∀ w, P w → ∀ x imp ps, P (FL.modify w x imp ps).1

variable {N : World S → World S} {P : World S → Prop}

theorem Blind.trigger (h : Blind N P) (w : World S) (hw : P w) (imp : Option (TNorm S)) (r : Rule S) :
    r.trigger (N w) imp = (N (r.trigger w imp).1, (r.trigger w imp).2) ∧ P (r.trigger w imp).1 := by
  unfold Rule.trigger
  split
  · exact ⟨rfl, hw⟩
  · split
    · rw [h.modify w hw]
      have hk := h.keeps w hw r.degree imp r.conclusions
      revert hk
      cases FL.modify w r.degree imp r.conclusions with
      | mk w1 e => cases e <;> exact fun hk => ⟨rfl, hk⟩
    · exact ⟨rfl, hw⟩

theorem Blind.activateWith (h : Blind N P) (w : World S) (hw : P w) (c : Option (TNorm S)) (d : Option (SNorm S)) (r : Rule S) :
    r.activateWith (N w) c d = r.activateWith w c d := by
  unfold Rule.activateWith
  split
  · rfl
  · split
    · rfl
    · rw [h.degree w hw]

theorem Blind.selectStep (h : Blind N P) (b : RuleBlock S) (choose : Nat → S → Bool) (s : World S × Nat) (hs : P s.1)
    (r : Rule S) : b.selectStep choose (N s.1, s.2) r =
      ((N (b.selectStep choose s r).1.1, (b.selectStep choose s r).1.2), (b.selectStep choose s r).2) ∧
      P (b.selectStep choose s r).1.1 := by
  unfold RuleBlock.selectStep
  simp only
  split
  · exact ⟨rfl, hs⟩
  · rw [h.activateWith s.1 hs]
    cases r.deactivate.activateWith s.1 b.conjunction b.disjunction with
    | mk r1 e1 =>
      cases e1 with
      | some e => exact ⟨rfl, hs⟩
      | none =>
        simp only
        split
        · obtain ⟨h1, h2⟩ := h.trigger s.1 hs b.implication r1
          rw [h1]
          revert h2
          cases r1.trigger s.1 b.implication with
          | mk w2 p => obtain ⟨r2, e2⟩ := p; cases e2 <;> exact fun h => ⟨rfl, h⟩
        · exact ⟨rfl, hs⟩

theorem Blind.degreeStep (h : Blind N P) (b : RuleBlock S) (w : World S) (hw : P w) (r : Rule S) :
    b.degreeStep (N w) r = (N (b.degreeStep w r).1, (b.degreeStep w r).2) ∧ P (b.degreeStep w r).1 := by
  unfold RuleBlock.degreeStep
  simp only
  split
  · exact ⟨rfl, hw⟩
  · rw [h.activateWith w hw]
    exact ⟨rfl, hw⟩

theorem Blind.proportionalStep (h : Blind N P) (b : RuleBlock S) (sum : S) (w : World S) (hw : P w) (r : Rule S) :
    b.proportionalStep sum (N w) r = (N (b.proportionalStep sum w r).1, (b.proportionalStep sum w r).2) ∧
    P (b.proportionalStep sum w r).1 := by
  unfold RuleBlock.proportionalStep
  split
  · exact ⟨rfl, hw⟩
  · exact h.trigger w hw _ _

theorem Blind.triggerAll (h : Blind N P) (imp : Option (TNorm S)) (is : List Nat) (w : World S) (hw : P w)
    (rs : List (Rule S)) : triggerAll imp (N w) rs is = (N (triggerAll imp w rs is).1, (triggerAll imp w rs is).2) ∧
      P (triggerAll imp w rs is).1 := by
  induction is generalizing w rs with
  | nil => exact ⟨rfl, hw⟩
  | cons i is ih =>
    rw [triggerAll_cons, triggerAll_cons]
    cases rs[i]? with
    | none => exact ⟨rfl, hw⟩
    | some r =>
      obtain ⟨h1, h2⟩ := h.trigger w hw imp r
      simp only [h1]
      cases (r.trigger w imp).2.2 with
      | some e => exact ⟨rfl, h2⟩
      | none => exact ih _ h2 _

theorem Blind.activate [Heap S] (h : Blind N P) (b : RuleBlock S) (w : World S) (hw : P w) :
    b.activate (N w) = (N (b.activate w).1, (b.activate w).2) ∧ P (b.activate w).1 := by
  have hsel : ∀ choose rs, eachRule (b.selectStep choose) (N w, 0) rs =
      ((N (eachRule (b.selectStep choose) (w, 0) rs).1.1, (eachRule (b.selectStep choose) (w, 0) rs).1.2),
        (eachRule (b.selectStep choose) (w, 0) rs).2) ∧ P (eachRule (b.selectStep choose) (w, 0) rs).1.1 :=
    fun choose rs => eachRule_sim (f := b.selectStep choose) (fun s => (N s.1, s.2)) (fun s => P s.1) rs
      (fun s r _ hs => h.selectStep b choose s hs r) (w, 0) hw
  have hdeg := eachRule_sim (f := b.degreeStep) N P b.rules (fun s r _ hs => h.degreeStep b s hs r) w hw
  have hord : ∀ (less : S → S → Bool) (n : Int), b.activateOrdered less n (N w) =
      (N (b.activateOrdered less n w).1, (b.activateOrdered less n w).2) ∧ P (b.activateOrdered less n w).1 := by
    intro less n
    unfold activateOrdered
    obtain ⟨h1, h2⟩ := hdeg
    rw [h1]
    revert h2
    cases eachRule b.degreeStep w b.rules with
    | mk w1 p =>
      obtain ⟨rs1, e1⟩ := p
      intro h2
      cases e1 with
      | some e => exact ⟨rfl, h2⟩
      | none => exact h.triggerAll _ _ _ h2 _
  have hby : ∀ a, b.activateBy a (N w) = (N (b.activateBy a w).1, (b.activateBy a w).2) ∧ P (b.activateBy a w).1 := by
    intro a
    cases a with
    | general =>
      obtain ⟨h1, h2⟩ := hsel (fun _ _ => true) b.rules
      exact ⟨by simp only [activateBy, activateGeneral, h1], h2⟩
    | first n t =>
      obtain ⟨h1, h2⟩ := hsel (firstChoice n t) b.rules
      exact ⟨by simp only [activateBy, activateFirst, h1], h2⟩
    | last n t =>
      obtain ⟨h1, h2⟩ := hsel (firstChoice n t) b.rules.reverse
      exact ⟨by simp only [activateBy, activateLast, h1], h2⟩
    | highest n => exact hord _ _
    | lowest n => exact hord _ _
    | threshold c v =>
      obtain ⟨h1, h2⟩ := hsel (fun _ d => c.activates d v) b.rules
      exact ⟨by simp only [activateBy, activateThreshold, h1], h2⟩
    | proportional =>
      show b.activateProportional (N w) = _ ∧ P (b.activateProportional w).1
      simp only [activateBy]
      unfold activateProportional
      obtain ⟨h1, h2⟩ := hdeg
      rw [h1]
      revert h2
      cases eachRule b.degreeStep w b.rules with
      | mk w1 p =>
        obtain ⟨rs1, e1⟩ := p
        intro h2
        cases e1 with
        | some e => exact ⟨rfl, h2⟩
        | none => exact eachRule_sim N P rs1 (fun s r _ hs => h.proportionalStep b _ s hs r) w1 h2
  obtain ⟨h1, h2⟩ := hby (b.activation.getD .general)
  exact ⟨by simp only [RuleBlock.activate, h1], h2⟩

end RuleBlock

namespace Engine

theorem activateBlocks_fresh [Heap S] (bs : List (RuleBlock S)) (w : World S) :
    (activateBlocks w (bs.map RuleBlock.fresh)).1 = (activateBlocks w bs).1 ∧
    (activateBlocks w (bs.map RuleBlock.fresh)).2.2 = (activateBlocks w bs).2.2 := by
  induction bs generalizing w with
  | nil => exact ⟨rfl, rfl⟩
  | cons b bs ih =>
    rw [List.map_cons, activateBlocks_cons, activateBlocks_cons]
    have hb : b.fresh.enabled = b.enabled := rfl
    rw [hb]
    split
    · exact ih w
    · obtain ⟨h1, h2, -⟩ := b.activate_fresh w
      rw [h1, h2]
      split
      · exact ⟨rfl, rfl⟩
      · exact ih _

theorem activateBlocks_blind [Heap S] {N : World S → World S} {P : World S → Prop} (h : RuleBlock.Blind N P)
    (bs : List (RuleBlock S)) (w : World S) (hw : P w) :
    activateBlocks (N w) bs = (N (activateBlocks w bs).1, (activateBlocks w bs).2) ∧ P (activateBlocks w bs).1 := by
  induction bs generalizing w with
  | nil => exact ⟨rfl, hw⟩
  | cons b bs ih =>
    rw [activateBlocks_cons, activateBlocks_cons]
    split
    · obtain ⟨h1, h2⟩ := ih w hw
      rw [h1]
      exact ⟨rfl, h2⟩
    · obtain ⟨h1, h2⟩ := h.activate b w hw
      rw [h1]
      simp only
      cases (b.activate w).2.2 with
      | some e => exact ⟨rfl, h2⟩
      | none =>
        obtain ⟨h3, h4⟩ := ih _ h2
        dsimp only
        rw [h3]
        exact ⟨rfl, h4⟩

end Engine
end FL
