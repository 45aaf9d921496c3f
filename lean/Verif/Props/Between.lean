/-
C102: the value of an output variable with constants as terms lies between them.
-/
import Verif.Props.Weighted
import Verif.Props.Idle

namespace FL
open Scalar

/-! ### only rules that are active change the variables -/

section any
variable {S : Type} [Scalar S]

theorem Rule.trigger_active (w : World S) (imp : Option (TNorm S)) (r : Rule S) :
    (r.trigger w imp).1 = w ∨
      (r.isLoaded = true ∧ Op.isGt r.degree (lit 0) = true ∧ (r.trigger w imp).1 = (modify w r.degree imp r.conclusions).1) := by
  unfold trigger
  cases hl : r.isLoaded with
  | false => exact Or.inl rfl
  | true =>
    simp only [Bool.not_true, Bool.false_eq_true, if_false]
    split
    · rename_i hg
      simp only [Bool.and_eq_true] at hg
      refine Or.inr ⟨trivial, hg.2, ?_⟩
      cases modify w r.degree imp r.conclusions with
      | mk w e => cases e <;> rfl
    · exact Or.inl rfl

namespace RuleBlock

theorem selectStep_active (b : RuleBlock S) (choose : Nat → S → Bool) (s : World S × Nat) (r : Rule S) :
    (b.selectStep choose s r).1.1 = s.1 ∨
      (r.isLoaded = true ∧ ∃ d, Op.isGt d (lit 0) = true ∧ (b.selectStep choose s r).1.1 = (modify s.1 d b.implication r.conclusions).1) := by
  unfold selectStep
  simp only
  cases hl : r.deactivate.isLoaded with
  | false => exact Or.inl rfl
  | true =>
    simp only [Bool.not_true, Bool.false_eq_true, if_false]
    have ha := Rule.activateWith_frame s.1 b.conjunction b.disjunction r.deactivate
    revert ha
    cases r.deactivate.activateWith s.1 b.conjunction b.disjunction with
    | mk r1 e =>
      rintro ⟨ha, -⟩
      cases e with
      | some e => exact Or.inl rfl
      | none =>
        simp only
        split
        · have ht := Rule.trigger_active s.1 b.implication r1
          revert ht
          have hc : r1.conclusions = r.conclusions := ha.conclusions
          cases r1.trigger s.1 b.implication with
          | mk w p =>
            obtain ⟨r2, e⟩ := p
            intro ht
            rcases ht with ht | ⟨-, h2, h3⟩
            · refine Or.inl ?_
              cases e <;> exact ht
            · refine Or.inr ⟨hl, r1.degree, h2, ?_⟩
              rw [hc] at h3
              cases e <;> exact h3
        · exact Or.inl rfl

theorem proportionalStep_active (b : RuleBlock S) (sum : S) (w : World S) (r : Rule S) :
    (b.proportionalStep sum w r).1 = w ∨
      (r.isLoaded = true ∧ ∃ d, Op.isGt d (lit 0) = true ∧ (b.proportionalStep sum w r).1 = (modify w d b.implication r.conclusions).1) := by
  unfold proportionalStep
  cases hl : r.isLoaded with
  | false => exact Or.inl rfl
  | true =>
    simp only [Bool.not_true, Bool.false_eq_true, if_false]
    rcases Rule.trigger_active w b.implication ({ r with degree := if Op.isNaN (r.degree / sum) = true then lit 0 else r.degree / sum } : Rule S)
      with h | ⟨-, h2, h3⟩
    · exact Or.inl h
    · exact Or.inr ⟨trivial, _, h2, h3⟩

/-- what is kept by consequents of rules that are active is kept by every activation method -/
theorem activateBy_active [Heap S] (b : RuleBlock S) (P : World S → Prop)
    (hm : ∀ r ∈ b.rules, r.isLoaded = true → ∀ w d, Op.isGt d (lit 0) = true → P w → P (modify w d b.implication r.conclusions).1)
    (a : Activation S) (w : World S) (hw : P w) : P (b.activateBy a w).1 := by
  have hsel : ∀ choose rs, (∀ r ∈ rs, r ∈ b.rules) → P (eachRule (b.selectStep choose) (w, 0) rs).1.1 := by
    intro choose rs hrs
    refine eachRule_state (fun s t : World S × Nat => P s.1 → P t.1) (fun s h => h)
      (fun _ _ _ h h' k => h' (h k)) rs ?_ (w, 0) hw
    intro s r hr hs
    rcases b.selectStep_active choose s r with h | ⟨hl, d, hd, h⟩
    · rw [h]; exact hs
    · rw [h]; exact hm r (hrs r hr) hl _ _ hd hs
  have hdeg : (eachRule b.degreeStep w b.rules).1 = w :=
    (eachRule_state (fun s t : World S => t = s) (fun _ => rfl) (fun _ _ _ h h' => h'.trans h) b.rules
      (fun s r _ => (b.degreeStep_frame s r).2.2) w)
  have hrules := eachRule_rules (f := b.degreeStep) Rule.Frame Rule.Frame.refl b.rules
    (fun s r _ => (b.degreeStep_frame s r).1) w
  have hm' : ∀ q ∈ (eachRule b.degreeStep w b.rules).2.1, q.isLoaded = true →
      ∀ w d, Op.isGt d (lit 0) = true → P w → P (modify w d b.implication q.conclusions).1 := by
    intro q hq hql
    obtain ⟨r, hr, hf⟩ : ∃ r ∈ b.rules, Rule.Frame r q := by
      obtain ⟨i, hi, rfl⟩ := List.mem_iff_getElem.1 hq
      have hlen := hrules.length_eq
      exact ⟨b.rules[i], List.getElem_mem _, (List.forall₂_iff_get.1 hrules).2 i (by omega) hi⟩
    rw [hf.conclusions]
    exact hm r hr (by rw [← hf.isLoaded]; exact hql)
  have htr : ∀ (is : List Nat) (rs : List (Rule S)) (w : World S), P w → (∀ q ∈ rs, q.isLoaded = true →
      ∀ w d, Op.isGt d (lit 0) = true → P w → P (modify w d b.implication q.conclusions).1) → P (triggerAll b.implication w rs is).1 := by
    intro is
    induction is with
    | nil => exact fun rs w h _ => h
    | cons i is ih =>
      intro rs w h hq
      rw [triggerAll_cons]
      cases hi : rs[i]? with
      | none => exact h
      | some r =>
        have hr : r ∈ rs := List.mem_of_getElem? hi
        have hf := (Rule.trigger_frame w b.implication r).1
        have hP : P (r.trigger w b.implication).1 := by
          rcases Rule.trigger_active w b.implication r with h3 | ⟨hl, hd, h3⟩
          · rw [h3]; exact h
          · rw [h3]; exact hq r hr hl w _ hd h
        simp only
        split
        · exact hP
        · refine ih _ _ hP ?_
          intro q hmem hql
          rcases List.mem_or_eq_of_mem_set hmem with hmem | rfl
          · exact hq q hmem hql
          · rw [hf.conclusions]
            exact hq r hr (by rw [← hf.isLoaded]; exact hql)
  have hord : ∀ less n, P (b.activateOrdered less n w).1 := by
    intro less n
    unfold activateOrdered
    revert hdeg hm'
    cases eachRule b.degreeStep w b.rules with
    | mk w1 p =>
      obtain ⟨rs, e⟩ := p
      rintro rfl hm'
      cases e with
      | some e => exact hw
      | none => exact htr _ rs _ hw hm'
  cases a with
  | general => exact hsel _ _ fun _ h => h
  | first n t => exact hsel _ _ fun _ h => h
  | last n t => exact hsel _ _ fun _ h => List.mem_reverse.1 h
  | highest n => exact hord _ _
  | lowest n => exact hord _ _
  | threshold c v => exact hsel _ _ fun _ h => h
  | proportional =>
    show P (b.activateProportional w).1
    unfold activateProportional
    revert hdeg hm'
    cases eachRule b.degreeStep w b.rules with
    | mk w1 p =>
      obtain ⟨rs, e⟩ := p
      rintro rfl hm'
      cases e with
      | some e => exact hw
      | none =>
        refine eachRule_state (fun s t : World S => P s → P t) (fun _ h => h) (fun _ _ _ h h' k => h' (h k)) rs ?_ _ hw
        intro s r hr hs
        rcases b.proportionalStep_active (degreeSum rs) s r with h | ⟨hl, d, hd, h⟩
        · rw [h]; exact hs
        · rw [h]; exact hm' r hr hl _ _ hd hs

end RuleBlock

theorem Engine.activateBlocks_active [Heap S] (P : World S → Prop) (bs : List (RuleBlock S))
    (hm : ∀ b ∈ bs, ∀ r ∈ b.rules, r.isLoaded = true → ∀ w d, Op.isGt d (lit 0) = true → P w → P (modify w d b.implication r.conclusions).1)
    (w : World S) (hw : P w) : P (activateBlocks w bs).1 := by
  induction bs generalizing w with
  | nil => exact hw
  | cons b bs ih =>
    have hm' := fun b hb => hm b (List.mem_cons_of_mem _ hb)
    rw [activateBlocks_cons]
    split
    · exact ih hm' w hw
    · have h1 : P (b.activate w).1 := b.activateBy_active P (hm b List.mem_cons_self) _ w hw
      split
      · exact h1
      · exact ih hm' _ h1

/-- all activated terms have degrees with the property -/
def World.Degrees (P : S → Prop) (w : World S) : Prop := ∀ o ∈ w.outputs, ∀ a ∈ o.fuzzy.terms, P a.degree

/-- the hedge keeps the property -/
def Hedge.Keeps (P : S → Prop) (h : Hedge S) : Prop := ∀ x y, P x → h.hedge x = .ok y → P y

theorem applyHedges_keeps (P : S → Prop) (hs : List (Hedge S)) (hh : ∀ h ∈ hs, h.Keeps P) (x y : S) (hx : P x) (h : applyHedges hs x = .ok y) : P y := by
  unfold applyHedges at h
  have hh' : ∀ h ∈ hs.reverse, h.Keeps P := fun h hm => hh h (List.mem_reverse.1 hm)
  generalize hs.reverse = l at *
  induction l generalizing x with
  | nil =>
    cases h
    exact hx
  | cons a l ih =>
    rw [List.foldlM_cons] at h
    cases ha : a.hedge x with
    | error e => rw [ha] at h; simp [bind, Except.bind] at h
    | ok z =>
      rw [ha] at h
      exact ih z (hh' a List.mem_cons_self x z hx ha) h fun h hm => hh' h (List.mem_cons_of_mem _ hm)

theorem modifyLoop_degrees (P : S → Prop) (imp : Option (TNorm S)) (ps : List (Proposition S)) (hps : ∀ p ∈ ps, ∀ h ∈ p.hedges, h.Keeps P)
    (w : World S) (d : S) (hd : P d) (hw : w.Degrees P) : (modifyLoop imp w d ps).1.Degrees P := by
  induction ps generalizing w d with
  | nil => exact hw
  | cons p ps ih =>
    obtain ⟨v, hs, t⟩ := p
    have hh := hps _ List.mem_cons_self
    have ih' := ih fun p hp => hps p (List.mem_cons_of_mem _ hp)
    cases v with
    | input i => exact hw
    | output i =>
      cases t with
      | none => exact hw
      | some j =>
        simp only [modifyLoop]
        cases ho : w.outputs[i]? with
        | none => exact hw
        | some o =>
          simp only
          split
          · exact ih' w d hd hw
          · cases ha : applyHedges hs d with
            | error e => exact hw
            | ok d' =>
              have hd' : P d' := applyHedges_keeps P hs hh d d' hd ha
              simp only
              cases o.terms[j]? with
              | none => exact hw
              | some t =>
                refine ih' _ d' hd' ?_
                intro q hq a ha
                rcases List.mem_or_eq_of_mem_set hq with hq | rfl
                · exact hw q hq a ha
                · simp only [Aggregated.addTerm, List.mem_append, List.mem_singleton] at ha
                  rcases ha with ha | rfl
                  · exact hw o (List.mem_of_getElem? ho) a ha
                  · exact hd'

/-- **C102, degrees.**  A property of all degrees greater than 0 that is kept by the hedges in conclusions holds of the degrees of all terms that are
activated in processing, whatever the activation methods. -/
theorem Engine.activateBlocks_degrees [Heap S] (P : S → Prop) (hP : ∀ d, Op.isGt d (lit 0) = true → P d) (e : Engine S)
    (hc : ∀ b ∈ e.blocks, ∀ r ∈ b.rules, ∀ p ∈ r.conclusions, ∀ h ∈ p.hedges, h.Keeps P) : (activateBlocks e.cleared e.blocks).1.Degrees P := by
  refine activateBlocks_active (World.Degrees P) e.blocks ?_ e.cleared ?_
  · intro b hb r hr _ w d hd hw
    unfold modify
    split
    · exact hw
    · exact modifyLoop_degrees P _ _ (hc b hb r hr) w d (hP d hd) hw
  · intro o ho a ha
    simp only [cleared, List.mem_map] at ho
    obtain ⟨q, -, rfl⟩ := ho
    simp [Aggregated.clear] at ha

/-- In all engines whose rules have no hedges in their conclusions, all terms that are activated in processing are activated with degrees greater than 0. -/
theorem Engine.activateBlocks_positive [Heap S] (e : Engine S) (hc : ∀ b ∈ e.blocks, ∀ r ∈ b.rules, ∀ p ∈ r.conclusions, p.hedges = []) :
    (activateBlocks e.cleared e.blocks).1.Degrees fun d => Op.isGt d (lit 0) = true :=
  e.activateBlocks_degrees _ (fun _ h => h) fun b hb r hr p hp h hh => by
    rw [hc b hb r hr p hp] at hh
    simp at hh

/-- each output variable after defuzzification without exception -/
theorem Engine.defuzzifyAll_each (I : List (Variable S)) (os done : List (OutputVariable S)) (h : (defuzzifyAll I done os).2 = none) :
    ∃ os', (defuzzifyAll I done os).1 = done ++ os' ∧ List.Forall₂ (fun o o' => ∃ ctx, o.defuzzify ctx = .ok o') os os' := by
  induction os generalizing done with
  | nil => exact ⟨[], by simp [defuzzifyAll], .nil⟩
  | cons o os ih =>
    rw [defuzzifyAll_cons] at h ⊢
    cases hq : o.defuzzify (World.ctx ⟨I, done ++ o :: os⟩) with
    | error e => rw [hq] at h; simp at h
    | ok q =>
      rw [hq] at h
      obtain ⟨os', h1, h2⟩ := ih (done ++ [q]) h
      exact ⟨q :: os', by simp only [h1]; simp, .cons ⟨_, hq⟩ h2⟩

/-- what holds of activated terms and is kept by combining degrees holds of the groups -/
theorem Aggregated.grouped_all {P : S → Prop} {g k : Aggregated S}
    (hP : ∀ x y d, P x → P y → (g.aggregation.getD (.builtin .unboundedSum)).compute x y = .ok d → P d)
    (hg : ∀ a ∈ g.terms, P a.degree) (h : g.grouped = .ok k) : ∀ b ∈ k.terms, P b.degree ∧ ∃ a ∈ g.terms, b.term = a.term := by
  intro b hb
  obtain ⟨first, rest, e, h1, h2⟩ := (grouped_spec g k h).2.2.2 b hb
  have hmem : ∀ a ∈ first :: rest, a ∈ g.terms := by
    intro a ha
    rw [← e] at ha
    exact (List.mem_filter.1 ha).1
  refine ⟨?_, first, hmem first List.mem_cons_self, by rw [h1]⟩
  have key : ∀ (l : List (Activated S)) (x d : S), (∀ a ∈ l, P a.degree) → P x →
      l.foldlM (fun d b => (g.aggregation.getD (.builtin .unboundedSum)).compute d b.degree) x = .ok d → P d := by
    intro l
    induction l with
    | nil =>
      intro x d _ hx h
      cases h
      exact hx
    | cons a l ih =>
      intro x d hl hx h
      rw [List.foldlM_cons] at h
      cases hc : (g.aggregation.getD (.builtin .unboundedSum)).compute x a.degree with
      | error e => rw [hc] at h; simp [bind, Except.bind] at h
      | ok y =>
        rw [hc] at h
        exact ih y d (fun b hb => hl b (List.mem_cons_of_mem _ hb)) (hP _ _ _ hx (hl a List.mem_cons_self) hc) h
  exact key rest first.degree b.degree (fun a ha => hg a (hmem a (List.mem_cons_of_mem _ ha)))
    (hg first (hmem first List.mem_cons_self)) h2

end any

/-! ### averages of constants in exact arithmetic -/

section real
open Ext
variable [Tol ℝ]

/-- greater than 0, infinity included -/
def Ext.Positive (d : Ext ℝ) : Prop := (∃ x, 0 < x ∧ d = fin x) ∨ d = pinf

omit [Tol ℝ] in
theorem Ext.Positive.fin_pos {x : ℝ} (h : 0 < x) : (fin x).Positive := Or.inl ⟨x, h, rfl⟩

theorem Ext.positive_of_isGt {d : Ext ℝ} (h : Op.isGt d (lit 0) = true) : d.Positive := by
  cases d with
  | fin x =>
    refine Or.inl ⟨x, ?_, rfl⟩
    have e : (lit 0 : Ext ℝ) = fin 0 := by simp
    rw [e, isGt_fin] at h
    have := of_decide_eq_true h
    have := tol_pos
    linarith
  | pinf => exact Or.inr rfl
  | ninf => simp at h
  | nan => simp at h

/-- an operator that combines degrees greater than 0 to degrees greater than 0 -/
def SNorm.Positive (agg : SNorm (Ext ℝ)) : Prop :=
  ∀ x y d : Ext ℝ, x.Positive → y.Positive → agg.compute x y = .ok d → d.Positive

theorem unboundedSum_positive : SNorm.Positive (.builtin .unboundedSum) := by
  intro x y d hx hy h
  obtain rfl : x + y = d := by simpa [SNorm.compute, SNormKind.compute] using h
  rcases hx with ⟨a, ha, rfl⟩ | rfl <;> rcases hy with ⟨b, hb, rfl⟩ | rfl
  · exact Or.inl ⟨a + b, by linarith, rfl⟩
  · exact Or.inr rfl
  · exact Or.inr rfl
  · exact Or.inr rfl

theorem maximum_positive : SNorm.Positive (.builtin .maximum) := by
  intro x y d hx hy h
  obtain rfl : Op.max x y = d := by simpa [SNorm.compute, SNormKind.compute] using h
  rcases hx with ⟨a, ha, rfl⟩ | rfl <;> rcases hy with ⟨b, hb, rfl⟩ | rfl
  · rw [max_fin]
    exact Or.inl ⟨_, lt_max_of_lt_left ha, rfl⟩
  all_goals
    refine Or.inr ?_
    simp [Op.max, Op.stdMax]

/-- the hedges any, somewhat and very keep degrees greater than 0 -/
theorem hedges_positive : (Hedge.builtin .any).Keeps Ext.Positive ∧ (Hedge.builtin .somewhat).Keeps Ext.Positive ∧
    (Hedge.builtin .very).Keeps Ext.Positive := by
  refine ⟨?_, ?_, ?_⟩ <;> intro x y hx h
  · obtain rfl : (lit 1 : Ext ℝ) = y := by simpa [Hedge.hedge, HedgeKind.hedge] using h
    exact Or.inl ⟨1, one_pos, by simp⟩
  · obtain rfl : Scalar.sqrt x = y := by simpa [Hedge.hedge, HedgeKind.hedge] using h
    rcases hx with ⟨a, ha, rfl⟩ | rfl
    · exact Or.inl ⟨Real.sqrt a, Real.sqrt_pos.2 ha, sqrt_fin a ha.le⟩
    · exact Or.inr rfl
  · obtain rfl : x * x = y := by simpa [Hedge.hedge, HedgeKind.hedge] using h
    rcases hx with ⟨a, ha, rfl⟩ | rfl
    · exact Or.inl ⟨a * a, mul_pos ha ha, rfl⟩
    · exact Or.inr rfl

/-- a constant of the range -/
def Term.ConstantIn (lo hi : ℝ) (t : Term (Ext ℝ)) : Prop := ∃ v, t.kind = .constant (fin v) ∧ lo ≤ v ∧ v ≤ hi

namespace Weighted

/-- the sums of products and of degrees: finite with the quotient in the range, or infinite -/
def InRange (lo hi : ℝ) (s : Ext ℝ × Ext ℝ) : Prop :=
  (∃ a b, s = (fin a, fin b) ∧ 0 ≤ b ∧ lo * b ≤ a ∧ a ≤ hi * b) ∨ (s.2 = pinf ∧ (s.1 = nan ∨ s.1 = pinf ∨ s.1 = ninf))

theorem inRange_step (lo hi v : ℝ) (d : Ext ℝ) (s : Ext ℝ × Ext ℝ) (h : InRange lo hi s) (hd : d.Positive) (h1 : lo ≤ v) (h2 : v ≤ hi) :
    InRange lo hi (s.1 + d * fin v, s.2 + d) := by
  have hinf : (pinf * fin v : Ext ℝ) = nan ∨ (pinf * fin v : Ext ℝ) = pinf ∨ (pinf * fin v : Ext ℝ) = ninf := by
    rcases lt_trichotomy v 0 with h | rfl | h
    · exact Or.inr (Or.inr (pinf_mul_fin_neg v h))
    · refine Or.inl ?_
      show signInf (0 : ℝ) = nan
      simp [signInf]
    · exact Or.inr (Or.inl (pinf_mul_fin v h))
  rcases h with ⟨a, b, rfl, hb, ha1, ha2⟩ | ⟨ht, hs⟩
  · rcases hd with ⟨x, hx, rfl⟩ | rfl
    · refine Or.inl ⟨a + x * v, b + x, rfl, by linarith, ?_, ?_⟩
      · nlinarith
      · nlinarith
    · refine Or.inr ⟨rfl, ?_⟩
      rcases hinf with e | e | e <;> simp only [e] <;> simp
  · obtain ⟨s, t⟩ := s
    simp only at ht hs
    subst ht
    rcases hd with ⟨x, hx, rfl⟩ | rfl
    · refine Or.inr ⟨rfl, ?_⟩
      rcases hs with rfl | rfl | rfl <;> simp
    · refine Or.inr ⟨rfl, ?_⟩
      have e1 : (pinf + ninf : Ext ℝ) = nan := rfl
      have e2 : (ninf + pinf : Ext ℝ) = nan := rfl
      have e3 : (pinf + pinf : Ext ℝ) = pinf := rfl
      have e4 : (ninf + ninf : Ext ℝ) = ninf := rfl
      rcases hs with rfl | rfl | rfl <;> rcases hinf with e | e | e <;> simp only [e] <;> simp [e1, e2, e3, e4]

theorem inRange_div (lo hi : ℝ) (s : Ext ℝ × Ext ℝ) (h : InRange lo hi s) :
    s.1 / s.2 = nan ∨ ∃ v, s.1 / s.2 = fin v ∧ lo ≤ v ∧ v ≤ hi := by
  rcases h with ⟨a, b, rfl, hb, ha1, ha2⟩ | ⟨ht, hs⟩
  · rcases hb.eq_or_lt with rfl | hb
    · obtain rfl : a = 0 := by linarith
      exact Or.inl div_zero_zero
    · exact Or.inr ⟨a / b, div_fin a b hb.ne', (le_div_iff₀ hb).2 ha1, (div_le_iff₀ hb).2 ha2⟩
  · obtain ⟨s, t⟩ := s
    simp only at ht hs
    subst ht
    left
    rcases hs with rfl | rfl | rfl <;> rfl

/-- the weighted average is not a number for want of activated terms or because of infinite degrees -/
def Undefined (g : Aggregated (Ext ℝ)) : Prop := g.terms = [] ∨ ∃ k, g.grouped = .ok k ∧ ∃ b ∈ k.terms, b.degree = pinf

theorem sums_defined (z : Activated (Ext ℝ) → Except Err (Ext ℝ)) (l : List (Activated (Ext ℝ))) (hl : l ≠ [])
    (h : ∀ b ∈ l, (∃ x, 0 < x ∧ b.degree = fin x) ∧ ∃ v, z b = .ok (fin v)) (s : Ext ℝ × Ext ℝ) (hs : sums z l = .ok s) : s.1 / s.2 ≠ nan := by
  have hw : ∀ b : Activated (Ext ℝ), ∃ x v : ℝ, b ∈ l → 0 < x ∧ b.degree = fin x ∧ z b = .ok (fin v) := by
    intro b
    by_cases hb : b ∈ l
    · obtain ⟨⟨x, hx, hd⟩, v, hv⟩ := h b hb
      exact ⟨x, v, fun _ => ⟨hx, hd, hv⟩⟩
    · exact ⟨0, 0, fun h => absurd h hb⟩
  choose w v hwv using hw
  rw [sums_fin z l w v fun b hb => (hwv b hb).2] at hs
  cases hs
  have hpos : 0 < (l.map w).sum := by
    refine List.sum_pos _ ?_ (by simpa using hl)
    intro x hx
    obtain ⟨b, hb, rfl⟩ := List.mem_map.1 hx
    exact (hwv b hb).1
  rw [div_fin _ _ hpos.ne']
  simp

/-- **C102, defuzzifier.**  The weighted average of constants that are activated with degrees greater than 0 lies between the smallest and the largest
constant, and it is not a number only if there are no activated terms or infinite degrees. -/
theorem average_between (ctx : Ctx (Ext ℝ)) (type : WeightedType) (hty : type ≠ .tsukamoto) (g : Aggregated (Ext ℝ)) (lo hi : ℝ)
    (hg : ∀ a ∈ g.terms, a.term.ConstantIn lo hi ∧ a.degree.Positive)
    (hagg : (g.aggregation.getD (.builtin .unboundedSum)).Positive) (z : Ext ℝ) (h : defuzzify ctx .average type g = .ok z) :
    (z = nan ∧ Undefined g) ∨ ∃ v, z = fin v ∧ lo ≤ v ∧ v ≤ hi := by
  unfold defuzzify at h
  split at h
  · rename_i he
    exact Or.inl ⟨by simpa using h.symm, Or.inl (by simpa using he)⟩
  · rename_i hne
    have hinfer : inferTypes (g.terms.map Activated.term) = .ok .takagiSugeno := by
      have hall : ∀ a ∈ g.terms, inferTerm a.term = .takagiSugeno := by
        intro a ha
        obtain ⟨⟨v, hv, -⟩, -⟩ := hg a ha
        simp [inferTerm, hv]
      have e : (g.terms.map Activated.term).map inferTerm = List.replicate g.terms.length .takagiSugeno := by
        rw [List.map_map]
        exact List.eq_replicate_iff.2 ⟨by simp, by simpa using hall⟩
      unfold inferTypes
      rw [e]
      have hl : g.terms.length ≠ 0 := by
        intro h0
        apply hne
        simp [List.length_eq_zero_iff.1 h0]
      rw [List.replicate_dedup hl]
    replace h : (g.grouped.bind fun k => (sums (fun a => a.term.membership ctx a.degree) k.terms).bind fun s => .ok (s.1 / s.2)) = .ok z := by
      cases type with
      | tsukamoto => exact absurd rfl hty
      | takagiSugeno => exact h
      | automatic =>
        simp only [hinfer] at h
        exact h
    simp only [Except.bind] at h
    cases hk : g.grouped with
    | error e => rw [hk] at h; simp at h
    | ok k =>
      rw [hk] at h
      have hall := Aggregated.grouped_all hagg (fun a ha => (hg a ha).2) hk
      have key : ∀ (l : List (Activated (Ext ℝ))), (∀ b ∈ l, b.degree.Positive ∧ ∃ a ∈ g.terms, b.term = a.term) → ∀ s t, InRange lo hi s →
          l.foldlM (fun (s : Ext ℝ × Ext ℝ) (a : Activated (Ext ℝ)) => do
            let z ← a.term.membership ctx a.degree
            .ok (s.1 + a.degree * z, s.2 + a.degree)) s = (.ok t : Except Err _) → InRange lo hi t := by
        intro l
        induction l with
        | nil =>
          intro _ s t hs h
          cases h
          exact hs
        | cons b l ih =>
          intro hl s t hs h
          obtain ⟨hpos, a, ha, hba⟩ := hl b List.mem_cons_self
          obtain ⟨⟨v, hv, h1, h2⟩, -⟩ := hg a ha
          have hm : b.term.membership ctx b.degree = .ok (fin v) := by
            rw [hba]
            simp [Term.membership, hv]
          rw [List.foldlM_cons] at h
          simp only [hm] at h
          exact ih (fun b hb => hl b (List.mem_cons_of_mem _ hb)) _ t (inRange_step lo hi v b.degree s hs hpos h1 h2) h
      cases hs : sums (fun a => a.term.membership ctx a.degree) k.terms with
      | error e => simp [hs] at h
      | ok s =>
        simp only [hs, Except.ok.injEq] at h
        rw [← h]
        rcases inRange_div lo hi s (key k.terms hall _ s (Or.inl ⟨0, 0, by simp, le_refl 0, by simp, by simp⟩) hs) with hn | hv
        · refine Or.inl ⟨hn, Or.inr ⟨k, hk, ?_⟩⟩
          by_contra hfin
          refine sums_defined _ k.terms ?_ ?_ s hs hn
          · intro h0
            have hnames := (Aggregated.grouped_spec g k hk).2.1
            rw [h0] at hnames
            cases hg0 : g.terms with
            | nil => exact hne (by simp [hg0])
            | cons a l => rw [hg0] at hnames; simp [List.eraseDups_cons] at hnames
          · intro b hb
            obtain ⟨hpos, a, ha, hba⟩ := hall b hb
            obtain ⟨⟨v, hv, -⟩, -⟩ := hg a ha
            refine ⟨?_, v, ?_⟩
            · rcases hpos with hpos | hinf
              · exact hpos
              · exact absurd ⟨b, hb, hinf⟩ hfin
            · rw [hba]
              simp [Term.membership, hv]
        · exact Or.inr hv

end Weighted

/-- **C102, activated terms.**  Process any engine in exact arithmetic whose rules have no hedges in their conclusions other than such as keep degrees greater
than 0, whatever the activation methods, the antecedents, the weights and the inputs.  An output variable with WeightedAverage as defuzzifier whose
activated terms are constants gets a value between the smallest and the largest of them; it gets its default value only if no term was activated or a
degree is infinite. -/
theorem Engine.process_activated_partial [Heap (Ext ℝ)] (e : Engine (Ext ℝ))
    (hc : ∀ b ∈ e.blocks, ∀ r ∈ b.rules, ∀ p ∈ r.conclusions, ∀ h ∈ p.hedges, h.Keeps Ext.Positive)
    (i : Nat) (o : OutputVariable (Ext ℝ)) (ho : e.outputs[i]? = some o) (hen : o.enabled = true) (hlock : o.lockRange = false)
    (hprev : o.lockPrevious = false) (type : WeightedType) (hty : type ≠ .tsukamoto) (hd : o.defuzzifier = some (.weighted .average type))
    (hagg : (o.fuzzy.aggregation.getD (.builtin .unboundedSum)).Positive) (hok : e.process.2 = none) :
    ∃ q, e.process.1.outputs[i]? = some q ∧ (∀ a ∈ q.fuzzy.terms, a.term ∈ o.terms) ∧
      ∀ lo hi : ℝ, (∀ a ∈ q.fuzzy.terms, a.term.ConstantIn lo hi) →
        ((q.value = o.default ∧ Weighted.Undefined q.fuzzy) ∨ ∃ v, q.value = fin v ∧ lo ≤ v ∧ v ≤ hi) := by
  have hact := e.activateBlocks_degrees Ext.Positive (fun _ h => positive_of_isGt h) hc
  have hfr := (activateBlocks_frame e.blocks e.cleared).outputs
  rw [process_eq] at hok ⊢
  cases he : (activateBlocks e.cleared e.blocks).2.2 with
  | some err => rw [he] at hok; simp at hok
  | none =>
    rw [he] at hok
    simp only at hok ⊢
    obtain ⟨os', h1, h2⟩ := defuzzifyAll_each _ _ _ hok
    rw [h1, List.nil_append]
    generalize (activateBlocks e.cleared e.blocks).1 = w at *
    have hcl : e.cleared.outputs[i]? = some { o with fuzzy := o.fuzzy.clear } := by
      simp [cleared, ho]
    obtain ⟨hi0, hcl⟩ := List.getElem?_eq_some_iff.1 hcl
    have hi1 : i < w.outputs.length := by rw [← hfr.length_eq]; exact hi0
    have hi2 : i < os'.length := by rw [← h2.length_eq]; exact hi1
    have hf := (List.forall₂_iff_get.1 hfr).2 i hi0 hi1
    have hq := (List.forall₂_iff_get.1 h2).2 i hi1 hi2
    simp only [List.get_eq_getElem] at hf hq
    rw [hcl] at hf
    have hmem : w.outputs[i] ∈ w.outputs := List.getElem_mem _
    have hpos := hact _ hmem
    generalize w.outputs[i] = p at *
    obtain ⟨hp, -, l, hl, hlt⟩ := hf
    simp only [Aggregated.clear, List.nil_append] at hl hp hlt
    obtain ⟨ctx, hq⟩ := hq
    refine ⟨os'[i], List.getElem?_eq_getElem hi2, ?_⟩
    generalize os'[i] = q at *
    unfold OutputVariable.defuzzify at hq
    have e1 : p.enabled = true := by rw [hp]; exact hen
    have e2 : p.defuzzifier = some (.weighted .average type) := by rw [hp]; exact hd
    have e3 : p.lockPrevious = false := by rw [hp]; exact hprev
    have e4 : p.lockRange = false := by rw [hp]; exact hlock
    have e5 : p.default = o.default := by rw [hp]
    have e6 : p.fuzzy.aggregation = o.fuzzy.aggregation := by rw [hp]
    simp only [e1, e2, e3, Bool.not_true, Bool.false_eq_true, if_false, Bool.false_and, bind, Except.bind] at hq
    cases hz : Defuzzifier.defuzzify ctx (.weighted .average type) p.fuzzy p.minimum p.maximum with
    | error err => rw [hz] at hq; simp at hq
    | ok z =>
      rw [hz] at hq
      simp only [Except.ok.injEq] at hq
      have hv : q.value = if Op.isNaN z then o.default else z := by
        rw [← hq, ← e5]
        simp [OutputVariable.setValue, Variable.setValue, e4]
      have hfz : q.fuzzy = p.fuzzy := by rw [← hq]; rfl
      rw [hv, hfz]
      refine ⟨fun a ha => hlt a (hl ▸ ha), fun lo hi hts => ?_⟩
      rcases Weighted.average_between ctx type hty p.fuzzy lo hi (fun a ha => ⟨hts a ha, hpos a ha⟩)
        (e6 ▸ hagg) z hz with ⟨rfl, hu⟩ | ⟨v, rfl, hv1, hv2⟩
      · exact Or.inl ⟨by simp, hu⟩
      · exact Or.inr ⟨v, by simp, hv1, hv2⟩

/-- **C102.**  Process any engine in exact arithmetic whose rules have no hedges in their conclusions other than such as keep degrees greater than 0, whatever
the activation methods, the antecedents, the weights and the inputs.  An output variable with constants as terms and with WeightedAverage as defuzzifier gets a value between the smallest and the largest
constant; it gets its default value only if no term was activated or a degree is infinite. -/
theorem Engine.process_between_partial [Heap (Ext ℝ)] (e : Engine (Ext ℝ))
    (hc : ∀ b ∈ e.blocks, ∀ r ∈ b.rules, ∀ p ∈ r.conclusions, ∀ h ∈ p.hedges, h.Keeps Ext.Positive)
    (i : Nat) (o : OutputVariable (Ext ℝ)) (ho : e.outputs[i]? = some o) (hen : o.enabled = true) (hlock : o.lockRange = false)
    (hprev : o.lockPrevious = false) (type : WeightedType) (hty : type ≠ .tsukamoto) (hd : o.defuzzifier = some (.weighted .average type))
    (hagg : (o.fuzzy.aggregation.getD (.builtin .unboundedSum)).Positive) (lo hi : ℝ) (hts : ∀ t ∈ o.terms, t.ConstantIn lo hi)
    (hok : e.process.2 = none) :
    ∃ q, e.process.1.outputs[i]? = some q ∧
      ((q.value = o.default ∧ Weighted.Undefined q.fuzzy) ∨ ∃ v, q.value = fin v ∧ lo ≤ v ∧ v ≤ hi) := by
  obtain ⟨q, h1, h2, h3⟩ := e.process_activated_partial hc i o ho hen hlock hprev type hty hd hagg hok
  exact ⟨q, h1, h3 lo hi fun a ha => hts _ (h2 a ha)⟩

end real
end FL

namespace FL.BetweenDemo
open Scalar

section exact
local instance : Heap (Ext Rat) := RuleBlock.stableHeap _

/-- x is 1; low decreases and high increases from 0 to 4 -/
def input : Variable (Ext Rat) :=
  { Variable.new (cs! "x") (.fin 0) (.fin 4) [⟨cs! "low", .fin 1, .shape (.ramp (.fin 4) (.fin 0))⟩, ⟨cs! "high", .fin 1, .shape (.ramp (.fin 0) (.fin 4))⟩] with
    value := .fin 1 }

def output : OutputVariable (Ext Rat) :=
  { OutputVariable.new (cs! "y") (.fin 0) (.fin 9) [⟨cs! "one", .fin 1, .constant (.fin 1)⟩, ⟨cs! "four", .fin 1, .constant (.fin 4)⟩] with
    defuzzifier := some (.weighted .average .automatic) }

def conclude (weight : Rat) (hs : List (Hedge (Ext Rat))) (x y : Nat) : Rule (Ext Rat) :=
  { Rule.new [] with
    weight := .fin weight
    antecedent := some (.prop ⟨.input 0, [], some x⟩)
    conclusions := [⟨.output 0, hs, some y⟩] }

def engine (rs : List (Rule (Ext Rat))) : Engine (Ext Rat) :=
  ⟨[], [], [input], [output], [{ RuleBlock.new [] with activation := some .general, rules := rs }]⟩

/-- degrees of 3/4 and 1/4, of 3 and 1/4, and of 3/4 and -3 (which does not fire) -/
example : (engine [conclude 1 [] 0 0, conclude 1 [] 1 1]).process.1.outputValues = [.fin (7 / 4)] ∧
    (engine [conclude 4 [] 0 0, conclude 1 [] 1 1]).process.1.outputValues = [.fin (16 / 13)] ∧
    (engine [conclude 1 [] 0 0, conclude (-12) [] 1 1]).process.1.outputValues = [.fin 1] := by decide +kernel

/-- **Without the condition on hedges C102 is violated**: `then y is not four` of a rule with a degree of 3 activates the term with a degree of -2. -/
theorem hedge_violated : (engine [conclude 4 [] 0 0, conclude 12 [.builtin .not] 1 1]).process.2 = none ∧
    (engine [conclude 4 [] 0 0, conclude 12 [.builtin .not] 1 1]).process.1.outputValues = [.fin (-5)] := by decide +kernel

end exact

section real
open Ext
variable [Tol ℝ]

example : Weighted.InRange 1 4 (fin 7, fin 4) := Or.inl ⟨7, 4, rfl, by norm_num, by norm_num, by norm_num⟩

/-- one output variable with the constants 1 and 4, rules with any antecedents, weights and methods, and with no hedges but very in conclusions -/
example [Heap (Ext ℝ)] (I : List (Variable (Ext ℝ))) (bs : List (RuleBlock (Ext ℝ)))
    (hc : ∀ b ∈ bs, ∀ r ∈ b.rules, ∀ p ∈ r.conclusions, ∀ h ∈ p.hedges, h = .builtin .very) :
    let o : OutputVariable (Ext ℝ) := { OutputVariable.new (cs! "y") (fin 0) (fin 9)
      [⟨cs! "one", fin 1, .constant (fin 1)⟩, ⟨cs! "four", fin 1, .constant (fin 4)⟩] with
      defuzzifier := some (.weighted .average .automatic), fuzzy := { (OutputVariable.new (cs! "y") (fin 0) (fin 9) []).fuzzy with aggregation := some (.builtin .maximum) } }
    let e : Engine (Ext ℝ) := ⟨[], [], I, [o], bs⟩
    e.process.2 = none → ∃ q, e.process.1.outputs[0]? = some q ∧
      ((q.value = o.default ∧ Weighted.Undefined q.fuzzy) ∨ ∃ v, q.value = fin v ∧ 1 ≤ v ∧ v ≤ 4) := by
  intro o e hok
  refine Engine.process_between_partial e (fun b hb r hr p hp h hh => hc b hb r hr p hp h hh ▸ hedges_positive.2.2) 0 o rfl rfl rfl rfl .automatic (by simp) rfl maximum_positive 1 4 ?_ hok
  intro t ht
  have : t = ⟨cs! "one", fin 1, .constant (fin 1)⟩ ∨ t = ⟨cs! "four", fin 1, .constant (fin 4)⟩ := by
    simpa [o, OutputVariable.new, Variable.new] using ht
  rcases this with rfl | rfl
  · exact ⟨1, rfl, by norm_num, by norm_num⟩
  · exact ⟨4, rfl, by norm_num, by norm_num⟩

end real
end FL.BetweenDemo

namespace FL.BetweenDemo
open Scalar FL.Rounded FL.Rounded.Demo

local instance : Heap (Flt dbl) := RuleBlock.stableHeap _

/-- one rule of degree 0.1, concluding the constant 3 -/
def tenth : Engine (Flt dbl) :=
  ⟨[], [], [{ Rounded.Demo.input with value := lit 0 }], [{ Rounded.Demo.output with
      terms := [⟨cs! "three", lit 1, .constant (lit 3)⟩]
      defuzzifier := some (.weighted .average .automatic) }], [{ Rounded.Demo.block with
    activation := some .general
    rules := [{ Rounded.Demo.conclude [] 0 0 with weight := lit (1 / 10) }] }]⟩

/-- **C102 is violated in double precision**: the average of nothing but 3 with a degree of 0.1 is greater than 3. -/
theorem rounded_violated : tenth.process.2 = none ∧ (tenth.process.1.outputValues.map fun x => Scalar.lt (lit 3) x) = [true] := by decide +kernel

end FL.BetweenDemo
