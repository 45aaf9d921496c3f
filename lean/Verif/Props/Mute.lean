/-
C107: rules that are not loaded and rules of weight zero can be deleted, whatever the inputs.
-/
import Verif.Props.Idle

namespace FL
open Scalar

section any
variable {S : Type} [Scalar S]

/-- not loaded, or with a weight whose products are never greater than 0 -/
def Rule.Mute (r : Rule S) : Prop := r.isLoaded = false ∨ ∀ d : S, Op.isGt (r.weight * d) (lit 0) = false

/-- after its degree has been computed, a mute rule is not active -/
theorem Rule.Mute.activateWith {r r' : Rule S} (h : r.Mute) (w : World S) (tn : Option (TNorm S)) (sn : Option (SNorm S))
    (hr : r.deactivate.activateWith w tn sn = (r', none)) : r'.Idle := by
  unfold Rule.activateWith at hr
  split at hr
  · simp at hr
  · rename_i hl
    cases ha : r.deactivate.antecedent with
    | none => rw [ha] at hr; simp at hr
    | some a =>
      rw [ha] at hr
      simp only at hr
      cases hd : a.degree w tn sn with
      | error e => rw [hd] at hr; simp at hr
      | ok d =>
        rw [hd] at hr
        simp only [Prod.mk.injEq, and_true] at hr
        subst hr
        rcases h with h | h
        · exact absurd (show (!r.isLoaded) = true by rw [h]; rfl) hl
        · rintro ⟨-, hg⟩
          have : Op.isGt (r.weight * d) (lit 0) = true := hg
          rw [h d] at this
          cases this

namespace RuleBlock

theorem selectStep_mute (b : RuleBlock S) (c : Nat → S → Bool) (s : World S × Nat) (r : Rule S) (h : r.Mute)
    (hok : (b.selectStep c s r).2.2 = none) : (b.selectStep c s r).2.1.Idle := by
  unfold selectStep at hok ⊢
  simp only at hok ⊢
  by_cases hl : r.deactivate.isLoaded = true
  · simp only [hl, Bool.not_true, Bool.false_eq_true, if_false] at hok ⊢
    cases hq : r.deactivate.activateWith s.1 b.conjunction b.disjunction with
    | mk r1 e1 =>
      rw [hq] at hok
      cases e1 with
      | some e => simp at hok
      | none =>
        have hi := h.activateWith s.1 _ _ hq
        simp only at hok ⊢
        split
        · have ht := r1.trigger_same s.1 b.implication
          cases hw : r1.trigger s.1 b.implication with
          | mk w2 q =>
            obtain ⟨r2, e2⟩ := q
            rw [hw] at ht
            have : r2.Idle := by
              rintro ⟨h1, h2⟩
              rw [ht.1] at h1
              rw [ht.2] at h2
              exact hi ⟨h1, h2⟩
            cases e2 <;> exact this
        · exact hi
  · simp only [hl, Bool.not_false, if_true]
    exact fun h => hl h.1

theorem degreeStep_mute (b : RuleBlock S) (w : World S) (r : Rule S) (h : r.Mute)
    (hok : (b.degreeStep w r).2.2 = none) : (b.degreeStep w r).2.1.Idle := by
  unfold degreeStep at hok ⊢
  simp only at hok ⊢
  by_cases hl : r.deactivate.isLoaded = true
  · simp only [hl, Bool.not_true, Bool.false_eq_true, if_false] at hok ⊢
    cases hq : r.deactivate.activateWith w b.conjunction b.disjunction with
    | mk r1 e1 =>
      rw [hq] at hok
      simp only at hok
      subst hok
      exact h.activateWith w _ _ hq
  · simp only [hl, Bool.not_false, if_true]
    exact fun h => hl h.1

theorem eachRule_mute {σ : Type} (f : σ → Rule S → σ × Rule S × Option Err)
    (hf : ∀ s r, r.Mute → (f s r).2.2 = none → (f s r).2.1.Idle) (rs : List (Rule S)) (s : σ) (hok : (eachRule f s rs).2.2 = none) :
    List.Forall₂ (fun r r' => r.Mute → r'.Idle) rs (eachRule f s rs).2.1 := by
  induction rs generalizing s with
  | nil => exact .nil
  | cons r rs ih =>
    rw [eachRule_cons] at hok ⊢
    cases he : (f s r).2.2 with
    | some e => rw [he] at hok; simp at hok
    | none =>
      rw [he] at hok
      exact .cons (fun h => hf s r h he) (ih _ hok)

theorem activate_mute [Heap S] (b : RuleBlock S) (w : World S) (hm : b.activation ≠ some .proportional) (hok : (b.activate w).2.2 = none) :
    List.Forall₂ (fun r r' => r.Mute → r'.Idle) b.rules (b.activate w).2.1.rules := by
  have hsel : ∀ (c : Nat → S → Bool) rs, (eachRule (b.selectStep c) (w, 0) rs).2.2 = none →
      List.Forall₂ (fun r r' => r.Mute → r'.Idle) rs (eachRule (b.selectStep c) (w, 0) rs).2.1 :=
    fun c rs h => eachRule_mute _ (fun s r => b.selectStep_mute c s r) rs _ h
  have hord : ∀ less n, (b.activateOrdered less n w).2.2 = none →
      List.Forall₂ (fun r r' => r.Mute → r'.Idle) b.rules (b.activateOrdered less n w).2.1 := by
    intro less n h
    have hd := eachRule_mute b.degreeStep (fun w r => b.degreeStep_mute w r) b.rules w
    unfold activateOrdered at h ⊢
    cases hq : eachRule b.degreeStep w b.rules with
    | mk w1 q =>
      obtain ⟨rs1, e1⟩ := q
      rw [hq] at hd h
      cases e1 with
      | some e => simp at h
      | none =>
        have hk := triggerAll_degrees b.implication (List.take n.toNat (List.filterMap (fun i => Option.map Prod.fst (candidates rs1)[i]?)
          (Heap.pops less (List.map Prod.snd (candidates rs1))))) w1 rs1
        have hd' := hd rfl
        simp only at hd' ⊢
        generalize (triggerAll b.implication w1 rs1 _).2.1 = rs2 at hk ⊢
        clear hd hq h
        generalize b.rules = rs at hd'
        induction hd' generalizing rs2 with
        | nil =>
          simp only [List.map_nil, List.map_eq_nil_iff] at hk
          subst hk
          exact .nil
        | @cons r r1 rs rs1 h1 _ ih =>
          cases rs2 with
          | nil => simp at hk
          | cons r2 rs2 =>
            simp only [List.map_cons, List.cons.injEq, Prod.mk.injEq] at hk
            refine .cons (fun hm => ?_) (ih rs2 hk.2)
            rintro ⟨g1, g2⟩
            rw [hk.1.1] at g1
            rw [hk.1.2] at g2
            exact h1 hm ⟨g1, g2⟩
  unfold activate at hok ⊢
  cases ha : b.activation.getD .general with
  | general => rw [ha] at hok; exact hsel _ _ hok
  | first n t => rw [ha] at hok; exact hsel _ _ hok
  | threshold c v => rw [ha] at hok; exact hsel _ _ hok
  | last n t =>
    rw [ha] at hok
    have h := List.rel_reverse (hsel (firstChoice n t) b.rules.reverse hok)
    rw [List.reverse_reverse] at h
    exact h
  | highest n => rw [ha] at hok; exact hord _ n hok
  | lowest n => rw [ha] at hok; exact hord _ n hok
  | proportional =>
    cases hb : b.activation with
    | none => rw [hb] at ha; simp at ha
    | some a =>
      rw [hb] at ha
      simp only [Option.getD_some] at ha
      exact absurd (hb.trans (by rw [ha])) hm

end RuleBlock

namespace Engine

/-- the block without some of its mute rules -/
def Unmuted (b c : RuleBlock S) : Prop :=
  c = b ∨ b.activation ≠ some .proportional ∧ c = { b with rules := c.rules } ∧ Drops Rule.Mute b.rules b.rules c.rules

theorem blocks_mute [Heap S] {bs cs : List (RuleBlock S)} (hd : List.Forall₂ Unmuted bs cs) (w w' : World S) (bs' : List (RuleBlock S))
    (h : activateBlocks w bs = (w', bs', none)) : ∃ cs', activateBlocks w cs = (w', cs', none) := by
  induction hd generalizing w bs' with
  | nil => exact ⟨bs', h⟩
  | @cons b c bs cs hc _ ih =>
    have hen : c.enabled = b.enabled := by
      rcases hc with rfl | ⟨-, hc, -⟩
      · rfl
      · rw [hc]
    cases hb : b.enabled with
    | false =>
      rw [hb] at hen
      simp only [activateBlocks, hb, hen, Bool.not_false, if_true, Prod.mk.injEq] at h ⊢
      obtain ⟨h1, -, h3⟩ := h
      obtain ⟨cs', h4⟩ := ih w (activateBlocks w bs).2.1 (by rw [← h1, ← h3])
      rw [h4]
      exact ⟨_, rfl, rfl, rfl⟩
    | true =>
      rw [hb] at hen
      simp only [activateBlocks, hb, hen, Bool.not_true, Bool.false_eq_true, if_false] at h ⊢
      cases ha : b.activate w with
      | mk w1 q =>
        obtain ⟨b1, e1⟩ := q
        rw [ha] at h
        cases e1 with
        | some e => simp at h
        | none =>
          simp only [Prod.mk.injEq] at h
          obtain ⟨h1, -, h4⟩ := h
          obtain ⟨cs', h5⟩ := ih w1 (activateBlocks w1 bs).2.1 (by rw [← h1, ← h4])
          obtain ⟨c', hca⟩ : ∃ c', c.activate w = (w1, c', none) := by
            rcases hc with rfl | ⟨hm, hc, hdr⟩
            · exact ⟨b1, ha⟩
            · have := RuleBlock.activate_idle_partial b c w hc hm (by rw [ha]) (hdr.imp (b.activate_mute w hm (by rw [ha])))
              rw [ha] at this
              exact this
          rw [hca]
          simp only [h5]
          exact ⟨_, rfl⟩

/-- **C107 (partial: rule blocks with methods other than Proportional).**  If an engine is processed without exception, so is the engine without
rules that are not loaded or have a weight whose products are never greater than 0, and all output variables are the same
afterwards, with their fuzzy outputs. -/
theorem process_mute_partial [Heap S] (e : Engine S) (cs : List (RuleBlock S)) (h : List.Forall₂ Unmuted e.blocks cs) (hok : e.process.2 = none) :
    ({ e with blocks := cs }).process.2 = none ∧ ({ e with blocks := cs }).process.1.outputs = e.process.1.outputs := by
  unfold process at hok ⊢
  simp only at hok ⊢
  generalize (⟨e.inputs, e.outputs.map fun o => { o with fuzzy := o.fuzzy.clear }⟩ : World S) = w at hok ⊢
  cases hb : activateBlocks w e.blocks with
  | mk w' q =>
    obtain ⟨bs', e1⟩ := q
    rw [hb] at hok
    cases e1 with
    | some e => simp at hok
    | none =>
      simp only at hok
      obtain ⟨cs', hcs⟩ := blocks_mute h w w' bs' hb
      rw [hcs]
      exact ⟨hok, rfl⟩

end Engine
end any

theorem zero_mul_inf [Tol ℝ] : (Ext.fin 0 * Ext.pinf : Ext ℝ) = Ext.nan ∧ (Ext.fin 0 * Ext.ninf : Ext ℝ) = Ext.nan := by
  constructor
  · show Ext.mul (.fin 0) .pinf = _
    simp [Ext.mul, Ext.signInf]
  · show Ext.mul (.fin 0) .ninf = _
    simp [Ext.mul, Ext.signInf]

/-- **C107.**  Rules of weight 0 or NaN are mute in exact arithmetic. -/
theorem Rule.mute_real [Tol ℝ] (r : Rule (Ext ℝ)) (h : r.weight = .fin 0 ∨ r.weight = .nan) : r.Mute := by
  refine .inr fun d => ?_
  rcases h with h | h <;> rw [h] <;> cases d <;> simp [Op.isGt, Op.isGtT, Scalar.gt, zero_mul_inf]

/-- **C107.**  Rules of weight 0 or NaN are mute in every floating-point format. -/
theorem Rule.mute_rounded {ρ : Format} (r : Rule (Flt ρ)) (h : r.weight = lit 0 ∨ r.weight = nan) : r.Mute := by
  refine .inr fun d => ?_
  have key : lt (lit 0) (r.weight * d) = false := by
    have h0 : ρ.rnd 0 = .fin 0 := by simpa using ρ.rnd_int 0 (by norm_num)
    have hl : (lit 0 : Flt ρ).val = .fin 0 := h0
    rcases h with h | h
    · rw [h]
      show Ext.lt (lit 0 : Flt ρ).val (ρ.round (Ext.mul (lit 0 : Flt ρ).val d.val)) = false
      rw [hl]
      cases d.val with
      | fin x =>
        show Ext.lt (.fin 0) (ρ.rnd (0 * x)) = false
        rw [zero_mul, h0]
        decide +kernel
      | nan => rfl
      | pinf =>
        have : Ext.mul (.fin 0) .pinf = (.nan : Ext ℚ) := by simp [Ext.mul, Ext.signInf]
        rw [this]
        rfl
      | ninf =>
        have : Ext.mul (.fin 0) .ninf = (.nan : Ext ℚ) := by simp [Ext.mul, Ext.signInf]
        rw [this]
        rfl
    · rw [h]
      show Ext.lt (lit 0 : Flt ρ).val (ρ.round (Ext.mul .nan d.val)) = false
      rw [hl]
      cases d.val <;> rfl
  have e : Op.isGt (r.weight * d) (lit 0) = (!Op.isEq (r.weight * d) (lit 0) && lt (lit 0) (r.weight * d)) := rfl
  rw [e, key, Bool.and_false]

end FL

namespace FL.MuteDemo
open Scalar FL.Rounded FL.Rounded.Demo

local instance : Heap (Flt dbl) := RuleBlock.stableHeap _

/-- if x is high then y is four, with a weight -/
def weighed (w : Flt dbl) : Rule (Flt dbl) := { conclude [] 1 1 with weight := w }

def controller (v : Flt dbl) (m : Activation (Flt dbl)) (rules : List (Rule (Flt dbl))) : Engine (Flt dbl) :=
  ⟨[], [], [{ input with value := v }], [output], [{ block with
    activation := some m
    rules := rules }]⟩

/-- the theorem applies to it, for every value of x and every method but Proportional: rules of weight 0 and NaN and rules that
are not loaded can be deleted -/
example (v : Flt dbl) (m : Activation (Flt dbl)) (hm : m ≠ .proportional)
    (hok : (controller v m [weighed (lit 0), conclude [] 0 0, Rule.new [], weighed nan]).process.2 = none) :
    (controller v m [conclude [] 0 0]).process.2 = none ∧
    (controller v m [conclude [] 0 0]).process.1.outputs =
      (controller v m [weighed (lit 0), conclude [] 0 0, Rule.new [], weighed nan]).process.1.outputs := by
  refine Engine.process_mute_partial (controller v m [weighed (lit 0), conclude [] 0 0, Rule.new [], weighed nan]) [{ block with
    activation := some m
    rules := [conclude [] 0 0] }] (.cons (.inr ⟨?_, rfl, ?_⟩) .nil) hok
  · intro h
    exact hm (Option.some.inj h)
  · exact .drop _ (Rule.mute_rounded _ (.inl rfl)) (.keep _ _ (.drop _ (.inl rfl) (.drop _ (Rule.mute_rounded _ (.inr rfl)) .nil)))

/-- and this is what is computed: the rule of weight 0 does not take the place of the other one, though its antecedent holds -/
example : (controller (lit 1) (.first 1 (lit 0)) [weighed (lit 0), conclude [] 0 0]).process.2 = none ∧
    (controller (lit 1) (.first 1 (lit 0)) [weighed (lit 0), conclude [] 0 0]).process.1.outputValues = [lit 1] ∧
    (controller (lit 1) (.first 1 (lit 0)) [weighed (lit 1), conclude [] 0 0]).process.1.outputValues = [lit 4] := by decide +kernel

/-- **C107 is violated by Proportional**: a rule of weight NaN silences all other rules of its block. -/
theorem proportional_violated :
    (weighed nan).Mute ∧ (controller (lit 1) .proportional [conclude [] 0 0]).process.1.outputValues = [lit 1] ∧
    (controller (lit 1) .proportional [conclude [] 0 0, weighed nan]).process.2 = none ∧
    (controller (lit 1) .proportional [conclude [] 0 0, weighed nan]).process.1.outputValues = [nan] ∧
    (controller (lit 1) .proportional [conclude [] 0 0, weighed (lit 0)]).process.1.outputValues = [lit 1] :=
  ⟨Rule.mute_rounded _ (.inr rfl), by decide +kernel⟩

/-- if x is low and x is high then y is four, with weight 0 -/
def both : Rule (Flt dbl) := { weighed (lit 0) with antecedent := some (.conj (.prop ⟨.input 0, [], some 0⟩) (.prop ⟨.input 0, [], some 1⟩)) }

/-- the rule block has no operator for conjunctions -/
def bare (rules : List (Rule (Flt dbl))) : Engine (Flt dbl) :=
  { controller (lit 1) .general [] with blocks := [{ block with
      conjunction := none
      rules := rules }] }

/-- **C107 is violated by exceptions**: the antecedent of a rule of weight 0 is computed nevertheless. -/
theorem exception_violated : both.Mute ∧ (bare [conclude [] 0 0]).process.2 = none ∧ (bare [both, conclude [] 0 0]).process.2 ≠ none :=
  ⟨Rule.mute_rounded _ (.inl rfl), by decide +kernel⟩

end FL.MuteDemo
