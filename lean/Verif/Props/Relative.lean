/-
C101: the weights of the rules of a block with Proportional are relative.
-/
import Verif.Props.Idle

namespace FL
open Scalar

section any
variable {S : Type} [Scalar S]

/-- the rule with its weight multiplied -/
def Rule.reweigh (c : S) (r : Rule S) : Rule S := { r with weight := c * r.weight }

/-- the rule with its weight and its degree multiplied -/
def Rule.rescale (c : S) (r : Rule S) : Rule S :=
  { r with
    weight := c * r.weight
    degree := c * r.degree }

/-- the block with the weights of all its rules multiplied -/
def RuleBlock.reweigh (c : S) (b : RuleBlock S) : RuleBlock S := { b with rules := b.rules.map (Rule.reweigh c) }

/-- multiplying by the number keeps products, sums and ratios -/
structure Scales (c : S) : Prop where
  zero : c * (lit 0 : S) = lit 0
  mul : ∀ a b : S, (c * a) * b = c * (a * b)
  add : ∀ a b : S, c * a + c * b = c * (a + b)
  div : ∀ a b : S, (c * a) / (c * b) = a / b

namespace RuleBlock

theorem eachRule_convert {σ : Type} {f f' : σ → Rule S → σ × Rule S × Option Err} (a z : Rule S → Rule S) (rs : List (Rule S))
    (h : ∀ s, ∀ r ∈ rs, (f' s (a r)).1 = (f s r).1 ∧ (f' s (a r)).2.2 = (f s r).2.2 ∧
      ((f s r).2.2 = none → (f' s (a r)).2.1 = z (f s r).2.1)) (s : σ) :
    (eachRule f' s (rs.map a)).1 = (eachRule f s rs).1 ∧ (eachRule f' s (rs.map a)).2.2 = (eachRule f s rs).2.2 ∧
    ((eachRule f s rs).2.2 = none → (eachRule f' s (rs.map a)).2.1 = (eachRule f s rs).2.1.map z) := by
  induction rs generalizing s with
  | nil => exact ⟨rfl, rfl, fun _ => rfl⟩
  | cons r rs ih =>
    rw [List.map_cons, eachRule_cons, eachRule_cons]
    obtain ⟨k1, k2, k3⟩ := h s r List.mem_cons_self
    rw [k1, k2]
    obtain ⟨h1, h2, h3⟩ := ih (fun s r hr => h s r (List.mem_cons_of_mem _ hr)) (f s r).1
    cases he : (f s r).2.2 with
    | some e => exact ⟨rfl, rfl, by simp⟩
    | none => exact ⟨h1, h2, fun hn => by simp only at hn ⊢; rw [h3 hn, k3 he]; rfl⟩

theorem eachRule_after {σ : Type} {f : σ → Rule S → σ × Rule S × Option Err} {Q : Rule S → Prop}
    (h : ∀ s r, (f s r).2.2 = none → Q (f s r).2.1) (rs : List (Rule S)) (s : σ) (hn : (eachRule f s rs).2.2 = none) :
    ∀ r ∈ (eachRule f s rs).2.1, Q r := by
  induction rs generalizing s with
  | nil => intro r hr; simp [eachRule] at hr
  | cons q rs ih =>
    rw [eachRule_cons] at hn ⊢
    cases he : (f s q).2.2 with
    | some e => rw [he] at hn; simp at hn
    | none =>
      rw [he] at hn
      simp only at hn ⊢
      intro r hr
      rcases List.mem_cons.1 hr with rfl | hr
      · exact h s q he
      · exact ih _ hn r hr

theorem degreeStep_reweigh {c : S} (hc : Scales c) (b : RuleBlock S) (w : World S) (r : Rule S) :
    (b.degreeStep w (r.reweigh c)).1 = (b.degreeStep w r).1 ∧ (b.degreeStep w (r.reweigh c)).2.2 = (b.degreeStep w r).2.2 ∧
    ((b.degreeStep w r).2.2 = none → (b.degreeStep w (r.reweigh c)).2.1 = (b.degreeStep w r).2.1.rescale c) := by
  unfold degreeStep
  have hl : (r.reweigh c).deactivate.isLoaded = r.deactivate.isLoaded := rfl
  simp only [hl]
  cases r.deactivate.isLoaded with
  | false =>
    refine ⟨rfl, rfl, fun _ => ?_⟩
    show (r.reweigh c).deactivate = r.deactivate.rescale c
    simp only [Rule.reweigh, Rule.rescale, Rule.deactivate, hc.zero]
  | true =>
    simp only [Bool.not_true, Bool.false_eq_true, if_false]
    unfold Rule.activateWith
    have hl' : (r.reweigh c).deactivate.isLoaded = r.deactivate.isLoaded := rfl
    have ha : (r.reweigh c).deactivate.antecedent = r.deactivate.antecedent := rfl
    rw [hl', ha]
    split
    · exact ⟨trivial, rfl, fun h => (by simp at h)⟩
    · cases r.deactivate.antecedent with
      | none => exact ⟨trivial, rfl, fun h => (by simp at h)⟩
      | some a =>
        simp only
        cases a.degree w b.conjunction b.disjunction with
        | error e => exact ⟨trivial, rfl, fun h => (by simp at h)⟩
        | ok d =>
          refine ⟨trivial, rfl, fun _ => ?_⟩
          simp only [Rule.reweigh, Rule.rescale, Rule.deactivate, hc.mul]

theorem degreeStep_unloaded (b : RuleBlock S) (w : World S) (r : Rule S) (_ : (b.degreeStep w r).2.2 = none) :
    (b.degreeStep w r).2.1.isLoaded = false → (b.degreeStep w r).2.1.degree = lit 0 := by
  unfold degreeStep
  simp only
  cases hl : r.deactivate.isLoaded with
  | false => exact fun _ => rfl
  | true =>
    simp only [Bool.not_true, Bool.false_eq_true, if_false]
    unfold Rule.activateWith
    simp only [hl, Bool.not_true, Bool.false_eq_true, if_false]
    cases ha : r.deactivate.antecedent with
    | none => exact fun h => absurd (hl.symm.trans h) (by decide)
    | some a =>
      simp only
      cases a.degree w b.conjunction b.disjunction with
      | error e => exact fun h => absurd (hl.symm.trans h) (by decide)
      | ok d =>
        intro h
        simp only [Rule.isLoaded, ha] at hl h
        exact absurd (hl.symm.trans h) (by decide)

theorem degreeSum_rescale {c : S} (hc : Scales c) (rs : List (Rule S)) : degreeSum (rs.map (Rule.rescale c)) = c * degreeSum rs := by
  unfold degreeSum
  have hf : (rs.map (Rule.rescale c)).filter Rule.isLoaded = (rs.filter Rule.isLoaded).map (Rule.rescale c) := by
    rw [List.filter_map]
    rfl
  rw [hf]
  generalize rs.filter Rule.isLoaded = l
  have : ∀ s : S, (l.map (Rule.rescale c)).foldl (fun s r => s + r.degree) (c * s) = c * l.foldl (fun s r => s + r.degree) s := by
    induction l with
    | nil => intro s; rfl
    | cons r l ih =>
      intro s
      rw [List.map_cons, List.foldl_cons, List.foldl_cons, ← ih]
      congr 1
      exact hc.add s r.degree
  rw [← this, hc.zero]

theorem trigger_reweigh (c : S) (w : World S) (imp : Option (TNorm S)) (r : Rule S) :
    (r.reweigh c).trigger w imp = ((r.trigger w imp).1, (r.trigger w imp).2.1.reweigh c, (r.trigger w imp).2.2) := by
  unfold Rule.trigger
  have e1 : (r.reweigh c).isLoaded = r.isLoaded := rfl
  have e2 : (r.reweigh c).enabled = r.enabled := rfl
  have e3 : (r.reweigh c).degree = r.degree := rfl
  have e4 : (r.reweigh c).conclusions = r.conclusions := rfl
  rw [e1, e2, e3, e4]
  split
  · rfl
  · split
    · cases modify w r.degree imp r.conclusions with
      | mk w e => cases e <;> rfl
    · rfl

theorem proportionalStep_rescale {c : S} (hc : Scales c) (b : RuleBlock S) (sum : S) (w : World S) (r : Rule S)
    (hr : r.isLoaded = false → r.degree = lit 0) :
    b.proportionalStep (c * sum) w (r.rescale c) =
      ((b.proportionalStep sum w r).1, (b.proportionalStep sum w r).2.1.reweigh c, (b.proportionalStep sum w r).2.2) := by
  unfold proportionalStep
  have e1 : (r.rescale c).isLoaded = r.isLoaded := rfl
  rw [e1]
  cases hl : r.isLoaded with
  | false =>
    simp only [Bool.not_false, if_true]
    simp only [Rule.rescale, Rule.reweigh, hr hl, hc.zero]
  | true =>
    simp only [Bool.not_true, Bool.false_eq_true, if_false]
    rw [← trigger_reweigh]
    congr 1
    have e2 : (r.rescale c).degree / (c * sum) = r.degree / sum := hc.div _ _
    rw [e2]
    rfl

/-- **C101, Proportional.**  Multiplying the weights of all rules of a block by a number that keeps products, sums and ratios changes nothing else: the same
rules are triggered with the same degrees, the same terms are activated, and the same exception is raised. -/
theorem proportional_reweigh {c : S} (hc : Scales c) (b : RuleBlock S) (w : World S) :
    ((b.reweigh c).activateProportional w).1 = (b.activateProportional w).1 ∧
    ((b.reweigh c).activateProportional w).2.2 = (b.activateProportional w).2.2 ∧
    ((b.activateProportional w).2.2 = none →
      ((b.reweigh c).activateProportional w).2.1 = (b.activateProportional w).2.1.map (Rule.reweigh c)) := by
  have e1 : (b.reweigh c).activateProportional w =
      match eachRule b.degreeStep w (b.rules.map (Rule.reweigh c)) with
      | (w, rs, some e) => (w, rs, some e)
      | (w, rs, none) => eachRule (b.proportionalStep (degreeSum rs)) w rs := rfl
  rw [e1]
  unfold activateProportional
  have hd := eachRule_convert (f := b.degreeStep) (f' := b.degreeStep) (Rule.reweigh c) (Rule.rescale c) b.rules
    (fun w r _ => degreeStep_reweigh hc b w r) w
  have hu := eachRule_after (f := b.degreeStep) (Q := fun r => r.isLoaded = false → r.degree = lit 0)
    (fun w r h => degreeStep_unloaded b w r h) b.rules w
  revert hd hu
  cases eachRule b.degreeStep w (b.rules.map (Rule.reweigh c)) with
  | mk w1 p =>
    obtain ⟨rs1, x1⟩ := p
    cases eachRule b.degreeStep w b.rules with
    | mk w2 p =>
      obtain ⟨rs2, x2⟩ := p
      rintro ⟨h1, h2, h3⟩ hu
      simp only at h1 h2 h3 hu
      subst h1 h2
      cases x1 with
      | some x => exact ⟨rfl, rfl, by simp⟩
      | none =>
        obtain rfl := h3 rfl
        simp only
        rw [degreeSum_rescale hc]
        exact eachRule_convert (f := b.proportionalStep (degreeSum rs2)) (f' := b.proportionalStep (c * degreeSum rs2)) (Rule.rescale c)
          (Rule.reweigh c) rs2 (fun w r hr => by
            rw [proportionalStep_rescale hc b _ w r (hu rfl r hr)]
            exact ⟨rfl, rfl, fun _ => rfl⟩) w1

end RuleBlock

namespace Engine

/-- the same blocks, except that the weights of blocks with Proportional are multiplied -/
def Reweighed (b b' : RuleBlock S) : Prop :=
  b' = b ∨ (b.activation = some .proportional ∧ ∃ c : S, Scales c ∧ b' = b.reweigh c)

theorem blocks_reweigh [Heap S] {bs bs' : List (RuleBlock S)} (h : List.Forall₂ Reweighed bs bs') (w : World S) :
    (activateBlocks w bs').1 = (activateBlocks w bs).1 ∧ (activateBlocks w bs').2.2 = (activateBlocks w bs).2.2 := by
  induction h generalizing w with
  | nil => exact ⟨rfl, rfl⟩
  | @cons b b' bs bs' hb _ ih =>
    rw [activateBlocks_cons, activateBlocks_cons]
    have hen : b'.enabled = b.enabled := by
      rcases hb with rfl | ⟨-, c, -, rfl⟩ <;> rfl
    have hact : (b'.activate w).1 = (b.activate w).1 ∧ (b'.activate w).2.2 = (b.activate w).2.2 := by
      rcases hb with rfl | ⟨ha, c, hc, rfl⟩
      · exact ⟨rfl, rfl⟩
      · obtain ⟨h1, h2, -⟩ := RuleBlock.proportional_reweigh hc b w
        have ha' : (b.reweigh c).activation = some .proportional := ha
        unfold RuleBlock.activate
        rw [ha, ha']
        exact ⟨h1, h2⟩
    rw [hen, hact.1, hact.2]
    split
    · exact ih w
    · cases (b.activate w).2.2 with
      | some e => exact ⟨rfl, rfl⟩
      | none => exact ih _

/-- **C101 (partial: factors that keep products, sums and ratios).**  Multiplying the weights of the rules of blocks with Proportional, each block by a
factor of its own, changes no output variable nor its fuzzy output, and neither adds nor removes exceptions. -/
theorem process_reweigh_partial [Heap S] (e : Engine S) (bs : List (RuleBlock S)) (h : List.Forall₂ Reweighed e.blocks bs) :
    ({ e with blocks := bs }).process.2 = e.process.2 ∧ ({ e with blocks := bs }).process.1.outputs = e.process.1.outputs := by
  obtain ⟨h1, h2⟩ := blocks_reweigh h e.cleared
  rw [process_eq, process_eq]
  have hc : ({ e with blocks := bs } : Engine S).cleared = e.cleared := rfl
  rw [hc, h1, h2]
  cases (activateBlocks e.cleared e.blocks).2.2 <;> exact ⟨rfl, rfl⟩

end Engine
end any

/-! ### exact arithmetic -/

section real
open Ext
variable [Tol ℝ]

/-- in exact arithmetic, positive numbers keep products, sums and ratios, also those of infinite values and NaN -/
theorem scales_real (c : ℝ) (hc : 0 < c) : Scales (fin c : Ext ℝ) := by
  have hneg : ¬ c < 0 := not_lt.2 hc.le
  have hne : c ≠ 0 := hc.ne'
  have hsgn : ∀ x : ℝ, signInf (c * x) = (signInf x : Ext ℝ) := by
    intro x
    unfold signInf
    simp only [mul_pos_iff_of_pos_left hc, mul_neg_iff, hc, hneg, true_and, false_and, or_false]
  have k1 : (fin c * pinf : Ext ℝ) = pinf := fin_mul_pinf c hc
  have k2 : (fin c * ninf : Ext ℝ) = ninf := fin_mul_ninf c hc
  have k3 : ∀ x : ℝ, (fin c * signInf x : Ext ℝ) = signInf x := by
    intro x
    unfold signInf
    split_ifs
    · exact k1
    · exact k2
    · simp
  have d1 : ∀ x : ℝ, (fin x * pinf : Ext ℝ) = signInf x := fun _ => rfl
  have d2 : ∀ x : ℝ, (fin x * ninf : Ext ℝ) = signInf (-x) := fun _ => rfl
  have d3 : ∀ x : ℝ, (pinf * fin x : Ext ℝ) = signInf x := fun _ => rfl
  have d4 : ∀ x : ℝ, (ninf * fin x : Ext ℝ) = signInf (-x) := fun _ => rfl
  have d5 : ∀ x : ℝ, (pinf / fin x : Ext ℝ) = if x < 0 then ninf else pinf := fun _ => rfl
  have d6 : ∀ x : ℝ, (ninf / fin x : Ext ℝ) = if x < 0 then pinf else ninf := fun _ => rfl
  have d7 : ∀ x y : ℝ, (fin x / fin y : Ext ℝ) = if y = 0 then signInf x else fin (x / y) := fun _ _ => rfl
  have hlt : ∀ x : ℝ, c * x < 0 ↔ x < 0 := fun x => by simp [mul_neg_iff, hc, hneg]
  refine ⟨?_, ?_, ?_, ?_⟩
  · simp [ofRat_def]
  · rintro (_ | _ | x | _) (_ | _ | y | _)
    all_goals first
      | simp only [nan_mul, mul_nan, k1, k2]; done
      | simp only [k1, k2, d3, d4, k3]; done
      | simp only [mul_fin, d1, d2, k3, hsgn, ← mul_neg]; done
      | simp only [mul_fin, mul_assoc]
      | simp only [k1, k2]; first | exact k1.symm | exact k2.symm
  · rintro (_ | _ | x | _) (_ | _ | y | _)
    all_goals first
      | simp only [mul_nan, nan_add, add_nan]
      | simp only [mul_fin, add_fin, mul_add]; done
      | simp only [k1, k2, mul_fin, pinf_add_fin, ninf_add_fin, fin_add_pinf, fin_add_ninf]; done
      | simp only [k1, k2]; first | exact k1.symm | exact k2.symm | exact (mul_nan _).symm
  · rintro (_ | _ | x | _) (_ | _ | y | _)
    all_goals first
      | simp only [mul_nan, nan_div, div_nan]
      | simp only [k1, k2]; done
      | simp only [k1, k2, mul_fin, fin_div_pinf, fin_div_ninf]; done
      | simp only [k1, k2, mul_fin, d5, d6, hlt]; done
      | simp only [mul_fin, d7, hsgn, mul_eq_zero, hne, false_or, mul_div_mul_left _ _ hne]

/-- **C101 in exact arithmetic.**  All positive factors, all engines, also with weights and degrees that are infinite or NaN, antecedents about output
variables and rules that raise exceptions. -/
theorem Engine.process_reweigh_real [Heap (Ext ℝ)] (e : Engine (Ext ℝ)) (bs : List (RuleBlock (Ext ℝ)))
    (h : List.Forall₂ (fun b b' => b' = b ∨ (b.activation = some .proportional ∧ ∃ c : ℝ, 0 < c ∧
      b' = { b with rules := b.rules.map fun r => { r with weight := fin c * r.weight } })) e.blocks bs) :
    ({ e with blocks := bs }).process.2 = e.process.2 ∧ ({ e with blocks := bs }).process.1.outputs = e.process.1.outputs := by
  refine process_reweigh_partial e bs (h.imp ?_)
  rintro b b' (rfl | ⟨ha, c, hc, rfl⟩)
  · exact Or.inl rfl
  · exact Or.inr ⟨ha, fin c, scales_real c hc, rfl⟩

/-- also the degrees of the rules afterwards are the same -/
theorem RuleBlock.degrees_reweigh_real (b : RuleBlock (Ext ℝ)) (w : World (Ext ℝ)) (c : ℝ) (hc : 0 < c)
    (h : (b.activateProportional w).2.2 = none) :
    (((b.reweigh (fin c)).activateProportional w).2.1.map fun r => (r.degree, r.triggered)) =
      (b.activateProportional w).2.1.map fun r => (r.degree, r.triggered) := by
  rw [(proportional_reweigh (scales_real c hc) b w).2.2 h, List.map_map]
  rfl

end real
end FL

/-! ### examples -/

namespace FL.RelativeDemo
open Scalar

section exact
local instance : Heap (Ext Rat) := RuleBlock.stableHeap _

/-- x is 1; low decreases and high increases from 0 to 4 -/
def input : Variable (Ext Rat) :=
  { Variable.new (cs! "x") (.fin 0) (.fin 4) [⟨cs! "low", .fin 1, .shape (.ramp (.fin 4) (.fin 0))⟩, ⟨cs! "high", .fin 1, .shape (.ramp (.fin 0) (.fin 4))⟩] with
    value := .fin 1 }

def output : OutputVariable (Ext Rat) :=
  { OutputVariable.new (cs! "y") (.fin 0) (.fin 9) [⟨cs! "one", .fin 1, .constant (.fin 1)⟩, ⟨cs! "four", .fin 1, .constant (.fin 4)⟩] with
    defuzzifier := some (.weighted .sum .automatic) }

def conclude (weight : Rat) (x y : Nat) : Rule (Ext Rat) :=
  { Rule.new [] with
    weight := .fin weight
    antecedent := some (.prop ⟨.input 0, [], some x⟩)
    conclusions := [⟨.output 0, [], some y⟩] }

def engine (m : Activation (Ext Rat)) (u v : Rat) : Engine (Ext Rat) :=
  ⟨[], [], [input], [output], [{ RuleBlock.new [] with
    activation := some m
    rules := [conclude u 0 0, conclude v 1 1] }]⟩

/-- degrees 3/4 and 1/4 with weights in the ratio of 1 to 3 count the same; with General the weights are not relative -/
example : (engine .proportional 1 3).process.1.outputValues = [.fin (5 / 2)] ∧ (engine .proportional (1 / 7) (3 / 7)).process.1.outputValues = [.fin (5 / 2)] ∧
    (engine .general 1 3).process.1.outputValues ≠ (engine .general (1 / 7) (3 / 7)).process.1.outputValues := by decide +kernel

end exact

section real
open Ext
variable [Tol ℝ]

/-- one of two blocks is given other weights -/
example [Heap (Ext ℝ)] (e : Engine (Ext ℝ)) (b c : RuleBlock (Ext ℝ)) (h : e.blocks = [b, c]) (hc : c.activation = some .proportional) :
    ({ e with blocks := [b, c.reweigh (fin 7)] }).process.1.outputs = e.process.1.outputs := by
  refine (Engine.process_reweigh_real e _ ?_).2
  rw [h]
  exact .cons (Or.inl rfl) (.cons (Or.inr ⟨hc, 7, by norm_num, rfl⟩) .nil)

end real
end FL.RelativeDemo

namespace FL.RelativeDemo
open Scalar FL.Rounded FL.Rounded.Demo

local instance : Heap (Flt dbl) := RuleBlock.stableHeap _

/-- three rules of degree one and of equal weights -/
def thirds (weight : Flt dbl) : Engine (Flt dbl) :=
  ⟨[], [], [{ Rounded.Demo.input with value := lit 0 }], [Rounded.Demo.output], [{ Rounded.Demo.block with
    activation := some .proportional
    rules := List.replicate 3 { Rounded.Demo.conclude [] 0 0 with weight := weight } }]⟩

/-- **C101 is violated in double precision**: with weights of 0.3 the terms are activated with other degrees than with weights of 1. -/
theorem rounded_violated : (thirds (lit 1)).process.2 = none ∧ (thirds (lit (3 / 10))).process.2 = none ∧
    ((thirds (lit (3 / 10))).process.1.outputs.map fun o => o.fuzzy.terms.map fun a => a.degree) ≠
      ((thirds (lit 1)).process.1.outputs.map fun o => o.fuzzy.terms.map fun a => a.degree) := by decide +kernel

end FL.RelativeDemo
