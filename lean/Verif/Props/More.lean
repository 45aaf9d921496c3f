/-
C104: allowing more rules only adds to the fuzzy output.
-/
import Verif.Props.Between

namespace FL
open Scalar
namespace RuleBlock
variable {S : Type} [Scalar S]

theorem selectStep_world (b : RuleBlock S) (choose : Nat → S → Bool) (s : World S × Nat) (r : Rule S) : s.1.Frame (b.selectStep choose s r).1.1 := by
  rcases b.selectStep_active choose s r with h | ⟨-, d, -, h⟩
  · rw [h]; exact .refl _
  · rw [h]; exact modify_frame _ _ _ _

theorem select_world (b : RuleBlock S) (choose : Nat → S → Bool) (rs : List (Rule S)) (s : World S × Nat) :
    s.1.Frame (eachRule (b.selectStep choose) s rs).1.1 :=
  eachRule_state (fun s t : World S × Nat => s.1.Frame t.1) (fun _ => .refl _) (fun _ _ _ h h' => .trans _ _ _ h h') rs
    (fun s r _ => b.selectStep_world choose s r) s

/-- a step depends only on what is chosen at the present number of rules -/
theorem selectStep_congr (b : RuleBlock S) (c c' : Nat → S → Bool) (s : World S × Nat) (h : ∀ d, c s.2 d = c' s.2 d) (r : Rule S) :
    b.selectStep c s r = b.selectStep c' s r := by
  unfold selectStep
  simp only [h]

/-- a step at which nothing is chosen -/
theorem selectStep_none (b : RuleBlock S) (c : Nat → S → Bool) (s : World S × Nat) (h : ∀ d, c s.2 d = false) (r : Rule S) :
    (b.selectStep c s r).1 = s := by
  unfold selectStep
  simp only [h]
  split
  · rfl
  · split <;> rfl

theorem select_more (b : RuleBlock S) (n n' : Int) (hn : n ≤ n') (t : S) (rs : List (Rule S)) (s : World S × Nat) :
    (eachRule (b.selectStep (firstChoice n t)) s rs).1.1.Frame (eachRule (b.selectStep (firstChoice n' t)) s rs).1.1 := by
  induction rs generalizing s with
  | nil => exact .refl _
  | cons r rs ih =>
    by_cases hs : (s.2 : Int) < n
    · have e : b.selectStep (firstChoice n t) s r = b.selectStep (firstChoice n' t) s r := by
        refine b.selectStep_congr _ _ s ?_ r
        intro d
        have : (s.2 : Int) < n' := by omega
        simp [firstChoice, hs, this]
      rw [eachRule_cons, eachRule_cons, e]
      cases (b.selectStep (firstChoice n' t) s r).2.2 with
      | some err => exact .refl _
      | none => exact ih _
    · have e : (eachRule (b.selectStep (firstChoice n t)) s (r :: rs)).1 = s := by
        have := eachRule_state (f := b.selectStep (firstChoice n t)) (fun s s' : World S × Nat => ¬ (s.2 : Int) < n → s' = s) (fun _ _ => rfl)
          (fun x y z h h' hx => by
            have hy := h hx
            rw [h' (by rw [hy]; exact hx), hy]) (r :: rs)
          (fun s r _ hs => b.selectStep_none _ s (fun d => by simp [firstChoice, hs]) r) s
        exact this hs
      rw [e]
      exact b.select_world _ _ s

theorem triggerAll_world (imp : Option (TNorm S)) (is : List Nat) (rs : List (Rule S)) (w : World S) : w.Frame (triggerAll imp w rs is).1 := by
  induction is generalizing rs w with
  | nil => exact .refl _
  | cons i is ih =>
    rw [triggerAll_cons]
    cases hi : rs[i]? with
    | none => exact .refl _
    | some r =>
      have h1 : w.Frame (r.trigger w imp).1 := by
        rcases Rule.trigger_active w imp r with h | ⟨-, -, h⟩
        · rw [h]; exact .refl _
        · rw [h]; exact modify_frame _ _ _ _
      simp only
      split
      · exact h1
      · exact .trans _ _ _ h1 (ih _ _)

theorem triggerAll_more (imp : Option (TNorm S)) (is js : List Nat) (rs : List (Rule S)) (w : World S) :
    (triggerAll imp w rs is).1.Frame (triggerAll imp w rs (is ++ js)).1 := by
  induction is generalizing rs w with
  | nil => exact triggerAll_world imp js rs w
  | cons i is ih =>
    rw [List.cons_append, triggerAll_cons, triggerAll_cons]
    cases hi : rs[i]? with
    | none => exact .refl _
    | some r =>
      simp only
      split
      · exact .refl _
      · exact ih _ _

theorem ordered_more [Heap S] (b : RuleBlock S) (less : S → S → Bool) (n n' : Int) (hn : n ≤ n') (w : World S) :
    (b.activateOrdered less n w).1.Frame (b.activateOrdered less n' w).1 := by
  unfold activateOrdered
  cases eachRule b.degreeStep w b.rules with
  | mk w p =>
    obtain ⟨rs, e⟩ := p
    cases e with
    | some e => exact .refl _
    | none =>
      simp only
      generalize ((Heap.pops less ((candidates rs).map Prod.snd)).filterMap fun i => (candidates rs)[i]?.map Prod.fst) = order
      obtain ⟨m, hm⟩ : ∃ m, n'.toNat = n.toNat + m := ⟨n'.toNat - n.toNat, by omega⟩
      rw [hm, List.take_add]
      exact triggerAll_more _ _ _ _ _

/-- the same method with another number of rules -/
inductive Allows : Activation S → Activation S → Prop
  | first (n n' : Int) (t : S) : n ≤ n' → Allows (.first n t) (.first n' t)
  | last (n n' : Int) (t : S) : n ≤ n' → Allows (.last n t) (.last n' t)
  | highest (n n' : Int) : n ≤ n' → Allows (.highest n) (.highest n')
  | lowest (n n' : Int) : n ≤ n' → Allows (.lowest n) (.lowest n')

/-- **C104.**  If First, Last, Highest or Lowest may trigger more rules, then the activated terms of every output variable are the former ones followed by
further ones, in the same order and with the same degrees; nothing else of the variables differs.  In every number format, for all rules including those with
antecedents about output variables, whatever exceptions are raised. -/
theorem activate_more [Heap S] (b : RuleBlock S) (a a' : Activation S) (h : Allows a a') (w : World S) :
    (b.activateBy a w).1.inputs = (b.activateBy a' w).1.inputs ∧
    List.Forall₂ (fun o o' : OutputVariable S => ∃ l, o'.fuzzy.terms = o.fuzzy.terms ++ l ∧ (∀ t ∈ l, t.term ∈ o.terms) ∧
      o' = { o with fuzzy := { o.fuzzy with terms := o.fuzzy.terms ++ l } }) (b.activateBy a w).1.outputs (b.activateBy a' w).1.outputs := by
  have key : (b.activateBy a w).1.Frame (b.activateBy a' w).1 := by
    cases h with
    | first n n' t hn => exact b.select_more n n' hn t b.rules (w, 0)
    | last n n' t hn => exact b.select_more n n' hn t b.rules.reverse (w, 0)
    | highest n n' hn => exact b.ordered_more _ n n' hn w
    | lowest n n' hn => exact b.ordered_more _ n n' hn w
  refine ⟨key.inputs.symm, key.outputs.imp ?_⟩
  rintro o o' ⟨h1, -, l, h2, h3⟩
  exact ⟨l, h2, h3, by rw [← h2]; exact h1⟩

theorem selectStep_general (b : RuleBlock S) (c : Nat → S → Bool) (w : World S) (k k' : Nat) (hc : ∀ d, Op.isGt d (lit 0) = true → c k d = true)
    (r : Rule S) : (b.selectStep c (w, k) r).1.1 = (b.selectStep (fun _ _ => true) (w, k') r).1.1 ∧
      (b.selectStep c (w, k) r).2 = (b.selectStep (fun _ _ => true) (w, k') r).2 ∧ (b.selectStep c (w, k) r).1.2 ≤ k + 1 := by
  unfold selectStep
  simp only
  cases hl : r.deactivate.isLoaded with
  | false => exact ⟨rfl, rfl, Nat.le_succ k⟩
  | true =>
    simp only [Bool.not_true, Bool.false_eq_true, if_false, if_true]
    have ha := Rule.activateWith_frame w b.conjunction b.disjunction r.deactivate
    revert ha
    cases r.deactivate.activateWith w b.conjunction b.disjunction with
    | mk r1 e =>
      rintro ⟨ha, -⟩
      cases e with
      | some e => exact ⟨rfl, rfl, Nat.le_succ k⟩
      | none =>
        simp only
        cases hck : c k r1.degree with
        | true =>
          simp only [if_true]
          cases r1.trigger w b.implication with
          | mk w1 p =>
            obtain ⟨r2, e⟩ := p
            cases e with
            | some e => exact ⟨rfl, rfl, Nat.le_succ k⟩
            | none => exact ⟨rfl, rfl, Nat.le_refl _⟩
        | false =>
          have hidle : r1.Idle := by
            rintro ⟨-, hg⟩
            rw [hc _ hg] at hck
            exact absurd hck (by simp)
          have hl1 : r1.isLoaded = true := by
            have := ha.isLoaded
            simp only at this
            rw [this]; exact hl
          rw [Rule.trigger_idle r1 w b.implication hl1 hidle]
          exact ⟨rfl, rfl, Nat.le_succ k⟩

theorem select_general (b : RuleBlock S) (N : Nat) (c : Nat → S → Bool) (hc : ∀ k d, k < N → Op.isGt d (lit 0) = true → c k d = true)
    (rs : List (Rule S)) (w : World S) (k k' : Nat) (hk : k + rs.length ≤ N) :
    (eachRule (b.selectStep c) (w, k) rs).1.1 = (eachRule (b.selectStep fun _ _ => true) (w, k') rs).1.1 ∧
    (eachRule (b.selectStep c) (w, k) rs).2 = (eachRule (b.selectStep fun _ _ => true) (w, k') rs).2 := by
  induction rs generalizing w k k' with
  | nil => exact ⟨rfl, rfl⟩
  | cons r rs ih =>
    simp only [List.length_cons] at hk
    obtain ⟨h1, h2, h3⟩ := b.selectStep_general c w k k' (fun d => hc k d (by omega)) r
    rw [eachRule_cons, eachRule_cons]
    revert h1 h2 h3
    cases b.selectStep c (w, k) r with
    | mk s p =>
      cases b.selectStep (fun _ _ => true) (w, k') r with
      | mk s' p' =>
        obtain ⟨w1, k1⟩ := s
        obtain ⟨w2, k2⟩ := s'
        rintro h1 h2 h3
        simp only at h1 h2 h3
        subst h1 h2
        obtain ⟨r1, e⟩ := p
        cases e with
        | some e => exact ⟨rfl, rfl⟩
        | none =>
          obtain ⟨i1, i2⟩ := ih w1 k1 k2 (by omega)
          exact ⟨i1, by simp only [i2]⟩

/-- **C104, General.**  First with a number that is not exceeded by the rules of the block, and with a threshold that is not above any degree greater than 0,
does the same as General: to the variables and the rules, and with the same exceptions. -/
theorem first_general [Heap S] (b : RuleBlock S) (n : Int) (hn : (b.rules.length : Int) ≤ n) (t : S)
    (ht : ∀ d : S, Op.isGt d (lit 0) = true → Op.isGE d t = true) (w : World S) : b.activateBy (.first n t) w = b.activateBy .general w := by
  have h := b.select_general b.rules.length (firstChoice n t) (fun k d hk hd => by
    have : (k : Int) < n := by omega
    simp [firstChoice, this, hd, ht d hd]) b.rules w 0 0 (by omega)
  show b.activateFirst n t w = b.activateGeneral w
  unfold activateFirst activateGeneral
  exact Prod.ext h.1 h.2

/-- **C104, Threshold.**  Threshold with a comparison that all degrees greater than 0 pass does the same as General. -/
theorem threshold_general [Heap S] (b : RuleBlock S) (c : Comparison) (v : S) (hc : ∀ d : S, Op.isGt d (lit 0) = true → c.activates d v = true) (w : World S) :
    b.activateBy (.threshold c v) w = b.activateBy .general w := by
  have h := b.select_general b.rules.length (fun _ d => c.activates d v) (fun _ d _ hd => hc d hd) b.rules w 0 0 (by omega)
  show b.activateThreshold c v w = b.activateGeneral w
  unfold activateThreshold activateGeneral
  exact Prod.ext h.1 h.2

end RuleBlock
end FL

namespace FL.MoreDemo
open Scalar

section exact
local instance : Heap (Ext Rat) := RuleBlock.stableHeap _

/-- degrees of 3/4 and 1/4 for low and high -/
def world : World (Ext Rat) :=
  ⟨[{ Variable.new (cs! "x") (.fin 0) (.fin 4) [⟨cs! "low", .fin 1, .shape (.ramp (.fin 4) (.fin 0))⟩, ⟨cs! "high", .fin 1, .shape (.ramp (.fin 0) (.fin 4))⟩] with
      value := .fin 1 }],
    [OutputVariable.new (cs! "y") (.fin 0) (.fin 9) [⟨cs! "one", .fin 1, .constant (.fin 1)⟩, ⟨cs! "four", .fin 1, .constant (.fin 4)⟩]]⟩

def conclude (x y : Nat) : Rule (Ext Rat) :=
  { Rule.new [] with
    antecedent := some (.prop ⟨.input 0, [], some x⟩)
    conclusions := [⟨.output 0, [], some y⟩] }

/-- the last rule asks for the degree of a term that the rules before it activate -/
def block : RuleBlock (Ext Rat) :=
  { RuleBlock.new [] with
    rules := [conclude 1 0, conclude 0 0, { conclude 0 1 with antecedent := some (.prop ⟨.output 0, [], some 0⟩) }] }

def degrees (w : World (Ext Rat)) : List (List (Ext Rat)) := w.outputs.map fun o => o.fuzzy.terms.map fun a => a.degree

example : degrees (block.activateBy (.first 1 (.fin 0)) world).1 = [[.fin (1 / 4)]] ∧
    degrees (block.activateBy (.first 2 (.fin 0)) world).1 = [[.fin (1 / 4), .fin (3 / 4)]] ∧
    degrees (block.activateBy (.first 3 (.fin 0)) world).1 = [[.fin (1 / 4), .fin (3 / 4), .fin 1]] ∧
    degrees (block.activateBy .general world).1 = [[.fin (1 / 4), .fin (3 / 4), .fin 1]] ∧
    degrees (block.activateBy (.highest 1) world).1 = [[.fin (3 / 4)]] ∧
    degrees (block.activateBy (.highest 2) world).1 = [[.fin (3 / 4), .fin (1 / 4)]] ∧
    degrees (block.activateBy (.lowest 2) world).1 = [[.fin (1 / 4), .fin (3 / 4)]] := by decide +kernel

example : RuleBlock.Allows (.first 1 (.fin 0) : Activation (Ext Rat)) (.first 3 (.fin 0)) := .first _ _ _ (by decide)

/-- with negative numbers nothing is triggered -/
example : degrees (block.activateBy (.last (-2) (.fin 0)) world).1 = [[]] := by decide +kernel

end exact

section real
open Ext
variable [Tol ℝ]

/-- First with a threshold of 0, and Threshold with a comparison to 0, are General for blocks of no more rules -/
example [Heap (Ext ℝ)] (b : RuleBlock (Ext ℝ)) (w : World (Ext ℝ)) :
    b.activateBy (.first b.rules.length (fin 0)) w = b.activateBy .general w ∧ b.activateBy (.threshold .greaterThan (fin 0)) w = b.activateBy .general w := by
  have e : (lit 0 : Ext ℝ) = fin 0 := by simp
  refine ⟨b.first_general _ (by omega) _ ?_ w, b.threshold_general _ _ ?_ w⟩
  · intro d hd
    rcases positive_of_isGt hd with ⟨x, hx, rfl⟩ | rfl
    · simp only [e, isGt_fin, decide_eq_true_eq] at hd
      simp only [isGE_fin, decide_eq_true_eq]
      have := tol_pos
      linarith
    · simp
  · intro d hd
    rw [e] at hd
    exact hd

end real
end FL.MoreDemo
