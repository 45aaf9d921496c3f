/-
Rounding in whole engines: the output of a Takagi-Sugeno controller compared with exact arithmetic.
-/
import Verif.Props.RoundedRules
import Verif.Props.Activation

namespace FL
open Scalar
variable {S : Type} [Scalar S]

/-! ### antecedents over input variables are not affected by what rules add to fuzzy outputs -/

theorem World.append_ctx (w : World S) (xs : List (VarRef × Activated S)) : (w.append xs).ctx = w.ctx := by
  unfold World.ctx
  congr 1
  apply List.ext_getElem?
  intro i
  rw [List.getElem?_map, World.append_outputs, List.getElem?_map]
  cases w.outputs[i]? <;> simp

/-- all the propositions of an antecedent are about input variables -/
def Expr.OnInputs (e : Expr S) : Prop := ∀ p ∈ e.props, ∃ k, p.var = .input k

theorem Proposition.degree_append (w : World S) (xs : List (VarRef × Activated S)) (p : Proposition S) (h : ∃ k, p.var = .input k) :
    p.degree (w.append xs) = p.degree w := by
  obtain ⟨k, hk⟩ := h
  obtain ⟨v, hs, t⟩ := p
  simp only at hk
  subst hk
  have h1 : ∀ j, (w.append xs).termDegree (.input k) j = w.termDegree (.input k) j := by
    intro j
    unfold World.termDegree
    rw [World.append_ctx]
    rfl
  unfold Proposition.degree
  simp only [World.append_enabled, h1]

theorem Expr.degree_append (w : World S) (xs : List (VarRef × Activated S)) (c : Option (TNorm S)) (d : Option (SNorm S)) (e : Expr S)
    (h : e.OnInputs) : e.degree (w.append xs) c d = e.degree w c d := by
  induction e with
  | prop p => exact Proposition.degree_append w xs p (h p (by simp [Expr.props]))
  | conj l r ihl ihr =>
    unfold Expr.degree
    rw [ihl fun p hp => h p (by simp [Expr.props, hp]), ihr fun p hp => h p (by simp [Expr.props, hp])]
  | disj l r ihl ihr =>
    unfold Expr.degree
    rw [ihl fun p hp => h p (by simp [Expr.props, hp]), ihr fun p hp => h p (by simp [Expr.props, hp])]

/-- the term that a rule with one conclusion concludes, and its position in the output variable -/
def Rule.concluded (o : OutputVariable S) (r : Rule S) : Option (Nat × Term S) :=
  match r.conclusions with
  | [⟨_, _, some j⟩] => o.terms[j]?.map fun t => (j, t)
  | _ => none

namespace RuleBlock

/-- The activated term that a rule adds to the fuzzy output: the term it concludes, with its degree, unless this is
not greater than zero. -/
def fired (b : RuleBlock S) (w : World S) (o : OutputVariable S) (r : Rule S) : Option (Activated S) :=
  (r.concluded o).bind fun c =>
    if Op.isGt (r.activateWith w b.conjunction b.disjunction).1.degree (lit 0) then
      some ⟨c.1, c.2, (r.activateWith w b.conjunction b.disjunction).1.degree, b.implication⟩
    else none

/-- a rule over input variables with one conclusion without hedges on output variable `i` -/
def Single (b : RuleBlock S) (w : World S) (i : Nat) (o : OutputVariable S) (r : Rule S) : Prop :=
  r.enabled = true ∧ (∃ e y, r.antecedent = some e ∧ e.OnInputs ∧ e.degree w b.conjunction b.disjunction = .ok y) ∧
  ∃ j t, r.conclusions = [⟨.output i, [], some j⟩] ∧ o.terms[j]? = some t

theorem eachRule_single (b : RuleBlock S) (w : World S) (i : Nat) (o : OutputVariable S) (ho : w.outputs[i]? = some o) (hen : o.enabled = true)
    (rs : List (Rule S)) (hr : ∀ r ∈ rs, b.Single w i o r) (xs : List (VarRef × Activated S)) (k : Nat) :
    ∃ k' rs', eachRule (b.selectStep fun _ _ => true) (w.append xs, k) rs =
      ((w.append (xs ++ (rs.filterMap (b.fired w o)).map fun a => (.output i, a)), k'), rs', none) := by
  induction rs generalizing xs k with
  | nil => exact ⟨k, [], by simp [eachRule]⟩
  | cons r rs ih =>
    have ih' := ih fun r hr' => hr r (List.mem_cons_of_mem _ hr')
    obtain ⟨ren, ⟨e, y, ha, hin, hy⟩, j, t, hc, ht⟩ := hr r List.mem_cons_self
    have hl : r.isLoaded = true := by simp [Rule.isLoaded, ha, hc]
    have hact : r.activateWith w b.conjunction b.disjunction = ({ r with degree := r.weight * y }, none) := by
      unfold Rule.activateWith
      rw [hl, ha]
      simp [hy]
    have hld : r.deactivate.isLoaded = true := hl
    have hact' : r.deactivate.activateWith (w.append xs) b.conjunction b.disjunction = ({ r.deactivate with degree := r.weight * y }, none) := by
      unfold Rule.activateWith
      rw [hld]
      have : r.deactivate.antecedent = some e := ha
      rw [this]
      simp only [Bool.not_true, Bool.false_eq_true, if_false, Expr.degree_append w xs _ _ e hin, hy]
      rw [← this]
      rfl
    have hf : b.fired w o r = if Op.isGt (r.weight * y) (lit 0) then some ⟨j, t, r.weight * y, b.implication⟩ else none := by
      have : r.concluded o = some (j, t) := by
        unfold Rule.concluded
        rw [hc]
        simp [ht]
      unfold fired
      rw [this, hact]
      rfl
    have hst : ∃ k1 r1, b.selectStep (fun _ _ => true) (w.append xs, k) r =
        ((w.append (xs ++ (b.fired w o r).toList.map fun a => (.output i, a)), k1), r1, none) := by
      unfold selectStep
      simp only [hld, Bool.not_true, Bool.false_eq_true, if_false, hact', if_true]
      have hl2 : ({ r.deactivate with degree := r.weight * y } : Rule S).isLoaded = true := hl
      have he2 : ({ r.deactivate with degree := r.weight * y } : Rule S).enabled = true := ren
      unfold Rule.trigger
      rw [hl2, he2, hf]
      simp only [Bool.not_true, Bool.false_eq_true, if_false, Bool.true_and]
      by_cases hg : Op.isGt (r.weight * y) (lit 0) = true
      · have hc2 : r.deactivate.conclusions = [⟨.output i, [], some j⟩] := hc
        have ho2 := World.append_outputs w xs i
        rw [ho, Option.map_some] at ho2
        have e2 : modify (w.append xs) (r.weight * y) b.implication [⟨.output i, [], some j⟩] =
            (w.append (xs ++ [(.output i, ⟨j, t, r.weight * y, b.implication⟩)]), none) := by
          unfold modify
          rw [← World.append_append, ← World.append_one _ _ _ _ ho2]
          simp [modifyLoop, ho2, hen, applyHedges, ht, pure, Except.pure]
        simp only [hg, if_true, hc2, e2]
        exact ⟨_, _, rfl⟩
      · simp only [hg, if_false, Bool.false_eq_true, Option.toList_none, List.map_nil, List.append_nil]
        exact ⟨_, _, rfl⟩
    obtain ⟨k1, r1, h1⟩ := hst
    obtain ⟨k2, rs2, h2⟩ := ih' (xs ++ (b.fired w o r).toList.map fun a => (.output i, a)) k1
    refine ⟨k2, r1 :: rs2, ?_⟩
    unfold eachRule
    rw [h1]
    simp only [h2]
    cases hb : b.fired w o r <;> simp [List.filterMap_cons, hb]

/-- What rules of this kind add to an empty fuzzy output: one term for every rule with a degree greater than zero, in
the order of the rules. -/
theorem general_single (b : RuleBlock S) (w : World S) (i : Nat) (o : OutputVariable S) (ho : w.outputs[i]? = some o) (hen : o.enabled = true)
    (hr : ∀ r ∈ b.rules, b.Single w i o r) :
    (b.activateGeneral w).1.outputs[i]? = some { o with fuzzy := { o.fuzzy with terms := o.fuzzy.terms ++ b.rules.filterMap (b.fired w o) } } ∧
    (∀ k, k ≠ i → (b.activateGeneral w).1.outputs[k]? = w.outputs[k]?) ∧ (b.activateGeneral w).1.inputs = w.inputs ∧
    (b.activateGeneral w).1.ctx = w.ctx ∧ (b.activateGeneral w).2.2 = none := by
  obtain ⟨k', rs', h⟩ := eachRule_single b w i o ho hen b.rules hr [] 0
  rw [World.append_nil, List.nil_append] at h
  have e : b.activateGeneral w = (w.append ((b.rules.filterMap (b.fired w o)).map fun a => (.output i, a)), rs', none) := by
    unfold activateGeneral
    rw [h]
  rw [e]
  refine ⟨?_, ?_, rfl, World.append_ctx _ _, rfl⟩
  · simp only [World.append_outputs, ho, Option.map_some]
    rw [List.filter_eq_self.2 (fun x hx => by obtain ⟨a, -, rfl⟩ := List.mem_map.1 hx; simp), List.map_map]
    simp [Function.comp_def]
  · intro k hk
    simp only [World.append_outputs]
    rw [List.filter_eq_nil_iff.2 (fun x hx => by obtain ⟨a, -, rfl⟩ := List.mem_map.1 hx; simp [Ne.symm hk])]
    cases w.outputs[k]? <;> simp

end RuleBlock

/-! ### sums of groups -/

section sums
variable {α β : Type}

theorem sum_close (l : List α) (f g h : α → ℚ) (hl : ∀ x ∈ l, |f x - g x| ≤ h x) : |(l.map f).sum - (l.map g).sum| ≤ (l.map h).sum := by
  induction l with
  | nil => simp
  | cons x l ih =>
    have h1 := ih fun y hy => hl y (List.mem_cons_of_mem _ hy)
    have h2 := hl x List.mem_cons_self
    simp only [List.map_cons, List.sum_cons]
    rw [abs_le] at h1 h2 ⊢
    constructor <;> linarith

/-- The sums of the groups of a list add up to the sum of the list. -/
theorem sum_groups [BEq β] [LawfulBEq β] (N : List β) (hN : N.Nodup) (key : α → β) (f : α → ℚ) (l : List α) (hl : ∀ a ∈ l, key a ∈ N) :
    (N.map fun n => ((l.filter fun a => key a == n).map f).sum).sum = (l.map f).sum := by
  classical
  induction l with
  | nil => simp
  | cons a l ih =>
    rw [List.map_cons, List.sum_cons, ← ih fun b hb => hl b (List.mem_cons_of_mem _ hb)]
    have h1 : ∀ n, (((a :: l).filter fun a => key a == n).map f).sum = (if n = key a then f a else 0) + ((l.filter fun a => key a == n).map f).sum := by
      intro n
      rw [List.filter_cons]
      by_cases h : n = key a
      · subst h
        simp
      · simp [h, Ne.symm h]
    simp only [h1]
    rw [List.sum_map_add]
    congr 1
    have h2 := hl a List.mem_cons_self
    clear h1 ih hl
    induction N with
    | nil => simp at h2
    | cons n N ihN =>
      rw [List.map_cons, List.sum_cons]
      obtain ⟨hn, hN'⟩ := List.nodup_cons.1 hN
      by_cases h : n = key a
      · subst h
        have : (N.map fun n => if n = key a then f a else 0).sum = 0 := by
          apply List.sum_eq_zero
          intro x hx
          obtain ⟨m, hm, rfl⟩ := List.mem_map.1 hx
          rw [if_neg]
          rintro rfl
          exact hn hm
        rw [this]
        simp
      · rw [if_neg h, ihN hN' ((List.mem_cons.1 h2).resolve_left (Ne.symm h))]
        simp

theorem sum_filterMap (l : List α) (f : α → Option β) (g : β → ℚ) :
    ((l.filterMap f).map g).sum = (l.map fun a => ((f a).map g).getD 0).sum := by
  induction l with
  | nil => simp
  | cons a l ih => cases h : f a <;> simp [h, ih]

/-- A quotient whose numerator and denominator have errors. -/
theorem ratio_stable {P P' T T' D M : ℚ} (hP : |P' - P| ≤ D * M) (hT : |T' - T| ≤ D) (hM : |P| ≤ M * T) (M0 : 0 ≤ M) (T0 : 0 < T)
    (hD : 2 * D ≤ T) : 0 < T' ∧ T / 2 ≤ T' ∧ |P' / T' - P / T| ≤ 4 * D * M / T := by
  have D0 := (abs_nonneg _).trans hT
  have hT' : T / 2 ≤ T' := by
    have := (abs_le.1 hT).1
    linarith
  have T1 : 0 < T' := by linarith
  refine ⟨T1, hT', ?_⟩
  have e : P' / T' - P / T = (P' - P + P / T * (T - T')) / T' := by
    field_simp
    ring
  have h4 : |P / T| ≤ M := by
    rw [abs_div, abs_of_pos T0, div_le_iff₀ T0]
    exact hM
  have h5 : |P / T * (T - T')| ≤ M * D := by
    rw [abs_mul, abs_sub_comm]
    exact mul_le_mul h4 hT (abs_nonneg _) M0
  have h6 := abs_add_le (P' - P) (P / T * (T - T'))
  rw [e, abs_div, abs_of_pos T1, div_le_div_iff₀ T1 T0]
  have h7 : |P' - P + P / T * (T - T')| ≤ 2 * D * M := by linarith
  calc _ ≤ 2 * D * M * T := mul_le_mul_of_nonneg_right h7 T0.le
    _ = 4 * D * M * (T / 2) := by ring
    _ ≤ 4 * D * M * T' := mul_le_mul_of_nonneg_left hT' (by positivity)

end sums

namespace Rounded
open Flt Format
variable {ρ : Format} {u ν Ω : ℚ}

theorem add_nonneg' {a b : Flt ρ} (ha : 0 ≤ toRat a) (hb : 0 ≤ toRat b) : 0 ≤ toRat (a + b) := by
  have e : (a + b).1 = ρ.round (Ext.add a.1 b.1) := rfl
  unfold toRat at *
  rw [e]
  rcases ha' : a.1 with x | _ | _ | _ <;> rcases hb' : b.1 with y | _ | _ | _ <;> simp [Ext.add, Format.round]
  rename_i x y
  rw [ha'] at ha
  rw [hb'] at hb
  simp only at ha hb
  have h := ρ.rnd_mono 0 (x + y) (by linarith)
  have h0 : ρ.rnd 0 = .fin 0 := by simpa using ρ.rnd_int 0 (by norm_num)
  rw [h0] at h
  cases hr : ρ.rnd (x + y) with
  | fin z =>
    rw [hr] at h
    exact h
  | nan => exact le_rfl
  | ninf => exact le_rfl
  | pinf => exact le_rfl

/-- the degrees of a group are added up -/
theorem group_near (F : ρ.Fine u ν Ω) {n : ℕ} (hu : 32 * n * u ≤ 1) (hν : 64 * n * ν ≤ 1) (hΩ : 8 * n ≤ Ω) (l : List (Activated (Flt ρ)))
    (hl : ∀ a ∈ l, Degree a.degree) (hn : l.length ≤ n) {d : Flt ρ} (hd : Aggregated.combined (.builtin .unboundedSum) l = .ok d) :
    0 ≤ toRat d ∧ Near ((l.map fun a => toRat a.degree).sum) (2 * (l.length : ℚ) ^ 2 * (u + ν)) d := by
  cases l with
  | nil => cases hd
  | cons a l =>
    have e : ∀ (l : List (Activated (Flt ρ))) (s : Flt ρ), l.foldlM (fun d b => (SNorm.builtin .unboundedSum).compute d b.degree) s =
        .ok ((l.map fun a => a.degree).foldl (fun acc y => acc + y) s) := by
      intro l
      induction l with
      | nil => intro s; rfl
      | cons b l ih =>
        intro s
        rw [List.foldlM_cons]
        exact ih (s + b.degree)
    replace hd := (e l a.degree).symm.trans hd
    cases hd
    have pos : ∀ b ∈ a :: l, 0 ≤ toRat b.degree := by
      intro b hb
      obtain ⟨q, hq, eq, h0, _⟩ := degree_iff.1 (hl b hb)
      rw [eq]
      exact h0
    constructor
    · have : ∀ (l : List (Activated (Flt ρ))) (s : Flt ρ), (∀ a ∈ l, 0 ≤ toRat a.degree) → 0 ≤ toRat s →
          0 ≤ toRat ((l.map fun a => a.degree).foldl (fun acc y => acc + y) s) := by
        intro l
        induction l with
        | nil => intro s _ hs; exact hs
        | cons b l ih =>
          intro s h hs
          exact ih _ (fun a ha => h a (List.mem_cons_of_mem _ ha)) (add_nonneg' hs (h b List.mem_cons_self))
      exact this l _ (fun b hb => pos b (List.mem_cons_of_mem _ hb)) (pos a List.mem_cons_self)
    · have bd : ∀ b ∈ a :: l, Flt.Bounded 1 b.degree := by
        intro b hb
        obtain ⟨q, hq, eq, h0, h1⟩ := degree_iff.1 (hl b hb)
        exact ⟨q, hq, eq, abs_le.2 ⟨by linarith, h1⟩⟩
      obtain ⟨q, hq, eq, h1⟩ := bd a List.mem_cons_self
      have h := (sum_near F (M := 1) (by norm_num) hu hν (by linarith) (l.map fun a => a.degree) (fun x hx => by
        obtain ⟨b, hb, rfl⟩ := List.mem_map.1 hx
        exact bd b (List.mem_cons_of_mem _ hb)) 1 a.degree (toRat a.degree) (by
          rw [List.length_map]
          rw [List.length_cons] at hn
          omega) (by rw [eq]; simpa using h1) ⟨q, hq, eq, by
            rw [eq, toRat_of, sub_self, abs_zero]
            have := F.u0
            have := F.ν0
            positivity⟩).2
      rw [List.length_map, List.map_map, _root_.mul_one] at h
      rw [List.map_cons, List.sum_cons, List.length_cons, Nat.add_comm l.length 1]
      exact h

/-! ### a block of Takagi-Sugeno rules -/

/-- the value of a Constant term -/
def constant (t : Term (Flt ρ)) : Flt ρ :=
  match t.kind with
  | .constant k => k
  | _ => nan

/-- the degree of a rule in exact arithmetic -/
def ruleExact (w : World (Flt ρ)) (μ : VarRef → Option Nat → ℚ) (f g : ℚ → ℚ → ℚ) (r : Rule (Flt ρ)) : ℚ :=
  toRat r.weight * (r.antecedent.map fun e => e.exact w μ f g).getD 0

/-- the value of the constant that a rule concludes -/
def ruleValue (o : OutputVariable (Flt ρ)) (r : Rule (Flt ρ)) : ℚ := ((r.concluded o).map fun c => toRat (constant c.2)).getD 0

/-- What is asked of a rule: it is enabled; its antecedent has at most `m` propositions, all about input variables and
each as asked by `Fair`; its weight is from 0 to 1; it has one conclusion, without hedges, on output variable `i`. -/
structure Precise (w : World (Flt ρ)) (μ : VarRef → Option Nat → ℚ) (n m : ℕ) (δ : ℚ) (i : ℕ) (o : OutputVariable (Flt ρ)) (r : Rule (Flt ρ)) : Prop where
  enabled : r.enabled = true
  antecedent : ∃ e, r.antecedent = some e ∧ e.OnInputs ∧ e.props.length ≤ m ∧ ∀ p ∈ e.props, Fair w μ n δ p
  weight : Degree r.weight
  conclusion : ∃ j t, r.conclusions = [⟨.output i, [], some j⟩] ∧ o.terms[j]? = some t

/-- A rule that concludes a constant of a size up to `M`. -/
structure Sugeno (w : World (Flt ρ)) (μ : VarRef → Option Nat → ℚ) (n m : ℕ) (δ M : ℚ) (i : ℕ) (o : OutputVariable (Flt ρ)) (r : Rule (Flt ρ)) : Prop
    extends Precise w μ n m δ i o r where
  value : ∀ c ∈ r.concluded o, ∃ k, c.2.kind = .constant k ∧ Flt.Bounded M k

theorem concluded_eq {S : Type} {o : OutputVariable S} {r : Rule S} {i j : ℕ} {t : Term S} (h : r.conclusions = [⟨.output i, [], some j⟩])
    (ht : o.terms[j]? = some t) : r.concluded o = some (j, t) := by
  unfold Rule.concluded
  rw [h]
  simp [ht]

/-- the error of the degrees of rules -/
def ruleError (ρ : Format) (u ν : ℚ) (c : TNormKind) (n m : ℕ) (δ : ℚ) : ℚ :=
  m * (2 ^ n * (δ + hedgeSlack ρ u ν) - hedgeSlack ρ u ν + TNormKind.slack ρ u ν c) + (u + ν)

/-- what a rule adds to the fuzzy output, compared with its exact degree -/
theorem Sugeno.fired {b : RuleBlock (Flt ρ)} {w : World (Flt ρ)} {μ : VarRef → Option Nat → ℚ} {n m : ℕ} {δ M ω E : ℚ}
    {i : ℕ} {o : OutputVariable (Flt ρ)} {r : Rule (Flt ρ)} (h : Sugeno w μ n m δ M i o r)
    (hω : Close ω E (r.activateWith w b.conjunction b.disjunction).1.degree) :
    |ruleValue o r| ≤ M ∧ |((b.fired w o r).map fun a => toRat a.degree).getD 0 - ω| ≤ E + ρ.eps ∧
    ∀ a, b.fired w o r = some a → a.term ∈ o.terms ∧ Degree a.degree ∧ toRat (constant a.term) = ruleValue o r ∧
      a.term.kind = .constant (constant a.term) ∧ Flt.Bounded M (constant a.term) := by
  obtain ⟨j, t, hcl, ht⟩ := h.conclusion
  have hcon := concluded_eq hcl ht
  obtain ⟨k, hk, hM⟩ := h.value (j, t) hcon
  have ek : constant t = k := by
    unfold constant
    rw [hk]
  have ev : ruleValue o r = toRat k := by
    unfold ruleValue
    rw [hcon]
    simp [ek]
  have hb : |ruleValue o r| ≤ M := by
    obtain ⟨q, hq, e, h⟩ := hM
    rw [ev, e]
    exact h
  refine ⟨hb, ?_⟩
  have hf : b.fired w o r = if Op.isGt (r.activateWith w b.conjunction b.disjunction).1.degree (lit 0) then
      some ⟨j, t, (r.activateWith w b.conjunction b.disjunction).1.degree, b.implication⟩ else none := by
    unfold RuleBlock.fired
    rw [hcon]
    rfl
  have hdeg := hω.1
  obtain ⟨q, hq, eq, q0, q1, hE⟩ := hω.cases
  have ε0 := ρ.eps_pos
  rw [hf]
  split_ifs with hg
  · refine ⟨?_, fun a ha => ?_⟩
    · rw [Option.map_some, Option.getD_some, eq, toRat_of]
      linarith
    · cases ha
      refine ⟨List.mem_of_getElem? ht, hdeg, ?_, ?_, ?_⟩
      · rw [ev]
        show toRat (constant t) = _
        rw [ek]
      · show t.kind = _
        rw [ek, hk]
      · show Flt.Bounded M (constant t)
        rw [ek]
        exact hM
  · refine ⟨?_, fun a ha => by cases ha⟩
    rw [Option.map_none, Option.getD_none]
    have hz : (lit 0 : Flt ρ) = of 0 Format.rep_zero := lit_rep Format.rep_zero
    rw [eq, hz, isGt_of hq Format.rep_zero (small_of (by linarith) (by linarith))] at hg
    have hlt : q < ρ.eps := by
      by_contra hge
      apply hg
      have : 0 < q := by linarith
      refine ⟨this, ?_⟩
      have e : ρ.r (q - 0) = q := by
        rw [sub_zero]
        exact Format.r_of_rep hq
      rw [e, abs_of_pos this]
      linarith
    rw [abs_le] at hE ⊢
    constructor <;> linarith

section
variable (A : Accurate ρ u ν Ω)
include A

theorem Precise.near {b : RuleBlock (Flt ρ)} {c : TNormKind} {d : SNormKind} {f g : ℚ → ℚ → ℚ} (hc : c.exact? = some f) (hd : d.exact? = some g)
    (bc : b.conjunction = some (.builtin c)) (bd : b.disjunction = some (.builtin d))
    {w : World (Flt ρ)} {μ : VarRef → Option Nat → ℚ} {n m : ℕ} {δ : ℚ} (d0 : 0 ≤ δ) {i : ℕ} {o : OutputVariable (Flt ρ)} {r : Rule (Flt ρ)}
    (h : Precise w μ n m δ i o r) : b.Single w i o r ∧ 0 ≤ ruleExact w μ f g r ∧
      Close (ruleExact w μ f g r) (ruleError ρ u ν c n m δ) (r.activateWith w b.conjunction b.disjunction).1.degree := by
  obtain ⟨e, he, hin, hm, hp⟩ := h.antecedent
  obtain ⟨j, t, hcl, ht⟩ := h.conclusion
  have hl : r.isLoaded = true := by simp [Rule.isLoaded, he, hcl]
  obtain ⟨v, hv, ev, v0, v1⟩ := degree_iff.1 h.weight
  have h1 := (rule_near_partial A hc hd d0 r hl he hp (v := v) ⟨h.weight, v, hv, ev, by simp⟩).2
  obtain ⟨⟨e0, e1⟩, y, hy, -⟩ := antecedent_near_partial A hc hd d0 e hp
  have ex : ruleExact w μ f g r = v * e.exact w μ f g := by
    unfold ruleExact
    rw [he, ev]
    rfl
  rw [bc, bd, ex]
  refine ⟨⟨h.enabled, ⟨e, y, he, hin, by rw [bc, bd]; exact hy⟩, j, t, hcl, ht⟩, mul_nonneg v0 e0, h1.mono ?_⟩
  unfold ruleError
  have s0 : 0 ≤ hedgeSlack ρ u ν := by
    unfold hedgeSlack
    have := A.u0
    have := A.ν0
    positivity
  have s1 : 0 ≤ TNormKind.slack ρ u ν c := by
    unfold TNormKind.slack
    have := A.u0
    have := A.ν0
    have := ρ.eps_pos
    split_ifs <;> positivity
  have p1 : (1 : ℚ) ≤ 2 ^ n := one_le_pow₀ (by norm_num)
  have hm' : (e.props.length : ℚ) ≤ m := by exact_mod_cast hm
  have : 0 ≤ 2 ^ n * (δ + hedgeSlack ρ u ν) - hedgeSlack ρ u ν + TNormKind.slack ρ u ν c := by
    have : 1 * (δ + hedgeSlack ρ u ν) ≤ 2 ^ n * (δ + hedgeSlack ρ u ν) := mul_le_mul_of_nonneg_right p1 (by linarith)
    linarith
  have := mul_le_mul_of_nonneg_right hm' this
  linarith

/-- **C87.**  A block of Takagi-Sugeno rules.  In exact arithmetic the output is the average of the constants that
the rules conclude, weighted with the degrees of the rules.  The output that is computed differs from it by at most
`18 K (u M + ν) + 4 D M / S`, for `K` rules, constants of a size up to `M`, and degrees that add up to `S`. -/
theorem sugeno_near_partial {b : RuleBlock (Flt ρ)} {c : TNormKind} {d : SNormKind} {f g : ℚ → ℚ → ℚ} (hc : c.exact? = some f) (hd : d.exact? = some g)
    (bc : b.conjunction = some (.builtin c)) (bd : b.disjunction = some (.builtin d))
    {w : World (Flt ρ)} {μ : VarRef → Option Nat → ℚ} {n m : ℕ} {δ M : ℚ} (d0 : 0 ≤ δ) (M1 : 1 ≤ M) {i : ℕ} {o : OutputVariable (Flt ρ)}
    (ho : w.outputs[i]? = some o) (hen : o.enabled = true) (hempty : o.fuzzy.terms = [])
    (hagg : o.fuzzy.aggregation = none ∨ o.fuzzy.aggregation = some (.builtin .unboundedSum)) (hnames : (o.terms.map Term.name).Nodup)
    (hr : ∀ r ∈ b.rules, Sugeno w μ n m δ M i o r)
    {K : ℕ} (hK : b.rules.length = K) (hu : 32 * K * u ≤ 1) (hΩ : 16 * K ^ 2 * (M + 1) ≤ Ω)
    {D S : ℚ} (hD : D = K * (ruleError ρ u ν c n m δ + ρ.eps + 2 * K * (u + ν))) (hS : S = (b.rules.map (ruleExact w μ f g)).sum)
    (S0 : 0 < S) (hSD : 2 * D ≤ S) :
    (b.activateGeneral w).2.2 = none ∧ ∃ o', (b.activateGeneral w).1.outputs[i]? = some o' ∧
      o' = { o with fuzzy := o'.fuzzy } ∧ ∀ ctx type, type ≠ .tsukamoto → ∃ r, Weighted.defuzzify ctx .average type o'.fuzzy = .ok r ∧
        Near ((b.rules.map fun r => ruleExact w μ f g r * ruleValue o r).sum / S) (18 * K * (u * M + ν) + 4 * D * M / S) r := by
  have u0 := A.u0
  have ν0 := A.ν0
  have ε0 := ρ.eps_pos
  have hs := fun r h => Precise.near A hc hd bc bd d0 (hr r h).toPrecise
  obtain ⟨h1, -, -, -, h2⟩ := b.general_single w i o ho hen fun r h => (hs r h).1
  refine ⟨h2, _, h1, rfl, fun ctx type hty => ?_⟩
  have hf := fun r h => (hr r h).fired (hs r h).2.2
  rw [hempty, List.nil_append]
  set l := b.rules.filterMap (b.fired w o) with hl
  set G : Aggregated (Flt ρ) := { o.fuzzy with terms := l } with hG
  have mem : ∀ a ∈ l, ∃ r ∈ b.rules, b.fired w o r = some a := fun a ha => List.mem_filterMap.1 ha
  have lK : l.length ≤ K := hK ▸ List.length_filterMap_le _ _
  have E0 : 0 ≤ ruleError ρ u ν c n m δ := by
    by_contra hneg
    cases hb : b.rules with
    | nil => rw [hb] at hS; simp at hS; linarith
    | cons r rs =>
      obtain ⟨q, hq, eq, -, -, hE⟩ := (hs r (by simp [hb])).2.2.cases
      linarith [abs_nonneg (q - ruleExact w μ f g r)]
  have K1 : (1 : ℚ) ≤ K := by
    rcases Nat.eq_zero_or_pos K with h0 | h0
    · rw [h0] at hK
      rw [List.length_eq_zero_iff.1 hK] at hS
      simp at hS
      linarith
    · exact_mod_cast h0
  have hν : 64 * (K : ℚ) * ν ≤ 1 := by
    have h3 := mul_le_mul_of_nonneg_left A.hν (show (0 : ℚ) ≤ 8 * K by linarith)
    have h4 := mul_le_mul_of_nonneg_right hu ε0.le
    have := A.heps
    linarith
  have hM : 8 * (K : ℚ) ≤ Ω := by
    have h3 : (K : ℚ) * 1 ≤ K ^ 2 := by rw [sq]; exact mul_le_mul_of_nonneg_left K1 (by linarith)
    have h4 : (K : ℚ) ^ 2 * 1 ≤ K ^ 2 * (M + 1) := mul_le_mul_of_nonneg_left (by linarith) (by positivity)
    linarith
  -- the sums over the rules
  have T1 : |(l.map fun a => toRat a.degree).sum - S| ≤ K * (ruleError ρ u ν c n m δ + ρ.eps) := by
    rw [hl, sum_filterMap, hS]
    refine (sum_close b.rules _ _ (fun _ => ruleError ρ u ν c n m δ + ρ.eps) fun r h => (hf r h).2.1).trans (le_of_eq ?_)
    simp only [List.map_const', List.sum_replicate, hK, nsmul_eq_mul]
  have P1 : |(l.map fun a => toRat a.degree * toRat (constant a.term)).sum - (b.rules.map fun r => ruleExact w μ f g r * ruleValue o r).sum| ≤
      K * (ruleError ρ u ν c n m δ + ρ.eps) * M := by
    rw [hl, sum_filterMap]
    refine (sum_close b.rules _ _ (fun _ => (ruleError ρ u ν c n m δ + ρ.eps) * M) fun r h => ?_).trans (le_of_eq ?_)
    · obtain ⟨h3, h4, h5⟩ := hf r h
      have e : ((b.fired w o r).map fun a => toRat a.degree * toRat (constant a.term)).getD 0 =
          ((b.fired w o r).map fun a => toRat a.degree).getD 0 * ruleValue o r := by
        cases hb : b.fired w o r with
        | none => simp
        | some a =>
          rw [Option.map_some, Option.map_some, Option.getD_some, Option.getD_some, (h5 a hb).2.2.1]
      rw [e, ← sub_mul, abs_mul]
      exact mul_le_mul h4 h3 (abs_nonneg _) (by linarith)
    · simp [hK, _root_.mul_assoc]
  -- the groups
  obtain ⟨G', hG'⟩ := Aggregated.grouped_ok G fun φ => by
    show o.fuzzy.aggregation ≠ _
    rcases hagg with h | h <;> rw [h] <;> simp
  obtain ⟨-, g2, g3, g4⟩ := Aggregated.grouped_spec G G' hG'
  have hag : G.aggregation.getD (.builtin .unboundedSum) = .builtin .unboundedSum := by
    show o.fuzzy.aggregation.getD _ = _
    rcases hagg with h | h <;> rw [h] <;> rfl
  rw [hag] at g4
  have g5 : ∀ x ∈ G'.terms, (∃ a ∈ l, x.term = a.term) ∧ (∀ a ∈ l.filter (fun a => a.term.name == x.term.name), a.term = x.term) ∧
      0 ≤ toRat x.degree ∧ Near (((l.filter fun a => a.term.name == x.term.name).map fun a => toRat a.degree).sum)
        (2 * K * (u + ν) * ((l.filter fun a => a.term.name == x.term.name).map fun _ => (1 : ℚ)).sum) x.degree := by
    intro x hx
    obtain ⟨first, rest, e1, e2, e3⟩ := g4 x hx
    have e1' : l.filter (fun a => a.term.name == x.term.name) = first :: rest := e1
    have e2' : x.term = first.term := by rw [e2]
    have hfl : first ∈ l := (List.mem_filter.1 (e1' ▸ List.mem_cons_self : first ∈ l.filter _)).1
    have inj : ∀ a ∈ l, a.term.name = x.term.name → a.term = x.term := by
      intro a ha hn
      rw [e2'] at hn ⊢
      obtain ⟨r, hr1, hr2⟩ := mem a ha
      obtain ⟨r', hr1', hr2'⟩ := mem first hfl
      exact List.inj_on_of_nodup_map hnames ((hf r hr1).2.2 a hr2).1 ((hf r' hr1').2.2 first hr2').1 hn
    rw [e1']
    have hle : (first :: rest).length ≤ K := (e1' ▸ List.length_filter_le _ _ : (first :: rest).length ≤ l.length).trans lK
    obtain ⟨n0, n1⟩ := group_near A.toFine hu hν hM (first :: rest) (fun a ha => by
      obtain ⟨r, hr1, hr2⟩ := mem a (List.mem_filter.1 (e1' ▸ ha : a ∈ l.filter _)).1
      exact ((hf r hr1).2.2 a hr2).2.1) hle e3
    refine ⟨⟨first, hfl, e2'⟩, fun a ha => ?_, n0, n1.mono ?_⟩
    · have h3 := List.mem_filter.1 (e1' ▸ ha : a ∈ l.filter _)
      exact inj a h3.1 (by simpa using h3.2)
    · rw [List.map_const', List.sum_replicate, nsmul_eq_mul, _root_.mul_one]
      have h3 : ((first :: rest).length : ℚ) ≤ K := by exact_mod_cast hle
      have h4 : 0 ≤ ((first :: rest).length : ℚ) := Nat.cast_nonneg _
      generalize ((first :: rest).length : ℚ) = x at *
      have h5 := mul_le_mul_of_nonneg_right h3 (show 0 ≤ x * (u + ν) by positivity)
      linarith
  have regroup : ∀ φ : Activated (Flt ρ) → ℚ,
      (G'.terms.map fun x => ((l.filter fun a => a.term.name == x.term.name).map φ).sum).sum = (l.map φ).sum := by
    intro φ
    have h3 := sum_groups (G'.terms.map fun a => a.term.name) g3 (fun a : Activated (Flt ρ) => a.term.name) φ l (fun a ha => by
      rw [g2, List.mem_eraseDups]
      exact List.mem_map_of_mem ha)
    rw [List.map_map] at h3
    exact h3
  have count : (G'.terms.map fun x => 2 * K * (u + ν) * ((l.filter fun a => a.term.name == x.term.name).map fun _ => (1 : ℚ)).sum).sum ≤
      K * (2 * K * (u + ν)) := by
    rw [List.sum_map_mul_left, regroup, List.map_const', List.sum_replicate, nsmul_eq_mul, _root_.mul_one, _root_.mul_comm]
    exact mul_le_mul_of_nonneg_right (by exact_mod_cast lK) (by positivity)
  have T2 : |(G'.terms.map fun x => toRat x.degree).sum - (l.map fun a => toRat a.degree).sum| ≤ K * (2 * K * (u + ν)) := by
    rw [← regroup]
    refine (sum_close G'.terms _ _ _ fun x hx => ?_).trans count
    obtain ⟨q, hq, e, h3⟩ := (g5 x hx).2.2.2
    rw [e]
    exact h3
  have gb : ∀ x ∈ G'.terms, x.term.kind = .constant (constant x.term) ∧ Flt.Bounded M (constant x.term) ∧ |toRat (constant x.term)| ≤ M := by
    intro x hx
    obtain ⟨⟨a, ha, e⟩, -⟩ := g5 x hx
    obtain ⟨r, hr1, hr2⟩ := mem a ha
    obtain ⟨-, -, -, h3, h4⟩ := (hf r hr1).2.2 a hr2
    rw [e]
    refine ⟨h3, h4, ?_⟩
    obtain ⟨q, hq, e, h⟩ := h4
    rw [e]
    exact h
  have P2 : |(G'.terms.map fun x => toRat x.degree * toRat (constant x.term)).sum - (l.map fun a => toRat a.degree * toRat (constant a.term)).sum| ≤
      K * (2 * K * (u + ν)) * M := by
    rw [← regroup]
    refine (sum_close G'.terms _ _ (fun x => 2 * K * (u + ν) * ((l.filter fun a => a.term.name == x.term.name).map fun _ => (1 : ℚ)).sum * M) fun x hx => ?_).trans ?_
    · obtain ⟨-, h3, -, q, hq, e, h4⟩ := g5 x hx
      have e2 : ((l.filter fun a => a.term.name == x.term.name).map fun a => toRat a.degree * toRat (constant a.term)) =
          ((l.filter fun a => a.term.name == x.term.name).map fun a => toRat a.degree * toRat (constant x.term)) :=
        List.map_congr_left fun a ha => by rw [h3 a ha]
      rw [e2, List.sum_map_mul_right, ← sub_mul, abs_mul, e]
      exact mul_le_mul h4 (gb x hx).2.2 (abs_nonneg _) ((abs_nonneg _).trans h4)
    · rw [List.sum_map_mul_right]
      exact mul_le_mul_of_nonneg_right count (by linarith)
  -- the quotient
  have hT : |(G'.terms.map fun x => toRat x.degree).sum - S| ≤ D := by
    have := abs_sub_le ((G'.terms.map fun x => toRat x.degree).sum) ((l.map fun a => toRat a.degree).sum) S
    rw [hD]
    linarith
  have hP : |(G'.terms.map fun x => toRat x.degree * toRat (constant x.term)).sum - (b.rules.map fun r => ruleExact w μ f g r * ruleValue o r).sum| ≤ D * M := by
    have := abs_sub_le ((G'.terms.map fun x => toRat x.degree * toRat (constant x.term)).sum)
      ((l.map fun a => toRat a.degree * toRat (constant a.term)).sum) ((b.rules.map fun r => ruleExact w μ f g r * ruleValue o r).sum)
    rw [hD]
    linarith
  have hPS : |(b.rules.map fun r => ruleExact w μ f g r * ruleValue o r).sum| ≤ M * S :=
    hS ▸ sum_bound b.rules _ _ (fun r h => (hs r h).2.1) fun r h => (hf r h).1
  obtain ⟨T0, T3, hq⟩ := ratio_stable hP hT hPS (by linarith) S0 hSD
  have GK : (G'.terms.length : ℚ) ≤ K := by
    have h3 : (G'.terms.map fun a => a.term.name).length ≤ (l.map fun a => a.term.name).length := by
      refine (List.subperm_of_subset g3 fun n hn => ?_).length_le
      rw [g2, List.mem_eraseDups] at hn
      exact hn
    rw [List.length_map, List.length_map] at h3
    exact_mod_cast h3.trans lK
  have G0 : (0 : ℚ) ≤ G'.terms.length := Nat.cast_nonneg _
  have DK : (K : ℚ) * ρ.eps ≤ D := by
    rw [hD]
    refine mul_le_mul_of_nonneg_left ?_ (by linarith)
    have : 0 ≤ 2 * (K : ℚ) * (u + ν) := by positivity
    linarith
  have hν8 := A.hν
  have hu32 := A.hu
  have e1 : (1 : ℚ) * ρ.eps ≤ K * ρ.eps := mul_le_mul_of_nonneg_right K1 ε0.le
  have ue : u * ρ.eps ≤ 1 / 32 * ρ.eps := mul_le_mul_of_nonneg_right (by linarith) ε0.le
  have ty : ρ.eps ≤ (G'.terms.map fun x => toRat x.degree).sum := by linarith
  have hne : G.terms ≠ [] := by
    intro h
    have h3 : l = [] := h
    change G'.terms.map _ = (l.map _).eraseDups at g2
    rw [h3] at g2
    have h4 : G'.terms = [] := by simpa using g2
    rw [h4] at T0
    simp at T0
  have auto : Weighted.defuzzify ctx .average type G = Weighted.defuzzify ctx .average .takagiSugeno G := by
    cases type with
    | takagiSugeno => rfl
    | tsukamoto => exact absurd rfl hty
    | automatic =>
      refine (Weighted.defuzzify_automatic ctx .average G hne).1 fun a ha => ?_
      obtain ⟨r, hr1, hr2⟩ := mem a ha
      exact Or.inl ⟨_, ((hf r hr1).2.2 a hr2).2.2.2.1⟩
  obtain ⟨⟨z, hz, q, rq, rfl, hzq⟩, -⟩ := weighted_near A.toFine (M := M) (Y := 2 * K) (by linarith) (by linarith) ctx .takagiSugeno (by simp) G G'
    hne
    hG' (fun x => constant x.term)
    (fun x hx => by
      refine ⟨?_, (gb x hx).2.1, ?_⟩
      · show x.term.membership ctx x.degree = _
        unfold Term.membership
        rw [(gb x hx).1]
      · obtain ⟨-, -, h0, q, rq, e, h3⟩ := g5 x hx
        rw [e, toRat_of] at h0
        refine ⟨q, rq, e, h0, ?_⟩
        have h4 : ((l.filter fun a => a.term.name == x.term.name).map fun a => toRat a.degree).sum ≤
            ((l.filter fun a => a.term.name == x.term.name).map fun _ => (1 : ℚ)).sum := by
          apply List.sum_le_sum
          intro a ha
          obtain ⟨r, hr1, hr2⟩ := mem a (List.mem_filter.1 ha).1
          obtain ⟨q, hq, e, -, h1⟩ := degree_iff.1 ((hf r hr1).2.2 a hr2).2.1
          rw [e]
          exact h1
        have h5 : ((l.filter fun a => a.term.name == x.term.name).map fun _ => (1 : ℚ)).sum ≤ K := by
          rw [List.map_const', List.sum_replicate, nsmul_eq_mul, _root_.mul_one]
          exact_mod_cast (List.length_filter_le _ _).trans lK
        have h6 : 0 ≤ ((l.filter fun a => a.term.name == x.term.name).map fun _ => (1 : ℚ)).sum := by
          rw [List.map_const', List.sum_replicate, nsmul_eq_mul, _root_.mul_one]
          exact Nat.cast_nonneg _
        generalize ((l.filter fun a => a.term.name == x.term.name).map fun _ => (1 : ℚ)).sum = x at *
        have h7 := mul_le_mul_of_nonneg_right (show 2 * (K : ℚ) * (u + ν) ≤ 1 by linarith) h6
        have := (abs_le.1 h3).2
        linarith)
    (by have := mul_le_mul_of_nonneg_right GK u0; linarith) (by have := mul_le_mul_of_nonneg_right GK ν0; linarith)
    (by
      have h3 := mul_le_mul_of_nonneg_right GK (show 0 ≤ (M + 1) * (2 * (K : ℚ) + 1) by positivity)
      have h4 : (K : ℚ) * 1 ≤ K ^ 2 := by rw [sq]; exact mul_le_mul_of_nonneg_left K1 (by linarith)
      have h5 := mul_le_mul_of_nonneg_right h4 (show 0 ≤ M + 1 by linarith)
      have e3 : (K : ℚ) * ((M + 1) * (2 * K + 1)) = 2 * (K ^ 2 * (M + 1)) + K * 1 * (M + 1) := by ring
      rw [e3] at h3
      have h6 : 0 ≤ (K : ℚ) ^ 2 * (M + 1) := by positivity
      linarith)
    rfl rfl T0
    (by
      have h3 := mul_le_mul_of_nonneg_right GK ν0
      have h4 := mul_le_mul_of_nonneg_left hν8 (show (0 : ℚ) ≤ K by linarith)
      have h5 := mul_le_mul_of_nonneg_left ue (show (0 : ℚ) ≤ K by linarith)
      have h6 : 0 ≤ (K : ℚ) * ρ.eps := by positivity
      linarith)
    (by
      have h3 := mul_le_mul_of_nonneg_left ty (show 0 ≤ u * M + ν by positivity)
      have h4 := mul_le_mul_of_nonneg_left hν8 (show 0 ≤ M by linarith)
      have h5 : ν * 1 ≤ ν * M := mul_le_mul_of_nonneg_left M1 ν0
      have h6 : 0 ≤ ν * ρ.eps := by positivity
      linarith)
  refine ⟨_, auto.trans hz, q, rq, rfl, ?_⟩
  have h3 := abs_sub_le q ((G'.terms.map fun x => toRat x.degree * toRat (constant x.term)).sum / (G'.terms.map fun x => toRat x.degree).sum)
    ((b.rules.map fun r => ruleExact w μ f g r * ruleValue o r).sum / S)
  have h4 := mul_le_mul_of_nonneg_right GK (show 0 ≤ u * M + ν by positivity)
  linarith

omit A in
/-- Processing an engine with one output variable and one block of rules over input variables with one conclusion each:
the result is that of the defuzzifier on the terms that the rules add to the fuzzy output. -/
theorem process_single {S : Type} [Scalar S] [Heap S] {e : Engine S} {b : RuleBlock S} {o : OutputVariable S} {D : Defuzzifier}
    (eb : e.blocks = [b]) (eo : e.outputs = [o]) (ben : b.enabled = true) (ba : b.activation = none ∨ b.activation = some .general)
    (hen : o.enabled = true) (hdef : o.defuzzifier = some D) {w : World S} (hw : w = ⟨e.inputs, [{ o with fuzzy := { o.fuzzy with terms := [] } }]⟩)
    (hs : ∀ r ∈ b.rules, b.Single w 0 o r) {z : S}
    (hz : D.defuzzify w.ctx { o.fuzzy with terms := b.rules.filterMap (b.fired w o) } o.minimum o.maximum = .ok z) (hn : Op.isNaN z = false) :
    e.process.2 = none ∧ e.process.1.outputValues = [if o.lockRange then Op.bound z o.minimum o.maximum else z] := by
  obtain ⟨h2, h5, h6, h7, h8⟩ := b.general_single w 0 { o with fuzzy := { o.fuzzy with terms := [] } } (by rw [hw]; rfl) hen hs
  have hf : b.fired w { o with fuzzy := { o.fuzzy with terms := [] } } = b.fired w o := rfl
  rw [hf] at h2
  simp only [List.nil_append] at h2
  generalize ho' : ({ o with fuzzy := { o.fuzzy with terms := b.rules.filterMap (b.fired w o) } } : OutputVariable S) = o' at h2
  have hout : (b.activateGeneral w).1.outputs = [o'] := by
    apply List.ext_getElem?
    intro k
    cases k with
    | zero => rw [h2]; rfl
    | succ k =>
      rw [h5 _ (Nat.succ_ne_zero k), hw]
      rfl
  have hact : b.activate w = ((b.activateGeneral w).1, { b with activation := some .general, rules := (b.activateGeneral w).2.1 }, none) := by
    have e : b.activation.getD .general = .general := by rcases ba with h | h <;> rw [h] <;> rfl
    unfold RuleBlock.activate
    rw [e]
    show ((b.activateGeneral w).1, _, (b.activateGeneral w).2.2) = _
    rw [h8]
    rfl
  have hctx : World.ctx ⟨(b.activateGeneral w).1.inputs, [] ++ [o']⟩ = w.ctx := by
    rw [← h7, List.nil_append, ← hout]
  have hde : o'.defuzzify (World.ctx ⟨(b.activateGeneral w).1.inputs, [] ++ [o']⟩) =
      .ok (({ o' with previous := o'.value } : OutputVariable S).setValue z) := by
    have a1 : o'.enabled = true := by rw [← ho']; exact hen
    have a2 : o'.defuzzifier = some D := by rw [← ho']; exact hdef
    have a3 : D.defuzzify w.ctx o'.fuzzy o'.minimum o'.maximum = .ok z := by rw [← ho']; exact hz
    unfold OutputVariable.defuzzify
    rw [hctx]
    simp only [a1, a2, Bool.not_true, Bool.false_eq_true, if_false, a3, bind, Except.bind, hn, Bool.and_false]
  have hp : e.process = (⟨e.name, e.description, (b.activateGeneral w).1.inputs, [({ o' with previous := o'.value } : OutputVariable S).setValue z],
      [{ b with activation := some .general, rules := (b.activateGeneral w).2.1 }]⟩, none) := by
    have ec : (⟨e.inputs, e.outputs.map fun o => { o with fuzzy := o.fuzzy.clear }⟩ : World S) = w := by
      rw [eo, hw]
      rfl
    unfold Engine.process
    simp only [ec, eb, Engine.activateBlocks, ben, Bool.not_true, Bool.false_eq_true, if_false, hact, hout, Engine.defuzzifyAll, hde]
    rfl
  rw [hp]
  refine ⟨rfl, ?_⟩
  subst ho'
  rfl

/-- **C87.**  An engine with one block of Takagi-Sugeno rules and one output variable, defuzzified with WeightedAverage. -/
theorem sugeno_process_partial [Heap (Flt ρ)] {e : Engine (Flt ρ)} {b : RuleBlock (Flt ρ)} {o : OutputVariable (Flt ρ)} {type : WeightedType}
    (eb : e.blocks = [b]) (eo : e.outputs = [o]) (ben : b.enabled = true) (ba : b.activation = none ∨ b.activation = some .general)
    (hen : o.enabled = true) (hdef : o.defuzzifier = some (.weighted .average type)) (hty : type ≠ .tsukamoto) (hlock : o.lockRange = false)
    {c : TNormKind} {d : SNormKind} {f g : ℚ → ℚ → ℚ} (hc : c.exact? = some f) (hd : d.exact? = some g)
    (bc : b.conjunction = some (.builtin c)) (bd : b.disjunction = some (.builtin d))
    {w : World (Flt ρ)} (hw : w = ⟨e.inputs, [{ o with fuzzy := { o.fuzzy with terms := [] } }]⟩)
    {μ : VarRef → Option Nat → ℚ} {n m : ℕ} {δ M : ℚ} (d0 : 0 ≤ δ) (M1 : 1 ≤ M)
    (hagg : o.fuzzy.aggregation = none ∨ o.fuzzy.aggregation = some (.builtin .unboundedSum)) (hnames : (o.terms.map Term.name).Nodup)
    (hr : ∀ r ∈ b.rules, Sugeno w μ n m δ M 0 o r)
    {K : ℕ} (hK : b.rules.length = K) (hu : 32 * K * u ≤ 1) (hΩ : 16 * K ^ 2 * (M + 1) ≤ Ω)
    {D S : ℚ} (hD : D = K * (ruleError ρ u ν c n m δ + ρ.eps + 2 * K * (u + ν))) (hS : S = (b.rules.map (ruleExact w μ f g)).sum)
    (S0 : 0 < S) (hSD : 2 * D ≤ S) :
    e.process.2 = none ∧ ∃ r, e.process.1.outputValues = [r] ∧
      Near ((b.rules.map fun r => ruleExact w μ f g r * ruleValue o r).sum / S) (18 * K * (u * M + ν) + 4 * D * M / S) r := by
  obtain ⟨-, o', h2, -, h4⟩ := sugeno_near_partial A hc hd bc bd (w := w) (μ := μ) (n := n) (m := m) (δ := δ) (M := M) d0 M1 (i := 0)
    (o := { o with fuzzy := { o.fuzzy with terms := [] } }) (by rw [hw]; rfl) hen rfl hagg hnames
    (fun r h => ⟨⟨(hr r h).enabled, (hr r h).antecedent, (hr r h).weight, (hr r h).conclusion⟩, (hr r h).value⟩) hK hu hΩ hD hS S0 hSD
  have hs : ∀ r ∈ b.rules, b.Single w 0 o r := fun r h => (Precise.near A hc hd bc bd d0 (hr r h).toPrecise).1
  obtain ⟨h5, -⟩ := b.general_single w 0 { o with fuzzy := { o.fuzzy with terms := [] } } (by rw [hw]; rfl) hen hs
  rw [h2] at h5
  cases h5
  obtain ⟨z, hz, hn⟩ := h4 w.ctx type hty
  have a3 : Op.isNaN z = false := by
    obtain ⟨q, hq, rfl, -⟩ := hn
    exact isNaN_of hq
  obtain ⟨p1, p2⟩ := process_single eb eo ben ba hen hdef hw hs (z := z) hz a3
  rw [hlock] at p2
  exact ⟨p1, z, p2, hn⟩

end

section double
variable (lib1 : Fn1 → Ext ℚ → Ext ℚ) (lib2 : Fn2 → Ext ℚ → Ext ℚ → Ext ℚ)

/-- the error of the degrees of rules in `double` -/
def doubleError (c : TNormKind) (n m : ℕ) (δ : ℚ) : ℚ :=
  m * (2 ^ n * δ + (2 ^ n - 1) / 10 ^ 11 + 1 / 10 ^ 14 + if c = .hamacherProduct then 2 / 10 ^ 6 else 0) + 11 / 10 ^ 7

theorem ruleError_double (c : TNormKind) (n m : ℕ) (δ : ℚ) :
    ruleError (binary64 lib1 lib2) (2 ^ (-53 : ℤ)) (2 ^ (-1075 : ℤ)) c n m δ ≤ doubleError c n m δ - 11 / 10 ^ 7 + 1 / 10 ^ 15 := by
  unfold ruleError doubleError
  have hu := double_unit
  have he := double_eps lib1 lib2
  have he0 := (binary64 lib1 lib2).eps_pos
  have hs : hedgeSlack (binary64 lib1 lib2) (2 ^ (-53 : ℤ)) (2 ^ (-1075 : ℤ)) ≤ 1 / 10 ^ 11 := by
    unfold hedgeSlack
    have : (binary64 lib1 lib2).eps ^ 2 ≤ (10001 / 10000000000) ^ 2 := pow_le_pow_left₀ he0.le he 2
    norm_num at this ⊢
    norm_num at hu
    linarith
  have ht : TNormKind.slack (binary64 lib1 lib2) (2 ^ (-53 : ℤ)) (2 ^ (-1075 : ℤ)) c ≤ 1 / 10 ^ 14 + if c = .hamacherProduct then 2 / 10 ^ 6 else 0 := by
    unfold TNormKind.slack
    refine add_le_add ?_ ?_
    · norm_num at hu ⊢
      linarith
    · split_ifs
      · refine he.trans ?_
        norm_num
      · exact le_rfl
  have hp : (1 : ℚ) ≤ 2 ^ n := one_le_pow₀ (by norm_num)
  have hm : (0 : ℚ) ≤ m := Nat.cast_nonneg _
  have hk : (2 ^ n - 1) * hedgeSlack (binary64 lib1 lib2) (2 ^ (-53 : ℤ)) (2 ^ (-1075 : ℤ)) ≤ (2 ^ n - 1) * (1 / 10 ^ 11) :=
    mul_le_mul_of_nonneg_left hs (by linarith)
  rw [add_sub_cancel_right]
  refine add_le_add (mul_le_mul_of_nonneg_left ?_ hm) (hu.trans (by norm_num))
  generalize hedgeSlack (binary64 lib1 lib2) (2 ^ (-53 : ℤ)) (2 ^ (-1075 : ℤ)) = s at *
  generalize TNormKind.slack (binary64 lib1 lib2) (2 ^ (-53 : ℤ)) (2 ^ (-1075 : ℤ)) c = k at *
  rw [mul_add]
  linarith

/-- **C87.**  In `double`: an engine with up to a million Takagi-Sugeno rules. -/
theorem sugeno_double_partial [Heap (Flt (binary64 lib1 lib2))] {e : Engine (Flt (binary64 lib1 lib2))} {b : RuleBlock (Flt (binary64 lib1 lib2))}
    {o : OutputVariable (Flt (binary64 lib1 lib2))} {type : WeightedType}
    (eb : e.blocks = [b]) (eo : e.outputs = [o]) (ben : b.enabled = true) (ba : b.activation = none ∨ b.activation = some .general)
    (hen : o.enabled = true) (hdef : o.defuzzifier = some (.weighted .average type)) (hty : type ≠ .tsukamoto) (hlock : o.lockRange = false)
    {c : TNormKind} {d : SNormKind} {f g : ℚ → ℚ → ℚ} (hc : c.exact? = some f) (hd : d.exact? = some g)
    (bc : b.conjunction = some (.builtin c)) (bd : b.disjunction = some (.builtin d))
    {w : World (Flt (binary64 lib1 lib2))} (hw : w = ⟨e.inputs, [{ o with fuzzy := { o.fuzzy with terms := [] } }]⟩)
    {μ : VarRef → Option Nat → ℚ} {n m : ℕ} {δ M : ℚ} (d0 : 0 ≤ δ) (M1 : 1 ≤ M) (M2 : M ≤ 2 ^ (900 : ℤ))
    (hagg : o.fuzzy.aggregation = none ∨ o.fuzzy.aggregation = some (.builtin .unboundedSum)) (hnames : (o.terms.map Term.name).Nodup)
    (hr : ∀ r ∈ b.rules, Sugeno w μ n m δ M 0 o r)
    {K : ℕ} (hK : b.rules.length = K) (K2 : K ≤ 1048576) {S : ℚ} (hS : S = (b.rules.map (ruleExact w μ f g)).sum)
    (S0 : 0 < S) (hSD : 2 * K * doubleError c n m δ ≤ S) :
    e.process.2 = none ∧ ∃ r, e.process.1.outputValues = [r] ∧
      Near ((b.rules.map fun r => ruleExact w μ f g r * ruleValue o r).sum / S) (K * M / 10 ^ 14 + 4 * K * doubleError c n m δ * M / S) r := by
  have hu := double_unit
  have he := double_eps lib1 lib2
  have hE := ruleError_double lib1 lib2 c n m δ
  have K0 : (0 : ℚ) ≤ K := Nat.cast_nonneg _
  have K3 : (K : ℚ) ≤ 1048576 := by exact_mod_cast K2
  have ν0 : (0 : ℚ) ≤ 2 ^ (-1075 : ℤ) := by positivity
  have u0 : (0 : ℚ) ≤ 2 ^ (-53 : ℤ) := by positivity
  have DD : (K : ℚ) * (ruleError (binary64 lib1 lib2) (2 ^ (-53 : ℤ)) (2 ^ (-1075 : ℤ)) c n m δ + (binary64 lib1 lib2).eps + 2 * K * (2 ^ (-53 : ℤ) + 2 ^ (-1075 : ℤ))) ≤
      K * doubleError c n m δ := by
    refine mul_le_mul_of_nonneg_left ?_ K0
    have := mul_le_mul K3 hu (add_nonneg u0 ν0) (by norm_num)
    norm_num at this he hE ⊢
    linarith
  obtain ⟨h1, r, h2, h3⟩ := sugeno_process_partial (accurate lib1 lib2) eb eo ben ba hen hdef hty hlock hc hd bc bd hw d0 M1 hagg hnames hr hK
    (by
      have := mul_le_mul K3 (show (2 : ℚ) ^ (-53 : ℤ) ≤ 12 / 10 ^ 17 by linarith) u0 (by norm_num)
      norm_num at this ⊢
      linarith)
    (by
      have h3 : (K : ℚ) ^ 2 ≤ 1048576 ^ 2 := pow_le_pow_left₀ K0 K3 2
      have h4 : (1 : ℚ) ≤ 2 ^ (900 : ℤ) := one_le_zpow₀ (by norm_num) (by norm_num)
      rw [pow_split]
      generalize (2 : ℚ) ^ (900 : ℤ) = z at M2 h4 ⊢
      have h5 := mul_le_mul h3 (show M + 1 ≤ 2 * z by linarith) (by linarith) (by positivity)
      norm_num at h5
      linarith)
    rfl hS S0 (by linarith)
  refine ⟨h1, r, h2, h3.mono (add_le_add ?_ ?_)⟩
  · have h4 : (2 : ℚ) ^ (-53 : ℤ) * M + 2 ^ (-1075 : ℤ) ≤ 12 / 10 ^ 17 * M := by
      have h5 := mul_le_mul_of_nonneg_right hu (show 0 ≤ M by linarith)
      have h6 := mul_le_mul_of_nonneg_left M1 ν0
      linarith
    have h5 := mul_le_mul_of_nonneg_left h4 (show (0 : ℚ) ≤ 18 * K by linarith)
    have h6 : 0 ≤ (K : ℚ) * M := mul_nonneg K0 (by linarith)
    refine h5.trans ?_
    have e : 18 * (K : ℚ) * (12 / 10 ^ 17 * M) = 216 / 10 ^ 17 * (K * M) := by ring
    rw [e, div_eq_mul_inv ((K : ℚ) * M), _root_.mul_comm ((K : ℚ) * M)]
    exact mul_le_mul_of_nonneg_right (by norm_num) h6
  · refine div_le_div_of_nonneg_right ?_ S0.le
    refine mul_le_mul_of_nonneg_right ?_ (by linarith)
    linarith

end double

namespace Demo

/-- x is 1; low decreases and high increases from 0 to 3 -/
def input : Variable (Flt dbl) :=
  { Variable.new (cs! "x") (lit 0) (lit 3) [term (cs! "low") (.ramp (lit 3) (lit 0)), term (cs! "high") (.ramp (lit 0) (lit 3))] with value := lit 1 }

/-- y has the constants one and four -/
def output : OutputVariable (Flt dbl) :=
  { OutputVariable.new (cs! "y") (lit 0) (lit 9) [⟨cs! "one", lit 1, .constant (lit 1)⟩, ⟨cs! "four", lit 1, .constant (lit 4)⟩] with
    defuzzifier := some (.weighted .average .automatic) }

/-- if x is … then y is … -/
def conclude (hs : List (Hedge (Flt dbl))) (x y : Nat) : Rule (Flt dbl) :=
  { Rule.new [] with antecedent := some (.prop ⟨.input 0, hs, some x⟩), conclusions := [⟨.output 0, [], some y⟩] }

/-- if x is low then y is one; if x is high then y is four; if x is not low then y is four -/
def block : RuleBlock (Flt dbl) :=
  { RuleBlock.new [] with
    conjunction := some (.builtin .minimum)
    disjunction := some (.builtin .maximum)
    rules := [conclude [] 0 0, conclude [] 1 1, conclude [.builtin .not] 0 1] }

def engine : Engine (Flt dbl) := ⟨[], [], [input], [output], [block]⟩

/-- the exact degrees -/
def lowHigh (_ : VarRef) (t : Option Nat) : ℚ := if t = some 0 then 2 / 3 else 1 / 3

def start : World (Flt dbl) := ⟨[input], [{ output with fuzzy := { output.fuzzy with terms := [] } }]⟩

local instance : Heap (Flt dbl) := RuleBlock.stableHeap _

/-- in exact arithmetic the output is 5/2 -/
example : (block.rules.map (ruleExact start lowHigh min max)).sum = 4 / 3 ∧
    (block.rules.map fun r => ruleExact start lowHigh min max r * ruleValue output r).sum / (4 / 3) = 5 / 2 := by decide +kernel

/-- what is computed -/
example : (engine.process.1.outputValues.map fun y => decide (|toRat y - 5 / 2| ≤ 1 / 10 ^ 15)) = [true] := by decide +kernel

theorem fair_check (x : Nat) (hx : x < 2) (hs : List (Hedge (Flt dbl))) (h : hs = [] ∨ hs = [.builtin .not]) :
    Fair start lowHigh 1 (1 / 10 ^ 15) ⟨.input 0, hs, some x⟩ := by
  refine ⟨by rcases h with rfl | rfl <;> simp, fun k hk => ?_, ⟨true, rfl⟩, ?_, ?_, Or.inr ?_⟩
  · rcases h with rfl | rfl
    · simp at hk
    · rw [List.mem_singleton.1 hk]
      exact ⟨.not, _, rfl, rfl⟩
  · show 0 ≤ lowHigh (.input 0) (some x)
    unfold lowHigh
    split_ifs <;> norm_num
  · show lowHigh (.input 0) (some x) ≤ 1
    unfold lowHigh
    split_ifs <;> norm_num
  · have : x = 0 ∨ x = 1 := by omega
    rcases this with rfl | rfl <;> rcases h with rfl | rfl <;>
      exact ⟨_, _, rfl, rfl, by decide +kernel, near_check (by decide +kernel) (by decide +kernel)⟩

theorem conclude_check (x y : Nat) (hx : x < 2) (hy : y < 2) (hs : List (Hedge (Flt dbl))) (h : hs = [] ∨ hs = [.builtin .not]) :
    Sugeno start lowHigh 1 1 (1 / 10 ^ 15) 4 0 output (conclude hs x y) := by
  refine ⟨⟨rfl, ⟨_, rfl, fun p hp => ?_, le_rfl, fun p hp => ?_⟩, by show Degree (lit 1 : Flt dbl); decide +kernel, ?_⟩, ?_⟩
  · simp only [Expr.props, List.mem_singleton] at hp
    rw [hp]
    exact ⟨0, rfl⟩
  · simp only [Expr.props, List.mem_singleton] at hp
    rw [hp]
    exact fair_check x hx hs h
  · have : y = 0 ∨ y = 1 := by omega
    rcases this with rfl | rfl <;> exact ⟨_, _, rfl, rfl⟩
  · have : y = 0 ∨ y = 1 := by omega
    rcases this with rfl | rfl
    · intro c hc
      cases hc
      exact ⟨lit 1, rfl, 1, rep_one, lit_rep rep_one, by norm_num⟩
    · intro c hc
      cases hc
      obtain ⟨q, hq, e, h4⟩ := near_check (c := 0) (E := 4) (x := (lit 4 : Flt dbl)) (by decide +kernel) (by decide +kernel)
      exact ⟨lit 4, rfl, q, hq, e, by rwa [sub_zero] at h4⟩

/-- the theorem applies to the engine: the output is 5/2 up to a few parts in a hundred thousand -/
example : ∃ r, engine.process.1.outputValues = [r] ∧ Near (5 / 2) (1 / 10 ^ 4) r := by
  have h := (sugeno_double_partial _ _ (e := engine) (b := block) (o := output) (type := .automatic) rfl rfl rfl (Or.inl rfl) rfl rfl (by simp) rfl
    (c := .minimum) (d := .maximum) rfl rfl rfl rfl (w := start) rfl (μ := lowHigh) (n := 1) (m := 1) (δ := 1 / 10 ^ 15) (M := 4) (by norm_num) (by norm_num)
    (le_trans (b := 2 ^ (2 : ℤ)) (by norm_num) (zpow_le_zpow_right₀ (by norm_num) (by norm_num)))
    (Or.inl rfl) (by decide) (fun r hr => by
      simp only [block, List.mem_cons, List.not_mem_nil, or_false] at hr
      rcases hr with rfl | rfl | rfl
      · exact conclude_check 0 0 (by omega) (by omega) _ (Or.inl rfl)
      · exact conclude_check 1 1 (by omega) (by omega) _ (Or.inl rfl)
      · exact conclude_check 0 1 (by omega) (by omega) _ (Or.inr rfl))
    (K := 3) rfl (by omega) (S := 4 / 3) (by decide +kernel) (by norm_num) (by decide +kernel)).2
  obtain ⟨r, h1, h2⟩ := h
  have e : (block.rules.map fun r => ruleExact start lowHigh min max r * ruleValue output r).sum / (4 / 3) = 5 / 2 := by decide +kernel
  rw [e] at h2
  exact ⟨r, h1, h2.mono (by decide +kernel)⟩

/-- an engine with the single rule: if x is high then y is four, for x = 3 / 2^21 -/
def faint : Engine (Flt dbl) :=
  { engine with
    inputs := [{ input with value := lit (3 / 2 ^ 21) }]
    blocks := [{ block with rules := [conclude [] 1 1] }] }

end Demo

/-- The sum of the degrees has to be above the tolerance: the average of the constants that rules conclude is 4 when
there is one rule with a positive degree, but nothing is computed when this degree is below the tolerance. -/
theorem sugeno_violated :
    (Demo.faint.blocks.map fun b => b.rules.map (ruleExact ⟨Demo.faint.inputs, Demo.faint.outputs⟩ (fun _ _ => rampExact 0 3 (3 / 2 ^ 21)) min max)) = [[1 / 2 ^ 21]] ∧
    (Demo.faint.blocks.map fun b => b.rules.map (ruleValue Demo.output)) = [[4]] ∧
    letI : Heap (Flt dbl) := RuleBlock.stableHeap _
    Demo.faint.process.2 = none ∧ Demo.faint.process.1.outputValues = [nan] := by
  decide +kernel

end Rounded
end FL
