/-
C97: with Maximum, a rule "if A or B then C" is the same as the two rules "if A then C" and "if B then C".
-/
import Verif.Props.RuleSet

namespace FL
open Scalar

section template
variable {S : Type} [Scalar S]

/-- conclusions without hedges add the same terms whatever the degree of the rule is, with this degree -/
theorem modifyLoop_template (imp : Option (TNorm S)) (w : World S) (ps : List (Proposition S)) (hh : ∀ p ∈ ps, p.hedges = []) :
    ∃ (T : List (VarRef × Nat × Term S)) (e : Option Err), ∀ d xs, modifyLoop imp (w.append xs) d ps =
      (w.append (xs ++ T.map fun q => (q.1, ⟨q.2.1, q.2.2, d, imp⟩)), e) := by
  induction ps with
  | nil => exact ⟨[], none, fun d xs => by simp [modifyLoop]⟩
  | cons p ps ih =>
    obtain ⟨T, e, h⟩ := ih fun q hq => hh q (List.mem_cons_of_mem _ hq)
    have hp := hh p List.mem_cons_self
    obtain ⟨v, hs, t⟩ := p
    simp only at hp
    subst hp
    match v, t with
    | .input i, t => exact ⟨[], some .ub, fun d xs => by simp [modifyLoop]⟩
    | .output i, none => exact ⟨[], some .ub, fun d xs => by simp [modifyLoop]⟩
    | .output i, some j =>
      cases ho : w.outputs[i]? with
      | none => exact ⟨[], some .ub, fun d xs => by simp [modifyLoop, World.append_outputs, ho]⟩
      | some o =>
        cases hen : o.enabled with
        | false => exact ⟨T, e, fun d xs => by simp [modifyLoop, World.append_outputs, ho, hen, h]⟩
        | true =>
          have h0 : ∀ d : S, applyHedges ([] : List (Hedge S)) d = .ok d := fun _ => rfl
          cases ht : o.terms[j]? with
          | none => exact ⟨[], some .ub, fun d xs => by simp [modifyLoop, World.append_outputs, ho, hen, h0, ht]⟩
          | some t =>
            refine ⟨(.output i, j, t) :: T, e, fun d xs => ?_⟩
            have h1 := h d (xs ++ [(.output i, ⟨j, t, d, imp⟩)])
            rw [← World.append_append] at h1
            have ho' := World.append_outputs w xs i
            rw [ho] at ho'
            have h2 := World.append_one (w.append xs) i _ ⟨j, t, d, imp⟩ ho'
            simp only [modifyLoop, ho', hen, h0, ht, Option.map_some, Bool.not_true, Bool.false_eq_true, if_false]
            rw [h2, h1]
            simp

/-- the second list has the terms of the first and others, implied by Minimum, that are the same with degrees not greater -/
def Covers (A B : List (VarRef × Activated S)) : Prop :=
  (∀ a ∈ A, a ∈ B) ∧ ∀ b ∈ B, b ∈ A ∨ ∃ a ∈ A, a.1 = b.1 ∧ b.2 = { a.2 with degree := b.2.degree } ∧
    a.2.implication = some (.builtin .minimum) ∧ Op.max a.2.degree b.2.degree = a.2.degree

theorem Covers.refl (A : List (VarRef × Activated S)) : Covers A A := ⟨fun _ h => h, fun _ hb => .inl hb⟩

theorem Covers.append {A B A' B' : List (VarRef × Activated S)} (h : Covers A B) (h' : Covers A' B') : Covers (A ++ A') (B ++ B') := by
  refine ⟨fun a ha => ?_, fun b hb => ?_⟩
  · rcases List.mem_append.1 ha with ha | ha
    · exact List.mem_append_left _ (h.1 a ha)
    · exact List.mem_append_right _ (h'.1 a ha)
  · rcases List.mem_append.1 hb with hb | hb
    · rcases h.2 b hb with hb | ⟨a, ha, h1⟩
      · exact .inl (List.mem_append_left _ hb)
      · exact .inr ⟨a, List.mem_append_left _ ha, h1⟩
    · rcases h'.2 b hb with hb | ⟨a, ha, h1⟩
      · exact .inl (List.mem_append_right _ hb)
      · exact .inr ⟨a, List.mem_append_right _ ha, h1⟩

/-- The weight times the greater of two degrees is the greater of the products, and is positive if one of them is.  This is so for all
weights that are not negative, and finite degrees, unless numbers are so great that they overflow. -/
def Joins (w x y : S) : Prop :=
  w * Op.max x y = Op.max (w * x) (w * y) ∧
    Op.isGt (Op.max (w * x) (w * y)) (lit 0) = (Op.isGt (w * x) (lit 0) || Op.isGt (w * y) (lit 0))

/-- The rule is left alone, or it is "if A or B then C" and becomes "if A then C" and "if B then C", with the same weight. -/
def Rule.Either (w : World S) (b : RuleBlock S) (r : Rule S) (g : List (Rule S)) : Prop :=
  g = [r] ∨ b.disjunction = some (.builtin .maximum) ∧ b.implication = some (.builtin .minimum) ∧ (∀ p ∈ r.conclusions, p.hedges = []) ∧
    ∃ (a1 a2 : Expr S) (r1 r2 : Rule S), r.antecedent = some (.disj a1 a2) ∧
      (∀ d1 d2, a1.degree w b.conjunction b.disjunction = .ok d1 → a2.degree w b.conjunction b.disjunction = .ok d2 → Joins r.weight d1 d2) ∧
      r1.antecedent = some a1 ∧ r1.conclusions = r.conclusions ∧ r1.weight = r.weight ∧ r1.enabled = r.enabled ∧
      r2.antecedent = some a2 ∧ r2.conclusions = r.conclusions ∧ r2.weight = r.weight ∧ r2.enabled = r.enabled ∧ g = [r1, r2]

end template

section maximum
variable {S : Type} [ScalarOrd S]
open ScalarOrd

theorem opMax_choice (x y : S) : Op.max x y = nan ∨ Op.max x y = x ∨ Op.max x y = y := by
  unfold Op.max Op.stdMax
  split
  · exact .inl rfl
  · split
    · exact .inr (.inr rfl)
    · exact .inr (.inl rfl)

theorem isGt_nan (y : S) : Op.isGt (nan : S) y = false := by
  unfold Op.isGt Op.isGtT gt
  simp [(lt_nan y).1]

namespace RuleBlock

/-- "if A or B then C", and "if A then C" and "if B then C" -/
theorem either_effect (b : RuleBlock S) (w : World S) {r : Rule S} {g : List (Rule S)} (h : r.Either w b g) (hin : r.OnInputs) (k k' : Nat)
    {A B : List (VarRef × Activated S)} (hAB : Covers A B)
    (he : (effect (b.selectStep (fun _ _ => true) (w.append A, k) r)).2 = none) :
    ∃ A' B', Covers A' B' ∧ effect (b.selectStep (fun _ _ => true) (w.append A, k) r) = (w.append A', none) ∧
      effect (eachRule (b.selectStep fun _ _ => true) (w.append B, k') g) = (w.append B', none) := by
  rcases h with rfl | ⟨hdis, himp, hh, a1, a2, r1, r2, ha, hj, h11, h12, h13, h14, h21, h22, h23, h24, rfl⟩
  · obtain ⟨F, hF⟩ := select_does b (fun _ => true) w
    obtain ⟨k1, h1⟩ := hF r hin k A
    obtain ⟨k2, h2⟩ := hF r hin k' B
    rw [h1] at he
    simp only [effect] at he
    refine ⟨A ++ (F r).1, B ++ (F r).1, hAB.append (.refl _), ?_, ?_⟩
    · rw [h1]
      simp only [effect, he]
    · unfold eachRule
      rw [h2]
      generalize (F r).2 = q at he ⊢
      obtain ⟨q1, q2⟩ := q
      simp only at he
      subst he
      simp [effect, eachRule]
  · by_cases hc : r.conclusions = []
    · have hun : ∀ q : Rule S, q.conclusions = [] → ∀ s : World S × Nat,
          b.selectStep (fun _ _ => true) s q = (s, q.deactivate, none) := by
        intro q hq s
        simp [selectStep, Rule.isLoaded, Rule.deactivate, hq]
      refine ⟨A, B, hAB, ?_, ?_⟩
      · rw [hun r hc]; rfl
      · simp [eachRule, hun r1 (h12.trans hc), hun r2 (h22.trans hc), effect]
    · obtain ⟨T, e, hT⟩ := modifyLoop_template b.implication w r.conclusions hh
      have hino : ∀ p ∈ (Expr.disj a1 a2).props, ∃ i, p.var = .input i := hin _ ha
      have hd := Expr.degree_append w A b.conjunction b.disjunction (.disj a1 a2) (hin _ ha)
      have hi1 : a1.OnInputs := fun p hp => hino p (by simp [Expr.props, hp])
      have hi2 : a2.OnInputs := fun p hp => hino p (by simp [Expr.props, hp])
      rw [selectStep_effect b (fun _ => true) (w.append A) k r _ ha hc, hd] at he ⊢
      cases hd1 : a1.degree w b.conjunction b.disjunction with
      | error e =>
        simp only [Expr.degree, hdis] at he
        rw [hdis] at hd1
        simp [hd1, bind, Except.bind] at he
      | ok d1 =>
        cases hd2 : a2.degree w b.conjunction b.disjunction with
        | error e =>
          simp only [Expr.degree, hdis] at he
          rw [hdis] at hd1 hd2
          simp [hd1, hd2, bind, Except.bind] at he
        | ok d2 =>
          obtain ⟨hj1, hj2⟩ := hj d1 d2 hd1 hd2
          have hdeg : (Expr.disj a1 a2).degree w b.conjunction b.disjunction = .ok (Op.max d1 d2) := by
            rw [hdis] at hd1 hd2 ⊢
            simp [Expr.degree, hd1, hd2, bind, Except.bind, SNorm.compute, SNormKind.compute]
          rw [hdeg] at he ⊢
          simp only [Bool.true_and, hj1] at he ⊢
          have s1 := fun xs k => selectStep_effect b (fun _ => true) (w.append xs) k r1 a1 h11 (by rw [h12]; exact hc)
          have s2 := fun xs k => selectStep_effect b (fun _ => true) (w.append xs) k r2 a2 h21 (by rw [h22]; exact hc)
          simp only [Expr.degree_append w _ b.conjunction b.disjunction a1 hi1, hd1, Bool.true_and, h12, h13, h14, hT] at s1
          simp only [Expr.degree_append w _ b.conjunction b.disjunction a2 hi2, hd2, Bool.true_and, h22, h23, h24, hT] at s2
          simp only [hT] at he ⊢
          generalize r.weight * d1 = x1 at *
          generalize r.weight * d2 = x2 at *
          have two : ∀ B1 B2, (∀ k, effect (b.selectStep (fun _ _ => true) (w.append B, k) r1) = (w.append B1, none)) →
              (∀ k, effect (b.selectStep (fun _ _ => true) (w.append B1, k) r2) = (w.append B2, none)) →
              effect (eachRule (b.selectStep fun _ _ => true) (w.append B, k') [r1, r2]) = (w.append B2, none) := by
            intro B1 B2 e1 e2
            have e1 := e1 k'
            unfold eachRule
            generalize b.selectStep (fun _ _ => true) (w.append B, k') r1 = q at e1 ⊢
            obtain ⟨⟨w1, k1⟩, q1, q2⟩ := q
            simp only [effect, Prod.mk.injEq] at e1
            obtain ⟨rfl, rfl⟩ := e1
            have e2 := e2 k1
            simp only [eachRule]
            generalize b.selectStep (fun _ _ => true) (w.append B1, k1) r2 = q at e2 ⊢
            obtain ⟨⟨w1, k1⟩, q1, q2⟩ := q
            simp only [effect, Prod.mk.injEq] at e2
            obtain ⟨rfl, rfl⟩ := e2
            rfl
          let M := fun d : S => T.map fun q => ((q.1, ⟨q.2.1, q.2.2, d, b.implication⟩) : VarRef × Activated S)
          have cov : ∀ d d' : S, Op.max d d' = d → Covers (M d) (M d ++ M d') ∧ Covers (M d) (M d' ++ M d) := by
            intro d d' hdd
            have hb : ∀ q ∈ M d ++ M d', q ∈ M d ∨ ∃ a ∈ M d, a.1 = q.1 ∧ q.2 = { a.2 with degree := q.2.degree } ∧
                a.2.implication = some (.builtin .minimum) ∧ Op.max a.2.degree q.2.degree = a.2.degree := by
              intro q hq
              rcases List.mem_append.1 hq with hq | hq
              · exact .inl hq
              · obtain ⟨t, ht, rfl⟩ := List.mem_map.1 hq
                exact .inr ⟨_, List.mem_map.2 ⟨t, ht, rfl⟩, rfl, rfl, himp, hdd⟩
            exact ⟨⟨fun a ha => List.mem_append_left _ ha, hb⟩, ⟨fun a ha => List.mem_append_right _ ha,
              fun q hq => hb q (List.mem_append.2 (List.mem_append.1 hq).symm)⟩⟩
          cases hen : r.enabled with
          | false =>
            simp only [hen, Bool.false_and, Bool.false_eq_true, if_false] at s1 s2 ⊢
            exact ⟨A, B, hAB, rfl, two B B (s1 B) (s2 B)⟩
          | true =>
            simp only [hen, Bool.true_and] at s1 s2 he ⊢
            cases hg : Op.isGt (Op.max x1 x2) (lit 0) with
            | false =>
              rw [hg] at hj2
              obtain ⟨g1, g2⟩ := Bool.or_eq_false_iff.1 hj2.symm
              simp only [g1, g2, Bool.false_eq_true, if_false] at s1 s2 ⊢
              exact ⟨A, B, hAB, rfl, two B B (s1 B) (s2 B)⟩
            | true =>
              simp only [hg, if_true] at he ⊢
              subst he
              rw [hg] at hj2
              refine ⟨A ++ M (Op.max x1 x2), ?_⟩
              have hch := opMax_choice x1 x2
              cases g1 : Op.isGt x1 (lit 0) with
              | true =>
                simp only [g1, if_true] at s1
                cases g2 : Op.isGt x2 (lit 0) with
                | true =>
                  simp only [g2, if_true] at s2
                  refine ⟨B ++ M x1 ++ M x2, ?_, rfl, two _ _ (s1 B) (s2 _)⟩
                  rw [List.append_assoc]
                  refine hAB.append ?_
                  rcases hch with hx | hx | hx
                  · rw [hx, isGt_nan] at hg; exact Bool.noConfusion hg
                  · rw [hx]; exact (cov x1 x2 hx).1
                  · rw [hx]; exact (cov x2 x1 (by rw [opMax_comm]; exact hx)).2
                | false =>
                  simp only [g2, Bool.false_eq_true, if_false] at s2
                  refine ⟨B ++ M x1, hAB.append ?_, rfl, two _ _ (s1 B) (s2 _)⟩
                  rcases hch with hx | hx | hx
                  · rw [hx, isGt_nan] at hg; exact Bool.noConfusion hg
                  · rw [hx]; exact .refl _
                  · rw [hx, g2] at hg; exact Bool.noConfusion hg
              | false =>
                simp only [g1, Bool.false_eq_true, if_false] at s1
                cases g2 : Op.isGt x2 (lit 0) with
                | true =>
                  simp only [g2, if_true] at s2
                  refine ⟨B ++ M x2, hAB.append ?_, rfl, two _ _ (s1 B) (s2 _)⟩
                  rcases hch with hx | hx | hx
                  · rw [hx, isGt_nan] at hg; exact Bool.noConfusion hg
                  · rw [hx, g1] at hg; exact Bool.noConfusion hg
                  · rw [hx]; exact .refl _
                | false => rw [g1, g2] at hj2; exact Bool.noConfusion hj2

theorem groups_either (b : RuleBlock S) (w : World S) {rs : List (Rule S)} {gs : List (List (Rule S))}
    (h : List.Forall₂ (Rule.Either w b) rs gs) (hin : ∀ r ∈ rs, r.OnInputs) (k k' : Nat) {A B : List (VarRef × Activated S)} (hAB : Covers A B)
    (he : (eachRule (b.selectStep fun _ _ => true) (w.append A, k) rs).2.2 = none) :
    ∃ A' B', Covers A' B' ∧ effect (eachRule (b.selectStep fun _ _ => true) (w.append A, k) rs) = (w.append A', none) ∧
      effect (eachRule (b.selectStep fun _ _ => true) (w.append B, k') gs.flatten) = (w.append B', none) := by
  induction h generalizing k k' A B with
  | nil => exact ⟨A, B, hAB, rfl, rfl⟩
  | @cons r g rs gs hr _ ih =>
    have ih := ih fun q hq => hin q (List.mem_cons_of_mem _ hq)
    have key := either_effect b w hr (hin r List.mem_cons_self) k k' hAB
    rw [List.flatten_cons, eachRule_append_effect]
    unfold eachRule at he
    rw [eachRule]
    generalize b.selectStep (fun _ _ => true) (w.append A, k) r = q at key he ⊢
    obtain ⟨⟨w1, k1⟩, r1, e1⟩ := q
    cases e1 with
    | some e => simp at he
    | none =>
      simp only at he
      obtain ⟨A1, B1, hAB1, h1, h2⟩ := key rfl
      simp only [effect, Prod.mk.injEq, and_true] at h1
      subst h1
      generalize eachRule (b.selectStep fun _ _ => true) (w.append B, k') g = q at h2 ⊢
      obtain ⟨⟨w2, k2⟩, r2, e2⟩ := q
      simp only [effect, Prod.mk.injEq] at h2
      obtain ⟨rfl, rfl⟩ := h2
      obtain ⟨A2, B2, hAB2, h3, h4⟩ := ih k1 k2 hAB1 he
      exact ⟨A2, B2, hAB2, h3, h4⟩

/-- the second block is the first with disjunctions written as two rules -/
structure Either (w : World S) (b c : RuleBlock S) : Prop where
  same : c = { b with rules := c.rules }
  rules : c.rules = b.rules ∨ b.activation.getD .general = .general ∧ ∃ gs, List.Forall₂ (Rule.Either w b) b.rules gs ∧ c.rules = gs.flatten

theorem activate_either [Heap S] {b c : RuleBlock S} {w : World S} (h : b.Either w c) (hin : ∀ r ∈ b.rules, r.OnInputs)
    {A B : List (VarRef × Activated S)} (hAB : Covers A B) (he : (b.activate (w.append A)).2.2 = none) :
    ∃ A' B' b' c', Covers A' B' ∧ b.activate (w.append A) = (w.append A', b', none) ∧ c.activate (w.append B) = (w.append B', c', none) := by
  obtain ⟨hsame, hr⟩ := h
  rcases hr with hr | ⟨ha, gs, hg, hr⟩
  · have hc : c = b := by rw [hsame, hr]
    obtain ⟨L, b', e, h1⟩ := activate_steady b w hin
    rw [h1] at he
    simp only at he
    subst he
    exact ⟨A ++ L, B ++ L, b', b', hAB.append (.refl _), h1 A, by rw [hc]; exact h1 B⟩
  · have hact : c.activation = b.activation := by rw [hsame]
    have hcs : ∀ choose : Nat → S → Bool, c.selectStep choose = b.selectStep choose := by
      intro choose; rw [hsame]; rfl
    unfold activate at he ⊢
    rw [ha] at he
    rw [hact, ha]
    simp only [activateBy, activateGeneral, hcs, hr] at he ⊢
    obtain ⟨A', B', h1, h2, h3⟩ := groups_either b w hg hin 0 0 hAB he
    generalize eachRule (b.selectStep fun _ _ => true) (w.append A, 0) b.rules = q at h2 ⊢
    obtain ⟨⟨w1, k1⟩, q1, e1⟩ := q
    generalize eachRule (b.selectStep fun _ _ => true) (w.append B, 0) gs.flatten = q at h3 ⊢
    obtain ⟨⟨w2, k2⟩, q2, e2⟩ := q
    simp only [effect, Prod.mk.injEq] at h2 h3
    obtain ⟨rfl, rfl⟩ := h2
    obtain ⟨rfl, rfl⟩ := h3
    exact ⟨A', B', _, _, h1, rfl, rfl⟩

end RuleBlock

namespace Engine

theorem blocks_either [Heap S] (w : World S) {bs cs : List (RuleBlock S)} (h : List.Forall₂ (RuleBlock.Either w) bs cs)
    (hin : ∀ b ∈ bs, ∀ r ∈ b.rules, r.OnInputs) {A B : List (VarRef × Activated S)} (hAB : Covers A B)
    (he : (activateBlocks (w.append A) bs).2.2 = none) :
    ∃ A' B' bs' cs', Covers A' B' ∧ activateBlocks (w.append A) bs = (w.append A', bs', none) ∧
      activateBlocks (w.append B) cs = (w.append B', cs', none) := by
  induction h generalizing A B with
  | nil => exact ⟨A, B, [], [], hAB, rfl, rfl⟩
  | @cons b c bs cs hbc _ ih =>
    have ih := fun {A B} => ih (A := A) (B := B) fun b hb => hin b (List.mem_cons_of_mem _ hb)
    have hcen : c.enabled = b.enabled := by rw [hbc.same]
    cases hb : b.enabled with
    | false =>
      rw [hb] at hcen
      simp only [activateBlocks, hb, hcen, Bool.not_false, if_true] at he ⊢
      obtain ⟨A', B', bs', cs', h1, h2, h3⟩ := ih hAB he
      exact ⟨A', B', b :: bs', c :: cs', h1, by rw [h2], by rw [h3]⟩
    | true =>
      rw [hb] at hcen
      have key := RuleBlock.activate_either hbc (hin b List.mem_cons_self) hAB
      simp only [activateBlocks, hb, hcen, Bool.not_true, Bool.false_eq_true, if_false] at he ⊢
      cases hq : b.activate (w.append A) with
      | mk w1 q =>
        obtain ⟨b1, e1⟩ := q
        rw [hq] at he key
        cases e1 with
        | some e => simp at he
        | none =>
          obtain ⟨A1, B1, b', c', h1, h2, h3⟩ := key rfl
          simp only [Prod.mk.injEq, and_true] at h2
          obtain ⟨rfl, rfl⟩ := h2
          simp only at he
          obtain ⟨A', B', bs', cs', h4, h5, h6⟩ := ih h1 he
          exact ⟨A', B', b1 :: bs', c' :: cs', h4, by simp only [h5], by simp only [h3, h6]⟩

end Engine

/-- with Minimum, the degree of a term is absorbed by that of the same term with a greater degree of activation -/
theorem opMax_min (m x y : S) (h : Op.max x y = x) : Op.max (Op.min m x) (Op.min m y) = Op.min m x := by
  have hn : Op.isNaN (nan : S) = true := (isNaN_iff _).2 rfl
  cases hm : Op.isNaN m with
  | true => simp [Op.max, Op.min, hm, hn]
  | false =>
    cases hx : Op.isNaN x with
    | true => simp [Op.max, Op.min, hx, hn]
    | false =>
      cases hy : Op.isNaN y with
      | true =>
        have : Op.max x y = nan := by simp [Op.max, hy]
        rw [this] at h
        rw [← h, hn] at hx
        exact Bool.noConfusion hx
      | false =>
        have nm := (isNaN_false_iff m).1 hm
        have nx := (isNaN_false_iff x).1 hx
        have ny := (isNaN_false_iff y).1 hy
        have hxy : lt x y = false := by
          by_contra hc
          have hc : lt x y = true := by simpa using hc
          have : Op.max x y = y := by simp [Op.max, Op.stdMax, hx, hy, hc]
          rw [this] at h
          rw [h, ScalarOrd.lt_irrefl] at hc
          exact Bool.noConfusion hc
        cases hxm : lt x m with
        | true =>
          have hym : lt y m = true := by
            rcases lt_total x y nx ny with h1 | h1 | h1
            · rw [hxy] at h1; exact Bool.noConfusion h1
            · rw [← h1]; exact hxm
            · exact lt_trans y x m h1 hxm
          simp [Op.max, Op.min, Op.stdMax, Op.stdMin, hm, hx, hy, hxm, hym, hxy]
        | false =>
          cases hym : lt y m with
          | true =>
            have : lt m y = false := by
              by_contra hc
              have := lt_trans m y m (by simpa using hc) hym
              rw [ScalarOrd.lt_irrefl] at this
              exact Bool.noConfusion this
            simp [Op.max, Op.min, Op.stdMax, Op.stdMin, hm, hx, hy, hxm, hym, this]
          | false => simp [Op.max, Op.min, Op.stdMax, Op.stdMin, hm, hx, hy, hxm, hym]

/-- **C97 (partial: Maximum for disjunction and aggregation, Minimum for implication, General, defuzzifiers that integrate, antecedents about
input variables, conclusions without hedges).**  If an engine is processed without exception, so is one in which disjunctions are written as
two rules, and the values of the output variables are the same, in every number format. -/
theorem Engine.process_either_partial [Heap S] (e : Engine S) (cs : List (RuleBlock S))
    (h : List.Forall₂ (RuleBlock.Either ⟨e.inputs, e.outputs.map fun o => { o with fuzzy := o.fuzzy.clear }⟩) e.blocks cs)
    (hin : ∀ b ∈ e.blocks, ∀ r ∈ b.rules, r.OnInputs) (hok : e.process.2 = none)
    (hmax : ∀ o ∈ e.process.1.outputs, o.Maximal (e.inputs.map fun v => (v.name, v.value))) :
    ({ e with blocks := cs }).process.2 = none ∧ ({ e with blocks := cs }).process.1.outputValues = e.process.1.outputValues := by
  generalize hw : (⟨e.inputs, e.outputs.map fun o => { o with fuzzy := o.fuzzy.clear }⟩ : World S) = w at h
  have hins : w.inputs = e.inputs := by rw [← hw]
  have hn : (activateBlocks w e.blocks).2.2 = none := by
    unfold process at hok
    simp only [hw] at hok
    generalize activateBlocks w e.blocks = q at hok ⊢
    obtain ⟨w1, b1, e1⟩ := q
    cases e1 with
    | none => rfl
    | some e => simp at hok
  obtain ⟨A, B, bs', cs', hAB, h1, h2⟩ := blocks_either w h hin (Covers.refl []) (by rw [World.append_nil]; exact hn)
  rw [World.append_nil] at h1 h2
  have hmax' := process_maximal hw h1 hok hmax
  have key := process_alike e cs (w1 := w.append A) (w2 := w.append B) (bs' := bs') (cs' := cs') (by rw [hw]; exact h1) (by rw [hw]; exact h2) rfl (by
    rw [List.forall₂_iff_get]
    refine ⟨by simp [World.append], fun i i1 i2 => ?_⟩
    have hal : ((w.append A).outputs.get ⟨i, i1⟩).Alike ((w.append B).outputs.get ⟨i, i2⟩) := by
      simp only [World.append, List.get_eq_getElem, List.getElem_mapIdx]
      rfl
    have hsub : ∀ a ∈ ((w.append A).outputs.get ⟨i, i1⟩).fuzzy.terms, a ∈ ((w.append B).outputs.get ⟨i, i2⟩).fuzzy.terms := by
      intro a
      simp only [World.append, List.get_eq_getElem, List.getElem_mapIdx, List.mem_append, List.mem_map, List.mem_filter]
      rintro (h | ⟨q, ⟨hq, h3⟩, rfl⟩)
      · exact .inl h
      · exact .inr ⟨q, ⟨hAB.1 q hq, h3⟩, rfl⟩
    have hcov : ∀ b ∈ ((w.append B).outputs.get ⟨i, i2⟩).fuzzy.terms, b ∈ ((w.append A).outputs.get ⟨i, i1⟩).fuzzy.terms ∨
        ∃ a ∈ ((w.append A).outputs.get ⟨i, i1⟩).fuzzy.terms, b = { a with degree := b.degree } ∧
          a.implication = some (.builtin .minimum) ∧ Op.max a.degree b.degree = a.degree := by
      intro b
      simp only [World.append, List.get_eq_getElem, List.getElem_mapIdx, List.mem_append, List.mem_map, List.mem_filter]
      rintro (h | ⟨q, ⟨hq, h3⟩, rfl⟩)
      · exact .inl (.inl h)
      · rcases hAB.2 q hq with h4 | ⟨a, ha, h4, h5⟩
        · exact .inl (.inr ⟨q, ⟨h4, h3⟩, rfl⟩)
        · exact .inr ⟨a.2, .inr ⟨a, ⟨ha, by rw [h4]; exact h3⟩, rfl⟩, h5⟩
    have hmx := hmax' _ (List.get_mem (w.append A).outputs ⟨i, i1⟩)
    have hi : (w.append A).inputs = e.inputs := hins
    rw [hi]
    generalize (w.append A).outputs.get ⟨i, i1⟩ = o at hal hsub hcov hmx ⊢
    generalize (w.append B).outputs.get ⟨i, i2⟩ = p at hal hsub hcov ⊢
    refine ⟨hal, fun hen => ?_⟩
    obtain ⟨⟨k, n, hd⟩, hagg, hm⟩ := hmx hen
    refine OutputVariable.sameWorth_maximum _ _ _ k n hal hd hagg (fun outs x => ?_) hen
    have hval : ∀ b ∈ p.fuzzy.terms, ∃ v, b.membership ⟨e.inputs.map fun v => (v.name, v.value), outs⟩ x = .ok v ∧
        ∃ a ∈ o.fuzzy.terms, ∃ u, a.membership ⟨e.inputs.map fun v => (v.name, v.value), outs⟩ x = .ok u ∧ Op.max u v = u := by
      intro b hb
      rcases hcov b hb with hb | ⟨a, ha, h3, h4, h5⟩
      · obtain ⟨v, hv⟩ := hm b hb outs x
        exact ⟨v, hv, b, hb, v, hv, opMax_self v⟩
      · obtain ⟨u, hu⟩ := hm a ha outs x
        rw [h3]
        unfold Activated.membership at hu ⊢
        cases hx : Op.isNaN x with
        | true =>
          simp only [hx, if_true, Except.ok.injEq] at hu ⊢
          exact ⟨nan, rfl, a, ha, nan, by simp, opMax_self _⟩
        | false =>
          simp only [hx, Bool.false_eq_true, if_false, h4] at hu ⊢
          cases ht : a.term.membership ⟨e.inputs.map fun v => (v.name, v.value), outs⟩ x with
          | error e => rw [ht] at hu; simp [bind, Except.bind] at hu
          | ok m =>
            refine ⟨Op.min m b.degree, rfl, a, ha, Op.min m a.degree, ?_, opMax_min m _ _ h5⟩
            simp only [h4, ht]
            rfl
    refine ⟨fun a => match a.membership ⟨e.inputs.map fun v => (v.name, v.value), outs⟩ x with
      | .ok v => v
      | .error _ => nan, ?_, ?_, ?_⟩
    · intro a ha
      rcases List.mem_append.1 ha with ha | ha
      · obtain ⟨v, hv⟩ := hm a ha outs x
        simp only [hv]
      · obtain ⟨v, hv, _⟩ := hval a ha
        simp only [hv]
    · exact fun a ha => foldl_max_absorbs _ _ _ (List.mem_map_of_mem (hsub a ha))
    · intro b hb
      obtain ⟨v, hv, a, ha, u, hu, huv⟩ := hval b hb
      have h6 := foldl_max_absorbs (o.fuzzy.terms.map fun a => match a.membership ⟨e.inputs.map fun v => (v.name, v.value), outs⟩ x with
        | .ok v => v
        | .error _ => nan) (lit 0) u (List.mem_map.2 ⟨a, ha, by simp only [hu]⟩)
      simp only [hv]
      rw [← h6, opMax_assoc, huv])
  exact ⟨key.1.trans hok, values_alike key.2⟩

end maximum
end FL

/-! ### weights and degrees that join -/

namespace FL
open Scalar

section real
variable [Tol ℝ]
open Ext

/-- in exact arithmetic, for all finite degrees and weights that are not negative -/
theorem joins_real {v : ℝ} (hv : 0 ≤ v) (a b : ℝ) : Joins (fin v : Ext ℝ) (fin a) (fin b) := by
  have hz : (lit 0 : Ext ℝ) = fin 0 := by simp
  have hmax : ∀ a b : ℝ, Op.max (fin a : Ext ℝ) (fin b) = fin (max a b) := by
    intro a b
    unfold Op.max Op.stdMax
    by_cases h : a < b
    · simp [h, max_eq_right h.le]
    · simp [h, max_eq_left (not_lt.1 h)]
  refine ⟨?_, ?_⟩
  · rw [hmax, mul_fin, mul_fin, mul_fin, hmax, mul_max_of_nonneg a b hv]
  · rw [mul_fin, mul_fin, hmax, hz, isGt_fin, isGt_fin, isGt_fin, ← Bool.decide_or]
    congr 1
    exact propext le_max_iff

end real

section rounded
open Flt Format FL.Rounded
variable {ρ : Format}

/-- in every number format, for all degrees and weights from 0 to 1 -/
theorem joins_rounded {v a b : ℚ} (rv : ρ.Rep v) (ra : ρ.Rep a) (rb : ρ.Rep b) (v0 : 0 ≤ v) (v1 : v ≤ 1) (a0 : 0 ≤ a) (a1 : a ≤ 1)
    (b0 : 0 ≤ b) (b1 : b ≤ 1) : Joins (of v rv) (of a ra) (of b rb) := by
  have small : ∀ x : ℚ, 0 ≤ x → x ≤ 1 → Small (v * x) ∧ 0 ≤ v * x ∧ v * x ≤ 1 := fun x x0 x1 =>
    have h0 := mul_nonneg v0 x0
    have h1 := mul_le_one₀ v1 x0 x1
    ⟨small_of (by linarith) (by linarith), h0, h1⟩
  obtain ⟨sa, la, ua⟩ := small a a0 a1
  obtain ⟨sb, lb, ub⟩ := small b b0 b1
  obtain ⟨rm, hm⟩ := max_of ra rb
  obtain ⟨sm, lm, um⟩ := small (max a b) (le_max_of_le_left a0) (max_le a1 b1)
  have mono : ρ.r (v * max a b) = max (ρ.r (v * a)) (ρ.r (v * b)) := by
    rcases le_total a b with h | h
    · rw [max_eq_right h, max_eq_right (r_mono sa sb (mul_le_mul_of_nonneg_left h v0))]
    · rw [max_eq_left h, max_eq_left (r_mono sb sa (mul_le_mul_of_nonneg_left h v0))]
  have unit : ∀ x : ℚ, Small x → 0 ≤ x → x ≤ 1 → 0 ≤ ρ.r x ∧ ρ.r x ≤ 1 := fun x s x0 x1 =>
    ⟨le_r (small_of (by norm_num) (by norm_num)) s rep_zero x0, r_le s (small_of (by norm_num) (by norm_num)) rep_one x1⟩
  obtain ⟨pa0, pa1⟩ := unit _ sa la ua
  obtain ⟨pb0, pb1⟩ := unit _ sb lb ub
  rw [Joins, hm, mul_of rv rm sm, mul_of rv ra sa, mul_of rv rb sb]
  obtain ⟨rp, hp⟩ := max_of (r_rep (ρ := ρ) (v * a)) (r_rep (ρ := ρ) (v * b))
  rw [hp]
  refine ⟨of_inj.2 mono, ?_⟩
  have pos : ∀ (x : ℚ) (rx : ρ.Rep x), 0 ≤ x → x ≤ 1 → (Op.isGt (of x rx) (lit 0) = true ↔ 0 < x ∧ ρ.eps ≤ x) := by
    intro x rx x0 x1
    rw [lit_rep rep_zero, isGt_of rx rep_zero (by rw [sub_zero]; exact small_of (by linarith) (by linarith)), sub_zero, r_of_rep rx, abs_of_nonneg x0]
  rw [Bool.eq_iff_iff, Bool.or_eq_true, pos _ rp (le_max_of_le_left pa0) (max_le pa1 pb1), pos _ _ pa0 pa1, pos _ _ pb0 pb1]
  rcases le_total (ρ.r (v * a)) (ρ.r (v * b)) with h | h
  · rw [max_eq_right h]
    exact ⟨.inr, fun q => q.elim (fun q => ⟨q.1.trans_le h, q.2.trans h⟩) id⟩
  · rw [max_eq_left h]
    exact ⟨.inl, fun q => q.elim id fun q => ⟨q.1.trans_le h, q.2.trans h⟩⟩

end rounded
end FL

/-! ### examples -/

namespace FL.EitherDemo
open Scalar FL.Rounded FL.Rounded.Demo

local instance : Heap (Flt dbl) := RuleBlock.stableHeap _

instance (w x y : Flt dbl) : Decidable (Joins w x y) := inferInstanceAs (Decidable (_ ∧ _))

def isTerm (j : Nat) : Expr (Flt dbl) := .prop ⟨.input 0, [], some j⟩

/-- if … then y is … -/
def rule (a : Expr (Flt dbl)) (y : Nat) : Rule (Flt dbl) :=
  { Rule.new [] with
    antecedent := some a
    conclusions := [⟨.output 0, [], some y⟩] }

/-- if x is low or x is high then y is …; if x is high then y is … -/
def joined : RuleBlock (Flt dbl) :=
  { control with
    implication := some (.builtin .minimum)
    rules := [rule (.disj (isTerm 0) (isTerm 1)) 0, rule (isTerm 1) 1] }

/-- if x is low then y is …; if x is high then y is …; if x is high then y is … -/
def separate : RuleBlock (Flt dbl) := { joined with rules := [rule (isTerm 0) 0, rule (isTerm 1) 0, rule (isTerm 1) 1] }

def run (b : RuleBlock (Flt dbl)) : Engine (Flt dbl) := { mamdani with blocks := [b] }

/-- the theorem applies to them -/
example : (run separate).process.2 = none ∧ (run separate).process.1.outputValues = (run joined).process.1.outputValues := by
  refine Engine.process_either_partial (run joined) [separate] (.cons ⟨rfl, .inr ⟨rfl, [[rule (isTerm 0) 0, rule (isTerm 1) 0], [rule (isTerm 1) 1]],
    .cons (.inr ⟨rfl, rfl, ?_, isTerm 0, isTerm 1, rule (isTerm 0) 0, rule (isTerm 1) 0, rfl, ?_, rfl, rfl, rfl, rfl, rfl, rfl, rfl, rfl, rfl⟩) (.cons (.inl rfl) .nil), rfl⟩⟩ .nil) ?_
    (by decide +kernel) ?_
  · intro p hp
    simp only [rule, List.mem_singleton] at hp
    rw [hp]
  · intro d1 d2 h1 h2
    have e1 : (isTerm 0).degree ⟨(run joined).inputs, (run joined).outputs.map fun o => { o with fuzzy := o.fuzzy.clear }⟩
      joined.conjunction joined.disjunction = .ok d1 := h1
    have e2 : (isTerm 1).degree ⟨(run joined).inputs, (run joined).outputs.map fun o => { o with fuzzy := o.fuzzy.clear }⟩
      joined.conjunction joined.disjunction = .ok d2 := h2
    have H : (match (isTerm 0).degree ⟨(run joined).inputs, (run joined).outputs.map fun o => { o with fuzzy := o.fuzzy.clear }⟩
          joined.conjunction joined.disjunction,
        (isTerm 1).degree ⟨(run joined).inputs, (run joined).outputs.map fun o => { o with fuzzy := o.fuzzy.clear }⟩
          joined.conjunction joined.disjunction with
      | .ok d1, .ok d2 => decide (Joins (lit 1) d1 d2)
      | _, _ => true) = true := by decide +kernel
    rw [e1, e2] at H
    exact of_decide_eq_true H
  · intro b hb r hr a ha p hp
    simp only [run, List.mem_singleton] at hb
    subst hb
    simp only [joined, List.mem_cons, List.not_mem_nil, or_false] at hr
    rcases hr with rfl | rfl <;> simp only [rule, Option.mem_some_iff] at ha <;> subst ha <;>
      simp only [Expr.props, isTerm, List.mem_append, List.mem_singleton] at hp
    · rcases hp with rfl | rfl <;> exact ⟨0, rfl⟩
    · subst hp; exact ⟨0, rfl⟩
  · have h : (run joined).process.1.outputs.all RuleOrder.plain = true := by decide +kernel
    exact fun o ho => RuleSet.plain_maximal _ o (List.all_eq_true.1 h o ho)

/-- and this is what is computed -/
example : (run separate).process.1.outputValues = (run joined).process.1.outputValues ∧
    ((run joined).process.1.outputs.map fun o => o.fuzzy.terms.map fun a => a.id) = [[0, 1]] ∧
    ((run separate).process.1.outputs.map fun o => o.fuzzy.terms.map fun a => a.id) = [[0, 0, 1]] := by decide +kernel

/-- the same with another operator for the disjunction and another for the aggregation -/
def other (dis agg : SNormKind) (b : RuleBlock (Flt dbl)) : Engine (Flt dbl) :=
  { run { b with disjunction := some (.builtin dis) } with
    outputs := mamdani.outputs.map fun o => { o with fuzzy := { o.fuzzy with aggregation := some (.builtin agg) } } }

/-- **C97 is violated by other operators**, also if the disjunction and the aggregation are the same -/
theorem operator_violated : (other .algebraicSum .algebraicSum joined).process.2 = none ∧
    (other .algebraicSum .algebraicSum separate).process.2 = none ∧
    (other .algebraicSum .algebraicSum separate).process.1.outputValues ≠ (other .algebraicSum .algebraicSum joined).process.1.outputValues ∧
    (other .maximum .algebraicSum separate).process.1.outputValues ≠ (other .maximum .algebraicSum joined).process.1.outputValues ∧
    (other .algebraicSum .maximum separate).process.1.outputValues ≠ (other .algebraicSum .maximum joined).process.1.outputValues := by
  decide +kernel

/-- a second input, whose value is not known -/
def unknown : Variable (Flt dbl) := { input with
  name := cs! "z"
  value := nan }

/-- if z is low or x is low then y is … -/
def blind (rules : List (Rule (Flt dbl))) : Engine (Flt dbl) :=
  { run { joined with rules := rules } with inputs := [input, unknown] }

/-- **C97 is violated by values that are not known**: the disjunction is not known either and is not triggered, whereas one of the two rules is. -/
theorem nan_violated :
    (blind [rule (.disj (.prop ⟨.input 1, [], some 0⟩) (isTerm 0)) 0]).process.2 = none ∧
    (blind [rule (.prop ⟨.input 1, [], some 0⟩) 0, rule (isTerm 0) 0]).process.2 = none ∧
    ((blind [rule (.disj (.prop ⟨.input 1, [], some 0⟩) (isTerm 0)) 0]).process.1.outputs.map fun o => o.fuzzy.terms.length) = [0] ∧
    ((blind [rule (.prop ⟨.input 1, [], some 0⟩) 0, rule (isTerm 0) 0]).process.1.outputs.map fun o => o.fuzzy.terms.length) = [1] := by
  decide +kernel

/-- "not" in the conclusion -/
def negated (a : Expr (Flt dbl)) : Rule (Flt dbl) :=
  { Rule.new [] with
    antecedent := some a
    conclusions := [⟨.output 0, [.builtin .not], some 0⟩] }

/-- **C97 is violated by the hedge not in the conclusion**, which makes the greater degree the smaller -/
theorem not_violated :
    (run { joined with rules := [negated (.disj (isTerm 0) (isTerm 1)), rule (isTerm 1) 1] }).process.2 = none ∧
    (run { joined with rules := [negated (isTerm 0), negated (isTerm 1), rule (isTerm 1) 1] }).process.1.outputValues ≠
      (run { joined with rules := [negated (.disj (isTerm 0) (isTerm 1)), rule (isTerm 1) 1] }).process.1.outputValues := by
  decide +kernel

end FL.EitherDemo
