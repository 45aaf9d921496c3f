/-
C45: an engine that is ready does not fail for missing operators.
-/
import Verif.Props.Restart
import Verif.Props.Degree
import Verif.Props.Text
import Verif.Props.RuleText

namespace FL
open Scalar
variable {S : Type} [Scalar S]

/-- exceptions for a missing operator or defuzzifier -/
def Err.Missing (e : Err) : Prop :=
  e = .missingConjunction ∨ e = .missingDisjunction ∨ e = .missingImplication ∨ e = .missingAggregation ∨
  e = .missingDefuzzifier

instance (e : Err) : Decidable e.Missing := by unfold Err.Missing; infer_instance

/-- the computation does not fail for a missing operator -/
def Complete {α : Type} (x : Except Err α) : Prop := ∀ e, x = .error e → ¬ e.Missing

namespace Complete

theorem ok {α : Type} (a : α) : Complete (.ok a : Except Err α) := fun _ h => nomatch h

theorem error {α : Type} {e : Err} (h : ¬ e.Missing) : Complete (.error e : Except Err α) := by
  intro e' he; cases he; exact h

theorem bind {α β : Type} {x : Except Err α} {f : α → Except Err β} (hx : Complete x) (hf : ∀ a, Complete (f a)) :
    Complete (x >>= f) := by
  cases x with
  | error e => exact error (hx e rfl)
  | ok a => exact hf a

theorem foldlM {α β : Type} {f : β → α → Except Err β} {l : List α} (h : ∀ b, ∀ a ∈ l, Complete (f b a)) (b : β) :
    Complete (l.foldlM f b) := by
  induction l generalizing b with
  | nil => exact ok b
  | cons a l ih =>
    rw [List.foldlM_cons]
    exact bind (h b a List.mem_cons_self) fun b' => ih (fun b a ha => h b a (List.mem_cons_of_mem _ ha)) b'

theorem mapM {α β : Type} {f : α → Except Err β} {l : List α} (h : ∀ a ∈ l, Complete (f a)) : Complete (l.mapM f) := by
  induction l with
  | nil => exact ok _
  | cons a l ih =>
    rw [List.mapM_cons]
    exact bind (h a List.mem_cons_self) fun b => bind (ih fun a ha => h a (List.mem_cons_of_mem _ ha)) fun bs => ok _

end Complete

theorem Node.evaluate_complete (env : Env S) (n : Node S) : Complete (n.evaluate env) := by
  induction n with
  | const c => exact .ok c
  | var t =>
    unfold evaluate
    split
    · exact .ok _
    · exact .error (by decide)
  | un e f r ih => exact .bind ih fun _ => .ok _
  | bin e f l r ihl ihr => exact .bind ihl fun _ => .bind ihr fun _ => .ok _

theorem Fun.membership_complete (f : Fun S) (ctx : Ctx S) (x : S) : Complete (f.membership ctx x) := by
  unfold membership membershipS
  split
  · exact .error (by decide)
  · exact Node.evaluate_complete _ _

theorem normFunction_complete (f : Fun S) (a b : S) : Complete (normFunction f a b) := by
  unfold normFunction Fun.evaluate
  split
  · exact .error (by decide)
  · exact Node.evaluate_complete _ _

theorem TNorm.compute_complete (k : TNorm S) (a b : S) : Complete (k.compute a b) := by
  cases k with
  | builtin k => exact .ok _
  | function f => exact normFunction_complete f a b

theorem SNorm.compute_complete (k : SNorm S) (a b : S) : Complete (k.compute a b) := by
  cases k with
  | builtin k => exact .ok _
  | function f => exact normFunction_complete f a b

theorem applyHedges_complete (hs : List (Hedge S)) (x : S) : Complete (applyHedges hs x) := by
  refine .foldlM (fun b h _ => ?_) x
  cases h with
  | builtin k => exact .ok _
  | function n f => exact f.membership_complete _ _

theorem Term.membership_complete (ctx : Ctx S) (t : Term S) (x : S) : Complete (t.membership ctx x) := by
  unfold membership
  split
  · exact .ok _
  · unfold Discrete.membership
    dsimp only
    repeat' split
    all_goals first | exact Complete.ok _ | exact Complete.error (e := .ub) (by decide) | exact Complete.error (e := .evaluation) (by decide)
  · exact .ok _
  · unfold linearMembership
    split
    · exact .error (by decide)
    · exact .ok _
  · exact Fun.membership_complete _ _ _

theorem Term.tsukamoto_complete (t : Term S) (y : S) : Complete (t.tsukamoto y) := by
  unfold tsukamoto
  repeat' split
  all_goals first | exact Complete.ok _ | exact Complete.error (e := .unsupported) (by decide)

theorem Proposition.degree_complete (w : World S) (p : Proposition S) : Complete (p.degree w) := by
  unfold degree
  split
  · exact .error (by decide)
  · exact .ok _
  · split
    · exact applyHedges_complete _ _
    · split
      · exact .error (by decide)
      · refine .bind ?_ fun _ => applyHedges_complete _ _
        unfold World.termDegree
        split
        · split
          · exact .error (by decide)
          · split
            · exact .error (by decide)
            · exact Term.membership_complete _ _ _
        · split
          · exact .error (by decide)
          · refine .foldlM (fun b a _ => ?_) _
            split
            · split
              · exact SNorm.compute_complete _ _ _
              · exact .ok _
            · exact .ok _

theorem Expr.degree_complete (w : World S) (c : Option (TNorm S)) (d : Option (SNorm S)) (e : Expr S)
    (hc : e.hasConj = true → c.isSome = true) (hd : e.hasDisj = true → d.isSome = true) : Complete (e.degree w c d) := by
  induction e with
  | prop p => exact p.degree_complete w
  | conj l r ihl ihr =>
    obtain ⟨k, rfl⟩ := Option.isSome_iff_exists.1 (hc rfl)
    have h1 := ihl (fun _ => rfl) (fun h => hd (by simp [hasDisj, h]))
    have h2 := ihr (fun _ => rfl) (fun h => hd (by simp [hasDisj, h]))
    exact .bind h1 fun _ => .bind h2 fun _ => k.compute_complete _ _
  | disj l r ihl ihr =>
    obtain ⟨k, rfl⟩ := Option.isSome_iff_exists.1 (hd rfl)
    have h1 := ihl (fun h => hc (by simp [hasConj, h])) (fun _ => rfl)
    have h2 := ihr (fun h => hc (by simp [hasConj, h])) (fun _ => rfl)
    exact .bind h1 fun _ => .bind h2 fun _ => k.compute_complete _ _

theorem modify_complete (w : World S) (d : S) (imp : Option (TNorm S)) (ps : List (Proposition S)) (e : Err)
    (h : (modify w d imp ps).2 = some e) : ¬ e.Missing := by
  unfold modify at h
  split at h
  · simp only [Option.some.injEq] at h
    subst h; decide
  · induction ps generalizing w d with
    | nil => simp [modifyLoop] at h
    | cons p ps ih =>
      have hne : ∀ (w : World S) d, (modifyLoop imp w d ps).2 = some e → ¬ e.Missing := by
        intro w d h
        cases ps with
        | nil => simp [modifyLoop] at h
        | cons q qs => exact ih w d (by simp) h
      obtain ⟨v, hs, t⟩ := p
      cases v with
      | input i =>
        simp only [modifyLoop, Option.some.injEq] at h
        subst h; decide
      | output i =>
        cases t with
        | none =>
          simp only [modifyLoop, Option.some.injEq] at h
          subst h; decide
        | some j =>
          simp only [modifyLoop] at h
          cases ho : w.outputs[i]? with
          | none =>
            simp only [ho, Option.some.injEq] at h
            subst h; decide
          | some o =>
            simp only [ho] at h
            split at h
            · exact hne _ _ h
            · cases ha : applyHedges hs d with
              | error x =>
                simp only [ha, Option.some.injEq] at h
                subst h
                exact applyHedges_complete hs d _ ha
              | ok y =>
                simp only [ha] at h
                cases ht : o.terms[j]? with
                | none =>
                  simp only [ht, Option.some.injEq] at h
                  subst h; decide
                | some t =>
                  simp only [ht] at h
                  exact hne _ _ h

/-! ### defuzzification -/

theorem Integral.defuzzify_complete (k : IntegralKind) (r : Int) (mu : S → Except Err S) (mn mx : S)
    (h : ∀ x, Complete (mu x)) : Complete (Integral.defuzzify k r mu mn mx) := by
  unfold Integral.defuzzify
  split
  · exact .ok _
  · split
    · exact .error (by decide)
    · exact .bind (.mapM fun i _ => .bind (h _) fun _ => .ok _) fun _ => .ok _

theorem Aggregated.membership_complete (ctx : Ctx S) (g : Aggregated S) (x : S) (ha : g.aggregation.isSome = true)
    (hi : ∀ a ∈ g.terms, a.implication.isSome = true) : Complete (g.membership ctx x) := by
  unfold membership
  split
  · exact .ok _
  · obtain ⟨k, hk⟩ := Option.isSome_iff_exists.1 ha
    rw [hk]
    refine .foldlM (fun b a hm => .bind ?_ fun _ => k.compute_complete _ _) _
    unfold Activated.membership
    split
    · exact .ok _
    · obtain ⟨i, hk⟩ := Option.isSome_iff_exists.1 (hi a hm)
      rw [hk]
      exact .bind (Term.membership_complete _ _ _) fun _ => i.compute_complete _ _

theorem Weighted.defuzzify_complete (ctx : Ctx S) (k : WeightedKind) (t : WeightedType) (g : Aggregated S) :
    Complete (Weighted.defuzzify ctx k t g) := by
  have hg : Complete g.grouped := by
    refine .bind (.foldlM (fun G a _ => ?_) _) fun _ => .ok _
    unfold Aggregated.groupStep
    split
    · exact .ok _
    · exact .bind (SNorm.compute_complete _ _ _) fun _ => .ok _
  have hs : ∀ (z : Activated S → Except Err S) l, (∀ a, Complete (z a)) → Complete (sums z l) := fun z l hz =>
    .foldlM (fun _ a _ => .bind (hz a) fun _ => .ok _) _
  have hinf : Complete (inferTypes (g.terms.map Activated.term)) := by
    unfold inferTypes
    split
    · exact .ok _
    · exact .ok _
    · exact .error (by decide)
  have hm : ∀ a : Activated S, Complete (a.term.membership ctx a.degree) := fun a => Term.membership_complete _ _ _
  have ht : ∀ a : Activated S, Complete (a.term.tsukamoto a.degree) := fun a => Term.tsukamoto_complete _ _
  have hfin : ∀ (z : Activated S → Except Err S) (r : S × S → S), (∀ a, Complete (z a)) →
      Complete (g.grouped >>= fun q => sums z q.terms >>= fun s => .ok (r s)) :=
    fun z r hz => .bind hg fun _ => .bind (hs z _ hz) fun _ => .ok _
  unfold Weighted.defuzzify
  split
  · exact .ok _
  · cases t with
    | automatic =>
      refine .bind hinf fun t => ?_
      cases t with
      | automatic => exact .error (e := .unsupported) (by decide)
      | takagiSugeno => exact hfin _ (fun s => match k with | .average => s.1 / s.2 | .sum => s.1) hm
      | tsukamoto => exact hfin _ (fun s => match k with | .average => s.1 / s.2 | .sum => s.1) ht
    | takagiSugeno => exact hfin _ (fun s => match k with | .average => s.1 / s.2 | .sum => s.1) hm
    | tsukamoto => exact hfin _ (fun s => match k with | .average => s.1 / s.2 | .sum => s.1) ht

/-- what `isReady` guarantees of an output variable and its fuzzy output -/
theorem OutputVariable.defuzzify_complete (ctx : Ctx S) (o : OutputVariable S)
    (h : o.defuzzifier.isSome = true ∧ (o.fuzzy.aggregation.isSome = true ∨ Engine.isIntegral o.defuzzifier = false))
    (hi : Engine.isIntegral o.defuzzifier = true → ∀ a ∈ o.fuzzy.terms, a.implication.isSome = true) :
    Complete (o.defuzzify ctx) := by
  obtain ⟨hd, ha⟩ := h
  obtain ⟨d, hd⟩ := Option.isSome_iff_exists.1 hd
  unfold OutputVariable.defuzzify
  split
  · exact .ok _
  · rw [hd] at ha hi ⊢
    refine .bind ?_ fun _ => .ok _
    cases d with
    | weighted k t => exact Weighted.defuzzify_complete _ _ _ _
    | integral k r =>
      have ha' : o.fuzzy.aggregation.isSome = true := by simpa [Engine.isIntegral] using ha
      exact Integral.defuzzify_complete _ _ _ _ _ fun x => Aggregated.membership_complete _ _ _ ha' (hi rfl)

/-! ### implications of activated terms -/

/-- activated terms of variables with an integral defuzzifier have an implication -/
def World.Implied (w : World S) : Prop :=
  ∀ o ∈ w.outputs, Engine.isIntegral o.defuzzifier = true → ∀ a ∈ o.fuzzy.terms, a.implication.isSome = true

def World.defuzzifiers (w : World S) : List (Option Defuzzifier) := w.outputs.map fun o => o.defuzzifier

theorem World.Frame.defuzzifiers {w w' : World S} (h : w.Frame w') : w'.defuzzifiers = w.defuzzifiers := by
  have := h.outputs
  unfold World.defuzzifiers
  revert this
  generalize w.outputs = l
  generalize w'.outputs = l'
  intro h
  induction h with
  | nil => rfl
  | cons h1 _ ih => rw [List.map_cons, List.map_cons, ih, h1.1]

theorem modifyLoop_implied (imp : Option (TNorm S)) (ps : List (Proposition S)) (w : World S) (d : S)
    (h : imp.isSome = true ∨ ∀ p ∈ ps, ∀ i, p.var = .output i → ∀ q, w.defuzzifiers[i]? = some q → Engine.isIntegral q = false)
    (hw : w.Implied) : (modifyLoop imp w d ps).1.Implied := by
  induction ps generalizing w d with
  | nil => exact hw
  | cons p ps ih =>
    have htail : ∀ w' : World S, w'.defuzzifiers = w.defuzzifiers → w'.Implied → ∀ d, (modifyLoop imp w' d ps).1.Implied := by
      intro w' hd hw' d
      refine ih w' d ?_ hw'
      rw [hd]
      exact h.imp id fun h q hq => h q (List.mem_cons_of_mem _ hq)
    obtain ⟨v, hs, t⟩ := p
    cases v with
    | input i => exact hw
    | output i =>
      cases t with
      | none => exact hw
      | some j =>
        simp only [modifyLoop]
        cases ho : w.outputs[i]? with
        | none => exact hw
        | some o =>
          simp only
          split
          · exact htail w rfl hw d
          · cases applyHedges hs d with
            | error x => exact hw
            | ok y =>
              simp only
              cases o.terms[j]? with
              | none => exact hw
              | some t =>
                simp only
                refine htail _ ?_ ?_ y
                · unfold World.defuzzifiers
                  simp only [List.map_set]
                  apply List.ext_getElem?
                  intro n
                  rw [List.getElem?_set]
                  split
                  · rename_i hn
                    subst hn
                    have hlt : i < w.outputs.length := (List.getElem?_eq_some_iff.1 ho).1
                    simp [hlt, ho]
                    have := (List.getElem?_eq_some_iff.1 ho).2
                    rw [this]
                  · rfl
                · intro q hq hint a ha
                  rcases List.mem_or_eq_of_mem_set hq with hq | rfl
                  · exact hw q hq hint a ha
                  · simp only [Aggregated.addTerm, List.mem_append, List.mem_singleton] at ha hint
                    rcases ha with ha | rfl
                    · exact hw o (List.mem_of_getElem? ho) hint a ha
                    · simp only
                      rcases h with h | h
                      · exact h
                      · have := h ⟨.output i, hs, some j⟩ List.mem_cons_self i rfl o.defuzzifier (by simp [World.defuzzifiers, ho])
                        rw [this] at hint
                        simp at hint

theorem Engine.block_implied [Heap S] {outputs : List (OutputVariable S)} {b : RuleBlock S}
    (hb : b.implication.isSome = true ∨ ∀ r ∈ b.rules, ruleRequiresImplication outputs r = false) (w : World S) (hd : w.defuzzifiers = outputs.map fun o => o.defuzzifier) (hw : w.Implied) :
    (b.activate w).1.Implied := by
  have h := b.activateBy_world (fun w w' : World S => w.defuzzifiers = (outputs.map fun o => o.defuzzifier) → w.Implied →
      w'.defuzzifiers = (outputs.map fun o => o.defuzzifier) ∧ w'.Implied)
    (fun _ h1 h2 => ⟨h1, h2⟩) (fun _ _ _ k1 k2 h1 h2 => k2 (k1 h1 h2).1 (k1 h1 h2).2)
    (by
      intro r hr hl w d h1 h2
      refine ⟨(modify_frame w d b.implication r.conclusions).defuzzifiers.trans h1, ?_⟩
      unfold modify
      split
      · exact h2
      · refine modifyLoop_implied _ _ _ _ ?_ h2
        rcases hb with h | h
        · exact Or.inl h
        · right
          intro p hp i hpi q hq
          have := h r hr
          simp only [ruleRequiresImplication, hl, Bool.true_and, List.any_eq_false] at this
          have := this p hp
          rw [hpi] at this
          rw [h1, List.getElem?_map] at hq
          cases ho : outputs[i]? with
          | none => simp [ho] at hq
          | some o =>
            simp only [ho, Option.map_some, Option.some.injEq] at hq
            simp only [ho, Option.map_some, Option.getD_some, hq] at this
            simpa using this)
    (b.activation.getD .general) w
  exact (h hd hw).2

/-- the engine has the operators and defuzzifiers that its loaded rules and its variables need -/
structure Engine.Equipped (e : Engine S) : Prop where
  output : ∀ o ∈ e.outputs, o.defuzzifier.isSome = true ∧ (o.fuzzy.aggregation.isSome = true ∨ isIntegral o.defuzzifier = false)
  implication : ∀ b ∈ e.blocks, b.implication.isSome = true ∨ ∀ r ∈ b.rules, ruleRequiresImplication e.outputs r = false
  conjunction : ∀ b ∈ e.blocks, ∀ r ∈ b.rules, ∀ a, r.antecedent = some a → a.hasConj = true → b.conjunction.isSome = true
  disjunction : ∀ b ∈ e.blocks, ∀ r ∈ b.rules, ∀ a, r.antecedent = some a → a.hasDisj = true → b.disjunction.isSome = true

/-- an engine that has what it needs does not fail for a missing operator -/
theorem Engine.Equipped.complete [Heap S] {e : Engine S} (h : e.Equipped) (err : Err) (herr : e.process.2 = some err) :
    ¬ err.Missing := by
  obtain ⟨hout, hbi, hbc, hbd⟩ := h
  have hact : ∀ (bs : List (RuleBlock S)) (w : World S), (∀ b ∈ bs, b ∈ e.blocks) →
      w.defuzzifiers = (e.outputs.map fun o => o.defuzzifier) → w.Implied →
      (activateBlocks w bs).1.Implied ∧ ∀ x, (activateBlocks w bs).2.2 = some x → ¬ x.Missing := by
    intro bs
    induction bs with
    | nil => intro w _ _ hw; exact ⟨hw, fun x hx => (by simp [activateBlocks] at hx)⟩
    | cons b bs ih =>
      intro w hbs hd hw
      have hb := hbi b (hbs b List.mem_cons_self)
      have htl : ∀ b' ∈ bs, b' ∈ e.blocks := fun b' hb' => hbs b' (List.mem_cons_of_mem _ hb')
      rw [activateBlocks_cons]
      split
      · exact ih w htl hd hw
      · have himp := block_implied hb w hd hw
        cases hx : (b.activate w).2.2 with
        | none =>
          exact ih _ htl ((b.activate_frame w).1.defuzzifiers.trans hd) himp
        | some x =>
          refine ⟨himp, fun y hy => ?_⟩
          obtain rfl : x = y := by simpa using hy
          refine b.activateBy_error (fun e => ¬ e.Missing) (by decide) (by decide) ?_ ?_ (b.activation.getD .general) w x hx
          · intro r hr _ a ha w' e' he'
            exact Expr.degree_complete w' _ _ a (hbc b (hbs b List.mem_cons_self) r hr a ha)
              (hbd b (hbs b List.mem_cons_self) r hr a ha) e' he'
          · intro r _ w' d e' he'
            exact modify_complete w' d _ _ e' he'
  have hclear : e.cleared.defuzzifiers = e.outputs.map fun o => o.defuzzifier := by
    simp only [World.defuzzifiers, cleared, List.map_map]; rfl
  have hnil : e.cleared.Implied := by
    intro o ho _ a ha
    simp only [cleared, List.mem_map] at ho
    obtain ⟨q, _, rfl⟩ := ho
    simp [Aggregated.clear] at ha
  obtain ⟨hI, hE⟩ := hact e.blocks e.cleared (fun _ h => h) hclear hnil
  have hf := activateBlocks_frame e.blocks e.cleared
  have hready : ∀ o ∈ (activateBlocks e.cleared e.blocks).1.outputs,
      o.defuzzifier.isSome = true ∧ (o.fuzzy.aggregation.isSome = true ∨ isIntegral o.defuzzifier = false) := by
    intro o ho
    obtain ⟨i, hi, rfl⟩ := List.mem_iff_getElem.1 ho
    have hi0 : i < e.cleared.outputs.length := by rw [hf.outputs.length_eq]; exact hi
    have q := ((List.forall₂_iff_get.1 hf.outputs).2 i hi0 hi).1
    have hi1 : i < e.outputs.length := by simpa [cleared] using hi0
    simp only [List.get_eq_getElem] at q
    rw [q]
    have hc : e.cleared.outputs[i] = { e.outputs[i] with fuzzy := e.outputs[i].fuzzy.clear } := by simp [cleared]
    rw [hc]
    have := hout e.outputs[i] (List.getElem_mem hi1)
    exact this
  rw [process_eq] at herr
  cases hx : (activateBlocks e.cleared e.blocks).2.2 with
  | some x =>
    rw [hx] at herr
    obtain rfl : x = err := by simpa using herr
    exact hE x hx
  | none =>
    rw [hx] at herr
    simp only at herr
    have key : ∀ (I : List (Variable S)) (os done : List (OutputVariable S)),
        (∀ o ∈ os, (o.defuzzifier.isSome = true ∧ (o.fuzzy.aggregation.isSome = true ∨ isIntegral o.defuzzifier = false)) ∧
          (isIntegral o.defuzzifier = true → ∀ a ∈ o.fuzzy.terms, a.implication.isSome = true)) →
        (defuzzifyAll I done os).2 = some err → ¬ err.Missing := by
      intro I os
      induction os with
      | nil => intro done _ h; simp [defuzzifyAll] at h
      | cons o os ih =>
        intro done ho h
        rw [defuzzifyAll_cons] at h
        have hc := OutputVariable.defuzzify_complete (World.ctx ⟨I, done ++ o :: os⟩) o
          (ho o List.mem_cons_self).1 (ho o List.mem_cons_self).2
        cases hq : o.defuzzify (World.ctx ⟨I, done ++ o :: os⟩) with
        | error x =>
          rw [hq] at h
          obtain rfl : x = err := by simpa using h
          exact hc x hq
        | ok q =>
          rw [hq] at h
          exact ih _ (fun o' ho' => ho o' (List.mem_cons_of_mem _ ho')) h
    exact key _ _ _ (fun o ho => ⟨hready o ho, hI o ho⟩) herr

/-- **C45 (partial).**  An engine that reports to be ready does not fail for a missing operator or
defuzzifier, whatever its inputs, if the texts of rules show their connectives: the operators `and` and
`or` of a loaded antecedent are found by the search for `" and "` and `" or "` before `" then "`.
Missing: texts with other blanks or with parentheses next to the connectives, for which the claim is
false (`ready_tab_violated`, `ready_parenthesis_violated`). -/
theorem Engine.ready_partial [Heap S] (e : Engine S) (h : e.isReady = true)
    (ht : ∀ b ∈ e.blocks, ∀ r ∈ b.rules, ∀ a, r.antecedent = some a →
      (a.hasConj = true → textRequires andKeyword r.text = true) ∧ (a.hasDisj = true → textRequires orKeyword r.text = true))
    (err : Err) (herr : e.process.2 = some err) : ¬ err.Missing := by
  simp only [isReady, Bool.and_eq_true, List.all_eq_true] at h
  obtain ⟨⟨⟨-, hout⟩, -⟩, hbl⟩ := h
  refine Equipped.complete (e := e) ⟨?_, ?_, ?_, ?_⟩ err herr
  · intro o ho
    have := hout o ho
    simp only [outputReady, Bool.and_eq_true, Bool.or_eq_true, Bool.not_eq_true'] at this
    exact ⟨this.1.2, this.2⟩
  · intro b hb
    have := hbl b hb
    simp only [blockReady, Bool.and_eq_true, Bool.or_eq_true, Bool.not_eq_true', List.any_eq_false] at this
    exact this.2.imp id fun h r hr => by simpa using h r hr
  · intro b hb r hr a ha hc
    have := hbl b hb
    simp only [blockReady, Bool.and_eq_true, Bool.or_eq_true, Bool.not_eq_true', List.any_eq_false] at this
    exact this.1.1.2.resolve_right fun h => h r hr ((ht b hb r hr a ha).1 hc)
  · intro b hb r hr a ha hc
    have := hbl b hb
    simp only [blockReady, Bool.and_eq_true, Bool.or_eq_true, Bool.not_eq_true', List.any_eq_false] at this
    exact this.1.2.resolve_right fun h => h r hr ((ht b hb r hr a ha).2 hc)

/-- a connective between single spaces, with no word `then` before it, is found -/
theorem Engine.textRequires_of_spaces (k p q : Str) (hk : k ≠ thenKeyword) (hb : Op.NoBlank k)
    (hp : thenKeyword ∉ Op.words p) : textRequires k (p ++ cs! " " ++ k ++ cs! " " ++ q) = true := by
  generalize htext : p ++ cs! " " ++ k ++ cs! " " ++ q = text
  have hne : ∀ k : Str, cs! " " ++ k ++ cs! " " ≠ [] := fun k => by simp
  have hocc : cs! " " ++ k ++ cs! " " <:+: text := ⟨p, q, by rw [← htext]; simp [List.append_assoc]⟩
  unfold textRequires position
  cases h1 : Op.search (cs! " " ++ k ++ cs! " ") text with
  | none => exact absurd hocc (Op.search_none _ (hne k) text h1)
  | some x =>
    obtain ⟨p1, r1⟩ := x
    obtain ⟨e1, f1⟩ := Op.search_some _ (hne k) text p1 r1 h1
    -- the first occurrence is not after `p`
    have hle : p1.length ≤ p.length := by
      by_contra hlt
      apply f1
      have e2 : p ++ (cs! " " ++ k ++ cs! " ") ++ q = p1 ++ (cs! " " ++ k ++ cs! " ") ++ r1 := by
        rw [← e1, ← htext]; simp [List.append_assoc]
      have hl : (p ++ (cs! " " ++ k ++ cs! " ")).length ≤ (p1 ++ (cs! " " ++ k ++ cs! " ").dropLast).length := by
        simp only [List.length_append, List.length_dropLast]
        have : 0 < (cs! " " ++ k ++ cs! " ").length := List.length_pos_of_ne_nil (hne k)
        simp only [List.length_append] at this
        omega
      have hpre1 : p ++ (cs! " " ++ k ++ cs! " ") <+: p1 ++ (cs! " " ++ k ++ cs! " ") ++ r1 := ⟨q, e2⟩
      have hpre2 : p1 ++ (cs! " " ++ k ++ cs! " ").dropLast <+: p1 ++ (cs! " " ++ k ++ cs! " ") ++ r1 := by
        generalize cs! " " ++ k ++ cs! " " = m
        rw [List.append_assoc]
        exact (List.prefix_append_right_inj p1).2 ((List.dropLast_prefix _).trans (List.prefix_append _ _))
      have := List.prefix_of_prefix_length_le hpre1 hpre2 hl
      exact (List.suffix_append p _).isInfix.trans this.isInfix
    simp only [Option.map_some]
    cases h2 : Op.search (cs! " " ++ thenKeyword ++ cs! " ") text with
    | none => rfl
    | some x =>
      obtain ⟨c, d⟩ := x
      obtain ⟨e2, -⟩ := Op.search_some _ (hne thenKeyword) text c d h2
      simp only [Option.map_some, before, decide_eq_true_eq]
      by_contra hlt
      have hcp : c.length ≤ p.length := by omega
      -- `c ++ " "` is a prefix of `p ++ " "`
      have heq : (p ++ cs! " ") ++ (k ++ cs! " " ++ q) = (c ++ cs! " ") ++ (thenKeyword ++ cs! " " ++ d) := by
        have : p ++ cs! " " ++ k ++ cs! " " ++ q = c ++ (cs! " " ++ thenKeyword ++ cs! " ") ++ d := htext.trans e2
        simpa [List.append_assoc] using this
      obtain ⟨x, hx⟩ := List.prefix_of_prefix_length_le (l₁ := c ++ cs! " ") (l₂ := p ++ cs! " ")
        ⟨_, heq.symm⟩ ⟨_, rfl⟩ (by simp only [List.length_append]; omega)
      rw [← hx, List.append_assoc, List.append_cancel_left_eq] at heq
      have hblank : isSpace ' ' = true := by decide
      have hthen : Op.NoBlank thenKeyword := by unfold Op.NoBlank; decide
      rcases List.eq_nil_or_concat x with rfl | ⟨y, z, rfl⟩
      · -- the connective itself would be `then`
        have w1 : Op.words (k ++ ' ' :: q) = Op.words (thenKeyword ++ ' ' :: d) := by
          have : k ++ ' ' :: q = thenKeyword ++ ' ' :: d := by simpa [List.append_assoc] using heq
          rw [this]
        have hk0 : k ++ ' ' :: q = thenKeyword ++ ' ' :: d := by simpa [List.append_assoc] using heq
        have t1 : (k ++ ' ' :: q).takeWhile (fun c => !isSpace c) = k := by
          rw [List.takeWhile_append_of_pos]
          · simp [hblank]
          · intro c hc; simpa using hb c hc
        have t2 : (thenKeyword ++ ' ' :: d).takeWhile (fun c => !isSpace c) = thenKeyword := by
          rw [List.takeWhile_append_of_pos]
          · simp [hblank]
          · intro c hc; simpa using hthen c hc
        exact hk (by rw [← t1, hk0, t2])
      · -- `then` would be a word of `p`
        have hz : z = ' ' := by
          have : ((c ++ cs! " " ++ y) ++ [z]).getLast? = (p ++ cs! " ").getLast? := by
            rw [← hx]; simp [List.concat_eq_append, List.append_assoc]
          rw [List.getLast?_concat, List.getLast?_concat] at this
          simpa using this
        subst hz
        have hp' : p = c ++ ' ' :: y := by
          have : (c ++ ' ' :: y) ++ [' '] = p ++ [' '] := by simpa [List.concat_eq_append, List.append_assoc] using hx
          exact (List.append_cancel_right this).symm
        have hw : Op.words (y ++ ' ' :: (k ++ ' ' :: q)) = Op.words (thenKeyword ++ ' ' :: d) := by
          have : y ++ ' ' :: (k ++ ' ' :: q) = thenKeyword ++ ' ' :: d := by
            simpa [List.concat_eq_append, List.append_assoc] using heq
          rw [this]
        have hy : y ++ ' ' :: (k ++ ' ' :: q) = thenKeyword ++ ' ' :: d := by
          simpa [List.concat_eq_append, List.append_assoc] using heq
        rw [Op.words_blank _ _ _ hblank, Op.words_blank thenKeyword _ _ hblank,
          Op.words_single thenKeyword (by decide) hthen] at hw
        apply hp
        rw [hp', Op.words_blank _ _ _ hblank]
        cases hwy : Op.words y with
        | cons t ts =>
          rw [hwy] at hw
          simp only [List.cons_append, List.nil_append, List.cons.injEq] at hw
          rw [hw.1]
          simp
        | nil =>
          exfalso
          have hall := (Antecedent.words_nil_iff y).1 hwy
          cases y with
          | nil =>
            have := congrArg List.head? hy
            revert this
            simp [thenKeyword]
          | cons c0 y =>
            have h0 : some c0 = some 't' := congrArg List.head? hy
            simp only [Option.some.injEq] at h0
            subst h0
            simp only [List.all_cons, Bool.and_eq_true] at hall
            exact absurd hall.1 (by decide)

/-- **C45 (partial)**, for rules whose connectives are written between single spaces before any word
`then`. -/
theorem Engine.ready_spaced_partial [Heap S] (e : Engine S) (h : e.isReady = true)
    (ht : ∀ b ∈ e.blocks, ∀ r ∈ b.rules, ∀ a, r.antecedent = some a →
      (a.hasConj = true → ∃ p q, r.text = p ++ cs! " and " ++ q ∧ cs! "then" ∉ Op.words p) ∧
      (a.hasDisj = true → ∃ p q, r.text = p ++ cs! " or " ++ q ∧ cs! "then" ∉ Op.words p))
    (err : Err) (herr : e.process.2 = some err) : ¬ err.Missing := by
  refine e.ready_partial h (fun b hb r hr a ha => ⟨fun hc => ?_, fun hd => ?_⟩) err herr
  · obtain ⟨p, q, h1, h2⟩ := (ht b hb r hr a ha).1 hc
    have := textRequires_of_spaces andKeyword p q (by decide) (by unfold Op.NoBlank; decide) h2
    rw [h1]
    simpa [andKeyword, List.append_assoc] using this
  · obtain ⟨p, q, h1, h2⟩ := (ht b hb r hr a ha).2 hd
    have := textRequires_of_spaces orKeyword p q (by decide) (by unfold Op.NoBlank; decide) h2
    rw [h1]
    simpa [orKeyword, List.append_assoc] using this

namespace ReadyDemo

/-- an engine without conjunction, with one rule -/
def engine (text : Str) : Engine (Ext Rat) :=
  let t : Term (Ext Rat) := ⟨cs! "low", .fin 1, .shape (.ramp (.fin 1) (.fin 0))⟩
  let ins := [{ Variable.new (cs! "a") (.fin 0) (.fin 1) [t] with value := .fin (1/4) },
              { Variable.new (cs! "b") (.fin 0) (.fin 1) [t] with value := .fin (1/2) }]
  let outs := [{ OutputVariable.new (cs! "y") (.fin 0) (.fin 10) [⟨cs! "t", .fin 1, .constant (.fin 5)⟩] with
      defuzzifier := some (.weighted .average .takagiSugeno) }]
  ⟨[], [], ins, outs,
   [{ RuleBlock.new [] with rules := (loadRules Registry.default (World.mk ins outs).vocabulary [Rule.new text]).1 }]⟩

local instance : Heap (Ext Rat) := RuleBlock.stableHeap _

/-- the missing conjunction is reported for the usual way of writing rules, and an engine with a rule
that needs none is ready and processes -/
example : (engine (cs! "if a is low and b is low then y is t")).isReady = false ∧
    (engine (cs! "if a is low then y is t")).isReady = true ∧
    (engine (cs! "if a is low then y is t")).process.2 = none := by decide +kernel

/-- with a conjunction the first is ready, and the hypothesis on its text holds -/
example : let e0 : Engine (Ext Rat) := engine (cs! "if a is low and b is low then y is t")
    let e : Engine (Ext Rat) := { e0 with blocks := e0.blocks.map fun b => { b with conjunction := some (.builtin .minimum) } }
    e.isReady = true ∧ e.process.2 = none ∧ e.process.1.outputValues = [.fin 5] ∧
    cs! "then" ∉ Op.words (cs! "if a is low") := by decide +kernel

/-- C45 is violated by a rule with a tab before its connective. -/
theorem ready_tab_violated :
    (engine (cs! "if a is low\tand b is low then y is t")).isReady = true ∧
    (engine (cs! "if a is low\tand b is low then y is t")).process.2 = some .missingConjunction := by decide +kernel

/-- C45 is violated by a rule with parentheses next to its connective. -/
theorem ready_parenthesis_violated :
    (engine (cs! "if (a is low)or(b is low) then y is t")).isReady = true ∧
    (engine (cs! "if (a is low)or(b is low) then y is t")).process.2 = some .missingDisjunction := by decide +kernel

end ReadyDemo
end FL
