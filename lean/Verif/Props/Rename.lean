/-
C100: names do not matter.
-/
import Verif.Props.Process
import Verif.Props.Aggregated

namespace FL
open Scalar
variable {S : Type} [Scalar S]

/-- new names: of variables, and of the terms of the variable whose (old) name is given first -/
structure Renaming where
  ofVariable : Str → Str
  ofTerm : Str → Str → Str

/-- the term with another name -/
def Term.rename (s : Str → Str) (t : Term S) : Term S := { t with name := s t.name }

def Activated.rename (s : Str → Str) (a : Activated S) : Activated S := { a with term := a.term.rename s }

def Aggregated.rename (s : Str → Str) (g : Aggregated S) : Aggregated S := { g with terms := g.terms.map (Activated.rename s) }

/-- the variable and its terms with other names -/
def Variable.rename (ρ : Renaming) (v : Variable S) : Variable S :=
  { v with
    name := ρ.ofVariable v.name
    terms := v.terms.map (Term.rename (ρ.ofTerm v.name)) }

/-- the same for an output variable, with its fuzzy output -/
def OutputVariable.rename (ρ : Renaming) (o : OutputVariable S) : OutputVariable S :=
  { o with
    toVariable := o.toVariable.rename ρ
    fuzzy := { o.fuzzy.rename (ρ.ofTerm o.name) with
      name := ρ.ofVariable o.fuzzy.name } }

def World.rename (ρ : Renaming) (w : World S) : World S := ⟨w.inputs.map (Variable.rename ρ), w.outputs.map (OutputVariable.rename ρ)⟩

/-- the engine whose variables and terms have other names; its rules refer to the same variables and terms as before -/
def Engine.rename (ρ : Renaming) (e : Engine S) : Engine S :=
  { e with
    inputs := e.inputs.map (Variable.rename ρ)
    outputs := e.outputs.map (OutputVariable.rename ρ) }

/-- the names of the variables of an engine -/
def Engine.variableNames (e : Engine S) : List Str := (e.inputs.map fun v => v.name) ++ e.outputs.map fun o => o.name

/-! ### terms -/

theorem Term.rename_membership {names : List Str} {t : Term S} (h : t.ReadsNone names) (s : Str → Str) {ctx ctx' : Ctx S}
    (hi : ctx'.inputs.map Prod.snd = ctx.inputs.map Prod.snd)
    (h1 : ∀ n ∈ ctx.inputs.map Prod.fst, n ∈ names) (h2 : ∀ n ∈ ctx.outputs.map Prod.fst, n ∈ names)
    (h1' : ∀ n ∈ ctx'.inputs.map Prod.fst, n ∈ names) (h2' : ∀ n ∈ ctx'.outputs.map Prod.fst, n ∈ names) (x : S) :
    (t.rename s).membership ctx' x = t.membership ctx x := by
  unfold Term.membership Term.rename
  cases hk : t.kind with
  | shape s => rfl
  | discrete xy => rfl
  | constant v => rfl
  | linear c e => simp only [hi]
  | function f =>
    simp only [Fun.membership, Fun.membershipS]
    cases hr : f.root with
    | none => rfl
    | some root =>
      simp only
      refine Node.evaluate_congr root _ _ fun n hn => ?_
      cases he : f.hasEngine with
      | false => simp only [Fun.bind, he]; rfl
      | true =>
        rw [Fun.bind_apply f he, Fun.bind_apply f he]
        rcases h f hk he root hr n hn with hx | hx
        · rw [if_pos hx, if_pos hx]
        · rw [find_of_notMem (xs := ctx.outputs) (n := n) (fun h => hx (h2 n h)), find_of_notMem (xs := ctx'.outputs) (n := n) (fun h => hx (h2' n h)),
            find_of_notMem (xs := ctx.inputs) (n := n) (fun h => hx (h1 n h)), find_of_notMem (xs := ctx'.inputs) (n := n) (fun h => hx (h1' n h))]

/-! ### fuzzy outputs -/

namespace Aggregated

theorem rename_membership {s : Str → Str} {g : Aggregated S} {ctx ctx' : Ctx S}
    (h : ∀ a ∈ g.terms, ∀ x, (a.term.rename s).membership ctx' x = a.term.membership ctx x) (x : S) :
    (g.rename s).membership ctx' x = g.membership ctx x := by
  unfold membership
  have he : (g.rename s).terms.isEmpty = g.terms.isEmpty := by simp [rename]
  have ha : (g.rename s).aggregation = g.aggregation := rfl
  rw [ha, he]
  split
  · rfl
  · cases g.aggregation with
    | none => rfl
    | some agg =>
      simp only [rename]
      generalize (lit 0 : S) = m
      generalize g.terms = l at h
      induction l generalizing m with
      | nil => rfl
      | cons a l ih =>
        rw [List.map_cons, List.foldlM_cons, List.foldlM_cons]
        have hm : (a.rename s).membership ctx' x = a.membership ctx x := by
          unfold Activated.membership Activated.rename
          simp only [h a List.mem_cons_self]
        rw [hm]
        congr 1
        funext m
        exact ih m fun a ha => h a (List.mem_cons_of_mem _ ha)

theorem rename_activationDegree (s : Str → Str) (g : Aggregated S) (id : Nat) :
    (g.rename s).activationDegree id = g.activationDegree id := by
  unfold activationDegree
  simp only [rename, List.foldlM_map]
  rfl

def renameGroups (s : Str → Str) (G : Groups S) : Groups S := G.map fun p => (s p.1, p.2.rename s)

omit [Scalar S] in
theorem rename_find {s : Str → Str} (hs : Function.Injective s) (G : Groups S) (n : Str) :
    ((renameGroups s G).find? fun p => p.1 == s n) = (G.find? fun p => p.1 == n).map fun p => (s p.1, p.2.rename s) := by
  unfold renameGroups
  rw [List.find?_map]
  congr 2
  funext p
  simp only [Function.comp]
  by_cases h : p.1 = n
  · simp [h]
  · have : s p.1 ≠ s n := fun e => h (hs e)
    simp [h, this]

theorem rename_groupStep {s : Str → Str} (hs : Function.Injective s) (agg : SNorm S) (G : Groups S) (a : Activated S) :
    groupStep agg (renameGroups s G) (a.rename s) = (groupStep agg G a).map (renameGroups s) := by
  unfold groupStep
  have e1 : (a.rename s).term.name = s a.term.name := rfl
  have e2 : (a.rename s).degree = a.degree := rfl
  rw [e1, e2, rename_find hs]
  cases G.find? fun p => p.1 == a.term.name with
  | none => simp only [Option.map_none, renameGroups, List.map_append, List.map_cons, List.map_nil, Except.map]
  | some p =>
    simp only [Option.map_some]
    have e3 : (p.2.rename s).degree = p.2.degree := rfl
    rw [e3]
    cases agg.compute p.2.degree a.degree with
    | error e => rfl
    | ok d =>
      show Except.ok _ = Except.ok _
      congr 1
      simp only [renameGroups, List.map_map]
      apply List.map_congr_left
      intro q _
      simp only [Function.comp]
      by_cases h : q.1 = a.term.name
      · simp [h, Activated.rename]
      · have : s q.1 ≠ s a.term.name := fun e => h (hs e)
        simp [h, this]

omit [Scalar S] in
theorem rename_ungroupStep {s : Str → Str} (hs : Function.Injective s) (l : List (Activated S)) (G : Groups S) (a : Activated S) :
    ungroupStep (l.map (Activated.rename s), renameGroups s G) (a.rename s) =
      ((ungroupStep (l, G) a).1.map (Activated.rename s), renameGroups s (ungroupStep (l, G) a).2) := by
  unfold ungroupStep
  have e1 : (a.rename s).term.name = s a.term.name := rfl
  simp only
  rw [e1, rename_find hs]
  cases G.find? fun p => p.1 == a.term.name with
  | none => rfl
  | some p =>
    simp only [Option.map_some, List.map_append, List.map_cons, List.map_nil, Prod.mk.injEq, true_and]
    simp only [renameGroups, List.filter_map]
    congr 1
    apply List.filter_congr
    intro q _
    simp only [Function.comp]
    by_cases h : q.1 = a.term.name
    · simp [h]
    · have : s q.1 ≠ s a.term.name := fun e => h (hs e)
      simp [h, this]

/-- grouping by name is not affected by new names as long as they are different for different names -/
theorem rename_grouped {s : Str → Str} (hs : Function.Injective s) (g : Aggregated S) :
    (g.rename s).grouped = g.grouped.map (Aggregated.rename s) := by
  have h1 : ∀ (agg : SNorm S) (l : List (Activated S)) (G : Groups S),
      (l.map (Activated.rename s)).foldlM (groupStep agg) (renameGroups s G) = (l.foldlM (groupStep agg) G).map (renameGroups s) := by
    intro agg l
    induction l with
    | nil => intro G; rfl
    | cons a l ih =>
      intro G
      rw [List.map_cons, List.foldlM_cons, List.foldlM_cons, rename_groupStep hs]
      cases groupStep agg G a with
      | error e => rfl
      | ok G => exact ih G
  have h2 : ∀ (l : List (Activated S)) (k : List (Activated S)) (G : Groups S),
      (l.map (Activated.rename s)).foldl ungroupStep (k.map (Activated.rename s), renameGroups s G) =
        ((l.foldl ungroupStep (k, G)).1.map (Activated.rename s), renameGroups s (l.foldl ungroupStep (k, G)).2) := by
    intro l
    induction l with
    | nil => intro k G; rfl
    | cons a l ih =>
      intro k G
      rw [List.map_cons, List.foldl_cons, List.foldl_cons, rename_ungroupStep hs, ih]
  unfold grouped
  have e1 := h1 (g.aggregation.getD (.builtin .unboundedSum)) g.terms []
  have e0 : (renameGroups s ([] : Groups S)) = [] := rfl
  rw [e0] at e1
  have e2 : (g.rename s).terms = g.terms.map (Activated.rename s) := rfl
  have e3 : (g.rename s).aggregation = g.aggregation := rfl
  rw [e2, e3]
  simp only
  rw [e1]
  cases g.terms.foldlM (groupStep (g.aggregation.getD (.builtin .unboundedSum))) [] with
  | error e => rfl
  | ok G =>
    have := h2 g.terms [] G
    simp only [List.map_nil] at this
    show Except.ok _ = Except.ok _
    congr 1
    rw [this]
    rfl

end Aggregated

theorem Aggregated.grouped_term {g k : Aggregated S} (h : g.grouped = .ok k) : ∀ b ∈ k.terms, ∃ a ∈ g.terms, b.term = a.term := by
  intro a ha
  obtain ⟨first, rest, h1, h2, -⟩ := (grouped_spec g k h).2.2.2 a ha
  refine ⟨first, ?_, by rw [h2]⟩
  have : first ∈ g.terms.filter (fun b => b.term.name == a.term.name) := by rw [h1]; exact List.mem_cons_self
  exact (List.mem_filter.1 this).1

theorem Weighted.rename_sums (s : Str → Str) {z z' : Activated S → Except Err S} (l : List (Activated S))
    (h : ∀ a ∈ l, z' (a.rename s) = z a) : Weighted.sums z' (l.map (Activated.rename s)) = Weighted.sums z l := by
  unfold Weighted.sums
  generalize ((lit 0, lit 0) : S × S) = m
  induction l generalizing m with
  | nil => rfl
  | cons a l ih =>
    rw [List.map_cons, List.foldlM_cons, List.foldlM_cons, h a List.mem_cons_self]
    congr 1
    funext m
    exact ih (fun a ha => h a (List.mem_cons_of_mem _ ha)) m

theorem Weighted.rename_defuzzify {s : Str → Str} (hs : Function.Injective s) (k : WeightedKind) (type : WeightedType) {g : Aggregated S}
    {ctx ctx' : Ctx S} (h : ∀ a ∈ g.terms, ∀ x, (a.term.rename s).membership ctx' x = a.term.membership ctx x) :
    Weighted.defuzzify ctx' k type (g.rename s) = Weighted.defuzzify ctx k type g := by
  unfold Weighted.defuzzify
  have he : (g.rename s).terms.isEmpty = g.terms.isEmpty := by simp [Aggregated.rename]
  have hi : Weighted.inferTypes ((g.rename s).terms.map Activated.term) = Weighted.inferTypes (g.terms.map Activated.term) := by
    unfold Weighted.inferTypes
    have : ((g.rename s).terms.map Activated.term).map Weighted.inferTerm = (g.terms.map Activated.term).map Weighted.inferTerm := by
      simp only [Aggregated.rename, List.map_map]
      rfl
    rw [this]
  rw [he, hi, Aggregated.rename_grouped hs]
  split
  · rfl
  · have key : ∀ z z' : Activated S → Except Err S, (∀ a : Activated S, (∃ b ∈ g.terms, a.term = b.term) → z' (a.rename s) = z a) →
        (do
          let grouped ← g.grouped.map (Aggregated.rename s)
          let s ← Weighted.sums z' grouped.terms
          .ok (match k with
            | .average => s.1 / s.2
            | .sum => s.1)) =
        (do
          let grouped ← g.grouped
          let s ← Weighted.sums z grouped.terms
          .ok (match k with
            | .average => s.1 / s.2
            | .sum => s.1)) := by
      intro z z' hz
      cases hg : g.grouped with
      | error e => rfl
      | ok G =>
        simp only [Except.map, bind, Except.bind]
        have e2 : (G.rename s).terms = G.terms.map (Activated.rename s) := rfl
        rw [e2, Weighted.rename_sums s G.terms fun a ha => hz a (Aggregated.grouped_term hg a ha)]
    have k1 := key (fun a => a.term.membership ctx a.degree) (fun a => a.term.membership ctx' a.degree) (by
      rintro a ⟨b, hb, hab⟩
      have := h b hb a.degree
      rw [← hab] at this
      exact this)
    have k2 := key (fun a => a.term.tsukamoto a.degree) (fun a => a.term.tsukamoto a.degree) (fun _ _ => rfl)
    by_cases ht : type = .automatic
    · simp only [ht, if_true]
      cases Weighted.inferTypes (g.terms.map Activated.term) with
      | error e => rfl
      | ok t =>
        cases t with
        | automatic => rfl
        | takagiSugeno => exact k1
        | tsukamoto => exact k2
    · simp only [ht, if_false]
      cases type with
      | automatic => rfl
      | takagiSugeno => exact k1
      | tsukamoto => exact k2

theorem Defuzzifier.rename_defuzzify {s : Str → Str} (hs : Function.Injective s) (d : Defuzzifier) {g : Aggregated S} (mn mx : S)
    {ctx ctx' : Ctx S} (h : ∀ a ∈ g.terms, ∀ x, (a.term.rename s).membership ctx' x = a.term.membership ctx x) :
    d.defuzzify ctx' (g.rename s) mn mx = d.defuzzify ctx g mn mx := by
  cases d with
  | integral k r =>
    have : (g.rename s).membership ctx' = g.membership ctx := funext fun x => Aggregated.rename_membership h x
    simp only [Defuzzifier.defuzzify, this]
  | weighted k t => exact Weighted.rename_defuzzify hs k t h

/-! ### rules -/

omit [Scalar S] in
theorem World.rename_ctx_values (ρ : Renaming) (w : World S) : (w.rename ρ).ctx.inputs.map Prod.snd = w.ctx.inputs.map Prod.snd := by
  simp only [World.ctx, World.rename, List.map_map]
  rfl

theorem rename_modifyLoop (ρ : Renaming) (imp : Option (TNorm S)) (ps : List (Proposition S)) (w : World S) (d : S) :
    modifyLoop imp (w.rename ρ) d ps = ((modifyLoop imp w d ps).1.rename ρ, (modifyLoop imp w d ps).2) := by
  induction ps generalizing w d with
  | nil => rfl
  | cons p ps ih =>
    obtain ⟨v, hs, t⟩ := p
    cases v with
    | input i => rfl
    | output i =>
      cases t with
      | none => rfl
      | some j =>
        simp only [modifyLoop]
        have e1 : (w.rename ρ).outputs[i]? = w.outputs[i]?.map (OutputVariable.rename ρ) := List.getElem?_map
        rw [e1]
        cases w.outputs[i]? with
        | none => rfl
        | some o =>
          simp only [Option.map_some]
          have e2 : (o.rename ρ).enabled = o.enabled := rfl
          have e3 : (o.rename ρ).terms[j]? = o.terms[j]?.map (Term.rename (ρ.ofTerm o.name)) := List.getElem?_map
          rw [e2, e3]
          split
          · exact ih w d
          · cases applyHedges hs d with
            | error e => rfl
            | ok d' =>
              simp only
              cases o.terms[j]? with
              | none => rfl
              | some t =>
                simp only [Option.map_some]
                rw [← ih]
                congr 1
                unfold World.rename
                simp only [List.map_set]
                congr 2
                simp [OutputVariable.rename, Aggregated.addTerm, Aggregated.rename, Activated.rename]

theorem rename_blind (ρ : Renaming) (I : List (Variable S)) (onames names : List Str) (hI : ∀ v ∈ I, ∀ t ∈ v.terms, t.ReadsNone names)
    (h1 : ∀ v ∈ I, v.name ∈ names ∧ ρ.ofVariable v.name ∈ names) (h2 : ∀ n ∈ onames, n ∈ names ∧ ρ.ofVariable n ∈ names) :
    RuleBlock.Blind (World.rename ρ) fun w : World S => w.inputs = I ∧ (w.outputs.map fun o => o.name) = onames := by
  refine ⟨?_, ?_, ?_⟩
  · rintro w ⟨k1, k2⟩ e c d
    have c1 : ∀ n ∈ w.ctx.inputs.map Prod.fst, n ∈ names := by
      simp only [World.ctx, List.map_map, k1]
      rintro n hn
      obtain ⟨v, hv, rfl⟩ := List.mem_map.1 hn
      exact (h1 v hv).1
    have c2 : ∀ n ∈ w.ctx.outputs.map Prod.fst, n ∈ names := by
      rw [World.ctx_names, k2]
      exact fun n hn => (h2 n hn).1
    have c1' : ∀ n ∈ (w.rename ρ).ctx.inputs.map Prod.fst, n ∈ names := by
      simp only [World.ctx, World.rename, List.map_map, k1]
      rintro n hn
      obtain ⟨v, hv, rfl⟩ := List.mem_map.1 hn
      exact (h1 v hv).2
    have c2' : ∀ n ∈ (w.rename ρ).ctx.outputs.map Prod.fst, n ∈ names := by
      simp only [World.ctx, World.rename, List.map_map]
      rintro n hn
      obtain ⟨o, ho, rfl⟩ := List.mem_map.1 hn
      exact (h2 o.name (by rw [← k2]; exact List.mem_map_of_mem (f := fun o : OutputVariable S => o.name) ho)).2
    have hprop : ∀ p : Proposition S, p.degree (w.rename ρ) = p.degree w := by
      intro p
      have e1 : (w.rename ρ).isEnabled p.var = w.isEnabled p.var := by
        cases p.var with
        | input i => simp only [World.isEnabled, World.rename, List.getElem?_map, Option.map_map]; rfl
        | output i => simp only [World.isEnabled, World.rename, List.getElem?_map, Option.map_map]; rfl
      have e2 : ∀ j, (w.rename ρ).termDegree p.var j = w.termDegree p.var j := by
        intro j
        cases p.var with
        | input i =>
          simp only [World.termDegree]
          have : (w.rename ρ).inputs[i]? = w.inputs[i]?.map (Variable.rename ρ) := List.getElem?_map
          rw [this]
          cases hv : w.inputs[i]? with
          | none => rfl
          | some v =>
            simp only [Option.map_some]
            have : (v.rename ρ).terms[j]? = v.terms[j]?.map (Term.rename (ρ.ofTerm v.name)) := List.getElem?_map
            rw [this]
            cases ht : v.terms[j]? with
            | none => rfl
            | some t =>
              simp only [Option.map_some]
              exact Term.rename_membership (hI v (by rw [← k1]; exact List.mem_of_getElem? hv) t (List.mem_of_getElem? ht)) _
                (w.rename_ctx_values ρ) c1 c2 c1' c2' _
        | output i =>
          simp only [World.termDegree]
          have : (w.rename ρ).outputs[i]? = w.outputs[i]?.map (OutputVariable.rename ρ) := List.getElem?_map
          rw [this]
          cases w.outputs[i]? with
          | none => rfl
          | some o => exact Aggregated.rename_activationDegree _ o.fuzzy j
      unfold Proposition.degree
      rw [e1]
      simp only [e2]
    induction e with
    | prop p => exact hprop p
    | conj l r ihl ihr => simp only [Expr.degree, ihl, ihr]
    | disj l r ihl ihr => simp only [Expr.degree, ihl, ihr]
  · intro w _ x imp ps
    unfold modify
    split
    · rfl
    · exact rename_modifyLoop ρ imp ps w x
  · rintro w ⟨k1, k2⟩ x imp ps
    have := modify_frame w x imp ps
    exact ⟨this.inputs.trans k1, this.names.trans k2⟩

/-! ### defuzzification -/

theorem OutputVariable.rename_defuzzify {ρ : Renaming} (hs : ∀ n, Function.Injective (ρ.ofTerm n)) (o : OutputVariable S) {ctx ctx' : Ctx S}
    (h : ∀ a ∈ o.fuzzy.terms, ∀ x, (a.term.rename (ρ.ofTerm o.name)).membership ctx' x = a.term.membership ctx x) :
    (o.rename ρ).defuzzify ctx' = (o.defuzzify ctx).map (OutputVariable.rename ρ) := by
  unfold OutputVariable.defuzzify
  have e1 : (o.rename ρ).enabled = o.enabled := rfl
  have e2 : (o.rename ρ).defuzzifier = o.defuzzifier := rfl
  rw [e1, e2]
  split
  · rfl
  · cases o.defuzzifier with
    | none => rfl
    | some d =>
      have e3 : d.defuzzify ctx' (o.rename ρ).fuzzy (o.rename ρ).minimum (o.rename ρ).maximum =
          d.defuzzify ctx' (o.fuzzy.rename (ρ.ofTerm o.name)) o.minimum o.maximum :=
        d.defuzzify_alike o.minimum o.maximum rfl (List.forall₂_same.2 fun _ _ => ⟨rfl, rfl, rfl, fun _ => rfl, fun _ => rfl, rfl⟩)
      simp only
      rw [e3, Defuzzifier.rename_defuzzify (hs o.name) d o.minimum o.maximum h]
      cases d.defuzzify ctx o.fuzzy o.minimum o.maximum with
      | error e => rfl
      | ok z => rfl

namespace Engine

theorem rename_defuzzifyAll {ρ : Renaming} (hs : ∀ n, Function.Injective (ρ.ofTerm n)) (I : List (Variable S)) (names : List Str)
    (h1 : ∀ v ∈ I, v.name ∈ names ∧ ρ.ofVariable v.name ∈ names) (os done : List (OutputVariable S))
    (h2 : ∀ o ∈ done ++ os, o.name ∈ names ∧ ρ.ofVariable o.name ∈ names)
    (hr : ∀ o ∈ os, ∀ a ∈ o.fuzzy.terms, a.term.ReadsNone names) :
    defuzzifyAll (I.map (Variable.rename ρ)) (done.map (OutputVariable.rename ρ)) (os.map (OutputVariable.rename ρ)) =
      ((defuzzifyAll I done os).1.map (OutputVariable.rename ρ), (defuzzifyAll I done os).2) := by
  induction os generalizing done with
  | nil => rfl
  | cons o os ih =>
    rw [List.map_cons, defuzzifyAll_cons, defuzzifyAll_cons]
    have hw : (⟨I.map (Variable.rename ρ), done.map (OutputVariable.rename ρ) ++ o.rename ρ :: os.map (OutputVariable.rename ρ)⟩ : World S) =
        World.rename ρ ⟨I, done ++ o :: os⟩ := by simp [World.rename]
    rw [hw]
    have hd := OutputVariable.rename_defuzzify (ρ := ρ) hs o (ctx := World.ctx ⟨I, done ++ o :: os⟩)
      (ctx' := (World.rename ρ ⟨I, done ++ o :: os⟩).ctx) (fun a ha x => by
        refine Term.rename_membership (hr o List.mem_cons_self a ha) _ (World.rename_ctx_values ρ _) ?_ ?_ ?_ ?_ x
        · simp only [World.ctx, List.map_map]
          rintro n hn
          obtain ⟨v, hv, rfl⟩ := List.mem_map.1 hn
          exact (h1 v hv).1
        · simp only [World.ctx, List.map_map]
          rintro n hn
          obtain ⟨v, hv, rfl⟩ := List.mem_map.1 hn
          exact (h2 v hv).1
        · simp only [World.ctx, World.rename, List.map_map]
          rintro n hn
          obtain ⟨v, hv, rfl⟩ := List.mem_map.1 hn
          exact (h1 v hv).2
        · simp only [World.ctx, World.rename, List.map_map]
          rintro n hn
          obtain ⟨v, hv, rfl⟩ := List.mem_map.1 hn
          exact (h2 v hv).2)
    rw [hd]
    cases hq : o.defuzzify (World.ctx ⟨I, done ++ o :: os⟩) with
    | error e => simp [Except.map]
    | ok q =>
      simp only [Except.map]
      have hnq : q.name = o.name := by rw [(defuzzify_frame _ _ _ hq).1]
      rw [← ih (done ++ [q]) (fun p hp => by
        simp only [List.append_assoc, List.cons_append, List.nil_append, List.mem_append, List.mem_cons] at hp
        rcases hp with hp | rfl | hp
        · exact h2 p (by simp [hp])
        · rw [hnq]; exact h2 o (by simp)
        · exact h2 p (by simp [hp])) (fun o ho => hr o (List.mem_cons_of_mem _ ho))]
      simp

/-- **C100 (partial: no formula mentions a variable of the engine by its old or its new name, and different terms of a variable keep different
names).**  Processing an engine whose variables and terms are called differently gives what processing gives, with the different names: the same values,
degrees, marks, and the same exception.  The names of variables need not be different.  A renaming of finitely many names without collision is part of one
that is injective. -/
theorem process_rename_partial [Heap S] (e : Engine S) (ρ : Renaming) (hs : ∀ n, Function.Injective (ρ.ofTerm n))
    (hi : ∀ v ∈ e.inputs, ∀ t ∈ v.terms, t.ReadsNone (e.variableNames ++ (e.rename ρ).variableNames))
    (ho : ∀ o ∈ e.outputs, ∀ t ∈ o.terms, t.ReadsNone (e.variableNames ++ (e.rename ρ).variableNames)) :
    (e.rename ρ).process = (e.process.1.rename ρ, e.process.2) := by
  obtain ⟨names, hnames⟩ : ∃ names, names = e.variableNames ++ (e.rename ρ).variableNames := ⟨_, rfl⟩
  rw [← hnames] at hi ho
  have h1 : ∀ v ∈ e.inputs, v.name ∈ names ∧ ρ.ofVariable v.name ∈ names := by
    intro v hv
    rw [hnames]
    refine ⟨List.mem_append_left _ (List.mem_append_left _ (List.mem_map_of_mem (f := fun v : Variable S => v.name) hv)), ?_⟩
    refine List.mem_append_right _ (List.mem_append_left _ ?_)
    exact List.mem_map.2 ⟨v.rename ρ, List.mem_map_of_mem hv, rfl⟩
  have h2 : ∀ n ∈ e.outputs.map (fun o => o.name), n ∈ names ∧ ρ.ofVariable n ∈ names := by
    intro n hn
    obtain ⟨o, hmem, rfl⟩ := List.mem_map.1 hn
    rw [hnames]
    refine ⟨List.mem_append_left _ (List.mem_append_right _ hn), ?_⟩
    refine List.mem_append_right _ (List.mem_append_right _ ?_)
    exact List.mem_map.2 ⟨o.rename ρ, List.mem_map_of_mem hmem, rfl⟩
  have hc : (e.rename ρ).cleared = e.cleared.rename ρ := by
    simp only [cleared, rename, World.rename, List.map_map]
    rfl
  have hf := activateBlocks_frame e.blocks e.cleared
  have hnc : (e.cleared.outputs.map fun o => o.name) = e.outputs.map fun o => o.name := by
    simp only [cleared, List.map_map]; rfl
  have hinputs : (activateBlocks e.cleared e.blocks).1.inputs = e.inputs := hf.inputs
  have hnw := hf.names.trans hnc
  have hb := (activateBlocks_blind (rename_blind ρ e.inputs _ names hi h1 h2) e.blocks e.cleared ⟨rfl, hnc⟩).1
  rw [← hc] at hb
  have hterms : ∀ o ∈ (activateBlocks e.cleared e.blocks).1.outputs, ∀ a ∈ o.fuzzy.terms, a.term.ReadsNone names := by
    intro o hmem
    obtain ⟨i, hi', rfl⟩ := List.mem_iff_getElem.1 hmem
    have hfo := hf.outputs
    have hlen := hfo.length_eq
    have hi0 : i < e.cleared.outputs.length := by rw [hlen]; exact hi'
    obtain ⟨q1, -, l, q2, q3⟩ := (List.forall₂_iff_get.1 hfo).2 i hi0 hi'
    have hi1 : i < e.outputs.length := by simpa [cleared] using hi0
    have hc : e.cleared.outputs[i] = { e.outputs[i] with fuzzy := e.outputs[i].fuzzy.clear } := by simp [cleared]
    simp only [List.get_eq_getElem] at q1 q2 q3
    rw [hc] at q1 q2 q3
    have q2' : (activateBlocks e.cleared e.blocks).1.outputs[i].fuzzy.terms = l := q2
    rw [q2']
    intro a ha
    exact ho _ (List.getElem_mem hi1) _ (q3 a ha)
  have hbl : (e.rename ρ).blocks = e.blocks := rfl
  rw [process_eq, process_eq, hbl, hb]
  simp only
  generalize (activateBlocks e.cleared e.blocks).1 = w at *
  cases (activateBlocks e.cleared e.blocks).2.2 with
  | some err => rfl
  | none =>
    simp only
    have hd := rename_defuzzifyAll (ρ := ρ) hs w.inputs names (by rw [hinputs]; exact h1) w.outputs [] (by
      intro o hmem
      exact h2 o.name (by rw [← hnw]; exact List.mem_map_of_mem (f := fun o : OutputVariable S => o.name) hmem)) hterms
    simp only [List.map_nil] at hd
    have e1 : (w.rename ρ).inputs = w.inputs.map (Variable.rename ρ) := rfl
    have e2 : (w.rename ρ).outputs = w.outputs.map (OutputVariable.rename ρ) := rfl
    rw [e1, e2, hd]
    rfl

/-- the values after processing -/
theorem values_rename_partial [Heap S] (e : Engine S) (ρ : Renaming) (hs : ∀ n, Function.Injective (ρ.ofTerm n))
    (hi : ∀ v ∈ e.inputs, ∀ t ∈ v.terms, t.ReadsNone (e.variableNames ++ (e.rename ρ).variableNames))
    (ho : ∀ o ∈ e.outputs, ∀ t ∈ o.terms, t.ReadsNone (e.variableNames ++ (e.rename ρ).variableNames)) :
    (e.rename ρ).process.1.outputValues = e.process.1.outputValues ∧ (e.rename ρ).process.2 = e.process.2 := by
  rw [process_rename_partial e ρ hs hi ho]
  refine ⟨?_, rfl⟩
  simp only [outputValues, rename, List.map_map]
  rfl

end Engine

/-! ### what is left out, and examples -/

namespace RenameDemo
local instance : Heap (Ext Rat) := RuleBlock.stableHeap _

/-- the rule concludes both terms of the output variable -/
def engine (first second : Term (Ext Rat)) (a : Ext Rat) : Engine (Ext Rat) :=
  ⟨[], [],
   [{ Variable.new (cs! "a") (.fin 0) (.fin 10) [⟨cs! "any", .fin 1, .shape (.rectangle (.fin 0) (.fin 10))⟩] with value := a }],
   [{ OutputVariable.new (cs! "y") (.fin 0) (.fin 10) [first, second] with
      defuzzifier := some (.weighted .average .takagiSugeno) }],
   [{ RuleBlock.new [] with rules :=
      [{ Rule.new [] with antecedent := some (.prop ⟨.input 0, [], some 0⟩),
                          conclusions := [⟨.output 0, [], some 0⟩, ⟨.output 0, [], some 1⟩] }] }]⟩

def constant (name : Str) (x : Ext Rat) : Term (Ext Rat) := ⟨name, .fin 1, .constant x⟩

def formula (name : Str) (vars : Env (Ext Rat)) : Term (Ext Rat) :=
  ⟨cs! "f", .fin 1, .function { formula := name, root := some (.var name), vars := vars, hasEngine := true }⟩

/-- all names are preceded by a letter -/
def marked : Renaming := ⟨fun n => 'm' :: n, fun _ n => 'm' :: n⟩

/-- all terms get one name -/
def merged : Renaming := ⟨id, fun _ _ => cs! "t"⟩

/-- the variable `a` is called `c` -/
def swapped : Renaming := ⟨fun n => if n = cs! "a" then cs! "c" else n, fun _ n => n⟩

/-- the hypotheses of `process_rename_partial` hold, and what is computed -/
example : ((engine (constant (cs! "low") (.fin 1)) (constant (cs! "high") (.fin 3)) (.fin 4)).rename marked).process.1.outputValues =
    (engine (constant (cs! "low") (.fin 1)) (constant (cs! "high") (.fin 3)) (.fin 4)).process.1.outputValues := by
  refine (Engine.values_rename_partial _ marked (fun _ a b h => (List.cons.inj h).2) ?_ ?_).1
  · intro v hv t ht f hf
    simp only [engine, List.mem_cons, List.not_mem_nil, or_false] at hv
    subst hv
    simp only [Variable.new, List.mem_cons, List.not_mem_nil, or_false] at ht
    subst ht
    simp at hf
  · intro o ho t ht f hf
    simp only [engine, List.mem_cons, List.not_mem_nil, or_false] at ho
    subst ho
    simp only [OutputVariable.new, Variable.new, List.mem_cons, List.not_mem_nil, or_false] at ht
    rcases ht with rfl | rfl <;> simp [constant] at hf

example : ((engine (constant (cs! "low") (.fin 1)) (constant (cs! "high") (.fin 3)) (.fin 4)).rename marked).process.1.outputValues = [.fin 2] ∧
    (((engine (constant (cs! "low") (.fin 1)) (constant (cs! "high") (.fin 3)) (.fin 4)).rename marked).outputs.map fun o => o.name) = [cs! "my"] := by
  decide +kernel

/-- C100 is violated by equal names: weighted defuzzifiers take terms of one name for one term, of which the first counts. -/
theorem merged_violated :
    let e := engine (constant (cs! "low") (.fin 1)) (constant (cs! "high") (.fin 3)) (.fin 4)
    e.process.1.outputValues = [.fin 2] ∧ (e.rename merged).process.1.outputValues = [.fin 1] ∧
    e.process.2 = none ∧ (e.rename merged).process.2 = none := by decide +kernel

/-- C100 is violated by formulas that mention the old name, -/
theorem formula_violated :
    let e := engine (constant (cs! "low") (.fin 1)) (formula (cs! "a") fun _ => none) (.fin 4)
    e.process.2 = none ∧ (e.rename marked).process.2 ≠ none := by decide +kernel

/-- and by formulas that mention the new name: the variable of the formula is hidden by that of the engine. -/
theorem capture_violated :
    let e := engine (constant (cs! "low") (.fin 1)) (formula (cs! "c") fun n => if n = cs! "c" then some (.fin 9) else none) (.fin 5)
    e.process.2 = none ∧ (e.rename swapped).process.2 = none ∧
    e.process.1.outputValues = [.fin 5] ∧ (e.rename swapped).process.1.outputValues = [.fin 3] := by decide +kernel

end RenameDemo
end FL
