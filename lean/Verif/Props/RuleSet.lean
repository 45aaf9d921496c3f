/-
C96: with Maximum the rules of a block are a set: neither their order nor repeating them changes the outputs.
-/
import Verif.Props.Split

namespace FL
open Scalar

section alike
variable {S : Type} [Scalar S]

/-- the same output variable, except for the activated terms of its fuzzy output -/
def OutputVariable.Alike (o p : OutputVariable S) : Prop :=
  p = { o with fuzzy := { o.fuzzy with terms := p.fuzzy.terms } }

/-- defuzzifying gives the same, whatever the values of other output variables are -/
def OutputVariable.SameWorth (ins : List (Str × S)) (o p : OutputVariable S) : Prop :=
  o.enabled = true → ∀ d, o.defuzzifier = some d → ∀ outs : List (Str × S),
    d.defuzzify ⟨ins, outs⟩ p.fuzzy o.minimum o.maximum = d.defuzzify ⟨ins, outs⟩ o.fuzzy o.minimum o.maximum

namespace Engine

/-- the same result or the same exception -/
def SameResult : Except Err (OutputVariable S) → Except Err (OutputVariable S) → Prop
  | .ok o, .ok p => o.Alike p
  | .error e, .error e' => e = e'
  | _, _ => False

theorem defuzzify_alike {ins outs : List (Str × S)} {o p : OutputVariable S} (h : o.Alike p) (hw : o.SameWorth ins p) :
    SameResult (o.defuzzify ⟨ins, outs⟩) (p.defuzzify ⟨ins, outs⟩) := by
  unfold OutputVariable.Alike at h
  generalize hts : p.fuzzy.terms = ts at h
  subst h
  unfold OutputVariable.defuzzify
  cases hen : o.enabled with
  | false => simp only [hen, Bool.not_false, if_true]; rfl
  | true =>
    simp only [hen, Bool.not_true, Bool.false_eq_true, if_false]
    cases hd : o.defuzzifier with
    | none => rfl
    | some d =>
      simp only
      rw [hw hen d hd outs]
      cases hz : d.defuzzify ⟨ins, outs⟩ o.fuzzy o.minimum o.maximum with
      | error e => rfl
      | ok z => rfl

theorem ctx_alike {ins : List (Variable S)} {os ps : List (OutputVariable S)} (h : List.Forall₂ OutputVariable.Alike os ps) :
    World.ctx ⟨ins, ps⟩ = World.ctx ⟨ins, os⟩ := by
  unfold World.ctx
  congr 1
  simp only
  induction h with
  | nil => rfl
  | cons h2 _ ih =>
    rw [List.map_cons, List.map_cons, ih, h2]

theorem defuzzifyAll_alike (ins : List (Variable S)) {os ps : List (OutputVariable S)}
    (h : List.Forall₂ (fun o p => o.Alike p ∧ o.SameWorth (ins.map fun v => (v.name, v.value)) p) os ps) {done done' : List (OutputVariable S)}
    (hd : List.Forall₂ OutputVariable.Alike done done') :
    List.Forall₂ OutputVariable.Alike (defuzzifyAll ins done os).1 (defuzzifyAll ins done' ps).1 ∧
      (defuzzifyAll ins done' ps).2 = (defuzzifyAll ins done os).2 := by
  induction h generalizing done done' with
  | nil => exact ⟨hd, rfl⟩
  | @cons o p os ps hop hrest ih =>
    have hrest' : List.Forall₂ OutputVariable.Alike os ps := hrest.imp fun _ _ h => h.1
    have hctx : World.ctx ⟨ins, done' ++ p :: ps⟩ = World.ctx ⟨ins, done ++ o :: os⟩ :=
      ctx_alike (List.rel_append hd (.cons hop.1 hrest'))
    simp only [defuzzifyAll]
    rw [hctx]
    have key : SameResult (o.defuzzify (World.ctx ⟨ins, done ++ o :: os⟩)) (p.defuzzify (World.ctx ⟨ins, done ++ o :: os⟩)) :=
      defuzzify_alike hop.1 hop.2
    cases ho : o.defuzzify (World.ctx ⟨ins, done ++ o :: os⟩) with
    | error e =>
      cases hp : p.defuzzify (World.ctx ⟨ins, done ++ o :: os⟩) with
      | ok p' => rw [ho, hp] at key; exact key.elim
      | error e' =>
        rw [ho, hp] at key
        have key : e = e' := key
        subst key
        exact ⟨List.rel_append hd (.cons hop.1 hrest'), rfl⟩
    | ok o' =>
      cases hp : p.defuzzify (World.ctx ⟨ins, done ++ o :: os⟩) with
      | error e => rw [ho, hp] at key; exact key.elim
      | ok p' =>
        rw [ho, hp] at key
        exact ih (List.rel_append hd (.cons key .nil))

/-- Engines whose rule blocks add, without exception, terms of the same worth to the fuzzy outputs compute the same: the output variables
are the same afterwards except for the terms, and so is the exception in defuzzifying. -/
theorem process_alike [Heap S] (e : Engine S) (cs : List (RuleBlock S)) {w1 w2 : World S} {bs' cs' : List (RuleBlock S)}
    (h1 : activateBlocks ⟨e.inputs, e.outputs.map fun o => { o with fuzzy := o.fuzzy.clear }⟩ e.blocks = (w1, bs', none))
    (h2 : activateBlocks ⟨e.inputs, e.outputs.map fun o => { o with fuzzy := o.fuzzy.clear }⟩ cs = (w2, cs', none))
    (hi : w1.inputs = w2.inputs)
    (h : List.Forall₂ (fun o p => o.Alike p ∧ o.SameWorth (w1.inputs.map fun v => (v.name, v.value)) p) w1.outputs w2.outputs) :
    ({ e with blocks := cs }).process.2 = e.process.2 ∧
      List.Forall₂ OutputVariable.Alike e.process.1.outputs ({ e with blocks := cs }).process.1.outputs := by
  unfold process
  simp only [h1, h2, ← hi]
  obtain ⟨h3, h4⟩ := defuzzifyAll_alike w1.inputs h (done := []) (done' := []) .nil
  exact ⟨h4, h3⟩

omit [Scalar S] in
theorem values_alike {e e' : Engine S} (h : List.Forall₂ OutputVariable.Alike e.outputs e'.outputs) : e'.outputValues = e.outputValues := by
  unfold outputValues
  generalize e.outputs = os at h ⊢
  generalize e'.outputs = ps at h ⊢
  induction h with
  | nil => rfl
  | cons h2 _ ih =>
    rw [List.map_cons, List.map_cons, ih, h2]

end Engine

/-! ### blocks -/

/-- the second block has the same rules, in any order and any number of times if the method decides about each rule on its own, and is
otherwise the same -/
structure RuleBlock.SameRules (b c : RuleBlock S) : Prop where
  same : c = { b with rules := c.rules }
  rules : c.rules = b.rules ∨ (b.activation.getD .general).Single ∧ ∀ r, r ∈ c.rules ↔ r ∈ b.rules

namespace RuleBlock

theorem activate_sameRules [Heap S] {b c : RuleBlock S} (hbc : b.SameRules c) (w : World S) (h : ∀ r ∈ b.rules, r.OnInputs)
    (xs : List (VarRef × Activated S)) (he : (b.activate (w.append xs)).2.2 = none) :
    ∃ (A B : List (VarRef × Activated S)) (b' c' : RuleBlock S), (∀ a, a ∈ B ↔ a ∈ A) ∧
      (∀ ys, b.activate (w.append ys) = (w.append (ys ++ A), b', none)) ∧
      ∀ ys, c.activate (w.append ys) = (w.append (ys ++ B), c', none) := by
  obtain ⟨hsame, hr⟩ := hbc
  rcases hr with hr | ⟨ha, hm⟩
  · have hc : c = b := by rw [hsame, hr]
    obtain ⟨A, b', e, h1⟩ := activate_steady b w h
    rw [h1 xs] at he
    simp only at he
    subst he
    exact ⟨A, A, b', b', fun _ => .rfl, h1, by rw [hc]; exact h1⟩
  · have h' : ∀ r ∈ c.rules, r.OnInputs := fun r hr => h r ((hm r).1 hr)
    have hact : c.activation = b.activation := by rw [hsame]
    have hcs : ∀ choose : Nat → S → Bool, c.selectStep choose = b.selectStep choose := by
      intro choose; rw [hsame]; rfl
    have hsel : ∀ choose : S → Bool, (eachRule (b.selectStep fun _ => choose) (w.append xs, 0) b.rules).2.2 = none →
        ∃ (A B : List (VarRef × Activated S)) (rs qs : List (Rule S)), (∀ a, a ∈ B ↔ a ∈ A) ∧
        (∀ ys, ∃ k, eachRule (b.selectStep fun _ => choose) (w.append ys, 0) b.rules = ((w.append (ys ++ A), k), rs, none)) ∧
        ∀ ys, ∃ k, eachRule (b.selectStep fun _ => choose) (w.append ys, 0) c.rules = ((w.append (ys ++ B), k), qs, none) := by
      intro choose h0
      obtain ⟨F, hF⟩ := select_does b choose w
      have hn := eachRule_none b.rules (fun r hr => hF r (h r hr)) 0 xs h0
      refine ⟨_, _, _, _, fun a => ?_, fun ys => eachRule_all b.rules (fun r hr => hF r (h r hr)) hn 0 ys,
        fun ys => eachRule_all c.rules (fun r hr => hF r (h' r hr)) (fun r hr => hn r ((hm r).1 hr)) 0 ys⟩
      simp only [List.mem_flatMap, hm]
    unfold activate at he ⊢
    rw [hact]
    generalize b.activation.getD .general = m at ha he ⊢
    cases m with
    | general =>
      obtain ⟨A, B, rs, qs, h1, h3, h4⟩ := hsel (fun _ => true) he
      refine ⟨A, B, { b with
        activation := some .general
        rules := rs }, { c with
        activation := some .general
        rules := qs }, h1, fun ys => ?_, fun ys => ?_⟩
      · obtain ⟨k, h5⟩ := h3 ys
        simp only [activateBy, activateGeneral, h5]
      · obtain ⟨k, h5⟩ := h4 ys
        simp only [activateBy, activateGeneral, hcs, h5]
    | threshold o v =>
      obtain ⟨A, B, rs, qs, h1, h3, h4⟩ := hsel (fun d => o.activates d v) he
      refine ⟨A, B, { b with
        activation := some (.threshold o v)
        rules := rs }, { c with
        activation := some (.threshold o v)
        rules := qs }, h1, fun ys => ?_, fun ys => ?_⟩
      · obtain ⟨k, h5⟩ := h3 ys
        simp only [activateBy, activateThreshold, h5]
      · obtain ⟨k, h5⟩ := h4 ys
        simp only [activateBy, activateThreshold, hcs, h5]
    | _ => exact ha.elim

end RuleBlock

namespace Engine

theorem blocks_sameRules [Heap S] (w : World S) {bs cs : List (RuleBlock S)} (hp : List.Forall₂ RuleBlock.SameRules bs cs)
    (h : ∀ b ∈ bs, ∀ r ∈ b.rules, r.OnInputs) (xs : List (VarRef × Activated S)) (he : (activateBlocks (w.append xs) bs).2.2 = none) :
    ∃ (A B : List (VarRef × Activated S)) (bs' cs' : List (RuleBlock S)), (∀ a, a ∈ B ↔ a ∈ A) ∧
      (∀ ys, activateBlocks (w.append ys) bs = (w.append (ys ++ A), bs', none)) ∧
      ∀ ys, activateBlocks (w.append ys) cs = (w.append (ys ++ B), cs', none) := by
  induction hp generalizing xs with
  | nil => exact ⟨[], [], [], [], fun _ => .rfl, fun ys => by simp [activateBlocks], fun ys => by simp [activateBlocks]⟩
  | @cons b c bs cs hbc _ ih =>
    have hstep : ∃ (A B : List (VarRef × Activated S)) (b' c' : RuleBlock S), (∀ a, a ∈ B ↔ a ∈ A) ∧ Adds w b A b' ∧ Adds w c B c' := by
      have hcen : c.enabled = b.enabled := by rw [hbc.same]
      cases hb : b.enabled with
      | false =>
        rw [hb] at hcen
        exact ⟨[], [], b, c, fun _ => .rfl, fun ys => by simp [activateBlocks, hb], fun ys => by simp [activateBlocks, hcen]⟩
      | true =>
        rw [hb] at hcen
        have hn : (b.activate (w.append xs)).2.2 = none := by
          simp only [activateBlocks, hb, Bool.not_true, Bool.false_eq_true, if_false] at he
          generalize b.activate (w.append xs) = q at he ⊢
          obtain ⟨w1, b1, e1⟩ := q
          cases e1 with
          | none => rfl
          | some e => simp at he
        obtain ⟨A, B, b', c', h1, h3, h4⟩ := RuleBlock.activate_sameRules hbc w (h b List.mem_cons_self) xs hn
        exact ⟨A, B, b', c', h1, fun ys => by simp [activateBlocks, hb, h3], fun ys => by simp [activateBlocks, hcen, h4]⟩
    obtain ⟨A, B, b', c', h1, h3, h4⟩ := hstep
    rw [blocks_cons bs (h3 xs)] at he
    obtain ⟨A', B', bs', cs', h5, h7, h8⟩ := ih (fun b hb => h b (List.mem_cons_of_mem _ hb)) _ he
    refine ⟨A ++ A', B ++ B', b' :: bs', c' :: cs', fun a => by simp only [List.mem_append, h1, h5], fun ys => ?_, fun ys => ?_⟩
    · rw [blocks_cons bs (h3 ys), h7]; simp
    · rw [blocks_cons cs (h4 ys), h8]; simp

end Engine
end alike

/-! ### Maximum -/

section maximum
variable {S : Type} [ScalarOrd S]
open ScalarOrd

theorem opMax_self (a : S) : Op.max a a = a := by
  unfold Op.max Op.stdMax
  cases ha : Op.isNaN a with
  | true => simp [(isNaN_iff a).1 ha]
  | false => simp

/-- maxima are equal if each absorbs the numbers of the other -/
theorem foldl_max_eq (l l' : List S) (z : S) (h : ∀ a ∈ l, Op.max (l'.foldl Op.max z) a = l'.foldl Op.max z)
    (h' : ∀ a ∈ l', Op.max (l.foldl Op.max z) a = l.foldl Op.max z) : l.foldl Op.max z = l'.foldl Op.max z := by
  have key : ∀ (l : List S) (y : S), (∀ a ∈ l, Op.max y a = y) → l.foldl Op.max y = y := by
    intro l
    induction l with
    | nil => intros; rfl
    | cons a l ih =>
      intro y hy
      rw [List.foldl_cons, hy a List.mem_cons_self]
      exact ih y fun b hb => hy b (List.mem_cons_of_mem _ hb)
  have e1 := key l _ h
  have e2 := key l' _ h'
  rw [← List.foldl_append] at e1 e2
  rw [← e1, ← e2]
  refine List.Perm.foldl_eq' List.perm_append_comm (fun x _ y _ z => ?_) z
  rw [opMax_assoc, opMax_assoc, opMax_comm x y]

/-- a maximum absorbs the numbers it is taken over -/
theorem foldl_max_absorbs (l : List S) (z a : S) (h : a ∈ l) : Op.max (l.foldl Op.max z) a = l.foldl Op.max z := by
  have key : ∀ (l : List S) (y : S), Op.max y a = y → Op.max (l.foldl Op.max y) a = l.foldl Op.max y := by
    intro l
    induction l with
    | nil => exact fun y h => h
    | cons b l ih =>
      intro y hy
      refine ih _ ?_
      rw [opMax_assoc, opMax_comm b a, ← opMax_assoc, hy]
  induction l generalizing z with
  | nil => simp at h
  | cons b l ih =>
    rcases List.mem_cons.1 h with rfl | h
    · exact key l _ (by rw [opMax_assoc, opMax_self])
    · exact ih _ h

/-- the membership function of a fuzzy set with Maximum is the maximum -/
theorem Aggregated.membership_maximum (ctx : Ctx S) (g : Aggregated S) (x : S) (hx : Op.isNaN x = false)
    (hagg : g.aggregation = some (.builtin .maximum)) (v : Activated S → S) (hv : ∀ a ∈ g.terms, a.membership ctx x = .ok (v a)) :
    g.membership ctx x = .ok ((g.terms.map v).foldl Op.max (lit 0)) := by
  unfold Aggregated.membership
  simp only [hx, Bool.false_eq_true, if_false, hagg]
  generalize g.terms = ts at hv ⊢
  generalize (lit 0 : S) = z
  induction ts generalizing z with
  | nil => rfl
  | cons a ts ih =>
    rw [List.foldlM_cons, hv a List.mem_cons_self]
    exact ih (fun b hb => hv b (List.mem_cons_of_mem _ hb)) _

/-- Two fuzzy outputs with Maximum are of the same worth to a defuzzifier that integrates if, at each place, the maximum of each absorbs the
degrees of the other. -/
theorem OutputVariable.sameWorth_maximum (ins : List (Str × S)) (o p : OutputVariable S) (k : IntegralKind) (n : Int) (h : o.Alike p)
    (hd : o.defuzzifier = some (.integral k n)) (hagg : o.fuzzy.aggregation = some (.builtin .maximum))
    (hm : ∀ outs x, ∃ v : Activated S → S, (∀ a ∈ o.fuzzy.terms ++ p.fuzzy.terms, a.membership ⟨ins, outs⟩ x = .ok (v a)) ∧
      (∀ a ∈ o.fuzzy.terms, Op.max ((p.fuzzy.terms.map v).foldl Op.max (lit 0)) (v a) = (p.fuzzy.terms.map v).foldl Op.max (lit 0)) ∧
      ∀ a ∈ p.fuzzy.terms, Op.max ((o.fuzzy.terms.map v).foldl Op.max (lit 0)) (v a) = (o.fuzzy.terms.map v).foldl Op.max (lit 0)) :
    o.SameWorth ins p := by
  intro _ d hd' outs
  rw [hd, Option.some.injEq] at hd'
  subst hd'
  have hpagg : p.fuzzy.aggregation = some (.builtin .maximum) := by rw [h]; exact hagg
  unfold Defuzzifier.defuzzify
  simp only
  congr 1
  funext x
  cases hx : Op.isNaN x with
  | true => simp [Aggregated.membership, hx]
  | false =>
    obtain ⟨v, h1, h2, h3⟩ := hm outs x
    rw [Aggregated.membership_maximum _ _ x hx hagg v fun a ha => h1 a (List.mem_append_left _ ha),
      Aggregated.membership_maximum _ _ x hx hpagg v fun a ha => h1 a (List.mem_append_right _ ha)]
    congr 1
    refine foldl_max_eq _ _ _ ?_ ?_
    · intro a ha
      obtain ⟨q, hq, rfl⟩ := List.mem_map.1 ha
      exact h3 q hq
    · intro a ha
      obtain ⟨q, hq, rfl⟩ := List.mem_map.1 ha
      exact h2 q hq

/-- an enabled output variable uses Maximum and integrates, and the membership functions of its terms have values -/
def OutputVariable.Maximal (ins : List (Str × S)) (o : OutputVariable S) : Prop :=
  o.enabled = true → (∃ k n, o.defuzzifier = some (.integral k n)) ∧ o.fuzzy.aggregation = some (.builtin .maximum) ∧
    ∀ a ∈ o.fuzzy.terms, ∀ outs x, ∃ v, a.membership ⟨ins, outs⟩ x = .ok v

/-- what the rule blocks have added is defuzzified as it is -/
theorem Engine.process_maximal [Heap S] {e : Engine S} {w : World S} {A : List (VarRef × Activated S)} {bs' : List (RuleBlock S)}
    (hw : (⟨e.inputs, e.outputs.map fun o => { o with fuzzy := o.fuzzy.clear }⟩ : World S) = w)
    (h1 : activateBlocks w e.blocks = (w.append A, bs', none)) (hok : e.process.2 = none)
    (hmax : ∀ o ∈ e.process.1.outputs, o.Maximal (e.inputs.map fun v => (v.name, v.value))) :
    ∀ o ∈ (w.append A).outputs, o.Maximal (e.inputs.map fun v => (v.name, v.value)) := by
  have hins : w.inputs = e.inputs := by rw [← hw]
  have hout : ∃ r, defuzzifyAll e.inputs [] (w.append A).outputs = (r, none) ∧ e.process.1.outputs = r := by
    unfold process at hok ⊢
    simp only [hw, h1] at hok ⊢
    have hi : (w.append A).inputs = e.inputs := hins
    rw [hi] at hok ⊢
    generalize defuzzifyAll e.inputs [] (w.append A).outputs = q at hok ⊢
    obtain ⟨r, err⟩ := q
    simp only at hok
    subst hok
    exact ⟨r, rfl, rfl⟩
  obtain ⟨r, hr, hr'⟩ := hout
  rw [hr'] at hmax
  obtain ⟨qs, hq1, hq2⟩ := defuzzifyAll_kept e.inputs _ hr
  rw [List.nil_append] at hq1
  subst hq1
  intro o ho
  obtain ⟨p, hp, z, y, hz⟩ : ∃ p ∈ r, ∃ z y, p = { o with
      value := z
      previous := y } := by
    rw [List.forall₂_iff_get] at hq2
    obtain ⟨i, hi, rfl⟩ := List.getElem_of_mem ho
    exact ⟨r[i]'(hq2.1 ▸ hi), List.getElem_mem _, hq2.2 i hi (hq2.1 ▸ hi)⟩
  have := hmax p hp
  rw [hz] at this
  exact this

/-- **C96 (partial: Maximum, defuzzifiers that integrate, antecedents about input variables).**  If an engine is processed without
exception, so is one that has the same rules in another order or more than once, and the values of the output variables are the same, in every
number format. -/
theorem Engine.process_sameRules_partial [Heap S] (e : Engine S) (cs : List (RuleBlock S)) (h : List.Forall₂ RuleBlock.SameRules e.blocks cs)
    (hin : ∀ b ∈ e.blocks, ∀ r ∈ b.rules, r.OnInputs) (hok : e.process.2 = none)
    (hmax : ∀ o ∈ e.process.1.outputs, o.Maximal (e.inputs.map fun v => (v.name, v.value))) :
    ({ e with blocks := cs }).process.2 = none ∧ ({ e with blocks := cs }).process.1.outputValues = e.process.1.outputValues := by
  generalize hw : (⟨e.inputs, e.outputs.map fun o => { o with fuzzy := o.fuzzy.clear }⟩ : World S) = w
  have hins : w.inputs = e.inputs := by rw [← hw]
  have hn : (activateBlocks w e.blocks).2.2 = none := by
    unfold process at hok
    simp only [hw] at hok
    generalize activateBlocks w e.blocks = q at hok ⊢
    obtain ⟨w1, b1, e1⟩ := q
    cases e1 with
    | none => rfl
    | some e => simp at hok
  obtain ⟨A, B, bs', cs', hAB, h1, h2⟩ := blocks_sameRules w h hin [] (by rw [World.append_nil]; exact hn)
  have h1 := h1 []
  have h2 := h2 []
  rw [World.append_nil, List.nil_append] at h1 h2
  have hmax' := process_maximal hw h1 hok hmax
  have key := process_alike e cs (w1 := w.append A) (w2 := w.append B) (bs' := bs') (cs' := cs') (by rw [hw]; exact h1) (by rw [hw]; exact h2) rfl (by
    rw [List.forall₂_iff_get]
    refine ⟨by simp [World.append], fun i i1 i2 => ?_⟩
    have hal : ((w.append A).outputs.get ⟨i, i1⟩).Alike ((w.append B).outputs.get ⟨i, i2⟩) := by
      simp only [World.append, List.get_eq_getElem, List.getElem_mapIdx]
      rfl
    have hmem : ∀ a, a ∈ ((w.append B).outputs.get ⟨i, i2⟩).fuzzy.terms ↔ a ∈ ((w.append A).outputs.get ⟨i, i1⟩).fuzzy.terms := by
      intro a
      simp only [World.append, List.get_eq_getElem, List.getElem_mapIdx, List.mem_append, List.mem_map, List.mem_filter, hAB]
    refine ⟨hal, fun hen => ?_⟩
    obtain ⟨⟨k, n, hd⟩, hagg, hm⟩ := hmax' _ (List.get_mem _ _) hen
    refine OutputVariable.sameWorth_maximum _ _ _ k n hal hd hagg (fun outs x => ?_) hen
    have hi : (w.append A).inputs = e.inputs := hins
    rw [hi]
    refine ⟨fun a => match a.membership ⟨e.inputs.map fun v => (v.name, v.value), outs⟩ x with
      | .ok v => v
      | .error _ => nan, ?_, ?_, ?_⟩
    · intro a ha
      have ha : a ∈ ((w.append A).outputs.get ⟨i, i1⟩).fuzzy.terms := by
        rcases List.mem_append.1 ha with ha | ha
        · exact ha
        · exact (hmem a).1 ha
      obtain ⟨v, hv⟩ := hm a ha outs x
      simp only [hv]
    · exact fun a ha => foldl_max_absorbs _ _ _ (List.mem_map_of_mem ((hmem a).2 ha))
    · exact fun a ha => foldl_max_absorbs _ _ _ (List.mem_map_of_mem ((hmem a).1 ha)))
  refine ⟨key.1.trans hok, values_alike ?_⟩
  exact key.2

end maximum
end FL

/-! ### examples -/

namespace FL.RuleSet
open Scalar FL.Rounded FL.Rounded.Demo

local instance : Heap (Flt dbl) := RuleBlock.stableHeap _

/-- the Mamdani controller in double precision, with its rules three times -/
def thrice : RuleBlock (Flt dbl) := { control with rules := control.rules.reverse ++ control.rules ++ control.rules }

/-- outputs to which the theorem applies -/
theorem plain_maximal (ins : List (Str × Flt dbl)) (o : OutputVariable (Flt dbl)) (h : RuleOrder.plain o = true) : o.Maximal ins := by
  unfold RuleOrder.plain at h
  rw [Bool.and_eq_true] at h
  obtain ⟨h1, h2⟩ := h
  intro _
  split at h1
  · rename_i k n hd ha
    refine ⟨⟨k, n, hd⟩, ha, fun a ha' outs x => ?_⟩
    have h3 := List.all_eq_true.1 h2 a ha'
    split at h3
    · rename_i sh t hk hi
      unfold Activated.membership Term.membership
      rw [hk, hi]
      split
      · exact ⟨_, rfl⟩
      · exact ⟨_, rfl⟩
    · simp at h3
  · simp at h1

/-- the theorem applies to it -/
example : ({ mamdani with blocks := [thrice] } : Engine (Flt dbl)).process.2 = none ∧
    ({ mamdani with blocks := [thrice] } : Engine (Flt dbl)).process.1.outputValues = mamdani.process.1.outputValues := by
  refine Engine.process_sameRules_partial mamdani [thrice] (.cons ⟨rfl, .inr ⟨trivial, fun r => ?_⟩⟩ .nil) ?_ (by decide +kernel) ?_
  · simp [thrice]
  · intro b hb r hr
    simp only [mamdani, List.mem_singleton] at hb
    subst hb
    simp only [FL.Rounded.Demo.control, List.mem_cons, List.not_mem_nil, or_false] at hr
    rcases hr with rfl | rfl <;> exact RuleOrder.onInputs_conclude _ _ _
  · have h : mamdani.process.1.outputs.all RuleOrder.plain = true := by decide +kernel
    exact fun o ho => plain_maximal _ o (List.all_eq_true.1 h o ho)

/-- and this is what is computed -/
example : ({ mamdani with blocks := [thrice] } : Engine (Flt dbl)).process.1.outputValues = mamdani.process.1.outputValues ∧
    (({ mamdani with blocks := [thrice] } : Engine (Flt dbl)).process.1.outputs.map fun o => o.fuzzy.terms.map fun a => a.id) =
      [[1, 0, 0, 1, 0, 1]] := by decide +kernel

/-- the Mamdani controller with another aggregation operator -/
def aggregated (agg : SNormKind) (rules : List (Rule (Flt dbl))) : Engine (Flt dbl) :=
  { mamdani with
    outputs := mamdani.outputs.map fun o => { o with fuzzy := { o.fuzzy with aggregation := some (.builtin agg) } }
    blocks := [{ control with rules := rules }] }

/-- **C96 is violated by other aggregation operators**: a rule that is repeated counts twice. -/
theorem sum_violated : (aggregated .boundedSum control.rules).process.2 = none ∧
    (aggregated .boundedSum (control.rules.take 1 ++ control.rules)).process.2 = none ∧
    (aggregated .boundedSum (control.rules.take 1 ++ control.rules)).process.1.outputValues ≠
      (aggregated .boundedSum control.rules).process.1.outputValues ∧
    (aggregated .algebraicSum (control.rules.take 1 ++ control.rules)).process.1.outputValues ≠
      (aggregated .algebraicSum control.rules).process.1.outputValues := by decide +kernel

/-- **C96 is violated by weighted defuzzifiers without aggregation operator** -/
theorem weighted_violated : (RuleOrder.chained [conclude [] 0 0, conclude [] 1 1]).process.2 = none ∧
    (RuleOrder.chained [conclude [] 0 0, conclude [] 0 0, conclude [] 1 1]).process.1.outputValues ≠
      (RuleOrder.chained [conclude [] 0 0, conclude [] 1 1]).process.1.outputValues := by decide +kernel

/-- the Mamdani controller with another activation method -/
def activated (m : Activation (Flt dbl)) (rules : List (Rule (Flt dbl))) : Engine (Flt dbl) :=
  { mamdani with blocks := [{ control with
      activation := some m
      rules := rules }] }

/-- **C96 is violated by methods that count rules and by Proportional**, also with Maximum -/
theorem method_violated : (activated (.first 2 (lit 0)) control.rules).process.2 = none ∧
    (activated (.first 2 (lit 0)) (control.rules.take 1 ++ control.rules)).process.1.outputValues ≠
      (activated (.first 2 (lit 0)) control.rules).process.1.outputValues ∧
    (activated .proportional (control.rules.take 1 ++ control.rules)).process.1.outputValues ≠
      (activated .proportional control.rules).process.1.outputValues := by decide +kernel

end FL.RuleSet
