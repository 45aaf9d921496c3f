/-
C99: how one output variable is defuzzified concerns no other.
-/
import Verif.Props.Process
import Verif.Props.RuleOrder

namespace FL
open Scalar
variable {S : Type} [Scalar S]

/-- the settings of an output variable that decide how it is defuzzified -/
structure Tuning (S : Type) where
  description : Str
  minimum : S
  maximum : S
  lockRange : Bool
  defuzzifier : Option Defuzzifier
  previous : S
  default : S
  lockPrevious : Bool

/-- the output variable with other settings -/
def OutputVariable.tune (s : Tuning S) (o : OutputVariable S) : OutputVariable S :=
  { o with
    description := s.description
    minimum := s.minimum
    maximum := s.maximum
    lockRange := s.lockRange
    fuzzy := { o.fuzzy with
      minimum := s.minimum
      maximum := s.maximum }
    defuzzifier := s.defuzzifier
    previous := s.previous
    default := s.default
    lockPrevious := s.lockPrevious }

def World.tune (j : Nat) (s : Tuning S) (w : World S) : World S := ⟨w.inputs, w.outputs.modify j (OutputVariable.tune s)⟩

/-- the engine whose output variable of index `j` has other settings -/
def Engine.tune (j : Nat) (s : Tuning S) (e : Engine S) : Engine S := { e with outputs := e.outputs.modify j (OutputVariable.tune s) }

/-! ### rules cannot see the settings -/

omit [Scalar S] in
theorem tune_getElem? (j : Nat) (s : Tuning S) (l : List (OutputVariable S)) (i : Nat) :
    (l.modify j (OutputVariable.tune s))[i]? = if j = i then l[i]?.map (OutputVariable.tune s) else l[i]? := by
  rw [List.getElem?_modify]
  split <;> simp

omit [Scalar S] in
theorem tune_map {α : Type} (f : OutputVariable S → α) (s : Tuning S) (hf : ∀ o, f (o.tune s) = f o) (j : Nat) (l : List (OutputVariable S)) :
    (l.modify j (OutputVariable.tune s)).map f = l.map f := by
  apply List.ext_getElem?
  intro i
  rw [List.getElem?_map, List.getElem?_map, tune_getElem?]
  split
  · cases l[i]? with
    | none => rfl
    | some o => simp [hf]
  · rfl

omit [Scalar S] in
theorem World.tune_ctx (j : Nat) (s : Tuning S) (w : World S) : (w.tune j s).ctx = w.ctx := by
  unfold World.ctx World.tune
  simp only
  rw [tune_map (fun v : OutputVariable S => (v.name, v.value)) s (fun _ => rfl)]

theorem tune_modifyLoop (k : Nat) (s : Tuning S) (imp : Option (TNorm S)) (ps : List (Proposition S)) (w : World S) (d : S) :
    modifyLoop imp (w.tune k s) d ps = ((modifyLoop imp w d ps).1.tune k s, (modifyLoop imp w d ps).2) := by
  induction ps generalizing w d with
  | nil => rfl
  | cons p ps ih =>
    obtain ⟨v, hs, t⟩ := p
    cases v with
    | input i => rfl
    | output i =>
      cases t with
      | none => rfl
      | some j =>
        simp only [modifyLoop]
        have e1 : (w.tune k s).outputs[i]? = if k = i then w.outputs[i]?.map (OutputVariable.tune s) else w.outputs[i]? :=
          tune_getElem? k s w.outputs i
        rw [e1]
        have hset : ∀ o o' : OutputVariable S, (o' = if k = i then o.tune s else o) →
            (⟨(w.tune k s).inputs, (w.tune k s).outputs.set i o'⟩ : World S) = World.tune k s ⟨w.inputs, w.outputs.set i o⟩ := by
          intro o o' ho
          unfold World.tune
          congr 1
          apply List.ext_getElem?
          intro n
          rw [tune_getElem?, List.getElem?_set, List.getElem?_set, tune_getElem?]
          simp only [List.length_modify]
          by_cases h1 : i = n
          · subst h1
            simp only [if_true]
            split
            · by_cases h2 : k = i <;> simp [h2, ho]
            · split <;> rfl
          · simp only [h1, if_false]
        cases ho : w.outputs[i]? with
        | none =>
          by_cases hk : k = i <;> simp [hk]
        | some o =>
          by_cases hk : k = i
          · subst hk
            simp only [if_true, Option.map_some]
            have e2 : (o.tune s).enabled = o.enabled := rfl
            have e3 : (o.tune s).terms = o.terms := rfl
            rw [e2, e3]
            split
            · exact ih w d
            · cases applyHedges hs d with
              | error e => rfl
              | ok d' =>
                simp only
                cases o.terms[j]? with
                | none => rfl
                | some t =>
                  simp only
                  rw [← ih, ← hset { o with fuzzy := o.fuzzy.addTerm ⟨j, t, d', imp⟩ } _ (if_pos rfl).symm]
                  rfl
          · simp only [hk, if_false]
            split
            · exact ih w d
            · cases applyHedges hs d with
              | error e => rfl
              | ok d' =>
                simp only
                cases o.terms[j]? with
                | none => rfl
                | some t =>
                  simp only
                  rw [← ih, ← hset { o with fuzzy := o.fuzzy.addTerm ⟨j, t, d', imp⟩ } _ (by rw [if_neg hk])]

theorem tune_blind (k : Nat) (s : Tuning S) : RuleBlock.Blind (World.tune k s) fun _ : World S => True := by
  refine ⟨?_, ?_, fun _ _ _ _ _ => trivial⟩
  · rintro w - e c d
    have hprop : ∀ p : Proposition S, p.degree (w.tune k s) = p.degree w := by
      intro p
      have e1 : (w.tune k s).isEnabled p.var = w.isEnabled p.var := by
        cases p.var with
        | input i => rfl
        | output i =>
          simp only [World.isEnabled, World.tune, tune_getElem?]
          split
          · cases w.outputs[i]? <;> rfl
          · rfl
      have e2 : ∀ j, (w.tune k s).termDegree p.var j = w.termDegree p.var j := by
        intro j
        cases p.var with
        | input i =>
          simp only [World.termDegree, World.tune_ctx]
          rfl
        | output i =>
          simp only [World.termDegree, World.tune, tune_getElem?]
          by_cases hk : k = i
          · rw [if_pos hk]
            cases w.outputs[i]? <;> rfl
          · rw [if_neg hk]
      unfold Proposition.degree
      rw [e1]
      simp only [e2]
    induction e with
    | prop p => exact hprop p
    | conj l r ihl ihr => simp only [Expr.degree, ihl, ihr]
    | disj l r ihl ihr => simp only [Expr.degree, ihl, ihr]
  · intro w _ x imp ps
    unfold modify
    split
    · rfl
    · exact tune_modifyLoop k s imp ps w x

/-! ### defuzzification -/

namespace Engine

/-- the output variables before that of other settings are defuzzified to the same -/
theorem defuzzifyAll_before (I : List (Variable S)) (o o' : OutputVariable S) (post : List (OutputVariable S))
    (hn : o'.name = o.name) (hv : o'.value = o.value) (pre done : List (OutputVariable S))
    (h : (defuzzifyAll I done (pre ++ o :: post)).2 = none) : ∃ D, D.length = done.length + pre.length ∧
      (D.map fun o => o.name) = ((done ++ pre).map fun o => o.name) ∧
      defuzzifyAll I done (pre ++ o :: post) = defuzzifyAll I D (o :: post) ∧
      defuzzifyAll I done (pre ++ o' :: post) = defuzzifyAll I D (o' :: post) := by
  induction pre generalizing done with
  | nil => exact ⟨done, by simp, by simp, rfl, rfl⟩
  | cons p pre ih =>
    have hctx : World.ctx ⟨I, done ++ p :: (pre ++ o' :: post)⟩ = World.ctx ⟨I, done ++ p :: (pre ++ o :: post)⟩ := by
      unfold World.ctx
      simp [hn, hv]
    simp only [List.cons_append, defuzzifyAll, hctx] at h ⊢
    cases hp : p.defuzzify (World.ctx ⟨I, done ++ p :: (pre ++ o :: post)⟩) with
    | error e => rw [hp] at h; simp at h
    | ok q =>
      rw [hp] at h
      obtain ⟨D, h1, h1', h2, h3⟩ := ih (done ++ [q]) h
      have hnq : q.name = p.name := by rw [(defuzzify_frame _ _ _ hp).1]
      exact ⟨D, by simp at h1 ⊢; omega, by rw [h1']; simp [hnq], h2, h3⟩

theorem defuzzifyAll_keeps (I : List (Variable S)) (os done : List (OutputVariable S)) : ∃ P, (defuzzifyAll I done os).1 = done ++ P := by
  induction os generalizing done with
  | nil => exact ⟨[], by simp [defuzzifyAll]⟩
  | cons o os ih =>
    simp only [defuzzifyAll]
    split
    · exact ⟨_, rfl⟩
    · rename_i q _
      obtain ⟨P, hP⟩ := ih (done ++ [q])
      exact ⟨q :: P, by rw [hP]; simp⟩

/-- also when exceptions are raised -/
theorem defuzzifyAll_earlier (I : List (Variable S)) (o o' : OutputVariable S) (post : List (OutputVariable S))
    (hn : o'.name = o.name) (hv : o'.value = o.value) (pre done : List (OutputVariable S)) (i : Nat) (hi : i < done.length + pre.length) :
    (defuzzifyAll I done (pre ++ o' :: post)).1[i]? = (defuzzifyAll I done (pre ++ o :: post)).1[i]? := by
  induction pre generalizing done with
  | nil =>
    obtain ⟨P, hP⟩ := defuzzifyAll_keeps I (o :: post) done
    obtain ⟨P', hP'⟩ := defuzzifyAll_keeps I (o' :: post) done
    simp only [List.nil_append, List.length_nil, Nat.add_zero] at hi ⊢
    rw [hP, hP', List.getElem?_append_left hi, List.getElem?_append_left hi]
  | cons p pre ih =>
    have hctx : World.ctx ⟨I, done ++ p :: (pre ++ o' :: post)⟩ = World.ctx ⟨I, done ++ p :: (pre ++ o :: post)⟩ := by
      unfold World.ctx
      simp [hn, hv]
    simp only [List.cons_append, defuzzifyAll, hctx]
    cases p.defuzzify (World.ctx ⟨I, done ++ p :: (pre ++ o :: post)⟩) with
    | error e =>
      simp only
      have hl : i < (done ++ p :: pre).length := by simpa using hi
      have e1 : ∀ q : OutputVariable S, done ++ p :: (pre ++ q :: post) = (done ++ p :: pre) ++ q :: post := by simp
      rw [e1, e1, List.getElem?_append_left hl, List.getElem?_append_left hl]
    | ok q => exact ih (done ++ [q]) (by simp at hi ⊢; omega)

/-- those after it as well, if they do not read the values of output variables -/
theorem defuzzifyAll_after (I : List (Variable S)) (D : List (OutputVariable S)) (q q' : OutputVariable S) (names : List Str)
    (hn : q'.name = q.name) (post done : List (OutputVariable S)) (hnames : ((D ++ q :: (done ++ post)).map fun o => o.name) = names)
    (hr : ∀ o ∈ post, ∀ a ∈ o.fuzzy.terms, a.term.ReadsNone names) (h : (defuzzifyAll I (D ++ q :: done) post).2 = none) :
    ∃ P, (defuzzifyAll I (D ++ q :: done) post).1 = D ++ q :: P ∧ defuzzifyAll I (D ++ q' :: done) post = (D ++ q' :: P, none) := by
  induction post generalizing done with
  | nil => exact ⟨done, rfl, rfl⟩
  | cons p post ih =>
    simp only [defuzzifyAll, List.append_assoc, List.cons_append] at h ⊢
    have hn1 : (World.ctx ⟨I, D ++ q :: (done ++ p :: post)⟩).outputs.map Prod.fst = names := by
      rw [World.ctx_names]; exact hnames
    have hn2 : (World.ctx ⟨I, D ++ q' :: (done ++ p :: post)⟩).outputs.map Prod.fst = names := by
      rw [World.ctx_names, ← hnames]; simp [hn]
    have hd : p.defuzzify (World.ctx ⟨I, D ++ q' :: (done ++ p :: post)⟩) = p.defuzzify (World.ctx ⟨I, D ++ q :: (done ++ p :: post)⟩) := by
      unfold OutputVariable.defuzzify
      split
      · rfl
      · split
        · rfl
        · rename_i d _
          rw [d.defuzzify_alike (ctx := World.ctx ⟨I, D ++ q' :: (done ++ p :: post)⟩) (ctx' := World.ctx ⟨I, D ++ q :: (done ++ p :: post)⟩)
            (g := p.fuzzy) (g' := p.fuzzy) p.minimum p.maximum rfl
            (List.forall₂_same.2 fun a ha => ⟨rfl, rfl, (hr p List.mem_cons_self a ha).alike _ _ rfl hn2 hn1⟩)]
    rw [hd]
    cases hp : p.defuzzify (World.ctx ⟨I, D ++ q :: (done ++ p :: post)⟩) with
    | error e => rw [hp] at h; simp at h
    | ok r =>
      rw [hp] at h
      have hnr : r.name = p.name := by rw [(defuzzify_frame _ _ _ hp).1]
      obtain ⟨P, h1, h2⟩ := ih (done ++ [r]) (by rw [← hnames]; simp [hnr]) (fun o ho => hr o (List.mem_cons_of_mem _ ho)) h
      exact ⟨P, h1, h2⟩

/-! ### C99 -/

omit [Scalar S] in
theorem cleared_tune (j : Nat) (s : Tuning S) (e : Engine S) : (e.tune j s).cleared = e.cleared.tune j s := by
  unfold cleared tune World.tune
  congr 1
  apply List.ext_getElem?
  intro i
  rw [List.getElem?_map, tune_getElem?, tune_getElem?, List.getElem?_map]
  split
  · cases e.outputs[i]? <;> rfl
  · rfl

/-- **C99, rules.**  In all engines, whatever is changed in how an output variable is defuzzified, the same rules are activated and triggered with
the same degrees, the same exception is raised by them, and the fuzzy outputs have the same terms. -/
theorem activateBlocks_tuned [Heap S] (e : Engine S) (j : Nat) (s : Tuning S) :
    activateBlocks (e.tune j s).cleared (e.tune j s).blocks =
      ((activateBlocks e.cleared e.blocks).1.tune j s, (activateBlocks e.cleared e.blocks).2) := by
  rw [cleared_tune]
  exact (activateBlocks_blind (tune_blind j s) e.blocks e.cleared trivial).1

/-- **C99, earlier output variables.**  In all engines, whatever is changed in how an output variable is defuzzified, and whatever exceptions that
raises or no longer raises, the output variables before it are the same after processing. -/
theorem process_tuned_earlier [Heap S] (e : Engine S) (j : Nat) (s : Tuning S) (i : Nat) (hi : i < j) :
    (e.tune j s).process.1.outputs[i]? = e.process.1.outputs[i]? := by
  have hb := activateBlocks_tuned e j s
  rw [process_eq, process_eq, hb]
  simp only
  have hti : ((activateBlocks e.cleared e.blocks).1.tune j s).inputs = (activateBlocks e.cleared e.blocks).1.inputs := rfl
  rw [hti]
  generalize (activateBlocks e.cleared e.blocks).1 = w at *
  have hto : (w.tune j s).outputs = w.outputs.modify j (OutputVariable.tune s) := rfl
  rw [hto]
  cases (activateBlocks e.cleared e.blocks).2.2 with
  | some err =>
    simp only
    rw [tune_getElem?, if_neg (by omega)]
  | none =>
    simp only
    generalize w.outputs = os
    by_cases hj : j < os.length
    · obtain ⟨pre, o, post, rfl, rfl⟩ : ∃ pre o post, os = pre ++ o :: post ∧ j = pre.length :=
        ⟨os.take j, os[j], os.drop (j + 1), by simp, by simp; omega⟩
      have hmod : (pre ++ o :: post).modify pre.length (OutputVariable.tune s) = pre ++ o.tune s :: post := by
        rw [List.modify_eq_take_cons_drop (by simp)]
        simp
      rw [hmod]
      exact defuzzifyAll_earlier w.inputs o (o.tune s) post rfl rfl pre [] i (by simpa using hi)
    · rw [List.modify_eq_self (by omega)]

/-- **C99 (partial: no formula of an output variable mentions an output variable, and no exception).**  Changing how an output variable is defuzzified
changes no other output variable. -/
theorem process_tuned_partial [Heap S] (e : Engine S) (j : Nat) (s : Tuning S)
    (ho : ∀ o ∈ e.outputs, ∀ t ∈ o.terms, t.ReadsNone (e.outputs.map fun o => o.name))
    (h : e.process.2 = none) (h' : (e.tune j s).process.2 = none) :
    (e.tune j s).process.1.blocks = e.process.1.blocks ∧
      ∀ i, i ≠ j → (e.tune j s).process.1.outputs[i]? = e.process.1.outputs[i]? := by
  have hb := activateBlocks_tuned e j s
  generalize hnames : (e.outputs.map fun o => o.name) = names at ho
  have hnc : (e.cleared.outputs.map fun o => o.name) = names := by
    rw [← hnames]; simp only [cleared, List.map_map]; rfl
  have hf := activateBlocks_frame e.blocks e.cleared
  have hinputs : (activateBlocks e.cleared e.blocks).1.inputs = e.inputs := hf.inputs
  have hnw := hf.names.trans hnc
  have hterms : ∀ o ∈ (activateBlocks e.cleared e.blocks).1.outputs, ∀ a ∈ o.fuzzy.terms, a.term.ReadsNone names := by
    intro o hmem
    obtain ⟨i, hi', rfl⟩ := List.mem_iff_getElem.1 hmem
    have hfo := hf.outputs
    have hlen := hfo.length_eq
    have hi0 : i < e.cleared.outputs.length := by rw [hlen]; exact hi'
    obtain ⟨q1, -, l, q2, q3⟩ := (List.forall₂_iff_get.1 hfo).2 i hi0 hi'
    have hi1 : i < e.outputs.length := by simpa [cleared] using hi0
    have hc : e.cleared.outputs[i] = { e.outputs[i] with fuzzy := e.outputs[i].fuzzy.clear } := by simp [cleared]
    simp only [List.get_eq_getElem] at q1 q2 q3
    rw [hc] at q1 q2 q3
    have q2' : (activateBlocks e.cleared e.blocks).1.outputs[i].fuzzy.terms = l := q2
    rw [q2']
    intro a ha
    exact ho _ (List.getElem_mem hi1) _ (q3 a ha)
  rw [process_eq] at h h' ⊢
  rw [process_eq]
  rw [hb] at h' ⊢
  cases he : (activateBlocks e.cleared e.blocks).2.2 with
  | some err => rw [he] at h; simp at h
  | none =>
    rw [he] at h h'
    simp only at h h' ⊢
    refine ⟨trivial, fun i hi => ?_⟩
    have hti : ((activateBlocks e.cleared e.blocks).1.tune j s).inputs = (activateBlocks e.cleared e.blocks).1.inputs := rfl
    rw [hti] at h' ⊢
    generalize (activateBlocks e.cleared e.blocks).1 = w at *
    generalize hos : w.outputs = os at *
    have hto : (w.tune j s).outputs = os.modify j (OutputVariable.tune s) := by unfold World.tune; rw [hos]
    rw [hto] at h' ⊢
    by_cases hj : j < os.length
    · obtain ⟨pre, o, post, rfl, rfl⟩ : ∃ pre o post, os = pre ++ o :: post ∧ j = pre.length :=
        ⟨os.take j, os[j], os.drop (j + 1), by simp, by simp; omega⟩
      have hmod : (pre ++ o :: post).modify pre.length (OutputVariable.tune s) = pre ++ o.tune s :: post := by
        rw [List.modify_eq_take_cons_drop (by simp)]
        simp
      rw [hmod] at h' ⊢
      obtain ⟨D, d1, d1', d2, d3⟩ := defuzzifyAll_before w.inputs o (o.tune s) post rfl rfl pre [] h
      rw [d2] at h ⊢
      rw [d3] at h' ⊢
      simp only [defuzzifyAll] at h h' ⊢
      cases hq : o.defuzzify (World.ctx ⟨w.inputs, D ++ o :: post⟩) with
      | error e => rw [hq] at h; simp at h
      | ok q =>
        rw [hq] at h
        cases hq' : (o.tune s).defuzzify (World.ctx ⟨w.inputs, D ++ o.tune s :: post⟩) with
        | error e => rw [hq'] at h'; simp at h'
        | ok q' =>
          have hnq : q.name = o.name := by rw [(defuzzify_frame _ _ _ hq).1]
          have hnq' : q'.name = o.name := by rw [(defuzzify_frame _ _ _ hq').1]; rfl
          rw [hq'] at h'
          simp only [List.nil_append] at d1'
          obtain ⟨P, p1, p2⟩ := defuzzifyAll_after w.inputs D q q' names (hnq'.trans hnq.symm) post [] (by
              rw [← hnw, List.nil_append, List.map_append, List.map_append, d1', List.map_cons, List.map_cons, hnq])
            (fun o ho => hterms o (by simp [ho])) h
          simp only
          rw [p1, p2]
          simp only [List.length_nil, Nat.zero_add] at d1
          rcases Nat.lt_or_gt_of_ne hi with hlt | hgt
          · rw [List.getElem?_append_left (by omega), List.getElem?_append_left (by omega)]
          · rw [List.getElem?_append_right (by omega), List.getElem?_append_right (by omega)]
            obtain ⟨m, hm⟩ : ∃ m, i - D.length = m + 1 := ⟨i - D.length - 1, by omega⟩
            rw [hm]
            rfl
    · rw [List.modify_eq_self (by omega)]

end Engine

/-! ### what is left out, and examples -/

namespace TuneDemo
local instance : Heap (Ext Rat) := RuleBlock.stableHeap _

def formula (name : Str) : Term (Ext Rat) :=
  ⟨cs! "t", .fin 1, .function { formula := name, root := some (.var name), vars := fun _ => none, hasEngine := true }⟩

/-- two output variables concluded by one rule: `y` is the formula `first`, `z` is the formula `second` -/
def engine (first second : Str) (a : Ext Rat) : Engine (Ext Rat) :=
  ⟨[], [],
   [{ Variable.new (cs! "a") (.fin 0) (.fin 10) [⟨cs! "any", .fin 1, .shape (.rectangle (.fin 0) (.fin 10))⟩] with value := a }],
   [{ OutputVariable.new (cs! "y") (.fin 0) (.fin 10) [formula first] with
      defuzzifier := some (.weighted .average .takagiSugeno) },
    { OutputVariable.new (cs! "z") (.fin 0) (.fin 10) [formula second] with
      defuzzifier := some (.weighted .average .takagiSugeno) }],
   [{ RuleBlock.new [] with rules :=
      [{ Rule.new [] with antecedent := some (.prop ⟨.input 0, [], some 0⟩),
                          conclusions := [⟨.output 0, [], some 0⟩, ⟨.output 1, [], some 0⟩] }] }]⟩

/-- the range is cut to `[0, 1]` and locked -/
def cut : Tuning (Ext Rat) := ⟨[], .fin 0, .fin 1, true, some (.weighted .average .takagiSugeno), .nan, .nan, false⟩

/-- without a defuzzifier -/
def without : Tuning (Ext Rat) := ⟨[], .fin 0, .fin 10, false, none, .nan, .nan, false⟩

/-- what `y` is changed to stays with `y` -/
example : (engine (cs! "a") (cs! "a") (.fin 4)).process.1.outputValues = [.fin 4, .fin 4] ∧
    ((engine (cs! "a") (cs! "a") (.fin 4)).tune 0 cut).process.1.outputValues = [.fin 1, .fin 4] ∧
    ((engine (cs! "a") (cs! "a") (.fin 4)).tune 1 cut).process.1.outputValues = [.fin 4, .fin 1] := by decide +kernel

/-- the hypotheses of `process_tuned_partial` hold of it -/
example : ((engine (cs! "a") (cs! "a") (.fin 4)).tune 0 cut).process.1.outputs[1]? =
    (engine (cs! "a") (cs! "a") (.fin 4)).process.1.outputs[1]? := by
  refine (Engine.process_tuned_partial _ 0 cut ?_ (by decide +kernel) (by decide +kernel)).2 1 (by decide)
  intro o ho t ht f hf _ root hr n hn
  simp only [engine, List.mem_cons, List.not_mem_nil, or_false] at ho
  rcases ho with rfl | rfl <;>
  · simp only [OutputVariable.new, Variable.new, List.mem_cons, List.not_mem_nil, or_false] at ht
    subst ht
    simp only [formula, TermKind.function.injEq] at hf
    subst hf
    simp only [Option.some.injEq] at hr
    subst hr
    simp only [Node.vars, List.mem_cons, List.not_mem_nil, or_false] at hn
    subst hn
    decide

/-- C99 is violated by formulas that mention another output variable: no exception is raised, `z` is `y`, and cutting the range of `y` changes `z`. -/
theorem formula_violated :
    let e := engine (cs! "a") (cs! "y") (.fin 4)
    e.process.2 = none ∧ (e.tune 0 cut).process.2 = none ∧
    e.process.1.outputValues = [.fin 4, .fin 4] ∧ (e.tune 0 cut).process.1.outputValues = [.fin 1, .fin 1] := by decide +kernel

/-- C99 is violated by exceptions: without its defuzzifier the first output variable raises one, and the second keeps the value it had. -/
theorem exception_violated :
    let e := engine (cs! "a") (cs! "a") (.fin 4)
    e.process.2 = none ∧ (e.tune 0 without).process.2 ≠ none ∧
    e.process.1.outputValues = [.fin 4, .fin 4] ∧ (e.tune 0 without).process.1.outputValues = [.nan, .nan] ∧
    (e.tune 1 without).process.1.outputValues = [.fin 4, .nan] := by decide +kernel

end TuneDemo
end FL
