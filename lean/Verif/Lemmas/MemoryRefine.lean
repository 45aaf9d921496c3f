/-
Lemmas about rules in memory and as values: loading makes the objects of the expressions of `Model/Rule`.
-/
import Verif.Lemmas.MemoryAlike
import Verif.Model.Rule

namespace FL.Own

local notation "Ptr" => Nat

variable {S : Type} {m m0 m1 m2 m' : Mem} {L L' : List Ptr} {U : Ptr → Prop} {e : Ptr} {H : HedgeFactory S} {V : Vocabulary}

/-! ### Engines and their names -/

/-- the variable at a position of the engine -/
def varAt (m : Mem) (e : Ptr) : VarRef → Option Ptr
  | .input i => (m.get e).bind fun o => o.a[i]?
  | .output i => (m.get e).bind fun o => o.b[i]?

/-- the term at a position of a variable of the engine -/
def termAt (m : Mem) (e : Ptr) (v : VarRef) (j : Nat) : Option Ptr := (varAt m e v).bind fun p => (m.get p).bind fun o => o.a[j]?

/-- an object of a name -/
def Named (m : Mem) (p : Ptr) (n : Str) : Prop := ∃ o, m.get p = some o ∧ o.text = n

/-- a variable of a name with terms of some names -/
def VarNamed (m : Mem) (p : Ptr) (n : Str × List Str) : Prop := ∃ o, m.get p = some o ∧ o.text = n.1 ∧ List.Forall₂ (Named m) o.a n.2

/-- an engine with variables and terms of some names -/
def EngineNamed (m : Mem) (e : Ptr) (V : Vocabulary) : Prop := ∃ o, m.get e = some o ∧ List.Forall₂ (VarNamed m) o.a V.inputs ∧ List.Forall₂ (VarNamed m) o.b V.outputs

theorem findNamed_idx {ps : List Ptr} {ns : List Str} (n : Str) (h : List.Forall₂ (Named m) ps ns) :
    findNamed n ps m = some ((ns.findIdx? fun x => x == n).bind fun i => ps[i]?, m) := by
  induction h with
  | nil => rfl
  | @cons p x ps ns h1 _ ih =>
    obtain ⟨o, ho, rfl⟩ := h1
    unfold findNamed
    rw [bind_eq (read_eq ho), List.findIdx?_cons]
    by_cases hn : o.text = n
    · simp [hn, pure, StateT.pure]
    · rw [if_neg hn, ih]
      have : (o.text == n) = false := by simpa using hn
      simp only [this, Option.bind_map, Bool.false_eq_true, if_false]
      rfl

theorem VarNamed.names {ps : List Ptr} {ns : List (Str × List Str)} (h : List.Forall₂ (VarNamed m) ps ns) : List.Forall₂ (Named m) ps (ns.map Prod.fst) := by
  induction h with
  | nil => exact .nil
  | cons h1 _ ih =>
    obtain ⟨o, h2, h3, -⟩ := h1
    exact .cons ⟨o, h2, h3⟩ ih

theorem idx_bound {α β : Type} {R : α → β → Prop} {ps : List α} {ns : List β} {f : β → Bool} {i : Nat} (h : List.Forall₂ R ps ns) (hi : ns.findIdx? f = some i) :
    ∃ p, ps[i]? = some p := by
  have hl := (List.findIdx?_eq_some_iff_getElem.1 hi).1
  rw [← h.length_eq] at hl
  exact ⟨ps[i], List.getElem?_eq_getElem hl⟩

theorem findOutput_idx {o : Obj} (ho : m.get e = some o) (h2 : List.Forall₂ (VarNamed m) o.b V.outputs) (n : Str) :
    findNamed n o.b m = some ((V.findOutput n).bind (varAt m e), m) ∧ ∀ v, V.findOutput n = some v → ∃ p, varAt m e v = some p := by
  have e2 := findNamed_idx n (VarNamed.names h2)
  rw [List.findIdx?_map] at e2
  constructor
  · rw [e2]
    unfold Vocabulary.findOutput
    rw [Option.bind_map]
    congr 2
    congr 1
    funext i
    simp [varAt, ho]
  · intro v hv
    unfold Vocabulary.findOutput at hv
    rw [Option.map_eq_some_iff] at hv
    obtain ⟨i, hi, rfl⟩ := hv
    obtain ⟨p, hp⟩ := idx_bound h2 hi
    exact ⟨p, by simp [varAt, ho, hp]⟩

theorem find_idx (h : EngineNamed m e V) (n : Str) : Antecedent.find e n m = some ((V.find n).bind (varAt m e), m) ∧ ∀ v, V.find n = some v → ∃ p, varAt m e v = some p := by
  obtain ⟨o, ho, h1, h2⟩ := h
  have e1 := findNamed_idx n (VarNamed.names h1)
  rw [List.findIdx?_map] at e1
  obtain ⟨e2, b2⟩ := findOutput_idx ho h2 n
  unfold Antecedent.find Vocabulary.find
  rw [bind_eq (read_eq ho), bind_eq e1]
  have hf : (fun x => x == n) ∘ Prod.fst = fun p : Str × List Str => p.1 == n := rfl
  rw [hf]
  cases hi : V.inputs.findIdx? fun p => p.1 == n with
  | none => exact ⟨e2, b2⟩
  | some i =>
    obtain ⟨p, hp⟩ := idx_bound h1 hi
    have hv : varAt m e (.input i) = some p := by simp [varAt, ho, hp]
    simp only [Option.bind_some, hp]
    exact ⟨by rw [hv]; rfl, fun v h => by cases h; exact ⟨p, hv⟩⟩

theorem var_named (h : EngineNamed m e V) {v : VarRef} {p : Ptr} (hv : varAt m e v = some p) : ∃ o, m.get p = some o ∧ List.Forall₂ (Named m) o.a (V.terms v) := by
  obtain ⟨o, ho, h1, h2⟩ := h
  have key : ∀ {ps : List Ptr} {ns : List (Str × List Str)} {i : Nat}, List.Forall₂ (VarNamed m) ps ns → ps[i]? = some p →
      ∃ o, m.get p = some o ∧ List.Forall₂ (Named m) o.a ((ns[i]?.map Prod.snd).getD []) := by
    intro ps ns i h hp
    induction h generalizing i with
    | nil => simp at hp
    | cons h1 _ ih =>
      cases i with
      | zero =>
        simp only [List.getElem?_cons_zero, Option.some.injEq] at hp
        subst hp
        obtain ⟨o, h3, -, h4⟩ := h1
        exact ⟨o, h3, by simpa using h4⟩
      | succ i =>
        simp only [List.getElem?_cons_succ] at hp ⊢
        exact ih hp
  cases v with
  | input i => exact key h1 (by simpa [varAt, ho] using hv)
  | output i => exact key h2 (by simpa [varAt, ho] using hv)

theorem findTerm_idx (h : EngineNamed m e V) {v : VarRef} {p : Ptr} {o : Obj} (hv : varAt m e v = some p) (ho : m.get p = some o) (n : Str) :
    findNamed n o.a m = some ((V.findTerm v n).bind (termAt m e v), m) ∧ ∀ j, V.findTerm v n = some j → ∃ t, termAt m e v j = some t := by
  obtain ⟨o', ho', h1⟩ := var_named h hv
  rw [ho] at ho'
  cases ho'
  have e1 := findNamed_idx n h1
  constructor
  · rw [e1]
    unfold Vocabulary.findTerm
    congr 2
    congr 1
    funext i
    simp [termAt, hv, ho]
  · intro j hj
    obtain ⟨t, ht⟩ := idx_bound h1 hj
    exact ⟨t, by simp [termAt, hv, ho, ht]⟩

/-! ### Expressions in memory -/

/-- hedges made from their names -/
def IsHedge (H : HedgeFactory S) (m : Mem) (p : Ptr) (h : Hedge S) : Prop := ∃ n, m.get p = some { cls := .leaf, text := n } ∧ H n = some h

/-- the references to the term of a proposition: none, or the one to the term at a position of the variable -/
def IsTerm (m0 : Mem) (e : Ptr) (v : VarRef) : Option Nat → List Ptr → Prop
  | none, ts => ts = []
  | some j, ts => ∃ t, termAt m0 e v j = some t ∧ ts = [t]

/-- The object `q` is a proposition.  It refers to a variable and perhaps a term of the engine `e` in the memory `m0`. -/
def IsProposition (H : HedgeFactory S) (m0 : Mem) (e : Ptr) (m : Mem) (q : Ptr) (p : Proposition S) : Prop :=
  ∃ v a ts, varAt m0 e p.var = some v ∧ IsTerm m0 e p.var p.term ts ∧ m.get q = some { cls := .proposition, a := a, refs := v :: ts } ∧
    List.Forall₂ (IsHedge H m) a p.hedges

/-- The object `q` is the root of an expression. -/
def IsExpression (H : HedgeFactory S) (m0 : Mem) (e : Ptr) (m : Mem) : Ptr → Expr S → Prop
  | q, .prop p => IsProposition H m0 e m q p
  | q, .conj l r => ∃ a b, m.get q = some { cls := .operator, text := andKeyword, a := [a], b := [b] } ∧ IsExpression H m0 e m a l ∧ IsExpression H m0 e m b r
  | q, .disj l r => ∃ a b, m.get q = some { cls := .operator, text := orKeyword, a := [a], b := [b] } ∧ IsExpression H m0 e m a l ∧ IsExpression H m0 e m b r

theorem IsProposition.local {q : Ptr} {p : Proposition S} {A : List Ptr} (h : IsProposition H m0 e m q p) (hA : Forest m.own [q] A) (hg : ∀ x ∈ A, m'.get x = m.get x) :
    IsProposition H m0 e m' q p := by
  obtain ⟨v, a, ts, h1, h2, h4, h5⟩ := h
  obtain ⟨o, A1, A2, A3, A4, A5, j1, rfl, j2, -⟩ := hA.parts
  rw [h4] at j1
  cases j1
  refine ⟨v, a, ts, h1, h2, (hg q (by simp)).trans h4, forall₂_imp_mem h5 fun x y hx hy hc => ?_⟩
  obtain ⟨n, l1, l2⟩ := hc
  exact ⟨n, (hg x (by simp [j2.roots x hx])).trans l1, l2⟩

theorem IsExpression.local {q : Ptr} {x : Expr S} {A : List Ptr} (h : IsExpression H m0 e m q x) (hA : Forest m.own [q] A) (hg : ∀ x ∈ A, m'.get x = m.get x) :
    IsExpression H m0 e m' q x := by
  induction x generalizing q A with
  | prop p => exact IsProposition.local h hA hg
  | conj l r ihl ihr =>
    obtain ⟨a, b, h1, h2, h3⟩ := h
    obtain ⟨o, A1, A2, A3, A4, A5, j1, rfl, j2, j3, -⟩ := hA.parts
    rw [h1] at j1
    cases j1
    exact ⟨a, b, (hg q (by simp)).trans h1, ihl h2 j2 fun x hx => hg x (by simp [hx]), ihr h3 j3 fun x hx => hg x (by simp [hx])⟩
  | disj l r ihl ihr =>
    obtain ⟨a, b, h1, h2, h3⟩ := h
    obtain ⟨o, A1, A2, A3, A4, A5, j1, rfl, j2, j3, -⟩ := hA.parts
    rw [h1] at j1
    cases j1
    exact ⟨a, b, (hg q (by simp)).trans h1, ihl h2 j2 fun x hx => hg x (by simp [hx]), ihr h3 j3 fun x hx => hg x (by simp [hx])⟩

/-- the same for lists -/
theorem local_all {α : Type} {P P' : Ptr → α → Prop} {ps A : List Ptr} {xs : List α} (h : List.Forall₂ P ps xs) (hA : Forest m.own ps A)
    (hc : ∀ {p x A'}, p ∈ ps → P p x → Forest m.own [p] A' → (∀ y ∈ A', y ∈ A) → P' p x) : List.Forall₂ P' ps xs :=
  forall₂_imp_mem h fun p x hp _ hpx => by
    obtain ⟨A', f1, s1⟩ := hA.mem hp
    exact hc hp hpx f1 s1

/-! ### The engine does not change -/

/-- the objects `U` are as they were -/
def Same (U : Ptr → Prop) (m0 m : Mem) : Prop := ∀ p, U p → m.get p = m0.get p

theorem Same.frame {K : List Ptr} (he : Env m e U) (hs : Same U m0 m) (hm : m.Ok) (x : Effect m m' L L' K) (hd : ∀ p ∈ L, ¬ U p) : Same U m0 m' := by
  intro p hp
  obtain ⟨o, ho⟩ := he.alive p hp
  rw [← hs p hp, ho]
  exact x.get hm ho fun hc => hd p hc hp

theorem Same.varAt (he : Env m e U) (hs : Same U m0 m) (v : VarRef) : varAt m0 e v = Own.varAt m e v := by
  obtain ⟨oe, -, h1, -⟩ := he.engine
  unfold Own.varAt
  rw [hs e h1]

theorem Same.termAt (he : Env m e U) (hs : Same U m0 m) (v : VarRef) (j : Nat) : termAt m0 e v j = Own.termAt m e v j := by
  unfold Own.termAt
  rw [hs.varAt he]
  cases hv : Own.varAt m e v with
  | none => rfl
  | some p =>
    obtain ⟨oe, h1, h2, h3⟩ := he.engine
    have hp : p ∈ oe.a ++ oe.b := by
      cases v <;> simp only [Own.varAt, h1, Option.bind_some] at hv <;> simp [List.mem_of_getElem? hv]
    simp only [Option.bind_some]
    rw [hs p (h3 p hp).1]

theorem Same.named (he : Env m e U) (hs : Same U m0 m) (h : EngineNamed m0 e V) : EngineNamed m e V := by
  obtain ⟨oe, h1, h2, h3⟩ := he.engine
  obtain ⟨o, ho, ha, hb⟩ := h
  rw [← hs e h2, h1] at ho
  cases ho
  have one : ∀ {v n}, v ∈ oe.a ++ oe.b → VarNamed m0 v n → VarNamed m v n := by
    intro v n hv hn
    obtain ⟨u1, ov, u2, u3⟩ := h3 v hv
    obtain ⟨ov', i1, i2, i3⟩ := hn
    rw [← hs v u1, u2] at i1
    cases i1
    refine ⟨ov, u2, i2, forall₂_imp_mem i3 fun t n ht _ hc => ?_⟩
    obtain ⟨ot, j1, j2⟩ := hc
    exact ⟨ot, (hs t (u3 t ht)).trans j1, j2⟩
  exact ⟨oe, h1, forall₂_imp_mem ha fun v n hv _ hc => one (by simp [hv]) hc, forall₂_imp_mem hb fun v n hv _ hc => one (by simp [hv]) hc⟩

/-- names of hedges and whether they are `any` -/
def anys (H : HedgeFactory S) : Hedges := fun n => (H n).map Hedge.isAny

/-- a new hedge of a proposition -/
theorem IsProposition.hedge {q : Ptr} {v : VarRef} {hs : List (Hedge S)} {h : Hedge S} {t : Str} {Lq : List Ptr} (hm : m.Ok)
    (hp : IsProposition H m0 e m q ⟨v, hs, none⟩) (hf : Forest m.own [q] Lq) (hn : Lq.Nodup) (ht : H t = some h) :
    ∃ m1 m2, alloc { cls := .leaf, text := t } m = some (m.next, m1) ∧ modify q (fun o => { o with a := o.a ++ [m.next] }) m1 = some ((), m2) ∧
      IsProposition H m0 e m2 q ⟨v, hs ++ [h], none⟩ ∧ ∀ p, p ≠ q → (∃ o, m.get p = some o) → m2.get p = m.get p := by
  obtain ⟨pv, a, ts, h1, h2, h4, h5⟩ := hp
  obtain ⟨m1, e1, x1, g1, k1, -⟩ := alloc_eq m { cls := .leaf, text := t } hm
  have old : ∀ p, (∃ o, m.get p = some o) → m1.get p = m.get p := by
    rintro p ⟨o, ho⟩
    refine k1 p ?_
    rintro rfl
    rw [hm _ le_rfl] at ho
    cases ho
  have hq1 := (old q ⟨_, h4⟩).trans h4
  obtain ⟨m2, e2, x2, g2, k2, -⟩ := modify_eq (fun o => { o with a := o.a ++ [m.next] }) x1.ok hq1
  have hqn : m.next ≠ q := by
    rintro rfl
    rw [hm _ le_rfl] at h4
    cases h4
  obtain ⟨o, A1, A2, A3, A4, A5, j1, rfl, j2, -⟩ := hf.parts
  rw [h4] at j1
  cases j1
  have hqa : ∀ x ∈ a, x ≠ q := by
    rintro x hx rfl
    exact (List.nodup_cons.1 hn).1 (by simp [j2.roots x hx])
  refine ⟨m1, m2, e1, e2, ⟨pv, a ++ [m.next], ts, h1, h2, g2, ?_⟩, fun p hp ho => (k2 p hp).trans (old p ho)⟩
  refine List.rel_append (forall₂_imp_mem h5 fun x y hx hy hc => ?_) (.cons ⟨t, (k2 _ hqn).trans g1, ht⟩ .nil)
  obtain ⟨n, l1, l2⟩ := hc
  exact ⟨n, ((k2 x (hqa x hx)).trans (old x ⟨_, l1⟩)).trans l1, l2⟩

/-- the term of a proposition -/
theorem IsProposition.setTerm {q t : Ptr} {v : VarRef} {hs : List (Hedge S)} {j : Nat} {Lq : List Ptr} (hm : m.Ok)
    (hp : IsProposition H m0 e m q ⟨v, hs, none⟩) (hf : Forest m.own [q] Lq) (hn : Lq.Nodup) (ht : termAt m0 e v j = some t) :
    ∃ m2, modify q (fun o => { o with refs := o.refs ++ [t] }) m = some ((), m2) ∧ IsProposition H m0 e m2 q ⟨v, hs, some j⟩ ∧ ∀ p, p ≠ q → m2.get p = m.get p := by
  obtain ⟨pv, a, ts, h1, h2, h4, h5⟩ := hp
  cases h2
  obtain ⟨m2, e2, x2, g2, k2, -⟩ := modify_eq (fun o => { o with refs := o.refs ++ [t] }) hm h4
  obtain ⟨o, A1, A2, A3, A4, A5, j1, rfl, j2, -⟩ := hf.parts
  rw [h4] at j1
  cases j1
  have hqa : ∀ x ∈ a, x ≠ q := by
    rintro x hx rfl
    exact (List.nodup_cons.1 hn).1 (by simp [j2.roots x hx])
  refine ⟨m2, e2, ⟨pv, a, [t], h1, ⟨t, ht, rfl⟩, g2, forall₂_imp_mem h5 fun x y hx hy hc => ?_⟩, k2⟩
  obtain ⟨n, l1, l2⟩ := hc
  exact ⟨n, (k2 x (hqa x hx)).trans l1, l2⟩

/-- a new proposition -/
theorem IsProposition.new {v : VarRef} {p : Ptr} (hm : m.Ok) (hv : varAt m0 e v = some p) :
    ∃ m1, alloc { cls := .proposition, refs := [p] } m = some (m.next, m1) ∧ IsProposition H m0 e m1 m.next ⟨v, [], none⟩ ∧
      ∀ p, (∃ o, m.get p = some o) → m1.get p = m.get p := by
  obtain ⟨m1, e1, x1, g1, k1, -⟩ := alloc_eq m { cls := .proposition, refs := [p] } hm
  refine ⟨m1, e1, ⟨p, [], [], hv, rfl, g1, .nil⟩, ?_⟩
  rintro p ⟨o, ho⟩
  refine k1 p ?_
  rintro rfl
  rw [hm _ le_rfl] at ho
  cases ho

namespace Antecedent

/-- the loops of both models -/
def Sim (H : HedgeFactory S) (m0 : Mem) (e : Ptr) (m : Mem) (stack : List Ptr) (st : State) (s : FL.Antecedent.Load S) : Prop :=
  match st with
  | .variable => s.state = .ready ∧ stack = [] ∧ s.stack = []
  | .variableAndOr => s.state = .ready ∧ List.Forall₂ (IsExpression H m0 e m) stack s.stack
  | .is q => ∃ v rest, s.state = .expectIs v ∧ stack = q :: rest ∧ IsProposition H m0 e m q ⟨v, [], none⟩ ∧ List.Forall₂ (IsExpression H m0 e m) rest s.stack
  | .hedgeTerm q => ∃ v hs rest, s.state = .expectTerm v hs ∧ stack = q :: rest ∧ IsProposition H m0 e m q ⟨v, hs, none⟩ ∧
      List.Forall₂ (IsExpression H m0 e m) rest s.stack

theorem stay {ps : List Ptr} {xs : List (Expr S)} (h : List.Forall₂ (IsExpression H m0 e m) ps xs) (hf : Forest m.own ps L) (hg : ∀ x ∈ L, m'.get x = m.get x) :
    List.Forall₂ (IsExpression H m0 e m') ps xs :=
  local_all h hf fun _ h1 h2 h3 => IsExpression.local h1 h2 fun y hy => hg y (h3 y hy)

theorem step_sim {stack : List Ptr} {st : State} {s : FL.Antecedent.Load S} (t : Str) (hm : m.Ok) (he : Env m e U) (hs : Same U m0 m) (hV : EngineNamed m0 e V)
    (h : Inv U m stack L st) (i : Sim H m0 e m stack st s) :
    match FL.Antecedent.step H V s t with
    | .error _ => step (anys H) e stack st t m = some (none, m)
    | .ok s' => ∃ stack' st' m', step (anys H) e stack st t m = some (some (stack', st'), m') ∧ Sim H m0 e m' stack' st' s' := by
  have hVm := hs.named he hV
  have old : ∀ p ∈ L, ∃ o, m.get p = some o := fun p hp => h.forest.get hp
  -- a variable, in both states
  have var : ∀ {v pv : _}, s.state = .ready → List.Forall₂ (IsExpression H m0 e m) stack s.stack → varAt m e v = some pv →
      ∃ q m', alloc { cls := .proposition, refs := [pv] } m = some (q, m') ∧ Sim H m0 e m' (q :: stack) (.is q) ⟨s.stack, .expectIs v⟩ := by
    intro v pv h1 h2 h3
    obtain ⟨m1, e1, p1, k1⟩ := IsProposition.new (H := H) hm ((hs.varAt he v).trans h3)
    exact ⟨m.next, m1, e1, v, stack, rfl, rfl, p1, stay h2 h.forest fun x hx => k1 x (old x hx)⟩
  cases st with
  | «variable» =>
    obtain ⟨i1, rfl, i2⟩ := i
    obtain ⟨e1, b1⟩ := find_idx hVm t
    unfold step FL.Antecedent.step
    simp only [i1, i2]
    cases hv : V.find t with
    | none =>
      rw [hv] at e1
      simp only [ite_self]
      rw [bind_eq e1]
      simp
      rfl
    | some v =>
      obtain ⟨p, hp⟩ := b1 v hv
      rw [hv] at e1
      simp only [Option.bind_some, hp] at e1
      obtain ⟨q, m', e2, i3⟩ := var i1 (by rw [i2]; exact .nil) hp
      refine ⟨[q], .is q, m', ?_, by simpa [i2] using i3⟩
      rw [bind_eq e1]
      simp only
      rw [bind_eq e2, pure_eq]
  | variableAndOr =>
    obtain ⟨i1, i2⟩ := i
    obtain ⟨e1, b1⟩ := find_idx hVm t
    unfold step FL.Antecedent.step
    simp only [i1]
    cases hv : V.find t with
    | some v =>
      obtain ⟨p, hp⟩ := b1 v hv
      rw [hv] at e1
      simp only [Option.bind_some, hp] at e1
      obtain ⟨q, m', e2, i3⟩ := var i1 i2 hp
      refine ⟨q :: stack, .is q, m', ?_, i3⟩
      rw [bind_eq e1]
      simp only
      rw [bind_eq e2, pure_eq]
    | none =>
      rw [hv] at e1
      simp only [Option.bind_none] at e1
      have op : ∀ {r l : Ptr} {rest : List Ptr} (k : Str), stack = r :: l :: rest → ∃ m', alloc { cls := .operator, text := k, a := [l], b := [r] } m = some (m.next, m') ∧
          m'.get m.next = some { cls := .operator, text := k, a := [l], b := [r] } ∧ ∀ x ∈ L, m'.get x = m.get x := by
        intro r l rest k _
        obtain ⟨m1, e1, x1, g1, k1, -⟩ := alloc_eq m { cls := .operator, text := k, a := [l], b := [r] } hm
        refine ⟨m1, e1, g1, fun x hx => k1 x ?_⟩
        rintro rfl
        obtain ⟨o, ho⟩ := old _ hx
        rw [hm _ le_rfl] at ho
        cases ho
      by_cases hand : t = andKeyword
      · subst hand
        simp only [if_true, true_and, true_or]
        rcases hst : s.stack with _ | ⟨y, _ | ⟨z, ys⟩⟩
        · rw [hst] at i2
          cases i2
          simp only
          rw [bind_eq e1]
          rfl
        · rw [hst] at i2
          rcases i2 with _ | ⟨_, i2⟩
          cases i2
          simp only
          rw [bind_eq e1]
          rfl
        · rw [hst] at i2
          rcases i2 with _ | ⟨u1, u2⟩
          rcases u2 with _ | ⟨u2, u3⟩
          rename_i r l rest
          obtain ⟨m1, e2, g2, k2⟩ := op andKeyword rfl
          have all := stay (.cons u1 (.cons u2 u3)) h.forest k2
          rcases all with _ | ⟨w1, w2⟩
          rcases w2 with _ | ⟨w2, w3⟩
          refine ⟨m.next :: rest, .variableAndOr, m1, ?_, rfl, .cons ⟨l, r, g2, w2, w1⟩ w3⟩
          rw [bind_eq e1]
          simp only
          rw [bind_eq e2]
          rfl
      · by_cases hor : t = orKeyword
        · subst hor
          simp only [if_neg hand, if_true, true_and, or_true]
          rcases hst : s.stack with _ | ⟨y, _ | ⟨z, ys⟩⟩
          · rw [hst] at i2
            cases i2
            simp only
            rw [bind_eq e1]
            rfl
          · rw [hst] at i2
            rcases i2 with _ | ⟨_, i2⟩
            cases i2
            simp only
            rw [bind_eq e1]
            rfl
          · rw [hst] at i2
            rcases i2 with _ | ⟨u1, u2⟩
            rcases u2 with _ | ⟨u2, u3⟩
            rename_i r l rest
            obtain ⟨m1, e2, g2, k2⟩ := op orKeyword rfl
            have all := stay (.cons u1 (.cons u2 u3)) h.forest k2
            rcases all with _ | ⟨w1, w2⟩
            rcases w2 with _ | ⟨w2, w3⟩
            refine ⟨m.next :: rest, .variableAndOr, m1, ?_, rfl, .cons ⟨l, r, g2, w2, w1⟩ w3⟩
            rw [bind_eq e1]
            simp only
            rw [bind_eq e2]
            rfl
        · simp only [if_neg hand, if_neg hor, hand, hor, or_self, and_false, if_false]
          rw [bind_eq e1]
          rfl
  | is q =>
    obtain ⟨v, rest, i1, rfl, i2, i3⟩ := i
    unfold step FL.Antecedent.step
    simp only [i1]
    by_cases hk : t = isKeyword
    · rw [if_pos hk, if_pos hk]
      exact ⟨_, _, m, rfl, v, [], rest, rfl, rfl, i2, i3⟩
    · rw [if_neg hk, if_neg hk]
      rfl
  | hedgeTerm q =>
    obtain ⟨v, hs', rest, i1, rfl, i2, i3⟩ := i
    obtain ⟨Lq, L0, rfl, fq, f0⟩ := Forest.split (ps := [q]) h.forest
    have n1 := List.nodup_append'.1 h.nodup
    have hq0 : ∀ x ∈ L0, x ≠ q := by
      rintro x hx rfl
      exact n1.2.2 (fq.roots x (by simp)) hx
    unfold step FL.Antecedent.step
    simp only [i1, anys]
    cases hH : H t with
    | some k =>
      obtain ⟨m1, m2, e1, e2, p2, k2⟩ := i2.hedge hm fq n1.1 hH
      have r2 := stay i3 f0 fun x hx => k2 x (hq0 x hx) (old x (by simp [hx]))
      simp only [Option.map_some]
      cases ha : k.isAny with
      | true =>
        refine ⟨q :: rest, .variableAndOr, m2, ?_, rfl, .cons p2 r2⟩
        rw [bind_eq e1, bind_eq e2]
        rfl
      | false =>
        refine ⟨q :: rest, .hedgeTerm q, m2, ?_, v, _, rest, rfl, rfl, p2, r2⟩
        rw [bind_eq e1, bind_eq e2]
        rfl
    | none =>
      obtain ⟨pv, a, ts, j1, j2, j3, j4⟩ := i2
      cases j2
      have hpv := (hs.varAt he v).symm.trans j1
      obtain ⟨ov, l1, l2⟩ := var_named hVm hpv
      obtain ⟨e1, b1⟩ := findTerm_idx hVm hpv l1 t
      simp only [Option.map_none]
      rw [bind_eq (read_eq j3)]
      simp only [List.headD_cons]
      rw [bind_eq (read_eq l1), bind_eq e1]
      cases ht : V.findTerm v t with
      | none => rfl
      | some j =>
        obtain ⟨tm, htm⟩ := b1 j ht
        obtain ⟨m2, e2, p2, k2⟩ := IsProposition.setTerm hm ⟨pv, a, [], j1, rfl, j3, j4⟩ fq n1.1 ((hs.termAt he v j).trans htm)
        refine ⟨q :: rest, .variableAndOr, m2, ?_, rfl, .cons p2 (stay i3 f0 fun x hx => k2 x (hq0 x hx))⟩
        simp only [Option.bind_some, htm]
        rw [bind_eq e2]
        rfl

/-- the loops of both models, to the end -/
theorem run_sim {stack : List Ptr} {st : State} {s : FL.Antecedent.Load S} (ts : List Str) (hm : m.Ok) (he : Env m e U) (hs : Same U m0 m) (hV : EngineNamed m0 e V)
    (h : Inv U m stack L st) (i : Sim H m0 e m stack st s) :
    match ts.foldlM (FL.Antecedent.step H V) s with
    | .error _ => ∃ stack' m', run (anys H) e stack st ts m = some ((stack', none), m')
    | .ok s' => ∃ stack' st' m' L', run (anys H) e stack st ts m = some ((stack', some st'), m') ∧ Effect m m' L L' [] ∧ Inv U m' stack' L' st' ∧ Sim H m0 e m' stack' st' s' := by
  induction ts generalizing m L stack st s with
  | nil => exact ⟨stack, st, m, L, rfl, .refl hm h.nodup fun p hp => h.forest.live hp, h, i⟩
  | cons t ts ih =>
    have j := step_sim t hm he hs hV h i
    rw [List.foldlM_cons]
    unfold run
    cases hstep : FL.Antecedent.step H V s t with
    | error x =>
      rw [hstep] at j
      refine ⟨stack, m, ?_⟩
      rw [bind_eq j]
      rfl
    | ok s' =>
      rw [hstep] at j
      obtain ⟨stack1, st1, m1, e1, i1⟩ := j
      rcases step_eq (anys H) t hm he h with e2 | ⟨stack2, st2, m2, L2, e2, x2, h2⟩
      · rw [e1] at e2
        cases e2
      · rw [e1] at e2
        cases e2
        have := ih x2.ok (he.frame hm x2 h.apart) (hs.frame he hm x2 h.apart) h2 i1
        rw [bind_eq e1]
        simp only [Except.bind, bind, pure] at this ⊢
        split at this
        · exact this
        · obtain ⟨stack3, st3, m3, L3, e3, x3, r3⟩ := this
          exact ⟨stack3, st3, m3, L3, e3, x2.trans hm x3, r3⟩

/-- Loading an antecedent in memory and as a value: both fail, or both succeed and the antecedent owns the expression. -/
theorem load_sim {p : Ptr} (ts : List Str) (hm : m.Ok) (he : Env m e U) (hV : EngineNamed m e V) (hf : Forest m.own [p] L) (hn : L.Nodup) (hd : ∀ q ∈ L, ¬ U q) :
    ∃ m', match FL.Antecedent.build H V ts with
    | .error _ => load (anys H) e p (some ts) m = some (false, m')
    | .ok x => load (anys H) e p (some ts) m = some (true, m') ∧ ∃ o q, m'.get p = some o ∧ o.a = [q] ∧ IsExpression H m e m' q x := by
  obtain ⟨o, La, Lr, ho, rfl, ha, hr⟩ := hf.partsA
  obtain ⟨m1, e1, w1, g1⟩ := unload_work (U := U) hm ho ha hr hn
  have he1 := he.frame hm w1.effect hd
  have hs1 : Same U m m1 := Same.frame (m0 := m) he (fun _ _ => rfl) hm w1.effect hd
  have key := run_sim (H := H) ts w1.effect.ok he1 hs1 hV (inv_nil U m1) ⟨rfl, rfl, rfl⟩ (s := ⟨[], .ready⟩)
  obtain ⟨x, m', L', K, l1, l2, l3, l4, l5⟩ := load_all (anys H) p (some ts) hm he hf hn hd
  obtain ⟨m1', stack, st, m2, u1, u2, u3, -⟩ := l5 ts rfl
  rw [e1] at u1
  cases u1
  refine ⟨m', ?_⟩
  unfold FL.Antecedent.build
  simp only [Except.bind, bind, pure]
  cases hb : ts.foldlM (FL.Antecedent.step H V) ⟨[], .ready⟩ with
  | error y =>
    rw [hb] at key
    obtain ⟨stack', m'', e2⟩ := key
    rw [u2] at e2
    cases e2
    simp at u3
    rw [u3] at l1
    exact l1
  | ok s' =>
    rw [hb] at key
    obtain ⟨stack', st', m'', L2, e2, x2, i2, s2⟩ := key
    rw [u2] at e2
    cases e2
    have bad : ¬ ((some st' = some State.variable ∨ some st' = some State.variableAndOr) ∧ stack.length = 1) → load (anys H) e p (some ts) m = some (false, m') := by
      intro h
      rw [← u3] at h
      simp only [Bool.not_eq_true] at h
      rw [l1, h]
    match st', s2 with
    | .variable, ⟨k1, k0, k2⟩ =>
      simp only [k1, k2]
      exact bad (by simp [k0])
    | .is q, ⟨v, rest, k1, _⟩ =>
      simp only [k1]
      exact bad (by simp)
    | .hedgeTerm q, ⟨v, hs, rest, k1, _⟩ =>
      simp only [k1]
      exact bad (by simp)
    | .variableAndOr, ⟨k1, k2⟩ =>
      simp only [k1]
      rcases hst : s'.stack with _ | ⟨y, _ | ⟨z, ys⟩⟩
      · rw [hst] at k2
        cases k2
        exact bad (by simp)
      · rw [hst] at k2
        rcases k2 with _ | ⟨k2, k3⟩
        cases k3
        rename_i q
        have g2 := x2.get w1.effect.ok g1 (by simp)
        have hp2 : p ∉ L2 := by
          intro hc
          rcases x2.new p (Or.inl hc) with h | h
          · simp at h
          · rw [w1.effect.ok p h] at g1
            cases g1
        obtain ⟨m3, e3, x3, g3, k3, -⟩ := modify_eq (fun o => { o with a := [q] }) x2.ok g2
        have hl : load (anys H) e p (some ts) m = some (true, m3) := by
          unfold load
          rw [bind_eq e1]
          simp only
          rw [bind_eq u2]
          simp only
          rw [bind_eq e3, pure_eq]
        rw [hl] at l1
        cases l1
        refine ⟨hl, _, q, g3, rfl, ?_⟩
        exact k2.local i2.forest fun x hx => k3 x (by rintro rfl; exact hp2 hx)
      · rw [hst] at k2
        have := k2.length_eq
        exact bad (by rw [this]; simp)

end Antecedent

namespace Consequent

/-- the loops of both models -/
def Sim (H : HedgeFactory S) (m0 : Mem) (e : Ptr) (m : Mem) (p : Ptr) (st : State) (s : FL.Consequent.Load S) : Prop :=
  ∃ o, m.get p = some o ∧ match st with
  | .variable => s.state = .expectVariable ∧ List.Forall₂ (IsProposition H m0 e m) o.a s.conclusions
  | .andWith => s.state = .expectAnd ∧ List.Forall₂ (IsProposition H m0 e m) o.a s.conclusions
  | .is q => ∃ v rest, s.state = .expectIs v ∧ o.a = rest ++ [q] ∧ IsProposition H m0 e m q ⟨v, [], none⟩ ∧ List.Forall₂ (IsProposition H m0 e m) rest s.conclusions
  | .hedgeTerm q => ∃ v hs rest, s.state = .expectTerm v hs ∧ o.a = rest ++ [q] ∧ IsProposition H m0 e m q ⟨v, hs, none⟩ ∧
      List.Forall₂ (IsProposition H m0 e m) rest s.conclusions

theorem stay {ps : List Ptr} {xs : List (Proposition S)} (h : List.Forall₂ (IsProposition H m0 e m) ps xs) (hf : Forest m.own ps L) (hg : ∀ x ∈ L, m'.get x = m.get x) :
    List.Forall₂ (IsProposition H m0 e m') ps xs :=
  local_all h hf fun _ h1 h2 h3 => IsProposition.local h1 h2 fun y hy => hg y (h3 y hy)

theorem step_sim {p : Ptr} {st : State} {s : FL.Consequent.Load S} (t : Str) (hm : m.Ok) (he : Env m e U) (hs : Same U m0 m) (hV : EngineNamed m0 e V)
    (h : Inv U m p L st) (i : Sim H m0 e m p st s) :
    match FL.Consequent.step H V s t with
    | .error _ => step (anys H) e p st t m = some (none, m)
    | .ok s' => ∃ st' m', step (anys H) e p st t m = some (some st', m') ∧ Sim H m0 e m' p st' s' := by
  have hVm := hs.named he hV
  have old : ∀ x ∈ L, ∃ o, m.get x = some o := fun p hp => h.forest.get hp
  obtain ⟨o, ho, i⟩ := i
  obtain ⟨o', La, Lr, ho', rfl, fa, fr⟩ := h.forest.partsA
  rw [ho] at ho'
  cases ho'
  obtain ⟨np, n1⟩ := List.nodup_cons.1 h.nodup
  have n2 := List.nodup_append'.1 n1
  have hpa : ∀ x ∈ La, x ≠ p := by
    rintro x hx rfl
    exact np (by simp [hx])
  cases st with
  | «variable» =>
    obtain ⟨i1, i2⟩ := i
    obtain ⟨oe, he1, -, hb⟩ := hVm
    obtain ⟨e1, b1⟩ := findOutput_idx he1 hb t
    unfold step FL.Consequent.step
    simp only [i1]
    cases hv : V.findOutput t with
    | none =>
      simp only
      rw [bind_eq (read_eq he1), bind_eq e1, hv]
      rfl
    | some v =>
      obtain ⟨pv, hp⟩ := b1 v hv
      obtain ⟨m1, e2, p1, k1⟩ := IsProposition.new (H := H) hm ((hs.varAt he v).trans hp)
      have hn : p ≠ m.next := by
        rintro rfl
        rw [hm _ le_rfl] at ho
        cases ho
      obtain ⟨m1', e2', x1, g1, -⟩ := alloc_eq m { cls := .proposition, refs := [pv] } hm
      rw [e2] at e2'
      cases e2'
      obtain ⟨m2, e3, x3, g3, k3, -⟩ := modify_eq (fun o => { o with a := o.a ++ [m.next] }) x1.ok ((k1 p ⟨_, ho⟩).trans ho)
      have hf1 : Forest m1.own [m.next] [m.next] := Forest.leaf g1
      refine ⟨.is m.next, m2, ?_, _, g3, v, o.a, rfl, rfl, p1.local hf1 ?_, stay i2 fa fun x hx => ?_⟩
      · rw [bind_eq (read_eq he1), bind_eq e1, hv]
        simp only [Option.bind_some, hp]
        rw [bind_eq e2, bind_eq e3]
        rfl
      · intro x hx
        simp at hx
        subst hx
        exact k3 _ hn.symm
      · exact (k3 x (hpa x hx)).trans (k1 x (old x (by simp [hx])))
  | is q =>
    obtain ⟨v, rest, i1, i2, i3, i4⟩ := i
    unfold step FL.Consequent.step
    simp only [i1]
    by_cases hk : t = isKeyword
    · rw [if_pos hk, if_pos hk]
      exact ⟨_, m, rfl, o, ho, v, [], rest, rfl, i2, i3, i4⟩
    · rw [if_neg hk, if_neg hk]
      rfl
  | andWith =>
    obtain ⟨i1, i2⟩ := i
    unfold step FL.Consequent.step
    simp only [i1]
    by_cases hk : t = andKeyword
    · rw [if_pos hk, if_pos hk]
      exact ⟨_, m, rfl, o, ho, rfl, i2⟩
    · rw [if_neg hk, if_neg hk]
      rfl
  | hedgeTerm q =>
    obtain ⟨v, hs', rest, i1, i2, i3, i4⟩ := i
    rw [i2] at fa
    obtain ⟨L0, Lq, rfl, f0, fq⟩ := fa.split
    have n3 := List.nodup_append'.1 n2.1
    have hqq : q ∈ Lq := fq.roots q (by simp)
    have hq0 : ∀ x ∈ L0, x ≠ q := by
      rintro x hx rfl
      exact n3.2.2 hx hqq
    have hpq : p ≠ q := fun hc => hpa q (by simp [hqq]) hc.symm
    unfold step FL.Consequent.step
    simp only [i1, anys]
    cases hH : H t with
    | some k =>
      obtain ⟨m1, m2, e1, e2, p2, k2⟩ := i3.hedge hm fq n3.2.1 hH
      have r2 := stay i4 f0 fun x hx => k2 x (hq0 x hx) (old x (by simp [hx]))
      simp only [Option.map_some]
      refine ⟨.hedgeTerm q, m2, ?_, o, (k2 p hpq ⟨_, ho⟩).trans ho, v, _, rest, rfl, i2, p2, r2⟩
      rw [bind_eq e1, bind_eq e2]
      rfl
    | none =>
      obtain ⟨pv, a, ts, j1, j2, j3, j4⟩ := i3
      cases j2
      have hpv := (hs.varAt he v).symm.trans j1
      obtain ⟨ov, l1, l2⟩ := var_named hVm hpv
      obtain ⟨e1, b1⟩ := findTerm_idx hVm hpv l1 t
      simp only [Option.map_none]
      rw [bind_eq (read_eq j3)]
      simp only [List.headD_cons]
      rw [bind_eq (read_eq l1), bind_eq e1]
      cases ht : V.findTerm v t with
      | none => rfl
      | some j =>
        obtain ⟨tm, htm⟩ := b1 j ht
        obtain ⟨m2, e2, p2, k2⟩ := IsProposition.setTerm hm ⟨pv, a, [], j1, rfl, j3, j4⟩ fq n3.2.1 ((hs.termAt he v j).trans htm)
        refine ⟨.andWith, m2, ?_, o, (k2 p hpq).trans ho, rfl, ?_⟩
        · simp only [Option.bind_some, htm]
          rw [bind_eq e2]
          rfl
        · rw [i2]
          exact List.rel_append (stay i4 f0 fun x hx => k2 x (hq0 x hx)) (.cons p2 .nil)

theorem run_sim {p : Ptr} {st : State} {s : FL.Consequent.Load S} (ts : List Str) (hm : m.Ok) (he : Env m e U) (hs : Same U m0 m) (hV : EngineNamed m0 e V)
    (h : Inv U m p L st) (i : Sim H m0 e m p st s) :
    match ts.foldlM (FL.Consequent.step H V) s with
    | .error _ => ∃ m' L', run (anys H) e p st ts m = some (none, m') ∧ Work U [p] m m' L L' []
    | .ok s' => ∃ st' m' L', run (anys H) e p st ts m = some (some st', m') ∧ Work U [p] m m' L L' [] ∧ Inv U m' p L' st' ∧ Sim H m0 e m' p st' s' := by
  induction ts generalizing m L st s with
  | nil => exact ⟨st, m, L, rfl, .refl hm h.forest h.nodup, h, i⟩
  | cons t ts ih =>
    have j := step_sim t hm he hs hV h i
    rw [List.foldlM_cons]
    unfold run
    cases hstep : FL.Consequent.step H V s t with
    | error x =>
      rw [hstep] at j
      refine ⟨m, L, ?_, .refl hm h.forest h.nodup⟩
      rw [bind_eq j]
      rfl
    | ok s' =>
      rw [hstep] at j
      obtain ⟨st1, m1, e1, i1⟩ := j
      rcases step_eq (anys H) t hm he h with e2 | ⟨st2, m2, L2, e2, x2, h2⟩
      · rw [e1] at e2
        cases e2
      · rw [e1] at e2
        cases e2
        have := ih x2.effect.ok (he.frame hm x2.effect h.apart) (hs.frame he hm x2.effect h.apart) h2 i1
        rw [bind_eq e1]
        simp only [Except.bind, bind, pure] at this ⊢
        split at this
        · obtain ⟨m3, L3, e3, x3⟩ := this
          exact ⟨m3, L3, e3, x2.trans hm x3⟩
        · obtain ⟨st3, m3, L3, e3, x3, r3⟩ := this
          exact ⟨st3, m3, L3, e3, x2.trans hm x3, r3⟩

/-- the loop and the check after it, of the values -/
def build (H : HedgeFactory S) (V : Vocabulary) (ts : List Str) : Except Err (List (Proposition S)) := do
  let s ← ts.foldlM (FL.Consequent.step H V) ⟨[], .expectVariable⟩
  match s.state with
  | .expectAnd => .ok s.conclusions
  | _ => .error .syntaxError

theorem load_sim {p : Ptr} (ts : List Str) (hm : m.Ok) (he : Env m e U) (hV : EngineNamed m e V) (hf : Forest m.own [p] L) (hn : L.Nodup) (hd : ∀ q ∈ L, ¬ U q) :
    ∃ m', match build H V ts with
    | .error _ => load (anys H) e p ts m = some (false, m')
    | .ok x => load (anys H) e p ts m = some (true, m') ∧ ∃ o, m'.get p = some o ∧ List.Forall₂ (IsProposition H m e m') o.a x := by
  obtain ⟨o, La, Lr, ho, rfl, ha, hr⟩ := hf.partsA
  obtain ⟨m1, e1, w1, g1⟩ := unload_work (U := U) hm ho ha hr hn
  have he1 := he.frame hm w1.effect hd
  have hd1 : ∀ q ∈ p :: Lr, ¬ U q := fun q hq => he.apart hm w1.effect hd q (Or.inl hq)
  have hs1 : Same U m m1 := Same.frame (m0 := m) he (fun _ _ => rfl) hm w1.effect hd
  have key := run_sim (H := H) ts w1.effect.ok he1 hs1 hV ⟨w1.forest, w1.nodup, hd1, by simp⟩ (st := .variable) (s := ⟨[], .expectVariable⟩) ⟨_, g1, rfl, .nil⟩
  unfold load
  rw [bind_eq e1]
  unfold build
  simp only [Except.bind, bind, pure]
  by_cases ht : ts = []
  · subst ht
    exact ⟨m1, rfl⟩
  · rw [if_neg ht]
    have failed : ∀ {st m2 L2}, run (anys H) e p .variable ts m1 = some (st, m2) → Work U [p] m1 m2 (p :: Lr) L2 [] → st ≠ some .andWith →
        ∃ m', (do
          match ← run (anys H) e p .variable ts with
          | some .andWith => pure true
          | _ =>
            unload p
            pure false : M Bool) m1 = some (false, m') := by
      intro st m2 L2 e2 w2 hst
      have hd2 : ∀ q ∈ L2, ¬ U q := fun q hq => he1.apart w1.effect.ok w2.effect hd1 q (Or.inl hq)
      obtain ⟨_, m3, L3, K3, e3, w3, k3⟩ := unload_does (U := U) p w2.effect.ok (he1.frame w1.effect.ok w2.effect hd1) w2.forest w2.nodup hd2
      have key : (do unload p; pure false : M Bool) m2 = some (false, m3) := by rw [bind_eq e3, pure_eq]
      refine ⟨m3, ?_⟩
      rw [bind_eq e2]
      match st, hst, key with
      | some .andWith, hs, _ => exact absurd rfl hs
      | none, _, key => exact key
      | some .variable, _, key => exact key
      | some (.is _), _, key => exact key
      | some (.hedgeTerm _), _, key => exact key
    cases hb : ts.foldlM (FL.Consequent.step H V) ⟨[], .expectVariable⟩ with
    | error y =>
      rw [hb] at key
      obtain ⟨m2, L2, e2, w2⟩ := key
      exact failed e2 w2 (by simp)
    | ok s' =>
      rw [hb] at key
      obtain ⟨st', m2, L2, e2, w2, i2, o2, g2, s2⟩ := key
      match st', s2, e2 with
      | .variable, ⟨k1, k2⟩, e2 =>
        simp only [k1]
        exact failed e2 w2 (by simp)
      | .is q, ⟨v, rest, k1, _⟩, e2 =>
        simp only [k1]
        exact failed e2 w2 (by simp)
      | .hedgeTerm q, ⟨v, hs, rest, k1, _⟩, e2 =>
        simp only [k1]
        exact failed e2 w2 (by simp)
      | .andWith, ⟨k1, k2⟩, e2 =>
        simp only [k1]
        refine ⟨m2, ?_, o2, g2, k2⟩
        exact bind_eq e2

end Consequent

end FL.Own
