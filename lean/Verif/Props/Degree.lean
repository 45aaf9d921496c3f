/-
C27: degrees of antecedents.  C28: effect of consequents.
-/
import Verif.Model.Rule
import Verif.Props.Hedge
import Verif.Props.Norm
import Verif.Lemmas.ScalarOrd
import Verif.Model.Decimal
import Mathlib.Tactic.Linarith
import Mathlib.Tactic.NormNum

namespace FL
open Scalar
variable {S : Type} [Scalar S]

/-! ### C27 -/

/-- `Hedged hs x y`: applying the hedges to `x`, from the one nearest to the term (the last)
outwards, yields `y` -/
inductive Hedged : List (Hedge S) → S → S → Prop
  | nil (x : S) : Hedged [] x x
  | cons (h : Hedge S) (hs : List (Hedge S)) (x y z : S) (hy : Hedged hs x y) (hz : h.hedge y = .ok z) :
      Hedged (h :: hs) x z

theorem applyHedges_cons (h : Hedge S) (hs : List (Hedge S)) (x : S) :
    applyHedges (h :: hs) x = (applyHedges hs x).bind h.hedge := by
  unfold applyHedges
  rw [List.reverse_cons, List.foldlM_append]
  cases hx : hs.reverse.foldlM (fun x h => Hedge.hedge h x) x with
  | error e => rfl
  | ok y =>
    simp only [bind, Except.bind, List.foldlM_cons, List.foldlM_nil]
    cases h.hedge y <;> rfl

theorem applyHedges_append (hs gs : List (Hedge S)) (x : S) :
    applyHedges (hs ++ gs) x = (applyHedges gs x).bind (applyHedges hs) := by
  induction hs with
  | nil =>
    have : ∀ y : S, applyHedges [] y = .ok y := fun _ => rfl
    rw [List.nil_append]
    cases applyHedges gs x with
    | error e => rfl
    | ok y => simp [Except.bind, this]
  | cons h hs ih =>
    rw [List.cons_append, applyHedges_cons, ih]
    cases applyHedges gs x with
    | error e => rfl
    | ok y => simp [Except.bind, applyHedges_cons]

theorem applyHedges_iff (hs : List (Hedge S)) (x y : S) : applyHedges hs x = .ok y ↔ Hedged hs x y := by
  induction hs generalizing y with
  | nil =>
    constructor
    · intro h
      have : x = y := by
        have h' : (Except.ok x : Except Err S) = .ok y := h
        simpa using h'
      subst this; exact .nil x
    · intro h; cases h; rfl
  | cons h hs ih =>
    rw [applyHedges_cons]
    constructor
    · intro hz
      cases hy : applyHedges hs x with
      | error e => rw [hy] at hz; cases hz
      | ok z => rw [hy] at hz; exact .cons h hs x z y ((ih z).1 hy) hz
    · intro hz
      cases hz with
      | cons _ _ _ z _ hy hz => rw [(ih z).2 hy]; exact hz

/-- The truth degree of an antecedent, as a relation. -/
inductive HasDegree (w : World S) (conjunction : Option (TNorm S)) (disjunction : Option (SNorm S)) :
    Expr S → S → Prop
  /-- a proposition on a disabled variable counts as 0 -/
  | disabled (p : Proposition S) (h : w.isEnabled p.var = some false) :
      HasDegree w conjunction disjunction (.prop p) (lit 0)
  /-- `any` stands for 1, then the other hedges are applied outwards -/
  | any (v : VarRef) (hs : List (Hedge S)) (term : Option Nat) (y : S) (he : w.isEnabled v = some true)
      (h : Hedged hs (lit 1) y) :
      HasDegree w conjunction disjunction (.prop ⟨v, hs ++ [.builtin .any], term⟩) y
  /-- the degree of the term in the variable, transformed by the hedges -/
  | term (v : VarRef) (hs : List (Hedge S)) (j : Nat) (x y : S) (he : w.isEnabled v = some true)
      (ha : ∀ a, hs.getLast? = some a → a.isAny = false) (hx : w.termDegree v j = .ok x) (h : Hedged hs x y) :
      HasDegree w conjunction disjunction (.prop ⟨v, hs, some j⟩) y
  | conj (l r : Expr S) (a b y : S) (k : TNorm S) (hk : conjunction = some k)
      (hl : HasDegree w conjunction disjunction l a) (hr : HasDegree w conjunction disjunction r b)
      (h : k.compute a b = .ok y) : HasDegree w conjunction disjunction (.conj l r) y
  | disj (l r : Expr S) (a b y : S) (k : SNorm S) (hk : disjunction = some k)
      (hl : HasDegree w conjunction disjunction l a) (hr : HasDegree w conjunction disjunction r b)
      (h : k.compute a b = .ok y) : HasDegree w conjunction disjunction (.disj l r) y

theorem isAny_iff (h : Hedge S) : h.isAny = true ↔ h = .builtin .any := by
  cases h with
  | builtin k => cases k <;> simp [Hedge.isAny]
  | function n f => simp [Hedge.isAny]

/-- **C27.**  The degree computed for an antecedent is the one defined recursively. -/
theorem Expr.degree_iff (w : World S) (c : Option (TNorm S)) (d : Option (SNorm S)) (e : Expr S) (y : S) :
    e.degree w c d = .ok y ↔ HasDegree w c d e y := by
  induction e generalizing y with
  | prop p =>
    obtain ⟨v, hs, t⟩ := p
    simp only [Expr.degree, Proposition.degree]
    cases he : w.isEnabled v with
    | none =>
      simp only
      refine ⟨fun h => (nomatch h), fun h => ?_⟩
      cases h with
      | disabled _ h => rw [he] at h; cases h
      | any _ _ _ _ h => rw [he] at h; cases h
      | term _ _ _ _ _ h => rw [he] at h; cases h
    | some b =>
      cases b with
      | false =>
        simp only [Except.ok.injEq]
        constructor
        · rintro rfl; exact .disabled _ he
        · intro h
          cases h with
          | disabled _ h => rfl
          | any _ _ _ _ h => rw [he] at h; cases h
          | term _ _ _ _ _ h => rw [he] at h; cases h
      | true =>
        simp only
        by_cases ha : ∃ gs, hs = gs ++ [Hedge.builtin .any]
        · obtain ⟨gs, rfl⟩ := ha
          have e1 : applyHedges (gs ++ [Hedge.builtin .any]) nan = applyHedges gs (lit 1 : S) := by
            rw [applyHedges_append]; rfl
          simp only [List.getLast?_append, List.getLast?_singleton, Option.some_or, Option.map_some, Option.getD_some,
            (isAny_iff _).2 (rfl : Hedge.builtin (S := S) .any = _), if_true, e1, applyHedges_iff]
          constructor
          · intro h; exact .any v gs t y he h
          · intro h
            generalize hhs : gs ++ [Hedge.builtin .any] = hs' at h
            cases h with
            | disabled _ h => rw [he] at h; cases h
            | any _ gs' _ _ _ h =>
              have := List.append_inj_left' hhs rfl
              subst this; exact h
            | term _ _ _ _ _ _ ha _ _ =>
              subst hhs
              have := ha (.builtin .any) (by simp)
              simp [Hedge.isAny] at this
        · have hl : ∀ a, hs.getLast? = some a → a.isAny = false := by
            intro a hl
            by_contra hc
            have hc : a.isAny = true := by simpa using hc
            rw [isAny_iff] at hc
            subst hc
            rw [List.getLast?_eq_some_iff] at hl
            exact ha hl
          have hg : ((hs.getLast?.map Hedge.isAny).getD false) = false := by
            cases hx : hs.getLast? with
            | none => rfl
            | some a => simpa using hl a hx
          simp only [hg, Bool.false_eq_true, if_false]
          cases t with
          | none =>
            refine ⟨fun h => (nomatch h), fun h => ?_⟩
            cases h with
            | disabled _ h => rw [he] at h; cases h
            | any _ gs' _ _ _ h => exact absurd ⟨gs', rfl⟩ ha
          | some j =>
            simp only
            constructor
            · intro h
              cases hx : w.termDegree v j with
              | error e => rw [hx] at h; cases h
              | ok x =>
                rw [hx] at h
                exact .term v hs j x y he hl hx ((applyHedges_iff hs x y).1 h)
            · intro h
              cases h with
              | disabled _ h => rw [he] at h; cases h
              | any _ gs' _ _ _ h => exact absurd ⟨gs', rfl⟩ ha
              | term _ _ _ x _ _ _ hx h =>
                rw [hx]; exact (applyHedges_iff hs x y).2 h
  | conj l r ihl ihr =>
    simp only [Expr.degree]
    constructor
    · intro h
      cases hc : c with
      | none => rw [hc] at h; cases h
      | some k =>
        subst hc
        simp only at h
        cases hl : l.degree w (some k) d with
        | error e => rw [hl] at h; cases h
        | ok a =>
          cases hr : r.degree w (some k) d with
          | error e => simp only [hl, hr, bind, Except.bind] at h; cases h
          | ok b =>
            simp only [hl, hr, bind, Except.bind] at h
            exact .conj l r a b y k rfl ((ihl a).1 hl) ((ihr b).1 hr) h
    · intro h
      cases h with
      | conj _ _ a b _ k hk hl hr h =>
        subst hk
        simp only [(ihl a).2 hl, (ihr b).2 hr, bind, Except.bind, h]
  | disj l r ihl ihr =>
    simp only [Expr.degree]
    constructor
    · intro h
      cases hc : d with
      | none => rw [hc] at h; cases h
      | some k =>
        subst hc
        simp only at h
        cases hl : l.degree w c (some k) with
        | error e => rw [hl] at h; cases h
        | ok a =>
          cases hr : r.degree w c (some k) with
          | error e => simp only [hl, hr, bind, Except.bind] at h; cases h
          | ok b =>
            simp only [hl, hr, bind, Except.bind] at h
            exact .disj l r a b y k rfl ((ihl a).1 hl) ((ihr b).1 hr) h
    · intro h
      cases h with
      | disj _ _ a b _ k hk hl hr h =>
        subst hk
        simp only [(ihl a).2 hl, (ihr b).2 hr, bind, Except.bind, h]

/-- the operators in a tree -/
def Expr.hasConj : Expr S → Bool
  | .prop _ => false
  | .conj _ _ => true
  | .disj l r => l.hasConj || r.hasConj

def Expr.hasDisj : Expr S → Bool
  | .prop _ => false
  | .conj l r => l.hasDisj || r.hasDisj
  | .disj _ _ => true

/-- the propositions in a tree -/
def Expr.props : Expr S → List (Proposition S)
  | .prop p => [p]
  | .conj l r => l.props ++ r.props
  | .disj l r => l.props ++ r.props

/-- **C27.**  A missing norm that is needed anywhere in the tree raises an exception. -/
theorem Expr.degree_missing (w : World S) (c : Option (TNorm S)) (d : Option (SNorm S)) (e : Expr S)
    (h : (c = none ∧ e.hasConj = true) ∨ (d = none ∧ e.hasDisj = true)) : ∃ err, e.degree w c d = .error err := by
  cases hd : e.degree w c d with
  | error err => exact ⟨err, rfl⟩
  | ok y =>
    exfalso
    rw [Expr.degree_iff] at hd
    induction hd with
    | disabled => simp [Expr.hasConj, Expr.hasDisj] at h
    | any => simp [Expr.hasConj, Expr.hasDisj] at h
    | term => simp [Expr.hasConj, Expr.hasDisj] at h
    | conj l r a b y k hk _ _ _ ihl ihr =>
      rcases h with ⟨h, _⟩ | ⟨h, hx⟩
      · rw [hk] at h; cases h
      · simp only [Expr.hasDisj, Bool.or_eq_true] at hx
        rcases hx with hx | hx
        · exact ihl (Or.inr ⟨h, hx⟩)
        · exact ihr (Or.inr ⟨h, hx⟩)
    | disj l r a b y k hk _ _ _ ihl ihr =>
      rcases h with ⟨h, hx⟩ | ⟨h, _⟩
      · simp only [Expr.hasConj, Bool.or_eq_true] at hx
        rcases hx with hx | hx
        · exact ihl (Or.inl ⟨h, hx⟩)
        · exact ihr (Or.inl ⟨h, hx⟩)
      · rw [hk] at h; cases h

/-- which exception: the missing operator is reported unless evaluating something else failed -/
theorem Expr.degree_missing_top (w : World S) (d : Option (SNorm S)) (l r : Expr S) :
    (Expr.conj l r).degree w none d = .error .missingConjunction := rfl
theorem Expr.degree_missing_top' (w : World S) (c : Option (TNorm S)) (l r : Expr S) :
    (Expr.disj l r).degree w c none = .error .missingDisjunction := rfl

/-! ### C27: truth degrees -/
section range
open Ext
variable [Tol ℝ]

/-- a truth degree -/
def Truth (x : Ext ℝ) : Prop := ∃ r : ℝ, x = fin r ∧ 0 ≤ r ∧ r ≤ 1

/-- the hedge is one of the shipped classes -/
def Hedge.IsBuiltin (h : Hedge (Ext ℝ)) : Prop := ∃ k, h = .builtin k

theorem hedged_truth (ht : (tol : ℝ) ≤ 1/5) {hs : List (Hedge (Ext ℝ))} (hb : ∀ h ∈ hs, h.IsBuiltin) {x : Ext ℝ} :
    Truth x → ∃ y, applyHedges hs x = .ok y ∧ Truth y := by
  intro hx
  induction hs with
  | nil => exact ⟨x, rfl, hx⟩
  | cons h hs ih =>
    obtain ⟨y, hy, r, rfl, h0, h1⟩ := ih fun g hg => hb g (List.mem_cons_of_mem _ hg)
    obtain ⟨k, rfl⟩ := hb h (by simp)
    obtain ⟨z, hz, hz0, hz1⟩ := hedge_range k ht r h0 h1
    refine ⟨fin z, ?_, z, rfl, hz0, hz1⟩
    rw [applyHedges_cons, hy]
    simp only [Except.bind, Hedge.hedge, hz]

/-- **C27 (range), partial.**  With shipped hedges and norms (not UnboundedSum), the degree of an antecedent
is a truth degree whenever the degrees of the terms it mentions are, and no exception is raised. -/
theorem Expr.degree_range_partial (ht : (tol : ℝ) ≤ 1/5) (w : World (Ext ℝ)) (c : TNormKind) (d : SNormKind)
    (hd : d ≠ .unboundedSum) (e : Expr (Ext ℝ))
    (he : ∀ p ∈ e.props, (∀ h ∈ p.hedges, h.IsBuiltin) ∧ (∃ b, w.isEnabled p.var = some b) ∧
      ((p.hedges.getLast?.map Hedge.isAny).getD false = true ∨
        ∃ j x, p.term = some j ∧ w.termDegree p.var j = .ok x ∧ Truth x)) :
    ∃ y, e.degree w (some (.builtin c)) (some (.builtin d)) = .ok y ∧ Truth y := by
  induction e with
  | prop p =>
    obtain ⟨hb, ⟨b, hen⟩, hp⟩ := he p (by simp [Expr.props])
    simp only [Expr.degree, Proposition.degree, hen]
    cases b with
    | false => exact ⟨_, rfl, 0, by simp, by norm_num, by norm_num⟩
    | true =>
      simp only
      by_cases hl : (p.hedges.getLast?.map Hedge.isAny).getD false = true
      · rw [if_pos hl]
        cases hla : p.hedges.getLast? with
        | none => rw [hla] at hl; simp at hl
        | some a =>
          rw [hla] at hl
          simp only [Option.map_some, Option.getD_some] at hl
          rw [isAny_iff] at hl
          subst hl
          obtain ⟨gs, hgs⟩ := List.getLast?_eq_some_iff.1 hla
          have e1 : applyHedges (gs ++ [Hedge.builtin .any]) Scalar.nan = applyHedges gs (fin 1 : Ext ℝ) := by
            rw [applyHedges_append]
            simp [applyHedges, Except.bind, bind, pure, Except.pure, Hedge.hedge, HedgeKind.hedge]
          rw [hgs, e1]
          exact hedged_truth ht (fun h hh => hb h (by rw [hgs]; simp [hh])) ⟨1, rfl, by norm_num, by norm_num⟩
      · rw [if_neg hl]
        rcases hp with hp | ⟨j, x, hj, hx, htx⟩
        · exact absurd hp hl
        · rw [hj]
          simp only [hx, bind, Except.bind]
          exact hedged_truth ht hb htx
  | conj l r ihl ihr =>
    obtain ⟨_, hl, a, rfl, ha0, ha1⟩ := ihl fun p hp => he p (by simp [Expr.props, hp])
    obtain ⟨_, hr, b, rfl, hb0, hb1⟩ := ihr fun p hp => he p (by simp [Expr.props, hp])
    obtain ⟨⟨y, hy, hy0, hya, _⟩, _⟩ := tnorm_range_comm c a b ha0 ha1 hb0 hb1
    refine ⟨fin y, ?_, y, rfl, hy0, by linarith⟩
    simp only [Expr.degree, hl, hr, bind, Except.bind, TNorm.compute, hy]
  | disj l r ihl ihr =>
    obtain ⟨_, hl, a, rfl, ha0, ha1⟩ := ihl fun p hp => he p (by simp [Expr.props, hp])
    obtain ⟨_, hr, b, rfl, hb0, hb1⟩ := ihr fun p hp => he p (by simp [Expr.props, hp])
    obtain ⟨hh, _⟩ := snorm_range_comm d a b ha0 ha1 hb0 hb1
    obtain ⟨y, hy, hya, _, hy1⟩ := hh hd
    refine ⟨fin y, ?_, y, rfl, by linarith, hy1⟩
    simp only [Expr.degree, hl, hr, bind, Except.bind, SNorm.compute, hy]

end range

/-! ### C28 -/

/-- the variables after appending activated terms to fuzzy outputs; nothing else changes -/
def World.append (w : World S) (xs : List (VarRef × Activated S)) : World S :=
  { w with outputs := w.outputs.mapIdx fun i o =>
      { o with fuzzy := { o.fuzzy with
          terms := o.fuzzy.terms ++ (xs.filter fun x => x.1 = .output i).map Prod.snd } } }

theorem World.append_nil (w : World S) : w.append [] = w := by
  unfold World.append
  have : (w.outputs.mapIdx fun i o =>
      { o with fuzzy := { o.fuzzy with terms := o.fuzzy.terms ++
        (([] : List (VarRef × Activated S)).filter fun x => x.1 = .output i).map Prod.snd } }) = w.outputs := by
    apply List.ext_getElem?
    intro i
    rw [List.getElem?_mapIdx]
    cases w.outputs[i]? <;> simp
  rw [this]

theorem World.append_append (w : World S) (xs ys : List (VarRef × Activated S)) :
    (w.append xs).append ys = w.append (xs ++ ys) := by
  unfold World.append
  simp only
  congr 1
  apply List.ext_getElem?
  intro i
  rw [List.getElem?_mapIdx, List.getElem?_mapIdx, List.getElem?_mapIdx]
  cases w.outputs[i]? <;> simp

theorem World.append_one (w : World S) (i : Nat) (o : OutputVariable S) (a : Activated S)
    (h : w.outputs[i]? = some o) :
    { w with outputs := w.outputs.set i { o with fuzzy := o.fuzzy.addTerm a } } = w.append [(.output i, a)] := by
  unfold World.append
  congr 1
  apply List.ext_getElem?
  intro j
  rw [List.getElem?_mapIdx]
  by_cases hj : i = j
  · subst hj
    obtain ⟨hi, rfl⟩ := List.getElem?_eq_some_iff.1 h
    rw [List.getElem?_set_self hi, h]
    simp [Aggregated.addTerm]
  · rw [List.getElem?_set_ne hj]
    cases w.outputs[j]? <;> simp [hj]

theorem World.append_outputs (w : World S) (xs : List (VarRef × Activated S)) (i : Nat) :
    (w.append xs).outputs[i]? = w.outputs[i]?.map fun o =>
      { o with fuzzy := { o.fuzzy with
          terms := o.fuzzy.terms ++ (xs.filter fun x => x.1 = .output i).map Prod.snd } } := by
  simp [World.append, List.getElem?_mapIdx]

theorem World.append_enabled (w : World S) (xs : List (VarRef × Activated S)) (v : VarRef) :
    (w.append xs).isEnabled v = w.isEnabled v := by
  cases v with
  | input i => rfl
  | output i =>
    simp only [World.isEnabled, World.append_outputs, Option.map_map]
    rfl

/-- the terms of an output variable -/
def World.outputTerm (w : World S) (v : VarRef) (j : Nat) : Option (Term S) :=
  match v with
  | .output i => w.outputs[i]?.bind fun o => o.terms[j]?
  | .input _ => none

theorem World.append_outputTerm (w : World S) (xs : List (VarRef × Activated S)) (v : VarRef) (j : Nat) :
    (w.append xs).outputTerm v j = w.outputTerm v j := by
  cases v with
  | input i => rfl
  | output i =>
    simp only [World.outputTerm, World.append_outputs, Option.bind_map]
    rfl

/-- the conclusions on enabled variables -/
def World.active (w : World S) (ps : List (Proposition S)) : List (Proposition S) :=
  ps.filter fun p => w.isEnabled p.var == some true

/-- **C28 (exact behaviour).**  When a consequent is applied without exception, exactly one
activated term is appended for every conclusion on an enabled variable, in order, and nothing else
changes.  The degree of a conclusion is the degree of the rule transformed by the hedges of *all*
conclusions on enabled variables up to and including this one. -/
theorem modifyLoop_exact (imp : Option (TNorm S)) (w w' : World S) (d : S) (ps : List (Proposition S))
    (h : modifyLoop imp w d ps = (w', none)) :
    ∃ as : List (Activated S), as.length = (w.active ps).length ∧
      w' = w.append (((w.active ps).map Proposition.var).zip as) ∧
      ∀ k p a, (w.active ps)[k]? = some p → as[k]? = some a →
        a.implication = imp ∧ p.term = some a.id ∧ w.outputTerm p.var a.id = some a.term ∧
        applyHedges (((w.active ps).take (k + 1)).reverse.flatMap Proposition.hedges) d = .ok a.degree := by
  induction ps generalizing w d with
  | nil =>
    simp only [modifyLoop, Prod.mk.injEq, and_true] at h
    subst h
    exact ⟨[], rfl, by simp [World.active, World.append_nil], by simp [World.active]⟩
  | cons p ps ih =>
    obtain ⟨v, hs, t⟩ := p
    simp only [modifyLoop] at h
    split at h
    · rename_i i j
      cases ho : w.outputs[i]? with
      | none => rw [ho] at h; simp at h
      | some o =>
        rw [ho] at h
        simp only at h
        cases hen : o.enabled with
        | false =>
          simp only [hen, Bool.not_false, if_true] at h
          have hact : w.active (⟨.output i, hs, some j⟩ :: ps) = w.active ps := by
            simp [World.active, World.isEnabled, ho, hen]
          rw [hact]
          exact ih w d h
        | true =>
          simp only [hen, Bool.not_true, Bool.false_eq_true, if_false] at h
          cases hd : applyHedges hs d with
          | error e => rw [hd] at h; simp at h
          | ok d' =>
            rw [hd] at h
            simp only at h
            cases htj : o.terms[j]? with
            | none => rw [htj] at h; simp at h
            | some t =>
              rw [htj] at h
              simp only at h
              rw [World.append_one w i o ⟨j, t, d', imp⟩ ho] at h
              obtain ⟨as, hlen, hw', hall⟩ := ih _ d' h
              have hact : ∀ qs, (w.append [(.output i, ⟨j, t, d', imp⟩)]).active qs = w.active qs := by
                intro qs; simp only [World.active, World.append_enabled]
              rw [hact] at hlen hw' hall
              have hact' : w.active (⟨.output i, hs, some j⟩ :: ps) = ⟨.output i, hs, some j⟩ :: w.active ps := by
                simp [World.active, World.isEnabled, ho, hen]
              rw [hact']
              refine ⟨⟨j, t, d', imp⟩ :: as, by simp [hlen], ?_, ?_⟩
              · rw [hw', World.append_append]; rfl
              · intro k p a hp ha
                cases k with
                | zero =>
                  simp only [List.getElem?_cons_zero, Option.some.injEq] at hp ha
                  subst hp ha
                  refine ⟨rfl, rfl, ?_, ?_⟩
                  · simp [World.outputTerm, ho, htj]
                  · simpa using hd
                | succ k =>
                  simp only [List.getElem?_cons_succ] at hp ha
                  obtain ⟨h1, h2, h3, h4⟩ := hall k p a hp ha
                  refine ⟨h1, h2, ?_, ?_⟩
                  · rw [World.append_outputTerm] at h3; exact h3
                  · rw [List.take_succ_cons, List.reverse_cons, List.flatMap_append, applyHedges_append]
                    simp only [List.flatMap_cons, List.flatMap_nil, List.append_nil, hd, Except.bind]
                    exact h4
    · simp at h

/-- **C28, partial.**  The degree of a conclusion is the degree of the rule transformed by its own
hedges only, provided that no earlier conclusion on an enabled variable has hedges. -/
theorem modify_partial (w w' : World S) (d : S) (imp : Option (TNorm S)) (ps : List (Proposition S))
    (h : modify w d imp ps = (w', none)) :
    ∃ as : List (Activated S), as.length = (w.active ps).length ∧
      w' = w.append (((w.active ps).map Proposition.var).zip as) ∧
      ∀ k p a, (w.active ps)[k]? = some p → as[k]? = some a →
        a.implication = imp ∧ p.term = some a.id ∧ w.outputTerm p.var a.id = some a.term ∧
        ((∀ q ∈ (w.active ps).take k, q.hedges = []) → Hedged p.hedges d a.degree) := by
  unfold modify at h
  split at h
  · simp at h
  · obtain ⟨as, h1, h2, h3⟩ := modifyLoop_exact imp w w' d ps h
    refine ⟨as, h1, h2, fun k p a hp ha => ?_⟩
    obtain ⟨h4, h5, h6, h7⟩ := h3 k p a hp ha
    refine ⟨h4, h5, h6, fun hq => ?_⟩
    rw [← applyHedges_iff, ← h7]
    congr 1
    rw [List.take_add_one, hp]
    simp only [Option.toList_some, List.reverse_append, List.reverse_cons, List.reverse_nil, List.nil_append,
      List.flatMap_cons, List.singleton_append]
    have : ((w.active ps).take k).reverse.flatMap Proposition.hedges = [] := by
      rw [List.flatMap_eq_nil_iff]
      intro q hq'
      exact hq q (by simpa using hq')
    rw [this, List.append_nil]

/-- conclusions that refer to existing terms of existing output variables, as loaded -/
def World.Resolves (w : World S) (ps : List (Proposition S)) : Prop :=
  ∀ p ∈ ps, ∃ j t, p.term = some j ∧ w.outputTerm p.var j = some t

/-- **C28 (no exception).**  Applying a loaded consequent raises an exception only if a hedge does. -/
theorem modify_total (w : World S) (d : S) (imp : Option (TNorm S)) (ps : List (Proposition S)) (h0 : ps ≠ [])
    (hr : w.Resolves ps) (hh : ∀ p ∈ ps, ∀ h ∈ p.hedges, ∀ x : S, ∃ y, h.hedge x = .ok y) :
    (modify w d imp ps).2 = none := by
  have hall : ∀ (hs : List (Hedge S)) (x : S), (∀ h ∈ hs, ∀ x : S, ∃ y, h.hedge x = .ok y) →
      ∃ y, applyHedges hs x = .ok y := by
    intro hs
    induction hs with
    | nil => intro x _; exact ⟨x, rfl⟩
    | cons h hs ih =>
      intro x hx
      obtain ⟨y, hy⟩ := ih x fun g hg => hx g (List.mem_cons_of_mem _ hg)
      obtain ⟨z, hz⟩ := hx h (by simp) y
      exact ⟨z, by rw [applyHedges_cons, hy]; exact hz⟩
  unfold modify
  rw [if_neg (by simpa using h0)]
  clear h0
  induction ps generalizing w d with
  | nil => rfl
  | cons p ps ih =>
    obtain ⟨v, hs, t⟩ := p
    obtain ⟨j, t', hj, ht⟩ := hr _ List.mem_cons_self
    subst hj
    cases v with
    | input i => simp [World.outputTerm] at ht
    | output i =>
      simp only [World.outputTerm] at ht
      cases ho : w.outputs[i]? with
      | none => rw [ho] at ht; simp at ht
      | some o =>
        rw [ho] at ht
        simp only [Option.bind_some] at ht
        simp only [modifyLoop, ho]
        have hr' : w.Resolves ps := fun p hp => hr p (List.mem_cons_of_mem _ hp)
        have hh' : ∀ p ∈ ps, ∀ h ∈ p.hedges, ∀ x : S, ∃ y, h.hedge x = .ok y :=
          fun p hp => hh p (List.mem_cons_of_mem _ hp)
        split
        · exact ih w d hr' hh'
        · obtain ⟨y, hy⟩ := hall hs d (hh _ List.mem_cons_self)
          rw [hy]
          simp only [ht]
          rw [World.append_one w i o _ ho]
          refine ih _ _ (fun p hp => ?_) hh'
          obtain ⟨j', t'', h1, h2⟩ := hr' p hp
          exact ⟨j', t'', h1, by rw [World.append_outputTerm]; exact h2⟩

section examples
open Ext

/-- two output variables with one term each -/
def demoWorld (en : Bool) : World (Ext ℚ) :=
  ⟨[], [{ OutputVariable.new (cs! "o") (fin 0) (fin 1) [⟨cs! "t", fin 1, .constant (fin 3)⟩] with enabled := en },
    OutputVariable.new (cs! "q") (fin 0) (fin 1) [⟨cs! "u", fin 1, .constant (fin 5)⟩]]⟩

/-- the degrees received by the two variables -/
def demoModify (en : Bool) (ps : List (Proposition (Ext ℚ))) : List (List (Ext ℚ)) :=
  (modify (demoWorld en) (fin (1/2)) none ps).1.outputs.map fun o => o.fuzzy.terms.map Activated.degree

/-- `then o is t and q is very u`: own hedges only -/
example : demoModify true [⟨.output 0, [], some 0⟩, ⟨.output 1, [.builtin .very], some 0⟩] = [[fin (1/2)], [fin (1/4)]] := by
  decide +kernel

/-- C28 does not hold: in `then o is very t and q is u`, the second conclusion is activated with the
degree transformed by the hedge of the first. -/
theorem modify_carry_violated :
    demoModify true [⟨.output 0, [.builtin .very], some 0⟩, ⟨.output 1, [], some 0⟩] = [[fin (1/4)], [fin (1/4)]] := by
  decide +kernel

/-- unless the first variable is disabled -/
example : demoModify false [⟨.output 0, [.builtin .very], some 0⟩, ⟨.output 1, [], some 0⟩] = [[], [fin (1/2)]] := by
  decide +kernel

/-- an antecedent over two inputs: `(a is not t or b is u) and a is any` -/
example : (Expr.conj (.disj (.prop ⟨.input 0, [.builtin .not], some 0⟩) (.prop ⟨.input 1, [], some 0⟩))
      (.prop ⟨.input 0, [.builtin .any], none⟩)).degree
    (⟨[{ Variable.new (cs! "a") (fin 0) (fin 1) [⟨cs! "t", fin 1, .constant (fin (3/4))⟩] with value := fin 0 },
       { Variable.new (cs! "b") (fin 0) (fin 1) [⟨cs! "u", fin 1, .constant (fin 1)⟩] with enabled := false }], []⟩ : World (Ext ℚ))
    (some (.builtin .minimum)) (some (.builtin .maximum)) = .ok (fin (1/4)) := by
  decide +kernel

/-- With UnboundedSum as disjunction the degree of an antecedent exceeds 1 although all memberships
are truth degrees, so the range claimed by C27 needs the exclusion above. -/
theorem degree_unboundedSum_violated :
    (Expr.disj (.prop ⟨.input 0, [], some 0⟩) (.prop ⟨.input 0, [], some 0⟩)).degree
      (⟨[{ Variable.new (cs! "a") (fin 0) (fin 1) [⟨cs! "t", fin 1, .constant (fin (3/4))⟩] with value := fin 0 }], []⟩ :
        World (Ext ℚ)) none (some (.builtin .unboundedSum)) = .ok (fin (3/2)) := by
  decide +kernel

end examples
end FL
