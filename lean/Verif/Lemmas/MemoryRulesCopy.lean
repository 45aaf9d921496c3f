/-
Lemmas about the rules of copies of engines.
-/
import Verif.Lemmas.MemoryAssign
import Verif.Lemmas.MemoryRules

namespace FL.Own

local notation "Ptr" => Nat

variable {S : Type} {m m0 m1 m2 m' : Mem} {L L' : List Ptr} {U : Ptr → Prop} {e : Ptr} {H : HedgeFactory S} {V : Vocabulary}

theorem IsHedge.mono (hg : Grows m m') {p : Ptr} {h : Hedge S} (hh : IsHedge H m p h) : IsHedge H m' p h := by
  obtain ⟨n, h1, h2⟩ := hh
  exact ⟨n, hg _ _ h1, h2⟩

theorem IsProposition.mono (hg : Grows m m') {q : Ptr} {p : Proposition S} (h : IsProposition H m0 e m q p) : IsProposition H m0 e m' q p := by
  obtain ⟨v, a, ts, h1, h2, h3, h4⟩ := h
  exact ⟨v, a, ts, h1, h2, hg _ _ h3, h4.imp fun _ _ h => h.mono hg⟩

theorem IsExpression.mono (hg : Grows m m') {q : Ptr} {x : Expr S} (h : IsExpression H m0 e m q x) : IsExpression H m0 e m' q x := by
  induction x generalizing q with
  | prop p => exact IsProposition.mono hg h
  | conj l r ihl ihr =>
    obtain ⟨a, b, h1, h2, h3⟩ := h
    exact ⟨a, b, hg _ _ h1, ihl h2, ihr h3⟩
  | disj l r ihl ihr =>
    obtain ⟨a, b, h1, h2, h3⟩ := h
    exact ⟨a, b, hg _ _ h1, ihl h2, ihr h3⟩

theorem Rule.Holds.mono (hg : Grows m m') {r : Ptr} {v : FL.Rule S} (h : Rule.Holds H m0 e m r v) : Rule.Holds H m0 e m' r v := by
  obtain ⟨o, a, c, oa, oc, h1, h2, h3, h4, h5, h6, h7, h8⟩ := h
  refine ⟨o, a, c, oa, oc, hg _ _ h1, h2, h3, h4, hg _ _ h5, hg _ _ h6, ?_, h8.imp fun _ _ h => h.mono hg⟩
  cases hv : v.antecedent with
  | none =>
    rw [hv] at h7
    exact h7
  | some x =>
    rw [hv] at h7
    obtain ⟨q, h9, h10⟩ := h7
    exact ⟨q, h9, h10.mono hg⟩

/-- The rules of a rule block have some values. -/
def RuleBlock.Hold (H : HedgeFactory S) (m0 : Mem) (e : Ptr) (m : Mem) (b : Ptr) (vs : List (FL.Rule S)) : Prop :=
  ∃ o, m.get b = some o ∧ List.Forall₂ (Rule.Holds H m0 e m) o.a vs

/-- The rules of a rule block have the texts of some values. -/
def RuleBlock.HasTexts (m : Mem) (b : Ptr) (vs : List (FL.Rule S)) : Prop := ∃ o, m.get b = some o ∧ List.Forall₂ (fun r v => Named m r v.text) o.a vs

theorem RuleBlock.HasTexts.mono (hg : Grows m m') {b : Ptr} {vs : List (FL.Rule S)} (h : RuleBlock.HasTexts m b vs) : RuleBlock.HasTexts m' b vs := by
  obtain ⟨o, h1, h2⟩ := h
  exact ⟨o, hg _ _ h1, h2.imp fun _ _ h => by
    obtain ⟨o, h3, h4⟩ := h
    exact ⟨o, hg _ _ h3, h4⟩⟩

theorem RuleBlock.HasTexts.local {b : Ptr} {vs : List (FL.Rule S)} {A : List Ptr} (h : RuleBlock.HasTexts m b vs) (hA : Forest m.own [b] A) (hg : ∀ x ∈ A, m'.get x = m.get x) :
    RuleBlock.HasTexts m' b vs := by
  obtain ⟨o, h1, h2⟩ := h
  obtain ⟨o', A1, A2, j1, rfl, j2, -⟩ := hA.partsA
  rw [h1] at j1
  cases j1
  refine ⟨o, (hg b (by simp)).trans h1, forall₂_imp_mem h2 fun r v hr _ h => ?_⟩
  obtain ⟨o, h3, h4⟩ := h
  exact ⟨o, (hg r (by simp [j2.roots r hr])).trans h3, h4⟩

theorem RuleBlock.Hold.local {b : Ptr} {vs : List (FL.Rule S)} {A : List Ptr} (h : RuleBlock.Hold H m0 e m b vs) (hA : Forest m.own [b] A) (hg : ∀ x ∈ A, m'.get x = m.get x) :
    RuleBlock.Hold H m0 e m' b vs := by
  obtain ⟨o, h1, h2⟩ := h
  obtain ⟨o', A1, A2, j1, rfl, j2, -⟩ := hA.partsA
  rw [h1] at j1
  cases j1
  exact ⟨o, (hg b (by simp)).trans h1, local_all h2 j2 fun _ k1 k2 k3 => k1.local k2 fun y hy => hg y (by simp [k3 y hy])⟩

namespace Engine

theorem copyBlock_hold [ScalarText S] (G : Registry S) {b : Ptr} {vs : List (FL.Rule S)} (hm : m.Ok) (he : Env m e U) (hV : EngineNamed m e V) (hf : Forest m.own [b] L)
    (h : RuleBlock.HasTexts m b vs) :
    ∃ q m', copyBlock (reader G) (hedges G) e b m = some ((q, vs.map fun v => (v.reload G V).2.isNone), m') ∧ RuleBlock.Hold G.hedges m e m' q (FL.loadRules G V vs).1 := by
  obtain ⟨q, m1, L1, e1, f1, x1, -⟩ := RuleBlock.copy_copies hm hf
  obtain ⟨g1, ⟨ob, a, ba, ca, da, ea, i1, i2, i3, -⟩, -⟩ := RuleBlock.copy_alike hm e1
  have he1 := he.frame hm x1 (by simp)
  have hs1 : Same U m m1 := Same.frame (m0 := m) he (fun _ _ => rfl) hm x1 (by simp)
  have hV1 := hs1.named he1 hV
  have hd1 : ∀ p ∈ L1, ¬ U p := fun p hp => he.apart hm x1 (by simp) p (Or.inl hp)
  obtain ⟨ob', h1, h2⟩ := h
  have h1' := g1 _ _ h1
  rw [i1] at h1'
  cases h1'
  have texts : List.Forall₂ (fun r v => Rule.HasText m1 r v.text) a vs := by
    clear i2 i1 h1
    revert i3 h2
    generalize ob.a = xs
    intro i3 h2
    induction i3 generalizing vs with
    | nil =>
      cases h2
      exact .nil
    | cons c1 _ ih =>
      rcases h2 with _ | ⟨d1, d2⟩
      refine .cons ?_ (ih d2)
      obtain ⟨o, x, y, c2, c3, -⟩ := c1
      obtain ⟨o', d3, d4⟩ := d1
      have := g1 _ _ d3
      rw [c2] at this
      cases this
      exact ⟨_, x, y, c3, d4, rfl, rfl⟩
  obtain ⟨m2, e2, j2⟩ := RuleBlock.loadRules_hold G x1.ok he1 hV1 f1 x1.nodupLeft hd1 i2 texts
  obtain ⟨o2, A, B, j1, j0, fa, -⟩ := f1.partsA
  rw [i2] at j1
  cases j1
  obtain ⟨k1, -⟩ := RuleBlock.loadRules_keeps (reader G) (hedges G) x1.ok he1 f1 x1.nodupLeft hd1 i2 fa e2
  refine ⟨q, m2, ?_, _, k1, j2.imp fun _ _ h => h.base (fun v => (hs1.varAt he1 v).symm) fun v j => (hs1.termAt he1 v j).symm⟩
  unfold copyBlock
  rw [bind_eq e1, bind_eq e2, pure_eq]

theorem copyBlocks_hold [ScalarText S] (G : Registry S) {bs : List Ptr} {vss : List (List (FL.Rule S))} (hm : m.Ok) (he : Env m e U) (hV : EngineNamed m e V) (hf : Forest m.own bs L)
    (h : List.Forall₂ (RuleBlock.HasTexts m) bs vss) :
    ∃ qs m', each (copyBlock (reader G) (hedges G) e) bs m = some (qs, m') ∧ qs.map Prod.snd = vss.map (List.map fun v => (v.reload G V).2.isNone) ∧
      List.Forall₂ (RuleBlock.Hold G.hedges m e m') (qs.map Prod.fst) (vss.map fun vs => (FL.loadRules G V vs).1) := by
  induction bs generalizing m L vss with
  | nil =>
    cases h
    exact ⟨[], m, rfl, rfl, .nil⟩
  | cons b bs ih =>
    rcases h with _ | ⟨h1, h2⟩
    rename_i vs vss
    obtain ⟨Lb, Ls, rfl, f1, f2⟩ := Forest.split (ps := [b]) hf
    obtain ⟨q, m1, e1, j1⟩ := copyBlock_hold G hm he hV f1 h1
    obtain ⟨q', xs', m1', L1, K1, e1', -, x1, -, -⟩ := Engine.copyBlock_eq (reader G) (hedges G) hm he f1
    rw [e1] at e1'
    cases e1'
    have he1 := he.frame hm x1 (by simp)
    have hs1 : Same U m m1 := Same.frame (m0 := m) he (fun _ _ => rfl) hm x1 (by simp)
    have f2' := x1.forest hm f2 (by simp)
    have grow1 : Grows m m1 := fun x o ho => x1.get hm ho (by simp)
    obtain ⟨qs, m2, e2, j2, j3⟩ := ih x1.ok he1 (hs1.named he1 hV) f2' (h2.imp fun _ _ h => h.mono grow1)
    obtain ⟨qs', m2', L2, K2, e2', -, x2, -, -⟩ := Engine.copyBlocks_eq (reader G) (hedges G) x1.ok he1 f2'
    rw [e2] at e2'
    cases e2'
    have grow : Grows m1 m2 := fun x o ho => x2.get x1.ok ho (by simp)
    refine ⟨(q, vs.map fun v => (v.reload G V).2.isNone) :: qs, m2, ?_, ?_, .cons ?_ ?_⟩
    · unfold each
      rw [bind_eq e1, bind_eq e2, pure_eq]
    · simp [j2]
    · obtain ⟨o, k1, k2⟩ := j1
      exact ⟨o, grow _ _ k1, k2.imp fun _ _ h => h.mono grow⟩
    · refine j3.imp fun _ _ h => ?_
      obtain ⟨o, k1, k2⟩ := h
      exact ⟨o, k1, k2.imp fun _ _ h => h.base (fun v => (hs1.varAt he1 v).symm) fun v j => (hs1.termAt he1 v j).symm⟩

/-- copies have the names of the engines -/
theorem Like.named {p q : Ptr} (h : Engine.Like m p q) (hV : EngineNamed m p V) : EngineNamed m q V := by
  obtain ⟨o, c, is, os, bs, h1, h2, h3, h4, -⟩ := h
  obtain ⟨o', k1, k2, k3⟩ := hV
  rw [h1] at k1
  cases k1
  have comp : ∀ {P : Ptr → Ptr → Prop} {xs ys : List Ptr} {ns : List (Str × List Str)}, List.Forall₂ P xs ys → List.Forall₂ (VarNamed m) xs ns →
      (∀ x y n, P x y → VarNamed m x n → VarNamed m y n) → List.Forall₂ (VarNamed m) ys ns := by
    intro P xs ys ns i1 i2 i3
    induction i1 generalizing ns with
    | nil =>
      cases i2
      exact .nil
    | cons a _ ih =>
      rcases i2 with _ | ⟨b1, b2⟩
      exact .cons (i3 _ _ _ a b1) (ih b2)
  have terms : ∀ {xs ys : List Ptr} {ns : List Str}, List.Forall₂ (Term.Like q m) xs ys → List.Forall₂ (Named m) xs ns → List.Forall₂ (Named m) ys ns := by
    intro xs ys ns i1 i2
    induction i1 generalizing ns with
    | nil =>
      cases i2
      exact .nil
    | cons a _ ih =>
      rcases i2 with _ | ⟨b1, b2⟩
      refine .cons ?_ (ih b2)
      obtain ⟨o, a1, a2⟩ := a
      obtain ⟨o', b3, b4⟩ := b1
      rw [a1] at b3
      cases b3
      exact ⟨_, a2, b4⟩
  refine ⟨_, h2, comp h3 k2 ?_, comp h4 k3 ?_⟩
  · rintro x y n ⟨o, a, a1, a2, a3⟩ ⟨o', b1, b2, b3⟩
    rw [a1] at b1
    cases b1
    exact ⟨_, a2, b2, terms a3 b3⟩
  · rintro x y n ⟨o, a, b, c, a1, a2, a3, -⟩ ⟨o', b1, b2, b3⟩
    rw [a1] at b1
    cases b1
    exact ⟨_, a2, b2, terms a3 b3⟩

/-- The rules of a copy are loaded for the copy. -/
theorem copyFrom_hold [ScalarText S] (G : Registry S) {p : Ptr} {Lp Le : List Ptr} {o oe : Obj} {vss : List (List (FL.Rule S))} (hm : m.Ok) (hs : Forest m.own [p] Lp)
    (hf : Forest m.own [e] Le) (hn : Le.Nodup) (hd : ∀ q ∈ Lp, q ∉ Le) (hoe : m.get e = some oe) (he : oe = { cls := oe.cls, text := oe.text }) (ho : m.get p = some o)
    (hV : EngineNamed m p V) (hvs : List.Forall₂ (RuleBlock.HasTexts m) o.c vss) :
    ∃ m' o', copyFrom (reader G) (hedges G) e p m = some (vss.map (List.map fun v => (v.reload G V).2.isNone), m') ∧ EngineNamed m' e V ∧ m'.get e = some o' ∧
      List.Forall₂ (RuleBlock.Hold G.hedges m' e m') o'.c (vss.map fun vs => (FL.loadRules G V vs).1) := by
  obtain ⟨xs, m', Le', K, e0, -, E, -⟩ := copyFrom_eq (reader G) (hedges G) hm hs hf hn hd
  have like := copyFrom_like (reader G) (hedges G) hm hs hf hn hd hoe he e0
  have hs' := hs
  obtain ⟨o', Lpa, Lpb, Lpc, Lpd, Lpe, ho', rfl, sa, sb, sc, -, -⟩ := hs'.parts
  rw [ho] at ho'
  cases ho'
  have E0 : Effect m m Le Le [] := .refl hm hn fun q hq => hf.live hq
  have hpe : p ≠ e := by
    rintro rfl
    exact hd p (by simp) (hf.roots p (by simp))
  have eLe : e ∈ Le := hf.roots e (by simp)
  -- the names of the source
  have keepP : ∀ q ∈ p :: (Lpa ++ Lpb ++ Lpc ++ Lpd ++ Lpe), ∀ {m0 L0 K0}, Effect m m0 Le L0 K0 → m0.get q = m.get q := by
    intro q hq m0 L0 K0 E
    obtain ⟨oq, hoq⟩ := hs.get hq
    rw [hoq]
    exact E.get hm hoq (hd q hq)
  have named : EngineNamed m' p V := by
    obtain ⟨o', k1, k2, k3⟩ := hV
    rw [ho] at k1
    cases k1
    have one : ∀ {vs A : List Ptr} {ns : List (Str × List Str)}, Forest m.own vs A → (∀ q ∈ A, m'.get q = m.get q) → List.Forall₂ (VarNamed m) vs ns → List.Forall₂ (VarNamed m') vs ns := by
      intro vs A ns hA hg h
      refine forall₂_imp_mem h fun v n hv _ hc => ?_
      obtain ⟨ov, i1, i2, i3⟩ := hc
      obtain ⟨Av, hAv, sub⟩ := hA.mem hv
      obtain ⟨ov', B, C, j1, rfl, j2, -⟩ := hAv.partsA
      rw [i1] at j1
      cases j1
      refine ⟨ov, (hg v (sub v (by simp))).trans i1, i2, forall₂_imp_mem i3 fun t n ht _ hc => ?_⟩
      obtain ⟨ot, l1, l2⟩ := hc
      exact ⟨ot, (hg t (sub t (by simp [j2.roots t ht]))).trans l1, l2⟩
    exact ⟨o, (keepP p (by simp) E).trans ho, one sa (fun q hq => keepP q (by simp [hq]) E) k2, one sb (fun q hq => keepP q (by simp [hq]) E) k3⟩
  have namedE := Like.named like named
  -- input variables
  obtain ⟨is, m1, Li, e1, f1, x1, -⟩ := Variable.copy_copies.each hm sa
  have E1 := E0.seq hm x1
  have hf1 := x1.forest hm hf (by simp)
  have g1 := x1.get hm hoe (by simp)
  obtain ⟨m2, Le2, e2, X2, f2, p2, g2, k2⟩ := modify_grow (l1 := oe.a) (ps := is) (l3 := oe.b ++ oe.c ++ oe.d ++ oe.e)
    (fun e => { e with text := o.text, a := e.a ++ is }) x1.ok g1 hf1 f1 E1.nodupLeft (by simp [Obj.owned]) (by simp [Obj.owned])
  have E2 := E1.trans hm X2
  -- output variables
  have sb2 := E2.forest hm sb fun q hq => hd q (by simp [hq])
  obtain ⟨os, m3, Lo, e3, f3, x3, -⟩ := OutputVariable.copy_copies.each X2.ok sb2
  have E3 := E2.seq hm x3
  have hf3 := x3.forest X2.ok f2 (by simp)
  have g3 := x3.get X2.ok g2 (by simp)
  obtain ⟨m4, Le4, e4, X4, f4, p4, g4, k4⟩ := modify_grow (l1 := oe.a ++ is ++ oe.b) (ps := os) (l3 := oe.c ++ oe.d ++ oe.e)
    (fun e => { e with b := e.b ++ os }) x3.ok g3 hf3 f3 E3.nodupLeft (by simp [Obj.owned]) (by simp [Obj.owned])
  have E4 := E3.trans hm X4
  -- references
  obtain ⟨m5, e5, u5, T5⟩ := updateReferences_eq X4.ok f4 g4
  have X5 := u5.effect X4.ok T5 E4.nodupLeft fun q hq => f4.get hq
  have E5 := E4.trans hm X5
  have f5 : Forest m5.own [e] Le4 := by rw [u5.own]; exact f4
  obtain ⟨o5, g5, o5a, o5b⟩ := u5.a g4
  have env : Env m5 e (· ∈ Le4) := by
    refine ⟨fun q hq => f5.get hq, o5, g5, f5.roots e (by simp), fun v hv => ?_⟩
    obtain ⟨os', L0, h1, hL0, h2⟩ := f5.one_inv
    rw [own_eq g5] at h1
    cases h1
    obtain ⟨Lv, h3, sub⟩ := h2.mem (p := v) (by simp only [Obj.owned, List.mem_append] at hv ⊢; tauto)
    obtain ⟨ov, A, B, C, D, E, h4, rfl, h5, -⟩ := h3.parts
    refine ⟨?_, ov, h4, fun t ht => ?_⟩
    · rw [hL0]; exact List.mem_cons_of_mem _ (sub v (by simp))
    · rw [hL0]; exact List.mem_cons_of_mem _ (sub t (by simp [h5.roots t ht]))
  -- rule blocks
  have sc5 := E5.forest hm sc fun q hq => hd q (by simp [hq])
  obtain ⟨bs, m6, Lb, K, e6, f6, x6, -, -⟩ := copyBlocks_eq (reader G) (hedges G) X5.ok env sc5
  have E6 := E5.seq hm x6
  have hf6 := x6.forest X5.ok f5 (by simp)
  have g6 := x6.get X5.ok g5 (by simp)
  obtain ⟨m7, Le7, e7, X7, f7, p7, g7, k7⟩ := modify_grow (l1 := o5.a ++ o5.b ++ o5.c) (ps := bs.map Prod.fst) (l3 := o5.d ++ o5.e)
    (fun e => { e with c := e.c ++ bs.map Prod.fst }) x6.ok g6 hf6 f6 E6.nodupLeft (by simp [Obj.owned]) (by simp [Obj.owned])
  have hx : copyFrom (reader G) (hedges G) e p m = some (bs.map Prod.snd, m7) := by
    unfold copyFrom
    rw [bind_eq (read_eq ho), bind_eq e1, bind_eq e2, bind_eq e3, bind_eq e4, bind_eq e5, bind_eq e6, bind_eq e7, pure_eq]
  rw [hx] at e0
  cases e0
  have eL4 : e ∈ Le4 := f5.roots e (by simp)
  have neB : ∀ q ∈ Lb, q ≠ e := by
    rintro q hq rfl
    exact (List.nodup_append'.1 E6.nodupLeft).2.2 eL4 hq
  -- the names of the copy before its rules are loaded
  have same5 : ∀ q, q ∈ Le4 → q ≠ e → m5.get q = m'.get q := by
    intro q hq hqe
    obtain ⟨oq, hoq⟩ := f5.get hq
    rw [hoq, k7 q hqe]
    exact (x6.get X5.ok hoq (by simp)).symm
  obtain ⟨o7, A4, B4, C4, D4, F4, h4, hL4, a4, b4, -⟩ := f5.parts
  rw [g5] at h4
  cases h4
  have n4 : (e :: (A4 ++ B4 ++ C4 ++ D4 ++ F4)).Nodup := by rw [← hL4]; simpa using E5.nodupLeft
  obtain ⟨eL, -⟩ := List.nodup_cons.1 n4
  have named5 : EngineNamed m5 e V := by
    obtain ⟨o7, k1, k2, k3⟩ := namedE
    rw [g7] at k1
    cases k1
    have one : ∀ {vs A : List Ptr} {ns : List (Str × List Str)}, Forest m5.own vs A → (∀ q ∈ A, m5.get q = m'.get q) → List.Forall₂ (VarNamed m') vs ns → List.Forall₂ (VarNamed m5) vs ns := by
      intro vs A ns hA hg h
      refine forall₂_imp_mem h fun v n hv _ hc => ?_
      obtain ⟨ov, i1, i2, i3⟩ := hc
      obtain ⟨Av, hAv, sub⟩ := hA.mem hv
      obtain ⟨ov', B, C, j1, rfl, j2, -⟩ := hAv.partsA
      rw [hg v (sub v (by simp)), i1] at j1
      cases j1
      refine ⟨ov, (hg v (sub v (by simp))).trans i1, i2, forall₂_imp_mem i3 fun t n ht _ hc => ?_⟩
      obtain ⟨ot, l1, l2⟩ := hc
      exact ⟨ot, (hg t (sub t (by simp [j2.roots t ht]))).trans l1, l2⟩
    refine ⟨o5, g5, one a4 (fun q hq => same5 q (by rw [hL4]; simp [hq]) ?_) k2, one b4 (fun q hq => same5 q (by rw [hL4]; simp [hq]) ?_) k3⟩
    · rintro rfl
      exact eL (by simp [hq])
    · rintro rfl
      exact eL (by simp [hq])
  have hvs5 : List.Forall₂ (RuleBlock.HasTexts m5) o.c vss :=
    local_all hvs sc fun _ k1 k2 k3 => k1.local k2 fun y hy => keepP y (by simp [k3 y hy]) E5
  obtain ⟨qs, m6', e6', j6, j7⟩ := copyBlocks_hold G X5.ok env named5 sc5 hvs5
  rw [e6] at e6'
  cases e6'
  refine ⟨m', _, ?_, namedE, g7, ?_⟩
  · rw [hx, j6]
  · have hc : o5.c = [] := by
      obtain ⟨o', c, is', os', bs', l1, l2, -, -, l3⟩ := like
      rw [(keepP p (by simp) E).trans ho] at l1
      cases l1
      rw [g7] at l2
      have l4 := congrArg Obj.c (Option.some.inj l2)
      simp only at l4
      have l5 := l3.length_eq
      have l6 := hvs.length_eq
      have l7 := j7.length_eq
      rw [← l4] at l5
      simp only [List.length_append, List.length_map] at l5 l7
      exact List.length_eq_zero_iff.1 (by omega)
    have hvar : ∀ v, varAt m5 e v = varAt m' e v := by
      intro v
      cases v <;> simp [varAt, g5, g7]
    have hterm : ∀ v j, termAt m5 e v j = termAt m' e v j := by
      intro v j
      unfold termAt
      rw [← hvar]
      cases hv : varAt m5 e v with
      | none => rfl
      | some w =>
        have hw : w ∈ A4 ++ B4 := by
          cases v <;> simp only [varAt, g5, Option.bind_some] at hv
          · simp [a4.roots w (List.mem_of_getElem? hv)]
          · simp [b4.roots w (List.mem_of_getElem? hv)]
        simp only [Option.bind_some]
        rw [same5 w (by rw [hL4]; simp only [List.mem_append, List.mem_cons] at hw ⊢; tauto)]
        rintro rfl
        exact eL (by simp only [List.mem_append] at hw ⊢; tauto)
    simp only [hc, List.nil_append]
    refine local_all j7 f6 fun _ k1 k2 k3 => ?_
    obtain ⟨ob, q1, q2⟩ := k1.local k2 fun y hy => k7 y (neB y (k3 y hy))
    exact ⟨ob, q1, q2.imp fun _ _ h => h.base hvar hterm⟩

end Engine

theorem EngineNamed.local {p : Ptr} {A : List Ptr} (h : EngineNamed m p V) (hA : Forest m.own [p] A) (hg : ∀ x ∈ A, m'.get x = m.get x) : EngineNamed m' p V := by
  obtain ⟨o, h1, h2, h3⟩ := h
  obtain ⟨o', A1, A2, A3, A4, A5, j1, rfl, j2, j3, -⟩ := hA.parts
  rw [h1] at j1
  cases j1
  have one : ∀ {vs B : List Ptr} {ns : List (Str × List Str)}, Forest m.own vs B → (∀ q ∈ B, m'.get q = m.get q) → List.Forall₂ (VarNamed m) vs ns → List.Forall₂ (VarNamed m') vs ns := by
    intro vs B ns hB hg h
    refine forall₂_imp_mem h fun v n hv _ hc => ?_
    obtain ⟨ov, i1, i2, i3⟩ := hc
    obtain ⟨Bv, hBv, sub⟩ := hB.mem hv
    obtain ⟨ov', C, D, j1, rfl, j2, -⟩ := hBv.partsA
    rw [i1] at j1
    cases j1
    refine ⟨ov, (hg v (sub v (by simp))).trans i1, i2, forall₂_imp_mem i3 fun t n ht _ hc => ?_⟩
    obtain ⟨ot, l1, l2⟩ := hc
    exact ⟨ot, (hg t (sub t (by simp [j2.roots t ht]))).trans l1, l2⟩
  exact ⟨o, (hg p (by simp)).trans h1, one j2 (fun q hq => hg q (by simp [hq])) h2, one j3 (fun q hq => hg q (by simp [hq])) h3⟩

theorem Engine.assign_hold [ScalarText S] (G : Registry S) {p : Ptr} {Lp : List Ptr} {o oe : Obj} {vss : List (List (FL.Rule S))} (hm : m.Ok) (hf : Forest m.own [e] L) (hn : L.Nodup)
    (hs : Forest m.own [p] Lp) (hd : ∀ q ∈ Lp, q ∉ L) (hoe : m.get e = some oe) (he : oe.refs = [] ∧ oe.d = [] ∧ oe.e = []) (ho : m.get p = some o)
    (hV : EngineNamed m p V) (hvs : List.Forall₂ (RuleBlock.HasTexts m) o.c vss) :
    ∃ m' o', Engine.assign (reader G) (hedges G) e p m = some (vss.map (List.map fun v => (v.reload G V).2.isNone), m') ∧ EngineNamed m' e V ∧ m'.get e = some o' ∧
      List.Forall₂ (RuleBlock.Hold G.hedges m' e m') o'.c (vss.map fun vs => (FL.loadRules G V vs).1) := by
  have hne : e ≠ p := by
    rintro rfl
    exact hd e (hs.roots e (by simp)) (hf.roots e (by simp))
  obtain ⟨m1, m2, L2, e1, e2, f2, E2, g2, s2⟩ := clear_slot (l1 := oe.a ++ oe.b) (old := oe.c) (l3 := oe.d ++ oe.e) (fun o => { o with c := [] }) hm hoe hf hn
    (by simp [Obj.owned]) (by simp [Obj.owned])
  obtain ⟨m3, m4, L4, e3, e4, f4, E4, g4, s4⟩ := clear_slot (l1 := oe.a) (old := oe.b) (l3 := oe.d ++ oe.e) (fun o => { o with b := [] }) E2.ok g2 f2 E2.nodupLeft
    (by simp [Obj.owned]) (by simp [Obj.owned])
  obtain ⟨m5, m6, L6, e5, e6, f6, E6, g6, s6⟩ := clear_slot (l1 := []) (old := oe.a) (l3 := oe.d ++ oe.e) (fun o => { o with a := [] }) E4.ok g4 f4 E4.nodupLeft
    (by simp [Obj.owned]) (by simp [Obj.owned])
  have E := (E2.trans hm E4).trans hm E6
  simp only [List.append_nil] at E
  have keep : ∀ q ∈ Lp, m6.get q = m.get q := by
    intro q hq
    obtain ⟨oq, hoq⟩ := hs.get hq
    rw [hoq]
    exact E.get hm hoq (hd q hq)
  have hs' := hs
  obtain ⟨o', A1, A2, A3, A4, A5, j1, rfl, j2, j3, j4, -⟩ := hs'.parts
  rw [ho] at j1
  cases j1
  obtain ⟨m7, o7, e7, h7⟩ := Engine.copyFrom_hold G E.ok (E.forest hm hs hd) f6 E.nodupLeft (fun q hq hc => hd q hq (s2 q (s4 q (s6 q hc)))) g6 (by cases oe; simp_all)
    ((keep p (by simp)).trans ho) (hV.local hs keep) (local_all hvs j4 fun _ k1 k2 k3 => k1.local k2 fun y hy => keep y (by simp [k3 y hy]))
  refine ⟨m7, o7, ?_, h7⟩
  unfold Engine.assign
  rw [if_neg hne, bind_eq (read_eq hoe), bind_eq e1, bind_eq e2, bind_eq e3, bind_eq e4, bind_eq e5, bind_eq e6, e7]

/-- The values of rules loaded again are those of the rules. -/
theorem loadRules_again [ScalarText S] (G : Registry S) (vs : List (FL.Rule S)) : List.Forall₂ (fun v w : FL.Rule S => v.text = w.text ∧ v.antecedent = w.antecedent ∧ v.conclusions = w.conclusions)
    (FL.loadRules G V (FL.loadRules G V vs).1).1 (FL.loadRules G V vs).1 := by
  rw [(loadRules_values G _).1]
  rw [List.forall₂_map_left_iff, List.forall₂_same]
  intro v hv
  rw [(loadRules_values G _).1, List.mem_map] at hv
  obtain ⟨w, -, rfl⟩ := hv
  have h := (reload_same (V := V) G (unload_text ((if w.isLoaded then w.unload else w).reload G V).1))
  have h2 := reload_same (V := V) G (reload_outcome (V := V) G (if w.isLoaded then w.unload else w)).1
  exact ⟨h.2.1.trans h2.2.1, h.2.2.1.trans h2.2.2.1, h.2.2.2.trans h2.2.2.2⟩

end FL.Own
