/-
Lemmas about loading rules and rule blocks in memory and as values.
-/
import Verif.Lemmas.MemoryRefine

namespace FL.Own

local notation "Ptr" => Nat

variable {S : Type} {m m0 m1 m2 m' : Mem} {L L' : List Ptr} {U : Ptr → Prop} {e : Ptr} {H : HedgeFactory S} {V : Vocabulary}

/-! ### The value of a text -/

/-- what loading a rule yields -/
def outcome (H : HedgeFactory S) (V : Vocabulary) : Option (Option (List Str) × List Str) → Option (Expr S × List (Proposition S))
  | some (some ts, cs) =>
    match FL.Antecedent.build H V ts, Consequent.build H V cs with
    | .ok x, .ok c => some (x, c)
    | _, _ => none
  | _ => none

theorem reload_outcome [ScalarText S] (G : Registry S) (v : FL.Rule S) :
    (v.reload G V).1.text = v.text ∧ (v.reload G V).2.isNone = (outcome G.hedges V (reader G v.text)).isSome ∧
    (v.reload G V).1.antecedent = (outcome G.hedges V (reader G v.text)).map Prod.fst ∧
    (v.reload G V).1.conclusions = ((outcome G.hedges V (reader G v.text)).map Prod.snd).getD [] := by
  unfold FL.Rule.reload FL.Rule.load reader
  cases hp : FL.Rule.parts (S := S) v.text with
  | error x => exact ⟨rfl, rfl, rfl, rfl⟩
  | ok s =>
    simp only [FL.Antecedent.load]
    by_cases ht : (Op.trim s.antecedent).isEmpty
    · simp only [ht, if_true]
      exact ⟨rfl, rfl, rfl, rfl⟩
    · simp only [ht, Bool.false_eq_true, if_false]
      cases hpo : Formula.toPostfix G.functions s.antecedent with
      | error x => exact ⟨rfl, rfl, rfl, rfl⟩
      | ok p =>
        simp only [outcome, bind, Except.bind]
        cases hb : FL.Antecedent.build G.hedges V (Op.words p) with
        | error x => exact ⟨rfl, rfl, rfl, rfl⟩
        | ok x =>
          simp only [FL.Consequent.load]
          by_cases hc : (Op.trim s.consequent).isEmpty
          · simp only [hc, if_true]
            have : Consequent.build G.hedges V [] = .error .syntaxError := rfl
            rw [this]
            exact ⟨rfl, rfl, rfl, rfl⟩
          · simp only [hc, Bool.false_eq_true, if_false, Consequent.build, bind, Except.bind]
            cases hf : (Op.words s.consequent).foldlM (FL.Consequent.step G.hedges V) ⟨[], .expectVariable⟩ with
            | error y => simp [FL.Rule.unload, FL.Rule.deactivate]
            | ok s' =>
              cases hs : s'.state <;> simp [hs, FL.Rule.unload, FL.Rule.deactivate]

/-! ### Rules -/

/-- the antecedent of a rule: nothing, or the root of an expression -/
def IsAntecedent (H : HedgeFactory S) (m0 : Mem) (e : Ptr) (m : Mem) (ps : List Ptr) : Option (Expr S) → Prop
  | none => ps = []
  | some x => ∃ q, ps = [q] ∧ IsExpression H m0 e m q x

/-- A rule in memory and its value: the text, the expression of the antecedent and the propositions of the consequent. -/
def Rule.Holds (H : HedgeFactory S) (m0 : Mem) (e : Ptr) (m : Mem) (r : Ptr) (v : FL.Rule S) : Prop :=
  ∃ o a c oa oc, m.get r = some o ∧ o.text = v.text ∧ o.a = [a] ∧ o.b = [c] ∧ m.get a = some oa ∧ m.get c = some oc ∧
    IsAntecedent H m0 e m oa.a v.antecedent ∧ List.Forall₂ (IsProposition H m0 e m) oc.a v.conclusions

theorem IsAntecedent.local {x : Option (Expr S)} {ps A : List Ptr} (h : IsAntecedent H m0 e m ps x) (hA : Forest m.own ps A) (hg : ∀ x ∈ A, m'.get x = m.get x) :
    IsAntecedent H m0 e m' ps x := by
  cases x with
  | none => exact h
  | some x =>
    obtain ⟨q, rfl, h1⟩ := h
    exact ⟨q, rfl, h1.local hA hg⟩

theorem Rule.Holds.local {r : Ptr} {v : FL.Rule S} {A : List Ptr} (h : Rule.Holds H m0 e m r v) (hA : Forest m.own [r] A) (hg : ∀ x ∈ A, m'.get x = m.get x) :
    Rule.Holds H m0 e m' r v := by
  obtain ⟨o, a, c, oa, oc, h1, h2, h3, h4, h5, h6, h7, h8⟩ := h
  obtain ⟨o', A1, A2, A3, A4, A5, j1, rfl, j2, j3, -⟩ := hA.parts
  rw [h1] at j1
  cases j1
  rw [h3] at j2
  rw [h4] at j3
  obtain ⟨oa', B1, B2, k1, rfl, k2, -⟩ := j2.partsA
  obtain ⟨oc', C1, C2, l1, rfl, l2, -⟩ := j3.partsA
  rw [h5] at k1
  cases k1
  rw [h6] at l1
  cases l1
  refine ⟨o, a, c, oa, oc, (hg r (by simp)).trans h1, h2, h3, h4, (hg a (by simp)).trans h5, (hg c (by simp)).trans h6, ?_, ?_⟩
  · exact h7.local k2 fun x hx => hg x (by simp [hx])
  · exact Consequent.stay h8 l2 fun x hx => hg x (by simp [hx])

/-- the same in other memories with the same engine -/
theorem IsProposition.base (hs : ∀ v, varAt m0 e v = varAt m1 e v) (ht : ∀ v j, termAt m0 e v j = termAt m1 e v j) {q : Ptr} {p : Proposition S}
    (h : IsProposition H m0 e m q p) : IsProposition H m1 e m q p := by
  obtain ⟨v, a, ts, h1, h2, h3⟩ := h
  refine ⟨v, a, ts, (hs _).symm.trans h1, ?_, h3⟩
  cases hp : p.term with
  | none =>
    rw [hp] at h2
    exact h2
  | some j =>
    rw [hp] at h2
    obtain ⟨t, h4, h5⟩ := h2
    exact ⟨t, (ht _ _).symm.trans h4, h5⟩

theorem IsExpression.base (hs : ∀ v, varAt m0 e v = varAt m1 e v) (ht : ∀ v j, termAt m0 e v j = termAt m1 e v j) {q : Ptr} {x : Expr S}
    (h : IsExpression H m0 e m q x) : IsExpression H m1 e m q x := by
  induction x generalizing q with
  | prop p => exact IsProposition.base hs ht h
  | conj l r ihl ihr =>
    obtain ⟨a, b, h1, h2, h3⟩ := h
    exact ⟨a, b, h1, ihl h2, ihr h3⟩
  | disj l r ihl ihr =>
    obtain ⟨a, b, h1, h2, h3⟩ := h
    exact ⟨a, b, h1, ihl h2, ihr h3⟩

theorem Rule.Holds.base (hs : ∀ v, varAt m0 e v = varAt m1 e v) (ht : ∀ v j, termAt m0 e v j = termAt m1 e v j) {r : Ptr} {v : FL.Rule S}
    (h : Rule.Holds H m0 e m r v) : Rule.Holds H m1 e m r v := by
  obtain ⟨o, a, c, oa, oc, h1, h2, h3, h4, h5, h6, h7, h8⟩ := h
  refine ⟨o, a, c, oa, oc, h1, h2, h3, h4, h5, h6, ?_, h8.imp fun _ _ h => h.base hs ht⟩
  cases hv : v.antecedent with
  | none =>
    rw [hv] at h7
    exact h7
  | some x =>
    rw [hv] at h7
    obtain ⟨q, h9, h10⟩ := h7
    exact ⟨q, h9, h10.base hs ht⟩

theorem each_one {α : Type} {f : Ptr → M α} {p : Ptr} {x : α} (h : f p m = some (x, m')) : each f [p] m = some ([x], m') := by
  unfold each
  rw [bind_eq h]
  rfl

namespace Rule

/-- unloading empties the antecedent and the consequent -/
theorem unload_empty {r a c : Ptr} {o : Obj} (hm : m.Ok) (hf : Forest m.own [r] L) (hn : L.Nodup) (ho : m.get r = some o) (ha : o.a = [a]) (hc : o.b = [c]) :
    ∃ m' oa oc, unload r m = some ((), m') ∧ m'.get r = some o ∧ m'.get a = some oa ∧ oa.a = [] ∧ m'.get c = some oc ∧ oc.a = [] := by
  obtain ⟨o', A1, A2, A3, A4, A5, j1, rfl, j2, j3, -⟩ := hf.parts
  rw [ho] at j1
  cases j1
  rw [ha] at j2
  rw [hc] at j3
  obtain ⟨oa, B1, B2, k1, rfl, k2, k3⟩ := j2.partsA
  obtain ⟨oc, C1, C2, l1, rfl, l2, l3⟩ := j3.partsA
  have hn' : (r :: (a :: (B1 ++ B2) ++ (c :: (C1 ++ C2)) ++ (A3 ++ A4 ++ A5))).Nodup := by simpa using hn
  obtain ⟨nr, n0⟩ := List.nodup_cons.1 hn'
  have n1 := List.nodup_append'.1 (List.nodup_append'.1 n0).1
  obtain ⟨m1, e1, w1, g1⟩ := Antecedent.unload_work (U := fun _ => False) hm k1 k2 k3 n1.1
  have dc : ∀ q ∈ c :: (C1 ++ C2), q ∉ a :: (B1 ++ B2) := fun q hq hc => n1.2.2 hc hq
  have l1' := w1.effect.get hm l1 (dc c (by simp))
  obtain ⟨m2, e2, w2, g2⟩ := Consequent.unload_work (U := fun _ => False) w1.effect.ok l1' (w1.effect.forest hm l2 fun q hq => dc q (by simp [hq]))
    (w1.effect.forest hm l3 fun q hq => dc q (by simp [hq])) n1.2.1
  have hr1 := w1.effect.get hm ho fun hc => nr (by simp at hc ⊢; tauto)
  have hr2 := w2.effect.get w1.effect.ok hr1 fun hc => nr (by simp at hc ⊢; tauto)
  refine ⟨m2, _, _, ?_, hr2, w2.effect.get w1.effect.ok g1 (fun hc => dc a hc (by simp)), rfl, g2, rfl⟩
  unfold unload
  rw [bind_eq (read_eq ho), ha, hc, bind_eq (each_one e1), bind_eq (each_one e2), pure_eq]

theorem load_holds [ScalarText S] (G : Registry S) (v : FL.Rule S) {r a c : Ptr} {o : Obj} (hm : m.Ok) (he : Env m e U) (hV : EngineNamed m e V) (hf : Forest m.own [r] L) (hn : L.Nodup)
    (hd : ∀ q ∈ L, ¬ U q) (ho : m.get r = some o) (ht : o.text = v.text) (ha : o.a = [a]) (hc : o.b = [c]) :
    ∃ m', load (reader G) (hedges G) e r m = some ((v.reload G V).2.isNone, m') ∧ Holds G.hedges m e m' r (v.reload G V).1 := by
  obtain ⟨r1, r2, r3, r4⟩ := reload_outcome (V := V) G v
  have hH : hedges G = anys G.hedges := rfl
  -- after a failure
  have failed : ∀ {m1 L1 K1}, outcome G.hedges V (reader G v.text) = none → Work U [r] m m1 L L1 K1 → m1.get r = some o →
      ∃ m', (do unload r; pure false : M Bool) m1 = some ((v.reload G V).2.isNone, m') ∧ Holds G.hedges m e m' r (v.reload G V).1 := by
    intro m1 L1 K1 hout w1 g1
    obtain ⟨m2, oa, oc, e2, g2, g3, g4, g5, g6⟩ := unload_empty w1.effect.ok w1.forest w1.nodup g1 ha hc
    rw [hout] at r2 r3 r4
    refine ⟨m2, ?_, o, a, c, oa, oc, g2, ht.trans r1.symm, ha, hc, g3, g5, ?_, ?_⟩
    · rw [bind_eq e2, r2]
      rfl
    · rw [r3]
      exact g4
    · rw [r4, g6]
      exact .nil
  unfold load
  rw [bind_eq (read_eq ho), ha, hc, ht]
  cases hR : reader G v.text with
  | none => exact failed (by rw [hR]; rfl) (.refl hm hf hn) ho
  | some x =>
    obtain ⟨as, cs⟩ := x
    simp only
    obtain ⟨La, fa, na, sa, la⟩ := Work.inside (U := U) (l1 := []) (ps := [a]) (l3 := o.b ++ o.c ++ o.d ++ o.e) hm hf hn ho (by simp [Obj.owned, ha])
    obtain ⟨x, m1, La', K1, e1, w1, k1⟩ := Antecedent.load_does (U := U) (anys G.hedges) a as hm he fa na fun q hq => hd q (sa q hq).1
    obtain ⟨L1, W1, g1⟩ := la w1
    rw [hH, bind_eq e1]
    cases as with
    | none =>
      have hx : x = false := by
        obtain ⟨oa, B1, B2, k1, rfl, k2, k3⟩ := fa.partsA
        obtain ⟨m1', e1', -⟩ := Antecedent.unload_work (U := U) hm k1 k2 k3 na
        unfold Antecedent.load at e1
        rw [bind_eq e1'] at e1
        cases e1
        rfl
      subst hx
      exact failed (by rw [hR]; rfl) W1 g1
    | some ts =>
      obtain ⟨m1', s1⟩ := Antecedent.load_sim (H := G.hedges) ts hm he hV fa na fun q hq => hd q (sa q hq).1
      cases hb : FL.Antecedent.build G.hedges V ts with
      | error y =>
        rw [hb] at s1
        rw [s1] at e1
        cases e1
        refine failed ?_ W1 g1
        rw [hR]
        simp [outcome, hb]
      | ok xa =>
        rw [hb] at s1
        obtain ⟨s1, oa, q, g2, g3, g4⟩ := s1
        rw [s1] at e1
        cases e1
        cases k1 rfl
        simp only [if_true]
        have he1 := he.frame hm W1.effect hd
        have hs1 : Same U m m1 := Same.frame (m0 := m) he (fun _ _ => rfl) hm W1.effect hd
        have hd1 : ∀ q ∈ L1, ¬ U q := fun q hq => he.apart hm W1.effect hd q (Or.inl hq)
        have hV1 := hs1.named he1 hV
        obtain ⟨Lb, fb, nb, sb, lb⟩ := Work.inside (U := U) (l1 := o.a) (ps := [c]) (l3 := o.c ++ o.d ++ o.e) W1.effect.ok W1.forest W1.nodup g1 (by simp [Obj.owned, hc])
        obtain ⟨y, m2, Lb', K2, e2, w2, k2⟩ := Consequent.load_does (U := U) (anys G.hedges) c cs W1.effect.ok he1 fb nb fun q hq => hd1 q (sb q hq).1
        cases k2 trivial
        obtain ⟨L2, W2, g5⟩ := lb w2
        have W12 := W1.trans hm W2
        rw [bind_eq e2]
        obtain ⟨m2', s2⟩ := Consequent.load_sim (H := G.hedges) cs W1.effect.ok he1 hV1 fb nb fun q hq => hd1 q (sb q hq).1
        cases hbc : Consequent.build G.hedges V cs with
        | error y =>
          rw [hbc] at s2
          rw [s2] at e2
          cases e2
          refine failed ?_ W12 g5
          rw [hR]
          simp [outcome, hb, hbc]
        | ok xc =>
          rw [hbc] at s2
          obtain ⟨s2, oc, g6, g7⟩ := s2
          rw [s2] at e2
          cases e2
          have hout : outcome G.hedges V (reader G v.text) = some (xa, xc) := by
            rw [hR]
            simp [outcome, hb, hbc]
          rw [hout] at r2 r3 r4
          obtain ⟨o1, A1, A2, A3, A4, A5, j1, j0, j2, j3, -⟩ := W1.forest.parts
          rw [g1] at j1
          cases j1
          rw [ha] at j2
          rw [hc] at j3
          have hn1 := W1.nodup
          rw [j0] at hn1 hd1
          have n1 : (A1 ++ A2).Nodup := by
            have := (List.nodup_cons.1 hn1).2
            rw [List.append_assoc, List.append_assoc] at this
            exact (List.nodup_append'.1 this).1
          have n2 := List.nodup_append'.1 n1
          obtain ⟨y, m3, Lc, K3, e3, w3, -⟩ := Consequent.load_does (U := U) (anys G.hedges) c cs W1.effect.ok he1 j3 n2.2.1 fun q hq => hd1 q (by simp [hq])
          rw [s2] at e3
          cases e3
          have keep : ∀ x ∈ A1, m2.get x = m1.get x := by
            intro x hx
            obtain ⟨ox, hox⟩ := j2.get hx
            rw [hox]
            exact w3.effect.get W1.effect.ok hox fun hc => n2.2.2 hx hc
          obtain ⟨oa', B1, B2, b1, rfl, b2, -⟩ := j2.partsA
          rw [g2] at b1
          cases b1
          refine ⟨m2, ?_, o, a, c, oa, oc, g5, ht.trans r1.symm, ha, hc, (keep a (by simp)).trans g2, g6, ?_, ?_⟩
          · rw [r2]
            rfl
          · rw [r3]
            exact ⟨q, g3, g4.local (by rw [← g3]; exact b2) fun x hx => keep x (by simp [hx])⟩
          · rw [r4]
            exact g7.imp fun _ _ h => h.base (fun v => (hs1.varAt he1 v).symm) fun v j => (hs1.termAt he1 v j).symm

end Rule

/-! ### Rule blocks -/

/-- a rule with an antecedent and a consequent, and its text -/
def Rule.HasText (m : Mem) (r : Ptr) (t : Str) : Prop := ∃ o a c, m.get r = some o ∧ o.text = t ∧ o.a = [a] ∧ o.b = [c]

namespace Rule

/-- one iteration of `RuleBlock::loadRules` -/
def refresh (R : Reader) (H : Hedges) (e r : Ptr) : M Bool := do
  if ← isLoaded r then unload r
  load R H e r

theorem refresh_does (R : Reader) (H : Hedges) (r : Ptr) : Does e U (fun ok => ok = true) [r] (refresh R H e r) := by
  intro m L hm he hf hn hd
  unfold refresh
  obtain ⟨l, hl⟩ := Rule.isLoaded_eq hf
  rw [bind_eq hl]
  cases l with
  | false => exact Rule.load_does R H r hm he hf hn hd
  | true =>
    simp only [if_true]
    obtain ⟨_, m1, L1, K1, e1, w1, k1⟩ := Rule.unload_does (U := U) r hm he hf hn hd
    cases k1 trivial
    rw [bind_eq e1]
    obtain ⟨x, m2, L2, K2, e2, w2, k2⟩ := Rule.load_does R H r w1.effect.ok (he.frame hm w1.effect hd) w1.forest w1.nodup
      fun q hq => he.apart hm w1.effect hd q (Or.inl hq)
    exact ⟨x, m2, L2, K2, e2, w1.trans hm w2, k2⟩

theorem refresh_holds [ScalarText S] (G : Registry S) (v : FL.Rule S) {r : Ptr} (hm : m.Ok) (he : Env m e U) (hV : EngineNamed m e V) (hf : Forest m.own [r] L) (hn : L.Nodup)
    (hd : ∀ q ∈ L, ¬ U q) (h : HasText m r v.text) :
    ∃ m', refresh (reader G) (hedges G) e r m = some ((v.reload G V).2.isNone, m') ∧ Holds G.hedges m e m' r (v.reload G V).1 := by
  obtain ⟨o, a, c, ho, ht, ha, hc⟩ := h
  unfold refresh
  obtain ⟨l, hl⟩ := Rule.isLoaded_eq hf
  rw [bind_eq hl]
  cases l with
  | false => exact load_holds G v hm he hV hf hn hd ho ht ha hc
  | true =>
    simp only [if_true]
    obtain ⟨_, m1, L1, K1, e1, w1, k1⟩ := Rule.unload_does (U := U) r hm he hf hn hd
    cases k1 trivial
    have he1 := he.frame hm w1.effect hd
    have hs1 : Same U m m1 := Same.frame (m0 := m) he (fun _ _ => rfl) hm w1.effect hd
    have hd1 : ∀ q ∈ L1, ¬ U q := fun q hq => he.apart hm w1.effect hd q (Or.inl hq)
    obtain ⟨m1', oa, oc, e1', g1, -⟩ := unload_empty hm hf hn ho ha hc
    rw [e1] at e1'
    cases e1'
    obtain ⟨m2, e2, h2⟩ := load_holds G v w1.effect.ok he1 (hs1.named he1 hV) w1.forest w1.nodup hd1 g1 ht ha hc
    refine ⟨m2, ?_, h2.base (fun v => (hs1.varAt he1 v).symm) fun v j => (hs1.termAt he1 v j).symm⟩
    rw [bind_eq e1]
    exact e2

theorem refreshes_hold [ScalarText S] (G : Registry S) {rs : List Ptr} {vs : List (FL.Rule S)} (hm : m.Ok) (he : Env m e U) (hV : EngineNamed m e V) (hf : Forest m.own rs L) (hn : L.Nodup)
    (hd : ∀ q ∈ L, ¬ U q) (h : List.Forall₂ (fun r v => HasText m r v.text) rs vs) :
    ∃ m', each (refresh (reader G) (hedges G) e) rs m = some (vs.map fun v => (v.reload G V).2.isNone, m') ∧
      List.Forall₂ (Holds G.hedges m e m') rs (vs.map fun v => (v.reload G V).1) := by
  induction rs generalizing m L vs with
  | nil =>
    cases h
    exact ⟨m, rfl, .nil⟩
  | cons r rs ih =>
    rcases h with _ | ⟨h1, h2⟩
    rename_i v vs
    obtain ⟨L1, L2, rfl, f1, f2⟩ := Forest.split (ps := [r]) hf
    have n1 := List.nodup_append'.1 hn
    obtain ⟨x, m1, L1', K1, e1, w1, -⟩ := refresh_does (U := U) (reader G) (hedges G) r hm he f1 n1.1 fun q hq => hd q (by simp [hq])
    obtain ⟨m1', e1', j1⟩ := refresh_holds G v hm he hV f1 n1.1 (fun q hq => hd q (by simp [hq])) h1
    rw [e1] at e1'
    cases e1'
    have w1' := w1.beside (X := []) (ps := []) hm .nil f2 (by simpa using hn)
    simp only [List.nil_append] at w1'
    have he1 := he.frame hm w1'.effect hd
    have hs1 : Same U m m1 := Same.frame (m0 := m) he (fun _ _ => rfl) hm w1'.effect hd
    have f2' := w1.effect.forest hm f2 fun q hq hc => n1.2.2 hc hq
    have d2 : ∀ q ∈ L2, ¬ U q := fun q hq => hd q (by simp [hq])
    have h2' : List.Forall₂ (fun r v => HasText m1 r v.text) rs vs := by
      refine forall₂_imp_mem h2 fun r v hr _ hc => ?_
      obtain ⟨o, a, c, ho, hc⟩ := hc
      exact ⟨o, a, c, w1.effect.get hm ho fun hc => n1.2.2 hc (f2.roots r hr), hc⟩
    obtain ⟨m2, e2, j2⟩ := ih w1.effect.ok he1 (hs1.named he1 hV) f2' n1.2.1 d2 h2'
    obtain ⟨xs, m2', L2', K2, e2', w2, -⟩ := Does.each (U := U) (e := e) (refresh_does (reader G) (hedges G)) rs w1.effect.ok he1 f2' n1.2.1 d2
    rw [e2] at e2'
    cases e2'
    refine ⟨m2, ?_, .cons ?_ ?_⟩
    · unfold each
      rw [bind_eq e1, bind_eq e2]
      rfl
    · refine j1.local w1.forest fun q hq => ?_
      obtain ⟨oq, hoq⟩ := w1.forest.get hq
      rw [hoq]
      exact w2.effect.get w1.effect.ok hoq fun hc => (List.nodup_append'.1 w1'.nodup).2.2 hq hc
    · exact j2.imp fun _ _ h => h.base (fun v => (hs1.varAt he1 v).symm) fun v j => (hs1.termAt he1 v j).symm

end Rule

theorem reload_same [ScalarText S] (G : Registry S) {v w : FL.Rule S} (h : v.text = w.text) : (v.reload G V).2.isNone = (w.reload G V).2.isNone ∧
    (v.reload G V).1.text = (w.reload G V).1.text ∧ (v.reload G V).1.antecedent = (w.reload G V).1.antecedent ∧ (v.reload G V).1.conclusions = (w.reload G V).1.conclusions := by
  obtain ⟨v1, v2, v3, v4⟩ := reload_outcome (V := V) G v
  obtain ⟨w1, w2, w3, w4⟩ := reload_outcome (V := V) G w
  rw [v1, v2, v3, v4, w1, w2, w3, w4, h]
  exact ⟨rfl, rfl, rfl, rfl⟩

theorem Rule.Holds.congr {r : Ptr} {v w : FL.Rule S} (h : Rule.Holds H m0 e m r v) (h1 : v.text = w.text) (h2 : v.antecedent = w.antecedent) (h3 : v.conclusions = w.conclusions) :
    Rule.Holds H m0 e m r w := by
  unfold Rule.Holds at *
  rw [← h1, ← h2, ← h3]
  exact h

theorem unload_text (v : FL.Rule S) [Scalar S] : (if v.isLoaded then v.unload else v).text = v.text := by
  split <;> rfl

theorem loadRules_values [ScalarText S] (G : Registry S) (vs : List (FL.Rule S)) : (FL.loadRules G V vs).1 = vs.map (fun v => ((if v.isLoaded then v.unload else v).reload G V).1) ∧
    ((FL.loadRules G V vs).2 = [] ↔ ∀ v ∈ vs, (v.reload G V).2.isNone = true) := by
  induction vs with
  | nil => exact ⟨rfl, by simp [FL.loadRules]⟩
  | cons v vs ih =>
    refine ⟨?_, ?_⟩
    · simp only [FL.loadRules, List.map_cons, ih.1]
    · have h := (reload_same (V := V) G (unload_text v)).1
      simp only [FL.loadRules, List.append_eq_nil_iff, ih.2, List.forall_mem_cons, ← h]
      cases (FL.Rule.reload G V (if v.isLoaded then v.unload else v)).2 <;> simp

namespace RuleBlock

theorem loadRules_hold [ScalarText S] (G : Registry S) {b : Ptr} {o : Obj} {vs : List (FL.Rule S)} (hm : m.Ok) (he : Env m e U) (hV : EngineNamed m e V) (hf : Forest m.own [b] L) (hn : L.Nodup)
    (hd : ∀ q ∈ L, ¬ U q) (ho : m.get b = some o) (h : List.Forall₂ (fun r v => Rule.HasText m r v.text) o.a vs) :
    ∃ m', loadRules (reader G) (hedges G) e b m = some (vs.map fun v => (v.reload G V).2.isNone, m') ∧
      List.Forall₂ (Rule.Holds G.hedges m e m') o.a (FL.loadRules G V vs).1 := by
  obtain ⟨o', La, Lr, ho', rfl, fa, fr⟩ := hf.partsA
  rw [ho] at ho'
  cases ho'
  obtain ⟨m1, e1, j1⟩ := Rule.refreshes_hold G hm he hV fa (List.nodup_append'.1 (List.nodup_cons.1 hn).2).1 (fun q hq => hd q (by simp [hq])) h
  refine ⟨m1, ?_, ?_⟩
  · unfold loadRules
    rw [bind_eq (read_eq ho)]
    exact e1
  · rw [(loadRules_values G vs).1]
    rw [List.forall₂_map_right_iff] at j1 ⊢
    refine j1.imp fun r v h => ?_
    obtain ⟨-, s1, s2, s3⟩ := reload_same (V := V) G (unload_text v)
    exact h.congr s1.symm s2.symm s3.symm

end RuleBlock

end FL.Own
