/-
The rules in memory are those of the value model (C85): loading antecedents, consequents, rules and rule blocks yields the expressions that
loading yields as values, and the rules of copied and assigned engines are loaded for the new engine.
-/
import Verif.Lemmas.MemoryRulesCopy
import Verif.Props.Memory

namespace FL.Own

local notation "Ptr" => Nat

variable {S : Type} {m m' : Mem} {roots lost : List Ptr} {e p r : Ptr} {V : Vocabulary}

/-! ### Loading -/

/-- The text of an antecedent is loaded in memory if and only if its value is defined; the antecedent then owns that expression, and its propositions
refer to the variables and terms of the engine at the positions found by name.  If not, it owns nothing. -/
theorem antecedent_load_value [ScalarText S] (G : Registry S) (text : Str) (h : Clean m roots lost) (he : Reach m roots e) (hr : Reach m roots r)
    (hd : ∀ q, Reach m [r] q → ¬ Known m e q) (hV : EngineNamed m e V) :
    ∃ m', Antecedent.load (hedges G) e r (if (Op.trim text).isEmpty then none else match Formula.toPostfix G.functions text with | .error _ => none | .ok s => some (Op.words s)) m =
        some ((FL.Antecedent.load G.functions G.hedges V text).isOk, m') ∧
      ∀ x, FL.Antecedent.load G.functions G.hedges V text = .ok x → ∃ o q, m'.get r = some o ∧ o.a = [q] ∧ IsExpression G.hedges m e m' q x := by
  obtain ⟨L, f1, n1, -⟩ := h.work_one hr
  have bad : ∃ m', Antecedent.load (hedges G) e r none m = some (false, m') := by
    obtain ⟨ok, m', K, e1, -, h1, -⟩ := antecedent_load_exact (hedges G) none h he hr hd
    obtain ⟨rfl, -⟩ := h1 rfl
    exact ⟨m', e1⟩
  unfold FL.Antecedent.load
  by_cases ht : (Op.trim text).isEmpty
  · obtain ⟨m', e1⟩ := bad
    simp only [ht, if_true]
    exact ⟨m', e1, fun x hx => by cases hx⟩
  · simp only [ht, Bool.false_eq_true, if_false]
    cases hp : Formula.toPostfix G.functions text with
    | error y =>
      obtain ⟨m', e1⟩ := bad
      exact ⟨m', e1, fun x hx => by cases hx⟩
    | ok s =>
      obtain ⟨m', h1⟩ := Antecedent.load_sim (H := G.hedges) (Op.words s) h.ok (h.env he) hV f1 n1 fun q hq => hd q (f1.mem_iff.1 hq)
      simp only [bind, Except.bind]
      cases hb : FL.Antecedent.build G.hedges V (Op.words s) with
      | error y =>
        rw [hb] at h1
        exact ⟨m', h1, fun x hx => by cases hx⟩
      | ok x =>
        rw [hb] at h1
        exact ⟨m', h1.1, fun y hy => by cases hy; exact h1.2⟩

/-- The same for consequents. -/
theorem consequent_load_value [ScalarText S] (G : Registry S) (text : Str) (h : Clean m roots lost) (he : Reach m roots e) (hr : Reach m roots r)
    (hd : ∀ q, Reach m [r] q → ¬ Known m e q) (hV : EngineNamed m e V) :
    ∃ m', Consequent.load (hedges G) e r (if (Op.trim text).isEmpty then [] else Op.words text) m = some ((FL.Consequent.load G.hedges V text).isOk, m') ∧
      ∀ xs, FL.Consequent.load G.hedges V text = .ok xs → ∃ o, m'.get r = some o ∧ List.Forall₂ (IsProposition G.hedges m e m') o.a xs := by
  obtain ⟨L, f1, n1, -⟩ := h.work_one hr
  obtain ⟨m', h1⟩ := Consequent.load_sim (H := G.hedges) (if (Op.trim text).isEmpty then [] else Op.words text) h.ok (h.env he) hV f1 n1 fun q hq => hd q (f1.mem_iff.1 hq)
  have key : Consequent.build G.hedges V (if (Op.trim text).isEmpty then [] else Op.words text) = FL.Consequent.load G.hedges V text := by
    unfold FL.Consequent.load
    split <;> rfl
  rw [key] at h1
  cases hb : FL.Consequent.load G.hedges V text with
  | error y =>
    rw [hb] at h1
    exact ⟨m', h1, fun x hx => by cases hx⟩
  | ok x =>
    rw [hb] at h1
    exact ⟨m', h1.1, fun y hy => by cases hy; exact h1.2⟩

/-- A rule is loaded in memory if and only if it is as a value, and then holds the antecedent and the conclusions of the value; if not, both are empty, as those
of the value are. -/
theorem rule_load_value [ScalarText S] (G : Registry S) (v : FL.Rule S) (h : Clean m roots lost) (he : Reach m roots e) (hr : Reach m roots r)
    (hd : ∀ q, Reach m [r] q → ¬ Known m e q) (hV : EngineNamed m e V) (ht : Rule.HasText m r v.text) :
    ∃ m', Rule.load (reader G) (hedges G) e r m = some ((v.reload G V).2.isNone, m') ∧ Rule.Holds G.hedges m e m' r (v.reload G V).1 := by
  obtain ⟨L, f1, n1, -⟩ := h.work_one hr
  obtain ⟨o, a, c, h1, h2, h3, h4⟩ := ht
  exact Rule.load_holds G v h.ok (h.env he) hV f1 n1 (fun q hq => hd q (f1.mem_iff.1 hq)) h1 h2 h3 h4

/-- The rules of a rule block after loading are those of the values, one by one, and loading throws no exception if and only if it throws none for the values. -/
theorem ruleBlock_loadRules_value [ScalarText S] (G : Registry S) (vs : List (FL.Rule S)) {o : Obj} (h : Clean m roots lost) (he : Reach m roots e) (hr : Reach m roots r)
    (hd : ∀ q, Reach m [r] q → ¬ Known m e q) (hV : EngineNamed m e V) (ho : m.get r = some o) (ht : List.Forall₂ (fun r v => Rule.HasText m r v.text) o.a vs) :
    ∃ loaded m', RuleBlock.loadRules (reader G) (hedges G) e r m = some (loaded, m') ∧ (loaded = vs.map fun v => (v.reload G V).2.isNone) ∧
      ((∀ x ∈ loaded, x = true) ↔ (FL.loadRules G V vs).2 = []) ∧ List.Forall₂ (Rule.Holds G.hedges m e m') o.a (FL.loadRules G V vs).1 := by
  obtain ⟨L, f1, n1, -⟩ := h.work_one hr
  obtain ⟨m', e1, h1⟩ := RuleBlock.loadRules_hold G h.ok (h.env he) hV f1 n1 (fun q hq => hd q (f1.mem_iff.1 hq)) ho ht
  refine ⟨_, m', e1, rfl, ?_, h1⟩
  rw [(loadRules_values G vs).2]
  simp

/-! ### Values of rules in memory -/

theorem Forest.sublist {own : Ptr → Option (List Ptr)} {ps L : List Ptr} (h : Forest own ps L) : ps.Sublist L := by
  induction h with
  | nil => exact .slnil
  | cons _ _ _ _ ih => exact (ih.trans (List.sublist_append_right _ _)).cons_cons _

theorem getElem?_inj_nodup {α : Type} {l : List α} (h : l.Nodup) {i j : Nat} {x : α} (hi : l[i]? = some x) (hj : l[j]? = some x) : i = j := by
  obtain ⟨h1, h2⟩ := List.getElem?_eq_some_iff.1 hi
  obtain ⟨h3, h4⟩ := List.getElem?_eq_some_iff.1 hj
  exact (List.Nodup.getElem_inj_iff h).1 (h2.trans h4.symm)

theorem Clean.varAt_inj (h : Clean m roots lost) (he : Reach m roots e) {v w : VarRef} {q : Ptr} (hv : varAt m e v = some q) (hw : varAt m e w = some q) : v = w := by
  obtain ⟨L, fe, n⟩ := h.forest he
  obtain ⟨o, A, B, C, D, F, ho, rfl, fa, fb, -⟩ := fe.parts
  have n1 := (List.nodup_cons.1 n).2
  rw [List.append_assoc, List.append_assoc] at n1
  have n2 := List.nodup_append'.1 (List.nodup_append'.1 n1).1
  have cross : ∀ {i j : Nat}, o.a[i]? = some q → o.b[j]? = some q → False := fun hi hj =>
    n2.2.2 (fa.roots q (List.mem_of_getElem? hi)) (fb.roots q (List.mem_of_getElem? hj))
  cases v <;> cases w <;> simp only [varAt, ho, Option.bind_some] at hv hw
  · rw [getElem?_inj_nodup (n2.1.sublist fa.sublist) hv hw]
  · exact (cross hv hw).elim
  · exact (cross hw hv).elim
  · rw [getElem?_inj_nodup (n2.2.1.sublist fb.sublist) hv hw]

theorem Clean.termAt_inj (h : Clean m roots lost) (he : Reach m roots e) {v : VarRef} {i j : Nat} {q : Ptr} (hi : termAt m e v i = some q) (hj : termAt m e v j = some q) :
    i = j := by
  obtain ⟨L, fe, n⟩ := h.forest he
  unfold termAt at hi hj
  cases hv : varAt m e v with
  | none => simp [hv] at hi
  | some w =>
    rw [hv, Option.bind_some] at hi hj
    have hw : Reach m roots w := by
      obtain ⟨o, ho⟩ := fe.get (fe.roots e (by simp))
      refine .part he ho ?_
      cases v <;> simp only [varAt, ho, Option.bind_some] at hv <;> simp [Obj.owned, List.mem_of_getElem? hv]
    obtain ⟨Lw, fw, nw⟩ := h.forest hw
    obtain ⟨o, A, B, ho, rfl, fa, -⟩ := fw.partsA
    rw [ho, Option.bind_some] at hi hj
    exact getElem?_inj_nodup ((List.nodup_append'.1 (List.nodup_cons.1 nw).2).1.sublist fa.sublist) hi hj

variable {H : HedgeFactory S}

theorem IsHedge.unique {a : List Ptr} {xs ys : List (Hedge S)} (hx : List.Forall₂ (IsHedge H m') a xs) (hy : List.Forall₂ (IsHedge H m') a ys) : xs = ys := by
  induction hx generalizing ys with
  | nil =>
    cases hy
    rfl
  | cons i1 _ ih =>
    rcases hy with _ | ⟨i2, i3⟩
    obtain ⟨n, j1, j2⟩ := i1
    obtain ⟨n', j3, j4⟩ := i2
    rw [j1] at j3
    simp only [Option.some.injEq, Obj.mk.injEq, true_and, and_true] at j3
    subst j3
    rw [j2] at j4
    cases j4
    rw [ih i3]

theorem IsProposition.unique (h : Clean m roots lost) (he : Reach m roots e) {q : Ptr} {x y : Proposition S} (hx : IsProposition H m e m' q x) (hy : IsProposition H m e m' q y) :
    x = y := by
  obtain ⟨v, a, ts, h1, h2, h3, h4⟩ := hx
  obtain ⟨w, b, us, k1, k2, k3, k4⟩ := hy
  rw [h3] at k3
  simp only [Option.some.injEq, Obj.mk.injEq, List.cons.injEq, true_and, and_true] at k3
  obtain ⟨rfl, rfl, rfl⟩ := k3
  obtain ⟨xv, xh, xt⟩ := x
  obtain ⟨yv, yh, yt⟩ := y
  obtain rfl := h.varAt_inj he h1 k1
  have ht : xt = yt := by
    cases xt <;> cases yt
    · rfl
    · obtain ⟨t, -, i1⟩ := k2
      cases h2
      cases i1
    · obtain ⟨t, -, i1⟩ := h2
      cases k2
      cases i1
    · obtain ⟨t, i1, i2⟩ := h2
      obtain ⟨u, i3, i4⟩ := k2
      rw [i2] at i4
      cases i4
      rw [h.termAt_inj he i1 i3]
  obtain rfl : xh = yh := IsHedge.unique h4 k4
  rw [ht]

theorem IsExpression.unique (h : Clean m roots lost) (he : Reach m roots e) {q : Ptr} {x y : Expr S} (hx : IsExpression H m e m' q x) (hy : IsExpression H m e m' q y) : x = y := by
  have hk : andKeyword ≠ orKeyword := by decide
  induction x generalizing q y with
  | prop p =>
    cases y with
    | prop p' => rw [IsProposition.unique h he hx hy]
    | conj l r =>
      obtain ⟨v, a, ts, -, -, h3, -⟩ := hx
      obtain ⟨b, c, h4, -⟩ := hy
      rw [h3] at h4
      simp at h4
    | disj l r =>
      obtain ⟨v, a, ts, -, -, h3, -⟩ := hx
      obtain ⟨b, c, h4, -⟩ := hy
      rw [h3] at h4
      simp at h4
  | conj l r ihl ihr =>
    obtain ⟨a, b, h1, h2, h3⟩ := hx
    cases y with
    | prop p =>
      obtain ⟨v, a, ts, -, -, h4, -⟩ := hy
      rw [h1] at h4
      simp at h4
    | conj l' r' =>
      obtain ⟨a', b', k1, k2, k3⟩ := hy
      rw [h1] at k1
      cases k1
      rw [ihl h2 k2, ihr h3 k3]
    | disj l' r' =>
      obtain ⟨a', b', k1, k2, k3⟩ := hy
      rw [h1] at k1
      simp [hk] at k1
  | disj l r ihl ihr =>
    obtain ⟨a, b, h1, h2, h3⟩ := hx
    cases y with
    | prop p =>
      obtain ⟨v, a, ts, -, -, h4, -⟩ := hy
      rw [h1] at h4
      simp at h4
    | conj l' r' =>
      obtain ⟨a', b', k1, k2, k3⟩ := hy
      rw [h1] at k1
      simp [hk.symm] at k1
    | disj l' r' =>
      obtain ⟨a', b', k1, k2, k3⟩ := hy
      rw [h1] at k1
      cases k1
      rw [ihl h2 k2, ihr h3 k3]

/-- A rule in memory has one value only: its text, antecedent and conclusions can be read from the memory. -/
theorem rule_value_unique (h : Clean m roots lost) (he : Reach m roots e) {v w : FL.Rule S} (hv : Rule.Holds H m e m' r v) (hw : Rule.Holds H m e m' r w) :
    v.text = w.text ∧ v.antecedent = w.antecedent ∧ v.conclusions = w.conclusions := by
  obtain ⟨o, a, c, oa, oc, h1, h2, h3, h4, h5, h6, h7, h8⟩ := hv
  obtain ⟨o', a', c', oa', oc', k1, k2, k3, k4, k5, k6, k7, k8⟩ := hw
  rw [h1] at k1
  cases k1
  rw [h3] at k3
  cases k3
  rw [h4] at k4
  cases k4
  rw [h5] at k5
  cases k5
  rw [h6] at k6
  cases k6
  refine ⟨h2.symm.trans k2, ?_, ?_⟩
  · cases hx : v.antecedent <;> cases hy : w.antecedent <;> rw [hx] at h7 <;> rw [hy] at k7
    · obtain ⟨q, i1, -⟩ := k7
      rw [show oa.a = [] from h7] at i1
      cases i1
    · obtain ⟨q, i1, -⟩ := h7
      rw [show oa.a = [] from k7] at i1
      cases i1
    · obtain ⟨q, i1, i2⟩ := h7
      obtain ⟨q', i3, i4⟩ := k7
      rw [i1] at i3
      cases i3
      rw [IsExpression.unique h he i2 i4]
  · clear h6
    revert h8 k8
    generalize oc.a = qs
    generalize v.conclusions = xs
    generalize w.conclusions = ys
    intro h8 k8
    induction h8 generalizing ys with
    | nil =>
      cases k8
      rfl
    | cons i1 _ ih =>
      rcases k8 with _ | ⟨i2, i3⟩
      rw [IsProposition.unique h he i1 i2, ih _ i3]

/-! ### Copies and assignments of engines -/

/-- The copy of an engine has the names of the engine, and its rules are those that loading the texts of the rules yields, with propositions that refer to the variables and
terms of the copy. -/
theorem engine_copy_rules [ScalarText S] (G : Registry S) {o : Obj} (vss : List (List (FL.Rule S))) (h : Clean m roots lost) (hp : Reach m roots p) (hV : EngineNamed m p V)
    (ho : m.get p = some o) (ht : List.Forall₂ (RuleBlock.HasTexts m) o.c vss) :
    ∃ q loaded m' o', Engine.copy (reader G) (hedges G) p m = some ((q, loaded), m') ∧ (loaded = vss.map (List.map fun v => (v.reload G V).2.isNone)) ∧ EngineNamed m' q V ∧
      m'.get q = some o' ∧ List.Forall₂ (RuleBlock.Hold G.hedges m' q m') o'.c (vss.map fun vs => (FL.loadRules G V vs).1) := by
  obtain ⟨Lp, fp, -⟩ := h.forest hp
  obtain ⟨m1, e1, x1, g1, -, -⟩ := alloc_eq m { cls := .engine } h.ok
  have f1 : Forest m1.own [m.next] [m.next] := .leaf g1
  have grow : Grows m m1 := fun x o ho => x1.get h.ok ho (by simp)
  have keep : ∀ q ∈ Lp, m1.get q = m.get q := by
    intro q hq
    obtain ⟨oq, hoq⟩ := fp.get hq
    rw [hoq]
    exact grow _ _ hoq
  obtain ⟨m2, o', e2, h2, h3, h4⟩ := Engine.copyFrom_hold G x1.ok (x1.forest h.ok fp (by simp)) f1 (by simp) (fun q hq hc => by
    rw [List.mem_singleton] at hc
    subst hc
    exact fp.live hq (h.ok _ le_rfl)) g1 rfl (grow _ _ ho) (hV.local fp keep) (ht.imp fun _ _ h => h.mono grow)
  refine ⟨m.next, _, m2, o', ?_, rfl, h2, h3, h4⟩
  unfold Engine.copy
  rw [bind_eq e1, bind_eq e2, pure_eq]

/-- The same for assignments. -/
theorem engine_assign_rules [ScalarText S] (G : Registry S) {o : Obj} (vss : List (List (FL.Rule S))) (h : Clean m roots lost) (he : Reach m roots e) (hp : Reach m roots p)
    (hd : ∀ q, Reach m [p] q → ¬ Reach m [e] q) (hs : ∀ o, m.get e = some o → o.refs = [] ∧ o.d = [] ∧ o.e = []) (hV : EngineNamed m p V) (ho : m.get p = some o)
    (ht : List.Forall₂ (RuleBlock.HasTexts m) o.c vss) :
    ∃ loaded m' o', Engine.assign (reader G) (hedges G) e p m = some (loaded, m') ∧ (loaded = vss.map (List.map fun v => (v.reload G V).2.isNone)) ∧ EngineNamed m' e V ∧
      m'.get e = some o' ∧ List.Forall₂ (RuleBlock.Hold G.hedges m' e m') o'.c (vss.map fun vs => (FL.loadRules G V vs).1) := by
  obtain ⟨Lp, fp, -⟩ := h.forest hp
  obtain ⟨L, f1, n1, -⟩ := h.work_one he
  obtain ⟨oe, hoe⟩ := f1.get (f1.roots e (by simp))
  obtain ⟨m', o', e1, h1⟩ := Engine.assign_hold G h.ok f1 n1 fp (fun q hq hc => hd q (fp.mem_iff.1 hq) (f1.mem_iff.1 hc)) hoe (hs oe hoe) ho hV ht
  exact ⟨_, m', o', e1, rfl, h1⟩

/-- An engine with loaded rules and its copy have the same rules. -/
theorem engine_copy_same [ScalarText S] (G : Registry S) {o : Obj} (vss : List (List (FL.Rule S))) (h : Clean m roots lost) (hp : Reach m roots p) (hV : EngineNamed m p V)
    (ho : m.get p = some o) (ht : List.Forall₂ (RuleBlock.Hold G.hedges m p m) o.c (vss.map fun vs => (FL.loadRules G V vs).1)) :
    ∃ q loaded m' o', Engine.copy (reader G) (hedges G) p m = some ((q, loaded), m') ∧ m'.get q = some o' ∧
      List.Forall₂ (RuleBlock.Hold G.hedges m' q m') o'.c (vss.map fun vs => (FL.loadRules G V vs).1) := by
  obtain ⟨q, loaded, m', o', e1, -, -, h2, h3⟩ := engine_copy_rules G (vss.map fun vs => (FL.loadRules G V vs).1) h hp hV ho (ht.imp fun b vs hb => by
    obtain ⟨ob, h1, h2⟩ := hb
    exact ⟨ob, h1, h2.imp fun r v hr => by
      obtain ⟨o, -, -, -, -, h3, h4, -⟩ := hr
      exact ⟨o, h3, h4⟩⟩)
  refine ⟨q, loaded, m', o', e1, h2, ?_⟩
  rw [List.map_map, List.forall₂_map_right_iff] at h3
  rw [List.forall₂_map_right_iff]
  refine h3.imp fun b vs hb => ?_
  obtain ⟨ob, h4, h5⟩ := hb
  refine ⟨ob, h4, ?_⟩
  have again := loadRules_again (V := V) G vs
  revert h5 again
  simp only [Function.comp]
  generalize (FL.loadRules G V (FL.loadRules G V vs).1).1 = xs
  generalize (FL.loadRules G V vs).1 = ys
  generalize ob.a = rs
  intro h5 again
  induction h5 generalizing ys with
  | nil =>
    cases again
    exact .nil
  | cons i1 _ ih =>
    rcases again with _ | ⟨⟨a1, a2, a3⟩, i3⟩
    exact .cons (i1.congr a1 a2 a3) (ih _ i3)

/-! ### Examples -/

namespace Demo

/-- the names of the engine -/
def vocabulary : Vocabulary := ⟨[(cs! "a", [cs! "x"])], [(cs! "b", [cs! "y"])]⟩

theorem named (text : Str) : EngineNamed (engine text) 11 vocabulary :=
  ⟨_, rfl, .cons ⟨_, rfl, rfl, .cons ⟨_, rfl, rfl⟩ .nil⟩ .nil, .cons ⟨_, rfl, rfl, .cons ⟨_, rfl, rfl⟩ .nil⟩ .nil⟩

theorem texts (text : Str) : List.Forall₂ (RuleBlock.HasTexts (S := Ext ℚ) (engine text)) [10] [[FL.Rule.new text]] := .cons ⟨_, rfl, .cons ⟨_, rfl, rfl⟩ .nil⟩ .nil

/-- the value of the rule -/
example : ((FL.Rule.new good).reload G vocabulary).2 = none ∧ ((FL.Rule.new good).reload G vocabulary).1.antecedent = some (.prop ⟨.input 0, [.builtin .very], some 0⟩) ∧
    ((FL.Rule.new good).reload G vocabulary).1.conclusions = [⟨.output 0, [], some 0⟩] := ⟨rfl, rfl, rfl⟩

set_option synthInstance.maxSize 1000 in
/-- the rule in memory: the proposition of the antecedent refers to the variable and its term and owns the hedge -/
example : (Rule.load (reader G) (hedges G) 11 8 (engine good)).map (fun r => (r.1, (r.2.get 6).map Obj.a, r.2.get 13, r.2.get 14, (r.2.get 7).map Obj.a, r.2.get 15)) =
    some (true, some [13], some { cls := .proposition, a := [14], refs := [1, 0] }, some { cls := .leaf, text := cs! "very" }, some [15],
      some { cls := .proposition, refs := [5, 2] }) := by decide +kernel

/-- a rule that is not loaded, as a value and in memory -/
example : ((FL.Rule.new bad).reload G vocabulary).2.isSome = true ∧ ((FL.Rule.new bad).reload G vocabulary).1.antecedent = none ∧
    (Rule.load (reader G) (hedges G) 11 8 (engine bad)).map (fun r => (r.1, (r.2.get 6).map Obj.a, (r.2.get 7).map Obj.a)) = some (false, some [], some []) :=
  ⟨by decide +kernel, by decide +kernel, by decide +kernel⟩

/-- the copy of the engine has the rule loaded -/
example : ∃ q m' o', Engine.copy (reader G) (hedges G) 11 (engine good) = some ((q, [[true]]), m') ∧ m'.get q = some o' ∧
    List.Forall₂ (RuleBlock.Hold G.hedges m' q m') o'.c [[((FL.Rule.new good).reload G vocabulary).1]] := by
  obtain ⟨q, loaded, m', o', h1, rfl, -, h2, h3⟩ := engine_copy_rules G [[FL.Rule.new good]] (clean good) (.root (by simp)) (named good) rfl (texts good)
  refine ⟨q, m', o', ?_, h2, h3⟩
  rw [h1]
  have : ((FL.Rule.new good).reload G vocabulary).2.isNone = true := by decide +kernel
  simp [this]

end Demo

end FL.Own
