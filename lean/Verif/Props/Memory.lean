/-
C84: who deletes what.  Deletion, copies, assignments, loading and the containers of engines keep every object
with one owner; the exceptions of `Antecedent::load` lose objects, and some uses of the interface lead to
undefined behaviour.
-/
import Verif.Lemmas.MemoryClean
import Verif.Model.Decimal

namespace FL.Own

local notation "Ptr" => Nat

variable {m m' : Mem} {roots lost : List Ptr} {R : Reader} {H : Hedges} {e p r v : Ptr}

/-! ### Deletion -/

/-- A deletion is defined exactly if the objects that go away can be listed, each once. -/
theorem delete_defined (m : Mem) (ps : List Ptr) : (∃ m', delete ps m = some ((), m')) ↔ ∃ L, Forest m.own ps L ∧ L.Nodup := by
  constructor
  · rintro ⟨m', h⟩
    obtain ⟨L, h1, h2, -⟩ := delete_eq_some.1 h
    exact ⟨L, h1, h2⟩
  · rintro ⟨L, h1, h2⟩
    exact ⟨_, delete_eq_some.2 ⟨L, h1, h2, rfl⟩⟩

/-- A deletion takes away the objects, what they own directly or not, and nothing else. -/
theorem delete_exact {ps : List Ptr} (h : delete ps m = some ((), m')) :
    (∀ q, Reach m ps q → (∃ o, m.get q = some o) ∧ m'.get q = none) ∧ ∀ q, ¬ Reach m ps q → m'.get q = m.get q := by
  obtain ⟨L, h1, h2, rfl⟩ := delete_eq_some.1 h
  refine ⟨fun q hq => ⟨h1.get (h1.mem_iff.2 hq), ?_⟩, fun q hq => ?_⟩
  · rw [Mem.get_freeAll, if_pos (h1.mem_iff.2 hq)]
  · rw [Mem.get_freeAll, if_neg fun hc => hq (h1.mem_iff.1 hc)]

/-- A deletion is defined only if each object that goes away has one owner: it is owned once by one object, or it is one of the
given objects. -/
theorem delete_one_owner {ps : List Ptr} (h : delete ps m = some ((), m')) :
    ps.Nodup ∧ ∀ p o, Reach m ps p → m.get p = some o →
      o.owned.Nodup ∧ ∀ q ∈ o.owned, q ∉ ps ∧ ∀ p' o', Reach m ps p' → m.get p' = some o' → q ∈ o'.owned → p' = p := by
  obtain ⟨L, h1, h2, rfl⟩ := delete_eq_some.1 h
  obtain ⟨h3, h4⟩ := h1.one_owner h2
  refine ⟨h3, fun p o hp ho => ?_⟩
  obtain ⟨h5, h6⟩ := h4 p o (h1.mem_iff.2 hp) ho
  exact ⟨h5, fun q hq => ⟨(h6 q hq).1, fun p' o' hp' => (h6 q hq).2 p' o' (h1.mem_iff.2 hp')⟩⟩

/-- In a clean memory every root can be deleted, and the memory remains clean. -/
theorem delete_root (h : Clean m (p :: roots) lost) :
    ∃ m', delete [p] m = some ((), m') ∧ Clean m' roots lost ∧ ∀ q o, m.get q = some o → ¬ Reach m [p] q → m'.get q = some o := by
  obtain ⟨L, hf, hn, hl⟩ := h.once
  obtain ⟨Lp, L0, rfl, fp, f0⟩ := Forest.split (ps := [p]) hf
  rw [List.append_assoc] at hn
  obtain ⟨n1, n2, n3⟩ := List.nodup_append'.1 hn
  obtain ⟨e1, x1⟩ := delete_eq h.ok fp n1
  refine ⟨_, e1, ⟨x1.ok, L0, x1.forest h.ok f0 fun q hq hc => n3 hc (by simp [hq]), n2, fun q => ?_⟩, fun q o ho hq => x1.get h.ok ho fun hc => hq (fp.mem_iff.1 hc)⟩
  rw [Mem.get_freeAll]
  have := hl q
  split_ifs with hc
  · simp only [exists_false, false_iff]
    exact fun hq => n3 hc hq
  · rw [this, List.append_assoc, List.mem_append]
    tauto

/-- The deletion of all roots leaves what is lost: if nothing is lost, no object is left. -/
theorem delete_all (h : Clean m roots lost) : ∃ m', delete roots m = some ((), m') ∧ ∀ q, (∃ o, m'.get q = some o) ↔ q ∈ lost := by
  obtain ⟨L, hf, hn, hl⟩ := h.once
  obtain ⟨n1, n2, n3⟩ := List.nodup_append'.1 hn
  obtain ⟨e1, x1⟩ := delete_eq h.ok hf n1
  refine ⟨_, e1, fun q => ?_⟩
  rw [Mem.get_freeAll]
  have := hl q
  split_ifs with hc
  · simp only [exists_false, false_iff]
    exact fun hq => n3 hc hq
  · rw [this, List.mem_append]
    tauto

/-- Memories without lost objects are those that deletion of the roots empties. -/
theorem clean_iff_delete (m : Mem) (roots : List Ptr) : Clean m roots [] ↔ m.Ok ∧ ∃ m', delete roots m = some ((), m') ∧ ∀ q, m'.get q = none := by
  constructor
  · intro h
    obtain ⟨m', h1, h2⟩ := delete_all h
    refine ⟨h.ok, m', h1, fun q => ?_⟩
    have := h2 q
    cases hq : m'.get q with
    | none => rfl
    | some o => simp [hq] at this
  · rintro ⟨hm, m', h1, h2⟩
    obtain ⟨L, h3, h4, rfl⟩ := delete_eq_some.1 h1
    refine ⟨hm, L, h3, by simpa using h4, fun q => ?_⟩
    have := h2 q
    rw [Mem.get_freeAll] at this
    split_ifs at this with hc
    · simp only [List.append_nil, hc, iff_true]
      exact h3.get hc
    · simp [this, hc]

/-- What is closed has no dangling pointer, whatever other objects are deleted. -/
theorem closed_survives (h : Clean m (p :: roots) lost) (hc : Closed m [p]) {ps : List Ptr} (hp : ∀ q, Reach m ps q → Reach m roots q) (hd : delete ps m = some ((), m')) :
    ∀ q o, Reach m [p] q → m.get q = some o → m'.get q = some o ∧ ∀ x ∈ o.refs, ∃ ox, m'.get x = some ox := by
  obtain ⟨L, hf, hn, hl⟩ := h.once
  obtain ⟨Lp, L0, rfl, fp, f0⟩ := Forest.split (ps := [p]) hf
  rw [List.append_assoc] at hn
  obtain ⟨n1, n2, n3⟩ := List.nodup_append'.1 hn
  have out : ∀ q, Reach m [p] q → ¬ Reach m ps q := fun q h1 h2 => n3 (fp.mem_iff.2 h1) (by simp [f0.mem_iff.2 (hp q h2)])
  obtain ⟨-, h4⟩ := delete_exact hd
  intro q o hq ho
  refine ⟨(h4 q (out q hq)).trans ho, fun x hx => ?_⟩
  have hx' := hc q o x hq ho hx
  rw [h4 x (out x hx')]
  exact fp.get (fp.mem_iff.2 hx')

/-! ### Copies -/

/-- Copies of variables are new roots; they have the contents of what they are copied from; nothing else changes. -/
theorem variable_copy (h : Clean m roots lost) (hp : Reach m roots p) :
    ∃ q m', Variable.copy p m = some (q, m') ∧ Clean m' (q :: roots) lost ∧ Variable.IsCopy m' p q ∧ ∀ x o, m.get x = some o → m'.get x = some o := by
  obtain ⟨Lp, fp, -⟩ := h.forest hp
  obtain ⟨q, m', L', e1, f1, x1, -⟩ := Variable.copy_copies h.ok fp
  obtain ⟨c1, c2⟩ := h.more x1 f1
  exact ⟨q, m', e1, c1, (Variable.copy_alike h.ok e1).2.1, c2⟩

theorem outputVariable_copy (h : Clean m roots lost) (hp : Reach m roots p) :
    ∃ q m', OutputVariable.copy p m = some (q, m') ∧ Clean m' (q :: roots) lost ∧ OutputVariable.IsCopy m' p q ∧ ∀ x o, m.get x = some o → m'.get x = some o := by
  obtain ⟨Lp, fp, -⟩ := h.forest hp
  obtain ⟨q, m', L', e1, f1, x1, -⟩ := OutputVariable.copy_copies h.ok fp
  obtain ⟨c1, c2⟩ := h.more x1 f1
  exact ⟨q, m', e1, c1, (OutputVariable.copy_alike h.ok e1).2.1, c2⟩

theorem rule_copy (h : Clean m roots lost) (hp : Reach m roots p) :
    ∃ q m', Rule.copy p m = some (q, m') ∧ Clean m' (q :: roots) lost ∧ Rule.IsCopy m' p q ∧ ∀ x o, m.get x = some o → m'.get x = some o := by
  obtain ⟨Lp, fp, -⟩ := h.forest hp
  obtain ⟨q, m', L', e1, f1, x1, -⟩ := Rule.copy_copies h.ok fp
  obtain ⟨c1, c2⟩ := h.more x1 f1
  exact ⟨q, m', e1, c1, (Rule.copy_alike h.ok e1).2.1, c2⟩

theorem ruleBlock_copy (h : Clean m roots lost) (hp : Reach m roots p) :
    ∃ q m', RuleBlock.copy p m = some (q, m') ∧ Clean m' (q :: roots) lost ∧ RuleBlock.IsCopy m' p q ∧ ∀ x o, m.get x = some o → m'.get x = some o := by
  obtain ⟨Lp, fp, -⟩ := h.forest hp
  obtain ⟨q, m', L', e1, f1, x1, -⟩ := RuleBlock.copy_copies h.ok fp
  obtain ⟨c1, c2⟩ := h.more x1 f1
  exact ⟨q, m', e1, c1, (RuleBlock.copy_alike h.ok e1).2.1, c2⟩

/-- The copy of an engine is a new root with copies of all variables, terms, norms and rules, where the copied terms refer to the copied engine; nothing else changes.  Nothing is lost if all rules are loaded.  If the engine has not been used, so
that only its terms of type `Linear` and `Function` refer to objects, then the copy refers only to itself. -/
theorem engine_copy_partial (R : Reader) (H : Hedges) (h : Clean m roots lost) (hp : Reach m roots p) :
    ∃ q loaded m' K, Engine.copy R H p m = some ((q, loaded), m') ∧ Clean m' (q :: roots) (K ++ lost) ∧ (∀ x o, m.get x = some o → m'.get x = some o) ∧
      ((∀ xs ∈ loaded, ∀ x ∈ xs, x = true) → K = []) ∧ (Engine.Plain m p → Closed m' [q]) ∧ Engine.Like m' p q := by
  obtain ⟨Lp, fp, -⟩ := h.forest hp
  obtain ⟨m1, e1, x1, g1, -, -⟩ := alloc_eq m { cls := .engine } h.ok
  have f1 : Forest m1.own [m.next] [m.next] := .leaf g1
  have fp1 := x1.forest h.ok fp (by simp)
  obtain ⟨xs, m2, Le, K, e2, f2, x2, k2, r2⟩ := Engine.copyFrom_eq R H x1.ok fp1 f1 (by simp) fun q hq hc => by
    rw [List.mem_singleton] at hc
    subst hc
    exact fp.live hq (h.ok _ le_rfl)
  refine ⟨m.next, xs, m2, K, ?_, ?_⟩
  · unfold Engine.copy
    rw [bind_eq e1, bind_eq e2, pure_eq]
  · obtain ⟨c1, c2⟩ := h.more (by simpa using x1.trans h.ok x2) f2
    refine ⟨c1, c2, k2, fun plain => ?_, Engine.copyFrom_like R H x1.ok fp1 f1 (by simp) (fun q hq hc => by
      rw [List.mem_singleton] at hc
      subst hc
      exact fp.live hq (h.ok _ le_rfl)) g1 rfl e2⟩
    have refs : RefsTo m1 [m.next] (· ∈ [m.next]) := by
      unfold RefsTo
      rw [RefsIn.one g1]
      simp
    have plain1 : Engine.Plain m1 p := plain.congr fp fun q hq => by
      obtain ⟨o, ho⟩ := fp.get hq
      rw [ho]
      exact x1.get h.ok ho (by simp)
    have := r2 plain1 refs
    intro q o x hq ho hx
    exact f2.mem_iff.1 (this q (f2.mem_iff.2 hq) o ho x hx)

/-! ### Assignments -/

/-- Assignments free the old parts and make new ones like those of the other object, and change nothing else. -/
theorem variable_assign (h : Clean m roots lost) (hv : Reach m roots v) (hp : Reach m roots p) (hd : ∀ q, Reach m [p] q → ¬ Reach m [v] q) :
    ∃ m', Variable.assign v p m = some ((), m') ∧ Clean m' roots lost ∧ (∀ x o, m.get x = some o → ¬ Reach m [v] x → m'.get x = some o) ∧
      ∀ o q, m.get v = some o → m.get p = some q → ∃ a, m'.get v = some { o with text := q.text, a := a } ∧ List.Forall₂ (IsClone m') q.a a := by
  obtain ⟨Lp, fp, -⟩ := h.forest hp
  obtain ⟨L, f1, n1, g⟩ := h.work_one hv
  obtain ⟨m', L', e1, f2, x1, i1⟩ := Variable.assign_eq h.ok f1 n1 fp fun q hq hc => hd q (fp.mem_iff.1 hq) (f1.mem_iff.1 hc)
  obtain ⟨c1, c2⟩ := g x1 f2
  exact ⟨m', e1, c1, c2, i1⟩

theorem outputVariable_assign (h : Clean m roots lost) (hv : Reach m roots v) (hp : Reach m roots p) (hd : ∀ q, Reach m [p] q → ¬ Reach m [v] q) :
    ∃ m', OutputVariable.assign v p m = some ((), m') ∧ Clean m' roots lost ∧ (∀ x o, m.get x = some o → ¬ Reach m [v] x → m'.get x = some o) ∧
      ∀ o q, m.get v = some o → m.get p = some q → ∃ a b c, m'.get v = some { o with text := q.text, a := a, b := b, c := c } ∧ List.Forall₂ (IsClone m') q.a a ∧
        List.Forall₂ (Aggregated.IsCopy m') q.b b ∧ List.Forall₂ (IsClone m') q.c c := by
  obtain ⟨Lp, fp, -⟩ := h.forest hp
  obtain ⟨L, f1, n1, g⟩ := h.work_one hv
  obtain ⟨m', L', e1, f2, x1, i1⟩ := OutputVariable.assign_eq h.ok f1 n1 fp fun q hq hc => hd q (fp.mem_iff.1 hq) (f1.mem_iff.1 hc)
  obtain ⟨c1, c2⟩ := g x1 f2
  exact ⟨m', e1, c1, c2, i1⟩

theorem rule_assign (h : Clean m roots lost) (hv : Reach m roots v) (hp : Reach m roots p) (hd : v ≠ p) :
    ∃ m', Rule.assign v p m = some ((), m') ∧ Clean m' roots lost ∧ (∀ x o, m.get x = some o → ¬ Reach m [v] x → m'.get x = some o) ∧
      ∀ o q, m.get v = some o → m.get p = some q → ∃ a b, m'.get v = some { o with text := q.text, a := [a], b := [b] } ∧ m'.get a = some { cls := .antecedent } ∧
        m'.get b = some { cls := .consequent } := by
  obtain ⟨Lp, fp, -⟩ := h.forest hp
  obtain ⟨L, f1, n1, g⟩ := h.work_one hv
  obtain ⟨m', L', e1, f2, x1, i1⟩ := Rule.assign_eq h.ok f1 n1 fp hd
  obtain ⟨c1, c2⟩ := g x1 f2
  exact ⟨m', e1, c1, c2, i1⟩

theorem ruleBlock_assign (h : Clean m roots lost) (hv : Reach m roots v) (hp : Reach m roots p) (hd : ∀ q, Reach m [p] q → ¬ Reach m [v] q) :
    ∃ m', RuleBlock.assign v p m = some ((), m') ∧ Clean m' roots lost ∧ (∀ x o, m.get x = some o → ¬ Reach m [v] x → m'.get x = some o) ∧
      ∀ o q, m.get v = some o → m.get p = some q → ∃ a b c d e, m'.get v = some { o with text := q.text, a := a, b := b, c := c, d := d, e := e } ∧
        List.Forall₂ (Rule.IsCopy m') q.a a ∧ List.Forall₂ (IsClone m') q.b b ∧ List.Forall₂ (IsClone m') q.c c ∧ List.Forall₂ (IsClone m') q.d d ∧
        List.Forall₂ (IsClone m') q.e e := by
  obtain ⟨Lp, fp, -⟩ := h.forest hp
  obtain ⟨L, f1, n1, g⟩ := h.work_one hv
  obtain ⟨m', L', e1, f2, x1, i1⟩ := RuleBlock.assign_eq h.ok f1 n1 fp fun q hq hc => hd q (fp.mem_iff.1 hq) (f1.mem_iff.1 hc)
  obtain ⟨c1, c2⟩ := g x1 f2
  exact ⟨m', e1, c1, c2, i1⟩

theorem engine_assign_partial (R : Reader) (H : Hedges) (h : Clean m roots lost) (hv : Reach m roots v) (hp : Reach m roots p) (hd : ∀ q, Reach m [p] q → ¬ Reach m [v] q) :
    ∃ loaded m' K, Engine.assign R H v p m = some (loaded, m') ∧ Clean m' roots (K ++ lost) ∧ (∀ x o, m.get x = some o → ¬ Reach m [v] x → m'.get x = some o) ∧
      ((∀ xs ∈ loaded, ∀ x ∈ xs, x = true) → K = []) ∧
      (Engine.Plain m p → (∀ o, m.get v = some o → o.refs = [] ∧ o.d = [] ∧ o.e = []) → Closed m' [v]) ∧
      ((∀ o, m.get v = some o → o.refs = [] ∧ o.d = [] ∧ o.e = []) → Engine.Like m' p v) := by
  obtain ⟨Lp, fp, -⟩ := h.forest hp
  obtain ⟨L, f1, n1, g⟩ := h.work_one hv
  obtain ⟨xs, m', L', K, e1, f2, x1, k1, r1, i1⟩ := Engine.assign_eq R H h.ok f1 n1 fp fun q hq hc => hd q (fp.mem_iff.1 hq) (f1.mem_iff.1 hc)
  obtain ⟨c1, c2⟩ := g x1 f2
  refine ⟨xs, m', K, e1, c1, c2, k1, fun h1 h2 q o x hq ho hx => ?_, i1⟩
  exact f2.mem_iff.1 (r1 h1 h2 q (f2.mem_iff.2 hq) o ho x hx)

/-- Assignments of an object to itself do nothing. -/
theorem assign_self (R : Reader) (H : Hedges) (m : Mem) (p : Ptr) :
    Variable.assign p p m = some ((), m) ∧ OutputVariable.assign p p m = some ((), m) ∧ Rule.assign p p m = some ((), m) ∧ RuleBlock.assign p p m = some ((), m) ∧
      Engine.assign R H p p m = some ([], m) := by
  simp [Variable.assign, OutputVariable.assign, Rule.assign, RuleBlock.assign, Engine.assign, pure, StateT.pure]

/-! ### Loading -/

/-- what rules may refer to: the engine, its variables and their terms -/
def Known (m : Mem) (e q : Ptr) : Prop := q = e ∨ ∃ oe, m.get e = some oe ∧ ∃ v ∈ oe.a ++ oe.b, q = v ∨ ∃ ov, m.get v = some ov ∧ q ∈ ov.a

theorem Clean.env (h : Clean m roots lost) (he : Reach m roots e) : Env m e (Known m e) := by
  obtain ⟨L, fe, -⟩ := h.forest he
  obtain ⟨oe, hoe⟩ := fe.get (fe.roots e (by simp))
  have hv : ∀ v ∈ oe.a ++ oe.b, v ∈ L := fun v hv => fe.children (fe.roots e (by simp)) (own_eq hoe) (by
    simp only [Obj.owned, List.mem_append] at hv ⊢
    tauto)
  refine ⟨?_, oe, hoe, Or.inl rfl, fun v h1 => ⟨Or.inr ⟨oe, hoe, v, h1, Or.inl rfl⟩, ?_⟩⟩
  · rintro q (rfl | ⟨oe', h1, v, h2, h3⟩)
    · exact ⟨oe, hoe⟩
    · rw [hoe] at h1
      cases h1
      rcases h3 with rfl | ⟨ov, h4, h5⟩
      · exact fe.get (hv _ h2)
      · exact fe.get (fe.children (hv v h2) (own_eq h4) (by simp [Obj.owned, h5]))
  · obtain ⟨ov, hov⟩ := fe.get (hv v h1)
    exact ⟨ov, hov, fun t ht => Or.inr ⟨oe, hoe, v, h1, Or.inr ⟨ov, hov, ht⟩⟩⟩

/-- what an object owns refers to the engine, its variables and their terms only -/
def Refers (m m' : Mem) (e r : Ptr) : Prop := ∀ q o x, Reach m' [r] q → m'.get q = some o → x ∈ o.refs → Known m e x

theorem does_clean {α : Type} {good : α → Prop} {f : M α} (hdo : Does e (Known m e) good [r] f) (h : Clean m roots lost) (he : Reach m roots e) (hr : Reach m roots r)
    (hd : ∀ q, Reach m [r] q → ¬ Known m e q) :
    ∃ x m' K, f m = some (x, m') ∧ Clean m' roots (K ++ lost) ∧ (good x → K = []) ∧ (∀ q o, m.get q = some o → ¬ Reach m [r] q → m'.get q = some o) ∧
      (Refers m m e r → Refers m m' e r) := by
  obtain ⟨L, f1, n1, g⟩ := h.work_one hr
  obtain ⟨x, m', L', K, e1, w1, k1⟩ := hdo h.ok (h.env he) f1 n1 fun q hq => hd q (f1.mem_iff.1 hq)
  obtain ⟨c1, c2⟩ := g w1.effect w1.forest
  refine ⟨x, m', K, e1, c1, k1, c2, fun hrefs q o x hq ho hx => ?_⟩
  exact w1.refs (fun q hq o ho x hx => hrefs q o x (f1.mem_iff.1 hq) ho hx) q (w1.forest.mem_iff.2 hq) o ho x hx

/-- Loading an antecedent is defined for all texts.  It succeeds if one expression is left in a final state.  After an exception in the loop, or
if the text ends too early, the expressions in the lower half of the stack are lost, and nothing else ever is. -/
theorem antecedent_load_exact (H : Hedges) (ts : Option (List Str)) (h : Clean m roots lost) (he : Reach m roots e) (hr : Reach m roots r) (hd : ∀ q, Reach m [r] q → ¬ Known m e q) :
    ∃ ok m' K, Antecedent.load H e r ts m = some (ok, m') ∧ Clean m' roots (K ++ lost) ∧ (ts = none → ok = false ∧ K = []) ∧
      (∀ q o, m.get q = some o → ¬ Reach m [r] q → m'.get q = some o) ∧ (Refers m m e r → Refers m m' e r) ∧
      ∀ t, ts = some t → ∃ m1 stack st m2, Antecedent.unload r m = some ((), m1) ∧ Antecedent.run H e [] .variable t m1 = some ((stack, st), m2) ∧
        (ok = true ↔ (st = some .variable ∨ st = some .variableAndOr) ∧ stack.length = 1) ∧
        Forest m'.own (if st = some .variable ∨ st = some .variableAndOr then [] else stack.drop ((stack.length + 1) / 2)) K := by
  obtain ⟨L, f1, n1, g⟩ := h.work_one hr
  obtain ⟨x, m', L', K, e1, w1, k1, k2, k3⟩ := Antecedent.load_all H r ts h.ok (h.env he) f1 n1 fun q hq => hd q (f1.mem_iff.1 hq)
  obtain ⟨c1, c2⟩ := g w1.effect w1.forest
  refine ⟨x, m', K, e1, c1, fun ht => ⟨?_, k2 ht⟩, c2, fun hrefs q o x hq ho hx => ?_, k3⟩
  · subst ht
    unfold Antecedent.load at e1
    simp only [bind, StateT.bind] at e1
    cases hu : Antecedent.unload r m with
    | none => simp [hu] at e1
    | some y => simp [hu, pure, StateT.pure] at e1; exact e1.1
  · exact w1.refs (fun q hq o ho x hx => hrefs q o x (f1.mem_iff.1 hq) ho hx) q (w1.forest.mem_iff.2 hq) o ho x hx

/-- Loading a consequent is defined for all texts and loses nothing. -/
theorem consequent_load (H : Hedges) (ts : List Str) (h : Clean m roots lost) (he : Reach m roots e) (hr : Reach m roots r) (hd : ∀ q, Reach m [r] q → ¬ Known m e q) :
    ∃ ok m', Consequent.load H e r ts m = some (ok, m') ∧ Clean m' roots lost ∧ (∀ q o, m.get q = some o → ¬ Reach m [r] q → m'.get q = some o) ∧
      (Refers m m e r → Refers m m' e r) := by
  obtain ⟨x, m', K, e1, c1, k1, h1⟩ := does_clean (Consequent.load_does H r ts) h he hr hd
  cases k1 trivial
  exact ⟨x, m', e1, c1, h1⟩

/-- Loading a rule is defined for all texts; what is lost, is lost by rules that are not loaded. -/
theorem rule_load_partial (R : Reader) (H : Hedges) (h : Clean m roots lost) (he : Reach m roots e) (hr : Reach m roots r) (hd : ∀ q, Reach m [r] q → ¬ Known m e q) :
    ∃ ok m' K, Rule.load R H e r m = some (ok, m') ∧ Clean m' roots (K ++ lost) ∧ (ok = true → K = []) ∧
      (∀ q o, m.get q = some o → ¬ Reach m [r] q → m'.get q = some o) ∧ (Refers m m e r → Refers m m' e r) :=
  does_clean (Rule.load_does R H r) h he hr hd

theorem rule_unload (h : Clean m roots lost) (he : Reach m roots e) (hr : Reach m roots r) (hd : ∀ q, Reach m [r] q → ¬ Known m e q) :
    ∃ m', Rule.unload r m = some ((), m') ∧ Clean m' roots lost ∧ (∀ q o, m.get q = some o → ¬ Reach m [r] q → m'.get q = some o) ∧ (Refers m m e r → Refers m m' e r) := by
  obtain ⟨x, m', K, e1, c1, k1, h1⟩ := does_clean (Rule.unload_does r) h he hr hd
  cases k1 trivial
  exact ⟨m', e1, c1, h1⟩

theorem ruleBlock_loadRules_partial (R : Reader) (H : Hedges) (h : Clean m roots lost) (he : Reach m roots e) (hr : Reach m roots r) (hd : ∀ q, Reach m [r] q → ¬ Known m e q) :
    ∃ loaded m' K, RuleBlock.loadRules R H e r m = some (loaded, m') ∧ Clean m' roots (K ++ lost) ∧ ((∀ x ∈ loaded, x = true) → K = []) ∧
      (∀ q o, m.get q = some o → ¬ Reach m [r] q → m'.get q = some o) ∧ (Refers m m e r → Refers m m' e r) :=
  does_clean (RuleBlock.loadRules_does R H r) h he hr hd

/-! ### Containers, setters and configuration -/

/-- An object that is added is owned by the container. -/
theorem add_owner (s : Slot) {o : Obj} (h : Clean m (p :: roots) lost) (hr : Reach m roots r) (ho : m.get r = some o) :
    ∃ m', add s r p m = some ((), m') ∧ Clean m' roots lost ∧ m'.get r = some (o.set s (o.get s ++ [p])) ∧
      ∀ q o, m.get q = some o → ¬ Reach m [r, p] q → m'.get q = some o := by
  obtain ⟨Lr, Lp, f1, f2, n, g⟩ := Clean.work (ps := [p]) h hr
  obtain ⟨m', L', e1, f3, x1, -, g1⟩ := add_eq s h.ok f1 f2 n
  obtain ⟨c1, c2⟩ := g (qs := []) (Lq := []) (K := []) (by simpa using x1) f3 .nil
  exact ⟨m', e1, c1, g1 o ho, c2⟩

theorem insertIdx_take_drop {l : List Ptr} {i : Nat} (hi : i ≤ l.length) : l.insertIdx i p = l.take i ++ p :: l.drop i := by
  induction l generalizing i with
  | nil =>
    have : i = 0 := by simpa using hi
    subst this
    rfl
  | cons a l ih =>
    cases i with
    | zero => rfl
    | succ i => simp [List.insertIdx_succ_cons, ih (by simpa using hi)]

theorem insert_owner (s : Slot) (i : Nat) {o : Obj} (h : Clean m (p :: roots) lost) (hr : Reach m roots r) (ho : m.get r = some o) (hi : i ≤ (o.get s).length) :
    ∃ m', insert s r p i m = some ((), m') ∧ Clean m' roots lost ∧ m'.get r = some (o.set s ((o.get s).insertIdx i p)) ∧
      ∀ q o, m.get q = some o → ¬ Reach m [r, p] q → m'.get q = some o := by
  obtain ⟨Lr, Lp, f1, f2, n, g⟩ := Clean.work (ps := [p]) h hr
  obtain ⟨m', L', e1, f3, x1, -, g1⟩ := insert_eq s i h.ok f1 f2 n ho hi
  obtain ⟨c1, c2⟩ := g (qs := []) (Lq := []) (K := []) (by simpa using x1) f3 .nil
  refine ⟨m', e1, c1, ?_, c2⟩
  rw [g1, insertIdx_take_drop hi]

/-- Insertions beyond the end are undefined. -/
theorem insert_undefined (s : Slot) (i : Nat) {o : Obj} (ho : m.get r = some o) (hi : (o.get s).length < i) : insert s r p i m = none := by
  unfold insert
  rw [bind_eq (read_eq ho), if_neg (by omega)]

/-- An object that is replaced is handed to the caller. -/
theorem replace_owner (s : Slot) (i : Nat) {o : Obj} {q : Ptr} (h : Clean m (p :: roots) lost) (hr : Reach m roots r) (ho : m.get r = some o) (hi : (o.get s)[i]? = some q) :
    ∃ m', replace s r p i m = some (some q, m') ∧ Clean m' (q :: roots) lost ∧ m'.get r = some (o.set s ((o.get s).set i p)) ∧
      ∀ q o, m.get q = some o → ¬ Reach m [r, p] q → m'.get q = some o := by
  obtain ⟨Lr, Lp, f1, f2, n, g⟩ := Clean.work (ps := [p]) h hr
  obtain ⟨m', L', Lq, e1, f3, f4, x1, -, g1⟩ := replace_eq s i h.ok f1 f2 n ho hi
  obtain ⟨c1, c2⟩ := g (qs := [q]) (Lq := Lq) x1 f3 f4
  exact ⟨m', e1, c1, g1, c2⟩

theorem remove_owner (s : Slot) (i : Nat) {o : Obj} {q : Ptr} (h : Clean m roots lost) (hr : Reach m roots r) (ho : m.get r = some o) (hi : (o.get s)[i]? = some q) :
    ∃ m', remove s r i m = some (some q, m') ∧ Clean m' (q :: roots) lost ∧ m'.get r = some (o.set s ((o.get s).eraseIdx i)) ∧
      ∀ q o, m.get q = some o → ¬ Reach m [r] q → m'.get q = some o := by
  obtain ⟨Lr, Lp, f1, f2, n, g⟩ := Clean.work (ps := []) h hr
  cases f2
  obtain ⟨m', L', Lq, e1, f3, f4, x1, -, g1⟩ := remove_eq s i h.ok f1 (by simpa using n) ho hi
  obtain ⟨c1, c2⟩ := g (qs := [q]) (Lq := Lq) (K := []) (by simpa using x1) f3 f4
  exact ⟨m', e1, c1, g1, c2⟩

/-- Beyond the end, `std::out_of_range` is thrown and nothing changes. -/
theorem out_of_range (s : Slot) (i : Nat) {o : Obj} (ho : m.get r = some o) (hi : (o.get s)[i]? = none) :
    replace s r p i m = some (none, m) ∧ remove s r i m = some (none, m) := by
  unfold replace remove
  rw [bind_eq (read_eq ho), bind_eq (read_eq ho), hi]
  exact ⟨rfl, rfl⟩

/-- Setters delete what was there. -/
theorem reset_owner (s : Slot) (p : Option Ptr) {o : Obj} (h : Clean m (p.toList ++ roots) lost) (hr : Reach m roots r) (ho : m.get r = some o) :
    ∃ m', reset s r p m = some ((), m') ∧ Clean m' roots lost ∧ m'.get r = some (o.set s p.toList) ∧
      ∀ q o, m.get q = some o → ¬ Reach m (r :: p.toList) q → m'.get q = some o := by
  obtain ⟨Lr, Lp, f1, f2, n, g⟩ := Clean.work (ps := p.toList) h hr
  obtain ⟨m', L', e1, f3, x1, g1⟩ := reset_eq p s h.ok f1 f2 n
  obtain ⟨c1, c2⟩ := g (qs := []) (Lq := []) (K := []) (by simpa using x1) f3 .nil
  exact ⟨m', e1, c1, g1 o ho, c2⟩

/-- The configuration of an engine clones the given objects and deletes them. -/
theorem configure_owner {cj dj im ag df ac : Option Ptr} (h : Clean m (df.toList ++ ag.toList ++ im.toList ++ dj.toList ++ cj.toList ++ ac.toList ++ roots) lost)
    (hr : Reach m roots r) :
    ∃ m', Engine.configure r cj dj im ag df ac m = some ((), m') ∧ Clean m' roots lost ∧
      ∀ q o, m.get q = some o → ¬ Reach m (r :: (df.toList ++ ag.toList ++ im.toList ++ dj.toList ++ cj.toList ++ ac.toList)) q → m'.get q = some o := by
  obtain ⟨Lr, Lp, f1, f2, n, g⟩ := Clean.work h hr
  obtain ⟨m', L', e1, f3, x1⟩ := Engine.configure_eq h.ok f1 f2 n
  exact ⟨m', e1, g (qs := []) (Lq := []) (K := []) (by simpa using x1) f3 .nil⟩

/-! ### Examples -/

/-- a conclusion: the proposition, its variable, the fuzzy output of the variable, and the term -/
structure Conclusion where
  proposition : Ptr
  variable_ : Ptr
  fuzzy : Ptr
  term : Ptr

/-- the conclusion is in memory -/
def Conclusion.In (m : Mem) (d : Conclusion) : Prop :=
  (∃ o, m.get d.proposition = some o ∧ o.refs = [d.variable_, d.term]) ∧ (∃ o, m.get d.variable_ = some o ∧ o.b = [d.fuzzy]) ∧
    ∃ o, m.get d.fuzzy = some o

/-- what the conclusions add to the references of an object -/
def Conclusion.added (ds : List Conclusion) (implication : Option Ptr) (x : Ptr) : List Ptr :=
  (ds.filter fun d => d.fuzzy = x).flatMap fun d => d.term :: implication.toList

theorem conclusions_step (implication : Option Ptr) (ds : List Conclusion) (h : ∀ d ∈ ds, d.In m)
    (hd : ∀ d ∈ ds, ∀ d' ∈ ds, d.proposition ≠ d'.fuzzy ∧ d.variable_ ≠ d'.fuzzy) :
    ∃ xs m', each (fun q => do
        let q ← read q
        let v ← read (q.refs.headD 0)
        let _ ← each (fun f => Own.modify f fun f => { f with refs := f.refs ++ q.refs.drop 1 ++ implication.toList }) v.b
        pure ()) (ds.map (·.proposition)) m = some (xs, m') ∧
      ∀ x, m'.get x = (m.get x).map fun o => { o with refs := o.refs ++ Conclusion.added ds implication x } := by
  induction ds generalizing m with
  | nil =>
    refine ⟨[], m, rfl, fun x => ?_⟩
    simp [Conclusion.added]
  | cons d ds ih =>
    obtain ⟨⟨q, hq, rq⟩, ⟨v, hv, bv⟩, f, hf⟩ := h d List.mem_cons_self
    have e1 : Own.modify d.fuzzy (fun f => { f with refs := f.refs ++ q.refs.drop 1 ++ implication.toList }) m =
        some ((), m.put d.fuzzy { f with refs := f.refs ++ q.refs.drop 1 ++ implication.toList }) := by
      unfold Own.modify
      rw [bind_eq (read_eq hf)]
      unfold write
      rw [hf]
      rfl
    have hg := fun x => m.get_put d.fuzzy x { f with refs := f.refs ++ q.refs.drop 1 ++ implication.toList }
    obtain ⟨xs, m2, e2, hx⟩ := ih (m := m.put d.fuzzy { f with refs := f.refs ++ q.refs.drop 1 ++ implication.toList })
      (fun d' hd' => by
        obtain ⟨⟨q', hq', rq'⟩, ⟨v', hv', bv'⟩, f', hf'⟩ := h d' (List.mem_cons_of_mem _ hd')
        obtain ⟨n1, n2⟩ := hd d' (List.mem_cons_of_mem _ hd') d List.mem_cons_self
        refine ⟨⟨q', by rw [hg, if_neg n1]; exact hq', rq'⟩, ⟨v', by rw [hg, if_neg n2]; exact hv', bv'⟩, ?_⟩
        rw [hg]
        split_ifs with hc
        · exact ⟨_, rfl⟩
        · exact ⟨f', hf'⟩)
      (fun a ha b hb => hd a (List.mem_cons_of_mem _ ha) b (List.mem_cons_of_mem _ hb))
    refine ⟨() :: xs, m2, ?_, fun x => ?_⟩
    · rw [List.map_cons]
      unfold each
      refine (bind_eq (x := ()) (m' := m.put d.fuzzy _) ?_).trans ((bind_eq e2).trans rfl)
      rw [bind_eq (read_eq hq), rq, List.headD_cons, bind_eq (read_eq hv), bv]
      refine (bind_eq (x := [()]) (m' := m.put d.fuzzy _) ?_).trans rfl
      unfold each
      rw [rq] at e1
      exact (bind_eq e1).trans rfl
    · rw [hx, hg]
      by_cases hc : x = d.fuzzy
      · subst hc
        rw [if_pos rfl, hf]
        simp [Conclusion.added, rq]
      · rw [if_neg hc]
        have : ¬ d.fuzzy = x := fun h => hc h.symm
        simp [Conclusion.added, this]

/-- **C84.**  The conclusions of a rule add to the fuzzy output of each variable the references to the terms and the implication, in the
order of the conclusions, and change nothing else. -/
theorem conclusions_refer (implication : Option Ptr) (ds : List Conclusion) {o : Obj} (hp : m.get p = some o) (ho : o.a = ds.map (·.proposition))
    (h : ∀ d ∈ ds, d.In m) (hd : ∀ d ∈ ds, ∀ d' ∈ ds, d.proposition ≠ d'.fuzzy ∧ d.variable_ ≠ d'.fuzzy) :
    ∃ m', Consequent.modify p implication m = some ((), m') ∧
      ∀ x, m'.get x = (m.get x).map fun o => { o with refs := o.refs ++ Conclusion.added ds implication x } := by
  obtain ⟨xs, m', e, hx⟩ := conclusions_step implication ds h hd
  refine ⟨m', ?_, hx⟩
  unfold Consequent.modify
  rw [bind_eq (read_eq hp), ho]
  exact (bind_eq e).trans rfl

namespace Demo

/-- an engine with a rule -/
def engine (text : Str) : Mem :=
  ⟨[(11, { cls := .engine, text := cs! "e", a := [1], b := [5], c := [10] }),
    (10, { cls := .block, a := [8], b := [9], d := [12] }), (9, { cls := .leaf }), (12, { cls := .leaf }),
    (8, { cls := .rule, text := text, a := [6], b := [7] }), (7, { cls := .consequent }), (6, { cls := .antecedent }),
    (5, { cls := .output, text := cs! "b", a := [2], b := [3], c := [4] }), (4, { cls := .leaf }), (3, { cls := .aggregated }), (2, { cls := .linear, text := cs! "y", refs := [11] }),
    (1, { cls := .input, text := cs! "a", a := [0] }), (0, { cls := .term, text := cs! "x" })], 13⟩

abbrev G : Registry (Ext ℚ) := Registry.default

def good : Str := cs! "if a is very x then b is y"

/-- a rule with a term that does not exist -/
def bad : Str := cs! "if a is x and a is z then b is y"

/-- what is left after a deletion -/
def left (ps : List Ptr) (m : Mem) : Option (List Ptr) := (delete ps m).map fun r => r.2.cells.map Prod.fst

/-- the objects and those they refer to -/
def refs (m : Mem) : List (Ptr × List Ptr) := (m.cells.map fun c => (c.1, c.2.refs)).filter fun c => !c.2.isEmpty

theorem ok_of_lt {m : Mem} (h : ∀ c ∈ m.cells, c.1 < m.next) : m.Ok := by
  intro p hp
  unfold Mem.get
  rw [List.lookup_eq_none_iff]
  intro c hc
  have := h c hc
  simp only [bne_iff_ne, ne_eq]
  omega

theorem clean_of_left {m : Mem} {roots : List Ptr} (h : ∀ c ∈ m.cells, c.1 < m.next) (hl : left roots m = some []) : Clean m roots [] := by
  refine (clean_iff_delete m roots).2 ⟨ok_of_lt h, ?_⟩
  unfold left at hl
  cases hd : delete roots m with
  | none => simp [hd] at hl
  | some r =>
    simp only [hd, Option.map_some, Option.some.injEq, List.map_eq_nil_iff] at hl
    refine ⟨r.2, rfl, fun q => ?_⟩
    simp [Mem.get, hl]

theorem clean (text : Str) : Clean (engine text) [11] [] := by
  refine clean_of_left ?_ rfl
  simp [engine]

set_option synthInstance.maxSize 1000 in
/-- the copy of an engine and the deletion of either -/
example : (Engine.copy (reader G) (hedges G) 11 (engine good)).map (fun r => (r.1, left [11] r.2, left [r.1.1] r.2, left [11, r.1.1] r.2, refs r.2)) =
    some ((13, [[true]]), some [13, 28, 23, 22, 26, 27, 25, 24, 21, 20, 16, 14, 19, 18, 17, 15], some [11, 10, 9, 12, 8, 7, 6, 5, 4, 3, 2, 1, 0], some [],
      [(28, [19, 16]), (26, [15, 14]), (16, [13]), (2, [11])]) := by decide +kernel

set_option synthInstance.maxSize 1000 in
/-- the assignment of an engine to another one, loaded before -/
example : ((do
      let q ← Engine.copy (reader G) (hedges G) 11
      let l ← Engine.assign (reader G) (hedges G) q.1 11
      pure (q.1, l) : M _) (engine good)).map (fun r => (r.1, left [11] r.2, left [11, 13] r.2, refs r.2)) =
    some ((13, [[true]]), some [13, 43, 38, 37, 41, 42, 40, 39, 36, 35, 31, 29, 34, 33, 32, 30], some [], [(43, [34, 31]), (41, [30, 29]), (31, [13]), (2, [11])]) := by
  decide +kernel

/-- a variable removed from an engine, with its terms, is the caller's -/
example : (remove .b 11 0 (engine good)).map (fun r => (r.1, left [11] r.2, left [11, 5] r.2)) = some (some 5, some [5, 4, 3, 2], some []) := by decide +kernel

/-- the configuration of an engine -/
example : (do
      let t ← alloc { cls := .leaf, text := cs! "Minimum" }
      let s ← alloc { cls := .leaf, text := cs! "Maximum" }
      Engine.configure 11 (some t) (some s) none (some s) none none : M Unit) (engine good) = none := by decide +kernel

example : ((do
      let t ← alloc { cls := .leaf, text := cs! "Minimum" }
      let s ← alloc { cls := .leaf, text := cs! "Maximum" }
      Engine.configure 11 (some t) (some s) none none none none : M Unit) (engine good)).map (fun r => ((r.2.get 10).map Obj.owned, (r.2.get 5).map Obj.owned, left [11] r.2)) =
    some (some [8, 15, 16, 17], some [2, 3], some []) := by decide +kernel

/-- the engine holds for the hypotheses of loading: the rule block owns nothing that rules refer to -/
example (q : Ptr) (h : Reach (engine good) [10] q) : ¬ Known (engine good) 11 q := by
  have : q ∈ [10, 8, 6, 7, 9, 12] := by
    have f : Forest (engine good).own [10] [10, 8, 6, 7, 9, 12] :=
      .cons (L1 := [8, 6, 7, 9, 12]) (L2 := []) rfl (.cons (L1 := [6, 7]) (L2 := [9, 12]) rfl (.cons (L1 := []) rfl .nil (.cons (L1 := []) rfl .nil .nil))
        (.cons (L1 := []) rfl .nil (.cons (L1 := []) rfl .nil .nil))) .nil
    exact f.mem_iff.2 h
  rintro (rfl | ⟨oe, h1, v, h2, h3⟩)
  · simp at this
  · have h1' : (engine good).get 11 = some { cls := .engine, text := cs! "e", a := [1], b := [5], c := [10] } := rfl
    rw [h1'] at h1
    cases h1
    simp only [List.cons_append, List.nil_append, List.mem_cons, List.not_mem_nil, or_false] at h2
    rcases h2 with rfl | rfl <;> rcases h3 with rfl | ⟨ov, h4, h5⟩
    · simp at this
    · have h4' : (engine good).get 1 = some { cls := .input, text := cs! "a", a := [0] } := rfl
      rw [h4'] at h4
      cases h4
      simp only [List.mem_singleton] at h5
      subst h5
      simp at this
    · simp at this
    · have h4' : (engine good).get 5 = some { cls := .output, text := cs! "b", a := [2], b := [3], c := [4] } := rfl
      rw [h4'] at h4
      cases h4
      simp only [List.mem_singleton] at h5
      subst h5
      simp at this

/-- Copies of engines lose memory if a rule is not loaded: the exception handler of `Antecedent::load` deletes half of the expressions. -/
theorem copy_leak_violated : ∃ m m' m'' p q loaded, Clean m [p] [] ∧ Engine.copy (reader G) (hedges G) p m = some ((q, loaded), m') ∧
    delete [p, q] m' = some ((), m'') ∧ ∃ x o, m''.get x = some o := by
  obtain ⟨r, h⟩ : ∃ r, Engine.copy (reader G) (hedges G) 11 (engine bad) = some r := by
    cases h : Engine.copy (reader G) (hedges G) 11 (engine bad) with
    | none => exact absurd h (by decide +kernel)
    | some r => exact ⟨r, rfl⟩
  have key : (Engine.copy (reader G) (hedges G) 11 (engine bad)).map (fun r => left [11, r.1.1] r.2) = some (some [26]) := by decide +kernel
  rw [h] at key
  simp only [Option.map_some, Option.some.injEq] at key
  unfold left at key
  cases hd : delete [11, r.1.1] r.2 with
  | none => simp [hd] at key
  | some s =>
    simp only [hd, Option.map_some, Option.some.injEq] at key
    refine ⟨engine bad, r.2, s.2, 11, r.1.1, r.1.2, clean bad, h, hd, ?_⟩
    match hc : s.2.cells, key with
    | [(x, o)], _ => exact ⟨x, o, by simp [Mem.get, hc]⟩

/-- An object that is added to two containers is deleted twice. -/
theorem add_twice_violated : ∃ m m' e v, Clean m [v, e] [] ∧ (do add .a e v; add .a e v : M Unit) m = some ((), m') ∧ delete [e] m' = none :=
  ⟨⟨[(0, { cls := .engine }), (1, { cls := .input })], 2⟩, ⟨[(0, { cls := .engine, a := [1, 1] }), (1, { cls := .input })], 2⟩, 0, 1,
    clean_of_left (by simp) rfl, rfl, rfl⟩

/-- A norm that is given twice to `Engine::configure` is deleted twice. -/
theorem configure_twice_violated : ∃ m e t, Clean m [t, e] [] ∧ Engine.configure e (some t) none (some t) none none none m = none :=
  ⟨⟨[(0, { cls := .engine }), (1, { cls := .leaf })], 2⟩, 0, 1, clean_of_left (by simp) rfl, rfl⟩

/-- A setter that is given the object already there deletes it and keeps the pointer. -/
theorem reset_same_violated : ∃ m m' b t, Clean m [b] [] ∧ m.get b = some { cls := .block, b := [t] } ∧ reset .b b (some t) m = some ((), m') ∧ delete [b] m' = none :=
  ⟨⟨[(0, { cls := .block, b := [1] }), (1, { cls := .leaf })], 2⟩, ⟨[(0, { cls := .block, b := [1] })], 2⟩, 0, 1, clean_of_left (by simp) rfl, rfl, rfl, rfl⟩

/-- what `OutputVariable::visit` and others need: the engine with a loaded rule, whose conclusion is then made -/
def used : M (List Bool) := do
  let l ← RuleBlock.loadRules (reader G) (hedges G) 11 10
  Consequent.modify 7 (some 12)
  pure l

/-- the memory after a computation -/
def after {α : Type} (f : M α) (m : Mem) : Mem := ((f m).map Prod.snd).getD Mem.empty

/-- the fuzzy output refers to the term `y` and to the implication -/
example : ((after used (engine good)).get 3).map Obj.refs = some [2, 12] ∧
    Conclusion.added [⟨14, 5, 3, 2⟩, ⟨15, 6, 4, 1⟩, ⟨16, 5, 3, 0⟩] (some 12) 3 = [2, 12, 0, 12] := by decide +kernel

/-- The fuzzy output refers to the implication of the rule block: it dangles after another one is set. -/
theorem implication_dangles_violated : ∃ m' m'', used (engine good) = some ([true], m') ∧ OutputVariable.visit 5 m' = some ((), m') ∧ Clean m' [11] [] ∧
    reset .d 10 none m' = some ((), m'') ∧ Clean m'' [11] [] ∧ OutputVariable.visit 5 m'' = none := by
  refine ⟨after used (engine good), after (do let _ ← used; reset .d 10 none) (engine good), ?_, ?_, clean_of_left ?_ ?_, ?_, clean_of_left ?_ ?_, ?_⟩ <;> decide +kernel

/-- The copy of an engine in use refers to the terms and the implication of the original: they dangle after it is deleted. -/
theorem copy_dangles_violated : ∃ m1 m2 m3, used (engine good) = some ([true], m1) ∧ Engine.copy (reader G) (hedges G) 11 m1 = some ((16, [[true]]), m2) ∧
    Clean m2 [16, 11] [] ∧ (m2.get 16).map Obj.b = some [22] ∧ OutputVariable.visit 22 m2 = some ((), m2) ∧ delete [11] m2 = some ((), m3) ∧ Clean m3 [16] [] ∧
    OutputVariable.visit 22 m3 = none := by
  refine ⟨after used (engine good), after (do let _ ← used; Engine.copy (reader G) (hedges G) 11) (engine good),
    after (do let _ ← used; let _ ← Engine.copy (reader G) (hedges G) 11; delete [11]) (engine good), ?_, ?_, clean_of_left ?_ ?_, ?_, ?_, ?_, clean_of_left ?_ ?_, ?_⟩ <;>
    decide +kernel

end Demo

end FL.Own
