/-
C89: who owns the trees of formulas.  Parsing, loading, unloading, copies and assignments of `Function` terms keep
every object with one owner, and the trees in memory are those of the value model; but formulas that are rejected
lose the nodes that were made for them, and terms may be left with an engine that does not exist.
-/
import Verif.Lemmas.MemoryFormula
import Verif.Props.Memory

namespace FL.Own.Function

local notation "Ptr" => Nat

variable {m m' : Mem} {roots lost : List Ptr} {A : Elements} {t p : Ptr}

/-! ### Parsing -/

/-- **C89.**  Parsing is defined for every text.  A tree that is made belongs to the caller, and nothing is lost.  If the formula is rejected, then every object
made for it is lost: a node for each token read before, and the element of each operator or function. -/
theorem parse_clean_partial (hA : Proper A) (ts : Option (List Str)) (h : Clean m roots lost) :
    ∃ r m' K, parse A ts m = some (r, m') ∧ Clean m' (r.toList ++ roots) (K ++ lost) ∧ (∀ q o, m.get q = some o → m'.get q = some o) ∧
      (r.isSome → K = []) ∧
      (r = none → ∃ pre rest stack, ts.getD [] = pre ++ rest ∧ K.length = (pre.map (cost A)).sum ∧ (∀ q, q ∈ K ↔ Reach m' stack q) ∧
        ((rest = [] ∧ stack.length ≠ 1) ∨ ts = none ∨ ∃ t ts' k, rest = t :: ts' ∧ A t = some k ∧ stack.length < k)) := by
  rcases parse_eq hA ts h.ok with ⟨p, m', L', e1, x1, f1, -⟩ | ⟨m', K, stack, e1, x1, f1, pre, rest, h1, h2, h3⟩
  · obtain ⟨c1, c2⟩ := h.more x1 f1
    exact ⟨some p, m', [], e1, c1, c2, fun _ => rfl, fun hc => by cases hc⟩
  · obtain ⟨c1, c2⟩ := h.more x1 (.nil : Forest m'.own [] [])
    exact ⟨none, m', K, e1, c1, c2, (fun hc => by cases hc), fun _ => ⟨pre, rest, stack, h1, h2, fun q => f1.mem_iff, h3⟩⟩

/-- The number of objects of a tree: the nodes, and the elements of operators and functions. -/
def size {S : Type} : Node S → Nat
  | .const _ => 1
  | .var _ => 1
  | .un _ _ r => 2 + size r
  | .bin _ _ l r => 2 + size l + size r

variable {S : Type} [ScalarText S] {F : ElementFactory S}

/-- **C89.**  A formula is accepted in memory exactly if it is by values, and the tree in memory is the tree by values. -/
theorem parse_same (F : ElementFactory S) (formula : Str) (h : Clean m roots lost) :
    ∃ r m', parse (arities F) (tokens F formula) m = some (r, m') ∧
      (∀ n, Formula.parse F formula = .ok n → ∃ p, r = some p ∧ IsTree F m' n p) ∧
      ∀ p, r = some p → ∃ n, Formula.parse F formula = .ok n ∧ IsTree F m' n p := by
  rcases parse_refines F formula h.ok with ⟨err, m', h1, h2⟩ | ⟨n, p, m', h1, h2, h3⟩
  · refine ⟨none, m', h2, fun n hn => ?_, fun p hp => by cases hp⟩
    rw [h1] at hn
    cases hn
  · refine ⟨some p, m', h2, fun n' hn => ?_, fun p' hp => ?_⟩
    · rw [h1] at hn
      cases hn
      exact ⟨p, rfl, h3⟩
    · cases hp
      exact ⟨n, h1, h3⟩

/-- **C89.**  An address has one tree. -/
theorem tree_unique {n n' : Node S} (h : IsTree F m n p) (h' : IsTree F m n' p) : n = n' := h.unique h'

/-- **C89.**  A tree has as many objects as the value of its formula has nodes and elements. -/
theorem tree_size {n : Node S} {L : List Ptr} (h : IsTree F m n p) (hf : Forest m.own [p] L) : L.length = size n := by
  induction h generalizing L with
  | const _ _ h3 =>
    obtain rfl := hf.unique (Forest.leaf h3)
    rfl
  | var _ _ h3 =>
    obtain rfl := hf.unique (Forest.leaf h3)
    rfl
  | un _ _ h3 h4 _ ih =>
    obtain ⟨o, La, Lb, Lc, Ld, Le, ho, rfl, ha, hb, hc, hd, he⟩ := hf.parts
    rw [h3] at ho
    cases ho
    cases ha; cases hd; cases he
    obtain rfl := hc.unique (Forest.leaf h4)
    simp [size, ih hb]
    omega
  | bin _ _ h3 h4 _ _ ih1 ih2 =>
    obtain ⟨o, La, Lb, Lc, Ld, Le, ho, rfl, ha, hb, hc, hd, he⟩ := hf.parts
    rw [h3] at ho
    cases ho
    cases hd; cases he
    obtain rfl := hc.unique (Forest.leaf h4)
    simp [size, ih1 ha, ih2 hb]
    omega

/-! ### Terms -/

/-- **C89.**  Unloading deletes the tree, and nothing else changes. -/
theorem function_unload {o : Obj} (h : Clean m roots lost) (ht : Reach m roots t) (ho : m.get t = some o) :
    ∃ m', unload t m = some ((), m') ∧ Clean m' roots lost ∧ m'.get t = some { o with a := [] } ∧ ∀ q o, m.get q = some o → ¬ Reach m [t] q → m'.get q = some o := by
  obtain ⟨L, f1, n1, g⟩ := h.work_one ht
  obtain ⟨m', L', e1, f2, x1, g1⟩ := unload_eq h.ok ho f1 n1
  obtain ⟨c1, c2⟩ := g x1 f2
  exact ⟨m', e1, c1, g1, c2⟩

/-- **C89.**  Loading is defined if the engine exists apart from the term.  An accepted formula replaces the tree, the old one is deleted, and nothing is lost.  A
rejected formula keeps the old tree, as it was, and sets the engine; it loses what was made for it. -/
theorem function_load_partial (F : ElementFactory S) (formula : Str) (engine : Option Ptr) {o : Obj} (h : Clean m roots lost) (ht : Reach m roots t) (ho : m.get t = some o)
    (he : ∀ e, engine = some e → Reach m roots e ∧ ¬ Reach m [t] e ∧ ∀ oe, m.get e = some oe → ∀ v ∈ oe.a ++ oe.b, ¬ Reach m [t] v) :
    ∃ ok m' K, load (arities F) t engine (tokens F formula) m = some (ok, m') ∧ Clean m' roots (K ++ lost) ∧
      (∀ q o, m.get q = some o → ¬ Reach m [t] q → m'.get q = some o) ∧
      (ok = true → K = [] ∧ ∃ n p, Formula.parse F formula = .ok n ∧ m'.get t = some { o with a := [p], refs := engine.toList } ∧ IsTree F m' n p) ∧
      (ok = false → (∃ err, Formula.parse F formula = .error err) ∧ m'.get t = some { o with refs := engine.toList } ∧
        (∀ q x, q ≠ t → m.get q = some x → m'.get q = some x) ∧
        ∃ pre rest stack, (tokens F formula).getD [] = pre ++ rest ∧ K.length = (pre.map (cost (arities F))).sum ∧ (∀ q, q ∈ K ↔ Reach m' stack q) ∧
          ((rest = [] ∧ stack.length ≠ 1) ∨ tokens F formula = none ∨ ∃ t ts' k, rest = t :: ts' ∧ arities F t = some k ∧ stack.length < k)) := by
  obtain ⟨L, f1, n1, g⟩ := h.work_one ht
  obtain ⟨m1, ok1, h1⟩ := load_eq (proper_arities F) engine (tokens F formula) h.ok ho f1 n1 fun e hee => by
    obtain ⟨i1, i2, i3⟩ := he e hee
    obtain ⟨Le, fe, -⟩ := h.forest i1
    obtain ⟨oe, hoe⟩ := fe.get (fe.roots e (by simp))
    refine ⟨oe, hoe, fun hc => i2 (f1.mem_iff.1 hc), fun v hv => ⟨fun hc => i3 oe hoe v hv (f1.mem_iff.1 hc), ?_⟩⟩
    refine fe.get (fe.children (fe.roots e (by simp)) (own_eq hoe) ?_)
    simp only [Obj.owned, List.mem_append] at hv ⊢
    tauto
  have same := parse_refines F formula ok1
  rcases h1 with ⟨p, m2, m', L', e1, e2, f2, x2, g2, k2⟩ | ⟨m', K, stack, e1, e2, f2, x2, g2, k2, f3, pre, rest, i1, i2, i3⟩
  · obtain ⟨c1, c2⟩ := g x2 f2
    refine ⟨true, m', [], e2, c1, c2, fun _ => ⟨rfl, ?_⟩, fun hc => by cases hc⟩
    rcases same with ⟨err, m3, -, j2⟩ | ⟨n, p', m3, j1, j2, j3⟩
    · rw [e1] at j2
      cases j2
    · rw [e1] at j2
      cases j2
      exact ⟨n, p, j1, g2, j3.congr k2⟩
  · obtain ⟨c1, c2⟩ := g x2 f2
    refine ⟨false, m', K, e2, c1, c2, (fun hc => by cases hc), fun _ => ⟨?_, g2, fun q x hq hx => k2 q hq x hx, pre, rest, stack, i1, i2, fun q => f3.mem_iff, i3⟩⟩
    rcases same with ⟨err, m3, j1, -⟩ | ⟨n, p', m3, -, j2, -⟩
    · exact ⟨err, j1⟩
    · rw [e1] at j2
      cases j2

/-- **C89.**  A copy is a new object with its own tree, which is the same tree, and with the engine of the original. -/
theorem function_copy {o : Obj} (h : Clean m roots lost) (hp : Reach m roots p) (ho : m.get p = some o) :
    ∃ q m' a, copy p m = some (q, m') ∧ Clean m' (q :: roots) lost ∧ (∀ x o, m.get x = some o → m'.get x = some o) ∧ m.get q = none ∧
      m'.get q = some { cls := o.cls, text := o.text, a := a, refs := o.refs } ∧ (o.a = [] → a = []) ∧
      ∀ (F : ElementFactory S) n r, o.a = [r] → IsTree F m n r → ∃ r', a = [r'] ∧ IsTree F m' n r' := by
  obtain ⟨L, f1, n1⟩ := h.forest hp
  obtain ⟨q, m', L', a, e1, f2, x1, g1, m1, e2, w⟩ := copy_eq h.ok ho f1 n1
  obtain ⟨c1, c2⟩ := h.more x1 f2
  refine ⟨q, m', a, e1, c1, c2, ?_, g1, fun hc => ?_, fun F n r hr hT => ?_⟩
  · rcases x1.new q (Or.inl (f2.roots q (by simp))) with hc | hc
    · simp at hc
    · exact h.ok q hc
  · rw [hc] at e2
    exact (each_none e2).1
  · obtain ⟨r', h1, h2⟩ := cloneNodes_tree h.ok hr hT e2
    exact ⟨r', h1, h2.mono w⟩

/-- **C89.**  An assignment deletes the old tree and gives the term a copy of the other one. -/
theorem function_assign {o q : Obj} (h : Clean m roots lost) (ht : Reach m roots t) (hp : Reach m roots p) (ho : m.get t = some o) (hq : m.get p = some q)
    (hd : ∀ x, Reach m [p] x → ¬ Reach m [t] x) :
    ∃ m' a, assign t p m = some ((), m') ∧ Clean m' roots lost ∧ (∀ x o, m.get x = some o → ¬ Reach m [t] x → m'.get x = some o) ∧
      m'.get t = some { o with text := q.text, a := a, refs := q.refs } ∧ (q.a = [] → a = []) ∧
      ∀ (F : ElementFactory S) n r, q.a = [r] → IsTree F m n r → ∃ r', a = [r'] ∧ IsTree F m' n r' := by
  obtain ⟨Lp, fp, np⟩ := h.forest hp
  obtain ⟨L, f1, n1, g⟩ := h.work_one ht
  obtain ⟨m', L', a, e1, f2, x1, g1, m2, m3, ok2, k2, e2, k3⟩ := assign_eq h.ok ho hq f1 n1 fp np fun x hx hc => hd x (fp.mem_iff.1 hx) (f1.mem_iff.1 hc)
  obtain ⟨c1, c2⟩ := g x1 f2
  refine ⟨m', a, e1, c1, c2, g1, fun hc => ?_, fun F n r hr hT => ?_⟩
  · rw [hc] at e2
    exact (each_none e2).1
  · have up : Reach m [p] r := .part (.root (by simp)) hq (by simp [Obj.owned, hr])
    have hT2 : IsTree F m2 n r := hT.congr fun y hy => k2 y (fp.mem_iff.2 (hy.mono (by simpa using up)))
    obtain ⟨r', h1, h2⟩ := cloneNodes_tree ok2 hr hT2 e2
    subst h1
    exact ⟨r', rfl, h2.congr k3⟩

/-- **C89.**  An assignment to itself does nothing. -/
theorem function_assign_self (m : Mem) (p : Ptr) : assign p p m = some ((), m) := by
  simp [assign, pure, StateT.pure]

/-- **C89.**  The membership of a term reads its engine and the variables of the engine, if it has one: it is defined exactly if these exist. -/
theorem visit_defined {o : Obj} (ho : m.get t = some o) :
    (o.refs = [] → visit t m = some ((), m)) ∧
    ∀ e, o.refs = [e] →
      ((∃ oe, m.get e = some oe ∧ ∀ v ∈ oe.a ++ oe.b, ∃ ov, m.get v = some ov) → visit t m = some ((), m)) ∧
      ((m.get e = none ∨ ∃ oe, m.get e = some oe ∧ ∃ v ∈ oe.a ++ oe.b, m.get v = none) → visit t m = none) := by
  refine ⟨fun hr => visit_eq (engine := none) ho hr (by simp), fun e hr => ⟨fun h => visit_eq (engine := some e) ho hr (by rintro _ ⟨⟩; exact h), fun h => ?_⟩⟩
  cases hv : visit t m with
  | none => rfl
  | some r =>
    obtain ⟨oe, h1, h2⟩ := visit_inv ho hr (m' := r.2) hv
    rcases h with h | ⟨oe', h3, v, h4, h5⟩
    · rw [h] at h1
      cases h1
    · rw [h3] at h1
      cases h1
      obtain ⟨ov, h6⟩ := h2 v h4
      rw [h5] at h6
      cases h6

/-- **C89.**  Loading an accepted formula with an engine that was deleted is undefined. -/
theorem load_dangling {formula : Str} {n : Node S} {o : Obj} {e : Ptr} (h : Clean m roots lost) (ht : Reach m roots t) (ho : m.get t = some o)
    (hp : Formula.parse F formula = .ok n) (he : m.get e = none) (hl : e < m.next) : load (arities F) t (some e) (tokens F formula) m = none := by
  obtain ⟨L, f1, n1⟩ := h.forest ht
  obtain ⟨m1, ok1, h1⟩ := load_pre (proper_arities F) (some e) (tokens F formula) h.ok ho f1 n1
  rcases parse_refines F formula ok1 with ⟨err, m3, j1, -⟩ | ⟨n', p', m3, -, j2, -⟩
  · rw [hp] at j1
    cases j1
  rcases h1 with ⟨p, m2, m', L', e1, e2, f2, x2, g2, k2⟩ | ⟨m', K, stack, e1, -⟩
  · rw [e2]
    have hn : m'.get e = none := by
      have h1 : e ∉ L := fun hc => f1.live hc he
      have h2 : e ∉ L' := fun hc => by
        rcases x2.new e (Or.inl hc) with hc | hc
        · exact h1 hc
        · omega
      rw [x2.frame e h1 h2 (by simp), he]
    have hv := ((visit_defined g2).2 e rfl).2 (Or.inl hn)
    show (visit t m' >>= _) = none
    rw [hv]
    rfl
  · rw [e1] at j2
    cases j2

namespace Demo

abbrev G : ElementFactory (Ext ℚ) := defaultFactory

/-- an engine with an input variable, an output variable, and a term of the latter that is not loaded -/
def start : Mem :=
  ⟨[(5, { cls := .engine, text := cs! "e", a := [1], b := [4] }), (4, { cls := .output, text := cs! "y", a := [3], b := [2] }), (2, { cls := .aggregated }),
    (3, { cls := .linear, text := cs! "f", refs := [5] }), (1, { cls := .input, text := cs! "a", a := [0] }), (0, { cls := .term, text := cs! "low" })], 6⟩

theorem start_clean : Clean start [5] [] := by
  refine Own.Demo.clean_of_left ?_ rfl
  simp [start]

/-- what objects own, and their texts -/
def cells (m : Mem) : List (Ptr × List Ptr × Str) := m.cells.map fun c => (c.1, c.2.owned, c.2.text)

/-- the tree of a formula: six tokens, of which three are operators or functions, and nine objects -/
example : (parse (arities G) (tokens G (cs! "2 * a + sin ( x )")) Mem.empty).map (fun r => (r.1, cells r.2)) =
    some (some 8, [(8, [3, 6, 7], []), (7, [], cs! "+"), (6, [4, 5], []), (5, [], cs! "sin"), (4, [], cs! "x"), (3, [0, 1, 2], []), (2, [], cs! "*"), (1, [], cs! "a"),
      (0, [], cs! "2")]) := by decide +kernel

set_option synthInstance.maxSize 1000 in
/-- loading, loading another formula, copying, and the deletion of everything -/
example : ((do
      let x ← load (arities G) 3 (some 5) (tokens G (cs! "2 * a"))
      let y ← load (arities G) 3 (some 5) (tokens G (cs! "sin ( a )"))
      let q ← copy 3
      pure (x, y, q) : M _) start).map (fun r => (r.1, (r.2.get 3).map Obj.owned, (r.2.get r.1.2.2).map Obj.owned, Own.Demo.left [5] r.2, Own.Demo.left [5, r.1.2.2] r.2)) =
    some ((true, true, 16), some [12], some [15], some [16, 15, 14, 13], some []) := by decide +kernel

/-- a rejected formula keeps the tree, and its nodes are lost -/
example : ((do
      let x ← load (arities G) 3 (some 5) (tokens G (cs! "2 * a"))
      let y ← load (arities G) 3 none (tokens G (cs! "sin ( 1 ) +"))
      pure (x, y) : M _) start).map (fun r => (r.1, (r.2.get 3).map fun o => (o.a, o.refs), Own.Demo.left [5] r.2)) =
    some ((true, false), some ([9], []), some [12, 11, 10]) := by decide +kernel

set_option synthInstance.maxSize 1000 in
/-- assignment: the old tree is deleted -/
example : ((do
      let _ ← load (arities G) 3 (some 5) (tokens G (cs! "2 * a"))
      let q ← alloc { cls := .linear, text := cs! "g" }
      let _ ← load (arities G) q none (tokens G (cs! "1"))
      assign q 3
      unload 3
      pure q : M _) start).map (fun r => ((r.2.get 3).map Obj.owned, (r.2.get r.1).map fun o => (o.text, o.owned, o.refs), Own.Demo.left [5] r.2, Own.Demo.left [5, r.1] r.2)) =
    some (some [], some (cs! "f", [15], [5]), some [10, 15, 14, 13, 12], some []) := by decide +kernel

/-- the hypothesis about the engine holds: the term of the engine owns neither the engine nor its variables -/
example : ∀ e, some 5 = some e → Reach start [5] e ∧ ¬ Reach start [3] e ∧ ∀ oe, start.get e = some oe → ∀ v ∈ oe.a ++ oe.b, ¬ Reach start [3] v := by
  have f : Forest start.own [3] [3] := .cons (L1 := []) rfl .nil .nil
  have no : ∀ v, v ≠ 3 → ¬ Reach start [3] v := fun v hv hc => hv (by simpa using f.mem_iff.2 hc)
  rintro _ ⟨⟩
  refine ⟨.root (by simp), no 5 (by decide), ?_⟩
  rintro oe ⟨⟩ v hv
  refine no v ?_
  rintro rfl
  revert hv
  decide

end Demo

/-! ### Violations -/

/-- A formula that is rejected loses objects. -/
theorem leak_violated : ∃ (formula : Str) (m' : Mem), Clean Mem.empty [] [] ∧
    parse (arities Demo.G) (tokens Demo.G formula) Mem.empty = some (none, m') ∧ ¬ Clean m' [] [] := by
  refine ⟨cs! "2 3", ⟨[(1, { cls := .operator, text := cs! "3" }), (0, { cls := .operator, text := cs! "2" })], 2⟩,
    Own.Demo.clean_of_left (by simp [Mem.empty]) rfl, by decide +kernel, ?_⟩
  rintro ⟨-, L, hf, -, h⟩
  cases hf
  have := (h 0).1 ⟨_, rfl⟩
  simp at this

/-- The copy of a term keeps the engine of the original: after the deletion of the engine, loading the copy again is undefined. -/
theorem dangling_violated : ∃ (m : Mem) (t e : Ptr), Clean m [e] [] ∧ Reach m [e] t ∧ ((do
    let q ← copy t
    delete [e]
    let o ← read q
    load (arities Demo.G) q o.refs.head? (tokens Demo.G (cs! "1")) : M Bool) m) = none :=
  ⟨Demo.start, 3, 5, Demo.start_clean, .part (p := 4) (.part (p := 5) (.root (by simp)) rfl (by decide)) rfl (by decide), by decide +kernel⟩

/-- An element may have no operands (the constructor of src/term/Function.cpp:35-43): its node takes the top of an empty stack. -/
theorem nullary_violated : ∃ (A : Elements) (token : Str), A token = some 0 ∧ parse A (some [token]) Mem.empty = none :=
  ⟨fun t => if t = cs! "pi" then some 0 else none, cs! "pi", rfl, by decide +kernel⟩

end FL.Own.Function
