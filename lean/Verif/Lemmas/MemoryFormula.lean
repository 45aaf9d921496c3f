/-
Lemmas about the trees of formulas in memory.
-/
import Verif.Lemmas.MemoryClean
import Verif.Model.MemoryFormula
import Mathlib.Data.List.Perm.Subperm

namespace FL.Own

local notation "Ptr" => Nat

variable {m m1 m2 m' : Mem} {L L1 L2 L' K K1 K2 : List Ptr}

local macro "perm" : tactic => `(tactic| (refine List.perm_iff_count.2 fun a => ?_; simp only [List.count_append, List.count_cons, List.count_nil]; omega))

theorem Effect.grows (hm : m.Ok) (x : Effect m m' [] L' K) : Grows m m' := fun _ _ ho => x.get hm ho (by simp)

/-- objects that exist are at most as many as the cells -/
theorem length_le_cells (hn : L.Nodup) (hl : ∀ p ∈ L, m.get p ≠ none) : L.length ≤ m.cells.length := by
  have h1 : L ⊆ m.cells.map Prod.fst := by
    intro p hp
    have := hl p hp
    unfold Mem.get at this
    obtain ⟨o, ho⟩ := Option.ne_none_iff_exists'.1 this
    obtain ⟨l1, l2, h2, -⟩ := List.lookup_eq_some_iff.1 ho
    rw [h2]
    simp
  have := (hn.subperm h1).length_le
  simpa using this

namespace Function

variable {A : Elements} {t : Str}

/-- operators and functions have one or two operands -/
def Proper (A : Elements) : Prop := ∀ t k, A t = some k → k = 1 ∨ k = 2

theorem unary_step {r : Ptr} {rest : List Ptr} (ht : A t = some 1) (hm : m.Ok) :
    ∃ n x m', step A (r :: rest) t m = some (some (n :: rest), m') ∧ Effect m m' [] [x, n] [] ∧
      m'.get n = some { cls := .operator, b := [r], c := [x] } ∧ m'.get x = some { cls := .leaf, text := t } := by
  obtain ⟨m1, e1, x1, g1, k1, n1⟩ := alloc_eq m { cls := .leaf, text := t } hm
  obtain ⟨m2, e2, x2, g2, k2, n2⟩ := alloc_eq m1 { cls := .operator, c := [m.next] } x1.ok
  obtain ⟨m3, e3, x3, g3, k3, n3⟩ := modify_eq (fun o => { o with b := [r] }) x2.ok g2
  have hne : m.next ≠ m1.next := by omega
  have y2 := x1.seq hm x2
  have y3 := x3.extend x2.ok (X := [m.next]) (by
    intro p hp
    rw [List.mem_singleton] at hp
    rw [hp, k2 _ hne, g1]
    simp) (by simpa using hne) (by simp)
  refine ⟨m1.next, m.next, m3, ?_, by simpa using y2.trans hm y3, g3, ?_⟩
  · unfold step
    simp only [ht, List.length_cons]
    rw [if_neg (by omega), bind_eq e1, bind_eq e2, bind_eq e3]
    rfl
  · rw [k3 _ hne, k2 _ hne, g1]

theorem binary_step {r l : Ptr} {rest : List Ptr} (ht : A t = some 2) (hm : m.Ok) :
    ∃ n x m', step A (r :: l :: rest) t m = some (some (n :: rest), m') ∧ Effect m m' [] [x, n] [] ∧
      m'.get n = some { cls := .operator, a := [l], b := [r], c := [x] } ∧ m'.get x = some { cls := .leaf, text := t } := by
  obtain ⟨m1, e1, x1, g1, k1, n1⟩ := alloc_eq m { cls := .leaf, text := t } hm
  obtain ⟨m2, e2, x2, g2, k2, n2⟩ := alloc_eq m1 { cls := .operator, c := [m.next] } x1.ok
  obtain ⟨m3, e3, x3, g3, k3, n3⟩ := modify_eq (fun o => { o with b := [r] }) x2.ok g2
  obtain ⟨m4, e4, x4, g4, k4, n4⟩ := modify_eq (fun o => { o with a := [l] }) x3.ok g3
  have hne : m.next ≠ m1.next := by omega
  have y2 := x1.seq hm x2
  have y3 := (x3.trans x2.ok x4).extend x2.ok (X := [m.next]) (by
    intro p hp
    rw [List.mem_singleton] at hp
    rw [hp, k2 _ hne, g1]
    simp) (by simpa using hne) (by simp)
  refine ⟨m1.next, m.next, m4, ?_, by simpa using y2.trans hm y3, g4, ?_⟩
  · unfold step
    simp only [ht, List.length_cons]
    rw [if_neg (by omega), bind_eq e1, bind_eq e2, bind_eq e3, if_pos trivial]
    refine (bind_eq e4).trans ?_
    rfl
  · rw [k4 _ hne, k3 _ hne, k2 _ hne, g1]

theorem operand_step {stack : List Ptr} (ht : A t = none) (h : t ≠ cs! "(" ∧ t ≠ cs! ")" ∧ t ≠ cs! ",") (hm : m.Ok) :
    ∃ n m', step A stack t m = some (some (n :: stack), m') ∧ Effect m m' [] [n] [] ∧ m'.get n = some { cls := .operator, text := t } := by
  obtain ⟨m1, e1, x1, g1, -, -⟩ := alloc_eq m { cls := .operator, text := t } hm
  refine ⟨m.next, m1, ?_, x1, g1⟩
  unfold step
  simp only [ht]
  rw [if_pos h, bind_eq e1]
  rfl

theorem skip_step {stack : List Ptr} (ht : A t = none) (h : ¬ (t ≠ cs! "(" ∧ t ≠ cs! ")" ∧ t ≠ cs! ",")) : step A stack t m = some (some stack, m) := by
  unfold step
  simp only [ht]
  rw [if_neg h]
  rfl

theorem short_step {stack : List Ptr} {k : Nat} (ht : A t = some k) (h : stack.length < k) : step A stack t m = some (none, m) := by
  unfold step
  simp only [ht]
  rw [if_pos h]
  rfl

/-- the objects that a token makes: a node, and its element if the token is an operator or a function -/
def cost (A : Elements) (t : Str) : Nat :=
  match A t with
  | some _ => 2
  | none => if t ≠ cs! "(" ∧ t ≠ cs! ")" ∧ t ≠ cs! "," then 1 else 0

/-- new objects beside those of the stack -/
theorem beside (hm : m.Ok) {stack : List Ptr} (hf : Forest m.own stack L) (hn : L.Nodup) (x : Effect m m' [] L1 []) (h : L2.Perm (L ++ L1)) : Effect m m' L L2 [] := by
  have := x.extend hm (X := L) (fun p hp => hf.live hp) (by simp) hn
  exact this.congr (by simp) h

theorem step_eq (hA : Proper A) {stack : List Ptr} (t : Str) (hm : m.Ok) (hf : Forest m.own stack L) (hn : L.Nodup) :
    (∃ k, A t = some k ∧ stack.length < k ∧ step A stack t m = some (none, m)) ∨
    ∃ s' m' L', step A stack t m = some (some s', m') ∧ Effect m m' L L' [] ∧ Forest m'.own s' L' ∧ L'.length = L.length + cost A t ∧ Grows m m' ∧
      ∀ k, A t = some k → k ≤ stack.length := by
  cases ht : A t with
  | none =>
    right
    by_cases h : t ≠ cs! "(" ∧ t ≠ cs! ")" ∧ t ≠ cs! ","
    · obtain ⟨n, m', e1, x1, g1⟩ := operand_step (stack := stack) ht h hm
      refine ⟨_, m', n :: L, e1, beside hm hf hn x1 (by perm), ?_, by simp [cost, ht, h], x1.grows hm, by simp⟩
      exact (Forest.leaf g1).append (x1.forest hm hf (by simp))
    · exact ⟨stack, m, L, skip_step ht h, .refl hm hn fun p hp => hf.live hp, hf, by simp [cost, ht, h], .refl m, by simp⟩
  | some k =>
    rcases lt_or_ge stack.length k with h | h
    · exact Or.inl ⟨k, rfl, h, short_step ht h⟩
    right
    rcases hA t k ht with rfl | rfl
    · match stack, h, hf with
      | r :: rest, h, hf =>
        obtain ⟨Lr, Ls, rfl, fr, fs⟩ := Forest.split (ps := [r]) hf
        obtain ⟨n, x, m', e1, x1, g1, g2⟩ := unary_step (r := r) (rest := rest) ht hm
        refine ⟨_, m', (n :: (Lr ++ [x])) ++ Ls, e1, beside hm hf hn x1 (by perm), ?_, by simp [cost, ht]; omega, x1.grows hm, by rintro _ ⟨⟩; simp⟩
        refine Forest.append (ps := [n]) (.one (own_eq g1) ?_) (x1.forest hm fs (by simp))
        simpa [Obj.owned] using (x1.forest hm fr (by simp)).append (Forest.leaf g2)
    · match stack, h, hf with
      | r :: l :: rest, h, hf =>
        obtain ⟨Lr, Ls, rfl, fr, fs⟩ := Forest.split (ps := [r]) hf
        obtain ⟨Ll, Ls, rfl, fl, fs⟩ := Forest.split (ps := [l]) fs
        obtain ⟨n, x, m', e1, x1, g1, g2⟩ := binary_step (r := r) (l := l) (rest := rest) ht hm
        refine ⟨_, m', (n :: (Ll ++ Lr ++ [x])) ++ Ls, e1, beside hm hf hn x1 (by perm), ?_, by simp [cost, ht]; omega, x1.grows hm, by rintro _ ⟨⟩; simp⟩
        refine Forest.append (ps := [n]) (.one (own_eq g1) ?_) (x1.forest hm fs (by simp))
        simpa [Obj.owned] using ((x1.forest hm fl (by simp)).append (x1.forest hm fr (by simp))).append (Forest.leaf g2)

theorem run_eq (hA : Proper A) (ts : List Str) {stack : List Ptr} (hm : m.Ok) (hf : Forest m.own stack L) (hn : L.Nodup) :
    ∃ s' ok m' L' pre rest, run A stack ts m = some ((s', ok), m') ∧ Effect m m' L L' [] ∧ Forest m'.own s' L' ∧ Grows m m' ∧
      ts = pre ++ rest ∧ L'.length = L.length + (pre.map (cost A)).sum ∧ (ok = true ↔ rest = []) ∧
      (∀ t ts', rest = t :: ts' → ∃ k, A t = some k ∧ s'.length < k) := by
  induction ts generalizing m stack L with
  | nil => exact ⟨stack, true, m, L, [], [], rfl, .refl hm hn fun p hp => hf.live hp, hf, .refl m, rfl, by simp, by simp, by simp⟩
  | cons t ts ih =>
    rcases step_eq hA t hm hf hn with ⟨k, h1, h2, h3⟩ | ⟨s1, m1, L1, e1, x1, f1, l1, w1, -⟩
    · refine ⟨stack, false, m, L, [], t :: ts, ?_, .refl hm hn fun p hp => hf.live hp, hf, .refl m, rfl, by simp, by simp, ?_⟩
      · unfold run
        rw [bind_eq h3]
        rfl
      · rintro _ _ ⟨⟩
        exact ⟨k, h1, h2⟩
    · obtain ⟨s2, ok, m2, L2, pre, rest, e2, x2, f2, w2, rfl, l2, o2, r2⟩ := ih x1.ok f1 x1.nodupLeft
      refine ⟨s2, ok, m2, L2, t :: pre, rest, ?_, by simpa using x1.trans hm x2, f2, w1.trans w2, rfl, ?_, o2, r2⟩
      · unfold run
        rw [bind_eq e1]
        exact e2
      · rw [l2, l1]
        simp
        omega

/-- Parsing makes new objects.  They belong to the tree, or they are lost. -/
theorem parse_eq (hA : Proper A) (ts : Option (List Str)) (hm : m.Ok) :
    (∃ p m' L', parse A ts m = some (some p, m') ∧ Effect m m' [] L' [] ∧ Forest m'.own [p] L' ∧ ∃ l, ts = some l ∧ L'.length = (l.map (cost A)).sum) ∨
    ∃ m' K stack, parse A ts m = some (none, m') ∧ Effect m m' [] [] K ∧ Forest m'.own stack K ∧
      ∃ pre rest, ts.getD [] = pre ++ rest ∧ K.length = (pre.map (cost A)).sum ∧
        ((rest = [] ∧ stack.length ≠ 1) ∨ ts = none ∨ ∃ t ts' k, rest = t :: ts' ∧ A t = some k ∧ stack.length < k) := by
  cases ts with
  | none => exact Or.inr ⟨m, [], [], rfl, .refl hm (by simp) (by simp), .nil, [], [], by simp⟩
  | some l =>
    obtain ⟨s', ok, m', L', pre, rest, e1, x1, f1, w1, h1, h2, h3, h4⟩ := run_eq hA l hm (.nil : Forest m.own [] []) (by simp)
    have lose := x1.trans hm (Antecedent.lose x1.ok f1 x1.nodupLeft)
    by_cases c : ok = true ∧ s'.length = 1
    · obtain ⟨rfl, hs⟩ := c
      obtain ⟨p, rfl⟩ := List.length_eq_one_iff.1 hs
      obtain rfl := h3.1 rfl
      refine Or.inl ⟨p, m', L', ?_, x1, f1, l, rfl, ?_⟩
      · unfold parse
        refine (bind_eq e1).trans ?_
        rfl
      · rw [h2, h1]
        simp
    · refine Or.inr ⟨m', L', s', ?_, by simpa using lose, f1, pre, rest, h1, by simpa using h2, ?_⟩
      · unfold parse
        refine (bind_eq e1).trans ?_
        rcases s' with _ | ⟨n, _ | ⟨k, s⟩⟩ <;> cases ok <;> first | rfl | simp at c
      · cases rest with
        | nil => exact Or.inl ⟨rfl, fun hs => c ⟨h3.2 rfl, hs⟩⟩
        | cons t ts' =>
          obtain ⟨k, h5, h6⟩ := h4 t ts' rfl
          exact Or.inr (Or.inr ⟨t, ts', k, rfl, h5, h6⟩)

/-! ### Trees -/

variable {S : Type} [ScalarText S] {F : ElementFactory S}

/-- the tree of a formula at an address -/
inductive IsTree (F : ElementFactory S) (m : Mem) : Node S → Ptr → Prop
  | const {t : Str} {v : S} {p : Ptr} : F t = none → ScalarText.ofText t = some v → m.get p = some { cls := .operator, text := t } → IsTree F m (.const v) p
  | var {t : Str} {p : Ptr} : F t = none → ScalarText.ofText (S := S) t = none → m.get p = some { cls := .operator, text := t } → IsTree F m (.var t) p
  | un {t : Str} {e : Element S} {f : S → S} {r : Node S} {p q x : Ptr} : F t = some e → e.fn = .unary f →
      m.get p = some { cls := .operator, b := [q], c := [x] } → m.get x = some { cls := .leaf, text := t } → IsTree F m r q → IsTree F m (.un e f r) p
  | bin {t : Str} {e : Element S} {f : S → S → S} {l r : Node S} {p q q' x : Ptr} : F t = some e → e.fn = .binary f →
      m.get p = some { cls := .operator, a := [q], b := [q'], c := [x] } → m.get x = some { cls := .leaf, text := t } → IsTree F m l q → IsTree F m r q' →
      IsTree F m (.bin e f l r) p

theorem IsTree.congr {n : Node S} {p : Ptr} (h : IsTree F m n p) (hg : ∀ q, Reach m [p] q → m'.get q = m.get q) : IsTree F m' n p := by
  induction h with
  | const h1 h2 h3 => exact .const h1 h2 ((hg _ (.root (by simp))).trans h3)
  | var h1 h2 h3 => exact .var h1 h2 ((hg _ (.root (by simp))).trans h3)
  | @un t e f r p q x h1 h2 h3 h4 _ ih =>
    have up : ∀ y ∈ [q, x], Reach m [p] y := fun y hy => .part (.root (by simp)) h3 (by simpa [Obj.owned] using hy)
    exact .un h1 h2 ((hg _ (.root (by simp))).trans h3) ((hg _ (up x (by simp))).trans h4) (ih fun y hy => hg y (hy.mono (by simpa using up q (by simp))))
  | @bin t e f l r p q q' x h1 h2 h3 h4 _ _ ih1 ih2 =>
    have up : ∀ y ∈ [q, q', x], Reach m [p] y := fun y hy => .part (.root (by simp)) h3 (by simpa [Obj.owned] using hy)
    exact .bin h1 h2 ((hg _ (.root (by simp))).trans h3) ((hg _ (up x (by simp))).trans h4) (ih1 fun y hy => hg y (hy.mono (by simpa using up q (by simp))))
      (ih2 fun y hy => hg y (hy.mono (by simpa using up q' (by simp))))

theorem IsTree.mono {n : Node S} {p : Ptr} (h : IsTree F m n p) (hg : Grows m m') : IsTree F m' n p := by
  induction h with
  | const h1 h2 h3 => exact .const h1 h2 (hg _ _ h3)
  | var h1 h2 h3 => exact .var h1 h2 (hg _ _ h3)
  | un h1 h2 h3 h4 _ ih => exact .un h1 h2 (hg _ _ h3) (hg _ _ h4) ih
  | bin h1 h2 h3 h4 _ _ ih1 ih2 => exact .bin h1 h2 (hg _ _ h3) (hg _ _ h4) ih1 ih2

/-- an address has one tree -/
theorem IsTree.unique {n n' : Node S} {p : Ptr} (h : IsTree F m n p) (h' : IsTree F m n' p) : n = n' := by
  induction h generalizing n' with
  | const h1 h2 h3 =>
    cases h' with
    | const k1 k2 k3 => rw [h3] at k3; cases k3; rw [h2] at k2; cases k2; rfl
    | var k1 k2 k3 => rw [h3] at k3; cases k3; rw [h2] at k2; cases k2
    | un _ _ k3 => rw [h3] at k3; cases k3
    | bin _ _ k3 => rw [h3] at k3; cases k3
  | var h1 h2 h3 =>
    cases h' with
    | const k1 k2 k3 => rw [h3] at k3; cases k3; rw [h2] at k2; cases k2
    | var k1 k2 k3 => rw [h3] at k3; cases k3; rfl
    | un _ _ k3 => rw [h3] at k3; cases k3
    | bin _ _ k3 => rw [h3] at k3; cases k3
  | un h1 h2 h3 h4 _ ih =>
    cases h' with
    | const _ _ k3 => rw [h3] at k3; cases k3
    | var _ _ k3 => rw [h3] at k3; cases k3
    | un k1 k2 k3 k4 k5 =>
      rw [h3] at k3; cases k3; rw [h4] at k4; cases k4; rw [h1] at k1; cases k1; rw [h2] at k2; cases k2
      rw [ih k5]
    | bin _ _ k3 => rw [h3] at k3; cases k3
  | bin h1 h2 h3 h4 _ _ ih1 ih2 =>
    cases h' with
    | const _ _ k3 => rw [h3] at k3; cases k3
    | var _ _ k3 => rw [h3] at k3; cases k3
    | un _ _ k3 => rw [h3] at k3; cases k3
    | bin k1 k2 k3 k4 k5 k6 =>
      rw [h3] at k3; cases k3; rw [h4] at k4; cases k4; rw [h1] at k1; cases k1; rw [h2] at k2; cases k2
      rw [ih1 k5, ih2 k6]

omit [ScalarText S] in
theorem proper_arities (F : ElementFactory S) : Proper (arities F) := by
  intro t k h
  unfold arities at h
  cases hF : F t with
  | none => simp [hF] at h
  | some e =>
    rw [hF] at h
    simp only [Option.map_some, Option.some.injEq] at h
    split at h <;> simp [← h]

/-- one token, in memory and by values -/
theorem step_value {stack : List Ptr} {ns : List (Node S)} (t : Str) (hm : m.Ok) (h : List.Forall₂ (IsTree F m) ns stack) :
    (∃ err, Formula.buildStep F ns t = .error err ∧ step (arities F) stack t m = some (none, m)) ∨
    ∃ ns' s' m', Formula.buildStep F ns t = .ok ns' ∧ step (arities F) stack t m = some (some s', m') ∧ m'.Ok ∧ List.Forall₂ (IsTree F m') ns' s' := by
  cases hF : F t with
  | none =>
    have ht : arities F t = none := by simp [arities, hF]
    right
    by_cases hp : t ≠ cs! "(" ∧ t ≠ cs! ")" ∧ t ≠ cs! ","
    · obtain ⟨n, m', e1, x1, g1⟩ := operand_step (stack := stack) ht hp hm
      have h' : List.Forall₂ (IsTree F m') ns stack := h.imp fun _ _ k => k.mono (x1.grows hm)
      cases hv : ScalarText.ofText (S := S) t with
      | some v => exact ⟨.const v :: ns, _, m', by simp [Formula.buildStep, hF, hv, hp], e1, x1.ok, .cons (.const hF hv g1) h'⟩
      | none => exact ⟨.var t :: ns, _, m', by simp [Formula.buildStep, hF, hv, hp], e1, x1.ok, .cons (.var hF hv g1) h'⟩
    · refine ⟨ns, stack, m, ?_, skip_step ht hp, hm, h⟩
      have : (t != cs! "(" && t != cs! ")" && t != cs! ",") = false := by
        rw [← Bool.not_eq_true]
        simpa [and_assoc] using hp
      simp [Formula.buildStep, hF, this]
  | some e =>
    cases hfn : e.fn with
    | unary f =>
      have ht : arities F t = some 1 := by simp [arities, hF, hfn]
      cases h with
      | nil => exact Or.inl ⟨.syntaxError, by simp [Formula.buildStep, hF, hfn], short_step ht (by simp)⟩
      | @cons n p ns ps h1 h2 =>
        obtain ⟨q, x, m', e1, x1, g1, g2⟩ := unary_step (r := p) (rest := ps) ht hm
        exact Or.inr ⟨.un e f n :: ns, _, m', by simp [Formula.buildStep, hF, hfn], e1, x1.ok,
          .cons (.un hF hfn g1 g2 (h1.mono (x1.grows hm))) (h2.imp fun _ _ k => k.mono (x1.grows hm))⟩
    | binary f =>
      have ht : arities F t = some 2 := by simp [arities, hF, hfn]
      cases h with
      | nil => exact Or.inl ⟨.syntaxError, by simp [Formula.buildStep, hF, hfn], short_step ht (by simp)⟩
      | @cons n p ns ps h1 h2 =>
        cases h2 with
        | nil => exact Or.inl ⟨.syntaxError, by simp [Formula.buildStep, hF, hfn], short_step ht (by simp)⟩
        | @cons n' p' ns ps h2 h3 =>
          obtain ⟨q, x, m', e1, x1, g1, g2⟩ := binary_step (r := p) (l := p') (rest := ps) ht hm
          exact Or.inr ⟨.bin e f n' n :: ns, _, m', by simp [Formula.buildStep, hF, hfn], e1, x1.ok,
            .cons (.bin hF hfn g1 g2 (h2.mono (x1.grows hm)) (h1.mono (x1.grows hm))) (h3.imp fun _ _ k => k.mono (x1.grows hm))⟩

theorem run_value (ts : List Str) {stack : List Ptr} {ns : List (Node S)} (hm : m.Ok) (h : List.Forall₂ (IsTree F m) ns stack) :
    (∃ err s' m', ts.foldlM (Formula.buildStep F) ns = .error err ∧ run (arities F) stack ts m = some ((s', false), m')) ∨
    ∃ ns' s' m', ts.foldlM (Formula.buildStep F) ns = .ok ns' ∧ run (arities F) stack ts m = some ((s', true), m') ∧ List.Forall₂ (IsTree F m') ns' s' := by
  induction ts generalizing m stack ns with
  | nil => exact Or.inr ⟨ns, stack, m, rfl, rfl, h⟩
  | cons t ts ih =>
    rcases step_value t hm h with ⟨err, h1, h2⟩ | ⟨ns', s', m', h1, h2, h3, h4⟩
    · refine Or.inl ⟨err, stack, m, ?_, ?_⟩
      · rw [List.foldlM_cons, h1]
        rfl
      · unfold run
        rw [bind_eq h2]
        rfl
    · have e1 : (t :: ts).foldlM (Formula.buildStep F) ns = ts.foldlM (Formula.buildStep F) ns' := by
        rw [List.foldlM_cons, h1]
        rfl
      have e2 : run (arities F) stack (t :: ts) m = run (arities F) s' ts m' := by
        conv_lhs => unfold run
        rw [bind_eq h2]
      rw [e1, e2]
      exact ih h3 h4

/-- parsing in memory and by values -/
theorem parse_refines (F : ElementFactory S) (formula : Str) (hm : m.Ok) :
    (∃ err m', Formula.parse F formula = .error err ∧ parse (arities F) (tokens F formula) m = some (none, m')) ∨
    ∃ n p m', Formula.parse F formula = .ok n ∧ parse (arities F) (tokens F formula) m = some (some p, m') ∧ IsTree F m' n p := by
  unfold Formula.parse tokens
  by_cases he : formula.isEmpty = true
  · rw [if_pos he, if_pos he]
    exact Or.inl ⟨_, m, rfl, rfl⟩
  rw [if_neg he, if_neg he]
  cases hp : Formula.toPostfix F formula with
  | error e => exact Or.inl ⟨e, m, rfl, rfl⟩
  | ok text =>
    rcases run_value (Op.words text) hm (.nil : List.Forall₂ (IsTree F m) [] []) with ⟨err, s', m', h1, h2⟩ | ⟨ns', s', m', h1, h2, h3⟩
    · refine Or.inl ⟨err, m', ?_, ?_⟩
      · show (((Op.words text).foldlM (Formula.buildStep F) []) >>= _) = _
        rw [h1]
        rfl
      · show (run (arities F) [] (Op.words text) >>= _) m = _
        rw [bind_eq h2]
        rcases s' with _ | ⟨n, _ | ⟨k, s⟩⟩ <;> rfl
    · have e1 : ∀ g : List (Node S) → Except Err (Node S), (((Op.words text).foldlM (Formula.buildStep F) []) >>= g) = g ns' := by
        intro g
        rw [h1]
        rfl
      match ns', s', h3 with
      | [], _, .nil => exact Or.inl ⟨.syntaxError, m', e1 _, (bind_eq h2).trans rfl⟩
      | [n], [p], .cons k .nil => exact Or.inr ⟨n, p, m', e1 _, (bind_eq h2).trans rfl, k⟩
      | _ :: _ :: _, _, .cons _ (.cons _ _) => exact Or.inl ⟨.syntaxError, m', e1 _, (bind_eq h2).trans rfl⟩

/-! ### Copies -/

theorem cloneN_eq (k : Nat) {p : Ptr} (hm : m.Ok) (hf : Forest m.own [p] L) (hk : L.length ≤ k) :
    ∃ q m' L', cloneN k p m = some (q, m') ∧ Forest m'.own [q] L' ∧ Effect m m' [] L' [] := by
  induction k generalizing m p L with
  | zero =>
    obtain ⟨os, L1, -, rfl, -⟩ := hf.one_inv
    simp at hk
  | succ k ih =>
    have many : ∀ (ps : List Ptr) {m : Mem} {L : List Ptr}, m.Ok → Forest m.own ps L → L.length ≤ k →
        ∃ qs m' L', each (cloneN k) ps m = some (qs, m') ∧ Forest m'.own qs L' ∧ Effect m m' [] L' [] := by
      intro ps
      induction ps with
      | nil =>
        intro m L hm hf _
        exact ⟨[], m, [], rfl, .nil, .refl hm (by simp) (by simp)⟩
      | cons p ps ihp =>
        intro m L hm hf hk
        obtain ⟨Lp, Ls, rfl, h1, h2⟩ := Forest.split (ps := [p]) hf
        rw [List.length_append] at hk
        obtain ⟨q, m1, L1, e1, f1, x1⟩ := ih hm h1 (by omega)
        obtain ⟨qs, m2, L2, e2, f2, x2⟩ := ihp x1.ok (x1.forest hm h2 (by simp)) (by omega)
        refine ⟨q :: qs, m2, L1 ++ L2, ?_, (x2.forest x1.ok f1 (by simp)).append f2, x1.seq hm x2⟩
        unfold each
        rw [bind_eq e1, bind_eq e2, pure_eq]
    obtain ⟨o, La, Lb, Lc, Ld, Le, ho, rfl, ha, hb, hc, -, -⟩ := hf.parts
    simp only [List.length_cons, List.length_append] at hk
    obtain ⟨c, m1, e1, f1, x1, -⟩ := clones_eq hm hc
    obtain ⟨a, m2, L2, e2, f2, x2⟩ := many o.a x1.ok (x1.forest hm ha (by simp)) (by omega)
    have x12 := x1.seq hm x2
    obtain ⟨b, m3, L3, e3, f3, x3⟩ := many o.b x2.ok (x12.forest hm hb (by simp)) (by omega)
    have x13 := x12.seq hm x3
    have f1' := x3.forest x2.ok (x2.forest x1.ok f1 (by simp)) (by simp)
    have f2' := x3.forest x2.ok f2 (by simp)
    obtain ⟨m4, L4, e4, f4, x4, -⟩ := alloc_owner hm (m := m3) (La := L2) (Lb := L3) (Lc := c) (Ld := []) (Le := [])
      { cls := o.cls, text := o.text, a := a, b := b, c := c } (x13.congr (by simp) (by perm)) f2' f3 f1' .nil .nil
    refine ⟨m3.next, m4, L4, ?_, f4, x4⟩
    unfold cloneN
    rw [bind_eq (read_eq ho), bind_eq e1, bind_eq e2, bind_eq e3, e4]

theorem cloneNode_eq {p : Ptr} (hm : m.Ok) (hf : Forest m.own [p] L) (hn : L.Nodup) :
    ∃ q m' L', cloneNode p m = some (q, m') ∧ Forest m'.own [q] L' ∧ Effect m m' [] L' [] :=
  cloneN_eq _ hm hf (length_le_cells hn fun _ hp => hf.live hp)

theorem cloneNodes_eq {ps : List Ptr} (hm : m.Ok) (hf : Forest m.own ps L) (hn : L.Nodup) :
    ∃ qs m' L', each cloneNode ps m = some (qs, m') ∧ Forest m'.own qs L' ∧ Effect m m' [] L' [] := by
  induction ps generalizing m L with
  | nil => exact ⟨[], m, [], rfl, .nil, .refl hm (by simp) (by simp)⟩
  | cons p ps ih =>
    obtain ⟨Lp, Ls, rfl, h1, h2⟩ := Forest.split (ps := [p]) hf
    have n := List.nodup_append'.1 hn
    obtain ⟨q, m1, L1, e1, f1, x1⟩ := cloneNode_eq hm h1 n.1
    obtain ⟨qs, m2, L2, e2, f2, x2⟩ := ih x1.ok (x1.forest hm h2 (by simp)) n.2.1
    refine ⟨q :: qs, m2, L1 ++ L2, ?_, (x2.forest x1.ok f1 (by simp)).append f2, x1.seq hm x2⟩
    unfold each
    rw [bind_eq e1, bind_eq e2, pure_eq]

theorem each_one {α : Type} {f : Ptr → M α} {p : Ptr} {ys : List α} (h : each f [p] m = some (ys, m')) : ∃ y, ys = [y] ∧ f p m = some (y, m') := by
  unfold each at h
  obtain ⟨y, m1, h1, h2⟩ := bind_some h
  obtain ⟨zs, m2, h3, h4⟩ := bind_some h2
  obtain ⟨rfl, rfl⟩ := pure_some (x := ([] : List α)) h3
  obtain ⟨rfl, rfl⟩ := pure_some h4
  exact ⟨y, rfl, h1⟩

theorem each_none {α : Type} {f : Ptr → M α} {ys : List α} (h : each f [] m = some (ys, m')) : ys = [] ∧ m' = m := by
  obtain ⟨rfl, rfl⟩ := pure_some (x := ([] : List α)) h
  exact ⟨rfl, rfl⟩

/-- the clone of a tree is the same tree -/
theorem cloneN_tree {n : Node S} {p : Ptr} (h : IsTree F m n p) {m0 : Mem} (hm : m0.Ok) (hg : Grows m m0) {k : Nat} {q : Ptr} (hc : cloneN k p m0 = some (q, m')) :
    Grows m0 m' ∧ m'.Ok ∧ IsTree F m' n q := by
  induction h generalizing m0 m' k q with
  | const h1 h2 h3 =>
    cases k with
    | zero => cases hc
    | succ k =>
      unfold cloneN at hc
      obtain ⟨o, _, i1, hc1⟩ := bind_some hc
      obtain ⟨j0, rfl⟩ := read_some i1
      rw [hg _ _ h3] at j0
      cases j0
      obtain ⟨c, _, i2, hc2⟩ := bind_some hc1
      obtain ⟨rfl, rfl⟩ := each_none i2
      obtain ⟨a, _, i3, hc3⟩ := bind_some hc2
      obtain ⟨rfl, rfl⟩ := each_none i3
      obtain ⟨b, _, i4, hc4⟩ := bind_some hc3
      obtain ⟨rfl, rfl⟩ := each_none i4
      obtain ⟨j1, j2, j3⟩ := alloc_some hm hc4
      exact ⟨j1, j3, .const h1 h2 j2⟩
  | var h1 h2 h3 =>
    cases k with
    | zero => cases hc
    | succ k =>
      unfold cloneN at hc
      obtain ⟨o, _, i1, hc1⟩ := bind_some hc
      obtain ⟨j0, rfl⟩ := read_some i1
      rw [hg _ _ h3] at j0
      cases j0
      obtain ⟨c, _, i2, hc2⟩ := bind_some hc1
      obtain ⟨rfl, rfl⟩ := each_none i2
      obtain ⟨a, _, i3, hc3⟩ := bind_some hc2
      obtain ⟨rfl, rfl⟩ := each_none i3
      obtain ⟨b, _, i4, hc4⟩ := bind_some hc3
      obtain ⟨rfl, rfl⟩ := each_none i4
      obtain ⟨j1, j2, j3⟩ := alloc_some hm hc4
      exact ⟨j1, j3, .var h1 h2 j2⟩
  | un h1 h2 h3 h4 _ ih =>
    cases k with
    | zero => cases hc
    | succ k =>
      unfold cloneN at hc
      obtain ⟨o, _, i1, hc1⟩ := bind_some hc
      obtain ⟨j0, rfl⟩ := read_some i1
      rw [hg _ _ h3] at j0
      cases j0
      obtain ⟨c, m1, i2, hc2⟩ := bind_some hc1
      obtain ⟨x', rfl, k2⟩ := each_one i2
      obtain ⟨g1, ⟨ox, y1, y2⟩, ok1⟩ := clone_alike hm k2
      rw [g1 _ _ (hg _ _ h4)] at y1
      cases y1
      obtain ⟨a, _, i3, hc3⟩ := bind_some hc2
      obtain ⟨rfl, rfl⟩ := each_none i3
      obtain ⟨b, m2, i4, hc4⟩ := bind_some hc3
      obtain ⟨q', rfl, k4⟩ := each_one i4
      obtain ⟨g2, ok2, t2⟩ := ih ok1 (hg.trans g1) k4
      obtain ⟨j1, j2, j3⟩ := alloc_some ok2 hc4
      exact ⟨(g1.trans g2).trans j1, j3, .un h1 h2 j2 (j1 _ _ (g2 _ _ y2)) (t2.mono j1)⟩
  | bin h1 h2 h3 h4 _ _ ih1 ih2 =>
    cases k with
    | zero => cases hc
    | succ k =>
      unfold cloneN at hc
      obtain ⟨o, _, i1, hc1⟩ := bind_some hc
      obtain ⟨j0, rfl⟩ := read_some i1
      rw [hg _ _ h3] at j0
      cases j0
      obtain ⟨c, m1, i2, hc2⟩ := bind_some hc1
      obtain ⟨x', rfl, k2⟩ := each_one i2
      obtain ⟨g1, ⟨ox, y1, y2⟩, ok1⟩ := clone_alike hm k2
      rw [g1 _ _ (hg _ _ h4)] at y1
      cases y1
      obtain ⟨a, m2, i3, hc3⟩ := bind_some hc2
      obtain ⟨q1, rfl, k3⟩ := each_one i3
      obtain ⟨g2, ok2, t2⟩ := ih1 ok1 (hg.trans g1) k3
      obtain ⟨b, m3, i4, hc4⟩ := bind_some hc3
      obtain ⟨q2, rfl, k4⟩ := each_one i4
      obtain ⟨g3, ok3, t3⟩ := ih2 ok2 ((hg.trans g1).trans g2) k4
      obtain ⟨j1, j2, j3⟩ := alloc_some ok3 hc4
      exact ⟨((g1.trans g2).trans g3).trans j1, j3, .bin h1 h2 j2 (j1 _ _ (g3 _ _ (g2 _ _ y2))) ((t2.mono g3).mono j1) (t3.mono j1)⟩

/-- clones of trees -/
theorem cloneNodes_tree {n : Node S} {ps qs : List Ptr} {p : Ptr} (hm : m.Ok) (hp : ps = [p]) (h : IsTree F m n p) (hc : each cloneNode ps m = some (qs, m')) :
    ∃ q, qs = [q] ∧ IsTree F m' n q := by
  subst hp
  obtain ⟨q, rfl, h1⟩ := each_one hc
  exact ⟨q, rfl, (cloneN_tree h hm (.refl m) h1).2.2⟩

theorem copy_eq {p : Ptr} {o : Obj} (hm : m.Ok) (ho : m.get p = some o) (hf : Forest m.own [p] L) (hn : L.Nodup) :
    ∃ q m' L' a, copy p m = some (q, m') ∧ Forest m'.own [q] L' ∧ Effect m m' [] L' [] ∧ m'.get q = some { cls := o.cls, text := o.text, a := a, refs := o.refs } ∧
      ∃ m1, each cloneNode o.a m = some (a, m1) ∧ Grows m1 m' := by
  obtain ⟨o', La, Lr, ho', rfl, ha, -⟩ := hf.partsA
  rw [ho] at ho'
  cases ho'
  have n := List.nodup_append'.1 (List.nodup_cons.1 hn).2
  obtain ⟨a, m1, L1, e1, f1, x1⟩ := cloneNodes_eq hm ha n.1
  obtain ⟨m2, L2, e2, f2, x2, g2, -, k2, -⟩ := alloc_owner hm (m := m1) (La := L1) (Lb := []) (Lc := []) (Ld := []) (Le := [])
    { cls := o.cls, text := o.text, a := a, refs := o.refs } (by simpa using x1) f1 .nil .nil .nil .nil
  refine ⟨m1.next, m2, L2, a, ?_, f2, x2, g2, m1, e1, (alloc_some x1.ok e2).1⟩
  unfold copy
  rw [bind_eq (read_eq ho), bind_eq e1, e2]

/-! ### Terms -/

/-- the references and the name of an object change -/
theorem rename_eq {t : Ptr} {o : Obj} (f : Obj → Obj) (hm : m.Ok) (ho : m.get t = some o) (hf : Forest m.own [t] L) (hn : L.Nodup) (hw : (f o).owned = o.owned) :
    ∃ m', modify t f m = some ((), m') ∧ Forest m'.own [t] L ∧ Effect m m' L L [] ∧ m'.get t = some (f o) ∧ ∀ q, q ≠ t → m'.get q = m.get q := by
  obtain ⟨m1, L1, Lo, e1, f1, fo, x1, p1, g1, k1⟩ := modify_slot (l1 := o.owned) (l3 := []) (old := []) (new := []) (out := []) (extra := []) f hm ho hf .nil (by simpa using hn)
    (by simp) (by simp [hw]) (by simp)
  cases fo
  have hf' : Forest m1.own [t] L := hf.congr fun q hq => by
    by_cases c : q = t
    · rw [c, own_eq g1, own_eq ho, hw]
    · unfold Mem.own
      rw [k1 q c]
  obtain rfl := f1.unique hf'
  exact ⟨m1, e1, f1, by simpa using x1, g1, k1⟩

theorem unload_eq {t : Ptr} {o : Obj} (hm : m.Ok) (ho : m.get t = some o) (hf : Forest m.own [t] L) (hn : L.Nodup) :
    ∃ m' L', unload t m = some ((), m') ∧ Forest m'.own [t] L' ∧ Effect m m' L L' [] ∧ m'.get t = some { o with a := [] } := by
  obtain ⟨m1, m2, L2, e1, e2, f2, x2, g2, -⟩ := swap_slot (l1 := []) (old := o.a) (new := []) (l3 := o.b ++ o.c ++ o.d ++ o.e) (fun o => { o with a := [] }) hm ho hf .nil
    (by simpa using hn) (by simp [Obj.owned]) (by simp [Obj.owned])
  refine ⟨m2, L2, ?_, f2, by simpa using x2, g2⟩
  unfold unload
  rw [bind_eq (read_eq ho), bind_eq e1, e2]

/-- the engine of a term and its variables exist -/
def Seen (m : Mem) (e : Ptr) : Prop := ∃ oe, m.get e = some oe ∧ ∀ v ∈ oe.a ++ oe.b, ∃ ov, m.get v = some ov

theorem reads_eq {ps : List Ptr} (h : ∀ p ∈ ps, ∃ o, m.get p = some o) : ∃ os, each read ps m = some (os, m) := by
  induction ps with
  | nil => exact ⟨[], rfl⟩
  | cons p ps ih =>
    obtain ⟨o, ho⟩ := h p (by simp)
    obtain ⟨os, h1⟩ := ih fun q hq => h q (by simp [hq])
    refine ⟨o :: os, ?_⟩
    unfold each
    rw [bind_eq (read_eq ho), bind_eq h1, pure_eq]

theorem visit_eq {t : Ptr} {o : Obj} {engine : Option Ptr} (ho : m.get t = some o) (hr : o.refs = engine.toList) (he : ∀ e, engine = some e → Seen m e) :
    visit t m = some ((), m) := by
  unfold visit
  rw [bind_eq (read_eq ho), hr]
  cases engine with
  | none => rfl
  | some e =>
    obtain ⟨oe, h1, h2⟩ := he e rfl
    obtain ⟨xs, h3⟩ := reads_eq (m := m) (ps := oe.a) fun v hv => h2 v (by simp [hv])
    obtain ⟨ys, h4⟩ := reads_eq (m := m) (ps := oe.b) fun v hv => h2 v (by simp [hv])
    have h5 : each (fun e => do
        let e ← read e
        let _ ← each read e.a
        each read e.b) [e] m = some ([ys], m) := by
      unfold each
      refine (bind_eq (x := ys) (m' := m) ?_).trans rfl
      rw [bind_eq (read_eq h1), bind_eq h3, h4]
    exact (bind_eq h5).trans rfl

/-- loading up to the evaluation -/
theorem load_pre (hA : Proper A) {t : Ptr} {o : Obj} (engine : Option Ptr) (ts : Option (List Str)) (hm : m.Ok) (ho : m.get t = some o) (hf : Forest m.own [t] L) (hn : L.Nodup) :
    ∃ m1, m1.Ok ∧
    ((∃ p m2 m' L', parse A ts m1 = some (some p, m2) ∧ load A t engine ts m = (visit t >>= fun _ => pure true) m' ∧ Forest m'.own [t] L' ∧ Effect m m' L L' [] ∧
      m'.get t = some { o with a := [p], refs := engine.toList } ∧ ∀ y, Reach m2 [p] y → m'.get y = m2.get y) ∨
    ∃ m' K stack, parse A ts m1 = some (none, m') ∧ load A t engine ts m = some (false, m') ∧ Forest m'.own [t] L ∧ Effect m m' L L K ∧
      m'.get t = some { o with refs := engine.toList } ∧ (∀ q, q ≠ t → ∀ x, m.get q = some x → m'.get q = some x) ∧ Forest m'.own stack K ∧
      ∃ pre rest, ts.getD [] = pre ++ rest ∧ K.length = (pre.map (cost A)).sum ∧
        ((rest = [] ∧ stack.length ≠ 1) ∨ ts = none ∨ ∃ t ts' k, rest = t :: ts' ∧ A t = some k ∧ stack.length < k)) := by
  obtain ⟨m1, e1, f1, x1, g1, k1⟩ := rename_eq (fun o => { o with refs := engine.toList }) hm ho hf hn rfl
  refine ⟨m1, x1.ok, ?_⟩
  rcases parse_eq hA ts x1.ok with ⟨p, m2, Lp, e2, x2, f2, -⟩ | ⟨m2, K, stack, e2, x2, f2, i2⟩
  · left
    have ft := x2.forest x1.ok f1 (by simp)
    have gt := x2.get x1.ok g1 (by simp)
    have x12 := x1.seq hm x2
    obtain ⟨m3, m4, L4, e3, e4, f4, x4, g4, k4⟩ := swap_slot (l1 := []) (old := o.a) (new := [p]) (l3 := o.b ++ o.c ++ o.d ++ o.e) (fun o => { o with a := [p] }) x2.ok gt ft f2
      x12.nodupLeft (by simp [Obj.owned]) (by simp [Obj.owned])
    have x14 : Effect m m4 L L4 [] := by simpa using x12.trans hm x4
    have hp : ∀ y, Reach m2 [p] y → m4.get y = m2.get y := by
      intro y hy
      have hyp := f2.mem_iff.2 hy
      have hyt : y ≠ t := by
        rintro rfl
        exact x2.fresh x1.ok g1 hyp
      refine k4 y ?_ hyt
      have hr4 : Reach m4 [t] p := .part (.root (by simp)) g4 (by simp [Obj.owned])
      by_contra hc
      have hall : ∀ z, Reach m2 [p] z → Reach m4 [t] z := by
        intro z hz
        induction hz with
        | root h1 =>
          rw [List.mem_singleton] at h1
          rw [h1]
          exact hr4
        | @part z w oz h1 h2 h3 ih =>
          have hzt : z ≠ t := by
            rintro rfl
            exact x2.fresh x1.ok g1 (f2.mem_iff.2 h1)
          exact .part ih ((k4 z (f4.mem_iff.2 ih) hzt).trans h2) h3
      exact hc (f4.mem_iff.2 (hall y hy))
    refine ⟨p, m2, m4, L4, e2, ?_, f4, x14, g4, hp⟩
    unfold load
    rw [bind_eq e1]
    refine (bind_eq e2).trans ?_
    refine (bind_eq (read_eq gt)).trans ?_
    refine (bind_eq e3).trans ?_
    exact bind_eq e4
  · right
    refine ⟨m2, K, stack, e2, ?_, x2.forest x1.ok f1 (by simp), ?_, x2.get x1.ok g1 (by simp), ?_, f2, i2⟩
    · unfold load
      rw [bind_eq e1]
      exact (bind_eq e2).trans rfl
    · simpa using x1.seq hm x2
    · intro q hq x hx
      exact x2.get x1.ok ((k1 q hq).trans hx) (by simp)

theorem load_eq (hA : Proper A) {t : Ptr} {o : Obj} (engine : Option Ptr) (ts : Option (List Str)) (hm : m.Ok) (ho : m.get t = some o) (hf : Forest m.own [t] L) (hn : L.Nodup)
    (he : ∀ e, engine = some e → ∃ oe, m.get e = some oe ∧ e ∉ L ∧ ∀ v ∈ oe.a ++ oe.b, v ∉ L ∧ ∃ ov, m.get v = some ov) :
    ∃ m1, m1.Ok ∧
    ((∃ p m2 m' L', parse A ts m1 = some (some p, m2) ∧ load A t engine ts m = some (true, m') ∧ Forest m'.own [t] L' ∧ Effect m m' L L' [] ∧
      m'.get t = some { o with a := [p], refs := engine.toList } ∧ ∀ y, Reach m2 [p] y → m'.get y = m2.get y) ∨
    ∃ m' K stack, parse A ts m1 = some (none, m') ∧ load A t engine ts m = some (false, m') ∧ Forest m'.own [t] L ∧ Effect m m' L L K ∧
      m'.get t = some { o with refs := engine.toList } ∧ (∀ q, q ≠ t → ∀ x, m.get q = some x → m'.get q = some x) ∧ Forest m'.own stack K ∧
      ∃ pre rest, ts.getD [] = pre ++ rest ∧ K.length = (pre.map (cost A)).sum ∧
        ((rest = [] ∧ stack.length ≠ 1) ∨ ts = none ∨ ∃ t ts' k, rest = t :: ts' ∧ A t = some k ∧ stack.length < k)) := by
  obtain ⟨m1, ok1, h1⟩ := load_pre hA engine ts hm ho hf hn
  refine ⟨m1, ok1, h1.imp_left ?_⟩
  rintro ⟨p, m2, m', L', e1, e2, f1, x1, g1, k1⟩
  refine ⟨p, m2, m', L', e1, ?_, f1, x1, g1, k1⟩
  have hv := visit_eq (m := m') (engine := engine) g1 rfl fun e hee => by
    obtain ⟨oe, h1, h2, h3⟩ := he e hee
    refine ⟨oe, x1.get hm h1 h2, fun v hv => ?_⟩
    obtain ⟨h4, ov, h5⟩ := h3 v hv
    exact ⟨ov, x1.get hm h5 h4⟩
  rw [e2]
  exact (bind_eq hv).trans rfl

theorem reads_inv {ps : List Ptr} {os : List Obj} (h : each read ps m = some (os, m')) : m' = m ∧ ∀ p ∈ ps, ∃ o, m.get p = some o := by
  induction ps generalizing m m' os with
  | nil =>
    obtain ⟨-, rfl⟩ := each_none h
    exact ⟨rfl, by simp⟩
  | cons p ps ih =>
    unfold each at h
    obtain ⟨o, m1, h1, h2⟩ := bind_some h
    obtain ⟨h3, rfl⟩ := read_some h1
    obtain ⟨os', m2, h4, h5⟩ := bind_some h2
    obtain ⟨rfl, h6⟩ := ih h4
    obtain ⟨-, rfl⟩ := pure_some h5
    refine ⟨rfl, fun q hq => ?_⟩
    rcases List.mem_cons.1 hq with rfl | hq
    · exact ⟨o, h3⟩
    · exact h6 q hq

theorem visit_inv {t e : Ptr} {o : Obj} (ho : m.get t = some o) (hr : o.refs = [e]) (h : visit t m = some ((), m')) : Seen m e := by
  unfold visit at h
  rw [bind_eq (read_eq ho), hr] at h
  obtain ⟨xs, m1, h1, -⟩ := bind_some h
  obtain ⟨y, -, h2⟩ := each_one h1
  obtain ⟨oe, m2, h3, h4⟩ := bind_some h2
  obtain ⟨h5, rfl⟩ := read_some h3
  obtain ⟨zs, m3, h6, h7⟩ := bind_some h4
  obtain ⟨rfl, h8⟩ := reads_inv h6
  obtain ⟨-, h9⟩ := reads_inv h7
  refine ⟨oe, h5, fun v hv => ?_⟩
  rcases List.mem_append.1 hv with hv | hv
  · exact h8 v hv
  · exact h9 v hv

theorem assign_eq {t p : Ptr} {o q : Obj} {Lp : List Ptr} (hm : m.Ok) (ho : m.get t = some o) (hq : m.get p = some q) (hf : Forest m.own [t] L) (hn : L.Nodup)
    (hs : Forest m.own [p] Lp) (hns : Lp.Nodup) (hd : ∀ x ∈ Lp, x ∉ L) :
    ∃ m' L' a, assign t p m = some ((), m') ∧ Forest m'.own [t] L' ∧ Effect m m' L L' [] ∧ m'.get t = some { o with text := q.text, a := a, refs := q.refs } ∧
      ∃ m2 m3, m2.Ok ∧ (∀ x ∈ Lp, m2.get x = m.get x) ∧ each cloneNode q.a m2 = some (a, m3) ∧ ∀ y, Reach m3 a y → m'.get y = m3.get y := by
  have hne : t ≠ p := by
    rintro rfl
    exact hd t (hs.roots t (by simp)) (hf.roots t (by simp))
  obtain ⟨m0, m1, L1, e0, e1, f1, x1, g1, -⟩ := swap_slot (l1 := []) (old := o.a) (new := []) (l3 := o.b ++ o.c ++ o.d ++ o.e) (fun o => { o with a := [] }) hm ho hf .nil
    (by simpa using hn) (by simp [Obj.owned]) (by simp [Obj.owned])
  rw [List.append_nil] at x1
  have q1 := x1.get hm hq (hd p (hs.roots p (by simp)))
  obtain ⟨m2, e2, f2, x2, g2, k2⟩ := rename_eq (fun o => { o with text := q.text, refs := q.refs }) x1.ok g1 f1 x1.nodupLeft rfl
  have x12 : Effect m m2 L L1 [] := by simpa using x1.trans hm x2
  have keep : ∀ x ∈ Lp, m2.get x = m.get x := by
    intro x hx
    obtain ⟨ox, hox⟩ := hs.get hx
    rw [hox, x12.get hm hox (hd x hx)]
  have s2 := x12.forest hm hs hd
  obtain ⟨q', La, Lr, hq', rfl, ha, -⟩ := s2.partsA
  have q2 := x12.get hm hq (hd p (hs.roots p (by simp)))
  rw [q2] at hq'
  cases hq'
  have n := List.nodup_append'.1 (List.nodup_cons.1 hns).2
  obtain ⟨a, m3, L3, e3, f3, x3⟩ := cloneNodes_eq x2.ok ha n.1
  obtain ⟨m4, L4, e4, f4, x4, g4, k4⟩ := fill_slot (l1 := []) (new := a) (l3 := o.b ++ o.c ++ o.d ++ o.e) (fun o => { o with a := a }) x2.ok hm x12 g2 f2 x3 f3
    (by simp [Obj.owned]) (by simp [Obj.owned])
  refine ⟨m4, L4, a, ?_, f4, x4, g4, m2, m3, x2.ok, keep, e3, ?_⟩
  · unfold assign
    rw [if_pos hne, bind_eq (read_eq ho), bind_eq e0, bind_eq e1, bind_eq (read_eq q1), bind_eq e2, bind_eq e3, e4]
  · intro y hy
    have hy3 := f3.mem_iff.2 hy
    obtain ⟨oy, hoy⟩ := f3.get hy3
    rw [hoy]
    exact k4 y oy (fun hc => x3.fresh x2.ok g2 (hc ▸ hy3)) hoy

end Function
end FL.Own
