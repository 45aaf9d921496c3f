/-
What the statements that `CppExporter` writes do to local variables.
-/
import Verif.Lemmas.CppExporter

namespace FL.Cpp
open Scalar
variable {S : Type}

/-! ### local variables -/

theorem lookup_set (l : List (Str × Obj S)) (x y : Str) (o : Obj S) :
    (l.map fun p => if p.1 = x then (x, o) else p).lookup y = if y = x then (l.lookup y).map fun _ => o else l.lookup y := by
  induction l with
  | nil => simp
  | cons p l ih =>
    obtain ⟨z, q⟩ := p
    rw [List.map_cons]
    by_cases hz : z = x
    · subst hz
      simp only [if_true, List.lookup_cons]
      by_cases hy : y = z
      · simp [hy]
      · have : (y == z) = false := by simpa using hy
        simp only [this, ih, if_neg hy]
    · simp only [if_neg hz, List.lookup_cons]
      by_cases hy : y = z
      · subst hy; simp [hz]
      · have : (y == z) = false := by simpa using hy
        simp only [this, ih]

theorem find_set (s : Scope S) (x y : Str) (o : Obj S) :
    (s.set x o).find y = if y = x then (s.find y).map fun _ => o else s.find y := lookup_set s.locals x y o

theorem find_push (s : Scope S) (x y : Str) (o : Obj S) :
    ({ s with locals := s.locals ++ [(x, o)] } : Scope S).find y = (s.find y).or (if y = x then some o else none) := by
  unfold Scope.find
  simp only
  induction s.locals with
  | nil =>
    simp only [List.nil_append, List.lookup_cons, List.lookup_nil]
    by_cases hy : y = x
    · simp [hy]
    · have : (y == x) = false := by simpa using hy
      simp [this, hy]
  | cons p l ih =>
    obtain ⟨z, q⟩ := p
    rw [List.cons_append, List.lookup_cons, List.lookup_cons]
    by_cases hy : y = z
    · simp [hy]
    · have : (y == z) = false := by simpa using hy
      simp only [this, ih]

/-- the local variables `ni`, `no` and `nb` point to the components of `E` -/
structure Contents (s : Scope S) (E : Engine S) (ni no nb : List Str) : Prop where
  engine : s.find (cs! "engine") = some (.engine E.name E.description ni no nb)
  inputs : List.Forall₂ (fun n v => s.find n = some (.input v)) ni E.inputs
  outputs : List.Forall₂ (fun n v => s.find n = some (.output v)) no E.outputs
  blocks : List.Forall₂ (fun n v => s.find n = some (.block v)) nb E.blocks

theorem filterMap_forall₂ {α β : Type} (f : α → Option β) (as : List α) (bs : List β) (h : List.Forall₂ (fun a b => f a = some b) as bs) :
    as.filterMap f = bs := by
  induction h with
  | nil => rfl
  | cons h1 _ ih => rw [List.filterMap_cons, h1, ih]

theorem Contents.get {s : Scope S} {E : Engine S} {ni no nb : List Str} (h : Contents s E ni no nb) :
    s.engine (cs! "engine") = some E := by
  have h1 : ni.filterMap s.input = E.inputs := filterMap_forall₂ _ _ _ (h.inputs.imp fun _ _ e => by simp [Scope.input, e])
  have h2 : no.filterMap s.output = E.outputs := filterMap_forall₂ _ _ _ (h.outputs.imp fun _ _ e => by simp [Scope.output, e])
  have h3 : nb.filterMap s.block = E.blocks := filterMap_forall₂ _ _ _ (h.blocks.imp fun _ _ e => by simp [Scope.block, e])
  unfold Scope.engine
  rw [h.engine]
  simp only [h1, h2, h3]

theorem forall₂_imp_mem {α β : Type} {R R' : α → β → Prop} {as : List α} {bs : List β} (h : List.Forall₂ R as bs)
    (hi : ∀ a ∈ as, ∀ b, R a b → R' a b) : List.Forall₂ R' as bs := by
  induction h with
  | nil => exact .nil
  | cons h1 _ ih => exact .cons (hi _ (by simp) _ h1) (ih fun a ha => hi a (by simp [ha]))

theorem Contents.congr {s s' : Scope S} {E : Engine S} {ni no nb : List Str} (h : Contents s E ni no nb)
    (hf : ∀ x, x = cs! "engine" ∨ x ∈ ni ++ no ++ nb → s'.find x = s.find x) : Contents s' E ni no nb where
  engine := by rw [hf _ (.inl rfl)]; exact h.engine
  inputs := forall₂_imp_mem h.inputs fun a ha b e => by rw [hf a (by simp [ha])]; exact e
  outputs := forall₂_imp_mem h.outputs fun a ha b e => by rw [hf a (by simp [ha])]; exact e
  blocks := forall₂_imp_mem h.blocks fun a ha b e => by rw [hf a (by simp [ha])]; exact e

theorem forall₂_mem {α β : Type} {R : α → β → Prop} {as : List α} {bs : List β} (h : List.Forall₂ R as bs) :
    ∀ a ∈ as, ∃ b, R a b := by
  induction h with
  | nil => simp
  | cons h1 _ ih =>
    intro a ha
    rcases List.mem_cons.1 ha with rfl | ha
    · exact ⟨_, h1⟩
    · exact ih a ha

/-- the local variables are `D`, and `engine` points to `E` -/
structure State (o : Bool) (E : Engine S) (D : List Str) (s : Scope S) : Prop where
  opened : s.opened = o
  declared : ∀ x, s.declared x = true ↔ x ∈ D
  contents : ∃ ni no nb, Contents s E ni no nb

/-- besides, the local variable `n` points to `obj`, which is not a component of the engine yet -/
structure Building (o : Bool) (E : Engine S) (D : List Str) (n : Str) (obj : Obj S) (s : Scope S) : Prop where
  opened : s.opened = o
  declared : ∀ x, s.declared x = true ↔ x ∈ D ++ [n]
  find : s.find n = some obj
  fresh : n ≠ cs! "engine"
  contents : ∃ ni no nb, Contents s E ni no nb ∧ n ∉ ni ++ no ++ nb

/-- what the arguments of a method can refer to -/
structure View (o : Bool) (E : Engine S) (D : List Str) (s : Scope S) : Prop where
  opened : s.opened = o
  declared : ∀ x, s.declared x = true ↔ x ∈ D
  engine : s.engine (cs! "engine") = some E

theorem State.view {o : Bool} {E : Engine S} {D : List Str} {s : Scope S} (h : State o E D s) : View o E D s :=
  ⟨h.opened, h.declared, let ⟨_, _, _, hc⟩ := h.contents; hc.get⟩

theorem Building.view {o : Bool} {E : Engine S} {D : List Str} {n : Str} {obj : Obj S} {s : Scope S}
    (h : Building o E D n obj s) : View o E (D ++ [n]) s :=
  ⟨h.opened, h.declared, let ⟨_, _, _, hc, _⟩ := h.contents; hc.get⟩

theorem declared_set (s : Scope S) (x y : Str) (o : Obj S) : (s.set x o).declared y = s.declared y := by
  unfold Scope.declared
  rw [find_set]
  split_ifs <;> simp

theorem State.push {o : Bool} {E : Engine S} {D : List Str} {s : Scope S} (h : State o E D s) (n : Str) (hn : n ∉ D) (obj : Obj S) :
    Building o E D n obj { s with locals := s.locals ++ [(n, obj)] } := by
  have hnone : s.find n = none := by
    have := (not_congr (h.declared n)).2 hn
    simpa [Scope.declared] using this
  obtain ⟨ni, no, nb, hc⟩ := h.contents
  have hmem : ∀ x, x = cs! "engine" ∨ x ∈ ni ++ no ++ nb → ∃ q, s.find x = some q := by
    rintro x (rfl | hx)
    · exact ⟨_, hc.engine⟩
    · simp only [List.mem_append] at hx
      rcases hx with (hx | hx) | hx
      · obtain ⟨b, hb⟩ := forall₂_mem hc.inputs x hx; exact ⟨_, hb⟩
      · obtain ⟨b, hb⟩ := forall₂_mem hc.outputs x hx; exact ⟨_, hb⟩
      · obtain ⟨b, hb⟩ := forall₂_mem hc.blocks x hx; exact ⟨_, hb⟩
  have hne : ∀ x, x = cs! "engine" ∨ x ∈ ni ++ no ++ nb → x ≠ n := by
    rintro x hx rfl
    obtain ⟨q, hq⟩ := hmem _ hx
    rw [hnone] at hq
    cases hq
  refine ⟨h.opened, fun x => ?_, ?_, fun e => hne _ (.inl rfl) e.symm, ni, no, nb, hc.congr fun x hx => ?_, fun hx => hne _ (.inr hx) rfl⟩
  · have := h.declared x
    unfold Scope.declared at this ⊢
    rw [find_push, Option.isSome_or, Bool.or_eq_true, this, List.mem_append, List.mem_singleton]
    by_cases hx : x = n <;> simp [hx]
  · rw [find_push, hnone]; simp
  · obtain ⟨q, hq⟩ := hmem x hx
    rw [find_push, hq]
    rfl

theorem Building.set {o : Bool} {E : Engine S} {D : List Str} {n : Str} {obj : Obj S} {s : Scope S}
    (h : Building o E D n obj s) (obj' : Obj S) : Building o E D n obj' (s.set n obj') := by
  obtain ⟨ni, no, nb, hc, hm⟩ := h.contents
  refine ⟨h.opened, fun x => by rw [declared_set]; exact h.declared x, ?_, h.fresh, ni, no, nb, hc.congr fun x hx => ?_, hm⟩
  · rw [find_set, if_pos rfl, h.find]; rfl
  · rw [find_set, if_neg]
    rintro rfl
    rcases hx with rfl | hx
    · exact h.fresh rfl
    · exact hm hx

theorem forall₂_snoc {α β : Type} {R : α → β → Prop} {as : List α} {bs : List β} (h : List.Forall₂ R as bs) {a : α} {b : β} (hab : R a b) :
    List.Forall₂ R (as ++ [a]) (bs ++ [b]) := by
  induction h with
  | nil => exact .cons hab .nil
  | cons h1 _ ih => exact .cons h1 ih

/-! ### statements -/

variable [ScalarText S]

/-- a computation ends like `r` says: with a state that satisfies `P`, or with the exception -/
def Outcome {α : Type} (P : α → Scope S → Prop) : Except Err α → Except Fault (Scope S) → Prop
  | .ok a, .ok s => P a s
  | .error e, .error f => f = .raised e
  | _, _ => False

/-- from states that satisfy `P`, the statements end like `r` says -/
def Does {α : Type} (G : Registry S) (P : Scope S → Prop) (ss : List Stmt) (r : Except Err α) (Q : α → Scope S → Prop) : Prop :=
  ∀ s, P s → Outcome Q r (ss.foldlM (exec G) s)

theorem Does.append {α β : Type} {G : Registry S} {P : Scope S → Prop} {ss ss' : List Stmt} {r : Except Err α} {Q : α → Scope S → Prop}
    {f : α → Except Err β} {R : β → Scope S → Prop} (h : Does G P ss r Q) (h' : ∀ a, Does G (Q a) ss' (f a) R) :
    Does G P (ss ++ ss') (r >>= f) R := by
  intro s hs
  have := h s hs
  rw [List.foldlM_append]
  cases r with
  | ok a =>
    cases hm : ss.foldlM (exec G) s with
    | ok s' => rw [hm] at this; exact h' a s' this
    | error f => rw [hm] at this; exact this.elim
  | error e =>
    cases hm : ss.foldlM (exec G) s with
    | ok s' => rw [hm] at this; exact this.elim
    | error f => rw [hm] at this; exact this

theorem Does.nil {α : Type} {G : Registry S} (a : α) {P : Scope S → Prop} {Q : α → Scope S → Prop} (h : ∀ s, P s → Q a s) :
    Does G P [] (.ok a) Q := fun s hs => h s hs

/-- a statement without exceptions comes first -/
theorem Does.cons {α : Type} {G : Registry S} {P : Scope S → Prop} {st : Stmt} {ss : List Stmt} {r : Except Err α}
    {Q : Scope S → Prop} {R : α → Scope S → Prop} (h : ∀ s, P s → ∃ s', exec G s st = .ok s' ∧ Q s') (h' : Does G Q ss r R) :
    Does G P (st :: ss) r R := by
  intro s hs
  obtain ⟨s', e, hq⟩ := h s hs
  rw [List.foldlM_cons, e]
  exact h' s' hq

theorem Does.one {G : Registry S} {P : Scope S → Prop} {st : Stmt}
    {Q : Scope S → Prop} (h : ∀ s, P s → ∃ s', exec G s st = .ok s' ∧ Q s') : Does G P [st] (.ok ()) fun _ => Q :=
  Does.cons h (Does.nil _ fun _ h => h)

/-- the method of an object -/
def objCall (G : Registry S) (s : Scope S) (obj : Obj S) (m : Str) (as : Args) : Except Fault (Obj S) :=
  match obj with
  | .engine n d is os bs => engineCall s n d is os bs m as
  | .input v => (inputCall G s v m as).map .input
  | .output v => (outputCall G s v m as).map .output
  | .block b => (blockCall G s b m as).map .block

theorem exec_call (G : Registry S) (s : Scope S) (x m : Str) (as : Args) (obj : Obj S) (h : s.find x = some obj) :
    exec G s (.call x m as) = (objCall G s obj m as).map (s.set x) := by
  simp only [exec]
  rw [h]
  cases obj with
  | engine n d is os bs => simp only [objCall]; cases engineCall s n d is os bs m as <;> rfl
  | input v => simp only [objCall]; cases inputCall G s v m as <;> rfl
  | output v => simp only [objCall]; cases outputCall G s v m as <;> rfl
  | block v => simp only [objCall]; cases blockCall G s v m as <;> rfl

/-- a method of the object being built that does not raise exceptions -/
theorem exec_building {G : Registry S} {o : Bool} {E : Engine S} {D : List Str} {n m : Str} {as : Args} {obj obj' : Obj S}
    (h : ∀ s, View o E (D ++ [n]) s → objCall G s obj m as = .ok obj') (s : Scope S) (hs : Building o E D n obj s) :
    ∃ s', exec G s (.call n m as) = .ok s' ∧ Building o E D n obj' s' :=
  ⟨s.set n obj', by rw [exec_call _ _ _ _ _ _ hs.find, h s hs.view]; rfl, hs.set obj'⟩

/-- a method of the object being built that may raise an exception -/
theorem does_building {α : Type} {G : Registry S} {o : Bool} {E : Engine S} {D : List Str} {n m : Str} {as : Args} {obj : Obj S}
    {r : Except Err α} {f : α → Obj S} (h : ∀ s, View o E (D ++ [n]) s → objCall G s obj m as = (r.mapError Fault.raised).map f) :
    Does G (Building o E D n obj) [.call n m as] r fun a => Building o E D n (f a) := by
  intro s hs
  rw [List.foldlM_cons, exec_call _ _ _ _ _ _ hs.find, h s hs.view]
  cases r with
  | ok a => exact hs.set (f a)
  | error e => exact rfl

theorem exec_declare {G : Registry S} {o : Bool} {E : Engine S} {D : List Str} {n c : Str} {q : Bool} {obj : Obj S}
    (ho : newObj c = some obj) (hn : n ∉ D) (hk : n ∉ keywords) (hq : q = true ∨ (o = true ∧ c ∉ D ++ [n]))
    (s : Scope S) (hs : State o E D s) : ∃ s', exec G s (.declare q c n q c) = .ok s' ∧ Building o E D n obj s' := by
  refine ⟨_, ?_, hs.push n hn obj⟩
  have hd : ∀ y, y ∉ D → s.declared y = false := fun y hy => by
    have := (not_congr (hs.declared y)).2 hy
    simpa using this
  have hf : s.finds q c = true := by
    unfold Scope.finds
    rcases hq with rfl | ⟨rfl, hc⟩
    · rfl
    · rw [hs.opened, hd c (by simp at hc; exact hc.1)]; cases q <;> rfl
  have hx : q = true ∨ c ≠ n := hq.imp id fun h => by rintro rfl; exact h.2 (by simp)
  simp only [exec]
  rw [if_pos ⟨hf, hf, hx, trivial, hk, hd n hn⟩, ho]

theorem exec_addInput {G : Registry S} {o : Bool} {E : Engine S} {D : List Str} {n : Str} {v : Variable S}
    (s : Scope S) (hs : Building o E D n (.input v) s) :
    ∃ s', exec G s (.call (cs! "engine") (cs! "addInputVariable") (.atoms [.name false false n])) = .ok s' ∧
      State o { E with inputs := E.inputs ++ [v] } (D ++ [n]) s' := by
  obtain ⟨ni, no, nb, hc, hm⟩ := hs.contents
  have hi : s.input n = some v := by simp [Scope.input, hs.find]
  refine ⟨s.set (cs! "engine") (.engine E.name E.description (ni ++ [n]) no nb), ?_, hs.opened, fun x => ?_, ni ++ [n], no, nb, ?_⟩
  · rw [exec_call _ _ _ _ _ _ hc.engine]
    have : objCall G s (.engine E.name E.description ni no nb) (cs! "addInputVariable") (.atoms [.name false false n]) =
        if (s.input n).isSome then .ok (.engine E.name E.description (ni ++ [n]) no nb) else .error .rejected := rfl
    rw [this, hi]
    rfl
  · rw [declared_set]; exact hs.declared x
  · have hf : ∀ x, x ≠ cs! "engine" → (s.set (cs! "engine") (.engine E.name E.description (ni ++ [n]) no nb)).find x = s.find x :=
      fun x hx => by rw [find_set, if_neg hx]
    have hq : ∀ (y : Str) (q : Obj S), s.find y = some q → (∀ a b c d f, q ≠ .engine a b c d f) → y ≠ cs! "engine" := by
      rintro y q hy hq rfl
      rw [hc.engine] at hy
      exact hq _ _ _ _ _ (Option.some.inj hy).symm
    refine ⟨by rw [find_set, if_pos rfl, hc.engine]; rfl, forall₂_snoc (hc.inputs.imp fun a b e => ?_) ?_, hc.outputs.imp fun a b e => ?_,
      hc.blocks.imp fun a b e => ?_⟩
    · rw [hf a (hq a _ e (by simp))]; exact e
    · rw [hf n hs.fresh]; exact hs.find
    · rw [hf a (hq a _ e (by simp))]; exact e
    · rw [hf a (hq a _ e (by simp))]; exact e

theorem exec_addOutput {G : Registry S} {o : Bool} {E : Engine S} {D : List Str} {n : Str} {v : OutputVariable S}
    (s : Scope S) (hs : Building o E D n (.output v) s) :
    ∃ s', exec G s (.call (cs! "engine") (cs! "addOutputVariable") (.atoms [.name false false n])) = .ok s' ∧
      State o { E with outputs := E.outputs ++ [v] } (D ++ [n]) s' := by
  obtain ⟨ni, no, nb, hc, hm⟩ := hs.contents
  have hi : s.output n = some v := by simp [Scope.output, hs.find]
  refine ⟨s.set (cs! "engine") (.engine E.name E.description ni (no ++ [n]) nb), ?_, hs.opened, fun x => ?_, ni, no ++ [n], nb, ?_⟩
  · rw [exec_call _ _ _ _ _ _ hc.engine]
    have : objCall G s (.engine E.name E.description ni no nb) (cs! "addOutputVariable") (.atoms [.name false false n]) =
        if (s.output n).isSome then .ok (.engine E.name E.description ni (no ++ [n]) nb) else .error .rejected := rfl
    rw [this, hi]
    rfl
  · rw [declared_set]; exact hs.declared x
  · have hf : ∀ x, x ≠ cs! "engine" → (s.set (cs! "engine") (.engine E.name E.description ni (no ++ [n]) nb)).find x = s.find x :=
      fun x hx => by rw [find_set, if_neg hx]
    have hq : ∀ (y : Str) (q : Obj S), s.find y = some q → (∀ a b c d f, q ≠ .engine a b c d f) → y ≠ cs! "engine" := by
      rintro y q hy hq rfl
      rw [hc.engine] at hy
      exact hq _ _ _ _ _ (Option.some.inj hy).symm
    refine ⟨by rw [find_set, if_pos rfl, hc.engine]; rfl, hc.inputs.imp fun a b e => ?_, forall₂_snoc (hc.outputs.imp fun a b e => ?_) ?_,
      hc.blocks.imp fun a b e => ?_⟩
    · rw [hf a (hq a _ e (by simp))]; exact e
    · rw [hf a (hq a _ e (by simp))]; exact e
    · rw [hf n hs.fresh]; exact hs.find
    · rw [hf a (hq a _ e (by simp))]; exact e

theorem exec_addBlock {G : Registry S} {o : Bool} {E : Engine S} {D : List Str} {n : Str} {v : RuleBlock S}
    (s : Scope S) (hs : Building o E D n (.block v) s) :
    ∃ s', exec G s (.call (cs! "engine") (cs! "addRuleBlock") (.atoms [.name false false n])) = .ok s' ∧
      State o { E with blocks := E.blocks ++ [v] } (D ++ [n]) s' := by
  obtain ⟨ni, no, nb, hc, hm⟩ := hs.contents
  have hi : s.block n = some v := by simp [Scope.block, hs.find]
  refine ⟨s.set (cs! "engine") (.engine E.name E.description ni no (nb ++ [n])), ?_, hs.opened, fun x => ?_, ni, no, nb ++ [n], ?_⟩
  · rw [exec_call _ _ _ _ _ _ hc.engine]
    have : objCall G s (.engine E.name E.description ni no nb) (cs! "addRuleBlock") (.atoms [.name false false n]) =
        if (s.block n).isSome then .ok (.engine E.name E.description ni no (nb ++ [n])) else .error .rejected := rfl
    rw [this, hi]
    rfl
  · rw [declared_set]; exact hs.declared x
  · have hf : ∀ x, x ≠ cs! "engine" → (s.set (cs! "engine") (.engine E.name E.description ni no (nb ++ [n]))).find x = s.find x :=
      fun x hx => by rw [find_set, if_neg hx]
    have hq : ∀ (y : Str) (q : Obj S), s.find y = some q → (∀ a b c d f, q ≠ .engine a b c d f) → y ≠ cs! "engine" := by
      rintro y q hy hq rfl
      rw [hc.engine] at hy
      exact hq _ _ _ _ _ (Option.some.inj hy).symm
    refine ⟨by rw [find_set, if_pos rfl, hc.engine]; rfl, hc.inputs.imp fun a b e => ?_, hc.outputs.imp fun a b e => ?_,
      forall₂_snoc (hc.blocks.imp fun a b e => ?_) ?_⟩
    · rw [hf a (hq a _ e (by simp))]; exact e
    · rw [hf a (hq a _ e (by simp))]; exact e
    · rw [hf a (hq a _ e (by simp))]; exact e
    · rw [hf n hs.fresh]; exact hs.find

/-- components with distinct local variables, one after the other -/
theorem does_indexed {α : Type} {G : Registry S} {o : Bool} (g : Nat → α → List Stmt) (name : Nat → α → Str)
    (step : Engine S → α → Except Err (Engine S)) (as : List α) (i : Nat) (E : Engine S) (D : List Str)
    (h : ∀ (j : Nat) (a : α), as[j]? = some a → ∀ (E' : Engine S) (D' : List Str), name (i + j) a ∉ D' →
      (∀ y ∈ D' ++ [name (i + j) a], y ∈ D ++ as.mapIdx fun j => name (i + j)) →
      Does G (State o E' D') (g (i + j) a) (step E' a) fun E'' => State o E'' (D' ++ [name (i + j) a]))
    (hn : (D ++ as.mapIdx fun j => name (i + j)).Nodup) :
    Does G (State o E D) (indexed g i as) (as.foldlM step E) fun E' => State o E' (D ++ as.mapIdx fun j => name (i + j)) := by
  induction as generalizing i E D with
  | nil =>
    simp only [List.mapIdx_nil, List.append_nil]
    exact Does.nil E fun s hs => hs
  | cons a as ih =>
    have e : (a :: as).mapIdx (fun j => name (i + j)) = name i a :: as.mapIdx fun j => name (i + 1 + j) := by
      rw [List.mapIdx_cons]
      congr 1
      congr 1
      funext j
      rw [show i + (j + 1) = i + 1 + j by omega]
    have e' : D ++ (a :: as).mapIdx (fun j => name (i + j)) = (D ++ [name i a]) ++ as.mapIdx fun j => name (i + 1 + j) := by
      rw [e]; simp
    rw [e'] at hn ⊢
    rw [List.foldlM_cons]
    refine Does.append (Q := fun E' => State o E' (D ++ [name i a])) (h 0 a rfl E D ?_ ?_) fun E' => ih (i + 1) E' _ ?_ hn
    · have := (List.nodup_append.1 hn).1
      rw [List.nodup_append] at this
      intro hm
      exact this.2.2 _ hm _ (by simp) rfl
    · intro y hy
      rw [e']
      exact List.mem_append_left _ hy
    · intro j b hb E'' D' hm hsub
      have := h (j + 1) b (by simpa using hb) E'' D'
      rw [show i + (j + 1) = i + 1 + j by omega] at this
      exact this hm (by rw [e']; exact hsub)

end FL.Cpp
