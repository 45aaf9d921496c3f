/-
Lemmas about loading rules in memory.
-/
import Verif.Lemmas.MemoryCopy

namespace FL.Own

local notation "Ptr" => Nat

variable {m m1 m2 m' : Mem} {L L1 L2 L' K K1 K2 : List Ptr} {U : Ptr → Prop} {e : Ptr}

/-! ### The engine -/

/-- `v` is a variable, and its terms exist -/
def IsVar (m : Mem) (U : Ptr → Prop) (v : Ptr) : Prop := U v ∧ ∃ ov, m.get v = some ov ∧ ∀ t ∈ ov.a, U t

/-- an engine with its variables and their terms, all among the objects `U` -/
structure Env (m : Mem) (e : Ptr) (U : Ptr → Prop) : Prop where
  alive : ∀ p, U p → ∃ o, m.get p = some o
  engine : ∃ oe, m.get e = some oe ∧ U e ∧ ∀ v ∈ oe.a ++ oe.b, IsVar m U v

theorem IsVar.frame (hm : m.Ok) (x : Effect m m' L L' K) (hd : ∀ p ∈ L, ¬ U p) {v : Ptr} (h : IsVar m U v) : IsVar m' U v := by
  obtain ⟨h1, ov, h2, h3⟩ := h
  exact ⟨h1, ov, x.get hm h2 (fun hc => hd v hc h1), h3⟩

theorem Env.frame (hm : m.Ok) (x : Effect m m' L L' K) (hd : ∀ p ∈ L, ¬ U p) (h : Env m e U) : Env m' e U := by
  refine ⟨fun p hp => ?_, ?_⟩
  · obtain ⟨o, ho⟩ := h.alive p hp
    exact ⟨o, x.get hm ho (fun hc => hd p hc hp)⟩
  · obtain ⟨oe, h1, h2, h3⟩ := h.engine
    exact ⟨oe, x.get hm h1 (fun hc => hd e hc h2), h2, fun v hv => (h3 v hv).frame hm x hd⟩

theorem Env.apart (h : Env m e U) (hm : m.Ok) (x : Effect m m' L L' K) (hd : ∀ p ∈ L, ¬ U p) : ∀ p, p ∈ L' ∨ p ∈ K → ¬ U p := by
  intro p hp hu
  rcases x.new p hp with h1 | h1
  · exact hd p h1 hu
  · obtain ⟨o, ho⟩ := h.alive p hu
    rw [hm p h1] at ho
    cases ho

theorem findNamed_eq (n : Str) {ps : List Ptr} (h : ∀ p ∈ ps, ∃ o, m.get p = some o) : ∃ r, findNamed n ps m = some (r, m) ∧ ∀ p, r = some p → p ∈ ps := by
  induction ps with
  | nil => exact ⟨none, rfl, by simp⟩
  | cons p ps ih =>
    obtain ⟨o, ho⟩ := h p (by simp)
    unfold findNamed
    rw [bind_eq (read_eq ho)]
    by_cases hn : o.text = n
    · rw [if_pos hn]
      exact ⟨some p, rfl, by simp⟩
    · rw [if_neg hn]
      obtain ⟨r, h1, h2⟩ := ih fun q hq => h q (by simp [hq])
      exact ⟨r, h1, fun q hq => by simp [h2 q hq]⟩

theorem find_eq (he : Env m e U) (n : Str) : ∃ r, Antecedent.find e n m = some (r, m) ∧ ∀ v, r = some v → IsVar m U v := by
  obtain ⟨oe, h1, -, h3⟩ := he.engine
  unfold Antecedent.find
  rw [bind_eq (read_eq h1)]
  obtain ⟨r, e1, e2⟩ := findNamed_eq (m := m) n (ps := oe.a) fun p hp => he.alive p (h3 p (by simp [hp])).1
  rw [bind_eq e1]
  cases r with
  | some v =>
    exact ⟨some v, rfl, fun w hw => by cases hw; exact h3 v (by simp [e2 v rfl])⟩
  | none =>
    obtain ⟨r, e1, e2⟩ := findNamed_eq (m := m) n (ps := oe.b) fun p hp => he.alive p (h3 p (by simp [hp])).1
    exact ⟨r, e1, fun w hw => h3 w (by simp [e2 w hw])⟩

theorem findTerm_eq (he : Env m e U) {v : Ptr} {ov : Obj} (hv : m.get v = some ov) (h : IsVar m U v) (n : Str) :
    ∃ r, findNamed n ov.a m = some (r, m) ∧ ∀ t, r = some t → U t := by
  obtain ⟨h1, ov', h2, h3⟩ := h
  rw [hv] at h2
  cases h2
  obtain ⟨r, e1, e2⟩ := findNamed_eq (m := m) n (ps := ov.a) fun p hp => he.alive p (h3 p hp)
  exact ⟨r, e1, fun t ht => h3 t (e2 t ht)⟩

/-! ### Work on objects -/

/-- references among some objects -/
abbrev RefsTo (m : Mem) (L : List Ptr) (U : Ptr → Prop) : Prop := RefsIn m L fun _ => U

/-- the objects `L` owned by `ps` become `L'`, and `K` is lost -/
structure Work (U : Ptr → Prop) (ps : List Ptr) (m m' : Mem) (L L' K : List Ptr) : Prop where
  effect : Effect m m' L L' K
  forest : Forest m'.own ps L'
  refs : RefsTo m L U → RefsTo m' L' U

theorem Work.refl {ps : List Ptr} (hm : m.Ok) (h : Forest m.own ps L) (hn : L.Nodup) : Work U ps m m L L [] :=
  ⟨.refl hm hn fun _ hp => h.live hp, h, fun h => h⟩

theorem Work.trans {ps : List Ptr} (hm : m.Ok) (h1 : Work U ps m m1 L L1 K1) (h2 : Work U ps m1 m2 L1 L2 K2) : Work U ps m m2 L L2 (K1 ++ K2) :=
  ⟨h1.effect.trans hm h2.effect, h2.forest, fun h => h2.refs (h1.refs h)⟩

theorem Work.nodup {ps : List Ptr} (h : Work U ps m m' L L' K) : L'.Nodup := (List.nodup_append'.1 h.effect.nodup).1

theorem Effect.nodupLeft (h : Effect m m' L L' K) : L'.Nodup := (List.nodup_append'.1 h.nodup).1

/-- work beside other objects -/
theorem Work.beside {ps qs : List Ptr} {X Y : List Ptr} (hm : m.Ok) (hX : Forest m.own ps X) (hY : Forest m.own qs Y) (hn : (X ++ (L ++ Y)).Nodup) {rs : List Ptr}
    (h : Work U rs m m' L L' K) : Work U (ps ++ (rs ++ qs)) m m' (X ++ (L ++ Y)) (X ++ (L' ++ Y)) K := by
  have n1 := List.nodup_append'.1 hn
  have n2 := List.nodup_append'.1 n1.2.1
  have dX : ∀ p ∈ X, p ∉ L := fun p hp hc => n1.2.2 hp (by simp [hc])
  have dY : ∀ p ∈ Y, p ∉ L := fun p hp hc => n2.2.2 hc hp
  refine ⟨?_, ?_, ?_⟩
  · have x := h.effect.extend hm (X := X ++ Y) (fun p hp => ?_) (fun p hp => ?_) ?_
    · refine x.congr (fun p => ?_) ?_
      · simp only [List.mem_append]; tauto
      · rw [List.append_assoc]
        exact List.Perm.append_left X List.perm_append_comm
    · rcases List.mem_append.1 hp with hp | hp
      · exact hX.live hp
      · exact hY.live hp
    · rcases List.mem_append.1 hp with hp | hp
      · exact dX p hp
      · exact dY p hp
    · refine List.nodup_append'.2 ⟨n1.1, n2.2.1, fun p hp hc => n1.2.2 hp (by simp [hc])⟩
  · exact (h.effect.forest hm hX dX).append (h.forest.append (h.effect.forest hm hY dY))
  · intro hr
    unfold RefsTo at hr ⊢
    rw [RefsIn.append, RefsIn.append] at hr ⊢
    exact ⟨h.effect.refs hm hX dX hr.1, h.refs hr.2.1, h.effect.refs hm hY dY hr.2.2⟩

/-- work on some of the objects that an object owns -/
theorem Work.inside {r : Ptr} {o : Obj} {ps l1 l3 : List Ptr} (hm : m.Ok) (hf : Forest m.own [r] L) (hn : L.Nodup) (hr : m.get r = some o) (ho : o.owned = l1 ++ (ps ++ l3)) :
    ∃ Lp, Forest m.own ps Lp ∧ Lp.Nodup ∧ (∀ p ∈ Lp, p ∈ L ∧ p ≠ r) ∧ ∀ {m' Lp' K}, Work U ps m m' Lp Lp' K → ∃ L', Work U [r] m m' L L' K ∧ m'.get r = some o := by
  obtain ⟨os, L0, h1, rfl, h2⟩ := hf.one_inv
  rw [own_eq hr] at h1
  cases h1
  rw [ho] at h2
  obtain ⟨X, L0, rfl, hX, h3⟩ := h2.split
  obtain ⟨Lp, Y, rfl, hp, hY⟩ := h3.split
  obtain ⟨hr0, hn0⟩ := List.nodup_cons.1 hn
  refine ⟨Lp, hp, ?_, ?_, ?_⟩
  · exact (List.nodup_append'.1 (List.nodup_append'.1 hn0).2.1).1
  · intro p hp
    refine ⟨by simp [hp], ?_⟩
    rintro rfl
    exact hr0 (by simp [hp])
  · intro m' Lp' K w
    have hrl : r ∉ Lp := fun hc => hr0 (by simp [hc])
    have w2 := w.beside hm hX hY hn0
    have hg := w.effect.get hm hr hrl
    refine ⟨r :: (X ++ (Lp' ++ Y)), ⟨?_, ?_, ?_⟩, hg⟩
    · have x := w2.effect.extend hm (X := [r]) (by simp [hr]) (by simpa using hr0) (by simp)
      simpa using x
    · refine .one (own_eq hg) ?_
      rw [ho]
      exact w2.forest
    · intro h
      unfold RefsTo at h ⊢
      rw [RefsIn.cons] at h ⊢
      refine ⟨?_, w2.refs h.2⟩
      rw [RefsIn.one hr] at h
      rw [RefsIn.one hg]
      exact h.1

/-- A computation on an object works on what it owns.  Nothing is lost if the result is good. -/
def Does {α : Type} (e : Ptr) (U : Ptr → Prop) (good : α → Prop) (ps : List Ptr) (f : M α) : Prop :=
  ∀ {m : Mem} {L : List Ptr}, m.Ok → Env m e U → Forest m.own ps L → L.Nodup → (∀ q ∈ L, ¬ U q) →
    ∃ x m' L' K, f m = some (x, m') ∧ Work U ps m m' L L' K ∧ (good x → K = [])

theorem Does.each {α : Type} {good : α → Prop} {f : Ptr → M α} (h : ∀ p, Does e U good [p] (f p)) (ps : List Ptr) :
    Does e U (fun xs => ∀ x ∈ xs, good x) ps (each f ps) := by
  induction ps with
  | nil =>
    intro m L hm he hf hn hd
    exact ⟨[], m, L, [], rfl, .refl hm hf hn, fun _ => rfl⟩
  | cons p ps ih =>
    intro m L hm he hf hn hd
    obtain ⟨L1, L2, rfl, f1, f2⟩ := Forest.split (ps := [p]) hf
    have n1 := List.nodup_append'.1 hn
    obtain ⟨x, m1, L1', K1, e1, w1, g1⟩ := h p hm he f1 n1.1 fun q hq => hd q (by simp [hq])
    have w1' := w1.beside (X := []) (ps := []) hm .nil f2 (by simpa using hn)
    simp only [List.nil_append] at w1'
    have hd1 : ∀ q ∈ L1' ++ L2, ¬ U q := fun q hq => he.apart hm w1'.effect hd q (Or.inl hq)
    have f2' := w1.effect.forest hm f2 fun q hq hc => n1.2.2 hc hq
    obtain ⟨xs, m2, L2', K2, e2, w2, g2⟩ := ih w1.effect.ok (he.frame hm w1'.effect hd) f2' n1.2.1 fun q hq => hd q (by simp [hq])
    have w2' := w2.beside (Y := []) (qs := []) w1.effect.ok w1.forest .nil (by simpa using w1'.nodup)
    simp only [List.append_nil] at w2'
    refine ⟨x :: xs, m2, L1' ++ L2', K1 ++ K2, ?_, ?_, ?_⟩
    · unfold Own.each
      rw [bind_eq e1, bind_eq e2, pure_eq]
    · exact w1'.trans hm w2'
    · intro hg
      rw [g1 (hg x (by simp)), g2 fun y hy => hg y (by simp [hy])]
      rfl

/-! ### Loading antecedents -/

/-- permutations by counting -/
local macro "perm" : tactic => `(tactic| (refine List.perm_iff_count.2 fun a => ?_; simp only [List.count_append, List.count_cons, List.count_nil]; omega))

theorem modify_owner {p : Ptr} {o : Obj} (hm : m.Ok) (hp : m.get p = some o) (f : Obj → Obj) {L2 : List Ptr} (h2 : Forest m.own (f o).owned L2) (hd : p ∉ L2) :
    ∃ m', modify p f m = some ((), m') ∧ Effect m m' [p] [p] [] ∧ Forest m'.own [p] (p :: L2) ∧ m'.get p = some (f o) ∧
      (∀ q, q ≠ p → m'.get q = m.get q) ∧ m'.next = m.next := by
  obtain ⟨m', e1, x1, g1, g2, n⟩ := modify_eq f hm hp
  refine ⟨m', e1, x1, .one (own_eq g1) (x1.forest hm h2 ?_), g1, g2, n⟩
  intro q hq hc
  simp at hc
  exact hd (hc ▸ hq)

/-- changes of the list `a`: what goes, stays and comes is given -/
theorem modify_refs {p : Ptr} {o o' : Obj} (hp : m.get p = some o) (hp' : m'.get p = some o') (hg : ∀ q, q ≠ p → m'.get q = m.get q)
    (hr : ∀ r ∈ o'.refs, r ∈ o.refs ∨ U r) {L2 : List Ptr} (h1 : RefsTo m [p] U) (h2 : RefsTo m L2 U) (hd : p ∉ L2) : RefsTo m' (p :: L2) U := by
  unfold RefsTo at *
  rw [RefsIn.cons, RefsIn.one hp']
  rw [RefsIn.one hp] at h1
  refine ⟨fun r h => ?_, ?_⟩
  · rcases hr r h with h | h
    · exact h1 r h
    · exact h
  · intro q hq oq hoq
    rw [hg q (fun hc => hd (hc ▸ hq))] at hoq
    exact h2 q hq oq hoq

theorem Antecedent.unload_work {p : Ptr} {o : Obj} {La Lr : List Ptr} (hm : m.Ok) (hp : m.get p = some o) (ha : Forest m.own o.a La)
    (hr : Forest m.own (o.b ++ o.c ++ o.d ++ o.e) Lr) (hn : (p :: (La ++ Lr)).Nodup) :
    ∃ m', Antecedent.unload p m = some ((), m') ∧ Work U [p] m m' (p :: (La ++ Lr)) (p :: Lr) [] ∧ m'.get p = some { o with a := [] } := by
  obtain ⟨h0, hn1⟩ := List.nodup_cons.1 hn
  have n2 := List.nodup_append'.1 hn1
  have hpa : p ∉ La := fun h => h0 (by simp [h])
  have hpr : p ∉ Lr := fun h => h0 (by simp [h])
  obtain ⟨m1, e1, x1, f1, g1, k1, -⟩ := modify_owner hm hp (fun o => { o with a := [] }) (L2 := Lr) (by simpa [Obj.owned] using hr) hpr
  have ha1 := x1.forest hm ha (by simp; rintro q hq rfl; exact hpa hq)
  obtain ⟨e2, x2⟩ := delete_eq x1.ok ha1 n2.1
  have dL : ∀ q ∈ p :: Lr, q ∉ La := by
    intro q hq hc
    rcases List.mem_cons.1 hq with rfl | hq
    · exact hpa hc
    · exact n2.2.2 hc hq
  have X1 := (x1.extend hm (X := La ++ Lr) (fun q hq => (ha.append hr).live hq) (by simp; rintro q hq rfl; simp [hpa, hpr] at hq) hn1)
  have X2 := x2.extend x1.ok (X := p :: Lr) (fun q hq => f1.live hq) dL (List.nodup_cons.2 ⟨hpr, n2.2.1⟩)
  have f2 := x2.forest x1.ok f1 dL
  refine ⟨_, ?_, ⟨?_, f2, ?_⟩, ?_⟩
  · unfold unload
    rw [bind_eq (read_eq hp), bind_eq e1, e2]
  · have X1' : Effect m m1 (p :: (La ++ Lr)) (p :: Lr ++ La) [] := X1.congr (by intro q; simp; tauto) (by perm)
    have := X1'.trans hm X2
    simpa using this
  · intro h
    have h' : RefsTo m [p] U ∧ RefsTo m Lr U := by
      unfold RefsTo at *
      rw [RefsIn.cons, RefsIn.append] at h
      exact ⟨h.1, h.2.2⟩
    exact x2.refs x1.ok f1 dL (modify_refs hp g1 k1 (fun r h => Or.inl h) h'.1 h'.2 hpr)
  · exact x2.get x1.ok g1 hpa

theorem Consequent.unload_work {p : Ptr} {o : Obj} {La Lr : List Ptr} (hm : m.Ok) (hp : m.get p = some o) (ha : Forest m.own o.a La)
    (hr : Forest m.own (o.b ++ o.c ++ o.d ++ o.e) Lr) (hn : (p :: (La ++ Lr)).Nodup) :
    ∃ m', Consequent.unload p m = some ((), m') ∧ Work U [p] m m' (p :: (La ++ Lr)) (p :: Lr) [] ∧ m'.get p = some { o with a := [] } := by
  obtain ⟨h0, hn1⟩ := List.nodup_cons.1 hn
  have n2 := List.nodup_append'.1 hn1
  have hpa : p ∉ La := fun h => h0 (by simp [h])
  have hpr : p ∉ Lr := fun h => h0 (by simp [h])
  obtain ⟨e1, x1⟩ := delete_eq hm ha n2.1
  have g0 := x1.get hm hp hpa
  have hr1 := x1.forest hm hr fun q hq hc => n2.2.2 hc hq
  obtain ⟨m2, e2, x2, f2, g2, k2, -⟩ := modify_owner x1.ok g0 (fun o => { o with a := [] }) (L2 := Lr) (by simpa [Obj.owned] using hr1) hpr
  have X1 := x1.extend hm (X := p :: Lr) (fun q hq => (by
    rcases List.mem_cons.1 hq with rfl | hq
    · simp [hp]
    · exact hr.live hq)) (by
      intro q hq hc
      rcases List.mem_cons.1 hq with rfl | hq
      · exact hpa hc
      · exact n2.2.2 hc hq) (List.nodup_cons.2 ⟨hpr, n2.2.1⟩)
  have X2 := x2.extend x1.ok (X := Lr) (fun q hq => hr1.live hq) (by simp; rintro q hq rfl; exact hpr hq) n2.2.1
  refine ⟨m2, ?_, ⟨?_, f2, ?_⟩, g2⟩
  · unfold unload
    rw [bind_eq (read_eq hp), bind_eq e1, e2]
  · have X2' : Effect (m.freeAll La) m2 (p :: Lr ++ []) (p :: Lr) [] := X2.congr (by intro q; simp; tauto) (by perm)
    have := X1.trans hm X2'
    refine this.congr (by intro q; simp; tauto) (List.Perm.refl _)
  · intro h
    have h' : RefsTo m [p] U ∧ RefsTo m Lr U := by
      unfold RefsTo at *
      rw [RefsIn.cons, RefsIn.append] at h
      exact ⟨h.1, h.2.2⟩
    refine modify_refs g0 g2 k2 (fun r h => Or.inl h) ?_ ?_ hpr
    · unfold RefsTo
      rw [RefsIn.one g0]
      exact (RefsIn.one hp).1 h'.1
    · exact x1.refs hm hr (fun q hq hc => n2.2.2 hc hq) h'.2

/-- the list `a` and the rest of an object -/
theorem Forest.partsA {p : Ptr} (h : Forest m.own [p] L) : ∃ o La Lr, m.get p = some o ∧ L = p :: (La ++ Lr) ∧ Forest m.own o.a La ∧
    Forest m.own (o.b ++ o.c ++ o.d ++ o.e) Lr := by
  obtain ⟨o, La, Lb, Lc, Ld, Le, ho, rfl, ha, hb, hc, hd, he⟩ := h.parts
  exact ⟨o, La, Lb ++ Lc ++ Ld ++ Le, ho, by simp, ha, ((hb.append hc).append hd).append he⟩

theorem Antecedent.unload_does (p : Ptr) : Does e U (fun _ => True) [p] (Antecedent.unload p) := by
  intro m L hm he hf hn hd
  obtain ⟨o, La, Lr, ho, rfl, ha, hr⟩ := hf.partsA
  obtain ⟨m', e1, w, -⟩ := unload_work hm ho ha hr hn
  exact ⟨_, m', _, _, e1, w, fun _ => rfl⟩

theorem Consequent.unload_does (p : Ptr) : Does e U (fun _ => True) [p] (Consequent.unload p) := by
  intro m L hm he hf hn hd
  obtain ⟨o, La, Lr, ho, rfl, ha, hr⟩ := hf.partsA
  obtain ⟨m', e1, w, -⟩ := unload_work hm ho ha hr hn
  exact ⟨_, m', _, _, e1, w, fun _ => rfl⟩

namespace Antecedent

/-- what is known of the stack and the state of the loop -/
structure Inv (U : Ptr → Prop) (m : Mem) (stack L : List Ptr) (st : State) : Prop where
  forest : Forest m.own stack L
  nodup : L.Nodup
  apart : ∀ p ∈ L, ¬ U p
  refs : RefsTo m L U
  top : ∀ q, st = .is q ∨ st = .hedgeTerm q → ∃ rest o v, stack = q :: rest ∧ m.get q = some o ∧ o.refs = [v] ∧ IsVar m U v

/-- an object gets another one that is new -/
theorem modify_add {q h : Ptr} {o : Obj} {Lq Lh : List Ptr} (hm : m.Ok) (hq : m.get q = some o) (hf : Forest m.own [q] Lq) (hh : Forest m.own [h] Lh)
    (hn : (Lq ++ Lh).Nodup) : ∃ m' Lq', modify q (fun o => { o with a := o.a ++ [h] }) m = some ((), m') ∧ Work U [q] m m' (Lq ++ Lh) Lq' [] ∧
      m'.get q = some { o with a := o.a ++ [h] } ∧ ∀ p, p ≠ q → m'.get p = m.get p := by
  obtain ⟨o', La, Lr, ho, rfl, ha, hr⟩ := hf.partsA
  rw [hq] at ho
  cases ho
  have n0 : (q :: (La ++ Lr ++ Lh)).Nodup := by simpa using hn
  obtain ⟨h0, hn1⟩ := List.nodup_cons.1 n0
  have hd : q ∉ La ++ Lh ++ Lr := by
    intro hc
    apply h0
    simp only [List.mem_append] at hc ⊢
    tauto
  obtain ⟨m1, e1, x1, f1, g1, k1, -⟩ := modify_owner hm hq (fun o => { o with a := o.a ++ [h] }) (L2 := La ++ Lh ++ Lr)
    (by
      have := (ha.append hh).append hr
      simpa [Obj.owned] using this) hd
  refine ⟨m1, q :: (La ++ Lh ++ Lr), e1, ⟨?_, f1, ?_⟩, g1, k1⟩
  · have X := x1.extend hm (X := La ++ Lr ++ Lh) (fun p hp => ((ha.append hr).append hh).live hp) (by simp only [List.mem_singleton]; rintro p hp rfl; exact h0 hp) hn1
    exact X.congr (by intro p; simp; tauto) (by perm)
  · intro h
    have h' : RefsTo m [q] U ∧ RefsTo m (La ++ Lh ++ Lr) U := by
      unfold RefsTo at *
      rw [List.cons_append, RefsIn.cons, RefsIn.append, RefsIn.append] at h
      rw [RefsIn.append, RefsIn.append]
      tauto
    exact modify_refs hq g1 k1 (fun r h => Or.inl h) h'.1 h'.2 hd

/-- an object gets another reference -/
theorem modify_ref {q t : Ptr} {o : Obj} {Lq : List Ptr} (hm : m.Ok) (hq : m.get q = some o) (hf : Forest m.own [q] Lq) (hn : Lq.Nodup) (ht : U t) :
    ∃ m', modify q (fun o => { o with refs := o.refs ++ [t] }) m = some ((), m') ∧ Work U [q] m m' Lq Lq [] := by
  obtain ⟨os, L1, h1, rfl, hf1⟩ := hf.one_inv
  rw [own_eq hq] at h1
  cases h1
  obtain ⟨h0, hn1⟩ := List.nodup_cons.1 hn
  obtain ⟨m1, e1, x1, f1, g1, k1, -⟩ := modify_owner hm hq (fun o => { o with refs := o.refs ++ [t] }) (L2 := L1) hf1 h0
  refine ⟨m1, e1, ⟨?_, f1, ?_⟩⟩
  · have X := x1.extend hm (X := L1) (fun p hp => hf1.live hp) (by simp only [List.mem_singleton]; rintro p hp rfl; exact h0 hp) hn1
    exact X.congr (by intro p; simp; tauto) (by perm)
  · intro h
    have h' : RefsTo m [q] U ∧ RefsTo m L1 U := by
      unfold RefsTo at *
      rwa [RefsIn.cons] at h
    refine modify_refs hq g1 k1 ?_ h'.1 h'.2 h0
    intro r hr
    simp at hr
    rcases hr with hr | rfl
    · exact Or.inl hr
    · exact Or.inr ht

/-- the invariant after work on the top of the stack -/
theorem Inv.work {stack L1 L2 L1' : List Ptr} {q : Ptr} {st : State} (he : Env m e U) (hm : m.Ok) (hn : (L1 ++ L2).Nodup) (ha : ∀ p ∈ L1 ++ L2, ¬ U p)
    (hr : RefsTo m (L1 ++ L2) U) (h2 : Forest m.own stack L2) (w : Work U [q] m m' L1 L1' [])
    (ht : ∀ q', st = .is q' ∨ st = .hedgeTerm q' → q' = q ∧ ∃ o v, m'.get q = some o ∧ o.refs = [v] ∧ IsVar m U v) :
    Effect m m' (L1 ++ L2) (L1' ++ L2) [] ∧ Inv U m' (q :: stack) (L1' ++ L2) st := by
  have w1 := w.beside (X := []) (ps := []) hm .nil h2 (by simpa using hn)
  simp only [List.nil_append] at w1
  refine ⟨w1.effect, ⟨w1.forest, w1.nodup, fun p hp => he.apart hm w1.effect ha p (Or.inl hp), w1.refs hr, ?_⟩⟩
  intro q' hq'
  obtain ⟨rfl, o, v, h1, h2, h3⟩ := ht q' hq'
  exact ⟨stack, o, v, rfl, h1, h2, h3.frame hm w1.effect ha⟩

/-- a new variable -/
theorem push {stack : List Ptr} {v : Ptr} {st : State} (hm : m.Ok) (he : Env m e U) (h : Inv U m stack L st) (hv : IsVar m U v) :
    ∃ q m' L', alloc { cls := .proposition, refs := [v] } m = some (q, m') ∧ Effect m m' L L' [] ∧ Inv U m' (q :: stack) L' (.is q) := by
  obtain ⟨m1, e1, x1, g1, -, -⟩ := alloc_eq m { cls := .proposition, refs := [v] } hm
  have X := x1.extend hm (X := L) (fun p hp => h.forest.live hp) (by simp) h.nodup
  have X' : Effect m m1 L (m.next :: L) [] := X.congr (by simp) (by perm)
  refine ⟨_, m1, m.next :: L, e1, X', ⟨?_, X'.nodupLeft, fun p hp => he.apart hm X' h.apart p (Or.inl hp), ?_, ?_⟩⟩
  · exact (Forest.leaf g1).append (x1.forest hm h.forest (by simp))
  · unfold RefsTo
    rw [RefsIn.cons, RefsIn.one g1]
    refine ⟨?_, x1.refs hm h.forest (by simp) h.refs⟩
    intro r hr
    simp at hr
    exact hr ▸ hv.1
  · intro q hq
    simp at hq
    subst hq
    exact ⟨stack, _, v, rfl, g1, rfl, hv.frame hm x1 (by simp)⟩

theorem step_eq (H : Hedges) {stack : List Ptr} {st : State} (t : Str) (hm : m.Ok) (he : Env m e U) (h : Inv U m stack L st) :
    step H e stack st t m = some (none, m) ∨
    ∃ stack' st' m' L', step H e stack st t m = some (some (stack', st'), m') ∧ Effect m m' L L' [] ∧ Inv U m' stack' L' st' := by
  cases st with
  | «variable» =>
    obtain ⟨r, e1, e2⟩ := find_eq he t
    unfold step
    simp only
    rw [bind_eq e1]
    cases r with
    | none => left; simp; rfl
    | some v =>
      right
      obtain ⟨q, m', L', e3, x, i⟩ := push hm he h (e2 v rfl)
      refine ⟨q :: stack, .is q, m', L', ?_, x, i⟩
      simp only
      rw [bind_eq e3, pure_eq]
  | variableAndOr =>
    obtain ⟨r, e1, e2⟩ := find_eq he t
    unfold step
    simp only
    rw [bind_eq e1]
    cases r with
    | some v =>
      right
      obtain ⟨q, m', L', e3, x, i⟩ := push hm he h (e2 v rfl)
      refine ⟨q :: stack, .is q, m', L', ?_, x, i⟩
      simp only
      rw [bind_eq e3, pure_eq]
    | none =>
      simp only [true_and]
      by_cases hk : t = andKeyword ∨ t = orKeyword
      · rw [if_pos hk]
        match stack, h with
        | [], _ => left; rfl
        | [_], _ => left; rfl
        | r :: l :: rest, h =>
          right
          obtain ⟨m1, e1, x1, g1, -, -⟩ := alloc_eq m { cls := .operator, text := t, a := [l], b := [r] } hm
          obtain ⟨Lr, L0, rfl, fr, f0⟩ := Forest.split (ps := [r]) h.forest
          obtain ⟨Ll, L0, rfl, fl, f0⟩ := Forest.split (ps := [l]) f0
          have X := x1.extend hm (X := Lr ++ (Ll ++ L0)) (fun p hp => h.forest.live hp) (by simp) h.nodup
          have X' : Effect m m1 (Lr ++ (Ll ++ L0)) (m.next :: (Ll ++ Lr) ++ L0) [] := X.congr (by simp) (by perm)
          refine ⟨m.next :: rest, .variableAndOr, m1, m.next :: (Ll ++ Lr) ++ L0, ?_, X', ⟨?_, X'.nodupLeft, fun p hp => he.apart hm X' h.apart p (Or.inl hp), ?_, ?_⟩⟩
          · simp only
            rw [bind_eq e1, pure_eq]
          · refine Forest.append (ps := [m.next]) (.one (own_eq g1) ?_) (x1.forest hm f0 (by simp))
            have := (x1.forest hm fl (by simp)).append (x1.forest hm fr (by simp))
            simpa [Obj.owned] using this
          · have hr := h.refs
            unfold RefsTo at *
            rw [RefsIn.append, RefsIn.append] at hr
            rw [List.cons_append, RefsIn.cons, RefsIn.append, RefsIn.append, RefsIn.one g1]
            exact ⟨by simp, ⟨x1.refs hm fl (by simp) hr.2.1, x1.refs hm fr (by simp) hr.1⟩, x1.refs hm f0 (by simp) hr.2.2⟩
          · intro q hq
            simp at hq
      · rw [if_neg hk]
        left; rfl
  | is q =>
    unfold step
    simp only
    by_cases hk : t = isKeyword
    · right
      refine ⟨stack, .hedgeTerm q, m, L, by rw [if_pos hk]; rfl, .refl hm h.nodup fun p hp => h.forest.live hp, ⟨h.forest, h.nodup, h.apart, h.refs, ?_⟩⟩
      intro q' hq'
      simp at hq'
      subst hq'
      exact h.top q (Or.inl rfl)
    · left
      rw [if_neg hk]; rfl
  | hedgeTerm q =>
    obtain ⟨rest, o, v, rfl, hq, hv, hiv⟩ := h.top q (Or.inr rfl)
    obtain ⟨Lq, L0, rfl, fq, f0⟩ := Forest.split (ps := [q]) h.forest
    unfold step
    simp only
    cases hH : H t with
    | some any =>
      right
      obtain ⟨m1, e1, x1, g1, -, -⟩ := alloc_eq m { cls := .leaf, text := t } hm
      have X := x1.extend hm (X := Lq ++ L0) (fun p hp => h.forest.live hp) (by simp) h.nodup
      have X' : Effect m m1 (Lq ++ L0) ((Lq ++ [m.next]) ++ L0) [] := X.congr (by simp) (by perm)
      have hn := X'.nodupLeft
      obtain ⟨m2, Lq', e2, w2, g2, -⟩ := modify_add (U := U) x1.ok (x1.get hm hq (by simp)) (x1.forest hm fq (by simp)) (Forest.leaf g1) (List.nodup_append'.1 hn).1
      have hr : RefsTo m1 ((Lq ++ [m.next]) ++ L0) U := by
        have hr := h.refs
        unfold RefsTo at *
        rw [RefsIn.append] at hr
        rw [RefsIn.append, RefsIn.append, RefsIn.one g1]
        exact ⟨⟨x1.refs hm fq (by simp) hr.1, by simp⟩, x1.refs hm f0 (by simp) hr.2⟩
      obtain ⟨x3, i3⟩ := Inv.work (st := if any then .variableAndOr else .hedgeTerm q) (he.frame hm x1 (by simp)) x1.ok hn
        (fun p hp => he.apart hm X' h.apart p (Or.inl hp)) hr (x1.forest hm f0 (by simp)) w2 (by
          intro q' hq'
          cases any with
          | true => simp at hq'
          | false =>
            simp at hq'
            exact ⟨hq'.symm, _, v, g2, hv, hiv.frame hm x1 (by simp)⟩)
      refine ⟨q :: rest, _, m2, _, ?_, X'.trans hm x3, i3⟩
      simp only
      rw [bind_eq e1, bind_eq e2, pure_eq]
    | none =>
      simp only
      rw [bind_eq (read_eq hq)]
      obtain ⟨hu, ov, hov, hts⟩ := hiv
      have hhd : o.refs.headD 0 = v := by rw [hv]; rfl
      rw [hhd, bind_eq (read_eq hov)]
      obtain ⟨r, e1, e2⟩ := findTerm_eq he hov ⟨hu, ov, hov, hts⟩ t
      rw [bind_eq e1]
      cases r with
      | none => left; rfl
      | some tm =>
        right
        obtain ⟨m1, e3, w3⟩ := modify_ref (U := U) hm hq fq (List.nodup_append'.1 h.nodup).1 (e2 tm rfl)
        obtain ⟨x4, i4⟩ := Inv.work (st := .variableAndOr) he hm h.nodup h.apart h.refs f0 w3 (by simp)
        refine ⟨q :: rest, .variableAndOr, m1, _, ?_, x4, i4⟩
        simp only
        rw [bind_eq e3, pure_eq]

theorem run_eq (H : Hedges) {stack : List Ptr} {st : State} (ts : List Str) (hm : m.Ok) (he : Env m e U) (h : Inv U m stack L st) :
    ∃ stack' st' m' L', run H e stack st ts m = some ((stack', st'), m') ∧ Effect m m' L L' [] ∧ Forest m'.own stack' L' ∧ RefsTo m' L' U := by
  induction ts generalizing m stack L st with
  | nil => exact ⟨stack, some st, m, L, rfl, .refl hm h.nodup fun p hp => h.forest.live hp, h.forest, h.refs⟩
  | cons t ts ih =>
    unfold run
    rcases step_eq H t hm he h with e1 | ⟨stack1, st1, m1, L1, e1, x1, i1⟩
    · refine ⟨stack, none, m, L, ?_, .refl hm h.nodup fun p hp => h.forest.live hp, h.forest, h.refs⟩
      rw [bind_eq e1]
      rfl
    · obtain ⟨stack2, st2, m2, L2, e2, x2, f2, r2⟩ := ih x1.ok (he.frame hm x1 h.apart) i1
      refine ⟨stack2, st2, m2, L2, ?_, x1.trans hm x2, f2, r2⟩
      rw [bind_eq e1]
      exact e2

/-- losing everything -/
theorem lose {ps : List Ptr} (hm : m.Ok) (h : Forest m.own ps L) (hn : L.Nodup) : Effect m m L [] L where
  ok := hm
  le := le_rfl
  frame _ _ _ _ := rfl
  freed _ h1 _ h3 := absurd h1 h3
  new p hp := Or.inl (by simpa using hp)
  nodup := by simpa using hn
  live p hp := h.live (by simpa using hp)

/-- the handler of exceptions deletes half of the stack, and loses the other half -/
theorem discard_eq {stack : List Ptr} (i : Nat) (hm : m.Ok) (h : Forest m.own stack L) (hn : L.Nodup) :
    ∃ m' K, discard i stack m = some ((), m') ∧ Effect m m' L [] K ∧ Forest m'.own (stack.drop ((stack.length - i + 1) / 2)) K := by
  induction stack generalizing m L i with
  | nil =>
    cases h
    exact ⟨m, [], rfl, lose hm .nil hn, by simpa using Forest.nil⟩
  | cons p ps ih =>
    unfold discard
    by_cases hi : i < ps.length + 1
    · rw [if_pos hi]
      obtain ⟨Lp, Ls, rfl, fp, fs⟩ := Forest.split (ps := [p]) h
      have n1 := List.nodup_append'.1 hn
      obtain ⟨e1, x1⟩ := delete_eq hm fp n1.1
      have hd : ∀ q ∈ Ls, q ∉ Lp := fun q hq hc => n1.2.2 hc hq
      have X := x1.extend hm (X := Ls) (fun q hq => fs.live hq) hd n1.2.1
      obtain ⟨m2, K, e2, x2, f2⟩ := ih (i + 1) x1.ok (x1.forest hm fs hd) n1.2.1
      refine ⟨m2, K, ?_, ?_, ?_⟩
      · rw [bind_eq e1, e2]
      · have X' : Effect m (m.freeAll Lp) (Lp ++ Ls) Ls [] := X.congr (by intro q; simp; tauto) (by perm)
        exact X'.trans hm x2
      · have : ((p :: ps).length - i + 1) / 2 = (ps.length - (i + 1) + 1) / 2 + 1 := by
          rw [List.length_cons]
          omega
        rw [this, List.drop_succ_cons]
        exact f2
    · rw [if_neg hi]
      refine ⟨m, L, rfl, lose hm h hn, ?_⟩
      have : ((p :: ps).length - i + 1) / 2 = 0 := by
        rw [List.length_cons]
        omega
      rw [this]
      exact h

theorem deleteMany_eq {stack : List Ptr} (hm : m.Ok) (h : Forest m.own stack L) (hn : L.Nodup) :
    ∃ s m' L', deleteMany stack m = some (s, m') ∧ Effect m m' L L' [] ∧ Forest m'.own s L' ∧ s.length ≤ 1 := by
  induction stack generalizing m L with
  | nil =>
    exact ⟨[], m, L, rfl, .refl hm hn fun p hp => h.live hp, h, by simp⟩
  | cons p ps ih =>
    cases ps with
    | nil => exact ⟨[p], m, L, rfl, .refl hm hn fun p hp => h.live hp, h, by simp⟩
    | cons q rest =>
      unfold deleteMany
      obtain ⟨Lp, Ls, rfl, fp, fs⟩ := Forest.split (ps := [p]) h
      have n1 := List.nodup_append'.1 hn
      obtain ⟨e1, x1⟩ := delete_eq hm fp n1.1
      have hd : ∀ q ∈ Ls, q ∉ Lp := fun q hq hc => n1.2.2 hc hq
      have X := x1.extend hm (X := Ls) (fun q hq => fs.live hq) hd n1.2.1
      obtain ⟨s, m2, L2, e2, x2, f2, l2⟩ := ih x1.ok (x1.forest hm fs hd) n1.2.1
      refine ⟨s, m2, L2, ?_, ?_, f2, l2⟩
      · rw [bind_eq e1, e2]
      · have X' : Effect m (m.freeAll Lp) (Lp ++ Ls) Ls [] := X.congr (by intro q; simp; tauto) (by perm)
        exact X'.trans hm x2

end Antecedent

end FL.Own
