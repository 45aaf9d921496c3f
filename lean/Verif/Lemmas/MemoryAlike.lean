/-
Lemmas about what copies look like.
-/
import Verif.Lemmas.MemoryEngine

namespace FL.Own

local notation "Ptr" => Nat

variable {m m1 m2 m' : Mem} {L : List Ptr} {e : Ptr} {U : Ptr → Prop}

/-- objects remain as they are -/
def Grows (m m' : Mem) : Prop := ∀ x o, m.get x = some o → m'.get x = some o

theorem Grows.refl (m : Mem) : Grows m m := fun _ _ h => h

theorem Grows.trans (h1 : Grows m m1) (h2 : Grows m1 m2) : Grows m m2 := fun x o h => h2 x o (h1 x o h)

theorem bind_some {α β : Type} {f : M α} {g : α → M β} {y : β} (h : (f >>= g) m = some (y, m')) : ∃ x m1, f m = some (x, m1) ∧ g x m1 = some (y, m') := by
  simp only [bind, StateT.bind] at h
  cases hf : f m with
  | none => simp [hf] at h
  | some r =>
    rw [hf] at h
    exact ⟨r.1, r.2, rfl, h⟩

theorem pure_some {α : Type} {x y : α} (h : (pure x : M α) m = some (y, m')) : x = y ∧ m = m' := by
  simpa [pure, StateT.pure] using h

theorem read_some {p : Ptr} {o : Obj} (h : read p m = some (o, m')) : m.get p = some o ∧ m = m' := by
  unfold read at h
  cases hp : m.get p with
  | none => simp [hp] at h
  | some o' =>
    simp only [hp, Option.map_some, Option.some.injEq, Prod.mk.injEq] at h
    exact ⟨by rw [h.1], h.2⟩

theorem alloc_some {p : Ptr} {o : Obj} (hm : m.Ok) (h : alloc o m = some (p, m')) : Grows m m' ∧ m'.get p = some o ∧ m'.Ok := by
  obtain ⟨m1, e1, x1, g1, -, -⟩ := alloc_eq m o hm
  rw [e1] at h
  cases h
  exact ⟨fun x o' ho => x1.get hm ho (by simp), g1, x1.ok⟩

/-- the objects of a list are copied one after the other -/
theorem each_alike {f : Ptr → M Ptr} {P : Mem → Ptr → Ptr → Prop} (mono : ∀ {m m' p q}, Grows m m' → P m p q → P m' p q)
    (hf : ∀ {m p q m'}, m.Ok → f p m = some (q, m') → Grows m m' ∧ P m' p q ∧ m'.Ok) {ps qs : List Ptr} (hm : m.Ok) (h : each f ps m = some (qs, m')) :
    Grows m m' ∧ List.Forall₂ (P m') ps qs ∧ m'.Ok := by
  induction ps generalizing m qs with
  | nil =>
    obtain ⟨rfl, rfl⟩ := pure_some h
    exact ⟨.refl _, .nil, hm⟩
  | cons p ps ih =>
    unfold each at h
    obtain ⟨x, m1, h1, h2⟩ := bind_some h
    obtain ⟨xs, m2, h3, h4⟩ := bind_some h2
    obtain ⟨rfl, rfl⟩ := pure_some h4
    obtain ⟨g1, p1, k1⟩ := hf hm h1
    obtain ⟨g2, p2, k2⟩ := ih k1 h3
    exact ⟨g1.trans g2, .cons (mono g2 p1) p2, k2⟩

/-- clones of objects that own nothing -/
def IsClone (m : Mem) (p q : Ptr) : Prop := ∃ o, m.get p = some o ∧ m.get q = some { cls := o.cls, text := o.text, refs := o.refs }

theorem IsClone.mono {p q : Ptr} (hg : Grows m m') (h : IsClone m p q) : IsClone m' p q := by
  obtain ⟨o, h1, h2⟩ := h
  exact ⟨o, hg _ _ h1, hg _ _ h2⟩

theorem IsClone.all {ps qs : List Ptr} (hg : Grows m m') (h : List.Forall₂ (IsClone m) ps qs) : List.Forall₂ (IsClone m') ps qs := h.imp fun _ _ => IsClone.mono hg

theorem clone_alike {p q : Ptr} (hm : m.Ok) (h : clone p m = some (q, m')) : Grows m m' ∧ IsClone m' p q ∧ m'.Ok := by
  unfold clone at h
  obtain ⟨o, m1, h1, h2⟩ := bind_some h
  obtain ⟨h3, rfl⟩ := read_some h1
  obtain ⟨h4, h5, h6⟩ := alloc_some hm h2
  exact ⟨h4, ⟨o, h4 _ _ h3, h5⟩, h6⟩

theorem clones_alike {ps qs : List Ptr} (hm : m.Ok) (h : each clone ps m = some (qs, m')) : Grows m m' ∧ List.Forall₂ (IsClone m') ps qs ∧ m'.Ok :=
  each_alike (P := IsClone) (fun hg h => h.mono hg) clone_alike hm h

/-- copies of fuzzy outputs -/
def Aggregated.IsCopy (m : Mem) (p q : Ptr) : Prop := ∃ o a, m.get p = some o ∧ m.get q = some { cls := o.cls, text := o.text, a := a, refs := o.refs } ∧ List.Forall₂ (IsClone m) o.a a

theorem Aggregated.IsCopy.mono {p q : Ptr} (hg : Grows m m') (h : IsCopy m p q) : IsCopy m' p q := by
  obtain ⟨o, a, h1, h2, h3⟩ := h
  exact ⟨o, a, hg _ _ h1, hg _ _ h2, IsClone.all hg h3⟩

theorem Aggregated.copy_alike {p q : Ptr} (hm : m.Ok) (h : copy p m = some (q, m')) : Grows m m' ∧ IsCopy m' p q ∧ m'.Ok := by
  unfold copy at h
  obtain ⟨o, m1, h1, h2⟩ := bind_some h
  obtain ⟨h3, rfl⟩ := read_some h1
  obtain ⟨a, m2, h4, h5⟩ := bind_some h2
  obtain ⟨g1, p1, k1⟩ := clones_alike hm h4
  obtain ⟨g2, p2, k2⟩ := alloc_some k1 h5
  exact ⟨g1.trans g2, ⟨o, a, g2 _ _ (g1 _ _ h3), p2, IsClone.all g2 p1⟩, k2⟩

/-- copies of variables -/
def Variable.IsCopy (m : Mem) (p q : Ptr) : Prop := ∃ o a, m.get p = some o ∧ m.get q = some { cls := o.cls, text := o.text, a := a } ∧ List.Forall₂ (IsClone m) o.a a

theorem Variable.IsCopy.mono {p q : Ptr} (hg : Grows m m') (h : IsCopy m p q) : IsCopy m' p q := by
  obtain ⟨o, a, h1, h2, h3⟩ := h
  exact ⟨o, a, hg _ _ h1, hg _ _ h2, IsClone.all hg h3⟩

theorem Variable.copy_alike {p q : Ptr} (hm : m.Ok) (h : copy p m = some (q, m')) : Grows m m' ∧ IsCopy m' p q ∧ m'.Ok := by
  unfold copy at h
  obtain ⟨o, m1, h1, h2⟩ := bind_some h
  obtain ⟨h3, rfl⟩ := read_some h1
  obtain ⟨a, m2, h4, h5⟩ := bind_some h2
  obtain ⟨g1, p1, k1⟩ := clones_alike hm h4
  obtain ⟨g2, p2, k2⟩ := alloc_some k1 h5
  exact ⟨g1.trans g2, ⟨o, a, g2 _ _ (g1 _ _ h3), p2, IsClone.all g2 p1⟩, k2⟩

/-- copies of output variables -/
def OutputVariable.IsCopy (m : Mem) (p q : Ptr) : Prop := ∃ o a b c, m.get p = some o ∧ m.get q = some { cls := o.cls, text := o.text, a := a, b := b, c := c } ∧
  List.Forall₂ (IsClone m) o.a a ∧ List.Forall₂ (Aggregated.IsCopy m) o.b b ∧ List.Forall₂ (IsClone m) o.c c

theorem OutputVariable.IsCopy.mono {p q : Ptr} (hg : Grows m m') (h : IsCopy m p q) : IsCopy m' p q := by
  obtain ⟨o, a, b, c, h1, h2, h3, h4, h5⟩ := h
  exact ⟨o, a, b, c, hg _ _ h1, hg _ _ h2, IsClone.all hg h3, h4.imp fun _ _ h => h.mono hg, IsClone.all hg h5⟩

theorem OutputVariable.copy_alike {p q : Ptr} (hm : m.Ok) (h : copy p m = some (q, m')) : Grows m m' ∧ IsCopy m' p q ∧ m'.Ok := by
  unfold copy at h
  obtain ⟨o, m1, h1, h2⟩ := bind_some h
  obtain ⟨h3, rfl⟩ := read_some h1
  obtain ⟨a, m2, h4, h5⟩ := bind_some h2
  obtain ⟨b, m3, h6, h7⟩ := bind_some h5
  obtain ⟨c, m4, h8, h9⟩ := bind_some h7
  obtain ⟨g1, p1, k1⟩ := clones_alike hm h4
  obtain ⟨g2, p2, k2⟩ := each_alike (P := Aggregated.IsCopy) (fun hg h => h.mono hg) Aggregated.copy_alike k1 h6
  obtain ⟨g3, p3, k3⟩ := clones_alike k2 h8
  obtain ⟨g4, p4, k4⟩ := alloc_some k3 h9
  have g34 := g3.trans g4
  have g24 := g2.trans g34
  exact ⟨g1.trans g24, ⟨o, a, b, c, g24 _ _ (g1 _ _ h3), p4, IsClone.all g24 p1, p2.imp fun _ _ h => h.mono g34, IsClone.all g4 p3⟩, k4⟩

/-- copies of rules are not loaded -/
def Rule.IsCopy (m : Mem) (p q : Ptr) : Prop := ∃ o a b, m.get p = some o ∧ m.get q = some { cls := o.cls, text := o.text, a := [a], b := [b] } ∧
  m.get a = some { cls := .antecedent } ∧ m.get b = some { cls := .consequent }

theorem Rule.IsCopy.mono {p q : Ptr} (hg : Grows m m') (h : IsCopy m p q) : IsCopy m' p q := by
  obtain ⟨o, a, b, h1, h2, h3, h4⟩ := h
  exact ⟨o, a, b, hg _ _ h1, hg _ _ h2, hg _ _ h3, hg _ _ h4⟩

theorem Rule.copy_alike {p q : Ptr} (hm : m.Ok) (h : copy p m = some (q, m')) : Grows m m' ∧ IsCopy m' p q ∧ m'.Ok := by
  unfold copy at h
  obtain ⟨o, m1, h1, h2⟩ := bind_some h
  obtain ⟨h3, rfl⟩ := read_some h1
  obtain ⟨a, m2, h4, h5⟩ := bind_some h2
  obtain ⟨b, m3, h6, h7⟩ := bind_some h5
  obtain ⟨g1, p1, k1⟩ := alloc_some hm h4
  obtain ⟨g2, p2, k2⟩ := alloc_some k1 h6
  obtain ⟨g3, p3, k3⟩ := alloc_some k2 h7
  have g23 := g2.trans g3
  exact ⟨g1.trans g23, ⟨o, a, b, g23 _ _ (g1 _ _ h3), p3, g23 _ _ p1, g3 _ _ p2⟩, k3⟩

/-- copies of rule blocks -/
def RuleBlock.IsCopy (m : Mem) (p q : Ptr) : Prop := ∃ o a b c d e, m.get p = some o ∧ m.get q = some { cls := o.cls, text := o.text, a := a, b := b, c := c, d := d, e := e } ∧
  List.Forall₂ (Rule.IsCopy m) o.a a ∧ List.Forall₂ (IsClone m) o.b b ∧ List.Forall₂ (IsClone m) o.c c ∧ List.Forall₂ (IsClone m) o.d d ∧ List.Forall₂ (IsClone m) o.e e

theorem RuleBlock.IsCopy.mono {p q : Ptr} (hg : Grows m m') (h : IsCopy m p q) : IsCopy m' p q := by
  obtain ⟨o, a, b, c, d, e, h1, h2, h3, h4, h5, h6, h7⟩ := h
  exact ⟨o, a, b, c, d, e, hg _ _ h1, hg _ _ h2, h3.imp fun _ _ h => h.mono hg, IsClone.all hg h4, IsClone.all hg h5, IsClone.all hg h6, IsClone.all hg h7⟩

theorem RuleBlock.copy_alike {p q : Ptr} (hm : m.Ok) (h : copy p m = some (q, m')) : Grows m m' ∧ IsCopy m' p q ∧ m'.Ok := by
  unfold copy at h
  obtain ⟨o, m1, h1, h⟩ := bind_some h
  obtain ⟨h3, rfl⟩ := read_some h1
  obtain ⟨b, m2, h4, h⟩ := bind_some h
  obtain ⟨c, m3, h5, h⟩ := bind_some h
  obtain ⟨d, m4, h6, h⟩ := bind_some h
  obtain ⟨e, m5, h7, h⟩ := bind_some h
  obtain ⟨a, m6, h8, h9⟩ := bind_some h
  obtain ⟨g1, p1, k1⟩ := clones_alike hm h4
  obtain ⟨g2, p2, k2⟩ := clones_alike k1 h5
  obtain ⟨g3, p3, k3⟩ := clones_alike k2 h6
  obtain ⟨g4, p4, k4⟩ := clones_alike k3 h7
  obtain ⟨g5, p5, k5⟩ := each_alike (P := Rule.IsCopy) (fun hg h => h.mono hg) Rule.copy_alike k4 h8
  obtain ⟨g6, p6, k6⟩ := alloc_some k5 h9
  have g56 := g5.trans g6
  have g46 := g4.trans g56
  have g36 := g3.trans g46
  have g26 := g2.trans g36
  exact ⟨g1.trans g26, ⟨o, a, b, c, d, e, g26 _ _ (g1 _ _ h3), p6, p5.imp fun _ _ h => h.mono g6, IsClone.all g26 p1, IsClone.all g36 p2, IsClone.all g46 p3, IsClone.all g56 p4⟩, k6⟩

/-! ### Loading keeps rules and their rule blocks -/

/-- loading changes objects, not the roots of their forests -/
def DoesKeep {α : Type} (e : Ptr) (U : Ptr → Prop) (ps : List Ptr) (f : M α) : Prop :=
  ∀ {m : Mem} {L : List Ptr}, m.Ok → Env m e U → Forest m.own ps L → L.Nodup → (∀ q ∈ L, ¬ U q) →
    ∃ x m' L' K, f m = some (x, m') ∧ Work U ps m m' L L' K ∧ ∀ p ∈ ps, m'.get p = m.get p

theorem DoesKeep.each {α : Type} {f : Ptr → M α} (h : ∀ p, DoesKeep e U [p] (f p)) (ps : List Ptr) : DoesKeep e U ps (each f ps) := by
  induction ps with
  | nil =>
    intro m L hm he hf hn hd
    exact ⟨[], m, L, [], rfl, .refl hm hf hn, by simp⟩
  | cons p ps ih =>
    intro m L hm he hf hn hd
    obtain ⟨L1, L2, rfl, f1, f2⟩ := Forest.split (ps := [p]) hf
    have n1 := List.nodup_append'.1 hn
    obtain ⟨x, m1, L1', K1, e1, w1, g1⟩ := h p hm he f1 n1.1 fun q hq => hd q (by simp [hq])
    have w1' := w1.beside (X := []) (ps := []) hm .nil f2 (by simpa using hn)
    simp only [List.nil_append] at w1'
    have hd1 : ∀ q ∈ L1' ++ L2, ¬ U q := fun q hq => he.apart hm w1'.effect hd q (Or.inl hq)
    have f2' := w1.effect.forest hm f2 fun q hq hc => n1.2.2 hc hq
    obtain ⟨xs, m2, L2', K2, e2, w2, g2⟩ := ih w1.effect.ok (he.frame hm w1'.effect hd) f2' n1.2.1 fun q hq => hd q (by simp [hq])
    have w2' := w2.beside (Y := []) (qs := []) w1.effect.ok w1.forest .nil (by simpa using w1'.nodup)
    simp only [List.append_nil] at w2'
    refine ⟨x :: xs, m2, L1' ++ L2', K1 ++ K2, ?_, w1'.trans hm w2', ?_⟩
    · unfold Own.each
      rw [bind_eq e1, bind_eq e2, pure_eq]
    · intro q hq
      rcases List.mem_cons.1 hq with rfl | hq
      · obtain ⟨o, ho⟩ := f1.get (f1.roots q (by simp))
        have h1 := (g1 q (by simp)).trans ho
        rw [ho]
        exact w2.effect.get w1.effect.ok h1 fun hc => n1.2.2 (f1.roots q (by simp)) hc
      · rw [g2 q hq]
        obtain ⟨o, ho⟩ := f2.get (f2.roots q hq)
        rw [ho]
        exact w1.effect.get hm ho fun hc => n1.2.2 hc (f2.roots q hq)

theorem Rule.unload_keeps (r : Ptr) : DoesKeep e U [r] (unload r) := by
  intro m L hm he hf hn hd
  obtain ⟨o, ho⟩ := hf.get (hf.roots r (by simp))
  obtain ⟨La, fa, na, sa, la⟩ := Work.inside (U := U) (l1 := []) (ps := o.a) (l3 := o.b ++ o.c ++ o.d ++ o.e) hm hf hn ho (by simp [Obj.owned])
  obtain ⟨xs, m1, La', K1, e1, w1, k1⟩ := Does.each (U := U) (e := e) Antecedent.unload_does o.a hm he fa na fun q hq => hd q (sa q hq).1
  obtain ⟨L1, W1, g1⟩ := la w1
  have he1 := he.frame hm W1.effect hd
  have hd1 : ∀ q ∈ L1, ¬ U q := fun q hq => he.apart hm W1.effect hd q (Or.inl hq)
  obtain ⟨Lb, fb, nb, sb, lb⟩ := Work.inside (U := U) (l1 := o.a) (ps := o.b) (l3 := o.c ++ o.d ++ o.e) W1.effect.ok W1.forest W1.nodup g1 (by simp [Obj.owned])
  obtain ⟨ys, m2, Lb', K2, e2, w2, k2⟩ := Does.each (U := U) (e := e) Consequent.unload_does o.b W1.effect.ok he1 fb nb fun q hq => hd1 q (sb q hq).1
  obtain ⟨L2, W2, g2⟩ := lb w2
  refine ⟨(), m2, L2, _, ?_, W1.trans hm W2, ?_⟩
  · unfold unload
    rw [bind_eq (read_eq ho), bind_eq e1, bind_eq e2, pure_eq]
  · simp [g2, ho]

theorem Rule.load_keeps (R : Reader) (H : Hedges) (r : Ptr) : DoesKeep e U [r] (load R H e r) := by
  intro m L hm he hf hn hd
  obtain ⟨o, ho⟩ := hf.get (hf.roots r (by simp))
  have failed : ∀ {m1 L1 K1}, Work U [r] m m1 L L1 K1 → m1.get r = some o → ∃ x m' L' K, (do unload r; pure false : M Bool) m1 = some (x, m') ∧ Work U [r] m m' L L' K ∧
      ∀ p ∈ [r], m'.get p = m.get p := by
    intro m1 L1 K1 w1 g1
    obtain ⟨_, m2, L2, K2, e2, w2, k2⟩ := unload_keeps (U := U) r w1.effect.ok (he.frame hm w1.effect hd) w1.forest w1.nodup
      fun q hq => he.apart hm w1.effect hd q (Or.inl hq)
    refine ⟨false, m2, L2, _, ?_, w1.trans hm w2, ?_⟩
    · rw [bind_eq e2, pure_eq]
    · have := k2 r (by simp)
      simp [this, g1, ho]
  unfold load
  rw [bind_eq (read_eq ho)]
  match hR : R o.text, ha : o.a, hb : o.b with
  | some (as, cs), [a], [c] =>
    simp only
    obtain ⟨La, fa, na, sa, la⟩ := Work.inside (U := U) (l1 := []) (ps := [a]) (l3 := o.b ++ o.c ++ o.d ++ o.e) hm hf hn ho (by simp [Obj.owned, ha])
    obtain ⟨x, m1, La', K1, e1, w1, k1⟩ := Antecedent.load_does (U := U) H a as hm he fa na fun q hq => hd q (sa q hq).1
    obtain ⟨L1, W1, g1⟩ := la w1
    rw [bind_eq e1]
    cases x with
    | false => exact failed W1 g1
    | true =>
      simp only [if_true]
      have he1 := he.frame hm W1.effect hd
      have hd1 : ∀ q ∈ L1, ¬ U q := fun q hq => he.apart hm W1.effect hd q (Or.inl hq)
      obtain ⟨Lb, fb, nb, sb, lb⟩ := Work.inside (U := U) (l1 := o.a) (ps := [c]) (l3 := o.c ++ o.d ++ o.e) W1.effect.ok W1.forest W1.nodup g1 (by simp [Obj.owned, hb])
      obtain ⟨y, m2, Lb', K2, e2, w2, k2⟩ := Consequent.load_does (U := U) H c cs W1.effect.ok he1 fb nb fun q hq => hd1 q (sb q hq).1
      obtain ⟨L2, W2, g2⟩ := lb w2
      have W12 := W1.trans hm W2
      rw [bind_eq e2]
      cases y with
      | false => exact failed W12 g2
      | true => exact ⟨true, m2, L2, _, rfl, W12, by simp [g2, ho]⟩
  | none, _, _ => exact failed (.refl hm hf hn) ho
  | some _, [], _ => exact failed (.refl hm hf hn) ho
  | some _, _ :: _ :: _, _ => exact failed (.refl hm hf hn) ho
  | some _, [_], [] => exact failed (.refl hm hf hn) ho
  | some _, [_], _ :: _ :: _ => exact failed (.refl hm hf hn) ho

theorem Rule.reload_keeps (R : Reader) (H : Hedges) (r : Ptr) : DoesKeep e U [r] (do
    if ← Rule.isLoaded r then Rule.unload r
    Rule.load R H e r) := by
  intro m L hm he hf hn hd
  obtain ⟨l, hl⟩ := Rule.isLoaded_eq hf
  rw [bind_eq hl]
  cases l with
  | false => exact Rule.load_keeps R H r hm he hf hn hd
  | true =>
    simp only [if_true]
    obtain ⟨_, m1, L1, K1, e1, w1, k1⟩ := Rule.unload_keeps (U := U) r hm he hf hn hd
    rw [bind_eq e1]
    obtain ⟨x, m2, L2, K2, e2, w2, k2⟩ := Rule.load_keeps R H r w1.effect.ok (he.frame hm w1.effect hd) w1.forest w1.nodup
      fun q hq => he.apart hm w1.effect hd q (Or.inl hq)
    exact ⟨x, m2, L2, _, e2, w1.trans hm w2, fun p hp => (k2 p hp).trans (k1 p hp)⟩

/-- loading the rules of a rule block changes only what its rules own -/
theorem RuleBlock.loadRules_keeps (R : Reader) (H : Hedges) {b : Ptr} {o : Obj} {La : List Ptr} {xs : List Bool} (hm : m.Ok) (he : Env m e U) (hf : Forest m.own [b] L) (hn : L.Nodup)
    (hd : ∀ q ∈ L, ¬ U q) (ho : m.get b = some o) (ha : Forest m.own o.a La) (h : loadRules R H e b m = some (xs, m')) :
    m'.get b = some o ∧ (∀ r ∈ o.a, m'.get r = m.get r) ∧ ∀ x ox, m.get x = some ox → x ∉ La → m'.get x = some ox := by
  obtain ⟨La', fa, na, sa, la⟩ := Work.inside (U := U) (l1 := []) (ps := o.a) (l3 := o.b ++ o.c ++ o.d ++ o.e) hm hf hn ho (by simp [Obj.owned])
  cases fa.unique ha
  obtain ⟨ys, m1, La', K1, e1, w1, k1⟩ := DoesKeep.each (Rule.reload_keeps R H) o.a hm he fa na fun q hq => hd q (sa q hq).1
  obtain ⟨L1, W1, g1⟩ := la w1
  unfold loadRules at h
  rw [bind_eq (read_eq ho)] at h
  have : some (ys, m1) = some (xs, m') := e1.symm.trans h
  cases this
  exact ⟨g1, k1, fun x ox hx hc => w1.effect.get hm hx hc⟩

/-- copies of rules, loaded or not -/
def Rule.Like (m : Mem) (p q : Ptr) : Prop := ∃ o a b, m.get p = some o ∧ m.get q = some { cls := o.cls, text := o.text, a := [a], b := [b] }

/-- copies of rule blocks after their rules are loaded -/
def RuleBlock.Like (m : Mem) (p q : Ptr) : Prop := ∃ o a b c d e, m.get p = some o ∧ m.get q = some { cls := o.cls, text := o.text, a := a, b := b, c := c, d := d, e := e } ∧
  List.Forall₂ (Rule.Like m) o.a a ∧ List.Forall₂ (IsClone m) o.b b ∧ List.Forall₂ (IsClone m) o.c c ∧ List.Forall₂ (IsClone m) o.d d ∧ List.Forall₂ (IsClone m) o.e e

theorem Rule.Like.mono {p q : Ptr} (hg : Grows m m') (h : Like m p q) : Like m' p q := by
  obtain ⟨o, a, b, h1, h2⟩ := h
  exact ⟨o, a, b, hg _ _ h1, hg _ _ h2⟩

theorem RuleBlock.Like.mono {p q : Ptr} (hg : Grows m m') (h : Like m p q) : Like m' p q := by
  obtain ⟨o, a, b, c, d, e, h1, h2, h3, h4, h5, h6, h7⟩ := h
  exact ⟨o, a, b, c, d, e, hg _ _ h1, hg _ _ h2, h3.imp fun _ _ h => h.mono hg, IsClone.all hg h4, IsClone.all hg h5, IsClone.all hg h6, IsClone.all hg h7⟩

/-- the elements of related lists are in the lists -/
theorem forall₂_imp_mem {α β : Type} {P Q : α → β → Prop} {xs : List α} {ys : List β} (h : List.Forall₂ P xs ys) (hi : ∀ x y, x ∈ xs → y ∈ ys → P x y → Q x y) : List.Forall₂ Q xs ys := by
  induction h with
  | nil => exact .nil
  | cons h1 h2 ih => exact .cons (hi _ _ (by simp) (by simp) h1) (ih fun x y hx hy => hi x y (by simp [hx]) (by simp [hy]))


theorem IsClone.congr {p q : Ptr} (h : IsClone m p q) (h1 : m'.get p = m.get p) (h2 : m'.get q = m.get q) : IsClone m' p q := by
  obtain ⟨o, h3, h4⟩ := h
  exact ⟨o, h1.trans h3, h2.trans h4⟩

theorem RuleBlock.copy_like (R : Reader) (H : Hedges) {b q : Ptr} {xs : List Bool} (hm : m.Ok) (he : Env m e U) (hf : Forest m.own [b] L)
    (h : Engine.copyBlock R H e b m = some ((q, xs), m')) : RuleBlock.Like m' b q := by
  unfold Engine.copyBlock at h
  obtain ⟨q', m1, h1, h⟩ := bind_some h
  obtain ⟨xs', m2, h2, h⟩ := bind_some h
  obtain ⟨hq, rfl⟩ := pure_some h
  cases hq
  obtain ⟨q2, m3, L1, e1, f1, x1, -⟩ := RuleBlock.copy_copies hm hf
  rw [e1] at h1
  cases h1
  obtain ⟨g1, ⟨ob, a, ba, ca, da, ea, i1, i2, i3, i4, i5, i6, i7⟩, -⟩ := RuleBlock.copy_alike hm e1
  have he1 := he.frame hm x1 (by simp)
  obtain ⟨o2, La, Lb, Lc, Ld, Le, j1, rfl, fa, fb, fc, fd, fe⟩ := f1.parts
  rw [i2] at j1
  cases j1
  simp only at fa fb fc fd fe
  obtain ⟨k1, k2, k3⟩ := RuleBlock.loadRules_keeps (L := q :: (La ++ Lb ++ Lc ++ Ld ++ Le)) R H x1.ok he1 f1 x1.nodupLeft (fun p hp => he.apart hm x1 (by simp) p (Or.inl hp)) i2 fa h2
  have old : ∀ x, x ∈ L → m2.get x = m1.get x := by
    intro x hx
    obtain ⟨ox, hox⟩ := hf.get hx
    rw [g1 _ _ hox]
    refine k3 x ox (g1 _ _ hox) fun hc => ?_
    rcases x1.new x (Or.inl (by simp [hc])) with hx' | hx'
    · cases hx'
    · rw [hm x hx'] at hox
      cases hox
  have nd := x1.nodupLeft
  have new : ∀ x, x ∈ Lb ++ Lc ++ Ld ++ Le → m2.get x = m1.get x := by
    intro x hx
    have f' := ((fb.append fc).append fd).append fe
    obtain ⟨ox, hox⟩ := f'.get hx
    rw [hox]
    refine k3 x ox hox fun hc => ?_
    have nd' : (La ++ (Lb ++ Lc ++ Ld ++ Le)).Nodup := by simpa using (List.nodup_cons.1 nd).2
    exact (List.nodup_append'.1 nd').2.2 hc hx
  obtain ⟨o3, A, B, C, D, E, l1, rfl, sa, sb, sc, sd, se⟩ := hf.parts
  have l1' := g1 _ _ l1
  rw [i1] at l1'
  cases l1'
  refine ⟨ob, a, ba, ca, da, ea, (old b (by simp)).trans i1, k1, ?_, ?_, ?_, ?_, ?_⟩
  · refine forall₂_imp_mem i3 fun x y hx hy hc => ?_
    obtain ⟨ox, a', b', c1, c2, -⟩ := hc
    exact ⟨ox, a', b', (old x (by simp [sa.roots x hx])).trans c1, (k2 y hy).trans c2⟩
  · exact forall₂_imp_mem i4 fun x y hx hy hc => hc.congr (old x (by simp [sb.roots x hx])) (new y (by simp [fb.roots y hy]))
  · exact forall₂_imp_mem i5 fun x y hx hy hc => hc.congr (old x (by simp [sc.roots x hx])) (new y (by simp [fc.roots y hy]))
  · exact forall₂_imp_mem i6 fun x y hx hy hc => hc.congr (old x (by simp [sd.roots x hx])) (new y (by simp [fd.roots y hy]))
  · exact forall₂_imp_mem i7 fun x y hx hy hc => hc.congr (old x (by simp [se.roots x hx])) (new y (by simp [fe.roots y hy]))

theorem RuleBlock.copies_like (R : Reader) (H : Hedges) {bs : List Ptr} {qs : List (Ptr × List Bool)} (hm : m.Ok) (he : Env m e U) (hf : Forest m.own bs L)
    (h : each (Engine.copyBlock R H e) bs m = some (qs, m')) : List.Forall₂ (RuleBlock.Like m') bs (qs.map Prod.fst) := by
  induction bs generalizing m L qs with
  | nil =>
    obtain ⟨rfl, rfl⟩ := pure_some h
    exact .nil
  | cons b bs ih =>
    unfold each at h
    obtain ⟨⟨q, xs⟩, m1, h1, h⟩ := bind_some h
    obtain ⟨qs', m2, h2, h⟩ := bind_some h
    obtain ⟨rfl, rfl⟩ := pure_some h
    obtain ⟨Lb, Ls, rfl, f1, f2⟩ := Forest.split (ps := [b]) hf
    obtain ⟨q', xs', m1', L1, K1, e1, -, x1, -, -⟩ := Engine.copyBlock_eq R H hm he f1
    rw [h1] at e1
    cases e1
    have he1 := he.frame hm x1 (by simp)
    have f2' := x1.forest hm f2 (by simp)
    obtain ⟨qs2, m2', L2, K2, e2, -, x2, -, -⟩ := Engine.copyBlocks_eq R H x1.ok he1 f2'
    rw [h2] at e2
    cases e2
    have grow : Grows m1 m2 := fun x o ho => x2.get x1.ok ho (by simp)
    exact .cons ((RuleBlock.copy_like R H hm he f1 h1).mono grow) (ih x1.ok he1 f2' h2)

/-! ### Copies of engines -/

/-- copies of terms: those of type `Linear` and `Function` refer to the engine -/
def Term.Like (e : Ptr) (m : Mem) (p q : Ptr) : Prop :=
  ∃ o, m.get p = some o ∧ m.get q = some { cls := o.cls, text := o.text, refs := if o.cls = .linear then [e] else o.refs }

/-- copies of the input variables of an engine -/
def Variable.Like (e : Ptr) (m : Mem) (p q : Ptr) : Prop :=
  ∃ o a, m.get p = some o ∧ m.get q = some { cls := o.cls, text := o.text, a := a } ∧ List.Forall₂ (Term.Like e m) o.a a

/-- copies of the output variables of an engine -/
def OutputVariable.Like (e : Ptr) (m : Mem) (p q : Ptr) : Prop :=
  ∃ o a b c, m.get p = some o ∧ m.get q = some { cls := o.cls, text := o.text, a := a, b := b, c := c } ∧
    List.Forall₂ (Term.Like e m) o.a a ∧ List.Forall₂ (Aggregated.IsCopy m) o.b b ∧ List.Forall₂ (IsClone m) o.c c

/-- copies of engines -/
def Engine.Like (m : Mem) (p q : Ptr) : Prop :=
  ∃ o c is os bs, m.get p = some o ∧ m.get q = some { cls := c, text := o.text, a := is, b := os, c := bs } ∧ List.Forall₂ (Variable.Like q m) o.a is ∧
    List.Forall₂ (OutputVariable.Like q m) o.b os ∧ List.Forall₂ (RuleBlock.Like m) o.c bs

theorem Aggregated.IsCopy.congr {p q : Ptr} {A B : List Ptr} (h : IsCopy m p q) (hA : Forest m.own [p] A) (hB : Forest m.own [q] B) (h1 : ∀ x ∈ A, m'.get x = m.get x)
    (h2 : ∀ x ∈ B, m'.get x = m.get x) : IsCopy m' p q := by
  obtain ⟨o, a, i1, i2, i3⟩ := h
  obtain ⟨o1, A1, A2, A3, A4, A5, j1, rfl, j2, -⟩ := hA.parts
  obtain ⟨o2, B1, B2, B3, B4, B5, k1, rfl, k2, -⟩ := hB.parts
  rw [i1] at j1
  cases j1
  rw [i2] at k1
  cases k1
  exact ⟨o, a, (h1 p (by simp)).trans i1, (h2 q (by simp)).trans i2, forall₂_imp_mem i3 fun x y hx hy hc => hc.congr (h1 x (by simp [j2.roots x hx])) (h2 y (by simp [k2.roots y hy]))⟩

theorem Term.like_of {p q : Ptr} (h : IsClone m p q) (h1 : m'.get p = m.get p) (h2 : m'.get q = (m.get q).map (Engine.upd e)) : Term.Like e m' p q := by
  obtain ⟨o, i1, i2⟩ := h
  refine ⟨o, h1.trans i1, ?_⟩
  rw [h2, i2, Option.map_some]
  unfold Engine.upd
  split
  · rename_i hc
    simp only at hc
    simp [hc]
  · rename_i hc
    simp only at hc
    simp [hc]

theorem terms_mem {vs : List Ptr} {v t : Ptr} {o : Obj} (hv : v ∈ vs) (ho : m.get v = some o) (ht : t ∈ o.a) : t ∈ Engine.terms m vs := by
  unfold Engine.terms
  rw [List.mem_flatMap]
  exact ⟨v, hv, by simpa [ho] using ht⟩

theorem terms_sub {vs : List Ptr} {t : Ptr} (hf : Forest m.own vs L) (ht : t ∈ Engine.terms m vs) : t ∈ L := by
  unfold Engine.terms at ht
  rw [List.mem_flatMap] at ht
  obtain ⟨v, hv, ht⟩ := ht
  obtain ⟨Lv, hLv, sub⟩ := hf.mem hv
  obtain ⟨ov, A, B, C, D, E, h1, rfl, h2, -⟩ := hLv.parts
  rw [h1] at ht
  exact sub t (by simp [h2.roots t (by simpa using ht)])

/-- the terms of variables are not the terms of other variables -/
theorem terms_own {vs : List Ptr} {v t : Ptr} {Lv : List Ptr} {o : Obj} (hf : Forest m.own vs L) (hn : L.Nodup) (hv : v ∈ vs) (hfv : Forest m.own [v] Lv) (ho : m.get v = some o)
    (ht : t ∈ Engine.terms m vs) (hl : t ∈ Lv) : t ∈ o.a := by
  unfold Engine.terms at ht
  rw [List.mem_flatMap] at ht
  obtain ⟨w, hw, ht⟩ := ht
  by_cases hwv : w = v
  · subst hwv
    simpa [ho] using ht
  exfalso
  obtain ⟨s, r, rfl⟩ := List.append_of_mem hv
  obtain ⟨A, B, rfl, hA, hB⟩ := hf.split
  obtain ⟨C, D, rfl, hC, hD⟩ := Forest.split (ps := [v]) hB
  cases hC.unique hfv
  have n1 := List.nodup_append'.1 hn
  have n2 := List.nodup_append'.1 n1.2.1
  have sub : ∀ {ws Lw}, Forest m.own ws Lw → w ∈ ws → t ∈ Lw := by
    intro ws Lw hf hw
    obtain ⟨L1, h1, h2⟩ := hf.mem hw
    obtain ⟨ow, A1, A2, A3, A4, A5, h3, rfl, h4, -⟩ := h1.parts
    refine h2 t ?_
    simp only [h3, Option.map_some, Option.getD_some] at ht
    simp [h4.roots t ht]
  simp only [List.mem_append, List.mem_cons] at hw
  rcases hw with hw | hw | hw
  · exact n1.2.2 (sub hA hw) (by simp [hl])
  · exact hwv hw
  · exact n2.2.2 hl (sub hD hw)

theorem terms_only {vs : List Ptr} {v : Ptr} {o : Obj} {A B C D E : List Ptr} (hf : Forest m.own vs L) (hn : L.Nodup) (hv : v ∈ vs)
    (hfv : Forest m.own [v] (v :: (A ++ B ++ C ++ D ++ E))) (ho : m.get v = some o) (ha : Forest m.own o.a A) :
    v ∉ Engine.terms m vs ∧ ∀ x ∈ B ++ C ++ D ++ E, x ∉ Engine.terms m vs := by
  obtain ⟨Lv, h1, h2⟩ := hf.mem hv
  have nv : (v :: (A ++ B ++ C ++ D ++ E)).Nodup := by
    obtain ⟨s, r, rfl⟩ := List.append_of_mem hv
    obtain ⟨X, Y, rfl, hX, hY⟩ := hf.split
    obtain ⟨Z, W, rfl, hZ, hW⟩ := Forest.split (ps := [v]) hY
    cases hZ.unique hfv
    exact (List.nodup_append'.1 (List.nodup_append'.1 hn).2.1).1
  obtain ⟨n1, n2⟩ := List.nodup_cons.1 nv
  have n3 : (A ++ (B ++ C ++ D ++ E)).Nodup := by simpa using n2
  constructor
  · intro hc
    exact n1 (by simp [ha.roots v (terms_own hf hn hv hfv ho hc (by simp))])
  · intro x hx hc
    refine (List.nodup_append'.1 n3).2.2 (ha.roots x (terms_own hf hn hv hfv ho hc ?_)) hx
    simp only [List.mem_append, List.mem_cons] at hx ⊢
    tauto

/-- copies of variables after their terms are updated -/
theorem Variable.like_of {p q : Ptr} {A : List Ptr} {vs : List Ptr} (h : IsCopy m p q) (hA : Forest m.own [p] A) (hf : Forest m.own vs L) (hn : L.Nodup) (hq : q ∈ vs)
    (u : Engine.Updated e m m' (Engine.terms m vs)) (h1 : ∀ x ∈ A, x ∉ Engine.terms m vs) : Variable.Like e m' p q := by
  obtain ⟨o, a, i1, i2, i3⟩ := h
  obtain ⟨Lq, hB, -⟩ := hf.mem hq
  obtain ⟨o1, A1, A2, A3, A4, A5, j1, rfl, j2, -⟩ := hA.parts
  obtain ⟨o2, B1, B2, B3, B4, B5, k1, rfl, k2, -⟩ := hB.parts
  rw [i1] at j1
  cases j1
  have t1 := terms_only hf hn hq hB k1 k2
  rw [i2] at k1
  cases k1
  simp only at k2
  have old : ∀ x ∈ p :: (A1 ++ A2 ++ A3 ++ A4 ++ A5), m'.get x = m.get x := fun x hx => by rw [u.get, if_neg (h1 x hx)]
  refine ⟨o, a, (old p (by simp)).trans i1, ?_, forall₂_imp_mem i3 fun x y hx hy hc => Term.like_of hc (old x (by simp [j2.roots x hx])) ?_⟩
  · rw [u.get, if_neg t1.1, i2]
  · rw [u.get, if_pos (terms_mem hq i2 hy)]

/-- copies of output variables after their terms are updated -/
theorem OutputVariable.like_of {p q : Ptr} {A : List Ptr} {vs : List Ptr} (h : IsCopy m p q) (hA : Forest m.own [p] A) (hf : Forest m.own vs L) (hn : L.Nodup) (hq : q ∈ vs)
    (u : Engine.Updated e m m' (Engine.terms m vs)) (h1 : ∀ x ∈ A, x ∉ Engine.terms m vs) : OutputVariable.Like e m' p q := by
  obtain ⟨o, a, b, c, i1, i2, i3, i4, i5⟩ := h
  obtain ⟨Lq, hB, -⟩ := hf.mem hq
  obtain ⟨o1, A1, A2, A3, A4, A5, j1, rfl, j2, j3, j4, -⟩ := hA.parts
  obtain ⟨o2, B1, B2, B3, B4, B5, k1, rfl, k2, k3, k4, -⟩ := hB.parts
  rw [i1] at j1
  cases j1
  have t1 := terms_only hf hn hq hB k1 k2
  rw [i2] at k1
  cases k1
  simp only at k2 k3 k4
  have old : ∀ x ∈ p :: (A1 ++ A2 ++ A3 ++ A4 ++ A5), m'.get x = m.get x := fun x hx => by rw [u.get, if_neg (h1 x hx)]
  have new : ∀ x ∈ B2 ++ B3 ++ B4 ++ B5, m'.get x = m.get x := fun x hx => by rw [u.get, if_neg (t1.2 x hx)]
  refine ⟨o, a, b, c, (old p (by simp)).trans i1, ?_, forall₂_imp_mem i3 fun x y hx hy hc => Term.like_of hc (old x (by simp [j2.roots x hx])) ?_, ?_, ?_⟩
  · rw [u.get, if_neg t1.1, i2]
  · rw [u.get, if_pos (terms_mem hq i2 hy)]
  · refine forall₂_imp_mem i4 fun x y hx hy hc => ?_
    obtain ⟨X, f1, s1⟩ := j3.mem hx
    obtain ⟨Y, f2, s2⟩ := k3.mem hy
    exact hc.congr f1 f2 (fun z hz => old z (by simp [s1 z hz])) (fun z hz => new z (by simp [s2 z hz]))
  · exact forall₂_imp_mem i5 fun x y hx hy hc => hc.congr (old x (by simp [j4.roots x hx])) (new y (by simp [k4.roots y hy]))

theorem Variable.IsCopy.congr {p q : Ptr} {A B : List Ptr} (h : IsCopy m p q) (hA : Forest m.own [p] A) (hB : Forest m.own [q] B) (h1 : ∀ x ∈ A, m'.get x = m.get x)
    (h2 : ∀ x ∈ B, m'.get x = m.get x) : IsCopy m' p q := by
  obtain ⟨o, a, i1, i2, i3⟩ := h
  obtain ⟨o1, A1, A2, A3, A4, A5, j1, rfl, j2, -⟩ := hA.parts
  obtain ⟨o2, B1, B2, B3, B4, B5, k1, rfl, k2, -⟩ := hB.parts
  rw [i1] at j1
  cases j1
  rw [i2] at k1
  cases k1
  exact ⟨o, a, (h1 p (by simp)).trans i1, (h2 q (by simp)).trans i2, forall₂_imp_mem i3 fun x y hx hy hc => hc.congr (h1 x (by simp [j2.roots x hx])) (h2 y (by simp [k2.roots y hy]))⟩

theorem OutputVariable.IsCopy.congr {p q : Ptr} {A B : List Ptr} (h : IsCopy m p q) (hA : Forest m.own [p] A) (hB : Forest m.own [q] B) (h1 : ∀ x ∈ A, m'.get x = m.get x)
    (h2 : ∀ x ∈ B, m'.get x = m.get x) : IsCopy m' p q := by
  obtain ⟨o, a, b, c, i1, i2, i3, i4, i5⟩ := h
  obtain ⟨o1, A1, A2, A3, A4, A5, j1, rfl, j2, j3, j4, -⟩ := hA.parts
  obtain ⟨o2, B1, B2, B3, B4, B5, k1, rfl, k2, k3, k4, -⟩ := hB.parts
  rw [i1] at j1
  cases j1
  rw [i2] at k1
  cases k1
  refine ⟨o, a, b, c, (h1 p (by simp)).trans i1, (h2 q (by simp)).trans i2, forall₂_imp_mem i3 fun x y hx hy hc => hc.congr (h1 x (by simp [j2.roots x hx])) (h2 y (by simp [k2.roots y hy])), ?_,
    forall₂_imp_mem i5 fun x y hx hy hc => hc.congr (h1 x (by simp [j4.roots x hx])) (h2 y (by simp [k4.roots y hy]))⟩
  refine forall₂_imp_mem i4 fun x y hx hy hc => ?_
  obtain ⟨X, f1, s1⟩ := j3.mem hx
  obtain ⟨Y, f2, s2⟩ := k3.mem hy
  exact hc.congr f1 f2 (fun z hz => h1 z (by simp [s1 z hz])) (fun z hz => h2 z (by simp [s2 z hz]))

theorem Variable.Like.congr {p q : Ptr} {A B : List Ptr} (h : Like e m p q) (hA : Forest m.own [p] A) (hB : Forest m.own [q] B) (h1 : ∀ x ∈ A, m'.get x = m.get x)
    (h2 : ∀ x ∈ B, m'.get x = m.get x) : Like e m' p q := by
  obtain ⟨o, a, i1, i2, i3⟩ := h
  obtain ⟨o1, A1, A2, A3, A4, A5, j1, rfl, j2, -⟩ := hA.parts
  obtain ⟨o2, B1, B2, B3, B4, B5, k1, rfl, k2, -⟩ := hB.parts
  rw [i1] at j1
  cases j1
  rw [i2] at k1
  cases k1
  refine ⟨o, a, (h1 p (by simp)).trans i1, (h2 q (by simp)).trans i2, forall₂_imp_mem i3 fun x y hx hy hc => ?_⟩
  obtain ⟨ot, l1, l2⟩ := hc
  exact ⟨ot, (h1 x (by simp [j2.roots x hx])).trans l1, (h2 y (by simp [k2.roots y hy])).trans l2⟩

theorem OutputVariable.Like.congr {p q : Ptr} {A B : List Ptr} (h : Like e m p q) (hA : Forest m.own [p] A) (hB : Forest m.own [q] B) (h1 : ∀ x ∈ A, m'.get x = m.get x)
    (h2 : ∀ x ∈ B, m'.get x = m.get x) : Like e m' p q := by
  obtain ⟨o, a, b, c, i1, i2, i3, i4, i5⟩ := h
  obtain ⟨o1, A1, A2, A3, A4, A5, j1, rfl, j2, j3, j4, -⟩ := hA.parts
  obtain ⟨o2, B1, B2, B3, B4, B5, k1, rfl, k2, k3, k4, -⟩ := hB.parts
  rw [i1] at j1
  cases j1
  rw [i2] at k1
  cases k1
  refine ⟨o, a, b, c, (h1 p (by simp)).trans i1, (h2 q (by simp)).trans i2, forall₂_imp_mem i3 fun x y hx hy hc => ?_, ?_,
    forall₂_imp_mem i5 fun x y hx hy hc => hc.congr (h1 x (by simp [j4.roots x hx])) (h2 y (by simp [k4.roots y hy]))⟩
  · obtain ⟨ot, l1, l2⟩ := hc
    exact ⟨ot, (h1 x (by simp [j2.roots x hx])).trans l1, (h2 y (by simp [k2.roots y hy])).trans l2⟩
  refine forall₂_imp_mem i4 fun x y hx hy hc => ?_
  obtain ⟨X, f1, s1⟩ := j3.mem hx
  obtain ⟨Y, f2, s2⟩ := k3.mem hy
  exact hc.congr f1 f2 (fun z hz => h1 z (by simp [s1 z hz])) (fun z hz => h2 z (by simp [s2 z hz]))

theorem RuleBlock.Like.congr {p q : Ptr} {A B : List Ptr} (h : Like m p q) (hA : Forest m.own [p] A) (hB : Forest m.own [q] B) (h1 : ∀ x ∈ A, m'.get x = m.get x)
    (h2 : ∀ x ∈ B, m'.get x = m.get x) : Like m' p q := by
  obtain ⟨o, a, b, c, d, e, i1, i2, i3, i4, i5, i6, i7⟩ := h
  obtain ⟨o1, A1, A2, A3, A4, A5, j1, rfl, j2, j3, j4, j5, j6⟩ := hA.parts
  obtain ⟨o2, B1, B2, B3, B4, B5, k1, rfl, k2, k3, k4, k5, k6⟩ := hB.parts
  rw [i1] at j1
  cases j1
  rw [i2] at k1
  cases k1
  refine ⟨o, a, b, c, d, e, (h1 p (by simp)).trans i1, (h2 q (by simp)).trans i2, forall₂_imp_mem i3 fun x y hx hy hc => ?_,
    forall₂_imp_mem i4 fun x y hx hy hc => hc.congr (h1 x (by simp [j3.roots x hx])) (h2 y (by simp [k3.roots y hy])),
    forall₂_imp_mem i5 fun x y hx hy hc => hc.congr (h1 x (by simp [j4.roots x hx])) (h2 y (by simp [k4.roots y hy])),
    forall₂_imp_mem i6 fun x y hx hy hc => hc.congr (h1 x (by simp [j5.roots x hx])) (h2 y (by simp [k5.roots y hy])),
    forall₂_imp_mem i7 fun x y hx hy hc => hc.congr (h1 x (by simp [j6.roots x hx])) (h2 y (by simp [k6.roots y hy]))⟩
  obtain ⟨ot, x1, y1, l1, l2⟩ := hc
  exact ⟨ot, x1, y1, (h1 x (by simp [j2.roots x hx])).trans l1, (h2 y (by simp [k2.roots y hy])).trans l2⟩

/-- the same for lists -/
theorem Like.all {P P' : Ptr → Ptr → Prop} {ps qs A B : List Ptr} (h : List.Forall₂ P ps qs) (hA : Forest m.own ps A) (hB : Forest m.own qs B)
    (hc : ∀ {p q A' B'}, p ∈ ps → q ∈ qs → P p q → Forest m.own [p] A' → Forest m.own [q] B' → (∀ x ∈ A', x ∈ A) → (∀ x ∈ B', x ∈ B) → P' p q) : List.Forall₂ P' ps qs :=
  forall₂_imp_mem h fun p q hp hq hpq => by
    obtain ⟨A', f1, s1⟩ := hA.mem hp
    obtain ⟨B', f2, s2⟩ := hB.mem hq
    exact hc hp hq hpq f1 f2 s1 s2

theorem Engine.copyFrom_like (R : Reader) (H : Hedges) {p : Ptr} {Lp Le : List Ptr} {oe : Obj} {xs : List (List Bool)} (hm : m.Ok) (hs : Forest m.own [p] Lp) (hf : Forest m.own [e] Le)
    (hn : Le.Nodup) (hd : ∀ q ∈ Lp, q ∉ Le) (hoe : m.get e = some oe) (he : oe = { cls := oe.cls, text := oe.text }) (h : copyFrom R H e p m = some (xs, m')) : Engine.Like m' p e := by
  obtain ⟨o, Lpa, Lpb, Lpc, Lpd, Lpe, ho, rfl, sa, sb, sc, -, -⟩ := hs.parts
  have E0 : Effect m m Le Le [] := .refl hm hn fun q hq => hf.live hq
  have hpe : p ≠ e := by
    rintro rfl
    exact hd p (by simp) (hf.roots p (by simp))
  have a0 : oe.a = [] := by rw [he]
  have b0 : oe.b = [] := by rw [he]
  have eLe : e ∈ Le := hf.roots e (by simp)
  -- input variables
  obtain ⟨is, m1, Li, e1, f1, x1, -⟩ := Variable.copy_copies.each hm sa
  have i1 := (each_alike (P := Variable.IsCopy) (fun hg h => h.mono hg) Variable.copy_alike hm e1).2.1
  have E1 := E0.seq hm x1
  have hf1 := x1.forest hm hf (by simp)
  have g1 := x1.get hm hoe (by simp)
  obtain ⟨m2, Le2, e2, X2, f2, p2, g2, k2⟩ := modify_grow (l1 := oe.a) (ps := is) (l3 := oe.b ++ oe.c ++ oe.d ++ oe.e)
    (fun e => { e with text := o.text, a := e.a ++ is }) x1.ok g1 hf1 f1 E1.nodupLeft (by simp [Obj.owned]) (by simp [Obj.owned])
  have E2 := E1.trans hm X2
  -- output variables
  have sb2 := E2.forest hm sb fun q hq => hd q (by simp [hq])
  obtain ⟨os, m3, Lo, e3, f3, x3, -⟩ := OutputVariable.copy_copies.each X2.ok sb2
  have i3 := (each_alike (P := OutputVariable.IsCopy) (fun hg h => h.mono hg) OutputVariable.copy_alike X2.ok e3).2.1
  have E3 := E2.seq hm x3
  have hf3 := x3.forest X2.ok f2 (by simp)
  have g3 := x3.get X2.ok g2 (by simp)
  obtain ⟨m4, Le4, e4, X4, f4, p4, g4, k4⟩ := modify_grow (l1 := oe.a ++ is ++ oe.b) (ps := os) (l3 := oe.c ++ oe.d ++ oe.e)
    (fun e => { e with b := e.b ++ os }) x3.ok g3 hf3 f3 E3.nodupLeft (by simp [Obj.owned]) (by simp [Obj.owned])
  have E4 := E3.trans hm X4
  -- references
  obtain ⟨m5, e5, u5, T5⟩ := updateReferences_eq X4.ok f4 g4
  have X5 := u5.effect X4.ok T5 E4.nodupLeft fun q hq => f4.get hq
  have E5 := E4.trans hm X5
  have f5 : Forest m5.own [e] Le4 := by rw [u5.own]; exact f4
  obtain ⟨o5, g5, o5a, o5b⟩ := u5.a g4
  have env : Env m5 e (· ∈ Le4) := by
    refine ⟨fun q hq => f5.get hq, o5, g5, f5.roots e (by simp), fun v hv => ?_⟩
    obtain ⟨os', L0, h1, hL0, h2⟩ := f5.one_inv
    rw [own_eq g5] at h1
    cases h1
    obtain ⟨Lv, h3, sub⟩ := h2.mem (p := v) (by simp only [Obj.owned, List.mem_append] at hv ⊢; tauto)
    obtain ⟨ov, A, B, C, D, E, h4, rfl, h5, -⟩ := h3.parts
    refine ⟨?_, ov, h4, fun t ht => ?_⟩
    · rw [hL0]; exact List.mem_cons_of_mem _ (sub v (by simp))
    · rw [hL0]; exact List.mem_cons_of_mem _ (sub t (by simp [h5.roots t ht]))
  -- rule blocks
  have sc5 := E5.forest hm sc fun q hq => hd q (by simp [hq])
  obtain ⟨bs, m6, Lb, K, e6, f6, x6, -, -⟩ := copyBlocks_eq R H X5.ok env sc5
  have i6 := RuleBlock.copies_like R H X5.ok env sc5 e6
  have E6 := E5.seq hm x6
  have hf6 := x6.forest X5.ok f5 (by simp)
  have g6 := x6.get X5.ok g5 (by simp)
  obtain ⟨m7, Le7, e7, X7, f7, p7, g7, k7⟩ := modify_grow (l1 := o5.a ++ o5.b ++ o5.c) (ps := bs.map Prod.fst) (l3 := o5.d ++ o5.e)
    (fun e => { e with c := e.c ++ bs.map Prod.fst }) x6.ok g6 hf6 f6 E6.nodupLeft (by simp [Obj.owned]) (by simp [Obj.owned])
  have hx : copyFrom R H e p m = some (bs.map Prod.snd, m7) := by
    unfold copyFrom
    rw [bind_eq (read_eq ho), bind_eq e1, bind_eq e2, bind_eq e3, bind_eq e4, bind_eq e5, bind_eq e6, bind_eq e7, pure_eq]
  rw [hx] at h
  cases h
  -- where the objects are
  have mem4 : ∀ q, q ∈ Le4 ↔ q ∈ Le ∨ q ∈ Li ∨ q ∈ Lo := by
    intro q
    rw [p4.mem_iff, List.mem_append, p2.mem_iff, List.mem_append, or_assoc]
  have neI : ∀ q ∈ Li, q ≠ e := by
    rintro q hq rfl
    exact (List.nodup_append'.1 E1.nodupLeft).2.2 eLe hq
  have neO : ∀ q ∈ Lo, q ≠ e := by
    rintro q hq rfl
    exact (List.nodup_append'.1 E3.nodupLeft).2.2 (p2.mem_iff.2 (by simp [eLe])) hq
  have neB : ∀ q ∈ Lb, q ≠ e := by
    rintro q hq rfl
    exact (List.nodup_append'.1 E6.nodupLeft).2.2 ((mem4 q).2 (Or.inl eLe)) hq
  have keepP : ∀ q ∈ p :: (Lpa ++ Lpb ++ Lpc ++ Lpd ++ Lpe), ∀ {m0 L0 K0}, Effect m m0 Le L0 K0 → m0.get q = m.get q := by
    intro q hq m0 L0 K0 E
    obtain ⟨oq, hoq⟩ := hs.get hq
    rw [hoq]
    exact E.get hm hoq (hd q hq)
  have E7 := E6.trans hm X7
  -- the variables before the references are updated
  have j1 : List.Forall₂ (Variable.IsCopy m4) o.a is := by
    refine Like.all i1 (x1.forest hm sa (by simp)) f1 fun {p' q' A B} hp' hq' hc hA hB s1 s2 => hc.congr hA hB (fun x hx => ?_) fun x hx => ?_
    · have hx := s1 x hx
      rw [keepP x (by simp [hx]) E4, keepP x (by simp [hx]) E1]
    · have hx := s2 x hx
      obtain ⟨ox, hox⟩ := f1.get hx
      rw [k4 x (neI x hx), hox]
      refine x3.get X2.ok ?_ (by simp)
      rw [k2 x (neI x hx), hox]
  have j3 : List.Forall₂ (OutputVariable.IsCopy m4) o.b os := by
    refine Like.all i3 (x3.forest X2.ok sb2 (by simp)) f3 fun {p' q' A B} hp' hq' hc hA hB s1 s2 => hc.congr hA hB (fun x hx => ?_) fun x hx => ?_
    · have hx := s1 x hx
      rw [keepP x (by simp [hx]) E4, keepP x (by simp [hx]) E3]
    · exact k4 x (neO x (s2 x hx))
  -- the variables afterwards
  obtain ⟨o4, A4, B4, C4, D4, F4, h4, hL4, a4, b4, -⟩ := f4.parts
  rw [g4] at h4
  cases h4
  simp only [a0, b0, List.nil_append] at a4 b4 u5 T5
  have n4 : (e :: (A4 ++ B4 ++ C4 ++ D4 ++ F4)).Nodup := by rw [← hL4]; simpa using E4.nodupLeft
  obtain ⟨eL, n5⟩ := List.nodup_cons.1 n4
  have n6 : (A4 ++ B4).Nodup := by
    have : (A4 ++ B4 ++ (C4 ++ D4 ++ F4)).Nodup := by simpa using n5
    exact (List.nodup_append'.1 this).1
  have ab4 := a4.append b4
  have eT : e ∉ terms m4 (is ++ os) := by
    intro hc
    have := terms_sub ab4 hc
    exact eL (by simp only [List.mem_append] at this ⊢; tauto)
  have pT : ∀ q ∈ p :: (Lpa ++ Lpb ++ Lpc ++ Lpd ++ Lpe), q ∉ terms m4 (is ++ os) := by
    intro q hq hc
    obtain ⟨oq, hoq⟩ := hs.get hq
    rcases E4.new q (Or.inl (by simpa using T5 q hc)) with h1 | h1
    · exact hd q hq h1
    · rw [hm q h1] at hoq
      cases hoq
  have old45 : ∀ q ∈ p :: (Lpa ++ Lpb ++ Lpc ++ Lpd ++ Lpe), m'.get q = m5.get q := fun q hq => by rw [keepP q hq E7, keepP q hq E5]
  have new57 : ∀ q, q ≠ e → m5.get q ≠ none → m'.get q = m5.get q := by
    intro q hq hl
    obtain ⟨oq, hoq⟩ := Option.ne_none_iff_exists'.1 hl
    rw [k7 q hq, hoq]
    exact x6.get X5.ok hoq (by simp)
  have a5 : Forest m5.own is A4 := by rw [u5.own]; exact a4
  have b5 : Forest m5.own os B4 := by rw [u5.own]; exact b4
  have r1 : List.Forall₂ (Variable.Like e m') o.a is := by
    refine Like.all (m := m5) (P := fun p q => Variable.Like e m5 p q) (forall₂_imp_mem j1 fun p' q' hp' hq' hc => ?_) (E5.forest hm sa fun q hq => hd q (by simp [hq])) a5
      fun {p' q' A B} hp' hq' hc hA hB s1 s2 => hc.congr hA hB (fun x hx => old45 x (by simp [s1 x hx])) fun x hx => ?_
    · obtain ⟨A, f', s'⟩ := (E4.forest hm sa fun q hq => hd q (by simp [hq])).mem hp'
      exact Variable.like_of hc f' ab4 n6 (by simp [hq']) u5 fun x hx => pT x (by simp [s' x hx])
    · have hx := s2 x hx
      refine new57 x ?_ (a5.live hx)
      intro hxe
      rw [hxe] at hx
      exact eL (by simp only [List.mem_append]; tauto)
  have r2 : List.Forall₂ (OutputVariable.Like e m') o.b os := by
    refine Like.all (m := m5) (P := fun p q => OutputVariable.Like e m5 p q) (forall₂_imp_mem j3 fun p' q' hp' hq' hc => ?_) (E5.forest hm sb fun q hq => hd q (by simp [hq])) b5
      fun {p' q' A B} hp' hq' hc hA hB s1 s2 => hc.congr hA hB (fun x hx => old45 x (by simp [s1 x hx])) fun x hx => ?_
    · obtain ⟨A, f', s'⟩ := (E4.forest hm sb fun q hq => hd q (by simp [hq])).mem hp'
      exact OutputVariable.like_of hc f' ab4 n6 (by simp [hq']) u5 fun x hx => pT x (by simp [s' x hx])
    · have hx := s2 x hx
      refine new57 x ?_ (b5.live hx)
      intro hxe
      rw [hxe] at hx
      exact eL (by simp only [List.mem_append]; tauto)
  have r3 : List.Forall₂ (RuleBlock.Like m') o.c (bs.map Prod.fst) := by
    refine Like.all (m := m6) i6 (x6.forest X5.ok sc5 (by simp)) f6 fun {p' q' A B} hp' hq' hc hA hB s1 s2 => hc.congr hA hB (fun x hx => ?_) fun x hx => k7 x (neB x (s2 x hx))
    have hx := s1 x hx
    rw [keepP x (by simp [hx]) E7, keepP x (by simp [hx]) E6]
  have h5 := g5
  rw [u5.get, if_neg eT, g4, Option.some.injEq] at h5
  refine ⟨o, oe.cls, is, os, bs.map Prod.fst, (keepP p (by simp) E7).trans ho, ?_, r1, r2, r3⟩
  rw [g7, ← h5, he]
  rfl

theorem Forest.children {own : Ptr → Option (List Ptr)} {ps : List Ptr} (h : Forest own ps L) {p q : Ptr} {os : List Ptr} (hp : p ∈ L) (ho : own p = some os)
    (hq : q ∈ os) : q ∈ L := by
  induction h with
  | nil => simp at hp
  | @cons r os' ps L1 L2 h1 h2 h3 ih1 ih2 =>
    simp only [List.mem_cons, List.mem_append] at hp ⊢
    rcases hp with rfl | hp | hp
    · rw [h1] at ho
      cases ho
      exact Or.inr (Or.inl (h2.roots q hq))
    · exact Or.inr (Or.inl (ih1 hp))
    · exact Or.inr (Or.inr (ih2 hp))

/-! ### Changing one object -/

/-- all objects but one remain as they are -/
def GrowsBut (r : Ptr) (m m' : Mem) : Prop := ∀ x o, x ≠ r → m.get x = some o → m'.get x = some o

theorem GrowsBut.trans {r : Ptr} (h1 : GrowsBut r m m1) (h2 : GrowsBut r m1 m2) : GrowsBut r m m2 := fun x o hx h => h2 x o hx (h1 x o hx h)

theorem GrowsBut.of_same {r : Ptr} (h : ∀ q, q ≠ r → m'.get q = m.get q) : GrowsBut r m m' := fun x _ hx ho => (h x hx).trans ho

theorem Effect.growsBut {r : Ptr} {L' : List Ptr} (hm : m.Ok) (x : Effect m m' [] L' []) : GrowsBut r m m' := fun _ _ _ ho => x.get hm ho (by simp)

/-- predicates of objects and what they own -/
def Local (P : Mem → Ptr → Ptr → Prop) : Prop := ∀ {m m' : Mem} {p q : Ptr} {A B : List Ptr}, P m p q → Forest m.own [p] A → Forest m.own [q] B →
  (∀ x ∈ A, m'.get x = m.get x) → (∀ x ∈ B, m'.get x = m.get x) → P m' p q

theorem IsClone.local : Local IsClone := fun h hA hB h1 h2 => h.congr (h1 _ (hA.roots _ (by simp))) (h2 _ (hB.roots _ (by simp)))

theorem Aggregated.IsCopy.local : Local Aggregated.IsCopy := fun h hA hB h1 h2 => h.congr hA hB h1 h2

theorem Rule.IsCopy.local : Local Rule.IsCopy := by
  intro m m' p q A B h hA hB h1 h2
  obtain ⟨o, a, b, i1, i2, i3, i4⟩ := h
  obtain ⟨o2, B1, B2, B3, B4, B5, k1, rfl, k2, k3, -⟩ := hB.parts
  rw [i2] at k1
  cases k1
  exact ⟨o, a, b, (h1 p (hA.roots p (by simp))).trans i1, (h2 q (by simp)).trans i2, (h2 a (by simp [k2.roots a (by simp)])).trans i3, (h2 b (by simp [k3.roots b (by simp)])).trans i4⟩

theorem Local.keep {P : Mem → Ptr → Ptr → Prop} (hP : Local P) {r : Ptr} {ps qs A B : List Ptr} (h : List.Forall₂ (P m) ps qs) (hA : Forest m.own ps A) (hB : Forest m.own qs B)
    (h1 : r ∉ A) (h2 : r ∉ B) (hg : GrowsBut r m m') : List.Forall₂ (P m') ps qs := by
  refine Like.all h hA hB fun {p' q' A' B'} hp' hq' hc f1 f2 s1 s2 => hP hc f1 f2 (fun x hx => ?_) fun x hx => ?_
  · obtain ⟨o, ho⟩ := f1.get hx
    rw [ho]
    exact hg x o (fun he => h1 (he ▸ s1 x hx)) ho
  · obtain ⟨o, ho⟩ := f2.get hx
    rw [ho]
    exact hg x o (fun he => h2 (he ▸ s2 x hx)) ho

theorem Effect.fresh {r : Ptr} {o : Obj} {L' : List Ptr} (hm : m.Ok) (x : Effect m m' [] L' []) (hr : m.get r = some o) : r ∉ L' := by
  intro hc
  rcases x.new r (Or.inl hc) with h | h
  · cases h
  · rw [hm r h] at hr
    cases hr

end FL.Own
