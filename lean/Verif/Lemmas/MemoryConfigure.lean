/-
Lemmas about containers and the configuration of engines in memory.
-/
import Verif.Lemmas.MemoryAssign

namespace FL.Own

local notation "Ptr" => Nat

variable {m m1 m2 m' : Mem} {L L1 L2 L' K K1 K2 : List Ptr} {U : Ptr → Prop} {e : Ptr}

local macro "perm" : tactic => `(tactic| (refine List.perm_iff_count.2 fun a => ?_; simp only [List.count_append, List.count_cons, List.count_nil]; omega))

/-- the slots of an object -/
theorem slot_owned (o : Obj) (s : Slot) : ∃ l1 l3, o.owned = l1 ++ (o.get s ++ l3) ∧ ∀ l, (o.set s l).owned = l1 ++ (l ++ l3) := by
  cases s with
  | a => exact ⟨[], o.b ++ o.c ++ o.d ++ o.e, by simp [Obj.owned, Obj.get], fun l => by simp [Obj.owned, Obj.set]⟩
  | b => exact ⟨o.a, o.c ++ o.d ++ o.e, by simp [Obj.owned, Obj.get], fun l => by simp [Obj.owned, Obj.set]⟩
  | c => exact ⟨o.a ++ o.b, o.d ++ o.e, by simp [Obj.owned, Obj.get], fun l => by simp [Obj.owned, Obj.set]⟩
  | d => exact ⟨o.a ++ o.b ++ o.c, o.e, by simp [Obj.owned, Obj.get], fun l => by simp [Obj.owned, Obj.set]⟩
  | e => exact ⟨o.a ++ o.b ++ o.c ++ o.d, [], by simp [Obj.owned, Obj.get], fun l => by simp [Obj.owned, Obj.set]⟩

theorem write_eq {r : Ptr} {o : Obj} (f : Obj → Obj) (h : m.get r = some o) : write r (f o) m = modify r f m := by
  unfold modify
  rw [bind_eq (read_eq h)]

theorem add_eq {r p : Ptr} {Lp : List Ptr} (s : Slot) (hm : m.Ok) (hf : Forest m.own [r] L) (hp : Forest m.own [p] Lp) (hn : (L ++ Lp).Nodup) :
    ∃ m' L', add s r p m = some ((), m') ∧ Forest m'.own [r] L' ∧ Effect m m' (L ++ Lp) L' [] ∧ L'.Perm (L ++ Lp) ∧
      ∀ o, m.get r = some o → m'.get r = some (o.set s (o.get s ++ [p])) := by
  obtain ⟨o, ho⟩ := hf.get (hf.roots r (by simp))
  obtain ⟨l1, l3, h1, h2⟩ := slot_owned o s
  obtain ⟨m', L', Lo, e1, f1, fo, E1, p1, g1, -⟩ := modify_slot (new := o.get s ++ [p]) (out := []) (fun o => o.set s (o.get s ++ [p])) hm ho hf hp hn h1 (h2 _) (by simp)
  cases fo
  refine ⟨m', L', e1, f1, by simpa using E1, by simpa using p1, fun o' ho' => ?_⟩
  rw [ho] at ho'
  cases ho'
  exact g1

theorem insert_eq {r p : Ptr} {o : Obj} {Lp : List Ptr} (s : Slot) (i : Nat) (hm : m.Ok) (hf : Forest m.own [r] L) (hp : Forest m.own [p] Lp) (hn : (L ++ Lp).Nodup)
    (ho : m.get r = some o) (hi : i ≤ (o.get s).length) :
    ∃ m' L', insert s r p i m = some ((), m') ∧ Forest m'.own [r] L' ∧ Effect m m' (L ++ Lp) L' [] ∧ L'.Perm (L ++ Lp) ∧
      m'.get r = some (o.set s ((o.get s).take i ++ p :: (o.get s).drop i)) := by
  obtain ⟨l1, l3, h1, h2⟩ := slot_owned o s
  obtain ⟨m', L', Lo, e1, f1, fo, E1, p1, g1, -⟩ := modify_slot (new := (o.get s).take i ++ p :: (o.get s).drop i) (out := [])
    (fun o => o.set s ((o.get s).take i ++ p :: (o.get s).drop i)) hm ho hf hp hn h1 (h2 _) (by
      rw [List.append_nil]
      have : (o.get s).Perm ((o.get s).take i ++ (o.get s).drop i) := by rw [List.take_append_drop]
      refine (this.append_right [p]).trans ?_
      perm)
  cases fo
  refine ⟨m', L', ?_, f1, by simpa using E1, by simpa using p1, g1⟩
  unfold insert
  rw [bind_eq (read_eq ho), if_pos hi, write_eq (fun o => o.set s ((o.get s).take i ++ p :: (o.get s).drop i)) ho, e1]

theorem replace_eq {r p q : Ptr} {o : Obj} {Lp : List Ptr} (s : Slot) (i : Nat) (hm : m.Ok) (hf : Forest m.own [r] L) (hp : Forest m.own [p] Lp) (hn : (L ++ Lp).Nodup)
    (ho : m.get r = some o) (hi : (o.get s)[i]? = some q) :
    ∃ m' L' Lq, replace s r p i m = some (some q, m') ∧ Forest m'.own [r] L' ∧ Forest m'.own [q] Lq ∧ Effect m m' (L ++ Lp) (L' ++ Lq) [] ∧ (L' ++ Lq).Perm (L ++ Lp) ∧
      m'.get r = some (o.set s ((o.get s).set i p)) := by
  obtain ⟨l1, l3, h1, h2⟩ := slot_owned o s
  obtain ⟨m', L', Lo, e1, f1, fo, E1, p1, g1, -⟩ := modify_slot (new := (o.get s).set i p) (out := [q]) (fun o => o.set s ((o.get s).set i p)) hm ho hf hp hn h1 (h2 _) (by
      obtain ⟨hl, rfl⟩ := List.getElem?_eq_some_iff.1 hi
      rw [List.set_eq_take_append_cons_drop, if_pos hl]
      have : (o.get s).Perm ((o.get s).take i ++ (o.get s)[i] :: (o.get s).drop (i + 1)) := by
        rw [List.getElem_cons_drop, List.take_append_drop]
      refine (this.append_right [p]).trans ?_
      perm)
  refine ⟨m', L', Lo, ?_, f1, fo, E1, p1, g1⟩
  unfold replace
  rw [bind_eq (read_eq ho), hi]
  simp only
  rw [bind_eq ((write_eq (fun o => o.set s ((o.get s).set i p)) ho).trans e1), pure_eq]

theorem remove_eq {r q : Ptr} {o : Obj} (s : Slot) (i : Nat) (hm : m.Ok) (hf : Forest m.own [r] L) (hn : L.Nodup) (ho : m.get r = some o) (hi : (o.get s)[i]? = some q) :
    ∃ m' L' Lq, remove s r i m = some (some q, m') ∧ Forest m'.own [r] L' ∧ Forest m'.own [q] Lq ∧ Effect m m' L (L' ++ Lq) [] ∧ (L' ++ Lq).Perm L ∧
      m'.get r = some (o.set s ((o.get s).eraseIdx i)) := by
  obtain ⟨l1, l3, h1, h2⟩ := slot_owned o s
  obtain ⟨m', L', Lo, e1, f1, fo, E1, p1, g1, -⟩ := modify_slot (new := (o.get s).eraseIdx i) (out := [q]) (extra := []) (fun o => o.set s ((o.get s).eraseIdx i)) hm ho hf .nil
    (by simpa using hn) h1 (h2 _) (by
      obtain ⟨hl, rfl⟩ := List.getElem?_eq_some_iff.1 hi
      rw [List.eraseIdx_eq_take_drop_succ]
      have : (o.get s).Perm ((o.get s).take i ++ (o.get s)[i] :: (o.get s).drop (i + 1)) := by
        rw [List.getElem_cons_drop, List.take_append_drop]
      refine (this.append_right []).trans ?_
      perm)
  refine ⟨m', L', Lo, ?_, f1, fo, by simpa using E1, by simpa using p1, g1⟩
  unfold remove
  rw [bind_eq (read_eq ho), hi]
  simp only
  rw [bind_eq ((write_eq (fun o => o.set s ((o.get s).eraseIdx i)) ho).trans e1), pure_eq]

/-- the setters delete what was there -/
theorem reset_eq {r : Ptr} (p : Option Ptr) {Lp : List Ptr} (s : Slot) (hm : m.Ok) (hf : Forest m.own [r] L) (hp : Forest m.own p.toList Lp) (hn : (L ++ Lp).Nodup) :
    ∃ m' L', reset s r p m = some ((), m') ∧ Forest m'.own [r] L' ∧ Effect m m' (L ++ Lp) L' [] ∧
      ∀ o, m.get r = some o → m'.get r = some (o.set s p.toList) := by
  obtain ⟨o, ho⟩ := hf.get (hf.roots r (by simp))
  obtain ⟨l1, l3, h1, h2⟩ := slot_owned o s
  obtain ⟨m1, m2, L', e1, e2, f2, E2, g2, -⟩ := swap_slot (old := o.get s) (new := p.toList) (fun o => o.set s p.toList) hm ho hf hp hn h1 (h2 _)
  refine ⟨m2, L', ?_, f2, E2, fun o' ho' => ?_⟩
  swap
  · rw [ho] at ho'
    cases ho'
    exact g2
  unfold reset
  rw [bind_eq (read_eq ho), bind_eq ((write_eq (fun o => o.set s p.toList) ho).trans e1), e2]

/-! ### Configuration -/

/-- objects are changed, others are only read -/
def Keeps {α : Type} (G : List Ptr) (ps : List Ptr) (f : M α) : Prop :=
  ∀ {m : Mem} {L : List Ptr}, m.Ok → Forest m.own ps L → L.Nodup → (∀ g ∈ G, ∃ o, m.get g = some o) → (∀ g ∈ G, g ∉ L) →
    ∃ x m' L', f m = some (x, m') ∧ Work (fun _ => True) ps m m' L L' []

theorem work_any {ps : List Ptr} (hf : Forest m'.own ps L') (x : Effect m m' L L' K) : Work (fun _ => True) ps m m' L L' K :=
  ⟨x, hf, fun _ _ _ _ _ _ _ => trivial⟩

section
variable {G : List Ptr}

theorem keep_given (hm : m.Ok) (x : Effect m m' L L' []) (hg : ∀ g ∈ G, ∃ o, m.get g = some o) (hd : ∀ g ∈ G, g ∉ L) :
    (∀ g ∈ G, ∃ o, m'.get g = some o) ∧ ∀ g ∈ G, g ∉ L' := by
  refine ⟨fun g h => ?_, fun g h hc => ?_⟩
  · obtain ⟨o, ho⟩ := hg g h
    exact ⟨o, x.get hm ho (hd g h)⟩
  · rcases x.new g (Or.inl hc) with h1 | h1
    · exact hd g h h1
    · obtain ⟨o, ho⟩ := hg g h
      rw [hm g h1] at ho
      cases ho

theorem Keeps.bind {α β : Type} {ps : List Ptr} {f : M α} {g : α → M β} (hf : Keeps G ps f) (hg : ∀ x, Keeps G ps (g x)) : Keeps G ps (f >>= g) := by
  intro m L hm h hn h1 h2
  obtain ⟨x, m1, L1, e1, w1⟩ := hf hm h hn h1 h2
  obtain ⟨h3, h4⟩ := keep_given hm w1.effect h1 h2
  obtain ⟨y, m2, L2, e2, w2⟩ := hg x w1.effect.ok w1.forest w1.nodup h3 h4
  exact ⟨y, m2, L2, by rw [bind_eq e1, e2], w1.trans hm w2⟩

theorem Keeps.each {α : Type} {f : Ptr → M α} (h : ∀ p, Keeps G [p] (f p)) (ps : List Ptr) : Keeps G ps (each f ps) := by
  induction ps with
  | nil =>
    intro m L hm hf hn _ _
    exact ⟨[], m, L, rfl, .refl hm hf hn⟩
  | cons p ps ih =>
    intro m L hm hf hn h1 h2
    obtain ⟨L1, L2, rfl, f1, f2⟩ := Forest.split (ps := [p]) hf
    have n1 := List.nodup_append'.1 hn
    obtain ⟨x, m1, L1', e1, w1⟩ := h p hm f1 n1.1 h1 fun g hg hc => h2 g hg (by simp [hc])
    have w1' := w1.beside (X := []) (ps := []) hm .nil f2 (by simpa using hn)
    simp only [List.nil_append] at w1'
    have f2' := w1.effect.forest hm f2 fun q hq hc => n1.2.2 hc hq
    obtain ⟨h3, h4⟩ := keep_given hm w1'.effect h1 h2
    obtain ⟨xs, m2, L2', e2, w2⟩ := ih w1.effect.ok f2' n1.2.1 h3 fun g hg hc => h4 g hg (by simp [hc])
    have w2' := w2.beside (Y := []) (qs := []) w1.effect.ok w1.forest .nil (by simpa using w1'.nodup)
    simp only [List.append_nil] at w2'
    refine ⟨x :: xs, m2, L1' ++ L2', ?_, w1'.trans hm w2'⟩
    unfold Own.each
    rw [bind_eq e1, bind_eq e2, pure_eq]

/-- work on the objects in a slot -/
theorem Keeps.inside {α : Type} {f : List Ptr → M α} (s : Slot) (h : ∀ ps, Keeps G ps (f ps)) (r : Ptr) : Keeps G [r] (do let o ← read r; f (o.get s)) := by
  intro m L hm hf hn h1 h2
  obtain ⟨o, ho⟩ := hf.get (hf.roots r (by simp))
  obtain ⟨l1, l3, h3, -⟩ := slot_owned o s
  obtain ⟨Lp, fp, np, sp, lp⟩ := Work.inside (U := fun _ => True) hm hf hn ho h3
  obtain ⟨x, m1, Lp', e1, w1⟩ := h (o.get s) hm fp np h1 fun g hg hc => h2 g hg (sp g hc).1
  obtain ⟨L', W, -⟩ := lp w1
  exact ⟨x, m1, L', by rw [bind_eq (read_eq ho), e1], W⟩

theorem reset_new {r q : Ptr} {c : Cls} {t : Str} {rs : List Ptr} (s : Slot) (hm : m.Ok) (hf : Forest m.own [r] L) (hn : L.Nodup)
    (e1 : alloc { cls := c, text := t, refs := rs } m = some (q, m1)) :
    ∃ m' L', reset s r (some q) m1 = some ((), m') ∧ Forest m'.own [r] L' ∧ Effect m m' L L' [] := by
  obtain ⟨m2, e2, x2, g2, -, -⟩ := alloc_eq m { cls := c, text := t, refs := rs } hm
  rw [e1] at e2
  cases e2
  have E := (Effect.refl hm hn fun q hq => hf.live hq).seq hm x2
  obtain ⟨m', L', e3, f3, E3, -⟩ := reset_eq (some m.next) s x2.ok (x2.forest hm hf (by simp)) (Forest.leaf g2) E.nodupLeft
  exact ⟨m', L', e3, f3, by simpa using E.trans hm E3⟩

theorem resetClone_keeps {p : Option Ptr} (hp : ∀ q, p = some q → q ∈ G) (s : Slot) (r : Ptr) : Keeps G [r] (resetClone s r p) := by
  intro m L hm hf hn h1 h2
  cases p with
  | none =>
    obtain ⟨m', L', e1, f1, E1, -⟩ := reset_eq none s hm hf .nil (by simpa using hn)
    exact ⟨(), m', L', e1, work_any f1 (by simpa using E1)⟩
  | some q =>
    obtain ⟨o, ho⟩ := h1 q (hp q rfl)
    obtain ⟨m1, e1, -⟩ := alloc_eq m { cls := o.cls, text := o.text, refs := o.refs } hm
    obtain ⟨m', L', e2, f2, E2⟩ := reset_new s hm hf hn e1
    refine ⟨(), m', L', ?_, work_any f2 E2⟩
    have e3 : clone q m = some (m.next, m1) := by
      unfold clone
      rw [bind_eq (read_eq ho), e1]
    unfold resetClone
    simp only
    rw [bind_eq e3, e2]

end

/-- the configuration of an engine uses up what is given -/
theorem Engine.configure_eq {cj dj im ag df ac : Option Ptr} {Lg : List Ptr} (hm : m.Ok) (hf : Forest m.own [e] L)
    (hg : Forest m.own (df.toList ++ ag.toList ++ im.toList ++ dj.toList ++ cj.toList ++ ac.toList) Lg) (hn : (L ++ Lg).Nodup) :
    ∃ m' L', Engine.configure e cj dj im ag df ac m = some ((), m') ∧ Forest m'.own [e] L' ∧ Effect m m' (L ++ Lg) L' [] := by
  obtain ⟨o, ho⟩ := hf.get (hf.roots e (by simp))
  have n1 := List.nodup_append'.1 hn
  generalize hG : df.toList ++ ag.toList ++ im.toList ++ dj.toList ++ cj.toList ++ ac.toList = G at hg
  have hgG : ∀ g ∈ G, ∃ o, m.get g = some o := fun g h => hg.get (hg.roots g h)
  have hdG : ∀ g ∈ G, g ∉ L := fun g h hc => n1.2.2 hc (hg.roots g h)
  have mem : ∀ {p : Option Ptr}, (∀ q ∈ p.toList, q ∈ G) → ∀ q, p = some q → q ∈ G := fun h q hq => h q (by simp [hq])
  have hcj := mem (p := cj) (by rw [← hG]; simp only [List.mem_append]; tauto)
  have hdj := mem (p := dj) (by rw [← hG]; simp only [List.mem_append]; tauto)
  have him := mem (p := im) (by rw [← hG]; simp only [List.mem_append]; tauto)
  have hag := mem (p := ag) (by rw [← hG]; simp only [List.mem_append]; tauto)
  have hdf := mem (p := df) (by rw [← hG]; simp only [List.mem_append]; tauto)
  have hac := mem (p := ac) (by rw [← hG]; simp only [List.mem_append]; tauto)
  have kb : ∀ b, Keeps G [b] (do
      resetClone .b b cj
      resetClone .c b dj
      resetClone .d b im
      match ac with
      | some _ => resetClone .e b ac
      | none => do
        let g ← alloc { cls := .leaf }
        reset .e b (some g)) := by
    intro b
    refine Keeps.bind (resetClone_keeps hcj .b b) fun _ => Keeps.bind (resetClone_keeps hdj .c b) fun _ => Keeps.bind (resetClone_keeps him .d b) fun _ => ?_
    cases ac with
    | some a => exact resetClone_keeps hac .e b
    | none =>
      intro m L hm hf hn h1 h2
      obtain ⟨m1, e1, -⟩ := alloc_eq m { cls := .leaf } hm
      obtain ⟨m', L', e2, f2, E2⟩ := reset_new .e hm hf hn e1
      refine ⟨(), m', L', ?_, work_any f2 E2⟩
      simp only
      rw [bind_eq e1, e2]
  have kv : ∀ v, Keeps G [v] (do
      resetClone .c v df
      let o ← read v
      each (fun f => resetClone .a f ag) o.b) := by
    intro v
    refine Keeps.bind (resetClone_keeps hdf .c v) fun _ => ?_
    exact Keeps.inside .b (fun ps => Keeps.each (fun f => resetClone_keeps hag .a f) ps) v
  -- rule blocks
  obtain ⟨Lc, fc, nc, sc, lc⟩ := Work.inside (U := fun _ => True) (l1 := o.a ++ o.b) (ps := o.c) (l3 := o.d ++ o.e) hm hf n1.1 ho (by simp [Obj.owned])
  obtain ⟨xs, m1, Lc', e1, w1⟩ := Keeps.each kb o.c hm fc nc hgG fun g hg hc => hdG g hg (sc g hc).1
  obtain ⟨L1, W1, g1⟩ := lc w1
  obtain ⟨hgG1, hdG1⟩ := keep_given hm W1.effect hgG hdG
  -- output variables
  obtain ⟨Lv, fv, nv, sv, lv⟩ := Work.inside (U := fun _ => True) (l1 := o.a) (ps := o.b) (l3 := o.c ++ o.d ++ o.e) W1.effect.ok W1.forest W1.nodup g1 (by simp [Obj.owned])
  obtain ⟨ys, m2, Lv', e2, w2⟩ := Keeps.each kv o.b W1.effect.ok fv nv hgG1 fun g hg hc => hdG1 g hg (sv g hc).1
  obtain ⟨L2, W2, g2⟩ := lv w2
  have W := W1.trans hm W2
  -- what was given
  have hg2 := W.effect.forest hm hg fun q hq hc => n1.2.2 hc hq
  obtain ⟨e3, x3⟩ := delete_eq W.effect.ok hg2 n1.2.1
  have X := W.effect.extend hm (X := Lg) (fun q hq => hg.live hq) (fun q hq hc => n1.2.2 hc hq) n1.2.1
  have dg : ∀ q ∈ L2, q ∉ Lg := by
    intro q hq hc
    exact (List.nodup_append'.1 X.nodupLeft).2.2 hc hq
  have Y := x3.extend W.effect.ok (X := L2) (fun q hq => W.forest.live hq) dg W.nodup
  have X' : Effect m m2 (L ++ Lg) (L2 ++ Lg) [] := X.congr (by intro q; simp; tauto) List.perm_append_comm
  refine ⟨_, L2, ?_, x3.forest W.effect.ok W.forest dg, by simpa using X'.trans hm Y⟩
  unfold configure
  refine (bind_eq (read_eq ho)).trans ((bind_eq e1).trans ((bind_eq e2).trans ?_))
  rw [hG, e3]

end FL.Own
