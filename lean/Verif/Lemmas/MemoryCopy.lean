/-
Lemmas about copying and loading in memory.
-/
import Verif.Lemmas.Memory

namespace FL.Own

local notation "Ptr" => Nat

variable {m m' : Mem} {L L' K : List Ptr}

theorem own_eq {p : Ptr} {o : Obj} (h : m.get p = some o) : m.own p = some o.owned := by simp [Mem.own, h]

theorem own_inv {p : Ptr} {os : List Ptr} (h : m.own p = some os) : ∃ o, m.get p = some o ∧ o.owned = os := by
  unfold Mem.own at h
  cases ho : m.get p with
  | none => simp [ho] at h
  | some o => exact ⟨o, rfl, by simpa [ho] using h⟩

theorem Forest.get {ps : List Ptr} (h : Forest m.own ps L) {p : Ptr} (hp : p ∈ L) : ∃ o, m.get p = some o := by
  obtain ⟨os, h1⟩ := Option.ne_none_iff_exists'.1 (h.alive p hp)
  obtain ⟨o, ho, -⟩ := own_inv h1
  exact ⟨o, ho⟩

theorem Forest.live {ps : List Ptr} (h : Forest m.own ps L) {p : Ptr} (hp : p ∈ L) : m.get p ≠ none := by
  obtain ⟨o, ho⟩ := h.get hp
  simp [ho]

/-- the parts of an object -/
theorem Forest.parts {p : Ptr} (h : Forest m.own [p] L) : ∃ o La Lb Lc Ld Le, m.get p = some o ∧ L = p :: (La ++ Lb ++ Lc ++ Ld ++ Le) ∧
    Forest m.own o.a La ∧ Forest m.own o.b Lb ∧ Forest m.own o.c Lc ∧ Forest m.own o.d Ld ∧ Forest m.own o.e Le := by
  obtain ⟨os, L1, h1, rfl, hf⟩ := h.one_inv
  obtain ⟨o, ho, rfl⟩ := own_inv h1
  obtain ⟨x, Le, rfl, hx, he⟩ := hf.split
  obtain ⟨y, Ld, rfl, hy, hd⟩ := hx.split
  obtain ⟨z, Lc, rfl, hz, hc⟩ := hy.split
  obtain ⟨La, Lb, rfl, ha, hb⟩ := hz.split
  exact ⟨o, La, Lb, Lc, Ld, Le, ho, rfl, ha, hb, hc, hd, he⟩

theorem Forest.whole {p : Ptr} {o : Obj} {La Lb Lc Ld Le : List Ptr} (ho : m.get p = some o) (ha : Forest m.own o.a La) (hb : Forest m.own o.b Lb)
    (hc : Forest m.own o.c Lc) (hd : Forest m.own o.d Ld) (he : Forest m.own o.e Le) :
    Forest m.own [p] (p :: (La ++ Lb ++ Lc ++ Ld ++ Le)) :=
  .one (own_eq ho) ((((ha.append hb).append hc).append hd).append he)

/-! ### Copies -/

/-- the references of objects are among some, which may depend on the class -/
def RefsIn (m : Mem) (L : List Ptr) (U : Cls → Ptr → Prop) : Prop := ∀ p ∈ L, ∀ o, m.get p = some o → ∀ r ∈ o.refs, U o.cls r

/-- A computation makes new objects that belong to its results, and does nothing else.  `S` is what has to be known of the copied object for the new objects to refer
to `U` only. -/
def CopiesOne (S : Mem → Ptr → (Cls → Ptr → Prop) → Prop) (f : Ptr → M Ptr) : Prop := ∀ {m : Mem} {p : Ptr} {L : List Ptr}, m.Ok → Forest m.own [p] L →
  ∃ q m' L', f p m = some (q, m') ∧ Forest m'.own [q] L' ∧ Effect m m' [] L' [] ∧ ∀ U, S m p U → RefsIn m' L' U

/-- the same for lists -/
def Copies (S : Mem → Ptr → (Cls → Ptr → Prop) → Prop) (f : List Ptr → M (List Ptr)) : Prop := ∀ {m : Mem} {ps L : List Ptr}, m.Ok → Forest m.own ps L →
  ∃ qs m' L', f ps m = some (qs, m') ∧ Forest m'.own qs L' ∧ Effect m m' [] L' [] ∧ ∀ U, (∀ p ∈ ps, S m p U) → RefsIn m' L' U

/-- what is known of an object remains known -/
def Stable (S : Mem → Ptr → (Cls → Ptr → Prop) → Prop) : Prop := ∀ {m m' : Mem} {p : Ptr} {L L' K : List Ptr} {U : Cls → Ptr → Prop}, m.Ok →
  Forest m.own [p] L → Effect m m' [] L' K → S m p U → S m' p U

theorem RefsIn.append {U : Cls → Ptr → Prop} {L1 L2 : List Ptr} : RefsIn m (L1 ++ L2) U ↔ RefsIn m L1 U ∧ RefsIn m L2 U := by
  unfold RefsIn
  simp only [List.mem_append]
  constructor
  · intro h
    exact ⟨fun p hp => h p (Or.inl hp), fun p hp => h p (Or.inr hp)⟩
  · rintro ⟨h1, h2⟩ p (hp | hp)
    · exact h1 p hp
    · exact h2 p hp

theorem RefsIn.cons {U : Cls → Ptr → Prop} {p : Ptr} : RefsIn m (p :: L) U ↔ RefsIn m [p] U ∧ RefsIn m L U :=
  RefsIn.append (L1 := [p])

theorem RefsIn.one {U : Cls → Ptr → Prop} {p : Ptr} {o : Obj} (h : m.get p = some o) : RefsIn m [p] U ↔ ∀ r ∈ o.refs, U o.cls r := by
  simp [RefsIn, h]

theorem RefsIn.nil {U : Cls → Ptr → Prop} : RefsIn m [] U := by simp [RefsIn]

theorem RefsIn.mono {U U' : Cls → Ptr → Prop} (h : RefsIn m L U) (hu : ∀ c r, U c r → U' c r) : RefsIn m L U' :=
  fun p hp o ho r hr => hu _ r (h p hp o ho r hr)

/-- objects that an effect does not touch refer to the same -/
theorem Effect.refs {ps : List Ptr} {Lp : List Ptr} {U : Cls → Ptr → Prop} (hm : m.Ok) (h : Effect m m' L L' K) (hf : Forest m.own ps Lp) (hd : ∀ p ∈ Lp, p ∉ L)
    (hr : RefsIn m Lp U) : RefsIn m' Lp U := by
  intro p hp o ho r hr'
  obtain ⟨o', ho'⟩ := hf.get hp
  rw [h.get hm ho' (hd p hp)] at ho
  cases ho
  exact hr p hp _ ho' r hr'

/-- one of several objects -/
theorem Forest.mem {own : Ptr → Option (List Ptr)} {ps : List Ptr} (h : Forest own ps L) {p : Ptr} (hp : p ∈ ps) : ∃ Lp, Forest own [p] Lp ∧ ∀ q ∈ Lp, q ∈ L := by
  obtain ⟨s, t, rfl⟩ := List.append_of_mem hp
  obtain ⟨A, B, rfl, hA, hB⟩ := h.split
  obtain ⟨C, D, rfl, hC, hD⟩ := Forest.split (ps := [p]) hB
  exact ⟨C, hC, fun q hq => by simp [hq]⟩

theorem CopiesOne.each {S : Mem → Ptr → (Cls → Ptr → Prop) → Prop} (hs : Stable S) {f : Ptr → M Ptr} (hf : CopiesOne S f) : Copies S (each f) := by
  intro m ps
  induction ps generalizing m with
  | nil =>
    intro L hm h
    cases h
    exact ⟨[], m, [], rfl, .nil, .refl hm (by simp) (by simp), fun U _ => .nil⟩
  | cons p ps ih =>
    intro L hm h
    obtain ⟨Lp, Ls, rfl, h1, h2⟩ := Forest.split (ps := [p]) h
    obtain ⟨q, m1, L1, e1, f1, x1, r1⟩ := hf hm h1
    obtain ⟨qs, m2, L2, e2, f2, x2, r2⟩ := ih x1.ok (x1.forest hm h2 (by simp))
    refine ⟨q :: qs, m2, L1 ++ L2, ?_, ?_, x1.seq hm x2, ?_⟩
    · unfold Own.each
      rw [bind_eq e1, bind_eq e2, pure_eq]
    · exact (x2.forest x1.ok f1 (by simp)).append f2
    · intro U hU
      rw [RefsIn.append]
      refine ⟨x2.refs x1.ok f1 (by simp) (r1 U (hU p (by simp))), r2 U fun p' hp' => ?_⟩
      obtain ⟨L3, h3, -⟩ := h2.mem hp'
      exact hs hm h3 x1 (hU p' (by simp [hp']))

theorem Forest.leaf {p : Ptr} {c : Cls} {t : Str} {rs : List Ptr} (h : m.get p = some { cls := c, text := t, refs := rs }) : Forest m.own [p] [p] :=
  .one (own_eq h) .nil

/-- references of objects that exist and are not touched -/
theorem Effect.refsOf {U : Cls → Ptr → Prop} {Lp : List Ptr} (hm : m.Ok) (x : Effect m m' [] L' K) (hl : ∀ p ∈ Lp, ∃ o, m.get p = some o) (h : RefsIn m Lp U) : RefsIn m' Lp U := by
  intro p hp o ho
  obtain ⟨o', ho'⟩ := hl p hp
  rw [x.get hm ho' (by simp)] at ho
  cases ho
  exact h p hp _ ho'

/-- norms, hedges, terms: the references are copied -/
def Clone.S (m : Mem) (p : Ptr) (U : Cls → Ptr → Prop) : Prop := RefsIn m [p] U

theorem Clone.stable : Stable Clone.S := by
  intro m m' p L L' K U hm hf x h
  exact x.refsOf hm (fun q hq => by simp at hq; subst hq; exact hf.get (hf.roots q (by simp))) h

theorem Clone.all {U : Cls → Ptr → Prop} {ps : List Ptr} : (∀ p ∈ ps, Clone.S m p U) ↔ RefsIn m ps U := by
  unfold Clone.S RefsIn
  simp

theorem clone_copies : CopiesOne Clone.S clone := by
  intro m p L hm h
  obtain ⟨o, La, Lb, Lc, Ld, Le, ho, rfl, -⟩ := h.parts
  obtain ⟨m1, e1, x1, g1, -, -⟩ := alloc_eq m { cls := o.cls, text := o.text, refs := o.refs } hm
  refine ⟨m.next, m1, [m.next], ?_, .leaf g1, x1, ?_⟩
  · unfold clone
    rw [bind_eq (read_eq ho), e1]
  · intro U hU
    rw [RefsIn.one g1]
    exact hU p (by simp) o ho

/-- clones own nothing -/
theorem clones_eq {ps : List Ptr} (hm : m.Ok) (h : Forest m.own ps L) : ∃ qs m', each clone ps m = some (qs, m') ∧ Forest m'.own qs qs ∧ Effect m m' [] qs [] ∧
    ∀ U, RefsIn m ps U → RefsIn m' qs U := by
  induction ps generalizing m L with
  | nil => exact ⟨[], m, rfl, .nil, .refl hm (by simp) (by simp), fun U _ => .nil⟩
  | cons p ps ih =>
    obtain ⟨Lp, Ls, rfl, h1, h2⟩ := Forest.split (ps := [p]) h
    obtain ⟨o, ho⟩ := h1.get (h1.roots p (by simp))
    obtain ⟨m1, e1, x1, g1, -, -⟩ := alloc_eq m { cls := o.cls, text := o.text, refs := o.refs } hm
    obtain ⟨qs, m2, e2, f2, x2, r2⟩ := ih x1.ok (x1.forest hm h2 (by simp))
    refine ⟨m.next :: qs, m2, ?_, ?_, x1.seq hm x2, ?_⟩
    · have : clone p m = some (m.next, m1) := by
        unfold clone
        rw [bind_eq (read_eq ho), e1]
      unfold each
      rw [bind_eq this, bind_eq e2, pure_eq]
    · exact (x2.forest x1.ok (.leaf g1) (by simp)).append f2
    · intro U hU
      rw [RefsIn.cons, RefsIn.one ho] at hU
      rw [RefsIn.cons]
      refine ⟨x2.refs x1.ok (.leaf g1) (by simp) ((RefsIn.one g1).2 hU.1), r2 U ?_⟩
      exact x1.refsOf hm (fun q hq => h2.get (h2.roots q hq)) hU.2

/-- new objects, and their owner -/
theorem alloc_owner {m0 : Mem} (hm : m0.Ok) {La Lb Lc Ld Le : List Ptr} (o : Obj) (x : Effect m0 m [] (La ++ Lb ++ Lc ++ Ld ++ Le) []) (ha : Forest m.own o.a La)
    (hb : Forest m.own o.b Lb) (hc : Forest m.own o.c Lc) (hd : Forest m.own o.d Ld) (he : Forest m.own o.e Le) :
    ∃ m' L', alloc o m = some (m.next, m') ∧ Forest m'.own [m.next] L' ∧ Effect m0 m' [] L' [] ∧ m'.get m.next = some o ∧
      L' = m.next :: (La ++ Lb ++ Lc ++ Ld ++ Le) ∧ (∀ p, p ≠ m.next → m'.get p = m.get p) ∧
      ∀ U, RefsIn m (La ++ Lb ++ Lc ++ Ld ++ Le) U → (∀ r ∈ o.refs, U o.cls r) → RefsIn m' L' U := by
  obtain ⟨m1, e1, x1, g1, k1, -⟩ := alloc_eq m o x.ok
  refine ⟨m1, m.next :: (La ++ Lb ++ Lc ++ Ld ++ Le), e1, ?_, ?_, g1, rfl, k1, ?_⟩
  · refine .whole g1 ?_ ?_ ?_ ?_ ?_
    · exact x1.forest x.ok ha (by simp)
    · exact x1.forest x.ok hb (by simp)
    · exact x1.forest x.ok hc (by simp)
    · exact x1.forest x.ok hd (by simp)
    · exact x1.forest x.ok he (by simp)
  · refine (x.seq hm x1).congr (by simp) ?_
    exact (List.perm_append_comm (l₁ := [m.next]))
  · intro U h1 h2
    rw [RefsIn.cons, RefsIn.one g1]
    exact ⟨h2, x1.refs x.ok ((((ha.append hb).append hc).append hd).append he) (by simp) h1⟩

/-- fuzzy outputs: the references are copied, and those of the aggregation -/
def Aggregated.S (m : Mem) (p : Ptr) (U : Cls → Ptr → Prop) : Prop := RefsIn m [p] U ∧ ∀ o, m.get p = some o → RefsIn m o.a U

/-- the objects that an object owns directly exist -/
theorem Forest.child {p : Ptr} {o : Obj} (h : Forest m.own [p] L) (hp : m.get p = some o) {q : Ptr} (hq : q ∈ o.owned) : ∃ oq, m.get q = some oq := by
  obtain ⟨os, L1, h1, rfl, hf⟩ := h.one_inv
  rw [own_eq hp] at h1
  cases h1
  exact hf.get (hf.roots q hq)

theorem Aggregated.stable : Stable Aggregated.S := by
  intro m m' p L L' K U hm hf x h
  obtain ⟨o, ho⟩ := hf.get (hf.roots p (by simp))
  refine ⟨Clone.stable hm hf x h.1, ?_⟩
  intro o' ho'
  rw [x.get hm ho (by simp)] at ho'
  cases ho'
  exact x.refsOf hm (fun q hq => hf.child ho (by simp [Obj.owned, hq])) (h.2 o ho)

theorem Aggregated.copy_copies : CopiesOne Aggregated.S Aggregated.copy := by
  intro m p L hm h
  obtain ⟨o, La, Lb, Lc, Ld, Le, ho, rfl, ha, -⟩ := h.parts
  obtain ⟨qs, m1, e1, f1, x1, r1⟩ := clones_eq hm ha
  obtain ⟨m2, L2, e2, f2, x2, -, -, -, r2⟩ := alloc_owner hm { cls := o.cls, text := o.text, a := qs, refs := o.refs } (La := qs) (Lb := []) (Lc := []) (Ld := []) (Le := [])
    (by simpa using x1) f1 .nil .nil .nil .nil
  refine ⟨_, m2, L2, ?_, f2, x2, ?_⟩
  · unfold copy
    rw [bind_eq (read_eq ho), bind_eq e1, e2]
  · intro U hU
    exact r2 U (by simpa using r1 U (hU.2 o ho)) ((RefsIn.one ho).1 hU.1)

/-- What is known of a variable: the references of its terms, and those of its fuzzy output and defuzzifier -/
structure Variable.Refs (m : Mem) (v : Ptr) (U V : Cls → Ptr → Prop) : Prop where
  terms : ∀ o, m.get v = some o → RefsIn m o.a U
  fuzzy : ∀ o, m.get v = some o → ∀ f ∈ o.b, Aggregated.S m f V
  defuzzifier : ∀ o, m.get v = some o → RefsIn m o.c V

theorem Variable.Refs.stable {U V : Cls → Ptr → Prop} {v : Ptr} (hm : m.Ok) (hf : Forest m.own [v] L) (x : Effect m m' [] L' K) (h : Refs m v U V) : Refs m' v U V := by
  obtain ⟨o, La, Lb, Lc, Ld, Le, ho, rfl, ha, hb, hc, hd, he⟩ := hf.parts
  have ho' := x.get hm ho (by simp)
  refine ⟨?_, ?_, ?_⟩
  · intro o1 h1
    rw [ho'] at h1
    cases h1
    exact x.refsOf hm (fun q hq => hf.child ho (by simp [Obj.owned, hq])) (h.terms o ho)
  · intro o1 h1 f hfb
    rw [ho'] at h1
    cases h1
    obtain ⟨Lf, hLf, -⟩ := hb.mem hfb
    exact Aggregated.stable hm hLf x (h.fuzzy o ho f hfb)
  · intro o1 h1
    rw [ho'] at h1
    cases h1
    exact x.refsOf hm (fun q hq => hf.child ho (by simp [Obj.owned, hq])) (h.defuzzifier o ho)

/-- What is known of the copy of a variable: it owns its terms and other objects -/
structure Variable.Made (m : Mem) (v : Ptr) (L : List Ptr) (U V : Cls → Ptr → Prop) : Prop where
  parts : ∃ o Lr, m.get v = some o ∧ L = v :: (o.a ++ Lr) ∧ Forest m.own o.a o.a ∧ Forest m.own (o.b ++ o.c ++ o.d ++ o.e) Lr ∧ RefsIn m o.a U ∧ RefsIn m (v :: Lr) V

theorem Variable.Made.forest {v : Ptr} {U V : Cls → Ptr → Prop} (h : Made m v L U V) : Forest m.own [v] L := by
  obtain ⟨o, Lr, h1, rfl, h2, h3, -⟩ := h.parts
  refine .one (own_eq h1) ?_
  have := h2.append h3
  simpa [Obj.owned] using this

theorem Variable.Made.stable {v : Ptr} {U V : Cls → Ptr → Prop} (hm : m.Ok) (x : Effect m m' [] L' K) (h : Made m v L U V) : Made m' v L U V := by
  obtain ⟨o, Lr, h1, rfl, h2, h3, h4, h5⟩ := h.parts
  refine ⟨o, Lr, x.get hm h1 (by simp), rfl, x.forest hm h2 (by simp), x.forest hm h3 (by simp), x.refs hm h2 (by simp) h4, ?_⟩
  rw [RefsIn.cons] at h5 ⊢
  refine ⟨?_, x.refs hm h3 (by simp) h5.2⟩
  rw [RefsIn.one h1] at h5
  rw [RefsIn.one (x.get hm h1 (by simp))]
  exact h5.1

/-- copies of variables -/
def CopiesVar (f : Ptr → M Ptr) : Prop := ∀ {m : Mem} {p : Ptr} {L : List Ptr}, m.Ok → Forest m.own [p] L →
  ∃ q m' L', f p m = some (q, m') ∧ Forest m'.own [q] L' ∧ Effect m m' [] L' [] ∧ ∀ U V, Variable.Refs m p U V → Variable.Made m' q L' U V

theorem Variable.copy_copies : CopiesVar Variable.copy := by
  intro m p L hm h
  obtain ⟨o, La, Lb, Lc, Ld, Le, ho, rfl, ha, -⟩ := h.parts
  obtain ⟨qs, m1, e1, f1, x1, r1⟩ := clones_eq hm ha
  obtain ⟨m2, L2, e2, f2, x2, g2, h2, k2, r2⟩ := alloc_owner hm { cls := o.cls, text := o.text, a := qs } (La := qs) (Lb := []) (Lc := []) (Ld := []) (Le := [])
    (by simpa using x1) f1 .nil .nil .nil .nil
  refine ⟨_, m2, L2, ?_, f2, x2, ?_⟩
  · unfold copy
    rw [bind_eq (read_eq ho), bind_eq e1, e2]
  · intro U V hU
    subst h2
    have hne : ∀ q ∈ qs, q ≠ m1.next := by
      rintro q hq rfl
      obtain ⟨oq, hoq⟩ := f1.get hq
      rw [x1.ok _ le_rfl] at hoq
      cases hoq
    refine ⟨_, [], g2, by simp, ?_, .nil, ?_, ?_⟩
    · exact f1.congr fun q hq => by simp only [Mem.own, k2 q (hne q hq)]
    · intro q hq oq hoq
      rw [k2 q (hne q hq)] at hoq
      exact r1 U (hU.terms o ho) q hq oq hoq
    · rw [RefsIn.one g2]
      simp

theorem OutputVariable.copy_copies : CopiesVar OutputVariable.copy := by
  intro m p L hm h
  obtain ⟨o, La, Lb, Lc, Ld, Le, ho, rfl, ha, hb, hc, -⟩ := h.parts
  obtain ⟨as, m1, e1, f1, x1, r1⟩ := clones_eq hm ha
  obtain ⟨bs, m2, L2, e2, f2, x2, r2⟩ := CopiesOne.each (S := Aggregated.S) Aggregated.stable Aggregated.copy_copies x1.ok (x1.forest hm hb (by simp))
  have x12 := x1.seq hm x2
  obtain ⟨cs, m3, e3, f3, x3, r3⟩ := clones_eq x2.ok (x12.forest hm hc (by simp))
  have x13 := x12.seq hm x3
  have f1' := x3.forest x2.ok (x2.forest x1.ok f1 (by simp)) (by simp)
  have f2' := x3.forest x2.ok f2 (by simp)
  obtain ⟨m4, L4, e4, f4, x4, g4, h4, k4, r4⟩ := alloc_owner hm { cls := o.cls, text := o.text, a := as, b := bs, c := cs } (La := as) (Lb := L2) (Lc := cs) (Ld := []) (Le := [])
    (by simpa using x13) f1' f2' f3 .nil .nil
  refine ⟨_, m4, L4, ?_, f4, x4, ?_⟩
  · unfold copy
    rw [bind_eq (read_eq ho), bind_eq e1, bind_eq e2, bind_eq e3, e4]
  · intro U V hU
    subst h4
    have q1 := r1 U (hU.terms o ho)
    have q2 := r2 V fun f hf => by
      obtain ⟨Lf, hLf, -⟩ := hb.mem hf
      exact Aggregated.stable hm hLf x1 (hU.fuzzy o ho f hf)
    have q3 := r3 V (x12.refsOf hm (fun q hq => hc.get (hc.roots q hq)) (hU.defuzzifier o ho))
    have q1' := x3.refs x2.ok (x2.forest x1.ok f1 (by simp)) (by simp) (x2.refs x1.ok f1 (by simp) q1)
    have q2' := x3.refs x2.ok f2 (by simp) q2
    have hall : ∀ q ∈ as ++ L2 ++ cs, q ≠ m3.next := by
      rintro q hq rfl
      obtain ⟨oq, hoq⟩ := ((f1'.append f2').append f3).get hq
      rw [x3.ok _ le_rfl] at hoq
      cases hoq
    have same : ∀ q ∈ as ++ L2 ++ cs, m4.get q = m3.get q := fun q hq => k4 q (hall q hq)
    refine ⟨_, L2 ++ cs, g4, by simp, ?_, ?_, ?_, ?_⟩
    · exact f1'.congr fun q hq => by simp only [Mem.own, same q (by simp [hq])]
    · have := f2'.append f3
      simp only [List.append_nil]
      exact this.congr fun q hq => by simp only [Mem.own, same q (by simp only [List.mem_append] at hq ⊢; tauto)]
    · intro q hq oq hoq
      rw [same q (by simp [hq])] at hoq
      exact q1' q hq oq hoq
    · rw [RefsIn.cons, RefsIn.one g4, RefsIn.append]
      refine ⟨by simp, ?_, ?_⟩
      · intro q hq oq hoq
        rw [same q (by simp [hq])] at hoq
        exact q2' q hq oq hoq
      · intro q hq oq hoq
        rw [same q (by simp [hq])] at hoq
        exact q3 q hq oq hoq

theorem CopiesVar.each {f : Ptr → M Ptr} (hf : CopiesVar f) {ps : List Ptr} (hm : m.Ok) (h : Forest m.own ps L) :
    ∃ qs m' L', each f ps m = some (qs, m') ∧ Forest m'.own qs L' ∧ Effect m m' [] L' [] ∧
      ∀ U V, (∀ p ∈ ps, Variable.Refs m p U V) → ∀ q ∈ qs, ∃ Lq, Variable.Made m' q Lq U V := by
  induction ps generalizing m L with
  | nil => exact ⟨[], m, [], rfl, .nil, .refl hm (by simp) (by simp), by simp⟩
  | cons p ps ih =>
    obtain ⟨Lp, Ls, rfl, h1, h2⟩ := Forest.split (ps := [p]) h
    obtain ⟨q, m1, L1, e1, f1, x1, r1⟩ := hf hm h1
    obtain ⟨qs, m2, L2, e2, f2, x2, r2⟩ := ih x1.ok (x1.forest hm h2 (by simp))
    refine ⟨q :: qs, m2, L1 ++ L2, ?_, ?_, x1.seq hm x2, ?_⟩
    · unfold Own.each
      rw [bind_eq e1, bind_eq e2, pure_eq]
    · exact (x2.forest x1.ok f1 (by simp)).append f2
    · intro U V hU q' hq'
      rcases List.mem_cons.1 hq' with rfl | hq'
      · exact ⟨L1, (r1 U V (hU p (by simp))).stable x1.ok x2⟩
      · refine r2 U V (fun p' hp' => ?_) q' hq'
        obtain ⟨L3, h3, -⟩ := h2.mem hp'
        exact (hU p' (by simp [hp'])).stable hm h3 x1

theorem Rule.copy_copies : CopiesOne (fun _ _ _ => True) Rule.copy := by
  intro m p L hm h
  obtain ⟨o, La, Lb, Lc, Ld, Le, ho, rfl, -⟩ := h.parts
  obtain ⟨m1, e1, x1, g1, -, -⟩ := alloc_eq m { cls := .antecedent } hm
  obtain ⟨m2, e2, x2, g2, -, -⟩ := alloc_eq m1 { cls := .consequent } x1.ok
  have x12 := x1.seq hm x2
  have f1 : Forest m2.own [m.next] [m.next] := x2.forest x1.ok (.leaf g1) (by simp)
  obtain ⟨m4, L4, e4, f4, x4, -, -, -, r4⟩ := alloc_owner hm { cls := o.cls, text := o.text, a := [m.next], b := [m1.next] } (Lc := []) (Ld := []) (Le := [])
    (by simpa using x12) f1 (.leaf g2) .nil .nil .nil
  refine ⟨_, m4, L4, ?_, f4, x4, ?_⟩
  · unfold copy
    rw [bind_eq (read_eq ho), bind_eq e1, bind_eq e2, e4]
  · intro U hU
    refine r4 U ?_ (by simp)
    rw [List.append_nil, List.append_nil, List.append_nil, RefsIn.append]
    exact ⟨x2.refs x1.ok (.leaf g1) (by simp) ((RefsIn.one g1).2 (by simp)), (RefsIn.one g2).2 (by simp)⟩

/-- rule blocks: norms and activation methods -/
def RuleBlock.S (m : Mem) (p : Ptr) (U : Cls → Ptr → Prop) : Prop := ∀ o, m.get p = some o → RefsIn m (o.b ++ o.c ++ o.d ++ o.e) U

theorem RuleBlock.stable : Stable RuleBlock.S := by
  intro m m' p L L' K U hm hf x h
  obtain ⟨o, ho⟩ := hf.get (hf.roots p (by simp))
  intro o' ho'
  rw [x.get hm ho (by simp)] at ho'
  cases ho'
  exact x.refsOf hm (fun q hq => hf.child ho (by simp only [Obj.owned, List.mem_append] at hq ⊢; tauto)) (h o ho)

theorem RuleBlock.copy_copies : CopiesOne RuleBlock.S RuleBlock.copy := by
  intro m p L hm h
  obtain ⟨o, La, Lb, Lc, Ld, Le, ho, rfl, ha, hb, hc, hd, he⟩ := h.parts
  obtain ⟨bs, m1, e1, f1, x1, r1⟩ := clones_eq hm hb
  obtain ⟨cs, m2, e2, f2, x2, r2⟩ := clones_eq x1.ok (x1.forest hm hc (by simp))
  have x12 := x1.seq hm x2
  obtain ⟨ds, m3, e3, f3, x3, r3⟩ := clones_eq x2.ok (x12.forest hm hd (by simp))
  have x13 := x12.seq hm x3
  obtain ⟨es, m4, e4, f4, x4, r4⟩ := clones_eq x3.ok (x13.forest hm he (by simp))
  have x14 := x13.seq hm x4
  obtain ⟨as, m5, L5, e5, f5, x5, r5⟩ := Rule.copy_copies.each (fun _ _ _ _ => trivial) x4.ok (x14.forest hm ha (by simp))
  have x15 := x14.seq hm x5
  have x25 := (x2.seq x1.ok x3).seq x1.ok (x4.seq x3.ok x5)
  have x35 := x3.seq x2.ok (x4.seq x3.ok x5)
  have x45 := x4.seq x3.ok x5
  obtain ⟨m6, L6, e6, f6, x6, -, -, -, r6⟩ := alloc_owner hm { cls := o.cls, text := o.text, a := as, b := bs, c := cs, d := ds, e := es }
    (La := L5) (Lb := bs) (Lc := cs) (Ld := ds) (Le := es)
    (by
      refine x15.congr (by simp) ?_
      simp only [List.append_assoc]
      refine (List.perm_append_comm (l₁ := L5)).trans ?_
      simp) f5 (x25.forest x1.ok f1 (by simp)) (x35.forest x2.ok f2 (by simp)) (x45.forest x3.ok f3 (by simp)) (x5.forest x4.ok f4 (by simp))
  refine ⟨_, m6, L6, ?_, f6, x6, ?_⟩
  · unfold copy
    rw [bind_eq (read_eq ho), bind_eq e1, bind_eq e2, bind_eq e3, bind_eq e4, bind_eq e5, e6]
  · intro U hU
    have hU' := hU o ho
    rw [RefsIn.append, RefsIn.append, RefsIn.append] at hU'
    refine r6 U ?_ (by simp)
    rw [RefsIn.append, RefsIn.append, RefsIn.append, RefsIn.append]
    refine ⟨⟨⟨⟨r5 U (fun _ _ => trivial), ?_⟩, ?_⟩, ?_⟩, ?_⟩
    · exact x25.refs x1.ok f1 (by simp) (r1 U hU'.1.1.1)
    · exact x35.refs x2.ok f2 (by simp) (r2 U (x1.refsOf hm (fun q hq => hc.get (hc.roots q hq)) hU'.1.1.2))
    · exact x45.refs x3.ok f3 (by simp) (r3 U (x12.refsOf hm (fun q hq => hd.get (hd.roots q hq)) hU'.1.2))
    · exact x5.refs x4.ok f4 (by simp) (r4 U (x13.refsOf hm (fun q hq => he.get (he.roots q hq)) hU'.2))

end FL.Own
