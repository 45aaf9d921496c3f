/-
Lemmas about changing what objects own, and about assignments.
-/
import Verif.Lemmas.MemoryAlike

namespace FL.Own

local notation "Ptr" => Nat

variable {m m1 m2 m' : Mem} {L L1 L2 L' K K1 K2 : List Ptr} {U : Ptr → Prop} {e : Ptr}

local macro "perm" : tactic => `(tactic| (refine List.perm_iff_count.2 fun a => ?_; simp only [List.count_append, List.count_cons, List.count_nil]; omega))

theorem Forest.perm {own : Ptr → Option (List Ptr)} {ps qs : List Ptr} (h : ps.Perm qs) (hf : Forest own ps L) : ∃ L', Forest own qs L' ∧ L'.Perm L := by
  induction h generalizing L with
  | nil => exact ⟨L, hf, .refl _⟩
  | cons p _ ih =>
    obtain ⟨L1, L2, rfl, h1, h2⟩ := Forest.split (ps := [p]) hf
    obtain ⟨L', h3, h4⟩ := ih h2
    exact ⟨L1 ++ L', Forest.append (ps := [p]) h1 h3, h4.append_left L1⟩
  | swap p q l =>
    obtain ⟨L1, L2, rfl, h1, h2⟩ := Forest.split (ps := [q]) hf
    obtain ⟨L3, L4, rfl, h3, h4⟩ := Forest.split (ps := [p]) h2
    refine ⟨L3 ++ (L1 ++ L4), Forest.append (ps := [p]) h3 (Forest.append (ps := [q]) h1 h4), by perm⟩
  | trans _ _ ih1 ih2 =>
    obtain ⟨L', h1, h2⟩ := ih1 hf
    obtain ⟨L'', h3, h4⟩ := ih2 h1
    exact ⟨L'', h3, h4.trans h2⟩

/-- an object gets and gives away objects -/
theorem modify_slot {r : Ptr} {o : Obj} {l1 l3 old new out extra Lx : List Ptr} (f : Obj → Obj) (hm : m.Ok) (hr : m.get r = some o) (hf : Forest m.own [r] L)
    (hx : Forest m.own extra Lx) (hn : (L ++ Lx).Nodup) (ho : o.owned = l1 ++ (old ++ l3)) (ho' : (f o).owned = l1 ++ (new ++ l3)) (hp : (old ++ extra).Perm (new ++ out)) :
    ∃ m' L' Lo, modify r f m = some ((), m') ∧ Forest m'.own [r] L' ∧ Forest m'.own out Lo ∧ Effect m m' (L ++ Lx) (L' ++ Lo) [] ∧ (L' ++ Lo).Perm (L ++ Lx) ∧
      m'.get r = some (f o) ∧ ∀ q, q ≠ r → m'.get q = m.get q := by
  obtain ⟨os, L0, h1, rfl, hf1⟩ := hf.one_inv
  rw [own_eq hr] at h1
  cases h1
  rw [ho] at hf1
  obtain ⟨X, Y, rfl, hX, hY⟩ := hf1.split
  obtain ⟨Z, Y, rfl, hZ, hY⟩ := hY.split
  obtain ⟨W, hW, pW⟩ := (hZ.append hx).perm hp
  obtain ⟨A, B, rfl, hA, hB⟩ := hW.split
  have n0 : (r :: (X ++ (Z ++ Y) ++ Lx)).Nodup := by simpa using hn
  obtain ⟨h0, hn1⟩ := List.nodup_cons.1 n0
  have hperm : (X ++ (A ++ Y) ++ B).Perm (X ++ (Z ++ Y) ++ Lx) := by
    refine List.perm_iff_count.2 fun a => ?_
    have := List.perm_iff_count.1 pW a
    simp only [List.count_append] at this ⊢
    omega
  have hr' : r ∉ X ++ (A ++ Y) ++ B := fun hc => h0 (hperm.mem_iff.1 hc)
  obtain ⟨m1, e1, x1, f1, g1, k1, -⟩ := modify_owner hm hr f (L2 := X ++ (A ++ Y)) (by rw [ho']; exact hX.append (hA.append hY)) (fun hc => hr' (by simp only [List.mem_append] at hc ⊢; tauto))
  refine ⟨m1, r :: (X ++ (A ++ Y)), B, e1, f1, x1.forest hm hB (by simp only [List.mem_singleton]; rintro q hq rfl; exact hr' (by simp [hq])), ?_, ?_, g1, k1⟩
  · have X1 := x1.extend hm (X := X ++ (Z ++ Y) ++ Lx) (fun q hq => ((hX.append (hZ.append hY)).append hx).live hq)
      (by simp only [List.mem_singleton]; rintro q hq rfl; exact h0 hq) hn1
    refine X1.congr (by intro q; simp; tauto) ?_
    refine List.perm_iff_count.2 fun a => ?_
    have := List.perm_iff_count.1 hperm a
    simp only [List.count_append, List.count_cons, List.count_nil] at this ⊢
    omega
  · rw [List.cons_append, List.cons_append]
    exact hperm.cons r

/-- what an object owns is deleted, and then forgotten -/
theorem clear_slot {r : Ptr} {o : Obj} {l1 l3 old : List Ptr} (f : Obj → Obj) (hm : m.Ok) (hr : m.get r = some o) (hf : Forest m.own [r] L) (hn : L.Nodup)
    (ho : o.owned = l1 ++ (old ++ l3)) (ho' : (f o).owned = l1 ++ l3) :
    ∃ m1 m2 L', delete old m = some ((), m1) ∧ modify r f m1 = some ((), m2) ∧ Forest m2.own [r] L' ∧ Effect m m2 L L' [] ∧ m2.get r = some (f o) ∧ ∀ q ∈ L', q ∈ L := by
  obtain ⟨os, L0, h1, rfl, hf1⟩ := hf.one_inv
  rw [own_eq hr] at h1
  cases h1
  rw [ho] at hf1
  obtain ⟨X, Y, rfl, hX, hY⟩ := hf1.split
  obtain ⟨Z, Y, rfl, hZ, hY⟩ := hY.split
  obtain ⟨h0, hn1⟩ := List.nodup_cons.1 hn
  have n1 := List.nodup_append'.1 hn1
  have n2 := List.nodup_append'.1 n1.2.1
  have dXZ : ∀ q ∈ X, q ∉ Z := fun q hq hc => n1.2.2 hq (by simp [hc])
  have dYZ : ∀ q ∈ Y, q ∉ Z := fun q hq hc => n2.2.2 hc hq
  have hrZ : r ∉ Z := fun hc => h0 (by simp [hc])
  have hrXY : r ∉ X ++ Y := fun hc => h0 (by simp only [List.mem_append] at hc ⊢; tauto)
  have nXY : (X ++ Y).Nodup := List.nodup_append'.2 ⟨n1.1, n2.2.1, fun q hq hc => n1.2.2 hq (by simp [hc])⟩
  obtain ⟨e1, x1⟩ := delete_eq hm hZ n2.1
  have g1 := x1.get hm hr hrZ
  have hXY : Forest (m.freeAll Z).own (l1 ++ l3) (X ++ Y) := (x1.forest hm hX dXZ).append (x1.forest hm hY dYZ)
  obtain ⟨m2, e2, x2, f2, g2, k2, -⟩ := modify_owner x1.ok g1 f (L2 := X ++ Y) (by rw [ho']; exact hXY) hrXY
  refine ⟨_, m2, r :: (X ++ Y), e1, e2, f2, ?_, g2, ?_⟩
  · have X1 := x1.extend hm (X := r :: (X ++ Y)) (fun q hq => (by
      rcases List.mem_cons.1 hq with rfl | hq
      · simp [hr]
      · exact (hX.append hY).live hq)) (by
        intro q hq hc
        rcases List.mem_cons.1 hq with rfl | hq
        · exact hrZ hc
        · rcases List.mem_append.1 hq with hq | hq
          · exact dXZ q hq hc
          · exact dYZ q hq hc) (List.nodup_cons.2 ⟨hrXY, nXY⟩)
    have X2 := x2.extend x1.ok (X := X ++ Y) (fun q hq => hXY.live hq) (by simp only [List.mem_singleton]; rintro q hq rfl; exact hrXY hq) nXY
    have X2' : Effect (m.freeAll Z) m2 (r :: (X ++ Y) ++ []) (r :: (X ++ Y)) [] := X2.congr (by intro q; simp; tauto) (by perm)
    exact (X1.trans hm X2').congr (by intro q; simp; tauto) (.refl _)
  · intro q hq
    simp only [List.mem_cons, List.mem_append] at hq ⊢
    tauto

/-- new objects are stored in an object -/
theorem fill_slot {r : Ptr} {o : Obj} {l1 l3 new Ln : List Ptr} (f : Obj → Obj) {m0 : Mem} {L0 : List Ptr} (hm : m.Ok) (hm0 : m0.Ok) (E : Effect m0 m L0 L []) (hr : m.get r = some o)
    (hf : Forest m.own [r] L) (x : Effect m m1 [] Ln []) (hN : Forest m1.own new Ln) (ho : o.owned = l1 ++ l3) (ho' : (f o).owned = l1 ++ (new ++ l3)) :
    ∃ m2 L', modify r f m1 = some ((), m2) ∧ Forest m2.own [r] L' ∧ Effect m0 m2 L0 L' [] ∧ m2.get r = some (f o) ∧ GrowsBut r m1 m2 := by
  have E1 := E.seq hm0 x
  obtain ⟨m2, L', e2, X2, f2, p2, g2, k2⟩ := Engine.modify_grow f x.ok (x.get hm hr (by simp)) (x.forest hm hf (by simp)) hN E1.nodupLeft ho ho'
  exact ⟨m2, L', e2, f2, by simpa using E1.trans hm0 X2, g2, .of_same k2⟩

/-! ### Assignments -/

theorem Variable.assign_eq {v p : Ptr} {Lp : List Ptr} (hm : m.Ok) (hf : Forest m.own [v] L) (hn : L.Nodup) (hs : Forest m.own [p] Lp) (hd : ∀ q ∈ Lp, q ∉ L) :
    ∃ m' L', Variable.assign v p m = some ((), m') ∧ Forest m'.own [v] L' ∧ Effect m m' L L' [] ∧
      ∀ o q, m.get v = some o → m.get p = some q → ∃ l, m'.get v = some { o with text := q.text, a := l } ∧ List.Forall₂ (IsClone m') q.a l := by
  have hne : v ≠ p := by
    rintro rfl
    exact hd v (hs.roots v (by simp)) (hf.roots v (by simp))
  obtain ⟨o, ho⟩ := hf.get (hf.roots v (by simp))
  obtain ⟨m1, m2, L2, e1, e2, f2, E2, g2, -⟩ := clear_slot (l1 := []) (old := o.a) (l3 := o.b ++ o.c ++ o.d ++ o.e) (fun o => { o with a := [] }) hm ho hf hn
    (by simp [Obj.owned]) (by simp [Obj.owned])
  have hs2 := E2.forest hm hs hd
  obtain ⟨q, A, B, C, D, F, hq, hLp, hA, -⟩ := hs2.parts
  obtain ⟨ts, m3, e3, f3, x3, -⟩ := clones_eq E2.ok hA
  obtain ⟨m4, L4, e4, f4, E4, g4, k4⟩ := fill_slot (l1 := []) (new := ts) (l3 := o.b ++ o.c ++ o.d ++ o.e) (fun o => { o with text := q.text, a := o.a ++ ts }) E2.ok hm E2 g2 f2 x3 f3
    (by simp [Obj.owned]) (by simp [Obj.owned])
  refine ⟨m4, L4, ?_, f4, E4, ?_⟩
  · unfold assign
    rw [if_pos hne, bind_eq (read_eq ho), bind_eq e1, bind_eq e2, bind_eq (read_eq hq), bind_eq e3, e4]
  · intro o' q' ho' hq'
    rw [ho] at ho'
    cases ho'
    have := E2.get hm hq' (hd p (hs.roots p (by simp)))
    rw [hq] at this
    cases this
    have vA : v ∉ Lp := fun hc => hd v hc (hf.roots v (by simp))
    exact ⟨_, g4, IsClone.local.keep (clones_alike E2.ok e3).2.1 (x3.forest E2.ok hA (by simp)) f3 (fun hc => vA (by rw [hLp]; simp [hc])) (x3.fresh E2.ok g2) k4⟩

theorem OutputVariable.assign_eq {v p : Ptr} {Lp : List Ptr} (hm : m.Ok) (hf : Forest m.own [v] L) (hn : L.Nodup) (hs : Forest m.own [p] Lp) (hd : ∀ q ∈ Lp, q ∉ L) :
    ∃ m' L', OutputVariable.assign v p m = some ((), m') ∧ Forest m'.own [v] L' ∧ Effect m m' L L' [] ∧
      ∀ o q, m.get v = some o → m.get p = some q → ∃ a b c, m'.get v = some { o with text := q.text, a := a, b := b, c := c } ∧ List.Forall₂ (IsClone m') q.a a ∧
        List.Forall₂ (Aggregated.IsCopy m') q.b b ∧ List.Forall₂ (IsClone m') q.c c := by
  have hne : v ≠ p := by
    rintro rfl
    exact hd v (hs.roots v (by simp)) (hf.roots v (by simp))
  obtain ⟨o, ho⟩ := hf.get (hf.roots v (by simp))
  obtain ⟨q, A, B, C, D, F, hq, rfl, hA, hB, hC, -⟩ := hs.parts
  obtain ⟨m1, m2, L2, e1, e2, f2, E2, g2, s2⟩ := clear_slot (l1 := o.a) (old := o.b) (l3 := o.c ++ o.d ++ o.e) (fun o => { o with b := [] }) hm ho hf hn
    (by simp [Obj.owned]) (by simp [Obj.owned])
  obtain ⟨m3, m4, L4, e3, e4, f4, E4, g4, s4⟩ := clear_slot (l1 := o.a) (old := o.c) (l3 := o.d ++ o.e) (fun o => { o with c := [] }) E2.ok g2 f2 E2.nodupLeft
    (by simp [Obj.owned]) (by simp [Obj.owned])
  have E04 := E2.trans hm E4
  obtain ⟨m5, L5, e5, f5, E5, g5⟩ := Variable.assign_eq E4.ok f4 E4.nodupLeft (E04.forest hm hs hd) fun q hq hc => hd q hq (s2 q (s4 q hc))
  obtain ⟨l, g5, i5⟩ := g5 _ q g4 (E04.get hm hq (hd p (by simp)))
  have E05 := E04.trans hm E5
  simp only [List.append_nil] at E05
  have vP : v ∉ p :: (A ++ B ++ C ++ D ++ F) := fun hc => hd v hc (hf.roots v (by simp))
  have vA : v ∉ A := fun hc => vP (by simp [hc])
  have vB : v ∉ B := fun hc => vP (by simp [hc])
  have vC : v ∉ C := fun hc => vP (by simp [hc])
  have A5 := E05.forest hm hA fun x hx => hd x (by simp [hx])
  obtain ⟨F5, hF5, s5⟩ : ∃ F5, Forest m5.own l F5 ∧ v ∉ F5 := by
    obtain ⟨o5, F1, F2, F3, F4, F5, h5, hL5, hl, -⟩ := f5.parts
    rw [g5] at h5
    cases h5
    have := E5.nodupLeft
    rw [hL5] at this
    exact ⟨F1, hl, fun hc => (List.nodup_cons.1 this).1 (by simp [hc])⟩
  have B5 := E05.forest hm hB fun x hx => hd x (by simp [hx])
  obtain ⟨fs, m6, L6, e6, f6, x6, -⟩ := CopiesOne.each (S := Aggregated.S) Aggregated.stable Aggregated.copy_copies E5.ok B5
  have i6 := (each_alike (P := Aggregated.IsCopy) (fun hg h => h.mono hg) Aggregated.copy_alike E5.ok e6).2.1
  obtain ⟨m7, L7, e7, f7, E7, g7, k7⟩ := fill_slot (l1 := l) (new := fs) (l3 := o.d ++ o.e) (fun o => { o with b := fs }) E5.ok hm E05 g5 f5 x6 f6
    (by simp [Obj.owned]) (by simp [Obj.owned])
  have C7 := E7.forest hm hC fun x hx => hd x (by simp [hx])
  obtain ⟨zs, m8, e8, f8, x8, -⟩ := clones_eq E7.ok C7
  have i8 := (clones_alike E7.ok e8).2.1
  obtain ⟨m9, L9, e9, f9, E9, g9, k9⟩ := fill_slot (l1 := l ++ fs) (new := zs) (l3 := o.d ++ o.e) (fun o => { o with c := zs }) E7.ok hm E7 g7 f7 x8 f8
    (by simp [Obj.owned]) (by simp [Obj.owned])
  refine ⟨m9, L9, ?_, f9, E9, ?_⟩
  · unfold assign
    rw [if_pos hne, bind_eq (read_eq ho), bind_eq e1, bind_eq e2, bind_eq e3, bind_eq e4, bind_eq e5, bind_eq (read_eq (E05.get hm hq (hd p (by simp)))), bind_eq e6, bind_eq e7,
      bind_eq e8, e9]
  · intro o' q' ho' hq'
    rw [ho] at ho'
    cases ho'
    rw [hq] at hq'
    cases hq'
    have k79 := (x8.growsBut (r := v) E7.ok).trans k9
    exact ⟨l, fs, zs, g9, IsClone.local.keep i5 A5 hF5 vA s5 ((x6.growsBut E5.ok).trans (k7.trans k79)),
      Aggregated.IsCopy.local.keep i6 (x6.forest E5.ok B5 (by simp)) f6 vB (x6.fresh E5.ok g5) (k7.trans k79),
      IsClone.local.keep i8 (x8.forest E7.ok C7 (by simp)) f8 vC (x8.fresh E7.ok g7) k9⟩

/-- an object is stored, and then what was there is deleted -/
theorem swap_slot {r : Ptr} {o : Obj} {l1 l3 old new Ln : List Ptr} (f : Obj → Obj) (hm : m.Ok) (hr : m.get r = some o) (hf : Forest m.own [r] L)
    (hN : Forest m.own new Ln) (hn : (L ++ Ln).Nodup) (ho : o.owned = l1 ++ (old ++ l3)) (ho' : (f o).owned = l1 ++ (new ++ l3)) :
    ∃ m1 m2 L', modify r f m = some ((), m1) ∧ delete old m1 = some ((), m2) ∧ Forest m2.own [r] L' ∧ Effect m m2 (L ++ Ln) L' [] ∧ m2.get r = some (f o) ∧
      ∀ x ∈ L', x ≠ r → m2.get x = m.get x := by
  obtain ⟨m1, L1, Lo, e1, f1, fo, E1, p1, g1, k1⟩ := modify_slot (new := new) (out := old) f hm hr hf hN hn ho ho' List.perm_append_comm
  have n1 := List.nodup_append'.1 E1.nodupLeft
  obtain ⟨e2, x2⟩ := delete_eq E1.ok fo n1.2.1
  have X2 := x2.extend E1.ok (X := L1) (fun q hq => f1.live hq) (fun q hq hc => n1.2.2 hq hc) n1.1
  refine ⟨m1, _, L1, e1, e2, x2.forest E1.ok f1 (fun q hq hc => n1.2.2 hq hc), ?_, ?_, ?_⟩
  · simpa using E1.trans hm X2
  · exact x2.get E1.ok g1 fun hc => n1.2.2 (f1.roots r (by simp)) hc
  · intro x hx hxr
    obtain ⟨ox, hox⟩ := f1.get hx
    rw [← k1 x hxr, hox]
    exact x2.get E1.ok hox fun hc => n1.2.2 hx hc

theorem Rule.assign_eq {r p : Ptr} {Lp : List Ptr} (hm : m.Ok) (hf : Forest m.own [r] L) (hn : L.Nodup) (hs : Forest m.own [p] Lp) (hne : r ≠ p) :
    ∃ m' L', Rule.assign r p m = some ((), m') ∧ Forest m'.own [r] L' ∧ Effect m m' L L' [] ∧
      ∀ o q, m.get r = some o → m.get p = some q → ∃ a b, m'.get r = some { o with text := q.text, a := [a], b := [b] } ∧ m'.get a = some { cls := .antecedent } ∧
        m'.get b = some { cls := .consequent } := by
  obtain ⟨q, hq⟩ := hs.get (hs.roots p (by simp))
  obtain ⟨o, ho⟩ := hf.get (hf.roots r (by simp))
  obtain ⟨m1, e1, x1, g1, -, -⟩ := alloc_eq m { cls := .antecedent } hm
  have X1 := (Effect.refl hm hn fun q hq => hf.live hq).seq hm x1
  have go1 := x1.get hm ho (by simp)
  obtain ⟨m2, m3, L3, e2, e3, f3, E3, g3, t3⟩ := swap_slot (l1 := []) (old := o.a) (new := [m.next]) (l3 := o.b ++ o.c ++ o.d ++ o.e) (fun o => { o with text := q.text, a := [m.next] })
    x1.ok go1 (x1.forest hm hf (by simp)) (Forest.leaf g1) X1.nodupLeft (by simp [Obj.owned]) (by simp [Obj.owned])
  have X3 := X1.trans hm E3
  obtain ⟨m4, e4, x4, g4, -, -⟩ := alloc_eq m3 { cls := .consequent } E3.ok
  have X4 := X3.seq hm x4
  have go4 := x4.get E3.ok g3 (by simp)
  obtain ⟨m5, m6, L6, e5, e6, f6, E6, g6, t6⟩ := swap_slot (l1 := [m.next]) (old := o.b) (new := [m3.next]) (l3 := o.c ++ o.d ++ o.e) (fun o => { o with b := [m3.next] })
    x4.ok go4 (x4.forest E3.ok f3 (by simp)) (Forest.leaf g4) X4.nodupLeft (by simp [Obj.owned]) (by simp [Obj.owned])
  refine ⟨m6, L6, ?_, f6, by simpa using X4.trans hm E6, ?_⟩
  · unfold assign
    rw [if_pos hne, bind_eq (read_eq hq), bind_eq e1, bind_eq (read_eq go1), bind_eq e2, bind_eq e3, bind_eq e4, bind_eq (read_eq go4), bind_eq e5, e6]
  · intro o' q' ho' hq'
    rw [ho] at ho'
    cases ho'
    rw [hq] at hq'
    cases hq'
    have ar : m.next ≠ r := by
      rintro rfl
      rw [hm _ le_rfl] at ho
      cases ho
    have br : m3.next ≠ r := by
      rintro rfl
      rw [E3.ok _ le_rfl] at g3
      cases g3
    have a3 : m.next ∈ L3 := f3.children (f3.roots r (by simp)) (own_eq g3) (by simp [Obj.owned])
    have a6 : m.next ∈ L6 := f6.children (f6.roots r (by simp)) (own_eq g6) (by simp [Obj.owned])
    have b6 : m3.next ∈ L6 := f6.children (f6.roots r (by simp)) (own_eq g6) (by simp [Obj.owned])
    refine ⟨m.next, m3.next, g6, ?_, ?_⟩
    · rw [t6 _ a6 ar]
      refine x4.get E3.ok ?_ (by simp)
      rw [t3 _ a3 ar, g1]
    · rw [t6 _ b6 br, g4]

theorem RuleBlock.assign_eq {r p : Ptr} {Lp : List Ptr} (hm : m.Ok) (hf : Forest m.own [r] L) (hn : L.Nodup) (hs : Forest m.own [p] Lp) (hd : ∀ q ∈ Lp, q ∉ L) :
    ∃ m' L', RuleBlock.assign r p m = some ((), m') ∧ Forest m'.own [r] L' ∧ Effect m m' L L' [] ∧
      ∀ o q, m.get r = some o → m.get p = some q → ∃ a b c d e, m'.get r = some { o with text := q.text, a := a, b := b, c := c, d := d, e := e } ∧
        List.Forall₂ (Rule.IsCopy m') q.a a ∧ List.Forall₂ (IsClone m') q.b b ∧ List.Forall₂ (IsClone m') q.c c ∧ List.Forall₂ (IsClone m') q.d d ∧
        List.Forall₂ (IsClone m') q.e e := by
  have hne : r ≠ p := by
    rintro rfl
    exact hd r (hs.roots r (by simp)) (hf.roots r (by simp))
  obtain ⟨o, ho⟩ := hf.get (hf.roots r (by simp))
  obtain ⟨q, A, B, C, D, F, hq, rfl, hA, hB, hC, hD, hF⟩ := hs.parts
  obtain ⟨m1, m2, L2, e1, e2, f2, E2, g2, s2⟩ := clear_slot (l1 := []) (old := o.a) (l3 := o.b ++ o.c ++ o.d ++ o.e) (fun o => { o with a := [] }) hm ho hf hn
    (by simp [Obj.owned]) (by simp [Obj.owned])
  obtain ⟨m3, m4, L4, e3, e4, f4, E4, g4, s4⟩ := clear_slot (l1 := []) (old := o.b) (l3 := o.c ++ o.d ++ o.e) (fun o => { o with b := [] }) E2.ok g2 f2 E2.nodupLeft
    (by simp [Obj.owned]) (by simp [Obj.owned])
  obtain ⟨m5, m6, L6, e5, e6, f6, E6, g6, s6⟩ := clear_slot (l1 := []) (old := o.c) (l3 := o.d ++ o.e) (fun o => { o with c := [] }) E4.ok g4 f4 E4.nodupLeft
    (by simp [Obj.owned]) (by simp [Obj.owned])
  obtain ⟨m7, m8, L8, e7, e8, f8, E8, g8, s8⟩ := clear_slot (l1 := []) (old := o.d) (l3 := o.e) (fun o => { o with d := [] }) E6.ok g6 f6 E6.nodupLeft
    (by simp [Obj.owned]) (by simp [Obj.owned])
  obtain ⟨m9, m10, L10, e9, e10, f10, E10, g10, s10⟩ := clear_slot (l1 := []) (old := o.e) (l3 := []) (fun o => { o with e := [] }) E8.ok g8 f8 E8.nodupLeft
    (by simp [Obj.owned]) (by simp [Obj.owned])
  have E := (((E2.trans hm E4).trans hm E6).trans hm E8).trans hm E10
  simp only [List.append_nil] at E
  obtain ⟨bs, n1, k1, c1, x1, -⟩ := clones_eq E.ok (E.forest hm hB fun x hx => hd x (by simp [hx]))
  obtain ⟨n2, M2, k2, c2, E12, h2, t2⟩ := fill_slot (l1 := []) (new := bs) (l3 := []) (fun o => { o with b := bs }) E.ok hm E g10 f10 x1 c1
    (by simp [Obj.owned]) (by simp [Obj.owned])
  obtain ⟨cs, n3, k3, c3, x3, -⟩ := clones_eq E12.ok (E12.forest hm hC fun x hx => hd x (by simp [hx]))
  obtain ⟨n4, M4, k4, c4, E14, h4, t4⟩ := fill_slot (l1 := bs) (new := cs) (l3 := []) (fun o => { o with c := cs }) E12.ok hm E12 h2 c2 x3 c3
    (by simp [Obj.owned]) (by simp [Obj.owned])
  obtain ⟨ds, n5, k5, c5, x5, -⟩ := clones_eq E14.ok (E14.forest hm hD fun x hx => hd x (by simp [hx]))
  obtain ⟨n6, M6, k6, c6, E16, h6, t6⟩ := fill_slot (l1 := bs ++ cs) (new := ds) (l3 := []) (fun o => { o with d := ds }) E14.ok hm E14 h4 c4 x5 c5
    (by simp [Obj.owned]) (by simp [Obj.owned])
  obtain ⟨es, n7, k7, c7, x7, -⟩ := clones_eq E16.ok (E16.forest hm hF fun x hx => hd x (by simp [hx]))
  obtain ⟨n8, M8, k8, c8, E18, h8, t8⟩ := fill_slot (l1 := bs ++ cs ++ ds) (new := es) (l3 := []) (fun o => { o with e := es }) E16.ok hm E16 h6 c6 x7 c7
    (by simp [Obj.owned]) (by simp [Obj.owned])
  obtain ⟨rs, n9, M9, k9, c9, x9, -⟩ := CopiesOne.each (S := fun _ _ _ => True) (fun _ _ _ _ => trivial) Rule.copy_copies E18.ok (E18.forest hm hA fun x hx => hd x (by simp [hx]))
  obtain ⟨n10, M10, k10, c10, E20, h20, t10⟩ := fill_slot (l1 := []) (new := rs) (l3 := bs ++ cs ++ ds ++ es) (fun o => { o with text := q.text, a := o.a ++ rs }) E18.ok hm E18 h8 c8 x9 c9
    (by simp [Obj.owned]) (by simp [Obj.owned])
  refine ⟨n10, M10, ?_, c10, E20, ?_⟩
  swap
  · intro o' q' ho' hq'
    rw [ho] at ho'
    cases ho'
    rw [hq] at hq'
    cases hq'
    have rP : r ∉ p :: (A ++ B ++ C ++ D ++ F) := fun hc => hd r hc (hf.roots r (by simp))
    have y10 := t10
    have y8 := t8.trans ((x9.growsBut E18.ok).trans y10)
    have y6 := t6.trans ((x7.growsBut E16.ok).trans y8)
    have y4 := t4.trans ((x5.growsBut E14.ok).trans y6)
    have y2 := t2.trans ((x3.growsBut E12.ok).trans y4)
    refine ⟨rs, bs, cs, ds, es, h20, ?_, ?_, ?_, ?_, ?_⟩
    · exact Rule.IsCopy.local.keep (each_alike (P := Rule.IsCopy) (fun hg h => h.mono hg) Rule.copy_alike E18.ok k9).2.1
        (x9.forest E18.ok (E18.forest hm hA fun x hx => hd x (by simp [hx])) (by simp)) c9 (fun hc => rP (by simp [hc])) (x9.fresh E18.ok h8) y10
    · exact IsClone.local.keep (clones_alike E.ok k1).2.1 (x1.forest E.ok (E.forest hm hB fun x hx => hd x (by simp [hx])) (by simp)) c1 (fun hc => rP (by simp [hc])) (x1.fresh E.ok g10) y2
    · exact IsClone.local.keep (clones_alike E12.ok k3).2.1 (x3.forest E12.ok (E12.forest hm hC fun x hx => hd x (by simp [hx])) (by simp)) c3 (fun hc => rP (by simp [hc])) (x3.fresh E12.ok h2) y4
    · exact IsClone.local.keep (clones_alike E14.ok k5).2.1 (x5.forest E14.ok (E14.forest hm hD fun x hx => hd x (by simp [hx])) (by simp)) c5 (fun hc => rP (by simp [hc])) (x5.fresh E14.ok h4) y6
    · exact IsClone.local.keep (clones_alike E16.ok k7).2.1 (x7.forest E16.ok (E16.forest hm hF fun x hx => hd x (by simp [hx])) (by simp)) c7 (fun hc => rP (by simp [hc])) (x7.fresh E16.ok h6) y8
  unfold assign
  rw [if_pos hne, bind_eq (read_eq ho), bind_eq e1, bind_eq e2, bind_eq e3, bind_eq e4, bind_eq e5, bind_eq e6, bind_eq e7, bind_eq e8, bind_eq e9, bind_eq e10,
    bind_eq (read_eq (E.get hm hq (hd p (by simp)))), bind_eq k1, bind_eq k2, bind_eq k3, bind_eq k4, bind_eq k5, bind_eq k6, bind_eq k7, bind_eq k8, bind_eq k9, k10]

/-- the references of a variable that is not changed -/
theorem Variable.Refs.congr {v : Ptr} {V W : Cls → Ptr → Prop} (h : Variable.Refs m v V W) (hf : Forest m.own [v] L) (hg : ∀ q ∈ L, m'.get q = m.get q) : Variable.Refs m' v V W := by
  obtain ⟨ov, A, B, C, D, F, h4, rfl, ha, hb, hc, -⟩ := hf.parts
  have h4' : m'.get v = some ov := (hg v (by simp)).trans h4
  refine ⟨?_, ?_, ?_⟩
  · intro o' ho'
    rw [h4'] at ho'
    cases ho'
    intro x hx ox hox
    rw [hg x (by simp [ha.roots x hx])] at hox
    exact h.terms ov h4 x hx ox hox
  · intro o' ho' f hfm
    rw [h4'] at ho'
    cases ho'
    obtain ⟨Lf, hLf, subf⟩ := hb.mem hfm
    have hA := h.fuzzy ov h4 f hfm
    obtain ⟨of, A', B', C', D', F', h6, rfl, ha', -⟩ := hLf.parts
    have samef : m'.get f = m.get f := hg f (by simp [hb.roots f hfm])
    refine ⟨?_, ?_⟩
    · rw [RefsIn.one (samef.trans h6)]
      exact (RefsIn.one h6).1 hA.1
    · intro o'' ho''
      rw [samef, h6] at ho''
      cases ho''
      intro x hx ox hox
      have hx2 : x ∈ B := subf x (by simp [ha'.roots x hx])
      rw [hg x (by simp [hx2])] at hox
      exact hA.2 of h6 x hx ox hox
  · intro o' ho'
    rw [h4'] at ho'
    cases ho'
    intro x hx ox hox
    rw [hg x (by simp [hc.roots x hx])] at hox
    exact h.defuzzifier ov h4 x hx ox hox

theorem Engine.Plain.congr {p : Ptr} (h : Engine.Plain m p) (hf : Forest m.own [p] L) (hg : ∀ q ∈ L, m'.get q = m.get q) : Engine.Plain m' p := by
  obtain ⟨o, A, B, C, D, F, h4, rfl, ha, hb, hc, -⟩ := hf.parts
  have h4' : m'.get p = some o := (hg p (by simp)).trans h4
  refine ⟨?_, ?_⟩
  · intro o' ho' v hv
    rw [h4'] at ho'
    cases ho'
    obtain ⟨Lv, h5, sub⟩ := (ha.append hb).mem hv
    exact (h.vars o h4 v hv).congr h5 fun q hq => hg q (by
      have := sub q hq
      simp only [List.mem_cons, List.mem_append] at this ⊢
      tauto)
  · intro o' ho' b hbm o2 ho2
    rw [h4'] at ho'
    cases ho'
    obtain ⟨Lb, h5, sub⟩ := hc.mem hbm
    obtain ⟨ob, A', B', C', D', F', h6, rfl, -, hb', hc', hd', he'⟩ := h5.parts
    rw [hg b (by simp [hc.roots b hbm]), h6] at ho2
    cases ho2
    intro x hx ox hox
    have hx' := (((hb'.append hc').append hd').append he').roots x hx
    rw [hg x (by
      have := sub x (by
        simp only [List.mem_cons, List.mem_append] at hx' ⊢
        tauto)
      simp [this])] at hox
    exact h.blocks o h4 b hbm _ h6 x hx ox hox

theorem Engine.assign_eq (R : Reader) (H : Hedges) {p : Ptr} {Lp : List Ptr} (hm : m.Ok) (hf : Forest m.own [e] L) (hn : L.Nodup) (hs : Forest m.own [p] Lp)
    (hd : ∀ q ∈ Lp, q ∉ L) :
    ∃ xs m' L' K, Engine.assign R H e p m = some (xs, m') ∧ Forest m'.own [e] L' ∧ Effect m m' L L' K ∧ ((∀ ys ∈ xs, ∀ y ∈ ys, y = true) → K = []) ∧
      (Plain m p → (∀ o, m.get e = some o → o.refs = [] ∧ o.d = [] ∧ o.e = []) → RefsTo m' L' (· ∈ L')) ∧
      ((∀ o, m.get e = some o → o.refs = [] ∧ o.d = [] ∧ o.e = []) → Engine.Like m' p e) := by
  have hne : e ≠ p := by
    rintro rfl
    exact hd e (hs.roots e (by simp)) (hf.roots e (by simp))
  obtain ⟨o, ho⟩ := hf.get (hf.roots e (by simp))
  obtain ⟨m1, m2, L2, e1, e2, f2, E2, g2, s2⟩ := clear_slot (l1 := o.a ++ o.b) (old := o.c) (l3 := o.d ++ o.e) (fun o => { o with c := [] }) hm ho hf hn
    (by simp [Obj.owned]) (by simp [Obj.owned])
  obtain ⟨m3, m4, L4, e3, e4, f4, E4, g4, s4⟩ := clear_slot (l1 := o.a) (old := o.b) (l3 := o.d ++ o.e) (fun o => { o with b := [] }) E2.ok g2 f2 E2.nodupLeft
    (by simp [Obj.owned]) (by simp [Obj.owned])
  obtain ⟨m5, m6, L6, e5, e6, f6, E6, g6, s6⟩ := clear_slot (l1 := []) (old := o.a) (l3 := o.d ++ o.e) (fun o => { o with a := [] }) E4.ok g4 f4 E4.nodupLeft
    (by simp [Obj.owned]) (by simp [Obj.owned])
  have E := (E2.trans hm E4).trans hm E6
  simp only [List.append_nil] at E
  obtain ⟨xs, m7, L7, K, e7, f7, E7, k7, r7⟩ := copyFrom_eq R H E.ok (E.forest hm hs hd) f6 E.nodupLeft fun q hq hc => hd q hq (s2 q (s4 q (s6 q hc)))
  refine ⟨xs, m7, L7, K, ?_, f7, by simpa using E.trans hm E7, k7, ?_, ?_⟩
  · unfold assign
    rw [if_neg hne, bind_eq (read_eq ho), bind_eq e1, bind_eq e2, bind_eq e3, bind_eq e4, bind_eq e5, bind_eq e6, e7]
  · intro plain empty
    obtain ⟨h1, h2, h3⟩ := empty o ho
    refine r7 (plain.congr hs fun q hq => ?_) ?_
    · obtain ⟨oq, hoq⟩ := hs.get hq
      rw [hoq]
      exact E.get hm hoq (hd q hq)
    · have : L6 = [e] := f6.unique (.one (own_eq g6) (by
        simp only [Obj.owned, h2, h3, List.append_nil]
        exact .nil))
      rw [this]
      unfold RefsTo
      rw [RefsIn.one g6]
      simp [h1]
  · intro empty
    obtain ⟨h1, h2, h3⟩ := empty o ho
    exact copyFrom_like R H E.ok (E.forest hm hs hd) f6 E.nodupLeft (fun q hq hc => hd q hq (s2 q (s4 q (s6 q hc)))) g6 (by cases o; simp_all) e7

end FL.Own
