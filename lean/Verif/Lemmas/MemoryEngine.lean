/-
Lemmas about copying engines in memory.
-/
import Verif.Lemmas.MemoryRule

namespace FL.Own

local notation "Ptr" => Nat

variable {m m1 m2 m' : Mem} {L L1 L2 L' K K1 K2 : List Ptr} {U : Ptr → Prop} {e : Ptr}

local macro "perm" : tactic => `(tactic| (refine List.perm_iff_count.2 fun a => ?_; simp only [List.count_append, List.count_cons, List.count_nil]; omega))

namespace Engine

/-! ### References to the engine -/

/-- what `updateReference` makes of an object -/
def upd (e : Ptr) (o : Obj) : Obj := if o.cls = .linear then { o with refs := [e] } else o

theorem upd_owned (o : Obj) : (upd e o).owned = o.owned := by
  unfold upd
  split <;> rfl

theorem upd_a (o : Obj) : (upd e o).a = o.a := by
  unfold upd
  split <;> rfl

theorem upd_b (o : Obj) : (upd e o).b = o.b := by
  unfold upd
  split <;> rfl

theorem upd_upd (o : Obj) : upd e (upd e o) = upd e o := by
  unfold upd
  split <;> simp_all

/-- the objects `T` are updated -/
structure Updated (e : Ptr) (m m' : Mem) (T : List Ptr) : Prop where
  next : m'.next = m.next
  get : ∀ p, m'.get p = if p ∈ T then (m.get p).map (upd e) else m.get p

theorem Updated.own {T : List Ptr} (h : Updated e m m' T) : m'.own = m.own := by
  funext p
  unfold Mem.own
  rw [h.get]
  split
  · cases m.get p with
    | none => rfl
    | some o => simp [upd_owned]
  · rfl

theorem Updated.trans {T T' : List Ptr} (h1 : Updated e m m1 T) (h2 : Updated e m1 m2 T') : Updated e m m2 (T ++ T') := by
  refine ⟨h2.next.trans h1.next, fun p => ?_⟩
  rw [h2.get, h1.get]
  by_cases a : p ∈ T <;> by_cases b : p ∈ T' <;> simp [a, b]
  cases m.get p with
  | none => rfl
  | some o => simp [upd_upd]

theorem Updated.exists {T : List Ptr} (h : Updated e m m' T) {p : Ptr} : (∃ o, m'.get p = some o) ↔ ∃ o, m.get p = some o := by
  rw [h.get]
  cases m.get p <;> split <;> simp

theorem Updated.a {T : List Ptr} (h : Updated e m m' T) {p : Ptr} {o : Obj} (hp : m.get p = some o) : ∃ o', m'.get p = some o' ∧ o'.a = o.a ∧ o'.b = o.b := by
  rw [h.get, hp]
  split
  · exact ⟨upd e o, rfl, upd_a o, upd_b o⟩
  · exact ⟨o, rfl, rfl, rfl⟩

theorem Updated.effect {T : List Ptr} (h : Updated e m m' T) (hm : m.Ok) (hT : ∀ t ∈ T, t ∈ L) (hn : L.Nodup) (hl : ∀ p ∈ L, ∃ o, m.get p = some o) : Effect m m' L L [] where
  ok p hp := by
    rw [h.next] at hp
    rw [h.get, hm p hp]
    simp
  le := h.next.ge
  frame p h1 _ _ := by rw [h.get, if_neg fun hc => h1 (hT p hc)]
  freed p h1 h2 := absurd h1 h2
  new p hp := Or.inl (by simpa using hp)
  nodup := by simpa using hn
  live p hp := by
    obtain ⟨o, ho⟩ := h.exists.2 (hl p (by simpa using hp))
    simp [ho]

theorem updateReference_eq (hm : m.Ok) {t : Ptr} {o : Obj} (ht : m.get t = some o) : ∃ m', updateReference e t m = some ((), m') ∧ Updated e m m' [t] := by
  obtain ⟨m1, e1, -, g1, k1, n1⟩ := modify_eq (upd e) hm ht
  refine ⟨m1, e1, n1, fun p => ?_⟩
  by_cases hp : p = t
  · subst hp
    simp [g1, ht]
  · rw [k1 p hp, if_neg (by simpa using hp)]

theorem Updated.ok {T : List Ptr} (h : Updated e m m' T) (hm : m.Ok) : m'.Ok := by
  intro p hp
  rw [h.next] at hp
  rw [h.get, hm p hp]
  simp

theorem terms_eq (hm : m.Ok) {ts : List Ptr} (h : ∀ t ∈ ts, ∃ o, m.get t = some o) : ∃ xs m', each (updateReference e) ts m = some (xs, m') ∧ Updated e m m' ts := by
  induction ts generalizing m with
  | nil => exact ⟨[], m, rfl, rfl, by simp⟩
  | cons t ts ih =>
    obtain ⟨o, ho⟩ := h t (by simp)
    obtain ⟨m1, e1, u1⟩ := updateReference_eq (e := e) hm ho
    obtain ⟨xs, m2, e2, u2⟩ := ih (u1.ok hm) fun q hq => u1.exists.2 (h q (by simp [hq]))
    refine ⟨() :: xs, m2, ?_, u1.trans u2⟩
    unfold each
    rw [bind_eq e1, bind_eq e2, pure_eq]

/-- the terms of variables -/
def terms (m : Mem) (vs : List Ptr) : List Ptr := vs.flatMap fun v => ((m.get v).map Obj.a).getD []

theorem Updated.terms {T : List Ptr} (h : Updated e m m' T) (vs : List Ptr) : terms m' vs = terms m vs := by
  unfold Engine.terms
  congr 1
  funext v
  rw [h.get]
  split
  · cases m.get v with
    | none => rfl
    | some o => simp [upd_a]
  · rfl

theorem variables_eq (hm : m.Ok) {vs : List Ptr} (h : ∀ v ∈ vs, ∃ o, m.get v = some o) (ht : ∀ t ∈ terms m vs, ∃ o, m.get t = some o) :
    ∃ xs m', each (fun v => do let o ← read v; each (updateReference e) o.a) vs m = some (xs, m') ∧ Updated e m m' (terms m vs) := by
  induction vs generalizing m with
  | nil => exact ⟨[], m, rfl, rfl, by simp [terms]⟩
  | cons v vs ih =>
    obtain ⟨o, ho⟩ := h v (by simp)
    have hcons : terms m (v :: vs) = o.a ++ terms m vs := by simp [terms, ho]
    obtain ⟨ys, m1, e1, u1⟩ := terms_eq (e := e) hm (ts := o.a) fun t h => ht t (by rw [hcons]; simp [h])
    obtain ⟨xs, m2, e2, u2⟩ := ih (u1.ok hm) (fun q hq => u1.exists.2 (h q (by simp [hq]))) (fun t h => by
      rw [u1.terms] at h
      exact u1.exists.2 (ht t (by rw [hcons]; simp [h])))
    refine ⟨ys :: xs, m2, ?_, ?_⟩
    · have : (do let o ← read v; each (updateReference e) o.a : M (List Unit)) m = some (ys, m1) := by
        rw [bind_eq (read_eq ho), e1]
      unfold each
      rw [bind_eq this, bind_eq e2, pure_eq]
    · rw [hcons, ← u1.terms vs]
      exact u1.trans u2

theorem updateReferences_eq (hm : m.Ok) (hf : Forest m.own [e] L) {o : Obj} (ho : m.get e = some o) :
    ∃ m', updateReferences e m = some ((), m') ∧ Updated e m m' (terms m (o.a ++ o.b)) ∧ ∀ t ∈ terms m (o.a ++ o.b), t ∈ L := by
  obtain ⟨o', La, Lb, Lc, Ld, Le, h, rfl, ha, hb, -⟩ := hf.parts
  rw [ho] at h
  cases h
  have hab := ha.append hb
  have hT : ∀ t ∈ terms m (o.a ++ o.b), t ∈ La ++ Lb := by
    intro t ht
    unfold terms at ht
    rw [List.mem_flatMap] at ht
    obtain ⟨v, hv, ht⟩ := ht
    obtain ⟨Lv, hLv, sub⟩ := hab.mem hv
    obtain ⟨ov, A, B, C, D, E, h1, rfl, h2, -⟩ := hLv.parts
    rw [h1] at ht
    exact sub t (by simp [h2.roots t (by simpa using ht)])
  obtain ⟨xs, m1, e1, u1⟩ := variables_eq (e := e) hm (vs := o.a ++ o.b) (fun v hv => hab.get (hab.roots v hv)) (fun t ht => hab.get (hT t ht))
  refine ⟨m1, ?_, u1, fun t ht => ?_⟩
  · unfold updateReferences
    rw [bind_eq (read_eq ho), bind_eq e1, pure_eq]
  · have := hT t ht
    simp only [List.mem_append] at this
    simp only [List.mem_cons, List.mem_append]
    tauto

/-! ### Adding new objects to an object -/

theorem modify_grow {p : Ptr} {o : Obj} {l1 ps l3 : List Ptr} {Lp Ln : List Ptr} (f : Obj → Obj) (hm : m.Ok) (hp : m.get p = some o) (hf : Forest m.own [p] Lp)
    (hN : Forest m.own ps Ln) (hn : (Lp ++ Ln).Nodup) (ho : o.owned = l1 ++ l3) (ho' : (f o).owned = l1 ++ (ps ++ l3)) :
    ∃ m' Lp', modify p f m = some ((), m') ∧ Effect m m' (Lp ++ Ln) Lp' [] ∧ Forest m'.own [p] Lp' ∧ Lp'.Perm (Lp ++ Ln) ∧
      m'.get p = some (f o) ∧ ∀ q, q ≠ p → m'.get q = m.get q := by
  obtain ⟨os, L0, h1, rfl, hf1⟩ := hf.one_inv
  rw [own_eq hp] at h1
  cases h1
  rw [ho] at hf1
  obtain ⟨X, Y, rfl, hX, hY⟩ := hf1.split
  have n0 : (p :: (X ++ Y ++ Ln)).Nodup := by simpa using hn
  obtain ⟨h0, hn1⟩ := List.nodup_cons.1 n0
  have hd : p ∉ X ++ (Ln ++ Y) := by
    intro hc
    apply h0
    simp only [List.mem_append] at hc ⊢
    tauto
  obtain ⟨m1, e1, x1, f1, g1, k1, -⟩ := modify_owner hm hp f (L2 := X ++ (Ln ++ Y)) (by rw [ho']; exact hX.append (hN.append hY)) hd
  have hperm : (p :: (X ++ (Ln ++ Y))).Perm (p :: (X ++ Y) ++ Ln) := by perm
  refine ⟨m1, _, e1, ?_, f1, hperm, g1, k1⟩
  have X1 := x1.extend hm (X := X ++ Y ++ Ln) (fun q hq => ((hX.append hY).append hN).live hq) (by simp only [List.mem_singleton]; rintro q hq rfl; exact h0 hq) hn1
  exact X1.congr (by intro q; simp; tauto) (by perm)

/-! ### Copying rule blocks -/

/-- copying and loading a rule block makes new objects and may lose others -/
theorem copyBlock_eq (R : Reader) (H : Hedges) {b : Ptr} (hm : m.Ok) (he : Env m e U) (hf : Forest m.own [b] L) :
    ∃ q xs m' L' K, copyBlock R H e b m = some ((q, xs), m') ∧ Forest m'.own [q] L' ∧ Effect m m' [] L' K ∧ ((∀ x ∈ xs, x = true) → K = []) ∧
      (RuleBlock.S m b (fun _ => U) → RefsTo m' L' U) := by
  obtain ⟨q, m1, L1, e1, f1, x1, r1⟩ := RuleBlock.copy_copies hm hf
  have he1 := he.frame hm x1 (by simp)
  obtain ⟨xs, m2, L2, K, e2, w2, k2⟩ := RuleBlock.loadRules_does (U := U) R H q x1.ok he1 f1 x1.nodupLeft fun p hp => he.apart hm x1 (by simp) p (Or.inl hp)
  refine ⟨q, xs, m2, L2, K, ?_, w2.forest, ?_, k2, fun h => w2.refs (r1 _ h)⟩
  · unfold copyBlock
    rw [bind_eq e1, bind_eq e2, pure_eq]
  · simpa using x1.trans hm w2.effect

theorem copyBlocks_eq (R : Reader) (H : Hedges) {bs : List Ptr} (hm : m.Ok) (he : Env m e U) (hf : Forest m.own bs L) :
    ∃ qs m' L' K, each (copyBlock R H e) bs m = some (qs, m') ∧ Forest m'.own (qs.map Prod.fst) L' ∧ Effect m m' [] L' K ∧
      ((∀ xs ∈ qs.map Prod.snd, ∀ x ∈ xs, x = true) → K = []) ∧ ((∀ b ∈ bs, RuleBlock.S m b (fun _ => U)) → RefsTo m' L' U) := by
  induction bs generalizing m L with
  | nil => exact ⟨[], m, [], [], rfl, .nil, .refl hm (by simp) (by simp), fun _ => rfl, fun _ => .nil⟩
  | cons b bs ih =>
    obtain ⟨Lb, Ls, rfl, h1, h2⟩ := Forest.split (ps := [b]) hf
    obtain ⟨q, xs, m1, L1, K1, e1, f1, x1, k1, r1⟩ := copyBlock_eq R H hm he h1
    obtain ⟨qs, m2, L2, K2, e2, f2, x2, k2, r2⟩ := ih x1.ok (he.frame hm x1 (by simp)) (x1.forest hm h2 (by simp))
    refine ⟨(q, xs) :: qs, m2, L1 ++ L2, K1 ++ K2, ?_, ?_, x1.seq hm x2, ?_, ?_⟩
    · unfold each
      rw [bind_eq e1, bind_eq e2, pure_eq]
    · exact (x2.forest x1.ok f1 (by simp)).append f2
    · intro h
      rw [k1 (h xs (by simp)), k2 fun ys hys => h ys (by simp only [List.map_cons, List.mem_cons]; exact Or.inr hys)]
      rfl
    · intro h
      unfold RefsTo
      rw [RefsIn.append]
      refine ⟨x2.refs x1.ok f1 (by simp) (r1 (h b (by simp))), r2 fun b' hb' => ?_⟩
      obtain ⟨L3, h3, -⟩ := h2.mem hb'
      exact RuleBlock.stable hm h3 x1 (h b' (by simp [hb']))

/-! ### Copying engines -/

theorem _root_.FL.Own.Forest.find {own : Ptr → Option (List Ptr)} {ps : List Ptr} (h : Forest own ps L) {q : Ptr} (hq : q ∈ L) :
    ∃ p ∈ ps, ∃ Lp, Forest own [p] Lp ∧ q ∈ Lp := by
  induction ps generalizing L with
  | nil => cases h; cases hq
  | cons p ps ih =>
    obtain ⟨L1, L2, rfl, h1, h2⟩ := Forest.split (ps := [p]) h
    rcases List.mem_append.1 hq with hq | hq
    · exact ⟨p, by simp, L1, h1, hq⟩
    · obtain ⟨p', hp', Lp, h3, h4⟩ := ih h2 hq
      exact ⟨p', by simp [hp'], Lp, h3, h4⟩

theorem _root_.FL.Own.Variable.Made.congr {v : Ptr} {V W : Cls → Ptr → Prop} (h : Variable.Made m v L V W) (hg : ∀ q ∈ L, m'.get q = m.get q) :
    Variable.Made m' v L V W := by
  obtain ⟨o, Lr, h1, rfl, h2, h3, h4, h5⟩ := h.parts
  have own : ∀ q ∈ v :: (o.a ++ Lr), m'.own q = m.own q := fun q hq => by simp only [Mem.own, hg q hq]
  refine ⟨o, Lr, (hg v (by simp)).trans h1, rfl, h2.congr fun q hq => own q (by simp [hq]), h3.congr fun q hq => own q (by simp [hq]), ?_, ?_⟩
  · intro q hq oq hoq
    rw [hg q (by simp [hq])] at hoq
    exact h4 q hq oq hoq
  · intro q hq oq hoq
    rw [hg q (by
      simp only [List.mem_cons, List.mem_append] at hq ⊢
      tauto)] at hoq
    exact h5 q hq oq hoq

/-- The references of an engine are those of its terms `Linear` and `Function`, and those of its rules: nothing is activated. -/
structure Plain (m : Mem) (p : Ptr) : Prop where
  vars : ∀ o, m.get p = some o → ∀ v ∈ o.a ++ o.b, Variable.Refs m v (fun c _ => c = .linear) (fun _ _ => False)
  blocks : ∀ o, m.get p = some o → ∀ b ∈ o.c, RuleBlock.S m b (fun _ _ => False)

/-- the references of a new variable after the references to the engine are set -/
theorem made_refs {T : List Ptr} {v q : Ptr} {oq : Obj} {Lv : List Ptr} (u : Updated e m m' T) (h : Variable.Made m v Lv (fun c _ => c = .linear) (fun _ _ => False))
    (hT : ∀ o, m.get v = some o → ∀ t ∈ o.a, t ∈ T) (hq : q ∈ Lv) (hoq : m'.get q = some oq) : ∀ r ∈ oq.refs, r = e := by
  obtain ⟨o, Lr, h1, rfl, h2, h3, h4, h5⟩ := h.parts
  have key : ∀ o4, m.get q = some o4 → (q ∈ T ∧ ∀ r ∈ o4.refs, o4.cls = .linear) ∨ o4.refs = [] := by
    intro o4 ho4
    by_cases ha : q ∈ o.a
    · exact Or.inl ⟨hT o h1 q ha, h4 q ha o4 ho4⟩
    · right
      have : q ∈ v :: Lr := by
        simp only [List.mem_cons, List.mem_append] at hq ⊢
        tauto
      exact List.eq_nil_iff_forall_not_mem.2 fun r hr => h5 q this o4 ho4 r hr
  rw [u.get] at hoq
  cases h4' : m.get q with
  | none => simp [h4'] at hoq
  | some o4 =>
    rw [h4'] at hoq
    have K := key o4 h4'
    intro r hr
    by_cases hqT : q ∈ T
    · simp only [hqT, if_true, Option.map_some, Option.some.injEq] at hoq
      subst hoq
      unfold upd at hr
      split at hr
      · simpa using hr
      · rename_i hl
        rcases K with K | K
        · exact absurd (K.2 r hr) hl
        · rw [K] at hr
          cases hr
    · simp only [hqT, if_false, Option.some.injEq] at hoq
      subst hoq
      rcases K with K | K
      · exact absurd K.1 hqT
      · rw [K] at hr
        cases hr

theorem copyFrom_eq (R : Reader) (H : Hedges) {p : Ptr} {Lp Le : List Ptr} (hm : m.Ok) (hs : Forest m.own [p] Lp) (hf : Forest m.own [e] Le) (hn : Le.Nodup)
    (hd : ∀ q ∈ Lp, q ∉ Le) :
    ∃ xs m' Le' K, copyFrom R H e p m = some (xs, m') ∧ Forest m'.own [e] Le' ∧ Effect m m' Le Le' K ∧ ((∀ ys ∈ xs, ∀ y ∈ ys, y = true) → K = []) ∧
      (Plain m p → RefsTo m Le (· ∈ Le) → RefsTo m' Le' (· ∈ Le')) := by
  obtain ⟨o, Lpa, Lpb, Lpc, Lpd, Lpe, ho, rfl, sa, sb, sc, -, -⟩ := hs.parts
  obtain ⟨oe, hoe⟩ := hf.get (hf.roots e (by simp))
  have E0 : Effect m m Le Le [] := .refl hm hn fun q hq => hf.live hq
  -- input variables
  obtain ⟨is, m1, Li, e1, f1, x1, r1⟩ := Variable.copy_copies.each hm sa
  have E1 := E0.seq hm x1
  have hf1 := x1.forest hm hf (by simp)
  have g1 := x1.get hm hoe (by simp)
  obtain ⟨m2, Le2, e2, X2, f2, p2, g2, k2⟩ := modify_grow (l1 := oe.a) (ps := is) (l3 := oe.b ++ oe.c ++ oe.d ++ oe.e)
    (fun e => { e with text := o.text, a := e.a ++ is }) x1.ok g1 hf1 f1 E1.nodupLeft (by simp [Obj.owned]) (by simp [Obj.owned])
  have E2 := E1.trans hm X2
  -- output variables
  have sb2 := E2.forest hm sb fun q hq => hd q (by simp [hq])
  obtain ⟨os, m3, Lo, e3, f3, x3, r3⟩ := OutputVariable.copy_copies.each X2.ok sb2
  have E3 := E2.seq hm x3
  have hf3 := x3.forest X2.ok f2 (by simp)
  have g3 := x3.get X2.ok g2 (by simp)
  obtain ⟨m4, Le4, e4, X4, f4, p4, g4, k4⟩ := modify_grow (l1 := oe.a ++ is ++ oe.b) (ps := os) (l3 := oe.c ++ oe.d ++ oe.e)
    (fun e => { e with b := e.b ++ os }) x3.ok g3 hf3 f3 E3.nodupLeft (by simp [Obj.owned]) (by simp [Obj.owned])
  have E4 := E3.trans hm X4
  -- references
  obtain ⟨m5, e5, u5, T5⟩ := updateReferences_eq X4.ok f4 g4
  have X5 := u5.effect X4.ok T5 E4.nodupLeft fun q hq => f4.get hq
  have E5 := E4.trans hm X5
  have f5 : Forest m5.own [e] Le4 := by rw [u5.own]; exact f4
  obtain ⟨o5, g5, o5a, o5b⟩ := u5.a g4
  have env : Env m5 e (· ∈ Le4) := by
    refine ⟨fun q hq => f5.get hq, o5, g5, f5.roots e (by simp), fun v hv => ?_⟩
    obtain ⟨os', L0, h1, hL0, h2⟩ := f5.one_inv
    rw [own_eq g5] at h1
    cases h1
    obtain ⟨Lv, h3, sub⟩ := h2.mem (p := v) (by simp only [Obj.owned, List.mem_append] at hv ⊢; tauto)
    obtain ⟨ov, A, B, C, D, E, h4, rfl, h5, -⟩ := h3.parts
    refine ⟨?_, ov, h4, fun t ht => ?_⟩
    · rw [hL0]; exact List.mem_cons_of_mem _ (sub v (by simp))
    · rw [hL0]; exact List.mem_cons_of_mem _ (sub t (by simp [h5.roots t ht]))
  -- rule blocks
  have sc5 := E5.forest hm sc fun q hq => hd q (by simp [hq])
  obtain ⟨bs, m6, Lb, K, e6, f6, x6, k6, r6⟩ := copyBlocks_eq R H X5.ok env sc5
  have E6 := E5.seq hm x6
  have hf6 := x6.forest X5.ok f5 (by simp)
  have g6 := x6.get X5.ok g5 (by simp)
  obtain ⟨m7, Le7, e7, X7, f7, p7, g7, k7⟩ := modify_grow (l1 := o5.a ++ o5.b ++ o5.c) (ps := bs.map Prod.fst) (l3 := o5.d ++ o5.e)
    (fun e => { e with c := e.c ++ bs.map Prod.fst }) x6.ok g6 hf6 f6 E6.nodupLeft (by simp [Obj.owned]) (by simp [Obj.owned])
  have E7 := E6.trans hm X7
  simp only [List.nil_append, List.append_nil] at E7
  refine ⟨bs.map Prod.snd, m7, Le7, K, ?_, f7, E7, k6, ?_⟩
  · unfold copyFrom
    rw [bind_eq (read_eq ho), bind_eq e1, bind_eq e2, bind_eq e3, bind_eq e4, bind_eq e5, bind_eq e6, bind_eq e7, pure_eq]
  intro plain hr
  -- where the objects are
  have mem4 : ∀ q, q ∈ Le4 ↔ q ∈ Le ∨ q ∈ Li ∨ q ∈ Lo := by
    intro q
    rw [p4.mem_iff, List.mem_append, p2.mem_iff, List.mem_append, or_assoc]
  have mem7 : ∀ q, q ∈ Le7 ↔ q ∈ Le4 ∨ q ∈ Lb := by
    intro q
    rw [p7.mem_iff, List.mem_append]
  have eLe : e ∈ Le := hf.roots e (by simp)
  have neI : ∀ q ∈ Li, q ≠ e := by
    rintro q hq rfl
    exact (List.nodup_append'.1 E1.nodupLeft).2.2 eLe hq
  have neO : ∀ q ∈ Lo, q ≠ e := by
    rintro q hq rfl
    exact (List.nodup_append'.1 E3.nodupLeft).2.2 (p2.mem_iff.2 (by simp [eLe])) hq
  have refs5 : RefsTo m5 Le4 (· ∈ Le4) := by
    intro q hq oq hoq r hr5
    have T : ∀ v ∈ oe.a ++ is ++ (oe.b ++ os), ∀ ov, m4.get v = some ov → ∀ t ∈ ov.a, t ∈ terms m4 (oe.a ++ is ++ (oe.b ++ os)) := by
      intro v hv ov hov t ht
      unfold terms
      rw [List.mem_flatMap]
      exact ⟨v, hv, by simpa [hov] using ht⟩
    have ofMade : ∀ {v Lv}, v ∈ oe.a ++ is ++ (oe.b ++ os) → Variable.Made m4 v Lv (fun c _ => c = .linear) (fun _ _ => False) → q ∈ Lv → r ∈ Le4 := by
      intro v Lv hv made hqv
      rw [made_refs u5 made (T v hv) hqv hoq r hr5]
      exact (mem4 e).2 (Or.inl eLe)
    rcases (mem4 q).1 hq with hq | hq | hq
    · -- objects that were there
      obtain ⟨o0, ho0⟩ := hf.get hq
      have h4 : ∃ o4, m4.get q = some o4 ∧ o4.refs = o0.refs := by
        by_cases hqe : q = e
        · subst hqe
          rw [hoe] at ho0
          cases ho0
          exact ⟨_, g4, rfl⟩
        · refine ⟨o0, ?_, rfl⟩
          rw [k4 q hqe]
          refine x3.get X2.ok ?_ (by simp)
          rw [k2 q hqe]
          exact x1.get hm ho0 (by simp)
      obtain ⟨o4, ho4, hro⟩ := h4
      rw [u5.get, ho4] at hoq
      have : r = e ∨ r ∈ o4.refs := by
        split at hoq
        · simp only [Option.map_some, Option.some.injEq] at hoq
          subst hoq
          unfold upd at hr5
          split at hr5
          · exact Or.inl (by simpa using hr5)
          · exact Or.inr hr5
        · simp only [Option.some.injEq] at hoq
          subst hoq
          exact Or.inr hr5
      rcases this with rfl | h
      · exact (mem4 r).2 (Or.inl eLe)
      · rw [hro] at h
        exact (mem4 r).2 (Or.inl (hr q hq o0 ho0 r h))
    · obtain ⟨v, hv, Lv, hfv, hqv⟩ := f1.find hq
      obtain ⟨Lv', made⟩ := r1 _ _ (fun v' hv' => plain.vars o ho v' (by simp [hv'])) v hv
      cases made.forest.unique hfv
      obtain ⟨Lv2, hfv2, sub⟩ := f1.mem hv
      cases hfv2.unique hfv
      refine ofMade (v := v) (by simp [hv]) (made.congr fun x hx => ?_) hqv
      have hxe := neI x (sub x hx)
      obtain ⟨ox, hox⟩ := f1.get (sub x hx)
      rw [k4 x hxe, hox]
      refine x3.get X2.ok ?_ (by simp)
      rw [k2 x hxe, hox]
    · obtain ⟨v, hv, Lv, hfv, hqv⟩ := f3.find hq
      obtain ⟨Lv', made⟩ := r3 (fun c _ => c = .linear) (fun _ _ => False) (fun v' hv' => (by
        obtain ⟨Lv', h3, sub⟩ := sb.mem hv'
        have old := plain.vars o ho v' (by simp [hv'])
        -- the source is not changed before
        have same : ∀ x ∈ Lv', m2.get x = m.get x := by
          intro x hx
          obtain ⟨ox, hox⟩ := h3.get hx
          rw [hox]
          exact E2.get hm hox (hd x (by simp [sub x hx]))
        obtain ⟨ov, A, B, C, D, F, h4, rfl, ha, hb, hc, -⟩ := h3.parts
        have h4' : m2.get v' = some ov := (same v' (by simp)).trans h4
        refine ⟨?_, ?_, ?_⟩
        · intro o' ho'
          rw [h4'] at ho'
          cases ho'
          intro x hx ox hox
          rw [same x (by simp [ha.roots x hx])] at hox
          exact old.terms ov h4 x hx ox hox
        · intro o' ho' f hfm
          rw [h4'] at ho'
          cases ho'
          obtain ⟨Lf, hLf, subf⟩ := hb.mem hfm
          have hA := old.fuzzy ov h4 f hfm
          obtain ⟨of, A', B', C', D', F', h6, rfl, ha', -⟩ := hLf.parts
          have samef : m2.get f = m.get f := same f (by simp [hb.roots f hfm])
          refine ⟨?_, ?_⟩
          · rw [RefsIn.one (samef.trans h6)]
            exact (RefsIn.one h6).1 hA.1
          · intro o'' ho''
            rw [samef, h6] at ho''
            cases ho''
            intro x hx ox hox
            have hx2 : x ∈ B := subf x (by simp [ha'.roots x hx])
            rw [same x (by simp [hx2])] at hox
            exact hA.2 of h6 x hx ox hox
        · intro o' ho'
          rw [h4'] at ho'
          cases ho'
          intro x hx ox hox
          rw [same x (by simp [hc.roots x hx])] at hox
          exact old.defuzzifier ov h4 x hx ox hox)) v hv
      cases made.forest.unique hfv
      obtain ⟨Lv2, hfv2, sub⟩ := f3.mem hv
      cases hfv2.unique hfv
      refine ofMade (v := v) (by simp [hv]) (made.congr fun x hx => ?_) hqv
      rw [k4 x (neO x (sub x hx))]
  have refs6 : RefsTo m6 (Le4 ++ Lb) (· ∈ Le4) := by
    unfold RefsTo
    rw [RefsIn.append]
    refine ⟨x6.refs X5.ok f5 (by simp) refs5, r6 fun b hb => ?_⟩
    intro o' ho'
    obtain ⟨Lb', h3, sub⟩ := sc.mem hb
    obtain ⟨ob, hob⟩ := h3.get (h3.roots b (by simp))
    have same : ∀ x ∈ Lb', m5.get x = m.get x := by
      intro x hx
      obtain ⟨ox, hox⟩ := h3.get hx
      rw [hox]
      exact E5.get hm hox (hd x (by simp [sub x hx]))
    rw [same b (h3.roots b (by simp)), hob] at ho'
    cases ho'
    intro x hx ox hox
    obtain ⟨os', L0, h4, hL0, h5⟩ := h3.one_inv
    rw [own_eq hob] at h4
    cases h4
    rw [same x (by
      rw [hL0]
      exact List.mem_cons_of_mem _ (h5.roots x (by simp only [Obj.owned, List.mem_append] at hx ⊢; tauto)))] at hox
    intro r hr'
    exact (plain.blocks o ho b hb _ hob x hx ox hox r hr').elim
  intro q hq oq hoq r hr7
  rw [mem7]
  left
  rw [mem7, ← List.mem_append] at hq
  by_cases hqe : q = e
  · subst hqe
    rw [g7] at hoq
    cases hoq
    exact refs6 q hq _ g6 r hr7
  · rw [k7 q hqe] at hoq
    exact refs6 q hq oq hoq r hr7

end Engine

end FL.Own
