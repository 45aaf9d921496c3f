/-
Lemmas about loading consequents, rules and rule blocks in memory.
-/
import Verif.Lemmas.MemoryLoad

namespace FL.Own

local notation "Ptr" => Nat

variable {m m1 m2 m' : Mem} {L L1 L2 L' K K1 K2 : List Ptr} {U : Ptr → Prop} {e : Ptr}

local macro "perm" : tactic => `(tactic| (refine List.perm_iff_count.2 fun a => ?_; simp only [List.count_append, List.count_cons, List.count_nil]; omega))

/-- nothing happens to the objects, but others may be lost -/
theorem Work.idle {ps : List Ptr} (hm : m.Ok) (h : Forest m.own ps L) (hn : L.Nodup) (x : Effect m m' [] [] K) : Work U ps m m' L L K := by
  refine ⟨?_, x.forest hm h (by simp), fun hr => x.refs hm h (by simp) hr⟩
  have := x.extend hm (X := L) (fun p hp => h.live hp) (by simp) hn
  simpa using this

namespace Antecedent

theorem inv_nil (U : Ptr → Prop) (m : Mem) : Inv U m [] [] .variable :=
  ⟨.nil, by simp, by simp, by simp [RefsTo, RefsIn], by simp⟩

/-- after an exception -/
theorem load_failed {p : Ptr} {o : Obj} {La Lr stack : List Ptr} {H : Hedges} {ts : List Str} {st : Option State} (hm : m.Ok) (w1 : Work U [p] m m1 (p :: (La ++ Lr)) (p :: Lr) [])
    (hu : unload p m = some ((), m1)) (hr : run H e [] .variable ts m1 = some ((stack, st), m2)) (x : Effect m1 m2 [] L []) (hf : Forest m2.own stack L)
    (hs : st = none ∨ (∃ q, st = some (.is q)) ∨ ∃ q, st = some (.hedgeTerm q)) :
    ∃ m' K, load H e p (some ts) m = some (false, m') ∧ Work U [p] m m' (p :: (La ++ Lr)) (p :: Lr) K ∧ Forest m'.own (stack.drop ((stack.length + 1) / 2)) K := by
  obtain ⟨m3, K, e3, x3, f3⟩ := discard_eq 0 x.ok hf x.nodupLeft
  have x13 := x.trans w1.effect.ok x3
  have w3 := Work.idle (U := U) w1.effect.ok w1.forest w1.nodup x13
  refine ⟨m3, K, ?_, ?_, by simpa using f3⟩
  · unfold load
    rw [bind_eq hu]
    simp only
    rw [bind_eq hr]
    rcases hs with rfl | ⟨q, rfl⟩ | ⟨q, rfl⟩ <;> (simp only; rw [bind_eq e3, pure_eq])
  · simpa using w1.trans hm w3

theorem load_all (H : Hedges) (p : Ptr) (ts : Option (List Str)) (hm : m.Ok) (he : Env m e U) (hf : Forest m.own [p] L) (hn : L.Nodup) (hd : ∀ q ∈ L, ¬ U q) :
    ∃ x m' L' K, load H e p ts m = some (x, m') ∧ Work U [p] m m' L L' K ∧ (x = true → K = []) ∧ (ts = none → K = []) ∧
      ∀ t, ts = some t → ∃ m1 stack st m2, unload p m = some ((), m1) ∧ run H e [] .variable t m1 = some ((stack, st), m2) ∧
        (x = true ↔ (st = some .variable ∨ st = some .variableAndOr) ∧ stack.length = 1) ∧
        Forest m'.own (if st = some .variable ∨ st = some .variableAndOr then [] else stack.drop ((stack.length + 1) / 2)) K := by
  obtain ⟨o, La, Lr, ho, rfl, ha, hr⟩ := hf.partsA
  obtain ⟨m1, e1, w1, g1⟩ := unload_work (U := U) hm ho ha hr hn
  cases ts with
  | none =>
    refine ⟨false, m1, p :: Lr, [], ?_, w1, fun _ => rfl, fun _ => rfl, fun t ht => by cases ht⟩
    unfold load
    rw [bind_eq e1]
    rfl
  | some ts =>
    have he1 := he.frame hm w1.effect hd
    obtain ⟨stack, st, m2, Ls, e2, x2, f2, r2⟩ := run_eq H ts w1.effect.ok he1 (inv_nil U m1)
    by_cases hs : st = none ∨ (∃ q, st = some (.is q)) ∨ ∃ q, st = some (.hedgeTerm q)
    · obtain ⟨m3, K, e3, w3, f3⟩ := load_failed (o := o) hm w1 e1 e2 x2 f2 hs
      have hs' : ¬ (st = some .variable ∨ st = some .variableAndOr) := by
        rcases hs with rfl | ⟨q, rfl⟩ | ⟨q, rfl⟩ <;> simp
      refine ⟨false, m3, _, K, e3, w3, by simp, by simp, fun t ht => ?_⟩
      cases ht
      exact ⟨m1, stack, st, m2, e1, e2, by simp [hs'], by rw [if_neg hs']; exact f3⟩
    · have hs' : st = some .variable ∨ st = some .variableAndOr := by
        match st, hs with
        | none, h => exact absurd (Or.inl rfl) h
        | some .variable, _ => exact Or.inl rfl
        | some .variableAndOr, _ => exact Or.inr rfl
        | some (.is q), h => exact absurd (Or.inr (Or.inl ⟨q, rfl⟩)) h
        | some (.hedgeTerm q), h => exact absurd (Or.inr (Or.inr ⟨q, rfl⟩)) h
      by_cases hq : ∃ q, stack = [q]
      · obtain ⟨q, rfl⟩ := hq
        have W2 := w1.effect.seq hm x2
        have g2 := x2.get w1.effect.ok g1 (by simp)
        have hr2 : Forest m2.own (o.b ++ o.c ++ o.d ++ o.e) Lr := by
          have := w1.forest.one_inv
          obtain ⟨os, L1, h1, h2, h3⟩ := this
          rw [own_eq g1] at h1
          cases h1
          cases h2
          exact x2.forest w1.effect.ok (by simpa [Obj.owned] using h3) (by simp)
        have hn2 := W2.nodupLeft
        rw [List.cons_append] at hn2
        have h0 := (List.nodup_cons.1 hn2).1
        have hd2 : p ∉ Ls ++ Lr := by
          intro hc
          apply h0
          simp only [List.mem_append] at hc ⊢
          tauto
        obtain ⟨m3, e3, x3, f3, g3, k3, -⟩ := modify_owner x2.ok g2 (fun o => { o with a := [q] }) (L2 := Ls ++ Lr)
          (by
            have := f2.append hr2
            simpa [Obj.owned] using this) hd2
        have X3 := x3.extend x2.ok (X := Lr ++ Ls) (fun x hx => (hr2.append f2).live hx) (by simp only [List.mem_singleton]; rintro x hx rfl; exact h0 hx)
          (List.nodup_cons.1 hn2).2
        have X3' : Effect m2 m3 (p :: Lr ++ Ls) (p :: (Ls ++ Lr)) [] := X3.congr (by intro x; simp; tauto) (by perm)
        refine ⟨true, m3, p :: (Ls ++ Lr), [], ?_, ⟨by simpa using W2.trans hm X3', f3, ?_⟩, fun _ => rfl, fun _ => rfl, fun t ht => by
          cases ht
          exact ⟨m1, _, st, m2, e1, e2, by simp [hs'], by rw [if_pos hs']; exact .nil⟩⟩
        · unfold load
          rw [bind_eq e1]
          simp only
          rw [bind_eq e2]
          rcases hs' with rfl | rfl <;> (simp only; rw [bind_eq e3, pure_eq])
        · intro h
          have h1 := w1.refs h
          have h2 : RefsTo m2 (p :: Lr) U := x2.refs w1.effect.ok w1.forest (by simp) h1
          unfold RefsTo at h2 r2
          rw [RefsIn.cons] at h2
          refine modify_refs g2 g3 k3 (fun r h => Or.inl h) h2.1 ?_ hd2
          unfold RefsTo
          rw [RefsIn.append]
          exact ⟨r2, h2.2⟩
      · obtain ⟨s, m3, L3, e3, x3, f3, l3⟩ := deleteMany_eq x2.ok f2 x2.nodupLeft
        obtain ⟨m4, K, e4, x4, f4⟩ := discard_eq 0 x3.ok f3 x3.nodupLeft
        have hK : K = [] := by
          have : s.drop ((s.length - 0 + 1) / 2) = [] := by
            rw [List.drop_eq_nil_iff]
            omega
          rw [this] at f4
          cases f4
          rfl
        subst hK
        have x14 := (x2.trans w1.effect.ok x3).trans w1.effect.ok x4
        have w4 := Work.idle (U := U) w1.effect.ok w1.forest w1.nodup x14
        refine ⟨false, m4, p :: Lr, [], ?_, by simpa using w1.trans hm w4, fun _ => rfl, fun _ => rfl, fun t ht => by
          cases ht
          refine ⟨m1, _, st, m2, e1, e2, ?_, by rw [if_pos hs']; exact .nil⟩
          simp only [Bool.false_eq_true, false_iff, not_and]
          exact fun _ h => hq (List.length_eq_one_iff.1 h)⟩
        unfold load
        rw [bind_eq e1]
        simp only
        rw [bind_eq e2]
        have key : (do let stack ← deleteMany stack; discard 0 stack; pure false : M Bool) m2 = some (false, m4) := by
          rw [bind_eq e3, bind_eq e4, pure_eq]
        rcases hs' with rfl | rfl
        all_goals
          match stack, hq, key with
          | [], _, key => exact key
          | [q], hq, _ => exact absurd ⟨q, rfl⟩ hq
          | _ :: _ :: _, _, key => exact key

theorem load_does (H : Hedges) (p : Ptr) (ts : Option (List Str)) : Does e U (fun ok => ok = true) [p] (load H e p ts) := by
  intro m L hm he hf hn hd
  obtain ⟨x, m', L', K, e1, w1, k1, -⟩ := load_all H p ts hm he hf hn hd
  exact ⟨x, m', L', K, e1, w1, k1⟩

end Antecedent

/-! ### Loading consequents -/

namespace Consequent

theorem add_hedge {q : Ptr} {o : Obj} {Lq : List Ptr} (t : Str) (hm : m.Ok) (hq : m.get q = some o) (hf : Forest m.own [q] Lq) (hn : Lq.Nodup) :
    ∃ h m1 m2 Lq', alloc { cls := .leaf, text := t } m = some (h, m1) ∧ Own.modify q (fun o => { o with a := o.a ++ [h] }) m1 = some ((), m2) ∧
      Work U [q] m m2 Lq Lq' [] ∧ m2.get q = some { o with a := o.a ++ [h] } := by
  obtain ⟨m1, e1, x1, g1, -, -⟩ := alloc_eq m { cls := .leaf, text := t } hm
  have X := x1.extend hm (X := Lq) (fun p hp => hf.live hp) (by simp) hn
  have X' : Effect m m1 Lq (Lq ++ [m.next]) [] := X.congr (by simp) (.refl _)
  obtain ⟨m2, Lq', e2, w2, g2, -⟩ := Antecedent.modify_add (U := U) x1.ok (x1.get hm hq (by simp)) (x1.forest hm hf (by simp)) (Forest.leaf g1) X'.nodupLeft
  refine ⟨_, m1, m2, Lq', e1, e2, ⟨X'.trans hm w2.effect, w2.forest, fun h => w2.refs ?_⟩, g2⟩
  unfold RefsTo at *
  rw [RefsIn.append, RefsIn.one g1]
  exact ⟨x1.refs hm hf (by simp) h, by simp⟩

structure Inv (U : Ptr → Prop) (m : Mem) (p : Ptr) (L : List Ptr) (st : State) : Prop where
  forest : Forest m.own [p] L
  nodup : L.Nodup
  apart : ∀ p ∈ L, ¬ U p
  top : ∀ q, st = .is q ∨ st = .hedgeTerm q → ∃ op rest o v, m.get p = some op ∧ op.a = rest ++ [q] ∧ m.get q = some o ∧ o.refs = [v] ∧ IsVar m U v

/-- one step is work on the consequent, and the invariant remains -/
theorem step_eq (H : Hedges) {p : Ptr} {st : State} (t : Str) (hm : m.Ok) (he : Env m e U) (h : Inv U m p L st) :
    step H e p st t m = some (none, m) ∨
    ∃ st' m' L', step H e p st t m = some (some st', m') ∧ Work U [p] m m' L L' [] ∧ Inv U m' p L' st' := by
  cases st with
  | «variable» =>
    unfold step
    simp only
    obtain ⟨oe, h1, -, h3⟩ := he.engine
    rw [bind_eq (read_eq h1)]
    obtain ⟨r, e1, e2⟩ := findNamed_eq (m := m) t (ps := oe.b) fun p hp => he.alive p (h3 p (by simp [hp])).1
    rw [bind_eq e1]
    cases r with
    | none => left; rfl
    | some v =>
      right
      have hv := h3 v (by simp [e2 v rfl])
      obtain ⟨op, hop⟩ := h.forest.get (h.forest.roots p (by simp))
      obtain ⟨m1, e1, x1, g1, -, -⟩ := alloc_eq m { cls := .proposition, refs := [v] } hm
      have X := x1.extend hm (X := L) (fun p hp => h.forest.live hp) (by simp) h.nodup
      have X' : Effect m m1 L (L ++ [m.next]) [] := X.congr (by simp) (.refl _)
      obtain ⟨m2, Lq', e3, w2, g2, k2⟩ := Antecedent.modify_add (U := U) x1.ok (x1.get hm hop (by simp)) (x1.forest hm h.forest (by simp)) (Forest.leaf g1) X'.nodupLeft
      have W : Work U [p] m m2 L Lq' [] := by
        refine ⟨X'.trans hm w2.effect, w2.forest, fun hr => w2.refs ?_⟩
        unfold RefsTo at *
        rw [RefsIn.append, RefsIn.one g1]
        refine ⟨x1.refs hm h.forest (by simp) hr, ?_⟩
        intro r hr
        simp at hr
        exact hr ▸ hv.1
      refine ⟨.is m.next, m2, Lq', ?_, W, ⟨W.forest, W.nodup, fun q hq => he.apart hm W.effect h.apart q (Or.inl hq), ?_⟩⟩
      · simp only
        rw [bind_eq e1, bind_eq e3, pure_eq]
      · intro q hq
        simp at hq
        subst hq
        have hne : m.next ≠ p := by
          rintro rfl
          rw [hm m.next le_rfl] at hop
          cases hop
        exact ⟨_, op.a, _, v, g2, rfl, (k2 _ hne).trans g1, rfl, hv.frame hm W.effect h.apart⟩
  | is q =>
    unfold step
    simp only
    by_cases hk : t = isKeyword
    · right
      refine ⟨.hedgeTerm q, m, L, by rw [if_pos hk]; rfl, .refl hm h.forest h.nodup, ⟨h.forest, h.nodup, h.apart, ?_⟩⟩
      intro q' hq'
      simp at hq'
      subst hq'
      exact h.top q (Or.inl rfl)
    · left
      rw [if_neg hk]; rfl
  | andWith =>
    unfold step
    simp only
    by_cases hk : t = andKeyword
    · right
      exact ⟨.variable, m, L, by rw [if_pos hk]; rfl, .refl hm h.forest h.nodup, ⟨h.forest, h.nodup, h.apart, by simp⟩⟩
    · left
      rw [if_neg hk]; rfl
  | hedgeTerm q =>
    obtain ⟨op, rest, o, v, hop, hopa, hq, hv, hiv⟩ := h.top q (Or.inr rfl)
    obtain ⟨Lq, fq, nq, sq, lift⟩ := Work.inside (U := U) (l1 := rest) (ps := [q]) (l3 := op.b ++ op.c ++ op.d ++ op.e) hm h.forest h.nodup hop (by simp [Obj.owned, hopa])
    unfold step
    simp only
    cases hH : H t with
    | some any =>
      right
      obtain ⟨hd, m1, m2, Lq', e1, e2, w2, g2⟩ := add_hedge (U := U) t hm hq fq nq
      obtain ⟨L', W, gp⟩ := lift w2
      refine ⟨.hedgeTerm q, m2, L', ?_, W, ⟨W.forest, W.nodup, fun q hq => he.apart hm W.effect h.apart q (Or.inl hq), ?_⟩⟩
      · simp only
        rw [bind_eq e1, bind_eq e2, pure_eq]
      · intro q' hq'
        simp at hq'
        subst hq'
        exact ⟨op, rest, _, v, gp, hopa, g2, hv, hiv.frame hm W.effect h.apart⟩
    | none =>
      simp only
      rw [bind_eq (read_eq hq)]
      obtain ⟨hu, ov, hov, hts⟩ := hiv
      have hhd : o.refs.headD 0 = v := by rw [hv]; rfl
      rw [hhd, bind_eq (read_eq hov)]
      obtain ⟨r, e1, e2⟩ := findTerm_eq he hov ⟨hu, ov, hov, hts⟩ t
      rw [bind_eq e1]
      cases r with
      | none => left; rfl
      | some tm =>
        right
        obtain ⟨m1, e3, w3⟩ := Antecedent.modify_ref (U := U) hm hq fq nq (e2 tm rfl)
        obtain ⟨L', W, gp⟩ := lift w3
        refine ⟨.andWith, m1, L', ?_, W, ⟨W.forest, W.nodup, fun q hq => he.apart hm W.effect h.apart q (Or.inl hq), by simp⟩⟩
        simp only
        rw [bind_eq e3, pure_eq]

theorem run_eq (H : Hedges) {p : Ptr} {st : State} (ts : List Str) (hm : m.Ok) (he : Env m e U) (h : Inv U m p L st) :
    ∃ st' m' L', run H e p st ts m = some (st', m') ∧ Work U [p] m m' L L' [] := by
  induction ts generalizing m L st with
  | nil => exact ⟨some st, m, L, rfl, .refl hm h.forest h.nodup⟩
  | cons t ts ih =>
    unfold run
    rcases step_eq H t hm he h with e1 | ⟨st1, m1, L1, e1, w1, i1⟩
    · refine ⟨none, m, L, ?_, .refl hm h.forest h.nodup⟩
      rw [bind_eq e1]
      rfl
    · obtain ⟨st2, m2, L2, e2, w2⟩ := ih w1.effect.ok (he.frame hm w1.effect h.apart) i1
      refine ⟨st2, m2, L2, ?_, w1.trans hm w2⟩
      rw [bind_eq e1]
      exact e2

theorem load_does (H : Hedges) (p : Ptr) (ts : List Str) : Does e U (fun _ => True) [p] (load H e p ts) := by
  intro m L hm he hf hn hd
  obtain ⟨_, m1, L1, K1, e1, w1, k1⟩ := unload_does (U := U) p hm he hf hn hd
  cases k1 trivial
  unfold load
  rw [bind_eq e1]
  by_cases ht : ts = []
  · rw [if_pos ht]
    exact ⟨false, m1, L1, [], rfl, w1, fun _ => rfl⟩
  · rw [if_neg ht]
    have he1 := he.frame hm w1.effect hd
    have hd1 : ∀ q ∈ L1, ¬ U q := fun q hq => he.apart hm w1.effect hd q (Or.inl hq)
    obtain ⟨st, m2, L2, e2, w2⟩ := run_eq (st := .variable) H ts w1.effect.ok he1 ⟨w1.forest, w1.nodup, hd1, by simp⟩
    have he2 := he1.frame w1.effect.ok w2.effect hd1
    have hd2 : ∀ q ∈ L2, ¬ U q := fun q hq => he1.apart w1.effect.ok w2.effect hd1 q (Or.inl hq)
    have w12 := w1.trans hm w2
    rw [bind_eq e2]
    by_cases hs : st = some .andWith
    · subst hs
      exact ⟨true, m2, L2, [], rfl, w12, fun _ => rfl⟩
    · obtain ⟨_, m3, L3, K3, e3, w3, k3⟩ := unload_does (U := U) p w2.effect.ok he2 w2.forest w2.nodup hd2
      cases k3 trivial
      refine ⟨false, m3, L3, [], ?_, w12.trans hm w3, fun _ => rfl⟩
      have key : (do unload p; pure false : M Bool) m2 = some (false, m3) := by rw [bind_eq e3, pure_eq]
      match st, hs, key with
      | some .andWith, hs, _ => exact absurd rfl hs
      | none, _, key => exact key
      | some .variable, _, key => exact key
      | some (.is _), _, key => exact key
      | some (.hedgeTerm _), _, key => exact key

end Consequent

/-! ### Rules -/

namespace Rule

/-- work on the antecedents and the consequents of a rule -/
theorem unload_does (r : Ptr) : Does e U (fun _ => True) [r] (unload r) := by
  intro m L hm he hf hn hd
  obtain ⟨o, ho⟩ := hf.get (hf.roots r (by simp))
  obtain ⟨La, fa, na, sa, la⟩ := Work.inside (U := U) (l1 := []) (ps := o.a) (l3 := o.b ++ o.c ++ o.d ++ o.e) hm hf hn ho (by simp [Obj.owned])
  obtain ⟨xs, m1, La', K1, e1, w1, k1⟩ := Does.each (U := U) (e := e) Antecedent.unload_does o.a hm he fa na fun q hq => hd q (sa q hq).1
  cases k1 fun _ _ => trivial
  obtain ⟨L1, W1, g1⟩ := la w1
  have he1 := he.frame hm W1.effect hd
  have hd1 : ∀ q ∈ L1, ¬ U q := fun q hq => he.apart hm W1.effect hd q (Or.inl hq)
  obtain ⟨Lb, fb, nb, sb, lb⟩ := Work.inside (U := U) (l1 := o.a) (ps := o.b) (l3 := o.c ++ o.d ++ o.e) W1.effect.ok W1.forest W1.nodup g1 (by simp [Obj.owned])
  obtain ⟨ys, m2, Lb', K2, e2, w2, k2⟩ := Does.each (U := U) (e := e) Consequent.unload_does o.b W1.effect.ok he1 fb nb fun q hq => hd1 q (sb q hq).1
  cases k2 fun _ _ => trivial
  obtain ⟨L2, W2, g2⟩ := lb w2
  refine ⟨(), m2, L2, [], ?_, W1.trans hm W2, fun _ => rfl⟩
  unfold unload
  rw [bind_eq (read_eq ho), bind_eq e1, bind_eq e2, pure_eq]

theorem reads {ps : List Ptr} (h : ∀ p ∈ ps, ∃ o, m.get p = some o) : ∃ os, each read ps m = some (os, m) := by
  induction ps with
  | nil => exact ⟨[], rfl⟩
  | cons p ps ih =>
    obtain ⟨o, ho⟩ := h p (by simp)
    obtain ⟨os, hs⟩ := ih fun q hq => h q (by simp [hq])
    refine ⟨o :: os, ?_⟩
    unfold each
    rw [bind_eq (read_eq ho), bind_eq hs, pure_eq]

theorem isLoaded_eq {r : Ptr} (hf : Forest m.own [r] L) : ∃ b, isLoaded r m = some (b, m) := by
  obtain ⟨o, La, Lb, Lc, Ld, Le, ho, rfl, ha, hb, -⟩ := hf.parts
  obtain ⟨as, h1⟩ := reads fun p hp => ha.get (ha.roots p hp)
  obtain ⟨bs, h2⟩ := reads fun p hp => hb.get (hb.roots p hp)
  refine ⟨(as.any fun o => !o.a.isEmpty) && (bs.any fun o => !o.a.isEmpty), ?_⟩
  unfold isLoaded
  rw [bind_eq (read_eq ho), bind_eq h1, bind_eq h2, pure_eq]

theorem load_does (R : Reader) (H : Hedges) (r : Ptr) : Does e U (fun ok => ok = true) [r] (load R H e r) := by
  intro m L hm he hf hn hd
  obtain ⟨o, ho⟩ := hf.get (hf.roots r (by simp))
  have failed : ∀ {m1 L1 K1}, Work U [r] m m1 L L1 K1 → ∃ x m' L' K, (do unload r; pure false : M Bool) m1 = some (x, m') ∧ Work U [r] m m' L L' K ∧
      (x = true → K = []) := by
    intro m1 L1 K1 w1
    obtain ⟨_, m2, L2, K2, e2, w2, k2⟩ := unload_does (U := U) r w1.effect.ok (he.frame hm w1.effect hd) w1.forest w1.nodup
      fun q hq => he.apart hm w1.effect hd q (Or.inl hq)
    refine ⟨false, m2, L2, _, ?_, w1.trans hm w2, by simp⟩
    rw [bind_eq e2, pure_eq]
  unfold load
  rw [bind_eq (read_eq ho)]
  match hR : R o.text, ha : o.a, hb : o.b with
  | some (as, cs), [a], [c] =>
    simp only
    obtain ⟨La, fa, na, sa, la⟩ := Work.inside (U := U) (l1 := []) (ps := [a]) (l3 := o.b ++ o.c ++ o.d ++ o.e) hm hf hn ho (by simp [Obj.owned, ha])
    obtain ⟨x, m1, La', K1, e1, w1, k1⟩ := Antecedent.load_does (U := U) H a as hm he fa na fun q hq => hd q (sa q hq).1
    obtain ⟨L1, W1, g1⟩ := la w1
    rw [bind_eq e1]
    cases x with
    | false => exact failed W1
    | true =>
      cases k1 rfl
      simp only [if_true]
      have he1 := he.frame hm W1.effect hd
      have hd1 : ∀ q ∈ L1, ¬ U q := fun q hq => he.apart hm W1.effect hd q (Or.inl hq)
      obtain ⟨Lb, fb, nb, sb, lb⟩ := Work.inside (U := U) (l1 := o.a) (ps := [c]) (l3 := o.c ++ o.d ++ o.e) W1.effect.ok W1.forest W1.nodup g1 (by simp [Obj.owned, hb])
      obtain ⟨y, m2, Lb', K2, e2, w2, k2⟩ := Consequent.load_does (U := U) H c cs W1.effect.ok he1 fb nb fun q hq => hd1 q (sb q hq).1
      cases k2 trivial
      obtain ⟨L2, W2, g2⟩ := lb w2
      have W12 := W1.trans hm W2
      rw [bind_eq e2]
      cases y with
      | false => exact failed W12
      | true => exact ⟨true, m2, L2, _, rfl, W12, fun _ => rfl⟩
  | none, _, _ => exact failed (.refl hm hf hn)
  | some _, [], _ => exact failed (.refl hm hf hn)
  | some _, _ :: _ :: _, _ => exact failed (.refl hm hf hn)
  | some _, [_], [] => exact failed (.refl hm hf hn)
  | some _, [_], _ :: _ :: _ => exact failed (.refl hm hf hn)

end Rule

/-! ### Rule blocks -/

namespace RuleBlock

theorem loadRules_does (R : Reader) (H : Hedges) (b : Ptr) : Does e U (fun xs => ∀ x ∈ xs, x = true) [b] (loadRules R H e b) := by
  have one : ∀ r, Does e U (fun ok => ok = true) [r] (do
      if ← Rule.isLoaded r then Rule.unload r
      Rule.load R H e r) := by
    intro r m L hm he hf hn hd
    obtain ⟨l, hl⟩ := Rule.isLoaded_eq hf
    rw [bind_eq hl]
    cases l with
    | false => exact Rule.load_does R H r hm he hf hn hd
    | true =>
      simp only [if_true]
      obtain ⟨_, m1, L1, K1, e1, w1, k1⟩ := Rule.unload_does (U := U) r hm he hf hn hd
      cases k1 trivial
      rw [bind_eq e1]
      obtain ⟨x, m2, L2, K2, e2, w2, k2⟩ := Rule.load_does R H r w1.effect.ok (he.frame hm w1.effect hd) w1.forest w1.nodup
        fun q hq => he.apart hm w1.effect hd q (Or.inl hq)
      exact ⟨x, m2, L2, K2, e2, w1.trans hm w2, k2⟩
  intro m L hm he hf hn hd
  obtain ⟨o, ho⟩ := hf.get (hf.roots b (by simp))
  obtain ⟨La, fa, na, sa, la⟩ := Work.inside (U := U) (l1 := []) (ps := o.a) (l3 := o.b ++ o.c ++ o.d ++ o.e) hm hf hn ho (by simp [Obj.owned])
  obtain ⟨xs, m1, La', K1, e1, w1, k1⟩ := Does.each one o.a hm he fa na fun q hq => hd q (sa q hq).1
  obtain ⟨L1, W1, g1⟩ := la w1
  refine ⟨xs, m1, L1, K1, ?_, W1, k1⟩
  unfold loadRules
  rw [bind_eq (read_eq ho)]
  exact e1

end RuleBlock

end FL.Own
