/-
Lemmas about memory: what computations change, and forests of owned objects.
-/
import Verif.Model.Memory

namespace FL.Own

local notation "Ptr" => Nat

namespace Mem

theorem get_free (m : Mem) (p q : Ptr) : (m.free p).get q = if q = p then none else m.get q := by
  unfold get free
  induction m.cells with
  | nil => simp
  | cons c cs ih =>
    obtain ⟨k, o⟩ := c
    by_cases h : k = p
    · subst h
      simp only [List.filter_cons, beq_self_eq_true, Bool.not_true, Bool.false_eq_true, if_false]
      rw [ih]
      by_cases h2 : q = k
      · simp [h2]
      · have : (q == k) = false := by simpa using h2
        simp [h2, List.lookup_cons, this]
    · have hk : (k == p) = false := by simpa using h
      simp only [List.filter_cons, hk, Bool.not_false, if_true, List.lookup_cons]
      by_cases h2 : q = k
      · subst h2
        simp [h]
      · have : (q == k) = false := by simpa using h2
        simp only [this]
        exact ih

theorem get_put (m : Mem) (p q : Ptr) (o : Obj) : (m.put p o).get q = if q = p then some o else m.get q := by
  have := m.get_free p q
  unfold get at *
  unfold put
  simp only [List.lookup_cons]
  by_cases h : q = p
  · simp [h]
  · have h' : (q == p) = false := by simpa using h
    simp only [h', h, if_false] at *
    exact this

theorem length_free {m : Mem} {p : Ptr} (h : m.get p ≠ none) : (m.free p).cells.length < m.cells.length := by
  unfold get at h
  unfold free
  simp only
  have h2 : ∃ c ∈ m.cells, c.1 = p := by
    revert h
    induction m.cells with
    | nil => simp
    | cons c cs ih =>
      intro h
      by_cases hc : p = c.1
      · exact ⟨c, List.mem_cons_self, hc.symm⟩
      · obtain ⟨k, o⟩ := c
        have : (p == k) = false := by simpa using hc
        simp only [List.lookup_cons, this] at h
        obtain ⟨d, hd, e⟩ := ih h
        exact ⟨d, List.mem_cons_of_mem _ hd, e⟩
  obtain ⟨c, hc, rfl⟩ := h2
  exact List.length_filter_lt_length_iff_exists.2 ⟨c, hc, by simp⟩

/-- no object is beyond the next address -/
def Ok (m : Mem) : Prop := ∀ p, m.next ≤ p → m.get p = none

theorem Ok.lt {m : Mem} (h : m.Ok) {p : Ptr} (hp : m.get p ≠ none) : p < m.next := by
  by_contra hc
  exact hp (h p (by omega))

/-- what an object owns -/
def own (m : Mem) (p : Ptr) : Option (List Ptr) := (m.get p).map Obj.owned

end Mem

/-! ### Forests -/

/-- `Forest own ps L`: the objects `ps` exist, and so does everything they own, directly or not.  `L` is the
list of all these objects, as often as they are owned. -/
inductive Forest (own : Ptr → Option (List Ptr)) : List Ptr → List Ptr → Prop
  | nil : Forest own [] []
  | cons {p : Ptr} {os ps L1 L2 : List Ptr} : own p = some os → Forest own os L1 → Forest own ps L2 →
      Forest own (p :: ps) (p :: (L1 ++ L2))

namespace Forest
variable {own own' : Ptr → Option (List Ptr)}

theorem congr {ps L : List Ptr} (h : Forest own ps L) (he : ∀ p ∈ L, own' p = own p) : Forest own' ps L := by
  induction h with
  | nil => exact .nil
  | cons h1 _ _ ih1 ih2 =>
    refine .cons ((he _ (by simp)).trans h1) (ih1 fun p hp => he p ?_) (ih2 fun p hp => he p ?_)
    · simp [hp]
    · simp [hp]

theorem alive {ps L : List Ptr} (h : Forest own ps L) : ∀ p ∈ L, own p ≠ none := by
  induction h with
  | nil => simp
  | cons h1 _ _ ih1 ih2 =>
    intro p hp
    rcases List.mem_cons.1 hp with rfl | hp
    · simp [h1]
    · rcases List.mem_append.1 hp with hp | hp
      · exact ih1 p hp
      · exact ih2 p hp

theorem roots {ps L : List Ptr} (h : Forest own ps L) : ∀ p ∈ ps, p ∈ L := by
  induction h with
  | nil => simp
  | cons _ _ _ _ ih =>
    intro p hp
    rcases List.mem_cons.1 hp with rfl | hp
    · simp
    · simp [ih p hp]

theorem append {ps qs L1 L2 : List Ptr} (h1 : Forest own ps L1) (h2 : Forest own qs L2) : Forest own (ps ++ qs) (L1 ++ L2) := by
  induction h1 with
  | nil => exact h2
  | cons h _ _ _ ih =>
    rw [List.cons_append, List.cons_append, List.append_assoc]
    exact .cons h ‹_› ih

theorem split {ps qs L : List Ptr} (h : Forest own (ps ++ qs) L) :
    ∃ L1 L2, L = L1 ++ L2 ∧ Forest own ps L1 ∧ Forest own qs L2 := by
  induction ps generalizing L with
  | nil => exact ⟨[], L, rfl, .nil, h⟩
  | cons p ps ih =>
    rw [List.cons_append] at h
    cases h with
    | cons h1 h2 h3 =>
      obtain ⟨L1, L2, rfl, h4, h5⟩ := ih h3
      exact ⟨_, L2, by simp, .cons h1 h2 h4, h5⟩

theorem cons_inv {p : Ptr} {ps L : List Ptr} (h : Forest own (p :: ps) L) :
    ∃ os L1 L2, own p = some os ∧ L = p :: (L1 ++ L2) ∧ Forest own os L1 ∧ Forest own ps L2 := by
  cases h with
  | cons h1 h2 h3 => exact ⟨_, _, _, h1, rfl, h2, h3⟩

theorem one {p : Ptr} {os L : List Ptr} (h : own p = some os) (hf : Forest own os L) : Forest own [p] (p :: L) := by
  have := Forest.cons h hf (.nil : Forest own [] [])
  rwa [List.append_nil] at this

theorem one_inv {p : Ptr} {L : List Ptr} (h : Forest own [p] L) : ∃ os L1, own p = some os ∧ L = p :: L1 ∧ Forest own os L1 := by
  obtain ⟨os, L1, L2, h1, rfl, h2, h3⟩ := h.cons_inv
  cases h3
  exact ⟨os, L1, h1, by simp, h2⟩

/-- the objects of a forest are determined -/
theorem unique {ps L L' : List Ptr} (h : Forest own ps L) (h' : Forest own ps L') : L = L' := by
  induction h generalizing L' with
  | nil => cases h'; rfl
  | cons h1 _ _ ih1 ih2 =>
    obtain ⟨os, L1, L2, e1, rfl, f1, f2⟩ := h'.cons_inv
    rw [h1] at e1
    cases e1
    rw [ih1 f1, ih2 f2]

end Forest

/-! ### Deleting -/

/-- deleting objects one by one, not what they own -/
def Mem.freeAll (m : Mem) (L : List Ptr) : Mem := L.foldl Mem.free m

namespace Mem

theorem get_freeAll (m : Mem) (L : List Ptr) (q : Ptr) : (m.freeAll L).get q = if q ∈ L then none else m.get q := by
  unfold freeAll
  induction L generalizing m with
  | nil => simp
  | cons p L ih =>
    rw [List.foldl_cons, ih, get_free]
    by_cases h1 : q ∈ L <;> by_cases h2 : q = p <;> simp [h1, h2]

theorem next_freeAll (m : Mem) (L : List Ptr) : (m.freeAll L).next = m.next := by
  unfold freeAll
  induction L generalizing m with
  | nil => rfl
  | cons p L ih => exact ih _

theorem own_free (m : Mem) (p q : Ptr) : (m.free p).own q = if q = p then none else m.own q := by
  unfold own
  rw [get_free]
  split <;> rfl

end Mem

theorem destroyN_of_forest {m : Mem} {ps L : List Ptr} (h : Forest m.own ps L) (hn : L.Nodup) (n : Nat) (rest : List Ptr)
    (hl : m.cells.length ≤ n) : ∃ k, (m.freeAll L).cells.length ≤ k ∧ destroyN n (ps ++ rest) m = destroyN k rest (m.freeAll L) := by
  suffices H : ∀ (m : Mem), (∀ p ∈ L, m.own p = (fun q => m.own q) p) → Forest m.own ps L → ∀ n rest, m.cells.length ≤ n →
      ∃ k, (m.freeAll L).cells.length ≤ k ∧ destroyN n (ps ++ rest) m = destroyN k rest (m.freeAll L) from
    H m (fun _ _ => rfl) h n rest hl
  clear h hl
  intro m _ h
  -- on the number of objects
  induction hN : L.length using Nat.strong_induction_on generalizing m ps L with
  | _ N ih =>
    intro n rest hl
    cases h with
    | nil => exact ⟨n, hl, rfl⟩
    | @cons p os ps L1 L2 h1 h2 h3 =>
      have hg : m.get p ≠ none := by
        intro hc
        simp [Mem.own, hc] at h1
      obtain ⟨o, ho⟩ := Option.ne_none_iff_exists'.1 hg
      have hos : o.owned = os := by
        have : some o.owned = some os := by rw [← h1]; simp [Mem.own, ho]
        simpa using this
      have hlt := Mem.length_free hg
      obtain ⟨n, rfl⟩ : ∃ k, n = k + 1 := ⟨n - 1, by omega⟩
      obtain ⟨hp, hn'⟩ := List.nodup_cons.1 hn
      have f1 : Forest (m.free p).own (os ++ ps) (L1 ++ L2) := by
        refine (h2.append h3).congr fun q hq => ?_
        rw [Mem.own_free, if_neg]
        rintro rfl
        exact hp hq
      obtain ⟨k, hk, e⟩ := ih (L1 ++ L2).length (by simp at hN ⊢; omega) hn' (m.free p) (fun _ _ => rfl) f1 rfl n rest (by omega)
      refine ⟨k, hk, ?_⟩
      rw [List.cons_append]
      simp only [destroyN, ho, hos]
      rw [← List.append_assoc, e]
      rfl

theorem forest_of_destroyN {n : Nat} {m m' : Mem} {ps : List Ptr} (h : destroyN n ps m = some m') :
    ∃ L, Forest m.own ps L ∧ L.Nodup ∧ m' = m.freeAll L := by
  induction n generalizing m ps with
  | zero =>
    cases ps with
    | nil =>
      simp only [destroyN, Option.some.injEq] at h
      exact ⟨[], .nil, List.nodup_nil, h.symm⟩
    | cons p ps => simp [destroyN] at h
  | succ n ih =>
    cases ps with
    | nil =>
      simp only [destroyN, Option.some.injEq] at h
      exact ⟨[], .nil, List.nodup_nil, h.symm⟩
    | cons p ps =>
      simp only [destroyN] at h
      cases ho : m.get p with
      | none => simp [ho] at h
      | some o =>
        simp only [ho] at h
        obtain ⟨L, hf, hn, rfl⟩ := ih h
        have hp : p ∉ L := by
          intro hc
          exact hf.alive p hc (by rw [Mem.own_free, if_pos rfl])
        have hf' : Forest m.own (o.owned ++ ps) L := hf.congr fun q hq => by
          rw [Mem.own_free, if_neg]
          rintro rfl
          exact hp hq
        obtain ⟨L1, L2, rfl, f1, f2⟩ := hf'.split
        exact ⟨p :: (L1 ++ L2), .cons (by simp [Mem.own, ho]) f1 f2, List.nodup_cons.2 ⟨hp, hn⟩, rfl⟩

/-- deleting is defined exactly if no object is deleted twice and all exist -/
theorem delete_eq_some {m m' : Mem} {ps : List Ptr} :
    delete ps m = some ((), m') ↔ ∃ L, Forest m.own ps L ∧ L.Nodup ∧ m' = m.freeAll L := by
  unfold delete
  constructor
  · intro h
    cases hd : destroyN m.cells.length ps m with
    | none => simp [hd] at h
    | some m1 =>
      simp only [hd, Option.map_some, Option.some.injEq, Prod.mk.injEq, true_and] at h
      subst h
      exact forest_of_destroyN hd
  · rintro ⟨L, hf, hn, rfl⟩
    obtain ⟨k, -, e⟩ := destroyN_of_forest hf hn m.cells.length [] le_rfl
    rw [List.append_nil] at e
    rw [e]
    cases k <;> rfl

/-! ### Effects -/

/-- `Effect m m' L L' K`: the memory changes from `m` to `m'`.  Of the objects `L` those that are not among `L'`
are deleted; the objects `L'` that are not among `L` are new; the objects `K` are new (or from `L`), exist, and are
lost.  Nothing else changes. -/
structure Effect (m m' : Mem) (L L' K : List Ptr) : Prop where
  ok : m'.Ok
  le : m.next ≤ m'.next
  frame : ∀ p, p ∉ L → p ∉ L' → p ∉ K → m'.get p = m.get p
  freed : ∀ p, p ∈ L → p ∉ L' → p ∉ K → m'.get p = none
  new : ∀ p, p ∈ L' ∨ p ∈ K → p ∈ L ∨ m.next ≤ p
  nodup : (L' ++ K).Nodup
  live : ∀ p, p ∈ L' ∨ p ∈ K → m'.get p ≠ none

namespace Effect
variable {m m1 m2 m' : Mem} {L L1 L2 L' K K1 K2 X : List Ptr}

theorem refl (hm : m.Ok) (hn : L.Nodup) (hl : ∀ p ∈ L, m.get p ≠ none) : Effect m m L L [] where
  ok := hm
  le := le_rfl
  frame _ _ _ _ := rfl
  freed _ h1 h2 := absurd h1 h2
  new p h := Or.inl (by simpa using h)
  nodup := by simpa using hn
  live p h := hl p (by simpa using h)

theorem trans (hm : m.Ok) (h1 : Effect m m1 L L1 K1) (h2 : Effect m1 m2 L1 L2 K2) : Effect m m2 L L2 (K1 ++ K2) where
  ok := h2.ok
  le := h1.le.trans h2.le
  frame p hL hL2 hK := by
    rw [List.mem_append, not_or] at hK
    by_cases h : p ∈ L1
    · rw [h2.freed p h hL2 hK.2]
      exact (hm p ((h1.new p (Or.inl h)).resolve_left hL)).symm
    · rw [h2.frame p h hL2 hK.2, h1.frame p hL h hK.1]
  freed p hL hL2 hK := by
    rw [List.mem_append, not_or] at hK
    by_cases h : p ∈ L1
    · exact h2.freed p h hL2 hK.2
    · rw [h2.frame p h hL2 hK.2, h1.freed p hL h hK.1]
  new p h := by
    have key : p ∈ L1 ∨ m1.next ≤ p → p ∈ L ∨ m.next ≤ p := by
      rintro (h | h)
      · exact h1.new p (Or.inl h)
      · exact Or.inr (h1.le.trans h)
    rw [List.mem_append] at h
    rcases h with h | h | h
    · exact key (h2.new p (Or.inl h))
    · exact h1.new p (Or.inr h)
    · exact key (h2.new p (Or.inr h))
  nodup := by
    have n1 := List.nodup_append'.1 h1.nodup
    have n2 := List.nodup_append'.1 h2.nodup
    have key : ∀ p ∈ K1, ¬ (p ∈ L2 ∨ p ∈ K2) := by
      intro p hp hc
      rcases h2.new p hc with h | h
      · exact n1.2.2 h hp
      · exact absurd (h1.ok.lt (h1.live p (Or.inr hp))) (by omega)
    refine List.nodup_append'.2 ⟨n2.1, List.nodup_append'.2 ⟨n1.2.1, n2.2.1, ?_⟩, ?_⟩
    · intro p hp hc; exact key p hp (Or.inr hc)
    · intro p hp hc
      rcases List.mem_append.1 hc with hc | hc
      · exact key p hc (Or.inl hp)
      · exact n2.2.2 hp hc
  live p h := by
    rw [List.mem_append] at h
    rcases h with h | h | h
    · exact h2.live p (Or.inl h)
    · by_cases hc : p ∈ L2 ∨ p ∈ K2
      · exact h2.live p hc
      · push Not at hc
        have n1 := List.nodup_append'.1 h1.nodup
        rw [h2.frame p (fun hx => n1.2.2 hx h) hc.1 hc.2]
        exact h1.live p (Or.inr h)
    · exact h2.live p (Or.inr h)

/-- other objects may be added -/
theorem extend (hm : m.Ok) (h : Effect m m' L L' K) (hX : ∀ p ∈ X, m.get p ≠ none) (hd : ∀ p ∈ X, p ∉ L) (hn : X.Nodup) :
    Effect m m' (X ++ L) (X ++ L') K where
  ok := h.ok
  le := h.le
  frame p h1 h2 h3 := by
    rw [List.mem_append, not_or] at h1 h2
    exact h.frame p h1.2 h2.2 h3
  freed p h1 h2 h3 := by
    rw [List.mem_append, not_or] at h2
    exact h.freed p ((List.mem_append.1 h1).resolve_left h2.1) h2.2 h3
  new p hp := by
    rw [List.mem_append] at hp ⊢
    rcases hp with (hp | hp) | hp
    · exact Or.inl (Or.inl hp)
    · rcases h.new p (Or.inl hp) with h | h
      · exact Or.inl (Or.inr h)
      · exact Or.inr h
    · rcases h.new p (Or.inr hp) with h | h
      · exact Or.inl (Or.inr h)
      · exact Or.inr h
  nodup := by
    rw [List.append_assoc]
    refine List.nodup_append'.2 ⟨hn, h.nodup, fun p hp hc => ?_⟩
    rcases h.new p (List.mem_append.1 hc) with h1 | h1
    · exact hd p hp h1
    · exact absurd (hm.lt (hX p hp)) (by omega)
  live p hp := by
    rw [List.mem_append] at hp
    rcases hp with (hp | hp) | hp
    · by_cases hc : p ∈ L' ∨ p ∈ K
      · exact h.live p hc
      · push Not at hc
        rw [h.frame p (hd p hp) hc.1 hc.2]
        exact hX p hp
    · exact h.live p (Or.inl hp)
    · exact h.live p (Or.inr hp)

theorem congr (h : Effect m m' L L' K) (h1 : ∀ p, p ∈ L1 ↔ p ∈ L) (h2 : L2.Perm L') : Effect m m' L1 L2 K where
  ok := h.ok
  le := h.le
  frame p a b c := h.frame p (fun x => a ((h1 p).2 x)) (fun x => b (h2.mem_iff.2 x)) c
  freed p a b c := h.freed p ((h1 p).1 a) (fun x => b (h2.mem_iff.2 x)) c
  new p a := by
    rcases h.new p (by rwa [← h2.mem_iff]) with x | x
    · exact Or.inl ((h1 p).2 x)
    · exact Or.inr x
  nodup := (List.Perm.nodup_iff (h2.append_right K)).2 h.nodup
  live p a := h.live p (by rwa [← h2.mem_iff])

/-- then something new -/
theorem seq (hm : m.Ok) (h1 : Effect m m1 L L1 K1) (h2 : Effect m1 m2 [] L2 K2) : Effect m m2 L (L1 ++ L2) (K1 ++ K2) := by
  have h3 := h2.extend h1.ok (X := L1) (fun p hp => h1.live p (Or.inl hp)) (by simp) (List.nodup_append'.1 h1.nodup).1
  rw [List.append_nil] at h3
  exact h1.trans hm h3

theorem forest {ps Lp : List Ptr} (hm : m.Ok) (h : Effect m m' L L' K) (hf : Forest m.own ps Lp) (hd : ∀ p ∈ Lp, p ∉ L) : Forest m'.own ps Lp := by
  refine hf.congr fun p hp => ?_
  have ha : m.get p ≠ none := by
    intro hc
    exact hf.alive p hp (by simp [Mem.own, hc])
  have hlt := hm.lt ha
  have hno : ∀ {l : Prop}, (p ∈ L' ∨ p ∈ K) → False := by
    intro _ hc
    rcases h.new p hc with x | x
    · exact hd p hp x
    · omega
  unfold Mem.own
  rw [h.frame p (hd p hp) (fun x => hno (l := True) (Or.inl x)) (fun x => hno (l := True) (Or.inr x))]

theorem get (hm : m.Ok) (h : Effect m m' L L' K) {p : Ptr} {o : Obj} (hp : m.get p = some o) (hd : p ∉ L) : m'.get p = some o := by
  have hlt := hm.lt (p := p) (by simp [hp])
  rw [h.frame p hd, hp]
  · intro x
    rcases h.new p (Or.inl x) with y | y
    · exact hd y
    · omega
  · intro x
    rcases h.new p (Or.inr x) with y | y
    · exact hd y
    · omega

end Effect

/-! ### Computations -/

theorem bind_eq {α β : Type} {f : M α} {g : α → M β} {m m' : Mem} {x : α} (h : f m = some (x, m')) : (f >>= g) m = g x m' := by
  show (f m >>= fun p => g p.1 p.2) = _
  rw [h]
  rfl

theorem pure_eq {α : Type} (x : α) (m : Mem) : (pure x : M α) m = some (x, m) := rfl

theorem read_eq {m : Mem} {p : Ptr} {o : Obj} (h : m.get p = some o) : read p m = some (o, m) := by
  unfold read
  rw [h]
  rfl

theorem alloc_eq (m : Mem) (o : Obj) (hm : m.Ok) : ∃ m', alloc o m = some (m.next, m') ∧ Effect m m' [] [m.next] [] ∧ m'.get m.next = some o ∧
    (∀ p, p ≠ m.next → m'.get p = m.get p) ∧ m'.next = m.next + 1 := by
  have hg : ∀ q, (Mem.mk ((m.next, o) :: m.cells) (m.next + 1)).get q = if q = m.next then some o else m.get q := by
    intro q
    unfold Mem.get
    simp only [List.lookup_cons]
    by_cases h : q = m.next
    · simp [h]
    · have : (q == m.next) = false := by simpa using h
      simp [this, h]
  refine ⟨_, rfl, ⟨?_, by simp, ?_, by simp, ?_, by simp, ?_⟩, ?_, ?_, rfl⟩
  · intro p hp
    simp only at hp
    rw [hg, if_neg (by omega)]
    exact hm p (by omega)
  · intro p _ h _
    rw [hg, if_neg (by simpa using h)]
  · intro p h
    simp at h
    exact Or.inr h.ge
  · intro p h
    simp at h
    rw [hg, if_pos h]
    simp
  · rw [hg, if_pos rfl]
  · intro p hp
    rw [hg, if_neg hp]

theorem modify_eq {m : Mem} {p : Ptr} {o : Obj} (f : Obj → Obj) (hm : m.Ok) (h : m.get p = some o) :
    ∃ m', modify p f m = some ((), m') ∧ Effect m m' [p] [p] [] ∧ m'.get p = some (f o) ∧ (∀ q, q ≠ p → m'.get q = m.get q) ∧
      m'.next = m.next := by
  have hg := fun q => m.get_put p q (f o)
  refine ⟨m.put p (f o), ?_, ⟨?_, le_rfl, ?_, ?_, ?_, by simp, ?_⟩, ?_, ?_, rfl⟩
  · unfold modify
    rw [bind_eq (read_eq h)]
    unfold write
    rw [h]
    rfl
  · intro q hq
    have : p < m.next := hm.lt (by simp [h])
    have hq' : m.next ≤ q := hq
    rw [hg, if_neg (by omega)]
    exact hm q hq'
  · intro q h1 _ _
    rw [hg, if_neg (by simpa using h1)]
  · intro q h1 h2
    exact absurd h1 h2
  · intro q h1
    simpa using Or.inl h1
  · intro q h1
    simp at h1
    rw [hg, if_pos h1]
    simp
  · rw [hg, if_pos rfl]
  · intro q hq
    rw [hg, if_neg hq]

theorem delete_eq {m : Mem} {ps L : List Ptr} (hm : m.Ok) (h : Forest m.own ps L) (hn : L.Nodup) :
    delete ps m = some ((), m.freeAll L) ∧ Effect m (m.freeAll L) L [] [] := by
  refine ⟨delete_eq_some.2 ⟨L, h, hn, rfl⟩, ?_, ?_, ?_, ?_, by simp, by simp, by simp⟩
  · intro p hp
    rw [Mem.next_freeAll] at hp
    rw [Mem.get_freeAll]
    split
    · rfl
    · exact hm p hp
  · rw [Mem.next_freeAll]
  · intro p h1 _ _
    rw [Mem.get_freeAll, if_neg h1]
  · intro p h1 _ _
    rw [Mem.get_freeAll, if_pos h1]

end FL.Own
