/-
Lemmas about memories in which every object has one owner.
-/
import Verif.Lemmas.MemoryConfigure

namespace FL.Own

local notation "Ptr" => Nat

variable {m m1 m2 m' : Mem} {L L1 L2 L' K K1 K2 : List Ptr} {e : Ptr}

local macro "perm" : tactic => `(tactic| (refine List.perm_iff_count.2 fun a => ?_; simp only [List.count_append, List.count_cons, List.count_nil]; omega))

/-- what objects own, directly or not, and these objects -/
inductive Reach (m : Mem) (ps : List Ptr) : Ptr → Prop
  | root {q : Ptr} : q ∈ ps → Reach m ps q
  | part {p q : Ptr} {o : Obj} : Reach m ps p → m.get p = some o → q ∈ o.owned → Reach m ps q

/-- Every object of a memory belongs, in one way, to the roots, or it is lost: nothing will delete it. -/
structure Clean (m : Mem) (roots lost : List Ptr) : Prop where
  ok : m.Ok
  once : ∃ L, Forest m.own roots L ∧ (L ++ lost).Nodup ∧ ∀ q, (∃ o, m.get q = some o) ↔ q ∈ L ++ lost

/-- what objects own refers only to what they own -/
def Closed (m : Mem) (ps : List Ptr) : Prop := ∀ q o r, Reach m ps q → m.get q = some o → r ∈ o.refs → Reach m ps r

theorem Reach.mono {ps qs : List Ptr} (h : ∀ p ∈ ps, Reach m qs p) {q : Ptr} (hq : Reach m ps q) : Reach m qs q := by
  induction hq with
  | root h1 => exact h _ h1
  | part _ h2 h3 ih => exact .part ih h2 h3

/-- the forest of objects is what they reach -/
theorem Forest.mem_iff {ps : List Ptr} (h : Forest m.own ps L) {q : Ptr} : q ∈ L ↔ Reach m ps q := by
  constructor
  · intro hq
    induction h with
    | nil => simp at hq
    | @cons r os ps L1 L2 h1 h2 h3 ih1 ih2 =>
      simp only [List.mem_cons, List.mem_append] at hq
      rcases hq with rfl | hq | hq
      · exact .root (by simp)
      · obtain ⟨o, ho, rfl⟩ := own_inv h1
        exact (ih1 hq).mono fun p hp => .part (.root (by simp)) ho hp
      · exact (ih2 hq).mono fun p hp => .root (by simp [hp])
  · intro hq
    induction hq with
    | root h1 => exact h.roots _ h1
    | part _ h2 h3 ih => exact h.children ih (own_eq h2) h3

/-- objects without duplicates have one owner -/
theorem Forest.one_owner {ps : List Ptr} (h : Forest m.own ps L) (hn : L.Nodup) :
    ps.Nodup ∧ ∀ p o, p ∈ L → m.get p = some o → o.owned.Nodup ∧ ∀ q ∈ o.owned, q ∉ ps ∧ ∀ p' o', p' ∈ L → m.get p' = some o' → q ∈ o'.owned → p' = p := by
  induction h with
  | nil => simp
  | @cons r os ps L1 L2 h1 h2 h3 ih1 ih2 =>
    obtain ⟨or, hr, rfl⟩ := own_inv h1
    simp only [List.nodup_cons, List.mem_append, not_or] at hn
    obtain ⟨⟨n1, n2⟩, n3⟩ := hn
    obtain ⟨n4, n5, n6⟩ := List.nodup_append'.1 n3
    obtain ⟨a1, b1⟩ := ih1 n4
    obtain ⟨a2, b2⟩ := ih2 n5
    have kids : ∀ {p o q}, m.get p = some o → q ∈ o.owned → (p ∈ L1 → q ∈ L1) ∧ (p ∈ L2 → q ∈ L2) := fun hp hq =>
      ⟨fun h => h2.children h (own_eq hp) hq, fun h => h3.children h (own_eq hp) hq⟩
    refine ⟨List.nodup_cons.2 ⟨fun hc => n2 (h3.roots r hc), a2⟩, ?_⟩
    intro p o hp ho
    simp only [List.mem_cons, List.mem_append] at hp ⊢
    rcases hp with rfl | hp | hp
    · rw [hr] at ho
      cases ho
      refine ⟨a1, fun q hq => ⟨?_, ?_⟩⟩
      · have := h2.roots q hq
        rintro (rfl | hc)
        · exact n1 this
        · exact n6 this (h3.roots q hc)
      · have := h2.roots q hq
        rintro p' o' (rfl | hp' | hp') ho' hq'
        · rfl
        · exact absurd hq ((b1 p' o' hp' ho').2 q hq').1
        · exact absurd ((kids ho' hq').2 hp') (n6 this)
    · refine ⟨(b1 p o hp ho).1, fun q hq => ?_⟩
      have := (kids ho hq).1 hp
      refine ⟨?_, ?_⟩
      · rintro (rfl | hc)
        · exact n1 this
        · exact n6 this (h3.roots q hc)
      · rintro p' o' (rfl | hp' | hp') ho' hq'
        · rw [hr] at ho'
          cases ho'
          exact absurd hq' ((b1 p o hp ho).2 q hq).1
        · exact ((b1 p o hp ho).2 q hq).2 p' o' hp' ho' hq'
        · exact absurd ((kids ho' hq').2 hp') (n6 this)
    · refine ⟨(b2 p o hp ho).1, fun q hq => ?_⟩
      have := (kids ho hq).2 hp
      refine ⟨?_, ?_⟩
      · rintro (rfl | hc)
        · exact n2 this
        · exact ((b2 p o hp ho).2 q hq).1 hc
      · rintro p' o' (rfl | hp' | hp') ho' hq'
        · rw [hr] at ho'
          cases ho'
          exact absurd this (n6 (h2.roots q hq'))
        · exact absurd this (n6 ((kids ho' hq').1 hp'))
        · exact ((b2 p o hp ho).2 q hq).2 p' o' hp' ho' hq'

/-- the forest of one of the objects may be replaced -/
theorem Forest.graft {own : Ptr → Option (List Ptr)} {ps : List Ptr} (h : Forest own ps L) {r : Ptr} (hr : r ∈ L) :
    ∃ Lr M, Forest own [r] Lr ∧ L.Perm (Lr ++ M) ∧ ∀ own' Lr', Forest own' [r] Lr' → (∀ q ∈ M, own' q = own q) → ∃ L', Forest own' ps L' ∧ L'.Perm (Lr' ++ M) := by
  induction h with
  | nil => simp at hr
  | @cons p os ps L1 L2 h1 h2 h3 ih1 ih2 =>
    by_cases hp : r = p
    · subst hp
      refine ⟨r :: L1, L2, .one h1 h2, by simp, fun own' Lr' hf he => ?_⟩
      exact ⟨Lr' ++ L2, Forest.append (ps := [r]) hf (h3.congr he), .refl _⟩
    · simp only [List.mem_cons, List.mem_append, hp, false_or] at hr
      rcases hr with hr | hr
      · obtain ⟨Lr, M, f1, p1, g1⟩ := ih1 hr
        refine ⟨Lr, p :: (M ++ L2), f1, ?_, fun own' Lr' hf he => ?_⟩
        · have := List.perm_iff_count.1 p1
          refine List.perm_iff_count.2 fun a => ?_
          have := this a
          simp only [List.count_append, List.count_cons] at this ⊢
          omega
        · obtain ⟨L', f2, p2⟩ := g1 own' Lr' hf fun q hq => he q (by simp [hq])
          refine ⟨p :: (L' ++ L2), .cons ((he p (by simp)).trans h1) f2 (h3.congr fun q hq => he q (by simp [hq])), ?_⟩
          refine List.perm_iff_count.2 fun a => ?_
          have := List.perm_iff_count.1 p2 a
          simp only [List.count_append, List.count_cons] at this ⊢
          omega
      · obtain ⟨Lr, M, f1, p1, g1⟩ := ih2 hr
        refine ⟨Lr, p :: (L1 ++ M), f1, ?_, fun own' Lr' hf he => ?_⟩
        · refine List.perm_iff_count.2 fun a => ?_
          have := List.perm_iff_count.1 p1 a
          simp only [List.count_append, List.count_cons] at this ⊢
          omega
        · obtain ⟨L', f2, p2⟩ := g1 own' Lr' hf fun q hq => he q (by simp [hq])
          refine ⟨p :: (L1 ++ L'), .cons ((he p (by simp)).trans h1) (h2.congr fun q hq => he q (by simp [hq])) f2, ?_⟩
          refine List.perm_iff_count.2 fun a => ?_
          have := List.perm_iff_count.1 p2 a
          simp only [List.count_append, List.count_cons] at this ⊢
          omega

variable {roots lost : List Ptr}

/-- work on one of the objects of a memory, with objects that nobody owned -/
theorem Clean.work {r : Ptr} {ps : List Ptr} (h : Clean m (ps ++ roots) lost) (hr : Reach m roots r) :
    ∃ Lr Lp, Forest m.own [r] Lr ∧ Forest m.own ps Lp ∧ (Lr ++ Lp).Nodup ∧
      ∀ {m' Lr' qs Lq K}, Effect m m' (Lr ++ Lp) (Lr' ++ Lq) K → Forest m'.own [r] Lr' → Forest m'.own qs Lq →
        Clean m' (qs ++ roots) (K ++ lost) ∧ ∀ q o, m.get q = some o → ¬ Reach m (r :: ps) q → m'.get q = some o := by
  obtain ⟨L, hf, hn, hl⟩ := h.once
  obtain ⟨Lp, L0, rfl, fp, f0⟩ := hf.split
  obtain ⟨Lr, M, fr, pr, g⟩ := f0.graft (f0.mem_iff.2 hr)
  have hn' : (Lr ++ Lp ++ (M ++ lost)).Nodup := by
    refine (List.Perm.nodup_iff ?_).1 hn
    refine List.perm_iff_count.2 fun a => ?_
    have := List.perm_iff_count.1 pr a
    simp only [List.count_append] at this ⊢
    omega
  obtain ⟨n1, n2, n3⟩ := List.nodup_append'.1 hn'
  refine ⟨Lr, Lp, fr, fp, n1, ?_⟩
  intro m' Lr' qs Lq K x f1 f2
  have live : ∀ q ∈ M ++ lost, ∃ o, m.get q = some o := fun q hq => (hl q).2 (by
    have := pr.mem_iff (a := q)
    simp only [List.mem_append] at this hq ⊢
    rcases hq with hq | hq
    · exact Or.inl (Or.inr (this.2 (Or.inr hq)))
    · exact Or.inr hq)
  have same : ∀ q ∈ M ++ lost, m'.get q = m.get q := fun q hq => by
    obtain ⟨o, ho⟩ := live q hq
    rw [ho]
    exact x.get h.ok ho fun hc => n3 hc hq
  have apart : ∀ q, q ∈ Lr' ++ Lq ∨ q ∈ K → q ∉ M ++ lost := fun q hq hc => by
    rcases x.new q hq with h1 | h1
    · exact n3 h1 hc
    · obtain ⟨o, ho⟩ := live q hc
      rw [h.ok q h1] at ho
      cases ho
  obtain ⟨L', f', p'⟩ := g m'.own Lr' f1 fun q hq => by
    unfold Mem.own
    rw [same q (by simp [hq])]
  refine ⟨⟨x.ok, Lq ++ L', f2.append f', ?_, fun q => ?_⟩, ?_⟩
  · have : (Lr' ++ Lq ++ K ++ (M ++ lost)).Nodup := List.nodup_append'.2 ⟨x.nodup, n2, fun q hq hc => apart q (by
      rcases List.mem_append.1 hq with hq | hq
      · exact Or.inl hq
      · exact Or.inr hq) hc⟩
    refine (List.Perm.nodup_iff ?_).1 this
    refine List.perm_iff_count.2 fun a => ?_
    have := List.perm_iff_count.1 p' a
    simp only [List.count_append] at this ⊢
    omega
  · have hL' := p'.mem_iff (a := q)
    have hL0 := pr.mem_iff (a := q)
    have h1 := hl q
    simp only [List.mem_append] at hL' hL0 h1 ⊢
    constructor
    · rintro ⟨o, ho⟩
      by_cases c1 : q ∈ Lr' ++ Lq
      · rcases List.mem_append.1 c1 with c | c
        · exact Or.inl (Or.inr (hL'.2 (Or.inl c)))
        · exact Or.inl (Or.inl c)
      · by_cases c2 : q ∈ K
        · exact Or.inr (Or.inl c2)
        · by_cases c3 : q ∈ Lr ++ Lp
          · rw [x.freed q c3 c1 c2] at ho
            cases ho
          · rw [x.frame q c3 c1 c2] at ho
            rw [List.mem_append, not_or] at c3
            rcases h1.1 ⟨o, ho⟩ with (c | c) | c
            · exact absurd c c3.2
            · exact Or.inl (Or.inr (hL'.2 (Or.inr ((hL0.1 c).resolve_left c3.1))))
            · exact Or.inr (Or.inr c)
    · intro hq
      have old : q ∈ M ++ lost → ∃ o, m'.get q = some o := fun c => by
        obtain ⟨o, ho⟩ := live q c
        exact ⟨o, (same q c).trans ho⟩
      have new : q ∈ Lr' ++ Lq ∨ q ∈ K → ∃ o, m'.get q = some o := fun c => Option.ne_none_iff_exists'.1 (x.live q c)
      rcases hq with (c | c) | c | c
      · exact new (Or.inl (List.mem_append.2 (Or.inr c)))
      · rcases hL'.1 c with c | c
        · exact new (Or.inl (List.mem_append.2 (Or.inl c)))
        · exact old (List.mem_append.2 (Or.inl c))
      · exact new (Or.inr c)
      · exact old (List.mem_append.2 (Or.inr c))
  · intro q o ho hq
    refine x.get h.ok ho fun hc => hq ?_
    have := (Forest.append (ps := [r]) fr fp).mem_iff.1 hc
    simpa using this

/-- the same without other objects -/
theorem Clean.work_one {r : Ptr} (h : Clean m roots lost) (hr : Reach m roots r) :
    ∃ Lr, Forest m.own [r] Lr ∧ Lr.Nodup ∧
      ∀ {m' Lr' K}, Effect m m' Lr Lr' K → Forest m'.own [r] Lr' →
        Clean m' roots (K ++ lost) ∧ ∀ q o, m.get q = some o → ¬ Reach m [r] q → m'.get q = some o := by
  obtain ⟨Lr, Lp, f1, f2, n, g⟩ := Clean.work (ps := []) h hr
  cases f2
  refine ⟨Lr, f1, by simpa using n, ?_⟩
  intro m' Lr' K x f
  exact g (qs := []) (Lq := []) (by simpa using x) f .nil

/-- new objects -/
theorem Clean.more {qs : List Ptr} (h : Clean m roots lost) (x : Effect m m' [] L' K) (hf : Forest m'.own qs L') :
    Clean m' (qs ++ roots) (K ++ lost) ∧ ∀ q o, m.get q = some o → m'.get q = some o := by
  obtain ⟨L, f0, hn, hl⟩ := h.once
  have same : ∀ q o, m.get q = some o → m'.get q = some o := fun q o ho => x.get h.ok ho (by simp)
  have fresh : ∀ q, q ∈ L' ∨ q ∈ K → q ∉ L ++ lost := fun q hq hc => by
    obtain ⟨o, ho⟩ := (hl q).2 hc
    rcases x.new q hq with h1 | h1
    · simp at h1
    · rw [h.ok q h1] at ho
      cases ho
  refine ⟨⟨x.ok, L' ++ L, hf.append (x.forest h.ok f0 (by simp)), ?_, fun q => ?_⟩, same⟩
  · have : (L' ++ K ++ (L ++ lost)).Nodup := List.nodup_append'.2 ⟨x.nodup, hn, fun q hq hc => fresh q (by simpa using hq) hc⟩
    refine (List.Perm.nodup_iff ?_).1 this
    perm
  · have h1 := hl q
    simp only [List.mem_append] at h1 ⊢
    constructor
    · rintro ⟨o, ho⟩
      by_cases c1 : q ∈ L'
      · tauto
      · by_cases c2 : q ∈ K
        · tauto
        · rw [x.frame q (by simp) c1 c2] at ho
          have := h1.1 ⟨o, ho⟩
          tauto
    · intro hq
      by_cases c : q ∈ L' ∨ q ∈ K
      · exact Option.ne_none_iff_exists'.1 (x.live q c)
      · obtain ⟨o, ho⟩ := h1.2 (by tauto)
        exact ⟨o, same q o ho⟩

theorem Clean.forest {p : Ptr} (h : Clean m roots lost) (hp : Reach m roots p) : ∃ Lp, Forest m.own [p] Lp ∧ Lp.Nodup := by
  obtain ⟨Lp, h1, h2, -⟩ := h.work_one hp
  exact ⟨Lp, h1, h2⟩

end FL.Own
