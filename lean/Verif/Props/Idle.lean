/-
C98: rules that are not active can be deleted.
-/
import Verif.Props.RuleSet
import Verif.Props.Activation

namespace FL
open Scalar

section idle
variable {S : Type} [Scalar S]

/-- The second list is what a loop over the rules of the first has made of them, and the third has those of the first that remain when
some are deleted that have become idle. -/
inductive Drops (idle : Rule S → Prop) : List (Rule S) → List (Rule S) → List (Rule S) → Prop
  | nil : Drops idle [] [] []
  | keep (r r' : Rule S) {rs rs' qs : List (Rule S)} (h : Drops idle rs rs' qs) : Drops idle (r :: rs) (r' :: rs') (r :: qs)
  | drop (r : Rule S) {r' : Rule S} {rs rs' qs : List (Rule S)} (hi : idle r') (h : Drops idle rs rs' qs) : Drops idle (r :: rs) (r' :: rs') qs

/-- not loaded, or of a degree that is not greater than 0 -/
def Rule.Idle (r : Rule S) : Prop := ¬ (r.isLoaded = true ∧ Op.isGt r.degree (lit 0) = true)

/-- triggering a rule keeps its degree -/
theorem Rule.trigger_same (r : Rule S) (w : World S) (imp : Option (TNorm S)) :
    (r.trigger w imp).2.1.isLoaded = r.isLoaded ∧ (r.trigger w imp).2.1.degree = r.degree := by
  unfold Rule.trigger
  split
  · exact ⟨rfl, rfl⟩
  · split
    · cases modify w r.degree imp r.conclusions with
      | mk w2 e2 => cases e2 <;> exact ⟨rfl, rfl⟩
    · exact ⟨rfl, rfl⟩

theorem Rule.trigger_idle (r : Rule S) (w : World S) (imp : Option (TNorm S)) (hl : r.isLoaded = true) (hi : r.Idle) :
    r.trigger w imp = (w, r, none) := by
  have hg : Op.isGt r.degree (lit 0) = false := by
    cases h : Op.isGt r.degree (lit 0) with
    | false => rfl
    | true => exact absurd ⟨hl, h⟩ hi
  unfold Rule.trigger
  simp [hl, hg]

namespace Drops

omit [Scalar S] in
theorem append {idle : Rule S → Prop} {rs rs' qs ts ts' us : List (Rule S)} (h : Drops idle rs rs' qs) (h' : Drops idle ts ts' us) :
    Drops idle (rs ++ ts) (rs' ++ ts') (qs ++ us) := by
  induction h with
  | nil => exact h'
  | keep r r' _ ih => exact .keep r r' ih
  | drop r hi _ ih => exact .drop r hi ih

omit [Scalar S] in
theorem reverse {idle : Rule S → Prop} {rs rs' qs : List (Rule S)} (h : Drops idle rs rs' qs) :
    Drops idle rs.reverse rs'.reverse qs.reverse := by
  induction h with
  | nil => exact .nil
  | keep r r' _ ih =>
    simp only [List.reverse_cons]
    exact ih.append (.keep r r' .nil)
  | drop r hi _ ih =>
    simp only [List.reverse_cons]
    have := ih.append (.drop r hi .nil)
    rwa [List.append_nil] at this

omit [Scalar S] in
theorem sub {idle : Rule S → Prop} {rs rs' qs : List (Rule S)} (h : Drops idle rs rs' qs) : ∀ r ∈ qs, r ∈ rs := by
  induction h with
  | nil => simp
  | keep r r' _ ih =>
    intro q hq
    rcases List.mem_cons.1 hq with rfl | hq
    · exact List.mem_cons_self
    · exact List.mem_cons_of_mem _ (ih q hq)
  | drop r hi _ ih => exact fun q hq => List.mem_cons_of_mem _ (ih q hq)

omit [Scalar S] in
theorem imp {idle idle' : Rule S → Prop} {rs rs' rs'' qs : List (Rule S)} (h : Drops idle rs rs' qs)
    (hf : List.Forall₂ (fun r' r'' => idle r' → idle' r'') rs' rs'') : Drops idle' rs rs'' qs := by
  induction h generalizing rs'' with
  | nil => cases hf; exact .nil
  | keep r r' _ ih =>
    cases hf with
    | cons _ hf => exact .keep r _ (ih hf)
  | drop r hi _ ih =>
    cases hf with
    | cons h1 hf => exact .drop r (h1 hi) (ih hf)

end Drops

namespace RuleBlock

omit [Scalar S] in
/-- a loop in which the steps for the deleted rules do not matter to those after them -/
theorem eachRule_drops {σ : Type} (R : σ → σ → Prop) {idle : Rule S → Prop} (f : σ → Rule S → σ × Rule S × Option Err)
    (hR : ∀ s t r, R s t → R (f s r).1 (f t r).1 ∧ (f t r).2 = (f s r).2)
    (hidle : ∀ s t r s' r', R s t → f s r = (s', r', none) → idle r' → R s' t)
    {rs rs' qs : List (Rule S)} (hd : Drops idle rs rs' qs) (s t s' : σ) (hst : R s t) (h : eachRule f s rs = (s', rs', none)) :
    ∃ t' qs', R s' t' ∧ eachRule f t qs = (t', qs', none) := by
  induction hd generalizing s t with
  | nil =>
    simp only [eachRule, Prod.mk.injEq] at h
    exact ⟨t, [], h.1 ▸ hst, rfl⟩
  | @keep r r' rs rs' qs _ ih =>
    simp only [eachRule] at h
    obtain ⟨h1, h2⟩ := hR s t r hst
    cases hf : f s r with
    | mk s1 q =>
      obtain ⟨r1, e1⟩ := q
      cases hg : f t r with
      | mk t1 q' =>
        rw [hf, hg] at h1 h2
        simp only at h1 h2
        subst h2
        rw [hf] at h
        cases e1 with
        | some e => simp at h
        | none =>
          simp only [Prod.mk.injEq, List.cons.injEq] at h
          obtain ⟨h3, ⟨-, h4⟩, h5⟩ := h
          obtain ⟨t', qs', h6, h7⟩ := ih s1 t1 h1 (by rw [← h3, ← h4, ← h5])
          exact ⟨t', r1 :: qs', h6, by simp only [eachRule, hg, h7]⟩
  | @drop r r' rs rs' qs hi _ ih =>
    simp only [eachRule] at h
    cases hf : f s r with
    | mk s1 q =>
      obtain ⟨r1, e1⟩ := q
      rw [hf] at h
      cases e1 with
      | some e => simp at h
      | none =>
        simp only [Prod.mk.injEq, List.cons.injEq] at h
        obtain ⟨h3, ⟨h4, h5⟩, h6⟩ := h
        exact ih s1 t (hidle s t r s1 r1 hst hf (by rw [h4]; exact hi)) (by rw [← h3, ← h5, ← h6])

/-- a step that leaves an idle rule leaves the variables as they are; it counts only rules chosen by their degree -/
theorem selectStep_idle (b : RuleBlock S) (choose : Nat → S → Bool) (s s' : World S × Nat) (r r' : Rule S)
    (h : b.selectStep choose s r = (s', r', none)) (hi : r'.Idle) :
    s'.1 = s.1 ∧ ((∀ k d, choose k d = true → Op.isGt d (lit 0) = true) → s' = s) := by
  unfold selectStep at h
  simp only at h
  split at h
  · simp only [Prod.mk.injEq] at h
    exact ⟨by rw [h.1], fun _ => h.1.symm⟩
  · rename_i hl
    have hl : r.deactivate.isLoaded = true := by simpa using hl
    cases ha : r.deactivate.activateWith s.1 b.conjunction b.disjunction with
    | mk r1 e1 =>
      rw [ha] at h
      cases e1 with
      | some e => simp at h
      | none =>
        have hl1 : r1.isLoaded = true := by
          unfold Rule.activateWith at ha
          rw [hl] at ha
          simp only [Bool.not_true, Bool.false_eq_true, if_false] at ha
          split at ha
          · simp at ha
          · split at ha
            · simp at ha
            · simp only [Prod.mk.injEq, and_true] at ha
              rw [← ha]; exact hl
        simp only at h
        split at h
        · rename_i hc
          cases ht : r1.trigger s.1 b.implication with
          | mk w2 q =>
            obtain ⟨r2, e2⟩ := q
            rw [ht] at h
            cases e2 with
            | some e => simp at h
            | none =>
              simp only [Prod.mk.injEq, and_true] at h
              have hk := Rule.trigger_same r1 s.1 b.implication
              rw [ht] at hk
              have hi1 : r1.Idle := by
                rw [← h.2] at hi
                exact fun hg => hi ⟨by rw [hk.1]; exact hg.1, by rw [hk.2]; exact hg.2⟩
              have := Rule.trigger_idle r1 s.1 b.implication hl1 hi1
              rw [ht] at this
              simp only [Prod.mk.injEq, and_true] at this
              exact ⟨by rw [← h.1]; exact this.1, fun hch => absurd ⟨hl1, hch _ _ hc⟩ hi1⟩
        · simp only [Prod.mk.injEq, and_true] at h
          exact ⟨by rw [h.1], fun _ => h.1.symm⟩

/-- what is chosen regardless of the number of rules before does not depend on it -/
theorem selectStep_count (b : RuleBlock S) (choose : S → Bool) (w : World S) (k j : Nat) (r : Rule S) :
    (b.selectStep (fun _ => choose) (w, j) r).1.1 = (b.selectStep (fun _ => choose) (w, k) r).1.1 ∧
      (b.selectStep (fun _ => choose) (w, j) r).2 = (b.selectStep (fun _ => choose) (w, k) r).2 := by
  unfold selectStep
  simp only
  split
  · exact ⟨rfl, rfl⟩
  · cases r.deactivate.activateWith w b.conjunction b.disjunction with
    | mk r1 e1 =>
      cases e1 with
      | some e => exact ⟨rfl, rfl⟩
      | none =>
        simp only
        split
        · cases r1.trigger w b.implication with
          | mk w2 q =>
            obtain ⟨r2, e2⟩ := q
            cases e2 <;> exact ⟨rfl, rfl⟩
        · exact ⟨rfl, rfl⟩

theorem select_drops (b : RuleBlock S) (choose : S → Bool) (w : World S) {rs rs' qs : List (Rule S)} (hd : Drops Rule.Idle rs rs' qs)
    (s' : World S × Nat) (h : eachRule (b.selectStep fun _ => choose) (w, 0) rs = (s', rs', none)) :
    ∃ k qs', eachRule (b.selectStep fun _ => choose) (w, 0) qs = ((s'.1, k), qs', none) := by
  obtain ⟨t', qs', h1, h2⟩ := eachRule_drops (fun s t : World S × Nat => t.1 = s.1) (b.selectStep fun _ => choose) (by
    rintro ⟨w1, k⟩ ⟨w2, j⟩ r hst
    simp only at hst
    subst hst
    exact selectStep_count b choose w2 k j r) (by
    intro s t r s1 r1 hst hf hi
    rw [hst]
    exact (selectStep_idle b _ s s1 r r1 hf hi).1.symm) hd (w, 0) (w, 0) s' rfl h
  obtain ⟨w2, k⟩ := t'
  simp only at h1
  subst h1
  exact ⟨k, qs', h2⟩

theorem first_drops (b : RuleBlock S) (n : Int) (t : S) (w : World S) {rs rs' qs : List (Rule S)} (hd : Drops Rule.Idle rs rs' qs)
    (s' : World S × Nat) (h : eachRule (b.selectStep (firstChoice n t)) (w, 0) rs = (s', rs', none)) :
    ∃ qs', eachRule (b.selectStep (firstChoice n t)) (w, 0) qs = (s', qs', none) := by
  obtain ⟨t', qs', h1, h2⟩ := eachRule_drops (fun s t : World S × Nat => t = s) (b.selectStep (firstChoice n t)) (by
    intro s t r hst
    subst hst
    exact ⟨rfl, rfl⟩) (by
    intro s t r s1 r1 hst hf hi
    rw [hst]
    refine ((selectStep_idle b _ s s1 r r1 hf hi).2 fun k d hc => ?_).symm
    simp only [firstChoice, Bool.and_eq_true] at hc
    exact hc.1.2) hd (w, 0) (w, 0) s' rfl h
  subst h1
  exact ⟨qs', h2⟩

/-- the loop that computes the degrees changes no variables -/
theorem degrees_map (b : RuleBlock S) (w w' : World S) (rs rs' : List (Rule S)) (h : eachRule b.degreeStep w rs = (w', rs', none)) :
    w' = w ∧ rs' = rs.map (fun r => (b.degreeStep w r).2.1) ∧ ∀ r ∈ rs, (b.degreeStep w r).2.2 = none := by
  have hw : ∀ r, (b.degreeStep w r).1 = w := by
    intro r
    unfold degreeStep
    simp only
    split <;> rfl
  induction rs generalizing rs' with
  | nil =>
    simp only [eachRule, Prod.mk.injEq] at h
    exact ⟨h.1.symm, h.2.1.symm, by simp⟩
  | cons r rs ih =>
    simp only [eachRule] at h
    have hr := hw r
    cases hd : b.degreeStep w r with
    | mk w1 q =>
      obtain ⟨r1, e1⟩ := q
      rw [hd] at h hr
      simp only at hr
      subst hr
      cases e1 with
      | some e => simp at h
      | none =>
        simp only [Prod.mk.injEq] at h
        obtain ⟨h1, h2, h3⟩ := h
        obtain ⟨h4, h5, h6⟩ := ih (eachRule b.degreeStep w1 rs).2.1 (by rw [← h1, ← h3])
        refine ⟨h4, by rw [← h2, List.map_cons, hd, h5], fun q hq => ?_⟩
        rcases List.mem_cons.1 hq with rfl | hq
        · rw [hd]
        · exact h6 q hq

theorem map_degrees (b : RuleBlock S) (w : World S) (rs : List (Rule S)) (h : ∀ r ∈ rs, (b.degreeStep w r).2.2 = none) :
    eachRule b.degreeStep w rs = (w, rs.map (fun r => (b.degreeStep w r).2.1), none) := by
  have hw : ∀ r, (b.degreeStep w r).1 = w := by
    intro r
    unfold degreeStep
    simp only
    split <;> rfl
  induction rs with
  | nil => rfl
  | cons r rs ih =>
    have h1 := h r List.mem_cons_self
    have h2 := hw r
    have ih := ih fun q hq => h q (List.mem_cons_of_mem _ hq)
    cases hd : b.degreeStep w r with
    | mk w1 q =>
      obtain ⟨r1, e1⟩ := q
      rw [hd] at h1 h2
      simp only at h1 h2
      subst h1 h2
      simp only [eachRule, hd, ih, List.map_cons]

theorem candidates_cons (r : Rule S) (rs : List (Rule S)) :
    candidates (r :: rs) = (if r.isLoaded && Op.isGt r.degree (lit 0) then [(0, r.degree)] else []) ++
      (candidates rs).map fun p => (p.1 + 1, p.2) := by
  unfold candidates
  rw [List.length_cons, List.range_succ_eq_map, List.zip_cons_cons, List.filterMap_cons]
  have hz : (List.map Nat.succ (List.range rs.length)).zip rs = ((List.range rs.length).zip rs).map fun p => (p.1 + 1, p.2) := by
    rw [List.zip_map_left]; rfl
  rw [hz, List.filterMap_map, List.map_filterMap]
  have hf : ((fun p : Nat × Rule S => if p.2.isLoaded && Op.isGt p.2.degree (lit 0) then some (p.1, p.2.degree) else none) ∘
      fun p : Nat × Rule S => (p.1 + 1, p.2)) = fun p : Nat × Rule S =>
      (if p.2.isLoaded && Op.isGt p.2.degree (lit 0) then some (p.1, p.2.degree) else none).map fun p => (p.1 + 1, p.2) := by
    funext p
    simp only [Function.comp]
    split <;> rfl
  rw [hf]
  cases h : (r.isLoaded && Op.isGt r.degree (lit 0)) <;> simp

/-- where the rules that remain were, and which of them are candidates -/
theorem drops_index (g : Rule S → Rule S) {rs rs' qs : List (Rule S)} (h : Drops Rule.Idle rs rs' qs) (hg : rs' = rs.map g) :
    ∃ φ : Nat → Nat, Function.Injective φ ∧ (∀ j, j < qs.length → rs'[φ j]? = (qs.map g)[j]?) ∧
      candidates rs' = (candidates (qs.map g)).map fun p => (φ p.1, p.2) := by
  induction h with
  | nil => exact ⟨id, Function.injective_id, fun j hj => by simp at hj, rfl⟩
  | @keep r r' rs rs' qs _ ih =>
    simp only [List.map_cons, List.cons.injEq] at hg
    obtain ⟨φ, h1, h2, h3⟩ := ih hg.2
    refine ⟨fun j => match j with
      | 0 => 0
      | j + 1 => φ j + 1, ?_, ?_, ?_⟩
    · intro i j hij
      cases i <;> cases j <;> simp only [Nat.add_right_cancel_iff] at hij
      · rfl
      · omega
      · omega
      · rw [h1 hij]
    · intro j hj
      cases j with
      | zero => simp [hg.1]
      | succ j =>
        simp only [List.map_cons, List.getElem?_cons_succ]
        exact h2 j (by simpa using hj)
    · rw [List.map_cons, candidates_cons, candidates_cons, h3, hg.1]
      rw [List.map_append, List.map_map, List.map_map]
      congr 1
      split <;> rfl
  | @drop r r' rs rs' qs hi _ ih =>
    simp only [List.map_cons, List.cons.injEq] at hg
    obtain ⟨φ, h1, h2, h3⟩ := ih hg.2
    refine ⟨fun j => φ j + 1, fun i j hij => h1 (by simpa using hij), fun j hj => ?_, ?_⟩
    · simp only [List.getElem?_cons_succ]
      exact h2 j hj
    · rw [candidates_cons, h3, List.map_map]
      have : (r'.isLoaded && Op.isGt r'.degree (lit 0)) = false := by
        cases hb : (r'.isLoaded && Op.isGt r'.degree (lit 0)) with
        | false => rfl
        | true => exact absurd (by simpa [Bool.and_eq_true] using hb) hi
      simp only [this, Bool.false_eq_true, if_false, List.nil_append]
      rfl

/-- triggering the same rules at other places -/
theorem triggerAll_index (imp : Option (TNorm S)) (φ : Nat → Nat) (hφ : Function.Injective φ) (js : List Nat) (w : World S)
    (rs qs : List (Rule S)) (hj : ∀ j ∈ js, j < qs.length) (h : ∀ j, j < qs.length → rs[φ j]? = qs[j]?) :
    (triggerAll imp w qs js).1 = (triggerAll imp w rs (js.map φ)).1 ∧
      (triggerAll imp w qs js).2.2 = (triggerAll imp w rs (js.map φ)).2.2 := by
  induction js generalizing w rs qs with
  | nil => exact ⟨rfl, rfl⟩
  | cons j js ih =>
    have hlt := hj j List.mem_cons_self
    have hq : qs[j]? = some qs[j] := List.getElem?_eq_getElem hlt
    have hr := h j hlt
    rw [hq] at hr
    simp only [List.map_cons, triggerAll, hq, hr]
    cases ht : qs[j].trigger w imp with
    | mk w1 q =>
      obtain ⟨r1, e1⟩ := q
      cases e1 with
      | some e => exact ⟨rfl, rfl⟩
      | none =>
        simp only
        refine ih w1 (rs.set (φ j) r1) (qs.set j r1) (fun i hi => by simpa using hj i (List.mem_cons_of_mem _ hi)) fun i hi => ?_
        have hi : i < qs.length := by simpa using hi
        by_cases hij : j = i
        · subst hij
          have hlt' : φ j < rs.length := by
            by_contra hc
            rw [List.getElem?_eq_none (by omega)] at hr
            simp at hr
          rw [List.getElem?_set_self hlt', List.getElem?_set_self hlt]
        · rw [List.getElem?_set_ne (fun hc => hij (hφ hc)), List.getElem?_set_ne hij]
          exact h i hi

/-- triggering rules keeps their degrees -/
theorem triggerAll_degrees (imp : Option (TNorm S)) (is : List Nat) (w : World S) (rs : List (Rule S)) :
    ((triggerAll imp w rs is).2.1.map fun r => (r.isLoaded, r.degree)) = rs.map fun r => (r.isLoaded, r.degree) := by
  induction is generalizing w rs with
  | nil => rfl
  | cons i is ih =>
    simp only [triggerAll]
    cases hr : rs[i]? with
    | none => rfl
    | some r =>
      simp only
      have hk := Rule.trigger_same r w imp
      have hset : ∀ r' : Rule S, r'.isLoaded = r.isLoaded ∧ r'.degree = r.degree →
          ((rs.set i r').map fun r => (r.isLoaded, r.degree)) = rs.map fun r => (r.isLoaded, r.degree) := by
        intro r' h
        rw [List.map_set, h.1, h.2]
        apply List.ext_getElem?
        intro j
        by_cases hij : i = j
        · subst hij
          obtain ⟨hlt, he⟩ := List.getElem?_eq_some_iff.1 hr
          rw [List.getElem?_set_self (by simpa using hlt), List.getElem?_map, hr]
          rfl
        · rw [List.getElem?_set_ne hij]
      cases ht : r.trigger w imp with
      | mk w1 q =>
        obtain ⟨r1, e1⟩ := q
        rw [ht] at hk
        cases e1 with
        | some e => exact hset r1 hk
        | none => exact (ih w1 _).trans (hset r1 hk)

theorem ordered_drops [Heap S] (b c : RuleBlock S) (less : S → S → Bool) (n : Int) (w w' : World S) {rs' : List (Rule S)}
    (hc : c = { b with rules := c.rules }) (h : b.activateOrdered less n w = (w', rs', none)) (hd : Drops Rule.Idle b.rules rs' c.rules) :
    ∃ qs', c.activateOrdered less n w = (w', qs', none) := by
  have hstep : c.degreeStep = b.degreeStep := by rw [hc]; rfl
  have himp : c.implication = b.implication := by rw [hc]
  unfold activateOrdered at h ⊢
  cases he : eachRule b.degreeStep w b.rules with
  | mk w1 q =>
    obtain ⟨rs1, e1⟩ := q
    rw [he] at h
    cases e1 with
    | some e => simp at h
    | none =>
      simp only at h
      obtain ⟨h1, h2, h3⟩ := degrees_map b w w1 b.rules rs1 he
      subst h1
      have hd1 : Drops Rule.Idle b.rules rs1 c.rules := by
        refine hd.imp ?_
        have hk := triggerAll_degrees b.implication (List.take n.toNat (List.filterMap (fun i => Option.map Prod.fst (candidates rs1)[i]?)
          (Heap.pops less (List.map Prod.snd (candidates rs1))))) w1 rs1
        rw [h] at hk
        simp only at hk
        rw [← List.forall₂_eq_eq_eq, List.forall₂_map_left_iff, List.forall₂_map_right_iff] at hk
        refine hk.imp fun r r' hr hi hg => hi ?_
        simp only [Prod.mk.injEq] at hr
        rw [hr.1, hr.2]; exact hg
      obtain ⟨φ, i1, i2, i3⟩ := drops_index _ hd1 h2
      have hq := map_degrees b w1 c.rules fun r hr => h3 r (hd.sub r hr)
      rw [hstep, hq]
      simp only
      rw [himp]
      generalize hqs : c.rules.map (fun r => (b.degreeStep w1 r).2.1) = qs1 at i2 i3 ⊢
      have hlen : qs1.length = c.rules.length := by rw [← hqs]; simp
      have hkeys : (candidates rs1).map Prod.snd = (candidates qs1).map Prod.snd := by
        rw [i3, List.map_map]; rfl
      rw [hkeys] at h
      have hord : (Heap.pops less ((candidates qs1).map Prod.snd)).filterMap (fun i => (candidates rs1)[i]?.map Prod.fst) =
          ((Heap.pops less ((candidates qs1).map Prod.snd)).filterMap fun i => (candidates qs1)[i]?.map Prod.fst).map φ := by
        rw [List.map_filterMap, i3]
        congr 1
        funext i
        simp only [List.getElem?_map, Option.map_map]
        rfl
      rw [hord, ← List.map_take] at h
      have hmain := triggerAll_index b.implication φ i1 (((Heap.pops less ((candidates qs1).map Prod.snd)).filterMap fun i =>
        (candidates qs1)[i]?.map Prod.fst).take n.toNat) w1 rs1 qs1 (by
          intro j hj
          obtain ⟨i, -, hi⟩ := List.mem_filterMap.1 (List.mem_of_mem_take hj)
          obtain ⟨p, hp, rfl⟩ := Option.map_eq_some_iff.1 hi
          obtain ⟨r, hr, -⟩ := (mem_candidates qs1 p.1 p.2).1 (List.mem_of_getElem? hp)
          exact (List.getElem?_eq_some_iff.1 hr).1) (fun j hj => i2 j (by rw [← hlen]; exact hj))
      rw [h] at hmain
      simp only at hmain
      exact ⟨(triggerAll b.implication w1 qs1 (((Heap.pops less ((candidates qs1).map Prod.snd)).filterMap fun i =>
        (candidates qs1)[i]?.map Prod.fst).take n.toNat)).2.1, Prod.ext hmain.1 (Prod.ext rfl hmain.2)⟩

/-- **C98, one block (partial: methods other than Proportional).**  If a rule block is activated without exception, so is the block without rules that
were not active, and the variables are the same afterwards. -/
theorem activate_idle_partial [Heap S] (b c : RuleBlock S) (w : World S) (hc : c = { b with rules := c.rules })
    (hm : b.activation ≠ some .proportional) (h : (b.activate w).2.2 = none) (hd : Drops Rule.Idle b.rules (b.activate w).2.1.rules c.rules) :
    ∃ c', c.activate w = ((b.activate w).1, c', none) := by
  have hact : c.activation = b.activation := by rw [hc]
  have hsel : ∀ choose : Nat → S → Bool, c.selectStep choose = b.selectStep choose := by
    intro choose; rw [hc]; rfl
  unfold activate at h hd ⊢
  rw [hact]
  have hm' : b.activation.getD .general ≠ .proportional := by
    cases ha : b.activation with
    | none => simp
    | some m => rw [ha] at hm; simpa using hm
  generalize b.activation.getD .general = m at h hd hm' ⊢
  simp only at h hd ⊢
  cases m with
  | proportional => exact absurd rfl hm'
  | general =>
    simp only [activateBy, activateGeneral] at h hd ⊢
    cases he : eachRule (b.selectStep fun _ _ => true) (w, 0) b.rules with
    | mk s q =>
      obtain ⟨rs, e⟩ := q
      rw [he] at h hd
      simp only at h hd
      subst h
      obtain ⟨k, qs', hq⟩ := select_drops b (fun _ => true) w hd s he
      rw [hsel, hq]
      exact ⟨_, rfl⟩
  | threshold o v =>
    simp only [activateBy, activateThreshold] at h hd ⊢
    cases he : eachRule (b.selectStep fun _ d => o.activates d v) (w, 0) b.rules with
    | mk s q =>
      obtain ⟨rs, e⟩ := q
      rw [he] at h hd
      simp only at h hd
      subst h
      obtain ⟨k, qs', hq⟩ := select_drops b (fun d => o.activates d v) w hd s he
      rw [hsel, hq]
      exact ⟨_, rfl⟩
  | first n t =>
    simp only [activateBy, activateFirst] at h hd ⊢
    cases he : eachRule (b.selectStep (firstChoice n t)) (w, 0) b.rules with
    | mk s q =>
      obtain ⟨rs, e⟩ := q
      rw [he] at h hd
      simp only at h hd
      subst h
      obtain ⟨qs', hq⟩ := first_drops b n t w hd s he
      rw [hsel, hq]
      exact ⟨_, rfl⟩
  | last n t =>
    simp only [activateBy, activateLast] at h hd ⊢
    cases he : eachRule (b.selectStep (firstChoice n t)) (w, 0) b.rules.reverse with
    | mk s q =>
      obtain ⟨rs, e⟩ := q
      rw [he] at h hd
      simp only at h hd
      subst h
      have hd' := hd.reverse
      rw [List.reverse_reverse] at hd'
      obtain ⟨qs', hq⟩ := first_drops b n t w hd' s he
      rw [hsel, hq]
      exact ⟨_, rfl⟩
  | highest n =>
    simp only [activateBy] at h hd ⊢
    cases he : b.activateOrdered (fun x y => lt x y) n w with
    | mk w' q =>
      obtain ⟨rs, e⟩ := q
      rw [he] at h hd
      simp only at h hd
      subst h
      obtain ⟨qs', hq⟩ := ordered_drops b c _ n w w' hc he hd
      rw [hq]
      exact ⟨_, rfl⟩
  | lowest n =>
    simp only [activateBy] at h hd ⊢
    cases he : b.activateOrdered (fun x y => lt y x) n w with
    | mk w' q =>
      obtain ⟨rs, e⟩ := q
      rw [he] at h hd
      simp only at h hd
      subst h
      obtain ⟨qs', hq⟩ := ordered_drops b c _ n w w' hc he hd
      rw [hq]
      exact ⟨_, rfl⟩

/-! ### Proportional -/

/-- not loaded, or of degree 0 -/
def Zero (r : Rule S) : Prop := r.isLoaded = true → r.degree = lit 0

theorem degreeSum_drops (h0 : ∀ s : S, s + lit 0 = s) (g : Rule S → Rule S) {rs rs' qs : List (Rule S)} (h : Drops Zero rs rs' qs)
    (hg : rs' = rs.map g) : degreeSum (qs.map g) = degreeSum rs' := by
  have key : ∀ z : S, ((qs.map g).filter Rule.isLoaded).foldl (fun s r => s + r.degree) z =
      (rs'.filter Rule.isLoaded).foldl (fun s r => s + r.degree) z := by
    induction h with
    | nil => intro z; rfl
    | @keep r r' rs rs' qs _ ih =>
      simp only [List.map_cons, List.cons.injEq] at hg
      have ih := ih hg.2
      intro z
      rw [List.map_cons, hg.1, List.filter_cons, List.filter_cons]
      split
      · rw [List.foldl_cons, List.foldl_cons, ih]
      · exact ih z
    | @drop r r' rs rs' qs hi _ ih =>
      simp only [List.map_cons, List.cons.injEq] at hg
      have ih := ih hg.2
      intro z
      rw [List.filter_cons]
      split
      · rename_i hl
        rw [List.foldl_cons, hi hl, h0, ih]
      · exact ih z
  exact key _

theorem proportional_drops (f : World S → Rule S → World S × Rule S × Option Err)
    (hf : ∀ w r, Zero r → (f w r).1 = w) (g : Rule S → Rule S) {rs rs' qs : List (Rule S)} (h : Drops Zero rs rs' qs)
    (hg : rs' = rs.map g) (w w' : World S) (fin : List (Rule S)) (he : eachRule f w rs' = (w', fin, none)) :
    ∃ fin', eachRule f w (qs.map g) = (w', fin', none) := by
  induction h generalizing w fin with
  | nil =>
    simp only [eachRule, Prod.mk.injEq] at he
    exact ⟨[], by rw [← he.1]; rfl⟩
  | @keep r r' rs rs' qs _ ih =>
    simp only [List.map_cons, List.cons.injEq] at hg
    simp only [eachRule] at he
    rw [List.map_cons, ← hg.1]
    cases hr : f w r' with
    | mk w1 q =>
      obtain ⟨r1, e1⟩ := q
      rw [hr] at he
      cases e1 with
      | some e => simp at he
      | none =>
        simp only [Prod.mk.injEq] at he
        obtain ⟨fin', h2⟩ := ih hg.2 w1 (eachRule f w1 rs').2.1 (by rw [← he.1, ← he.2.2])
        exact ⟨r1 :: fin', by simp only [eachRule, hr, h2]⟩
  | @drop r r' rs rs' qs hi _ ih =>
    simp only [List.map_cons, List.cons.injEq] at hg
    simp only [eachRule] at he
    have h1 := hf w r' hi
    cases hr : f w r' with
    | mk w1 q =>
      obtain ⟨r1, e1⟩ := q
      rw [hr] at he h1
      simp only at h1
      subst h1
      cases e1 with
      | some e => simp at he
      | none =>
        simp only [Prod.mk.injEq] at he
        exact ih hg.2 w1 (eachRule f w1 rs').2.1 (by rw [← he.1, ← he.2.2])

/-- **C98 for Proportional (partial: degrees equal to 0, numbers for which 0 is neutral).**  The hypotheses about numbers hold in exact arithmetic. -/
theorem proportional_idle_partial (h0 : ∀ s : S, s + lit 0 = s)
    (hz : ∀ s : S, Op.isGt (if Op.isNaN (lit 0 / s) then lit 0 else lit 0 / s) (lit 0) = false)
    (b c : RuleBlock S) (w : World S) (hc : c = { b with rules := c.rules })
    (h : (b.activateProportional w).2.2 = none) (hd : Drops Zero b.rules (eachRule b.degreeStep w b.rules).2.1 c.rules) :
    ∃ qs', c.activateProportional w = ((b.activateProportional w).1, qs', none) := by
  have hstep : c.degreeStep = b.degreeStep := by rw [hc]; rfl
  have hprop : c.proportionalStep = b.proportionalStep := by rw [hc]; rfl
  unfold activateProportional at h ⊢
  cases he : eachRule b.degreeStep w b.rules with
  | mk w1 q =>
    obtain ⟨rs1, e1⟩ := q
    rw [he] at h hd
    cases e1 with
    | some e => simp at h
    | none =>
      simp only at h hd ⊢
      obtain ⟨h1, h2, h3⟩ := degrees_map b w w1 b.rules rs1 he
      subst h1
      have hq := map_degrees b w1 c.rules fun r hr => h3 r (hd.sub r hr)
      rw [hstep, hprop, hq]
      simp only
      rw [degreeSum_drops h0 _ hd h2]
      cases hl : eachRule (b.proportionalStep (degreeSum rs1)) w1 rs1 with
      | mk w2 q =>
        obtain ⟨fin, e2⟩ := q
        rw [hl] at h
        simp only at h
        subst h
        refine proportional_drops _ (fun w r hr => ?_) _ hd h2 w1 w2 fin hl
        unfold proportionalStep
        cases hld : r.isLoaded with
        | false => simp
        | true =>
          simp only [Bool.not_true, Bool.false_eq_true, if_false]
          rw [Rule.trigger_idle]
          · exact hld
          · rintro ⟨-, hg⟩
            simp only [hr hld, hz] at hg
            simp at hg

end RuleBlock

namespace Engine

/-- The second list is what processing has made of the first; the rule blocks of the third lack some of the rules that have become idle. -/
inductive Dropped : List (RuleBlock S) → List (RuleBlock S) → List (RuleBlock S) → Prop
  | nil : Dropped [] [] []
  | cons {b b' c : RuleBlock S} {bs bs' cs : List (RuleBlock S)}
      (hc : c = b ∨ b.activation ≠ some .proportional ∧ c = { b with rules := c.rules } ∧ Drops Rule.Idle b.rules b'.rules c.rules)
      (h : Dropped bs bs' cs) : Dropped (b :: bs) (b' :: bs') (c :: cs)

theorem blocks_idle [Heap S] {bs bs' cs : List (RuleBlock S)} (hd : Dropped bs bs' cs) (w w' : World S)
    (h : activateBlocks w bs = (w', bs', none)) : ∃ cs', activateBlocks w cs = (w', cs', none) := by
  induction hd generalizing w with
  | nil => exact ⟨[], h⟩
  | @cons b b' c bs bs' cs hc _ ih =>
    have hen : c.enabled = b.enabled := by
      rcases hc with rfl | ⟨-, hc, -⟩
      · rfl
      · rw [hc]
    cases hb : b.enabled with
    | false =>
      rw [hb] at hen
      simp only [activateBlocks, hb, hen, Bool.not_false, if_true, Prod.mk.injEq, List.cons.injEq] at h ⊢
      obtain ⟨h1, ⟨-, h2⟩, h3⟩ := h
      obtain ⟨cs', h4⟩ := ih w (by rw [← h1, ← h2, ← h3])
      rw [h4]
      exact ⟨_, rfl, rfl, rfl⟩
    | true =>
      rw [hb] at hen
      simp only [activateBlocks, hb, hen, Bool.not_true, Bool.false_eq_true, if_false] at h ⊢
      cases ha : b.activate w with
      | mk w1 q =>
        obtain ⟨b1, e1⟩ := q
        rw [ha] at h
        cases e1 with
        | some e => simp at h
        | none =>
          simp only [Prod.mk.injEq, List.cons.injEq] at h
          obtain ⟨h1, ⟨h2, h3⟩, h4⟩ := h
          obtain ⟨cs', h5⟩ := ih w1 (by rw [← h1, ← h3, ← h4])
          obtain ⟨c', hca⟩ : ∃ c', c.activate w = (w1, c', none) := by
            rcases hc with rfl | ⟨hm, hc, hdr⟩
            · exact ⟨b1, ha⟩
            · have := RuleBlock.activate_idle_partial b c w hc hm (by rw [ha]) (by rw [ha, h2]; exact hdr)
              rw [ha] at this
              exact this
          rw [hca]
          simp only [h5]
          exact ⟨_, rfl⟩

/-- **C98 (partial: rule blocks with methods other than Proportional).**  If an engine is processed without exception, so is one without rules
that were not loaded or whose degree was not greater than 0, and all output variables are the same afterwards, with their fuzzy outputs. -/
theorem process_idle_partial [Heap S] (e : Engine S) (cs : List (RuleBlock S)) (hok : e.process.2 = none)
    (h : Dropped e.blocks e.process.1.blocks cs) :
    ({ e with blocks := cs }).process.2 = none ∧ ({ e with blocks := cs }).process.1.outputs = e.process.1.outputs := by
  unfold process at hok h ⊢
  simp only at hok h ⊢
  generalize (⟨e.inputs, e.outputs.map fun o => { o with fuzzy := o.fuzzy.clear }⟩ : World S) = w at hok h ⊢
  cases hb : activateBlocks w e.blocks with
  | mk w' q =>
    obtain ⟨bs', e1⟩ := q
    rw [hb] at hok h
    cases e1 with
    | some e => simp at hok
    | none =>
      simp only at hok h
      obtain ⟨cs', hcs⟩ := blocks_idle h w w' hb
      rw [hcs]
      exact ⟨hok, rfl⟩

end Engine
end idle

section real
open Ext
variable [Tol ℝ]

/-- **C98 for Proportional in exact arithmetic (partial: degrees equal to 0).** -/
theorem RuleBlock.proportional_real_partial (b c : RuleBlock (Ext ℝ)) (w : World (Ext ℝ)) (hc : c = { b with rules := c.rules })
    (h : (b.activateProportional w).2.2 = none) (hd : Drops Zero b.rules (eachRule b.degreeStep w b.rules).2.1 c.rules) :
    ∃ qs', c.activateProportional w = ((b.activateProportional w).1, qs', none) := by
  refine proportional_idle_partial (fun s => ?_) (fun s => ?_) b c w hc h hd
  · cases s <;> simp [ofRat_def]
  · cases s with
    | fin x =>
      by_cases hx : x = 0
      · subst hx; simp [ofRat_def, tol_pos]
      · have hd0 : (lit 0 : Ext ℝ) / fin x = fin 0 := by simp only [ofRat_def]; rw [div_fin _ _ hx]; simp
        rw [hd0]
        simp [ofRat_def, tol_pos]
    | _ => simp [ofRat_def, tol_pos]

end real
end FL

/-! ### examples -/

namespace FL.IdleRules
open Scalar FL.Rounded FL.Rounded.Demo

local instance : Heap (Flt dbl) := RuleBlock.stableHeap _

/-- x is 0, so that only the first rule is active -/
def quiet (m : Activation (Flt dbl)) (rules : List (Rule (Flt dbl))) : Engine (Flt dbl) :=
  ⟨[], [], [{ input with value := lit 0 }], [output], [{ block with
    activation := some m
    rules := rules }]⟩

/-- the theorem applies to it: the rule that is not active, and one that is not loaded, can be deleted -/
example : (quiet (.highest 1) [conclude [] 0 0]).process.2 = none ∧
    (quiet (.highest 1) [conclude [] 0 0]).process.1.outputs =
      (quiet (.highest 1) [conclude [] 1 1, conclude [] 0 0, Rule.new []]).process.1.outputs := by
  refine Engine.process_idle_partial (quiet (.highest 1) [conclude [] 1 1, conclude [] 0 0, Rule.new []])
    [{ block with
      activation := some (.highest 1)
      rules := [conclude [] 0 0] }] (by decide +kernel) ?_
  obtain ⟨b, hb⟩ : ∃ b, (quiet (.highest 1) [conclude [] 1 1, conclude [] 0 0, Rule.new []]).process.1.blocks = [b] :=
    List.length_eq_one_iff.1 (by decide +kernel)
  have hl : ((quiet (.highest 1) [conclude [] 1 1, conclude [] 0 0, Rule.new []]).process.1.blocks.map fun b => b.rules.map fun r =>
      (r.isLoaded && Op.isGt r.degree (lit 0))) = [[false, true, false]] := by decide +kernel
  rw [hb] at hl ⊢
  refine .cons (.inr ⟨by simp, rfl, ?_⟩) .nil
  simp only [List.map_cons, List.map_nil, List.cons.injEq, and_true] at hl
  generalize b.rules = rs at hl
  obtain ⟨r1, r2, r3, rfl⟩ := List.length_eq_three.1 (show rs.length = 3 by simpa using congrArg List.length hl)
  simp only [List.map_cons, List.map_nil, List.cons.injEq, and_true] at hl
  have hi : ∀ r : Rule (Flt dbl), (r.isLoaded && Op.isGt r.degree (lit 0)) = false → r.Idle := by
    intro r hr hg
    rw [hg.1, hg.2] at hr
    simp at hr
  exact .drop _ (hi _ hl.1) (.keep _ _ (.drop _ (hi _ hl.2.2) .nil))

/-- and this is what is computed: y is one -/
example : (quiet (.highest 1) [conclude [] 1 1, conclude [] 0 0, Rule.new []]).process.1.outputValues = [lit 1] ∧
    (quiet (.highest 1) [conclude [] 0 0]).process.1.outputValues = [lit 1] := by decide +kernel

/-- x is 1 and the value of z is not known -/
def partly (m : Activation (Flt dbl)) (rules : List (Rule (Flt dbl))) : Engine (Flt dbl) :=
  ⟨[], [], [input, { input with
    name := cs! "z"
    value := nan }], [output], [{ block with
    activation := some m
    rules := rules }]⟩

/-- if z is low then y is four -/
def aboutZ : Rule (Flt dbl) :=
  { Rule.new [] with
    antecedent := some (.prop ⟨.input 1, [], some 0⟩)
    conclusions := [⟨.output 0, [], some 1⟩] }

/-- **C98 is violated by Proportional**: a rule whose degree is not a number is not active, but silences all other rules of its block.  With the
other methods it can be deleted. -/
theorem proportional_violated :
    (partly .proportional [conclude [] 0 0, aboutZ]).process.2 = none ∧
    ((partly .proportional [conclude [] 0 0, aboutZ]).process.1.outputs.map fun o => o.fuzzy.terms.length) = [0] ∧
    (partly .proportional [conclude [] 0 0]).process.1.outputValues = [lit 1] ∧
    (partly .proportional [conclude [] 0 0, aboutZ]).process.1.outputValues = [nan] ∧
    (partly .general [conclude [] 0 0, aboutZ]).process.1.outputValues = [lit 1] ∧
    ((partly .general [conclude [] 0 0, aboutZ]).process.1.blocks.map fun b => b.rules.map fun r => Op.isGt r.degree (lit 0)) =
      [[true, false]] := by decide +kernel

end FL.IdleRules
