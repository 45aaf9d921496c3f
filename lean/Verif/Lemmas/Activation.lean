/-
Loops over the rules of a block.
-/
import Verif.Model.Activation
import Verif.Props.Degree

namespace FL
open Scalar
variable {S : Type} [Scalar S]

/-- the consequents of the rules are applied in order, each with the degree of the rule -/
inductive Applies (implication : Option (TNorm S)) : World S → List (Rule S) → World S → Prop
  | nil (w : World S) : Applies implication w [] w
  | cons (w w1 w2 : World S) (r : Rule S) (rs : List (Rule S))
      (h : modify w r.degree implication r.conclusions = (w1, none)) (hs : Applies implication w1 rs w2) :
      Applies implication w (r :: rs) w2

/-- `r'` is the rule `r` after its degree has been computed in `w`: for a loaded rule, the weight times
the degree of the antecedent, and 0 otherwise -/
structure Evaluated (b : RuleBlock S) (w : World S) (r r' : Rule S) : Prop where
  same : r' = { r with degree := r'.degree, triggered := r'.triggered }
  unloaded : r.isLoaded = false → r'.degree = lit 0
  loaded : r.isLoaded = true → ∃ e d, r.antecedent = some e ∧ HasDegree w b.conjunction b.disjunction e d ∧
    r'.degree = r.weight * d

theorem Evaluated.isLoaded {b : RuleBlock S} {w : World S} {r r' : Rule S} (h : Evaluated b w r r') :
    r'.isLoaded = r.isLoaded := by rw [h.same]; rfl

theorem Evaluated.enabled {b : RuleBlock S} {w : World S} {r r' : Rule S} (h : Evaluated b w r r') :
    r'.enabled = r.enabled := by rw [h.same]

theorem activateWith_ok {w : World S} {c : Option (TNorm S)} {d : Option (SNorm S)} {r r' : Rule S}
    (h : r.activateWith w c d = (r', none)) : r.isLoaded = true ∧ ∃ e x, r.antecedent = some e ∧ HasDegree w c d e x ∧
      r' = { r with degree := r.weight * x } := by
  unfold Rule.activateWith at h
  cases hl : r.isLoaded with
  | false => simp [hl] at h
  | true =>
    refine ⟨rfl, ?_⟩
    simp only [hl, Bool.not_true, Bool.false_eq_true, if_false] at h
    cases ha : r.antecedent with
    | none => rw [ha] at h; simp at h
    | some e =>
      rw [ha] at h
      simp only at h
      cases he : e.degree w c d with
      | error e => rw [he] at h; simp at h
      | ok x =>
        rw [he] at h
        simp only [Prod.mk.injEq, and_true] at h
        exact ⟨e, x, rfl, (Expr.degree_iff w c d e x).1 he, h.symm⟩

theorem trigger_ok {w w' : World S} {imp : Option (TNorm S)} {r r' : Rule S}
    (h : r.trigger w imp = (w', r', none)) : r.isLoaded = true ∧
      ((r.enabled = true ∧ Op.isGt r.degree (lit 0) = true ∧ modify w r.degree imp r.conclusions = (w', none) ∧
          r' = { r with triggered := true }) ∨
        (¬ (r.enabled = true ∧ Op.isGt r.degree (lit 0) = true) ∧ w' = w ∧ r' = r)) := by
  unfold Rule.trigger at h
  cases hl : r.isLoaded with
  | false => simp [hl] at h
  | true =>
    refine ⟨rfl, ?_⟩
    simp only [hl, Bool.not_true, Bool.false_eq_true, if_false] at h
    by_cases hc : (r.enabled && Op.isGt r.degree (lit 0)) = true
    · rw [if_pos hc] at h
      rw [Bool.and_eq_true] at hc
      left
      refine ⟨hc.1, hc.2, ?_⟩
      cases hm : modify w r.degree imp r.conclusions with
      | mk w1 e =>
        rw [hm] at h
        cases e with
        | some e => simp at h
        | none =>
          simp only [Prod.mk.injEq, and_true] at h
          exact ⟨by rw [h.1], h.2.symm⟩
    · rw [if_neg hc] at h
      rw [Bool.and_eq_true] at hc
      simp only [Prod.mk.injEq, and_true] at h
      exact Or.inr ⟨hc, h.1.symm, h.2.symm⟩

namespace RuleBlock

/-- the number of rules chosen, counting from `k` -/
def counter (choose : Nat → S → Bool) (k : Nat) (rs : List (Rule S)) : Nat :=
  rs.foldl (fun k r => if r.isLoaded && choose k r.degree then k + 1 else k) k

/-- a sequential activation method that raises no exception -/
inductive Run (b : RuleBlock S) (choose : Nat → S → Bool) :
    World S → Nat → List (Rule S) → World S → List (Rule S) → Prop
  | nil (w : World S) (k : Nat) : Run b choose w k [] w []
  | quiet (w w' : World S) (k : Nat) (r r' : Rule S) (rs rs' : List (Rule S)) (he : Evaluated b w r r')
      (ht : r'.triggered = false)
      (hn : ¬ (r'.isLoaded = true ∧ r'.enabled = true ∧ Op.isGt r'.degree (lit 0) = true ∧ choose k r'.degree = true))
      (h : Run b choose w (if r'.isLoaded && choose k r'.degree then k + 1 else k) rs w' rs') :
      Run b choose w k (r :: rs) w' (r' :: rs')
  | fires (w w1 w' : World S) (k : Nat) (r r' : Rule S) (rs rs' : List (Rule S)) (he : Evaluated b w r r')
      (ht : r'.triggered = true)
      (hc : r'.isLoaded = true ∧ r'.enabled = true ∧ Op.isGt r'.degree (lit 0) = true ∧ choose k r'.degree = true)
      (hm : modify w r'.degree b.implication r'.conclusions = (w1, none))
      (h : Run b choose w1 (if r'.isLoaded && choose k r'.degree then k + 1 else k) rs w' rs') :
      Run b choose w k (r :: rs) w' (r' :: rs')

theorem run_of_select {b : RuleBlock S} {choose : Nat → S → Bool} {rs : List (Rule S)} {w : World S} {k : Nat}
    {s : World S × Nat} {rs' : List (Rule S)}
    (h : eachRule (b.selectStep choose) (w, k) rs = (s, rs', none)) : Run b choose w k rs s.1 rs' := by
  induction rs generalizing w k rs' with
  | nil =>
    simp only [eachRule, Prod.mk.injEq, and_true] at h
    obtain ⟨rfl, rfl⟩ := h
    exact .nil w k
  | cons r rs ih =>
    simp only [eachRule] at h
    cases hf : b.selectStep choose (w, k) r with
    | mk s1 p =>
      obtain ⟨r1, e1⟩ := p
      rw [hf] at h
      cases e1 with
      | some e => simp at h
      | none =>
        simp only at h
        cases hs : eachRule (b.selectStep choose) s1 rs with
        | mk s2 p =>
          obtain ⟨rs2, e2⟩ := p
          rw [hs] at h
          simp only [Prod.mk.injEq] at h
          obtain ⟨rfl, rfl, rfl⟩ := h
          obtain ⟨w1, k1⟩ := s1
          have hrec := ih hs
          unfold selectStep at hf
          simp only at hf
          cases hl : r.deactivate.isLoaded with
          | false =>
            simp only [hl, Bool.not_false, if_true, Prod.mk.injEq, and_true] at hf
            obtain ⟨⟨rfl, rfl⟩, rfl⟩ := hf
            refine .quiet w _ k r _ rs _ ⟨rfl, fun _ => rfl, fun h => ?_⟩ rfl (by simp [hl]) ?_
            · have : r.isLoaded = r.deactivate.isLoaded := rfl
              rw [this, hl] at h; cases h
            · simpa [hl] using hrec
          | true =>
            simp only [hl, Bool.not_true, Bool.false_eq_true, if_false] at hf
            cases ha : r.deactivate.activateWith w b.conjunction b.disjunction with
            | mk r2 e2 =>
              rw [ha] at hf
              cases e2 with
              | some e => simp at hf
              | none =>
                obtain ⟨_, e, x, hre, hx, hr2⟩ := activateWith_ok ha
                have hl' : r.isLoaded = true := hl
                have hl2 : r2.isLoaded = true := by rw [hr2]; exact hl
                have hev : ∀ r3 : Rule S, r3 = { r2 with triggered := r3.triggered } → Evaluated b w r r3 := by
                  intro r3 h3
                  refine ⟨?_, fun h => (by rw [hl'] at h; cases h), fun _ => ⟨e, x, hre, hx, ?_⟩⟩
                  · rw [h3, hr2]; rfl
                  · rw [h3, hr2]; rfl
                simp only at hf
                by_cases hc : choose k r2.degree = true
                · rw [if_pos hc] at hf
                  cases ht : r2.trigger w b.implication with
                  | mk w3 p =>
                    obtain ⟨r3, e3⟩ := p
                    rw [ht] at hf
                    cases e3 with
                    | some e => simp at hf
                    | none =>
                      simp only [Prod.mk.injEq, and_true] at hf
                      obtain ⟨⟨rfl, rfl⟩, rfl⟩ := hf
                      rcases (trigger_ok ht).2 with ⟨h1, h2, h3, rfl⟩ | ⟨h1, rfl, rfl⟩
                      · refine .fires w w3 _ k r _ rs _ (hev _ rfl) rfl ⟨hl2, h1, h2, hc⟩ h3 ?_
                        have : ({ r2 with triggered := true } : Rule S).isLoaded = true := hl2
                        simpa [this, hc] using hrec
                      · refine .quiet _ _ k r _ rs _ (hev _ rfl) ?_ (fun h => h1 ⟨h.2.1, h.2.2.1⟩) ?_
                        · rw [hr2]; rfl
                        · simpa [hl2, hc] using hrec
                · rw [if_neg hc] at hf
                  simp only [Prod.mk.injEq, and_true] at hf
                  obtain ⟨⟨rfl, rfl⟩, rfl⟩ := hf
                  refine .quiet _ _ k r _ rs _ (hev _ rfl) ?_ (fun h => hc h.2.2.2) ?_
                  · rw [hr2]; rfl
                  · simpa [hc] using hrec

/-- the outcome of a sequential activation method -/
structure Selected (b : RuleBlock S) (choose : Nat → S → Bool) (w : World S) (k : Nat) (rs : List (Rule S))
    (w' : World S) (rs' : List (Rule S)) : Prop where
  length : rs'.length = rs.length
  applies : Applies b.implication w (rs'.filter Rule.triggered) w'
  each : ∀ (i : Nat) r, rs[i]? = some r → ∃ r' w0, rs'[i]? = some r' ∧
    Applies b.implication w ((rs'.take i).filter Rule.triggered) w0 ∧ Evaluated b w0 r r' ∧
    (r'.triggered = true ↔ r'.isLoaded = true ∧ r'.enabled = true ∧ Op.isGt r'.degree (lit 0) = true ∧
      choose (counter choose k (rs'.take i)) r'.degree = true)

theorem Run.selected {b : RuleBlock S} {choose : Nat → S → Bool} {rs rs' : List (Rule S)} {w w' : World S} {k : Nat}
    (h : Run b choose w k rs w' rs') : Selected b choose w k rs w' rs' := by
  induction h with
  | nil w k => exact ⟨rfl, .nil w, by simp⟩
  | quiet w w' k r r' rs rs' he ht hn _ ih =>
    refine ⟨by simp [ih.length], by simpa [ht] using ih.applies, fun i q hq => ?_⟩
    cases i with
    | zero =>
      simp only [List.getElem?_cons_zero, Option.some.injEq] at hq
      subst hq
      refine ⟨r', w, rfl, .nil w, he, ?_⟩
      rw [ht]
      constructor
      · intro h; cases h
      · intro h; exact absurd h hn
    | succ i =>
      obtain ⟨q', w0, h1, h2, h3, h4⟩ := ih.each i q (by simpa using hq)
      refine ⟨q', w0, by simpa using h1, by simpa [ht] using h2, h3, ?_⟩
      rw [h4]
      rfl
  | fires w w1 w' k r r' rs rs' he ht hc hm _ ih =>
    refine ⟨by simp [ih.length], by simpa [ht] using .cons _ _ _ _ _ hm ih.applies, fun i q hq => ?_⟩
    cases i with
    | zero =>
      simp only [List.getElem?_cons_zero, Option.some.injEq] at hq
      subst hq
      refine ⟨r', w, rfl, .nil w, he, ?_⟩
      rw [ht]
      exact ⟨fun _ => hc, fun _ => rfl⟩
    | succ i =>
      obtain ⟨q', w0, h1, h2, h3, h4⟩ := ih.each i q (by simpa using hq)
      refine ⟨q', w0, by simpa using h1, by simpa [ht] using .cons _ _ _ _ _ hm h2, h3, ?_⟩
      rw [h4]
      rfl

/-- rules evaluated one after the other in the same variables -/
theorem degrees_ok {b : RuleBlock S} {w w' : World S} {rs rs' : List (Rule S)}
    (h : eachRule b.degreeStep w rs = (w', rs', none)) :
    w' = w ∧ rs'.length = rs.length ∧ ∀ (i : Nat) r, rs[i]? = some r → ∃ r', rs'[i]? = some r' ∧ Evaluated b w r r' ∧
      r'.triggered = false := by
  induction rs generalizing w rs' with
  | nil =>
    simp only [eachRule, Prod.mk.injEq, and_true] at h
    obtain ⟨rfl, rfl⟩ := h
    simp
  | cons r rs ih =>
    simp only [eachRule] at h
    cases hf : b.degreeStep w r with
    | mk w1 p =>
      obtain ⟨r1, e1⟩ := p
      rw [hf] at h
      cases e1 with
      | some e => simp at h
      | none =>
        simp only at h
        cases hs : eachRule b.degreeStep w1 rs with
        | mk s2 p =>
          obtain ⟨rs2, e2⟩ := p
          rw [hs] at h
          simp only [Prod.mk.injEq] at h
          obtain ⟨rfl, rfl, rfl⟩ := h
          have hone : w1 = w ∧ Evaluated b w r r1 ∧ r1.triggered = false := by
            unfold degreeStep at hf
            simp only at hf
            cases hl : r.deactivate.isLoaded with
            | false =>
              simp only [hl, Bool.not_false, if_true, Prod.mk.injEq, and_true] at hf
              obtain ⟨rfl, rfl⟩ := hf
              refine ⟨rfl, ⟨rfl, fun _ => rfl, fun h => ?_⟩, rfl⟩
              have : r.isLoaded = r.deactivate.isLoaded := rfl
              rw [this, hl] at h; cases h
            | true =>
              simp only [hl, Bool.not_true, Bool.false_eq_true, if_false] at hf
              cases ha : r.deactivate.activateWith w b.conjunction b.disjunction with
              | mk r2 e2 =>
                rw [ha] at hf
                simp only [Prod.mk.injEq] at hf
                obtain ⟨rfl, rfl, rfl⟩ := hf
                obtain ⟨_, e, x, hre, hx, hr2⟩ := activateWith_ok ha
                have hl' : r.isLoaded = true := hl
                refine ⟨rfl, ⟨?_, fun h => (by rw [hl'] at h; cases h), fun _ => ⟨e, x, hre, hx, ?_⟩⟩, ?_⟩
                · rw [hr2]; rfl
                · rw [hr2]; rfl
                · rw [hr2]; rfl
          obtain ⟨rfl, he, ht⟩ := hone
          obtain ⟨rfl, hlen, hall⟩ := ih hs
          refine ⟨rfl, by simp [hlen], fun i q hq => ?_⟩
          cases i with
          | zero =>
            simp only [List.getElem?_cons_zero, Option.some.injEq] at hq
            subst hq
            exact ⟨r1, rfl, he, ht⟩
          | succ i => simpa using hall i q (by simpa using hq)

/-- rules triggered by index -/
theorem triggerAll_ok {imp : Option (TNorm S)} {w w' : World S} {rs rs' : List (Rule S)} {is : List Nat}
    (hd : is.Nodup) (h : triggerAll imp w rs is = (w', rs', none)) :
    (∀ i ∈ is, i < rs.length) ∧ rs'.length = rs.length ∧
    (∀ (i : Nat) r, rs[i]? = some r → rs'[i]? = some
      (if i ∈ is ∧ r.enabled = true ∧ Op.isGt r.degree (lit 0) = true then { r with triggered := true } else r)) ∧
    Applies imp w ((is.filterMap fun i => rs[i]?).filter fun r => r.enabled && Op.isGt r.degree (lit 0)) w' := by
  induction is generalizing w rs with
  | nil =>
    simp only [triggerAll, Prod.mk.injEq, and_true] at h
    obtain ⟨rfl, rfl⟩ := h
    exact ⟨by simp, rfl, by simp, .nil w⟩
  | cons i is ih =>
    simp only [triggerAll] at h
    cases hi : rs[i]? with
    | none => rw [hi] at h; simp at h
    | some r =>
      rw [hi] at h
      obtain ⟨hlt, rfl⟩ := List.getElem?_eq_some_iff.1 hi
      simp only at h
      cases ht : Rule.trigger w imp rs[i] with
      | mk w1 p =>
        obtain ⟨r1, e1⟩ := p
        rw [ht] at h
        cases e1 with
        | some e => simp at h
        | none =>
          simp only at h
          have hni : i ∉ is := (List.nodup_cons.1 hd).1
          obtain ⟨h1, h2, h3, h4⟩ := ih (List.nodup_cons.1 hd).2 h
          rw [List.length_set] at h1 h2
          have hfm : (is.filterMap fun j => (rs.set i r1)[j]?) = is.filterMap fun j => rs[j]? := by
            apply List.filterMap_congr
            intro j hj
            rw [List.getElem?_set_ne (by rintro rfl; exact hni hj)]
          rw [hfm] at h4
          refine ⟨?_, h2, ?_, ?_⟩
          · intro j hj
            rcases List.mem_cons.1 hj with rfl | hj
            · exact hlt
            · exact h1 j hj
          · intro j q hq
            by_cases hji : j = i
            · subst hji
              rw [hi] at hq
              simp only [Option.some.injEq] at hq
              subst hq
              rw [h3 j r1 (by rw [List.getElem?_set_self hlt]), if_neg (fun h => hni h.1)]
              rcases (trigger_ok ht).2 with ⟨e1, e2, _, rfl⟩ | ⟨e1, _, rfl⟩
              · rw [if_pos ⟨by simp, e1, e2⟩]
              · rw [if_neg (fun h => e1 h.2)]
            · rw [h3 j q (by rw [List.getElem?_set_ne (Ne.symm hji)]; exact hq)]
              simp [hji]
          · rw [List.filterMap_cons_some hi]
            rcases (trigger_ok ht).2 with ⟨e1, e2, hm, rfl⟩ | ⟨e1, rfl, rfl⟩
            · rw [List.filter_cons_of_pos (by simp [e1, e2])]
              exact .cons _ _ _ _ _ hm h4
            · rw [List.filter_cons_of_neg (by simpa [Bool.and_eq_true] using e1)]
              exact h4

end RuleBlock
end FL
