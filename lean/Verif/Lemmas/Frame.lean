/-
What the activation of rules can change, whatever the activation method and the outcome.
-/
import Verif.Model.Engine

namespace FL
open Scalar
variable {S : Type} [Scalar S]

/-- `r'` is `r` with another degree and another mark -/
def Rule.Frame (r r' : Rule S) : Prop := r' = { r with degree := r'.degree, triggered := r'.triggered }

theorem Rule.Frame.refl (r : Rule S) : Rule.Frame r r := rfl

theorem Rule.Frame.trans {a b c : Rule S} (h : Rule.Frame a b) (h' : Rule.Frame b c) : Rule.Frame a c := by
  unfold Rule.Frame at *; rw [h', h]

theorem Rule.Frame.isLoaded {r r' : Rule S} (h : Rule.Frame r r') : r'.isLoaded = r.isLoaded := by rw [h]; rfl
theorem Rule.Frame.conclusions {r r' : Rule S} (h : Rule.Frame r r') : r'.conclusions = r.conclusions := by rw [h]
theorem Rule.Frame.antecedent {r r' : Rule S} (h : Rule.Frame r r') : r'.antecedent = r.antecedent := by rw [h]
theorem Rule.Frame.enabled {r r' : Rule S} (h : Rule.Frame r r') : r'.enabled = r.enabled := by rw [h]

theorem Rule.activateWith_frame (w : World S) (c : Option (TNorm S)) (d : Option (SNorm S)) (r : Rule S) :
    Rule.Frame r (r.activateWith w c d).1 ∧ (r.activateWith w c d).1.triggered = r.triggered := by
  unfold activateWith
  split
  · exact ⟨rfl, rfl⟩
  · split
    · exact ⟨rfl, rfl⟩
    · split <;> exact ⟨rfl, rfl⟩

theorem Rule.activateWith_error {w : World S} {c : Option (TNorm S)} {d : Option (SNorm S)} {r : Rule S} {err : Err}
    (h : (r.activateWith w c d).2 = some err) :
    err = .notLoaded ∨ ∃ a, r.antecedent = some a ∧ a.degree w c d = .error err := by
  unfold activateWith at h
  split at h
  · left; simpa using h.symm
  · split at h
    · left; simpa using h.symm
    · split at h
      · rename_i a ha _ e he
        right; exact ⟨a, ha, by simpa [he] using h⟩
      · simp at h

theorem Rule.trigger_frame (w : World S) (imp : Option (TNorm S)) (r : Rule S) :
    Rule.Frame r (r.trigger w imp).2.1 ∧
    (r.enabled = false → (r.trigger w imp).2.1 = r ∧ (r.trigger w imp).1 = w) ∧
    ((r.trigger w imp).1 = w ∨ (r.isLoaded = true ∧ (r.trigger w imp).1 = (modify w r.degree imp r.conclusions).1)) := by
  unfold trigger
  cases hl : r.isLoaded with
  | false => exact ⟨rfl, fun _ => ⟨rfl, rfl⟩, Or.inl rfl⟩
  | true =>
    simp only [Bool.not_true, Bool.false_eq_true, if_false]
    cases hc : (r.enabled && Op.isGt r.degree (lit 0)) with
    | false => exact ⟨rfl, fun _ => ⟨rfl, rfl⟩, Or.inl rfl⟩
    | true =>
      simp only [if_true]
      rw [Bool.and_eq_true] at hc
      cases hm : modify w r.degree imp r.conclusions with
      | mk w1 e =>
        cases e with
        | none => exact ⟨rfl, fun h => absurd hc.1 (by simp [h]), Or.inr ⟨trivial, rfl⟩⟩
        | some e => exact ⟨rfl, fun h => absurd hc.1 (by simp [h]), Or.inr ⟨trivial, rfl⟩⟩

theorem Rule.trigger_error {w : World S} {imp : Option (TNorm S)} {r : Rule S} {err : Err}
    (h : (r.trigger w imp).2.2 = some err) :
    err = .notLoaded ∨ (modify w r.degree imp r.conclusions).2 = some err := by
  unfold trigger at h
  split at h
  · left; simpa using h.symm
  · split at h
    · split at h
      · simp at h
      · rename_i hm
        right; rw [hm]; exact h
    · simp at h

namespace RuleBlock

section each
variable {σ : Type} {f : σ → Rule S → σ × Rule S × Option Err}

theorem eachRule_cons (s : σ) (r : Rule S) (rs : List (Rule S)) :
    eachRule f s (r :: rs) = match (f s r).2.2 with
      | some e => ((f s r).1, (f s r).2.1 :: rs, some e)
      | none => ((eachRule f (f s r).1 rs).1, (f s r).2.1 :: (eachRule f (f s r).1 rs).2.1, (eachRule f (f s r).1 rs).2.2) := by
  simp only [eachRule]
  cases f s r with
  | mk s' p => obtain ⟨r', e⟩ := p; cases e <;> rfl

/-- a reflexive and transitive relation kept by the body of a loop is kept by the loop -/
theorem eachRule_state (R : σ → σ → Prop) (hrefl : ∀ s, R s s) (htrans : ∀ a b c, R a b → R b c → R a c)
    (rs : List (Rule S)) (hf : ∀ s, ∀ r ∈ rs, R s (f s r).1) (s : σ) : R s (eachRule f s rs).1 := by
  induction rs generalizing s with
  | nil => exact hrefl s
  | cons r rs ih =>
    rw [eachRule_cons]
    have h1 := hf s r List.mem_cons_self
    have h2 := ih (fun s q hq => hf s q (List.mem_cons_of_mem _ hq)) (f s r).1
    split
    · exact h1
    · exact htrans _ _ _ h1 h2

/-- what the body of a loop makes of every rule -/
theorem eachRule_rules (T : Rule S → Rule S → Prop) (hrefl : ∀ r, T r r) (rs : List (Rule S))
    (hf : ∀ s, ∀ r ∈ rs, T r (f s r).2.1) (s : σ) : List.Forall₂ T rs (eachRule f s rs).2.1 := by
  induction rs generalizing s with
  | nil => exact .nil
  | cons r rs ih =>
    rw [eachRule_cons]
    have h1 := hf s r List.mem_cons_self
    have h2 := ih (fun s q hq => hf s q (List.mem_cons_of_mem _ hq)) (f s r).1
    split
    · exact .cons h1 (List.forall₂_same.2 fun x _ => hrefl x)
    · exact .cons h1 h2

/-- the same for loops that complete -/
theorem eachRule_rules_ok (T : Rule S → Rule S → Prop) (rs : List (Rule S))
    (hf : ∀ s, ∀ r ∈ rs, (f s r).2.2 = none → T r (f s r).2.1) (s : σ) (h : (eachRule f s rs).2.2 = none) :
    List.Forall₂ T rs (eachRule f s rs).2.1 := by
  induction rs generalizing s with
  | nil => exact .nil
  | cons r rs ih =>
    rw [eachRule_cons] at h ⊢
    cases he : (f s r).2.2 with
    | some e => rw [he] at h; simp at h
    | none =>
      rw [he] at h
      exact .cons (hf s r List.mem_cons_self he) (ih (fun s q hq => hf s q (List.mem_cons_of_mem _ hq)) _ h)

/-- where an exception comes from -/
theorem eachRule_error (E : Err → Prop) (rs : List (Rule S))
    (hf : ∀ s, ∀ r ∈ rs, ∀ e, (f s r).2.2 = some e → E e) (s : σ) (e : Err) (h : (eachRule f s rs).2.2 = some e) : E e := by
  induction rs generalizing s with
  | nil => simp [eachRule] at h
  | cons r rs ih =>
    rw [eachRule_cons] at h
    cases he : (f s r).2.2 with
    | some e' =>
      rw [he] at h
      exact hf s r List.mem_cons_self e (by simpa [he] using h)
    | none =>
      rw [he] at h
      exact ih (fun s q hq => hf s q (List.mem_cons_of_mem _ hq)) _ h

end each

/-! ### one step of each loop -/

theorem selectStep_frame (b : RuleBlock S) (choose : Nat → S → Bool) (s : World S × Nat) (r : Rule S) :
    Rule.Frame r (b.selectStep choose s r).2.1 ∧
    (r.enabled = false → (b.selectStep choose s r).2.1.triggered = false ∧ (b.selectStep choose s r).1.1 = s.1) ∧
    ((b.selectStep choose s r).1.1 = s.1 ∨
      (r.isLoaded = true ∧ ∃ d, (b.selectStep choose s r).1.1 = (modify s.1 d b.implication r.conclusions).1)) := by
  have hd : Rule.Frame r r.deactivate := rfl
  unfold selectStep
  cases hl : r.deactivate.isLoaded with
  | false =>
    simp only [hl, Bool.not_false, if_true]
    exact ⟨rfl, fun _ => ⟨rfl, trivial⟩, Or.inl trivial⟩
  | true =>
    simp only [hl, Bool.not_true, Bool.false_eq_true, if_false]
    have ha := Rule.activateWith_frame s.1 b.conjunction b.disjunction r.deactivate
    have ht : ((r.deactivate.activateWith s.1 b.conjunction b.disjunction).1).triggered = false := ha.2
    cases h : r.deactivate.activateWith s.1 b.conjunction b.disjunction with
    | mk r1 e1 =>
      rw [h] at ha ht
      have hr1 := hd.trans ha.1
      cases e1 with
      | some e => exact ⟨hr1, fun _ => ⟨ht, rfl⟩, Or.inl rfl⟩
      | none =>
        simp only
        split
        · obtain ⟨h1, h2, h3⟩ := Rule.trigger_frame s.1 b.implication r1
          have hfin : ∀ w2 r2, r1.trigger s.1 b.implication = (w2, r2, (r1.trigger s.1 b.implication).2.2) →
              Rule.Frame r r2 ∧ (r.enabled = false → r2.triggered = false ∧ w2 = s.1) ∧
              (w2 = s.1 ∨ (r.isLoaded = true ∧ ∃ d, w2 = (modify s.1 d b.implication r.conclusions).1)) := by
            intro w2 r2 hq
            rw [hq] at h1 h2 h3
            refine ⟨hr1.trans h1, fun he => ?_, ?_⟩
            · obtain ⟨e1, e2⟩ := h2 (by rw [hr1.enabled]; exact he)
              exact ⟨(congrArg Rule.triggered e1).trans ht, e2⟩
            · rcases h3 with h3 | ⟨_, h3⟩
              · exact Or.inl h3
              · exact Or.inr ⟨hl, r1.degree, h3.trans (by rw [show r1.conclusions = r.conclusions from hr1.conclusions])⟩
          cases hq : r1.trigger s.1 b.implication with
          | mk w2 p =>
            obtain ⟨r2, e2⟩ := p
            have := hfin w2 r2 (by rw [hq])
            cases e2 <;> exact this
        · exact ⟨hr1, fun _ => ⟨ht, rfl⟩, Or.inl rfl⟩

theorem selectStep_error {b : RuleBlock S} {choose : Nat → S → Bool} {s : World S × Nat} {r : Rule S} {err : Err}
    (h : (b.selectStep choose s r).2.2 = some err) : err = .notLoaded ∨
      (∃ w a, r.isLoaded = true ∧ r.antecedent = some a ∧ a.degree w b.conjunction b.disjunction = .error err) ∨
      (∃ w d, (modify w d b.implication r.conclusions).2 = some err) := by
  unfold selectStep at h
  cases hl : r.deactivate.isLoaded with
  | false => simp [hl] at h
  | true =>
    simp only [hl, Bool.not_true, Bool.false_eq_true, if_false] at h
    have ha := Rule.activateWith_frame s.1 b.conjunction b.disjunction r.deactivate
    cases hq : r.deactivate.activateWith s.1 b.conjunction b.disjunction with
    | mk r1 e1 =>
      rw [hq] at h ha
      have hr1 : Rule.Frame r r1 := Rule.Frame.trans (b := r.deactivate) rfl ha.1
      cases e1 with
      | some e =>
        rcases Rule.activateWith_error (err := err) (by rw [hq]; exact h) with h | ⟨a, h1, h2⟩
        · exact Or.inl h
        · exact Or.inr (Or.inl ⟨s.1, a, hl, h1, h2⟩)
      | none =>
        simp only at h
        split at h
        · have : (r1.trigger s.1 b.implication).2.2 = some err := by
            revert h
            cases hq : r1.trigger s.1 b.implication with
            | mk w2 p => obtain ⟨r2, e2⟩ := p; cases e2 <;> exact id
          rcases Rule.trigger_error this with h | h
          · exact Or.inl h
          · exact Or.inr (Or.inr ⟨s.1, r1.degree, by rw [← hr1.conclusions]; exact h⟩)
        · simp at h

theorem degreeStep_frame (b : RuleBlock S) (w : World S) (r : Rule S) :
    Rule.Frame r (b.degreeStep w r).2.1 ∧ (b.degreeStep w r).2.1.triggered = false ∧ (b.degreeStep w r).1 = w := by
  unfold degreeStep
  cases hl : r.deactivate.isLoaded with
  | false =>
    simp only [hl, Bool.not_false, if_true]
    exact ⟨rfl, rfl, trivial⟩
  | true =>
    simp only [hl, Bool.not_true, Bool.false_eq_true, if_false]
    have ha := Rule.activateWith_frame w b.conjunction b.disjunction r.deactivate
    exact ⟨Rule.Frame.trans (b := r.deactivate) rfl ha.1, ha.2, trivial⟩

theorem degreeStep_error {b : RuleBlock S} {w : World S} {r : Rule S} {err : Err}
    (h : (b.degreeStep w r).2.2 = some err) : err = .notLoaded ∨
      (∃ w a, r.isLoaded = true ∧ r.antecedent = some a ∧ a.degree w b.conjunction b.disjunction = .error err) := by
  unfold degreeStep at h
  cases hl : r.deactivate.isLoaded with
  | false => simp [hl] at h
  | true =>
    simp only [hl, Bool.not_true, Bool.false_eq_true, if_false] at h
    rcases Rule.activateWith_error h with h | ⟨a, h1, h2⟩
    · exact Or.inl h
    · exact Or.inr ⟨w, a, hl, h1, h2⟩

theorem proportionalStep_frame (b : RuleBlock S) (sum : S) (w : World S) (r : Rule S) :
    Rule.Frame r (b.proportionalStep sum w r).2.1 ∧
    (r.enabled = false → (b.proportionalStep sum w r).2.1.triggered = r.triggered ∧ (b.proportionalStep sum w r).1 = w) ∧
    ((b.proportionalStep sum w r).1 = w ∨
      (r.isLoaded = true ∧ ∃ d, (b.proportionalStep sum w r).1 = (modify w d b.implication r.conclusions).1)) := by
  unfold proportionalStep
  cases hl : r.isLoaded with
  | false => exact ⟨rfl, fun _ => ⟨rfl, rfl⟩, Or.inl rfl⟩
  | true =>
    simp only [Bool.not_true, Bool.false_eq_true, if_false]
    generalize hr1 : ({ r with degree := if Op.isNaN (r.degree / sum) = true then lit 0 else r.degree / sum } : Rule S) = r1
    obtain ⟨h1, h2, h3⟩ := Rule.trigger_frame w b.implication r1
    have hf : Rule.Frame r r1 := by rw [← hr1]; rfl
    refine ⟨hf.trans h1, fun he => ?_, ?_⟩
    · obtain ⟨e1, e2⟩ := h2 (by rw [hf.enabled]; exact he)
      exact ⟨by rw [e1, ← hr1], e2⟩
    · rcases h3 with h3 | ⟨_, h3⟩
      · exact Or.inl h3
      · exact Or.inr ⟨trivial, r1.degree, by rw [h3, hf.conclusions]⟩

theorem proportionalStep_error {b : RuleBlock S} {sum : S} {w : World S} {r : Rule S} {err : Err}
    (h : (b.proportionalStep sum w r).2.2 = some err) : err = .notLoaded ∨
      ∃ w d, (modify w d b.implication r.conclusions).2 = some err := by
  unfold proportionalStep at h
  split at h
  · simp at h
  · rcases Rule.trigger_error h with h | h
    · exact Or.inl h
    · exact Or.inr ⟨w, _, h⟩

theorem triggerAll_cons (imp : Option (TNorm S)) (w : World S) (rs : List (Rule S)) (i : Nat) (is : List Nat) :
    triggerAll imp w rs (i :: is) = match rs[i]? with
      | none => (w, rs, some .ub)
      | some r => match (r.trigger w imp).2.2 with
        | some e => ((r.trigger w imp).1, rs.set i (r.trigger w imp).2.1, some e)
        | none => triggerAll imp (r.trigger w imp).1 (rs.set i (r.trigger w imp).2.1) is := by
  simp only [triggerAll]
  cases rs[i]? with
  | none => rfl
  | some r =>
    simp only
    cases r.trigger w imp with
    | mk s' p => obtain ⟨r', e⟩ := p; cases e <;> rfl

theorem forall₂_set {α : Type} {T : α → α → Prop} (hrefl : ∀ a, T a a) (l : List α) (i : Nat) (a b : α)
    (ha : l[i]? = some a) (hT : T a b) : List.Forall₂ T l (l.set i b) := by
  induction l generalizing i with
  | nil => simp at ha
  | cons c l ih =>
    cases i with
    | zero =>
      obtain rfl : c = a := by simpa using ha
      exact .cons hT (List.forall₂_same.2 fun x _ => hrefl x)
    | succ i => exact .cons (hrefl c) (ih i (by simpa using ha))

theorem forall₂_trans {α : Type} {T : α → α → Prop} (ht : ∀ a b c, T a b → T b c → T a c) {x y z : List α}
    (h : List.Forall₂ T x y) (h' : List.Forall₂ T y z) : List.Forall₂ T x z := by
  induction h generalizing z with
  | nil => cases h'; exact .nil
  | cons h1 _ ih =>
    cases h' with
    | cons h3 h4 => exact .cons (ht _ _ _ h1 h3) (ih h4)

/-- triggering rules by index, whatever happens -/
theorem triggerAll_frame (imp : Option (TNorm S)) (R : World S → World S → Prop) (hrefl : ∀ w, R w w)
    (htrans : ∀ a b c, R a b → R b c → R a c) (w : World S) (rs : List (Rule S)) (is : List Nat)
    (hm : ∀ r ∈ rs, r.isLoaded = true → ∀ w d, R w (modify w d imp r.conclusions).1) :
    R w (triggerAll imp w rs is).1 ∧
    List.Forall₂ (fun r r' => Rule.Frame r r' ∧ (r.enabled = false → r'.triggered = r.triggered)) rs
      (triggerAll imp w rs is).2.1 := by
  let T : Rule S → Rule S → Prop := fun r r' => Rule.Frame r r' ∧ (r.enabled = false → r'.triggered = r.triggered)
  have hTr : ∀ r, T r r := fun r => ⟨rfl, fun _ => rfl⟩
  have hTt : ∀ a b c, T a b → T b c → T a c := fun a b c h h' =>
    ⟨h.1.trans h'.1, fun he => (h'.2 (by rw [h.1.enabled]; exact he)).trans (h.2 he)⟩
  induction is generalizing w rs with
  | nil => exact ⟨hrefl w, List.forall₂_same.2 fun x _ => hTr x⟩
  | cons i is ih =>
    rw [triggerAll_cons]
    cases hi : rs[i]? with
    | none => exact ⟨hrefl w, List.forall₂_same.2 fun x _ => hTr x⟩
    | some r =>
      have hr : r ∈ rs := List.mem_of_getElem? hi
      obtain ⟨h1, h2, h3⟩ := Rule.trigger_frame w imp r
      have hR : R w (r.trigger w imp).1 := by
        rcases h3 with h3 | ⟨hl, h3⟩
        · rw [h3]; exact hrefl w
        · rw [h3]; exact hm r hr hl w _
      have hT : T r (r.trigger w imp).2.1 := ⟨h1, fun he => by rw [(h2 he).1]⟩
      have hset := forall₂_set hTr rs i r _ hi hT
      simp only
      split
      · exact ⟨hR, hset⟩
      · have hm' : ∀ q ∈ rs.set i (r.trigger w imp).2.1, q.isLoaded = true →
            ∀ w d, R w (modify w d imp q.conclusions).1 := by
          intro q hq hql
          rcases List.mem_or_eq_of_mem_set hq with hq | rfl
          · exact hm q hq hql
          · rw [h1.conclusions]
            exact hm r hr (by rw [← h1.isLoaded]; exact hql)
        obtain ⟨k1, k2⟩ := ih (r.trigger w imp).1 (rs.set i (r.trigger w imp).2.1) hm'
        exact ⟨htrans _ _ _ hR k1, forall₂_trans hTt hset k2⟩

theorem triggerAll_error {imp : Option (TNorm S)} (E : Err → Prop) (hub : E .ub) (hnl : E .notLoaded) (rs : List (Rule S))
    (hm : ∀ r ∈ rs, ∀ w d e, (modify w d imp r.conclusions).2 = some e → E e) (w : World S) (is : List Nat) (e : Err)
    (h : (triggerAll imp w rs is).2.2 = some e) : E e := by
  induction is generalizing w rs with
  | nil => simp [triggerAll] at h
  | cons i is ih =>
    rw [triggerAll_cons] at h
    cases hi : rs[i]? with
    | none =>
      rw [hi] at h
      obtain rfl : Err.ub = e := by simpa using h
      exact hub
    | some r =>
      have hr : r ∈ rs := List.mem_of_getElem? hi
      rw [hi] at h
      simp only at h
      cases he : (r.trigger w imp).2.2 with
      | some e' =>
        rw [he] at h
        obtain rfl : e' = e := by simpa using h
        rcases Rule.trigger_error he with h | h
        · rw [h]; exact hnl
        · exact hm r hr _ _ _ h
      | none =>
        rw [he] at h
        refine ih _ ?_ _ h
        intro q hq
        rcases List.mem_or_eq_of_mem_set hq with hq | rfl
        · exact hm q hq
        · rw [(Rule.trigger_frame w imp r).1.conclusions]
          exact hm r hr

/-! ### every activation method -/

/-- the variables change only by the application of consequents of loaded rules of the block -/
theorem activateBy_world [Heap S] (b : RuleBlock S) (R : World S → World S → Prop) (hrefl : ∀ w, R w w)
    (htrans : ∀ a b c, R a b → R b c → R a c)
    (hm : ∀ r ∈ b.rules, r.isLoaded = true → ∀ w d, R w (modify w d b.implication r.conclusions).1)
    (a : Activation S) (w : World S) : R w (b.activateBy a w).1 := by
  have hsel : ∀ choose rs, (∀ r ∈ rs, r ∈ b.rules) → R w (eachRule (b.selectStep choose) (w, 0) rs).1.1 := by
    intro choose rs hrs
    refine eachRule_state (fun s t : World S × Nat => R s.1 t.1) (fun s => hrefl s.1)
      (fun _ _ _ h h' => htrans _ _ _ h h') rs ?_ (w, 0)
    intro s r hr
    rcases (b.selectStep_frame choose s r).2.2 with h | ⟨hl, d, h⟩
    · rw [h]; exact hrefl _
    · rw [h]; exact hm r (hrs r hr) hl _ _
  have hdeg : (eachRule b.degreeStep w b.rules).1 = w :=
    (eachRule_state (fun s t : World S => t = s) (fun _ => rfl) (fun _ _ _ h h' => h'.trans h) b.rules
      (fun s r _ => (b.degreeStep_frame s r).2.2) w)
  have hrules := eachRule_rules (f := b.degreeStep) Rule.Frame Rule.Frame.refl b.rules
    (fun s r _ => (b.degreeStep_frame s r).1) w
  have hm' : ∀ q ∈ (eachRule b.degreeStep w b.rules).2.1, q.isLoaded = true →
      ∀ w d, R w (modify w d b.implication q.conclusions).1 := by
    intro q hq hql
    obtain ⟨r, hr, hf⟩ : ∃ r ∈ b.rules, Rule.Frame r q := by
      obtain ⟨i, hi, rfl⟩ := List.mem_iff_getElem.1 hq
      have hlen := hrules.length_eq
      exact ⟨b.rules[i], List.getElem_mem _, (List.forall₂_iff_get.1 hrules).2 i (by omega) hi⟩
    rw [hf.conclusions]
    exact hm r hr (by rw [← hf.isLoaded]; exact hql)
  have hord : ∀ less n, R w (b.activateOrdered less n w).1 := by
    intro less n
    unfold activateOrdered
    revert hdeg hm'
    cases eachRule b.degreeStep w b.rules with
    | mk w1 p =>
      obtain ⟨rs, e⟩ := p
      rintro rfl hm'
      cases e with
      | some e => exact hrefl _
      | none => exact (triggerAll_frame b.implication R hrefl htrans _ rs _ hm').1
  cases a with
  | general => exact hsel _ _ fun _ h => h
  | first n t => exact hsel _ _ fun _ h => h
  | last n t => exact hsel _ _ fun _ h => List.mem_reverse.1 h
  | highest n => exact hord _ _
  | lowest n => exact hord _ _
  | threshold c v => exact hsel _ _ fun _ h => h
  | proportional =>
    show R w (b.activateProportional w).1
    unfold activateProportional
    revert hdeg hm'
    cases eachRule b.degreeStep w b.rules with
    | mk w1 p =>
      obtain ⟨rs, e⟩ := p
      rintro rfl hm'
      cases e with
      | some e => exact hrefl _
      | none =>
        refine eachRule_state R hrefl htrans rs ?_ _
        intro s r hr
        rcases (b.proportionalStep_frame (degreeSum rs) s r).2.2 with h | ⟨hl, d, h⟩
        · rw [h]; exact hrefl _
        · rw [h]; exact hm' r hr hl _ _

theorem forall₂_reverse {α : Type} {T : α → α → Prop} {x y : List α} (h : List.Forall₂ T x y) :
    List.Forall₂ T x.reverse y.reverse := List.forall₂_reverse_iff.2 h

/-- rules change their degree and their mark only; a disabled rule is not marked -/
theorem activateBy_rules [Heap S] (b : RuleBlock S) (a : Activation S) (w : World S) :
    List.Forall₂ (fun r r' => Rule.Frame r r' ∧ (r.enabled = false → r'.triggered = true → r.triggered = true)) b.rules
      (b.activateBy a w).2.1 ∧
    ((b.activateBy a w).2.2 = none →
      List.Forall₂ (fun r r' => r.enabled = false → r'.triggered = false) b.rules (b.activateBy a w).2.1) := by
  let T : Rule S → Rule S → Prop := fun r r' =>
    Rule.Frame r r' ∧ (r.enabled = false → r'.triggered = true → r.triggered = true)
  let U : Rule S → Rule S → Prop := fun r r' => r.enabled = false → r'.triggered = false
  have hTr : ∀ r, T r r := fun r => ⟨rfl, fun _ => id⟩
  have hTt : ∀ a b c, T a b → T b c → T a c := fun a b c h h' =>
    ⟨h.1.trans h'.1, fun he ht => h.2 he (h'.2 (by rw [h.1.enabled]; exact he) ht)⟩
  have hsel : ∀ choose rs, List.Forall₂ T rs (eachRule (b.selectStep choose) (w, 0) rs).2.1 ∧
      ((eachRule (b.selectStep choose) (w, 0) rs).2.2 = none →
        List.Forall₂ U rs (eachRule (b.selectStep choose) (w, 0) rs).2.1) := by
    intro choose rs
    constructor
    · refine eachRule_rules T hTr rs ?_ _
      intro s r _
      obtain ⟨h1, h2, -⟩ := b.selectStep_frame choose s r
      exact ⟨h1, fun he ht => absurd (h2 he).1 (by simp [ht])⟩
    · refine eachRule_rules_ok U rs ?_ _
      intro s r _ _ he
      exact ((b.selectStep_frame choose s r).2.1 he).1
  have hrules : List.Forall₂ (fun r r' : Rule S => Rule.Frame r r' ∧ (r'.triggered = true → r.triggered = true))
      b.rules (eachRule b.degreeStep w b.rules).2.1 :=
    eachRule_rules _ (fun r => ⟨rfl, id⟩) b.rules
      (fun s r _ => ⟨(b.degreeStep_frame s r).1, fun h => absurd (b.degreeStep_frame s r).2.1 (by simp [h])⟩) w
  have hoff : (eachRule b.degreeStep w b.rules).2.2 = none →
      List.Forall₂ (fun r r' : Rule S => Rule.Frame r r' ∧ r'.triggered = false) b.rules (eachRule b.degreeStep w b.rules).2.1 :=
    eachRule_rules_ok _ b.rules (fun s r _ _ => ⟨(b.degreeStep_frame s r).1, (b.degreeStep_frame s r).2.1⟩) w
  have hT1 : ∀ rs : List (Rule S),
      List.Forall₂ (fun r r' : Rule S => Rule.Frame r r' ∧ (r'.triggered = true → r.triggered = true)) b.rules rs →
      List.Forall₂ T b.rules rs := fun rs h => h.imp fun r r' h => ⟨h.1, fun _ => h.2⟩
  have hcomp : ∀ rs rs2 : List (Rule S),
      List.Forall₂ (fun r r' : Rule S => Rule.Frame r r' ∧ r'.triggered = false) b.rules rs →
      List.Forall₂ (fun r r' : Rule S => Rule.Frame r r' ∧ (r.enabled = false → r'.triggered = r.triggered)) rs rs2 →
      List.Forall₂ T b.rules rs2 ∧ List.Forall₂ U b.rules rs2 := by
    generalize b.rules = rs0
    intro rs rs2 h h'
    induction h generalizing rs2 with
    | nil => cases h'; exact ⟨.nil, .nil⟩
    | cons h1 _ ih =>
      cases h' with
      | cons h3 h4 =>
        obtain ⟨k1, k2⟩ := ih _ h4
        have key := fun he => (h3.2 (h1.1.enabled.trans he)).trans h1.2
        exact ⟨.cons ⟨h1.1.trans h3.1, fun he ht => absurd (key he) (by simp [ht])⟩ k1, .cons key k2⟩
  have hord : ∀ less n, List.Forall₂ T b.rules (b.activateOrdered less n w).2.1 ∧
      ((b.activateOrdered less n w).2.2 = none → List.Forall₂ U b.rules (b.activateOrdered less n w).2.1) := by
    intro less n
    unfold activateOrdered
    revert hrules hoff
    cases eachRule b.degreeStep w b.rules with
    | mk w1 p =>
      obtain ⟨rs, e⟩ := p
      intro hrules hoff
      cases e with
      | some e => exact ⟨hT1 _ hrules, by simp⟩
      | none =>
        have h := hcomp rs _ (hoff rfl)
          (triggerAll_frame b.implication (fun _ _ => True) (fun _ => trivial) (fun _ _ _ _ _ => trivial) w1 rs
            (((Heap.pops less ((candidates rs).map Prod.snd)).filterMap fun i =>
              (candidates rs)[i]?.map Prod.fst).take n.toNat) (fun _ _ _ _ _ => trivial)).2
        exact ⟨h.1, fun _ => h.2⟩
  cases a with
  | general => exact hsel _ _
  | first n t => exact hsel _ _
  | last n t =>
    obtain ⟨h1, h2⟩ := hsel (firstChoice n t) b.rules.reverse
    refine ⟨?_, fun h => ?_⟩
    · have := forall₂_reverse h1
      rw [List.reverse_reverse] at this
      exact this
    · have := forall₂_reverse (h2 h)
      rw [List.reverse_reverse] at this
      exact this
  | highest n => exact hord _ _
  | lowest n => exact hord _ _
  | threshold c v => exact hsel _ _
  | proportional =>
    show List.Forall₂ T b.rules (b.activateProportional w).2.1 ∧
      ((b.activateProportional w).2.2 = none → List.Forall₂ U b.rules (b.activateProportional w).2.1)
    unfold activateProportional
    revert hrules hoff
    cases eachRule b.degreeStep w b.rules with
    | mk w1 p =>
      obtain ⟨rs, e⟩ := p
      intro hrules hoff
      cases e with
      | some e => exact ⟨hT1 _ hrules, by simp⟩
      | none =>
        have h := hcomp rs _ (hoff rfl)
          (eachRule_rules (f := b.proportionalStep (degreeSum rs)) _ (fun r => ⟨rfl, fun _ => rfl⟩) rs
            (fun s r _ => ⟨(b.proportionalStep_frame (degreeSum rs) s r).1,
              fun he => ((b.proportionalStep_frame (degreeSum rs) s r).2.1 he).1⟩) w1)
        exact ⟨h.1, fun _ => h.2⟩

/-- where the exceptions of activation come from -/
theorem activateBy_error [Heap S] (b : RuleBlock S) (E : Err → Prop) (hub : E .ub) (hnl : E .notLoaded)
    (hd : ∀ r ∈ b.rules, r.isLoaded = true → ∀ a, r.antecedent = some a → ∀ w e,
      a.degree w b.conjunction b.disjunction = .error e → E e)
    (hm : ∀ r ∈ b.rules, ∀ w d e, (modify w d b.implication r.conclusions).2 = some e → E e)
    (a : Activation S) (w : World S) (e : Err) (h : (b.activateBy a w).2.2 = some e) : E e := by
  have hsel : ∀ choose rs, (∀ r ∈ rs, r ∈ b.rules) →
      (eachRule (b.selectStep choose) (w, 0) rs).2.2 = some e → E e := by
    intro choose rs hrs
    refine eachRule_error E rs ?_ _ e
    intro s r hr e' he
    rcases selectStep_error he with rfl | ⟨w', a, hl, ha, h⟩ | ⟨w', d, h⟩
    · exact hnl
    · exact hd r (hrs r hr) hl a ha w' e' h
    · exact hm r (hrs r hr) w' d e' h
  have hdeg : ∀ e', (eachRule b.degreeStep w b.rules).2.2 = some e' → E e' := by
    refine eachRule_error E b.rules ?_ w
    intro s r hr e' he
    rcases degreeStep_error he with rfl | ⟨w', a, hl, ha, h⟩
    · exact hnl
    · exact hd r hr hl a ha w' e' h
  have hrules := eachRule_rules (f := b.degreeStep) Rule.Frame Rule.Frame.refl b.rules
    (fun s r _ => (b.degreeStep_frame s r).1) w
  have hm' : ∀ q ∈ (eachRule b.degreeStep w b.rules).2.1,
      ∀ w d e, (modify w d b.implication q.conclusions).2 = some e → E e := by
    intro q hq
    obtain ⟨r, hr, hf⟩ : ∃ r ∈ b.rules, Rule.Frame r q := by
      obtain ⟨i, hi, rfl⟩ := List.mem_iff_getElem.1 hq
      have hlen := hrules.length_eq
      exact ⟨b.rules[i], List.getElem_mem _, (List.forall₂_iff_get.1 hrules).2 i (by omega) hi⟩
    rw [hf.conclusions]
    exact hm r hr
  have hord : ∀ less n, (b.activateOrdered less n w).2.2 = some e → E e := by
    intro less n h
    unfold activateOrdered at h
    revert hdeg hm' h
    cases eachRule b.degreeStep w b.rules with
    | mk w1 p =>
      obtain ⟨rs, e1⟩ := p
      intro hdeg hm' h
      cases e1 with
      | some e1 => exact hdeg e (by simpa using h)
      | none => exact triggerAll_error E hub hnl rs hm' _ _ e h
  cases a with
  | general => exact hsel _ _ (fun _ h => h) h
  | first n t => exact hsel _ _ (fun _ h => h) h
  | last n t => exact hsel _ _ (fun _ h => List.mem_reverse.1 h) h
  | highest n => exact hord _ _ h
  | lowest n => exact hord _ _ h
  | threshold c v => exact hsel _ _ (fun _ h => h) h
  | proportional =>
    have h : (b.activateProportional w).2.2 = some e := h
    unfold activateProportional at h
    revert hdeg hm' h
    cases eachRule b.degreeStep w b.rules with
    | mk w1 p =>
      obtain ⟨rs, e1⟩ := p
      intro hdeg hm' h
      cases e1 with
      | some e1 => exact hdeg e (by simpa using h)
      | none =>
        refine eachRule_error E rs ?_ _ e h
        intro s r hr e' he
        rcases proportionalStep_error he with rfl | ⟨w', d, h⟩
        · exact hnl
        · exact hm' r hr w' d e' h

end RuleBlock
end FL
