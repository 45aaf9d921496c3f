/-
Defuzzification cannot tell apart fuzzy outputs whose terms behave alike.
-/
import Verif.Model.Variable

namespace FL
open Scalar
variable {S : Type} [Scalar S]

/-- `t` evaluated in `ctx` behaves like `t'` evaluated in `ctx'` -/
structure Term.Alike (ctx ctx' : Ctx S) (t t' : Term S) : Prop where
  name : t.name = t'.name
  membership : ∀ x, t.membership ctx x = t'.membership ctx' x
  tsukamoto : ∀ y, t.tsukamoto y = t'.tsukamoto y
  infer : Weighted.inferTerm t = Weighted.inferTerm t'

structure Activated.Alike (ctx ctx' : Ctx S) (a a' : Activated S) : Prop where
  degree : a.degree = a'.degree
  implication : a.implication = a'.implication
  term : Term.Alike ctx ctx' a.term a'.term

variable {ctx ctx' : Ctx S}

theorem Activated.Alike.membership {a a' : Activated S} (h : a.Alike ctx ctx' a') (x : S) :
    a.membership ctx x = a'.membership ctx' x := by
  unfold Activated.membership
  rw [h.implication, h.degree, h.term.membership]

theorem isEmpty_alike {α : Type} {R : α → α → Prop} {l l' : List α} (h : List.Forall₂ R l l') : l.isEmpty = l'.isEmpty := by
  cases h <;> rfl

namespace Aggregated

theorem membership_alike {g g' : Aggregated S} (ha : g.aggregation = g'.aggregation)
    (h : List.Forall₂ (Activated.Alike ctx ctx') g.terms g'.terms) (x : S) : g.membership ctx x = g'.membership ctx' x := by
  unfold membership
  rw [ha]
  have he : g.terms.isEmpty = g'.terms.isEmpty := isEmpty_alike h
  rw [he]
  split
  · rfl
  · cases g'.aggregation with
    | none => rfl
    | some agg =>
      simp only
      generalize (lit 0 : S) = mu
      clear he
      revert h
      generalize g.terms = l
      generalize g'.terms = l'
      intro h
      induction h generalizing mu with
      | nil => rfl
      | cons h1 _ ih =>
        simp only [List.foldlM_cons, h1.membership x]
        congr 1
        funext y
        exact ih y

/-- groups of alike terms -/
abbrev GroupsAlike (ctx ctx' : Ctx S) : Groups S → Groups S → Prop :=
  List.Forall₂ fun p p' => p.1 = p'.1 ∧ Activated.Alike ctx ctx' p.2 p'.2

theorem find_alike {G G' : Groups S} (h : GroupsAlike ctx ctx' G G') (n : Str) :
    Option.Rel (fun p p' => p.1 = p'.1 ∧ Activated.Alike ctx ctx' p.2 p'.2)
      (G.find? fun p => p.1 == n) (G'.find? fun p => p.1 == n) := by
  induction h with
  | nil => exact .none
  | cons h1 _ ih =>
    rw [List.find?_cons, List.find?_cons, ← h1.1]
    split
    · exact .some h1
    · exact ih

theorem groupStep_alike (agg : SNorm S) {G G' : Groups S} (h : GroupsAlike ctx ctx' G G') {a a' : Activated S}
    (ha : a.Alike ctx ctx' a') :
    (∃ e, groupStep agg G a = .error e ∧ groupStep agg G' a' = .error e) ∨
    (∃ H H', groupStep agg G a = .ok H ∧ groupStep agg G' a' = .ok H' ∧ GroupsAlike ctx ctx' H H') := by
  unfold groupStep
  rw [← ha.term.name]
  have hf := find_alike h a.term.name
  revert hf
  cases G.find? fun p => p.1 == a.term.name with
  | none =>
    cases G'.find? fun p => p.1 == a.term.name with
    | some p' => intro hf; cases hf
    | none =>
      intro _
      exact Or.inr ⟨_, _, rfl, rfl, List.rel_append h (.cons ⟨rfl, ha⟩ .nil)⟩
  | some p =>
    cases G'.find? fun p => p.1 == a.term.name with
    | none => intro hf; cases hf
    | some p' =>
      intro hf
      cases hf with
      | some hp =>
        simp only
        rw [hp.2.degree, ha.degree]
        cases agg.compute p'.2.degree a'.degree with
        | error e => exact Or.inl ⟨e, rfl, rfl⟩
        | ok d =>
          refine Or.inr ⟨_, _, rfl, rfl, ?_⟩
          show List.Forall₂ _ _ _
          rw [List.forall₂_map_left_iff, List.forall₂_map_right_iff]
          refine h.imp ?_
          rintro q q' ⟨h1, h2⟩
          rw [← h1]
          split
          · exact ⟨rfl, rfl, h2.implication, h2.term⟩
          · exact ⟨h1, h2⟩

theorem groups_alike (agg : SNorm S) {l l' : List (Activated S)} (hl : List.Forall₂ (Activated.Alike ctx ctx') l l')
    {G G' : Groups S} (h : GroupsAlike ctx ctx' G G') :
    (∃ e, l.foldlM (groupStep agg) G = .error e ∧ l'.foldlM (groupStep agg) G' = .error e) ∨
    (∃ H H', l.foldlM (groupStep agg) G = .ok H ∧ l'.foldlM (groupStep agg) G' = .ok H' ∧ GroupsAlike ctx ctx' H H') := by
  induction hl generalizing G G' with
  | nil => exact Or.inr ⟨G, G', rfl, rfl, h⟩
  | cons ha _ ih =>
    rw [List.foldlM_cons, List.foldlM_cons]
    rcases groupStep_alike agg h ha with ⟨e, h1, h2⟩ | ⟨H, H', h1, h2, h3⟩
    · rw [h1, h2]; exact Or.inl ⟨e, rfl, rfl⟩
    · rw [h1, h2]; exact ih h3

theorem ungroup_alike {l l' : List (Activated S)} (hl : List.Forall₂ (Activated.Alike ctx ctx') l l')
    {G G' : Groups S} (h : GroupsAlike ctx ctx' G G') {acc acc' : List (Activated S)}
    (hacc : List.Forall₂ (Activated.Alike ctx ctx') acc acc') :
    List.Forall₂ (Activated.Alike ctx ctx') (l.foldl ungroupStep (acc, G)).1 (l'.foldl ungroupStep (acc', G')).1 := by
  induction hl generalizing G G' acc acc' with
  | nil => exact hacc
  | @cons a a' _ _ ha _ ih =>
    rw [List.foldl_cons, List.foldl_cons]
    have hf := find_alike h a.term.name
    have e1 : ungroupStep (acc, G) a = match G.find? fun p => p.1 == a.term.name with
      | some p => (acc ++ [p.2], G.filter fun q => !(q.1 == a.term.name))
      | none => (acc, G) := rfl
    have e2 : ungroupStep (acc', G') a' = match G'.find? fun p => p.1 == a.term.name with
      | some p => (acc' ++ [p.2], G'.filter fun q => !(q.1 == a.term.name))
      | none => (acc', G') := by rw [ha.term.name]; rfl
    rw [e1, e2]
    revert hf
    cases G.find? fun p => p.1 == a.term.name with
    | none =>
      cases G'.find? fun p => p.1 == a.term.name with
      | some p' => intro hf; cases hf
      | none => intro _; exact ih h hacc
    | some p =>
      cases G'.find? fun p => p.1 == a.term.name with
      | none => intro hf; cases hf
      | some p' =>
        intro hf
        cases hf with
        | some hp =>
          refine ih ?_ (List.rel_append hacc (.cons hp.2 .nil))
          exact List.rel_filter (R := fun p p' : Str × Activated S => p.1 = p'.1 ∧ Activated.Alike ctx ctx' p.2 p'.2)
            (fun q q' hq => by
              have : q.1 = q'.1 := hq.1
              show (!(q.1 == a.term.name)) = true ↔ (!(q'.1 == a.term.name)) = true
              rw [this]) h

theorem grouped_alike {g g' : Aggregated S} (ha : g.aggregation = g'.aggregation)
    (h : List.Forall₂ (Activated.Alike ctx ctx') g.terms g'.terms) :
    (∃ e, g.grouped = .error e ∧ g'.grouped = .error e) ∨
    (∃ k k', g.grouped = .ok k ∧ g'.grouped = .ok k' ∧ List.Forall₂ (Activated.Alike ctx ctx') k.terms k'.terms) := by
  unfold grouped
  rw [ha]
  rcases groups_alike (g'.aggregation.getD (.builtin .unboundedSum)) h (G := []) (G' := []) .nil with
    ⟨e, h1, h2⟩ | ⟨H, H', h1, h2, h3⟩
  · simp only [h1, h2]; exact Or.inl ⟨e, rfl, rfl⟩
  · simp only [h1, h2]
    exact Or.inr ⟨_, _, rfl, rfl, ungroup_alike h h3 .nil⟩

end Aggregated

theorem Weighted.sums_alike {z z' : Activated S → Except Err S} {l l' : List (Activated S)}
    (h : List.Forall₂ (fun a a' => a.degree = a'.degree ∧ z a = z' a') l l') : Weighted.sums z l = Weighted.sums z' l' := by
  unfold Weighted.sums
  generalize ((lit 0, lit 0) : S × S) = s
  induction h generalizing s with
  | nil => rfl
  | cons h1 _ ih =>
    simp only [List.foldlM_cons, h1.1, h1.2]
    congr 1
    funext s'
    exact ih s'

theorem Weighted.defuzzify_alike (k : WeightedKind) (type : WeightedType) {g g' : Aggregated S}
    (ha : g.aggregation = g'.aggregation) (h : List.Forall₂ (Activated.Alike ctx ctx') g.terms g'.terms) :
    Weighted.defuzzify ctx k type g = Weighted.defuzzify ctx' k type g' := by
  unfold Weighted.defuzzify
  have he : g.terms.isEmpty = g'.terms.isEmpty := isEmpty_alike h
  have hi : Weighted.inferTypes (g.terms.map Activated.term) = Weighted.inferTypes (g'.terms.map Activated.term) := by
    unfold Weighted.inferTypes
    have : (g.terms.map Activated.term).map Weighted.inferTerm = (g'.terms.map Activated.term).map Weighted.inferTerm := by
      rw [List.map_map, List.map_map]
      clear he
      revert h
      generalize g.terms = l
      generalize g'.terms = l'
      intro h
      induction h with
      | nil => rfl
      | cons h1 _ ih => simp only [List.map_cons, ih, Function.comp, h1.term.infer]
    rw [this]
  rw [he, hi]
  split
  · rfl
  · have key : ∀ z z' : Activated S → Except Err S, (∀ a a', a.Alike ctx ctx' a' → z a = z' a') →
        (do
          let grouped ← g.grouped
          let s ← Weighted.sums z grouped.terms
          (Except.ok (match k with
            | .average => s.1 / s.2
            | .sum => s.1) : Except Err S)) = (do
          let grouped ← g'.grouped
          let s ← Weighted.sums z' grouped.terms
          .ok (match k with
            | .average => s.1 / s.2
            | .sum => s.1)) := by
      intro z z' hz
      rcases Aggregated.grouped_alike ha h with ⟨e, h1, h2⟩ | ⟨G, G', h1, h2, h3⟩
      · rw [h1, h2]; rfl
      · rw [h1, h2]
        simp only [bind, Except.bind]
        rw [Weighted.sums_alike (h3.imp fun a a' h => ⟨h.degree, hz a a' h⟩)]
    have k1 := key (fun a => a.term.membership ctx a.degree) (fun a => a.term.membership ctx' a.degree)
      fun a a' h => by rw [h.degree, h.term.membership]
    have k2 := key (fun a => a.term.tsukamoto a.degree) (fun a => a.term.tsukamoto a.degree)
      fun a a' h => by rw [h.degree, h.term.tsukamoto]
    by_cases ht : type = .automatic
    · simp only [ht, if_true]
      cases Weighted.inferTypes (g'.terms.map Activated.term) with
      | error e => rfl
      | ok t =>
        cases t with
        | automatic => rfl
        | takagiSugeno => exact k1
        | tsukamoto => exact k2
    · simp only [ht, if_false]
      cases type with
      | automatic => rfl
      | takagiSugeno => exact k1
      | tsukamoto => exact k2

theorem Defuzzifier.defuzzify_alike (d : Defuzzifier) {g g' : Aggregated S} (mn mx : S)
    (ha : g.aggregation = g'.aggregation) (h : List.Forall₂ (Activated.Alike ctx ctx') g.terms g'.terms) :
    d.defuzzify ctx g mn mx = d.defuzzify ctx' g' mn mx := by
  cases d with
  | integral k r =>
    have : g.membership ctx = g'.membership ctx' := funext fun x => Aggregated.membership_alike ha h x
    simp only [Defuzzifier.defuzzify, this]
  | weighted k t => exact Weighted.defuzzify_alike k t ha h

end FL
