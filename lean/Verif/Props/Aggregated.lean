/-
C20-C22: aggregated fuzzy sets.
-/
import Verif.Model.Term
import Verif.Props.Norm
import Verif.Lemmas.ScalarOrd
import Mathlib.Data.List.Perm.Basic
import Mathlib.Algebra.BigOperators.Group.List.Lemmas

namespace FL
open Scalar
namespace Aggregated
section General
variable {S : Type} [Scalar S]

/-- C20.  An empty fuzzy set has membership 0 (whether or not it has an aggregation operator). -/
theorem membership_empty (ctx : Ctx S) (g : Aggregated S) (x : S) (h : g.terms = []) (hx : Op.isNaN x = false) :
    g.membership ctx x = .ok (lit 0) := by
  unfold membership
  rw [hx, h]
  cases g.aggregation <;> rfl

/-- a non-empty fuzzy set without aggregation operator raises an exception -/
theorem membership_missing (ctx : Ctx S) (g : Aggregated S) (x : S) (h : g.terms ≠ []) (hx : Op.isNaN x = false)
    (ha : g.aggregation = none) : g.membership ctx x = .error .missingAggregation := by
  unfold membership
  rw [hx, ha]
  simp [h]

theorem fold_perm {α : Type} (agg : SNorm S) (f : α → Except Err S) (P : S → Prop) (op : S → S → S)
    (hop : ∀ a b, P a → P b → agg.compute a b = .ok (op a b) ∧ P (op a b))
    (hcomm : ∀ a b, P a → P b → op a b = op b a)
    (hassoc : ∀ a b c, P a → P b → P c → op (op a b) c = op a (op b c))
    {l l' : List α} (hp : l.Perm l') : (∀ a ∈ l, ∃ v, f a = .ok v ∧ P v) → ∀ s, P s →
    l.foldlM (fun mu a => do let y ← f a; agg.compute mu y) s =
      l'.foldlM (fun mu a => do let y ← f a; agg.compute mu y) s := by
  induction hp with
  | nil => intros; rfl
  | cons a hp ih =>
    intro h s hs
    obtain ⟨v, hv, hPv⟩ := h a (by simp)
    simp only [List.foldlM_cons, hv, bind, Except.bind, (hop s v hs hPv).1]
    exact ih (fun b hb => h b (by simp [hb])) _ (hop s v hs hPv).2
  | swap a b l =>
    intro h s hs
    obtain ⟨v, hv, hPv⟩ := h a (by simp)
    obtain ⟨w, hw, hPw⟩ := h b (by simp)
    have e : op (op s w) v = op (op s v) w := by
      rw [hassoc s w v hs hPw hPv, hcomm w v hPw hPv, ← hassoc s v w hs hPv hPw]
    simp only [List.foldlM_cons, hv, hw, bind, Except.bind, (hop s v hs hPv).1, (hop s w hs hPw).1,
      (hop _ v (hop s w hs hPw).2 hPv).1, (hop _ w (hop s v hs hPv).2 hPw).1, e]
  | trans p1 _ ih1 ih2 =>
    intro h s hs
    rw [ih1 h s hs, ih2 (fun a ha => h a (p1.mem_iff.mpr ha)) s hs]

/-- C20.  With any aggregation operator that is commutative and associative on a set of values
containing 0 and the memberships of the activated terms, the membership does not depend on the order
of the activated terms. -/
theorem membership_perm (ctx : Ctx S) (g g' : Aggregated S) (x : S) (agg : SNorm S) (P : S → Prop) (op : S → S → S)
    (hop : ∀ a b, P a → P b → agg.compute a b = .ok (op a b) ∧ P (op a b))
    (hcomm : ∀ a b, P a → P b → op a b = op b a)
    (hassoc : ∀ a b c, P a → P b → P c → op (op a b) c = op a (op b c))
    (h0 : P (lit 0)) (hg : g.aggregation = some agg) (hg' : g'.aggregation = some agg)
    (hp : g.terms.Perm g'.terms) (hm : ∀ a ∈ g.terms, ∃ v, a.membership ctx x = .ok v ∧ P v) :
    g.membership ctx x = g'.membership ctx x := by
  unfold membership
  rw [hg, hg']
  simp only []
  rw [fold_perm agg (fun a : Activated S => a.membership ctx x) P op hop hcomm hassoc hp hm _ h0]

/-- C20.  The membership after adding a term is the aggregation of the membership before with that
of the term. -/
theorem membership_addTerm (ctx : Ctx S) (g : Aggregated S) (a : Activated S) (x m v : S) (agg : SNorm S)
    (hg : g.aggregation = some agg) (hx : Op.isNaN x = false) (hm : g.membership ctx x = .ok m)
    (ha : a.membership ctx x = .ok v) : (g.addTerm a).membership ctx x = agg.compute m v := by
  unfold membership at hm ⊢
  rw [hx] at hm ⊢
  simp only [addTerm, hg, Bool.false_eq_true, if_false, List.foldlM_append] at hm ⊢
  rw [hm]
  simp [List.foldlM_cons, ha, bind, Except.bind]
  cases agg.compute m v <;> rfl

/-! ### Grouping -/

/-- the degrees of some activated terms combined from left to right, starting from the first -/
def combined (agg : SNorm S) : List (Activated S) → Except Err S
  | [] => .error .ub
  | a :: rest => rest.foldlM (fun d b => agg.compute d b.degree) a.degree

/-- `b` is what grouping makes of the activated terms of `l` that have its name -/
def IsGroup (agg : SNorm S) (l : List (Activated S)) (b : Activated S) : Prop :=
  ∃ first rest, l.filter (fun a => a.term.name == b.term.name) = first :: rest ∧
    b = { first with degree := b.degree } ∧ combined agg (first :: rest) = .ok b.degree

theorem find?_key {β : Type} (G : List (Str × β)) (n : Str) :
    (G.find? fun p => p.1 == n) = none ↔ n ∉ G.map Prod.fst := by
  simp [List.find?_eq_none]
  constructor
  · intro h b hb
    exact h n b hb rfl
  · rintro h a b hab rfl
    exact h b hab

theorem eraseDups_of_nodup {α : Type} [BEq α] [LawfulBEq α] (l : List α) (h : l.Nodup) : l.eraseDups = l := by
  induction l with
  | nil => rfl
  | cons a l ih =>
    rw [List.eraseDups_cons]
    obtain ⟨h1, h2⟩ := List.nodup_cons.mp h
    have : l.filter (fun b => !b == a) = l := by
      rw [List.filter_eq_self]
      intro b hb
      have : b ≠ a := fun hba => h1 (hba ▸ hb)
      simpa using this
    rw [this, ih h2]

theorem nodup_eraseDups {α : Type} [BEq α] [LawfulBEq α] : ∀ (n : Nat) (l : List α), l.length ≤ n → l.eraseDups.Nodup := by
  intro n
  induction n with
  | zero =>
    intro l h
    have : l = [] := List.length_eq_zero_iff.mp (by omega)
    simp [this]
  | succ n ih =>
    intro l h
    cases l with
    | nil => simp
    | cons a l =>
      rw [List.eraseDups_cons, List.nodup_cons]
      refine ⟨?_, ih _ ((List.length_filter_le _ _).trans (by simpa using h))⟩
      rw [List.mem_eraseDups]
      simp

theorem groups_spec (agg : SNorm S) (l : List (Activated S)) : ∀ G, l.foldlM (groupStep agg) [] = .ok G →
    G.map Prod.fst = (l.map fun a => a.term.name).eraseDups ∧
    (∀ p ∈ G, p.1 = p.2.term.name ∧ IsGroup agg l p.2) := by
  induction l using List.reverseRecOn with
  | nil =>
    intro G h
    cases h
    simp
  | append_singleton l a ih =>
    intro G h
    rw [List.foldlM_append] at h
    cases hl : l.foldlM (groupStep agg) [] with
    | error e => rw [hl] at h; simp [bind, Except.bind] at h
    | ok G0 =>
      rw [hl] at h
      have h : groupStep agg G0 a = .ok G := by
        simp only [bind, Except.bind, List.foldlM_cons, List.foldlM_nil] at h
        cases hs : groupStep agg G0 a with
        | error e => rw [hs] at h; simp at h
        | ok G1 => rw [hs] at h; exact h
      obtain ⟨hk, hG0⟩ := ih G0 hl
      have hother : ∀ p ∈ G0, p.1 ≠ a.term.name → IsGroup agg (l ++ [a]) p.2 := by
        intro p hp hne
        obtain ⟨hn, first, rest, e, h1, h2⟩ := hG0 p hp
        refine ⟨first, rest, ?_, h1, h2⟩
        rw [List.filter_append, e]
        have : (a.term.name == p.2.term.name) = false := by
          rw [← hn]; simpa using fun h => hne h.symm
        simp [this]
      unfold groupStep at h
      cases hf : G0.find? fun p => p.1 == a.term.name with
      | none =>
        rw [hf] at h
        cases h
        have hnot := (find?_key G0 a.term.name).mp hf
        rw [hk] at hnot
        have hnl : a.term.name ∉ l.map fun a => a.term.name := fun hh => hnot (List.mem_eraseDups.mpr hh)
        constructor
        · rw [List.map_append, List.map_append, List.eraseDups_append, hk]
          congr 1
          simp only [List.map_cons, List.map_nil]
          rw [List.cons_removeAll]
          simp [hnl, eraseDups_of_nodup]
        · intro p hp
          rcases List.mem_append.mp hp with hp | hp
          · refine ⟨(hG0 p hp).1, hother p hp ?_⟩
            intro he
            apply hnot
            rw [← hk, ← he]
            exact List.mem_map_of_mem hp
          · simp only [List.mem_singleton] at hp
            subst hp
            refine ⟨rfl, a, [], ?_, rfl, rfl⟩
            rw [List.filter_append]
            have : l.filter (fun b => b.term.name == a.term.name) = [] := by
              rw [List.filter_eq_nil_iff]
              intro b hb hbn
              apply hnl
              rw [← beq_iff_eq.mp hbn]
              exact List.mem_map_of_mem hb
            simp [this]
      | some p =>
        rw [hf] at h
        have hpm := List.mem_of_find?_eq_some hf
        have hpn : p.1 = a.term.name := by simpa using List.find?_some hf
        cases hd : agg.compute p.2.degree a.degree with
        | error e => simp [hd, bind, Except.bind] at h
        | ok d =>
          simp only [hd, bind, Except.bind, Except.ok.injEq] at h
          subst h
          have hnl : a.term.name ∈ l.map fun a => a.term.name := by
            rw [← List.mem_eraseDups, ← hk, ← hpn]
            exact List.mem_map_of_mem hpm
          have hkeys : (G0.map fun q => if (q.1 == a.term.name) = true then (q.1, { q.2 with degree := d }) else q).map Prod.fst
              = G0.map Prod.fst := by
            rw [List.map_map]
            apply List.map_congr_left
            intro q _
            simp only [Function.comp]
            split_ifs <;> rfl
          refine ⟨?_, ?_⟩
          · rw [hkeys, hk, List.map_append, List.eraseDups_append]
            simp only [List.map_cons, List.map_nil]
            rw [List.cons_removeAll]
            have hc : (List.map (fun a => a.term.name) l).contains a.term.name = true := by
              simpa using hnl
            rw [hc]; simp
          · have hnd : (G0.map Prod.fst).Nodup := by rw [hk]; exact nodup_eraseDups _ _ (Nat.le_refl _)
            intro q hq
            obtain ⟨q0, hq0, rfl⟩ := List.mem_map.mp hq
            by_cases hqn : q0.1 = a.term.name
            · have hqp : q0 = p := by
                exact List.inj_on_of_nodup_map hnd hq0 hpm (by rw [hqn, hpn])
              subst hqp
              simp only [hqn, beq_self_eq_true, if_true]
              obtain ⟨hn, first, rest, e, h1, h2⟩ := hG0 q0 hq0
              refine ⟨by rw [← hqn]; exact hn, first, rest ++ [a], ?_, ?_, ?_⟩
              · rw [List.filter_append, e]
                simp [← hn, hqn]
              · simp only []
                rw [h1]
              · simp only [combined] at h2 ⊢
                rw [List.foldlM_append, h2]
                simp [bind, Except.bind, hd, List.foldlM_cons]
                rfl
            · simp only [beq_iff_eq, hqn, if_false]
              exact ⟨(hG0 q0 hq0).1, hother q0 hq0 hqn⟩

theorem ungroup_spec (l : List (Activated S)) : ∀ (acc : List (Activated S)) (G : Groups S), (G.map Prod.fst).Nodup →
    G.map Prod.fst = ((l.map fun a => a.term.name).filter (· ∈ G.map Prod.fst)).eraseDups →
    l.foldl ungroupStep (acc, G) = (acc ++ G.map Prod.snd, []) := by
  induction l with
  | nil =>
    intro acc G _ h
    have : G = [] := by simpa using h
    simp [this]
  | cons a l ih =>
    intro acc G hnd h
    rw [List.foldl_cons]
    by_cases hin : a.term.name ∈ G.map Prod.fst
    · rw [List.map_cons, List.filter_cons_of_pos (by simpa using hin), List.eraseDups_cons] at h
      obtain ⟨p, G', rfl⟩ : ∃ p G', G = p :: G' := by
        cases G with
        | nil => simp at h
        | cons p G' => exact ⟨p, G', rfl⟩
      rw [List.map_cons] at h hnd
      obtain ⟨hp, hG'⟩ := List.cons.inj h
      have hnot : ∀ q ∈ G', q.1 ≠ a.term.name := by
        intro q hq hqa
        exact (List.nodup_cons.mp hnd).1 (by rw [hp, ← hqa]; exact List.mem_map_of_mem hq)
      have hstep : ungroupStep (acc, p :: G') a = (acc ++ [p.2], G') := by
        unfold ungroupStep
        simp only [List.find?_cons, hp, beq_self_eq_true, List.filter_cons, Bool.not_true, Bool.false_eq_true, if_false]
        congr 1
        rw [List.filter_eq_self]
        intro q hq
        simpa using hnot q hq
      rw [hstep, ih _ G' (List.nodup_cons.mp hnd).2]
      · simp
      · rw [List.filter_filter] at hG'
        refine hG'.trans ?_
        congr 1
        · apply List.filter_congr
          intro n _
          by_cases hn : n = a.term.name
          · subst hn
            have : a.term.name ∉ G'.map Prod.fst := by
              rw [← hp]; exact (List.nodup_cons.mp hnd).1
            simp [this]
          · simp only [hn, hp, List.mem_cons, false_or, beq_iff_eq, Bool.true_and, beq_eq_false_iff_ne.mpr hn, Bool.not_false]
    · rw [List.map_cons, List.filter_cons_of_neg (by simpa using hin)] at h
      have hstep : ungroupStep (acc, G) a = (acc, G) := by
        unfold ungroupStep
        rw [(find?_key G a.term.name).mpr hin]
      rw [hstep]
      exact ih acc G hnd h

/-- C21.  Grouping keeps the fuzzy set's other data, contains each name once in the order of first
occurrence, and every group is the first activated term of its name with the combination of the
degrees of all activated terms of that name (with the sum if there is no operator). -/
theorem grouped_spec (g g' : Aggregated S) (h : g.grouped = .ok g') :
    g' = { g with terms := g'.terms } ∧
    g'.terms.map (fun a => a.term.name) = (g.terms.map fun a => a.term.name).eraseDups ∧
    (g'.terms.map fun a => a.term.name).Nodup ∧
    ∀ b ∈ g'.terms, IsGroup (g.aggregation.getD (.builtin .unboundedSum)) g.terms b := by
  unfold grouped at h
  cases hG : g.terms.foldlM (groupStep (g.aggregation.getD (.builtin .unboundedSum))) [] with
  | error e => simp [hG, bind, Except.bind] at h
  | ok G =>
    simp only [hG, bind, Except.bind, Except.ok.injEq] at h
    obtain ⟨hk, hgr⟩ := groups_spec _ _ G hG
    have hnd : (G.map Prod.fst).Nodup := by rw [hk]; exact nodup_eraseDups _ _ (Nat.le_refl _)
    rw [ungroup_spec g.terms [] G hnd (by
      rw [hk]
      congr 1
      symm
      rw [List.filter_eq_self]
      intro n hn
      simpa using List.mem_eraseDups.mpr hn)] at h
    subst h
    have hnames : (G.map Prod.snd).map (fun a => a.term.name) = G.map Prod.fst := by
      rw [List.map_map]
      apply List.map_congr_left
      intro p hp
      exact (hgr p hp).1.symm
    simp only [List.nil_append]
    refine ⟨trivial, by rw [hnames, hk], by rw [hnames]; exact hnd, ?_⟩
    intro b hb
    obtain ⟨p, hp, rfl⟩ := List.mem_map.mp hb
    exact (hgr p hp).2

theorem grouped_of_nodup (g : Aggregated S) (h : (g.terms.map fun a => a.term.name).Nodup) : g.grouped = .ok g := by
  have key : ∀ (agg : SNorm S) (l : List (Activated S)) (G : Groups S),
      (G.map Prod.fst ++ l.map fun a => a.term.name).Nodup →
      l.foldlM (groupStep agg) G = .ok (G ++ l.map fun a => (a.term.name, a)) := by
    intro agg l
    induction l with
    | nil => intro G _; simp; rfl
    | cons a l ih =>
      intro G hn
      have hna : a.term.name ∉ G.map Prod.fst := by
        intro hc
        exact (List.nodup_append.mp hn).2.2 _ hc _ (by simp) rfl
      rw [List.foldlM_cons]
      have hs : groupStep agg G a = .ok (G ++ [(a.term.name, a)]) := by
        unfold groupStep
        rw [(find?_key G _).mpr hna]
      rw [hs]
      simp only [bind, Except.bind]
      rw [ih _ (by simpa using hn)]
      simp
  unfold grouped
  simp only []
  rw [key _ g.terms [] (by simpa using h)]
  simp only [bind, Except.bind, List.nil_append]
  rw [ungroup_spec]
  · simp [Function.comp_def]
  · simpa [Function.comp_def] using h
  · rw [List.map_map]
    have : ((fun a : Activated S => a.term.name) : Activated S → Str) = Prod.fst ∘ fun a => (a.term.name, a) := rfl
    rw [← this, List.filter_eq_self.mpr (by simp), eraseDups_of_nodup _ h]

/-- C21.  Grouping twice is grouping once. -/
theorem grouped_idempotent (g g' : Aggregated S) (h : g.grouped = .ok g') : g'.grouped = .ok g' :=
  grouped_of_nodup g' (grouped_spec g g' h).2.2.1

/-- Grouping never fails unless the aggregation operator does (built-in operators never do). -/
theorem grouped_ok (g : Aggregated S) (h : ∀ f, g.aggregation ≠ some (.function f)) : ∃ g', g.grouped = .ok g' := by
  have key : ∀ (agg : SNorm S), (∀ f, agg ≠ .function f) → ∀ (l : List (Activated S)) (G : Groups S),
      ∃ G', l.foldlM (groupStep agg) G = .ok G' := by
    intro agg hagg l
    induction l with
    | nil => intro G; exact ⟨G, rfl⟩
    | cons a l ih =>
      intro G
      rw [List.foldlM_cons]
      have : ∃ G', groupStep agg G a = .ok G' := by
        unfold groupStep
        cases agg with
        | function f => exact absurd rfl (hagg f)
        | builtin k =>
          cases G.find? fun p => p.1 == a.term.name with
          | none => exact ⟨_, rfl⟩
          | some p => exact ⟨_, rfl⟩
      obtain ⟨G', hG'⟩ := this
      obtain ⟨G'', hG''⟩ := ih G'
      exact ⟨G'', by rw [hG']; exact hG''⟩
  obtain ⟨G, hG⟩ := key (g.aggregation.getD (.builtin .unboundedSum)) (by
    intro f
    cases ha : g.aggregation with
    | none => simp
    | some a => simpa [ha] using h f) g.terms []
  exact ⟨_, by unfold grouped; simp only []; rw [hG]; rfl⟩

/-- C21.  When names identify terms and 0 is neutral for the aggregation operator (the sum if there
is none) on the degrees, the degree of a group is the activation degree of its term. -/
theorem grouped_activationDegree (g g' : Aggregated S) (h : g.grouped = .ok g')
    (hid : ∀ a ∈ g.terms, ∀ b ∈ g.terms, a.id = b.id ↔ a.term.name = b.term.name)
    (h0 : ∀ a ∈ g.terms, (g.aggregation.getD (.builtin .unboundedSum)).compute (lit 0) a.degree = .ok a.degree)
    (b : Activated S) (hb : b ∈ g'.terms) : g.activationDegree b.id = .ok b.degree := by
  obtain ⟨first, rest, e, h1, h2⟩ := (grouped_spec g g' h).2.2.2 b hb
  have hfirst : first ∈ g.terms := by
    have : first ∈ g.terms.filter (fun a => a.term.name == b.term.name) := by rw [e]; simp
    exact (List.mem_filter.mp this).1
  have hb1 : b.id = first.id ∧ b.term = first.term := by rw [h1]; exact ⟨rfl, rfl⟩
  have key : ∀ (l : List (Activated S)) (s : S), (∀ a ∈ l, a ∈ g.terms) →
      l.foldlM (fun result a => if a.id = b.id then
        (match g.aggregation with
        | some agg => agg.compute result a.degree
        | none => .ok (result + a.degree)) else .ok result) s =
      (l.filter fun a => a.term.name == b.term.name).foldlM
        (fun d a => (g.aggregation.getD (.builtin .unboundedSum)).compute d a.degree) s := by
    intro l
    induction l with
    | nil => intros; rfl
    | cons a l ih =>
      intro s hl
      have ha := hl a (by simp)
      have hiff : a.id = b.id ↔ a.term.name = b.term.name := by
        rw [hb1.1, hb1.2]; exact hid a ha first hfirst
      rw [List.foldlM_cons]
      by_cases hc : a.id = b.id
      · rw [List.filter_cons_of_pos (by simpa using hiff.mp hc), List.foldlM_cons]
        simp only [hc, if_true]
        have : (match g.aggregation with
          | some agg => agg.compute s a.degree
          | none => .ok (s + a.degree)) = (g.aggregation.getD (.builtin .unboundedSum)).compute s a.degree := by
          cases g.aggregation with
          | none => rfl
          | some agg => rfl
        rw [this]
        cases (g.aggregation.getD (.builtin .unboundedSum)).compute s a.degree with
        | error e => rfl
        | ok v => exact ih v (fun a ha => hl a (by simp [ha]))
      · rw [List.filter_cons_of_neg (by simpa using fun hh => hc (hiff.mpr hh))]
        simp only [hc, if_false]
        exact ih s (fun a ha => hl a (by simp [ha]))
  unfold activationDegree
  refine (key g.terms _ (fun _ h => h)).trans ?_
  rw [e, List.foldlM_cons, h0 first hfirst]
  exact h2

/-! ### Removal -/

/-- C22 (partial: the returned reference is excluded).  Removing the activated term at a valid
position leaves all others in their order; an invalid position is rejected without any change. -/
theorem removeTerm_remaining_partial (g : Aggregated S) (pre post : List (Activated S)) (a : Activated S)
    (h : g.terms = pre ++ a :: post) :
    (g.removeTerm pre.length).1 = { g with terms := pre ++ post } ∧
    ∀ i, g.terms.length ≤ i → g.removeTerm i = (g, .error .outOfRange) := by
  constructor
  · unfold removeTerm
    rw [h]
    simp [List.eraseIdx_append_of_length_le]
  · intro i hi
    unfold removeTerm
    rw [if_neg (by omega)]

/-- C22 is violated at every valid position: the result is a reference to storage that `erase` has
invalidated (undefined behaviour when read).  What that storage holds is the *following* activated
term, or nothing if the removed one was last. -/
theorem removeTerm_violated (g : Aggregated S) (i : Nat) (h : i < g.terms.length) :
    (g.removeTerm i).2 = .error .ub ∧ g.removedStorage i = g.terms[i + 1]? := by
  unfold removedStorage removeTerm
  rw [if_pos h]
  refine ⟨rfl, ?_⟩
  rw [List.getElem?_eraseIdx]
  simp

end General

section Maximal
variable {S : Type} [ScalarOrd S]
open ScalarOrd

/-- The maximally activated terms are those with a positive degree that no other degree exceeds, in
the order in which they were added. -/
theorem maximallyActivatedTerms_spec (g : Aggregated S) :
    g.maximallyActivatedTerms = g.terms.filter fun a =>
      lt (lit 0) a.degree && g.terms.all fun b => !lt a.degree b.degree := by
  have key : ∀ l : List (Activated S), ∃ m : S, le (lit 0) m = true ∧
      (l.foldl maximalStep ([], lit 0)) = (l.filter fun a => lt (lit 0) a.degree && Scalar.eq a.degree m, m) ∧
      (∀ b ∈ l, lt m b.degree = false) ∧ (m = lit 0 ∨ ∃ b ∈ l, b.degree = m) := by
    intro l
    induction l using List.reverseRecOn with
    | nil => exact ⟨lit 0, ScalarOrd.le_refl (lit_ne_nan 0), rfl, by simp, Or.inl rfl⟩
    | append_singleton l a ih =>
      obtain ⟨m, h0, hm, hub, hex⟩ := ih
      rw [List.foldl_append, hm]
      simp only [List.foldl_cons, List.foldl_nil]
      unfold maximalStep
      simp only []
      by_cases c1 : lt m a.degree = true
      · have hpos := lt_of_le_of_lt h0 c1
        refine ⟨a.degree, (le_iff _ _).mpr (Or.inl hpos), ?_, ?_, Or.inr ⟨a, by simp, rfl⟩⟩
        · rw [if_pos c1, List.filter_append]
          have e1 : l.filter (fun b => lt (lit 0) b.degree && Scalar.eq b.degree a.degree) = [] := by
            rw [List.filter_eq_nil_iff]
            intro b hb hc
            rw [Bool.and_eq_true, eq_iff] at hc
            have := hub b hb
            rw [hc.2.1, c1] at this
            exact Bool.noConfusion this
          have e2 : Scalar.eq a.degree a.degree = true := (eq_iff _ _).mpr ⟨rfl, (ne_nan_of_lt c1).2⟩
          simp [e1, e2, hpos]
        · intro b hb
          rcases List.mem_append.mp hb with hb | hb
          · by_contra hc
            have := ScalarOrd.lt_trans _ _ _ c1 (by simpa using hc)
            rw [hub b hb] at this; exact Bool.noConfusion this
          · rw [List.mem_singleton.mp hb]; exact lt_irrefl _
      · rw [if_neg c1]
        have hub' : ∀ b ∈ l ++ [a], lt m b.degree = false := by
          intro b hb
          rcases List.mem_append.mp hb with hb | hb
          · exact hub b hb
          · rw [List.mem_singleton.mp hb]; simpa using c1
        have hex' : m = lit 0 ∨ ∃ b ∈ l ++ [a], b.degree = m := by
          rcases hex with h | ⟨b, hb, h⟩
          · exact Or.inl h
          · exact Or.inr ⟨b, by simp [hb], h⟩
        refine ⟨m, h0, ?_, hub', hex'⟩
        by_cases c2 : (lt (lit 0) m && Scalar.eq m a.degree) = true
        · rw [if_pos c2, List.filter_append]
          rw [Bool.and_eq_true, eq_iff] at c2
          have e2 : Scalar.eq m m = true := (eq_iff _ _).mpr ⟨rfl, c2.2.2⟩
          simp [← c2.2.1, c2.1, e2]
        · rw [if_neg c2, List.filter_append]
          have : (lt (lit 0) a.degree && Scalar.eq a.degree m) = false := by
            by_contra hc
            apply c2
            rw [Bool.not_eq_false, Bool.and_eq_true, eq_iff] at hc
            rw [Bool.and_eq_true, eq_iff]
            rw [← hc.2.1]
            exact ⟨hc.1, rfl, hc.2.2⟩
          simp [this]
  obtain ⟨m, h0, hm, hub, hex⟩ := key g.terms
  unfold maximallyActivatedTerms
  rw [hm]
  apply List.filter_congr
  intro a ha
  by_cases hpos : lt (lit 0) a.degree = true
  · rw [hpos, Bool.true_and, Bool.true_and, Bool.eq_iff_iff]
    constructor
    · intro h
      rw [eq_iff] at h
      rw [List.all_eq_true]
      intro b hb
      rw [h.1, hub b hb]; rfl
    · intro h
      rw [List.all_eq_true] at h
      rw [eq_iff]
      refine ⟨?_, (ne_nan_of_lt hpos).2⟩
      rcases hex with rfl | ⟨b, hb, hbm⟩
      · rw [hub a ha] at hpos; exact Bool.noConfusion hpos
      · have h1 := h b hb
        have h2 := hub a ha
        rw [Bool.not_eq_true', hbm] at h1
        rcases lt_total a.degree m (ne_nan_of_lt hpos).2 (ne_nan_of_le h0).2 with c | c | c
        · rw [c] at h1; exact Bool.noConfusion h1
        · exact c
        · rw [c] at h2; exact Bool.noConfusion h2
  · simp [hpos]

end Maximal

section Real
open Ext
variable [Tol ℝ]

/-- C20.  With a bounded built-in S-Norm and memberships of the activated terms in `[0,1]`, the
membership lies in `[0,1]` and is at least that of every activated term. -/
theorem membership_bounded (ctx : Ctx (Ext ℝ)) (g : Aggregated (Ext ℝ)) (x : Ext ℝ) (k : SNormKind) (hk : k ≠ .unboundedSum)
    (hg : g.aggregation = some (.builtin k)) (hx : x ≠ Ext.nan)
    (hm : ∀ a ∈ g.terms, ∃ v : ℝ, a.membership ctx x = .ok (fin v) ∧ 0 ≤ v ∧ v ≤ 1) :
    ∃ r : ℝ, g.membership ctx x = .ok (fin r) ∧ 0 ≤ r ∧ r ≤ 1 ∧
      ∀ a ∈ g.terms, ∃ v : ℝ, a.membership ctx x = .ok (fin v) ∧ v ≤ r := by
  have key : ∀ (l : List (Activated (Ext ℝ))), (∀ a ∈ l, ∃ v : ℝ, a.membership ctx x = .ok (fin v) ∧ 0 ≤ v ∧ v ≤ 1) →
      ∀ s : ℝ, 0 ≤ s → s ≤ 1 → ∃ r : ℝ, l.foldlM (fun mu a => do
        let y ← a.membership ctx x
        (SNorm.builtin k).compute mu y) (fin s) = .ok (fin r) ∧ s ≤ r ∧ r ≤ 1 ∧
        ∀ a ∈ l, ∃ v : ℝ, a.membership ctx x = .ok (fin v) ∧ v ≤ r := by
    intro l
    induction l with
    | nil => intro _ s h0 h1; exact ⟨s, rfl, le_refl _, h1, by simp⟩
    | cons a l ih =>
      intro hl s h0 h1
      obtain ⟨v, hv, hv0, hv1⟩ := hl a (by simp)
      have hr := k.real_range hk s v h0 h1 hv0 hv1
      obtain ⟨r, e, hsr, hr1, hall⟩ := ih (fun b hb => hl b (by simp [hb])) (k.real s v)
        (h0.trans ((le_max_left _ _).trans hr.1)) hr.2
      refine ⟨r, ?_, ((le_max_left _ _).trans hr.1).trans hsr, hr1, ?_⟩
      · rw [List.foldlM_cons, hv]
        simp only [bind, Except.bind, SNorm.compute, k.compute_fin s v h0 h1 hv0 hv1]
        exact e
      · intro b hb
        rcases List.mem_cons.mp hb with rfl | hb
        · exact ⟨v, hv, ((le_max_right _ _).trans hr.1).trans hsr⟩
        · exact hall b hb
  obtain ⟨r, e, h0, h1, hall⟩ := key g.terms hm 0 (le_refl _) (by norm_num)
  refine ⟨r, ?_, h0, h1, hall⟩
  unfold membership
  have hn : Op.isNaN x = false := by cases x <;> simp at hx ⊢
  rw [hn, hg]
  simpa using e

/-- C20.  With the unbounded sum the membership is the sum of those of the activated terms. -/
theorem membership_unboundedSum (ctx : Ctx (Ext ℝ)) (g : Aggregated (Ext ℝ)) (x : Ext ℝ) (vs : List ℝ)
    (hg : g.aggregation = some (.builtin .unboundedSum)) (hx : x ≠ Ext.nan)
    (hm : g.terms.map (fun a => a.membership ctx x) = vs.map fun v => .ok (fin v)) :
    g.membership ctx x = .ok (fin vs.sum) := by
  have key : ∀ (l : List (Activated (Ext ℝ))) (vs : List ℝ),
      l.map (fun a => a.membership ctx x) = vs.map (fun v => .ok (fin v)) → ∀ s : ℝ,
      l.foldlM (fun mu a => do
        let y ← a.membership ctx x
        (SNorm.builtin SNormKind.unboundedSum).compute mu y) (fin s) = .ok (fin (s + vs.sum)) := by
    intro l
    induction l with
    | nil =>
      intro vs h s
      have : vs = [] := by simpa using h.symm
      subst this
      simp; rfl
    | cons a l ih =>
      intro vs h s
      cases vs with
      | nil => simp at h
      | cons v vs =>
        simp only [List.map_cons, List.cons.injEq] at h
        rw [List.foldlM_cons, h.1]
        simp only [bind, Except.bind, SNorm.compute, SNormKind.compute, add_fin] at ih ⊢
        rw [ih vs h.2]
        simp [add_assoc]
  unfold membership
  have hn : Op.isNaN x = false := by cases x <;> simp at hx ⊢
  rw [hn, hg]
  simpa using key g.terms vs hm 0

/-- C20 (partial: HamacherSum is excluded).  With every other built-in S-Norm the membership does
not depend on the order of the activated terms. -/
theorem membership_order_partial (ctx : Ctx (Ext ℝ)) (g g' : Aggregated (Ext ℝ)) (x : Ext ℝ) (k : SNormKind)
    (hk : k ≠ .hamacherSum) (hg : g.aggregation = some (.builtin k)) (hg' : g'.aggregation = some (.builtin k))
    (hp : g.terms.Perm g'.terms)
    (hm : ∀ a ∈ g.terms, ∃ v : ℝ, a.membership ctx x = .ok (fin v) ∧ 0 ≤ v ∧ v ≤ 1) :
    g.membership ctx x = g'.membership ctx x := by
  by_cases hu : k = .unboundedSum
  · subst hu
    refine membership_perm ctx g g' x _ (fun s => ∃ v : ℝ, s = fin v) (fun a b => a + b) ?_ ?_ ?_ ⟨0, by simp⟩ hg hg' hp ?_
    · rintro _ _ ⟨a, rfl⟩ ⟨b, rfl⟩
      exact ⟨rfl, _, rfl⟩
    · rintro _ _ ⟨a, rfl⟩ ⟨b, rfl⟩
      simp [add_comm]
    · rintro _ _ _ ⟨a, rfl⟩ ⟨b, rfl⟩ ⟨c, rfl⟩
      simp [add_assoc]
    · intro a ha
      obtain ⟨v, hv, _⟩ := hm a ha
      exact ⟨_, hv, v, rfl⟩
  · refine membership_perm ctx g g' x _ (fun s => ∃ v : ℝ, s = fin v ∧ 0 ≤ v ∧ v ≤ 1) (fun a b => k.compute a b)
      ?_ ?_ ?_ ⟨0, by simp, le_refl _, by norm_num⟩ hg hg' hp ?_
    · rintro _ _ ⟨a, rfl, ha, ha1⟩ ⟨b, rfl, hb, hb1⟩
      have hr := k.real_range hu a b ha ha1 hb hb1
      exact ⟨rfl, _, k.compute_fin a b ha ha1 hb hb1, ha.trans ((le_max_left _ _).trans hr.1), hr.2⟩
    · rintro _ _ ⟨a, rfl, ha, ha1⟩ ⟨b, rfl, hb, hb1⟩
      exact (snorm_range_comm k a b ha ha1 hb hb1).2
    · rintro _ _ _ ⟨a, rfl, ha, ha1⟩ ⟨b, rfl, hb, hb1⟩ ⟨c, rfl, hc, hc1⟩
      exact snorm_associative_partial k hk a b c ha ha1 hb hb1 hc hc1
    · intro a ha
      obtain ⟨v, hv, h01⟩ := hm a ha
      exact ⟨_, hv, v, rfl, h01⟩

/-- C20.  Adding an activated term never lowers the membership. -/
theorem membership_addTerm_ge (ctx : Ctx (Ext ℝ)) (g : Aggregated (Ext ℝ)) (a : Activated (Ext ℝ)) (x : Ext ℝ) (k : SNormKind)
    (m v : ℝ) (hg : g.aggregation = some (.builtin k)) (hx : x ≠ Ext.nan) (hm : g.membership ctx x = .ok (fin m))
    (hm0 : 0 ≤ m) (hm1 : m ≤ 1 ∨ k = .unboundedSum) (ha : a.membership ctx x = .ok (fin v)) (hv0 : 0 ≤ v) (hv1 : v ≤ 1) :
    ∃ r : ℝ, (g.addTerm a).membership ctx x = .ok (fin r) ∧ m ≤ r ∧ v ≤ r := by
  have hn : Op.isNaN x = false := by cases x <;> simp at hx ⊢
  rw [membership_addTerm ctx g a x _ _ _ hg hn hm ha]
  by_cases hu : k = .unboundedSum
  · subst hu
    exact ⟨m + v, rfl, by linarith, by linarith⟩
  · have hm1' := hm1.resolve_right hu
    have hr := k.real_range hu m v hm0 hm1' hv0 hv1
    exact ⟨_, by rw [SNorm.compute, k.compute_fin m v hm0 hm1' hv0 hv1], (le_max_left _ _).trans hr.1,
      (le_max_right _ _).trans hr.1⟩

/-- C21 (partial: NilpotentMaximum is excluded).  With every other built-in S-Norm, or none, and
degrees in `[0,1]`, the degree of a group is the activation degree of its term. -/
theorem grouped_activationDegree_partial (g g' : Aggregated (Ext ℝ)) (h : g.grouped = .ok g') (hε : (tol : ℝ) ≤ 1)
    (hagg : g.aggregation = none ∨ ∃ k : SNormKind, k ≠ .nilpotentMaximum ∧ g.aggregation = some (.builtin k))
    (hid : ∀ a ∈ g.terms, ∀ b ∈ g.terms, a.id = b.id ↔ a.term.name = b.term.name)
    (hd : ∀ a ∈ g.terms, ∃ v : ℝ, a.degree = fin v ∧ 0 ≤ v ∧ v ≤ 1)
    (b : Activated (Ext ℝ)) (hb : b ∈ g'.terms) : g.activationDegree b.id = .ok b.degree := by
  apply grouped_activationDegree g g' h hid _ b hb
  intro a ha
  obtain ⟨v, hv, h0, h1⟩ := hd a ha
  rw [hv]
  rcases hagg with hn | ⟨k, hk, hs⟩
  · rw [hn]
    simp [SNorm.compute, SNormKind.compute]
  · rw [hs]
    have := (snorm_zero_partial k hk hε v h0 h1).2
    simp only [Option.getD_some, SNorm.compute, ofRat_def, Rat.cast_zero]
    rw [this]

/-- C21 is violated by NilpotentMaximum: the group of a single activated term within the tolerance
of 1 keeps its degree, but its activation degree is 1. -/
theorem grouped_activationDegree_violated (hε : (tol : ℝ) ≤ 1) :
    ∃ (g : Aggregated (Ext ℝ)) (b : Activated (Ext ℝ)) (v : ℝ), 0 < v ∧ v < 1 ∧ g.grouped = .ok g ∧ g.terms = [b] ∧
      b.degree = fin v ∧ g.activationDegree b.id = .ok (fin 1) := by
  have ht := tol_pos
  let b : Activated (Ext ℝ) := ⟨0, ⟨cs! "t", fin 1, .constant (fin 0)⟩, fin (1 - tol / 2), none⟩
  refine ⟨⟨[], fin 0, fin 1, some (.builtin .nilpotentMaximum), [b]⟩, b, 1 - tol / 2, by linarith, by linarith, rfl, rfl, rfl, ?_⟩
  have hc : SNormKind.nilpotentMaximum.compute (fin 0) (fin (1 - tol / 2)) = fin 1 := by
    rw [SNormKind.compute_fin _ _ _ (le_refl _) (by norm_num) (by linarith) (by linarith)]
    simp only [SNormKind.real]
    rw [if_neg (by linarith)]
  simp [activationDegree, b, SNorm.compute, hc]

end Real
end Aggregated
end FL

namespace FL
open Scalar Ext

/-- C20.  The membership of an activated term is at most that of its term and at most its degree, for
every built-in implication operator. -/
theorem Activated.membership_range [Tol ℝ] (ctx : Ctx (Ext ℝ)) (a : Activated (Ext ℝ)) (x : Ext ℝ) (k : TNormKind) (m d : ℝ)
    (hi : a.implication = some (.builtin k)) (hx : x ≠ Ext.nan) (hm : a.term.membership ctx x = .ok (fin m))
    (hd : a.degree = fin d) (hm0 : 0 ≤ m) (hm1 : m ≤ 1) (hd0 : 0 ≤ d) (hd1 : d ≤ 1) :
    ∃ r : ℝ, a.membership ctx x = .ok (fin r) ∧ 0 ≤ r ∧ r ≤ m ∧ r ≤ d := by
  have hn : Op.isNaN x = false := by cases x <;> simp at hx ⊢
  obtain ⟨r, h1, h2⟩ := (tnorm_range_comm k m d hm0 hm1 hd0 hd1).1
  refine ⟨r, ?_, h2⟩
  unfold membership
  rw [hn, hi]
  simp [hm, bind, Except.bind, TNorm.compute, hd, h1]

/-- C20.  A missing implication operator is an exception. -/
theorem Activated.membership_missing {S : Type} [Scalar S] (ctx : Ctx S) (a : Activated S) (x : S)
    (hi : a.implication = none) (hx : Op.isNaN x = false) : a.membership ctx x = .error .missingImplication := by
  unfold membership
  rw [hx, hi]
  rfl

/-- a constant activated term: its membership is the given value whatever its degree -/
def flat (v : ℝ) : Activated (Ext ℝ) := ⟨0, ⟨cs! "t", fin 1, .constant (fin v)⟩, fin 1, some (.builtin .minimum)⟩

/-- C20 is violated by HamacherSum at the shipped tolerance: the order in which three terms are
added changes the membership. -/
theorem Aggregated.membership_order_violated : letI := Tol.default
    ∃ (g g' : Aggregated (Ext ℝ)), g.aggregation = some (.builtin .hamacherSum) ∧
      g'.aggregation = some (.builtin .hamacherSum) ∧ g.terms.Perm g'.terms ∧
      (∀ a ∈ g.terms, ∃ v : ℝ, a.membership ⟨[], []⟩ (fin 0) = .ok (fin v) ∧ 0 ≤ v ∧ v ≤ 1) ∧
      g.membership ⟨[], []⟩ (fin 0) = .ok (fin 1) ∧
      ∃ r : ℝ, r < 1 ∧ g'.membership ⟨[], []⟩ (fin 0) = .ok (fin r) := by
  let _ := Tol.default
  have hε : (tol : ℝ) ≤ 1 := by have : (tol : ℝ) = 1 / 1000000 := rfl; rw [this]; norm_num
  obtain ⟨a, b, c, ⟨ha, ha1⟩, ⟨hb, hb1⟩, ⟨hc, hc1⟩, h1, r, hr, h2⟩ := snorm_hamacher_associative_violated
  have hz := fun v h h' => (snorm_zero_partial .hamacherSum (by decide) hε v h h').2
  have hv : ∀ v : ℝ, 0 ≤ v → v ≤ 1 → (flat v).membership ⟨[], []⟩ (fin 0) = .ok (fin v) := by
    intro v h0 h1
    simp [flat, Activated.membership, Term.membership, TNorm.compute, TNormKind.compute, bind, Except.bind, h1]
  refine ⟨⟨[], fin 0, fin 1, some (.builtin .hamacherSum), [flat a, flat b, flat c]⟩,
    ⟨[], fin 0, fin 1, some (.builtin .hamacherSum), [flat b, flat c, flat a]⟩, rfl, rfl, ?_, ?_, ?_, r, hr, ?_⟩
  · exact (List.perm_append_comm (l₁ := [flat a]) (l₂ := [flat b, flat c]))
  · intro t ht
    simp only [List.mem_cons, List.not_mem_nil, or_false] at ht
    rcases ht with rfl | rfl | rfl
    · exact ⟨a, hv a ha ha1, ha, ha1⟩
    · exact ⟨b, hv b hb hb1, hb, hb1⟩
    · exact ⟨c, hv c hc hc1, hc, hc1⟩
  · simp [membership, hv, *, bind, Except.bind, SNorm.compute, List.foldlM_cons, pure, Except.pure]
  · have hcomm : SNormKind.hamacherSum.compute (SNormKind.hamacherSum.compute (fin b) (fin c)) (fin a) = fin r := by
      rw [← h2]
      have hbc := SNormKind.real_range .hamacherSum (by decide) b c hb hb1 hc hc1
      rw [SNormKind.compute_fin _ b c hb hb1 hc hc1]
      exact (snorm_range_comm .hamacherSum _ _ (hb.trans ((le_max_left _ _).trans hbc.1)) hbc.2 ha ha1).2
    simp [membership, hv, *, bind, Except.bind, SNorm.compute, List.foldlM_cons, pure, Except.pure]

section Example
/-- two terms, the first activated twice -/
def demo : Aggregated (Ext ℚ) :=
  let a : Term (Ext ℚ) := ⟨cs! "a", fin 1, .shape (.triangle (fin 0) (fin 1) (fin 2))⟩
  let b : Term (Ext ℚ) := ⟨cs! "b", fin 1, .shape (.triangle (fin 1) (fin 2) (fin 3))⟩
  ⟨cs! "out", fin 0, fin 3, some (.builtin .maximum),
    [⟨0, a, fin (1/4), some (.builtin .minimum)⟩, ⟨1, b, fin (1/3), some (.builtin .minimum)⟩,
     ⟨0, a, fin (1/2), some (.builtin .minimum)⟩]⟩

example : demo.membership ⟨[], []⟩ (fin (3/2)) = .ok (fin (1/2)) := by decide +kernel
example : (demo.grouped.toOption.map fun g => g.terms.map fun t => (t.term.name, t.degree)) =
    some [(cs! "a", fin (1/2)), (cs! "b", fin (1/3))] := by decide +kernel
example : demo.activationDegree 0 = .ok (fin (1/2)) := by decide +kernel
example : demo.maximallyActivatedTerms.map (fun t => t.id) = [0] := by decide +kernel
/-- removing position 0 leaves the other two; the result designates the following element -/
example : ((demo.removeTerm 0).1.terms.map fun t => t.id) = [1, 0] ∧
    (demo.removedStorage 0).map (fun t => t.id) = some 1 ∧ (demo.removedStorage 2).map (fun t => t.id) = none := by
  decide +kernel
end Example
end FL
