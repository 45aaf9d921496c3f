/-
C96 for weighted defuzzifiers: with Maximum, rules are a set for WeightedAverage and WeightedSum as well.
-/
import Verif.Props.RuleSet
import Verif.Props.Weighted

namespace FL
open Scalar

/-! ### engines whose output variables do not count terms -/

section settled
variable {S : Type} [ScalarOrd S]
open ScalarOrd

/-- defuzzifying depends on which activated terms there are, but not on their order nor on how often they occur -/
def OutputVariable.Settled (ins : List (Str × S)) (o : OutputVariable S) : Prop :=
  ∀ ts : List (Activated S), (∀ a, a ∈ ts ↔ a ∈ o.fuzzy.terms) → o.SameWorth ins { o with fuzzy := { o.fuzzy with terms := ts } }

theorem OutputVariable.settled_maximal (ins : List (Str × S)) (o : OutputVariable S) (h : o.Maximal ins) : o.Settled ins := by
  intro ts hts hen
  obtain ⟨⟨k, n, hd⟩, hagg, hm⟩ := h hen
  refine OutputVariable.sameWorth_maximum ins o _ k n rfl hd hagg (fun outs x => ?_) hen
  refine ⟨fun a => match a.membership ⟨ins, outs⟩ x with
    | .ok v => v
    | .error _ => nan, ?_, ?_, ?_⟩
  · intro a ha
    have ha : a ∈ o.fuzzy.terms := by
      rcases List.mem_append.1 ha with ha | ha
      · exact ha
      · exact (hts a).1 ha
    obtain ⟨v, hv⟩ := hm a ha outs x
    simp only [hv]
  · exact fun a ha => foldl_max_absorbs _ _ _ (List.mem_map_of_mem ((hts a).2 ha))
  · exact fun a ha => foldl_max_absorbs _ _ _ (List.mem_map_of_mem ((hts a).1 ha))

theorem OutputVariable.settled_before {ins : List (Str × S)} (o : OutputVariable S) (z y : S) (h : OutputVariable.Settled ins { o with
    value := z
    previous := y }) : o.Settled ins := by
  intro ts hts hen d hd outs
  exact h ts hts hen d hd outs

/-- what holds of the output variables afterwards held before they were defuzzified, if it is not about their values -/
theorem Engine.process_before [Heap S] {e : Engine S} {w : World S} {A : List (VarRef × Activated S)} {bs' : List (RuleBlock S)}
    (P : OutputVariable S → Prop) (hP : ∀ (o : OutputVariable S) z y, P { o with
      value := z
      previous := y } → P o)
    (hw : (⟨e.inputs, e.outputs.map fun o => { o with fuzzy := o.fuzzy.clear }⟩ : World S) = w)
    (h1 : activateBlocks w e.blocks = (w.append A, bs', none)) (hok : e.process.2 = none)
    (hmax : ∀ o ∈ e.process.1.outputs, P o) : ∀ o ∈ (w.append A).outputs, P o := by
  have hins : w.inputs = e.inputs := by rw [← hw]
  have hout : ∃ r, defuzzifyAll e.inputs [] (w.append A).outputs = (r, none) ∧ e.process.1.outputs = r := by
    unfold process at hok ⊢
    simp only [hw, h1] at hok ⊢
    have hi : (w.append A).inputs = e.inputs := hins
    rw [hi] at hok ⊢
    generalize defuzzifyAll e.inputs [] (w.append A).outputs = q at hok ⊢
    obtain ⟨r, err⟩ := q
    simp only at hok
    subst hok
    exact ⟨r, rfl, rfl⟩
  obtain ⟨r, hr, hr'⟩ := hout
  rw [hr'] at hmax
  obtain ⟨qs, hq1, hq2⟩ := defuzzifyAll_kept e.inputs _ hr
  rw [List.nil_append] at hq1
  subst hq1
  intro o ho
  obtain ⟨p, hp, z, y, hz⟩ : ∃ p ∈ r, ∃ z y, p = { o with
      value := z
      previous := y } := by
    rw [List.forall₂_iff_get] at hq2
    obtain ⟨i, hi, rfl⟩ := List.getElem_of_mem ho
    exact ⟨r[i]'(hq2.1 ▸ hi), List.getElem_mem _, hq2.2 i hi (hq2.1 ▸ hi)⟩
  have := hmax p hp
  rw [hz] at this
  exact hP o z y this

/-- **C96 (partial: antecedents about input variables, and output variables whose defuzzifiers do not count terms).**  If an engine is
processed without exception, so is one that has the same rules in another order or more than once, and the values of the output variables are
the same, in every number format. -/
theorem Engine.process_settled_partial [Heap S] (e : Engine S) (cs : List (RuleBlock S)) (h : List.Forall₂ RuleBlock.SameRules e.blocks cs)
    (hin : ∀ b ∈ e.blocks, ∀ r ∈ b.rules, r.OnInputs) (hok : e.process.2 = none)
    (hset : ∀ o ∈ e.process.1.outputs, o.Settled (e.inputs.map fun v => (v.name, v.value))) :
    ({ e with blocks := cs }).process.2 = none ∧ ({ e with blocks := cs }).process.1.outputValues = e.process.1.outputValues := by
  generalize hw : (⟨e.inputs, e.outputs.map fun o => { o with fuzzy := o.fuzzy.clear }⟩ : World S) = w
  have hins : w.inputs = e.inputs := by rw [← hw]
  have hn : (activateBlocks w e.blocks).2.2 = none := by
    unfold process at hok
    simp only [hw] at hok
    generalize activateBlocks w e.blocks = q at hok ⊢
    obtain ⟨w1, b1, e1⟩ := q
    cases e1 with
    | none => rfl
    | some e => simp at hok
  obtain ⟨A, B, bs', cs', hAB, h1, h2⟩ := blocks_sameRules w h hin [] (by rw [World.append_nil]; exact hn)
  have h1 := h1 []
  have h2 := h2 []
  rw [World.append_nil, List.nil_append] at h1 h2
  obtain ⟨P, hP⟩ : ∃ P : OutputVariable S → Prop, P = fun o => o.Settled (e.inputs.map fun v => (v.name, v.value)) := ⟨_, rfl⟩
  have hset' : ∀ o ∈ (w.append A).outputs, P o := by
    refine process_before P ?_ hw h1 hok ?_
    · intro o z y h
      rw [hP] at h ⊢
      exact OutputVariable.settled_before o z y h
    · intro o ho
      rw [hP]
      exact hset o ho
  rw [hP] at hset'
  have key := process_alike e cs (w1 := w.append A) (w2 := w.append B) (bs' := bs') (cs' := cs') (by rw [hw]; exact h1) (by rw [hw]; exact h2) rfl (by
    rw [List.forall₂_iff_get]
    refine ⟨by simp [World.append], fun i i1 i2 => ?_⟩
    have hal : ((w.append A).outputs.get ⟨i, i1⟩).Alike ((w.append B).outputs.get ⟨i, i2⟩) := by
      simp only [World.append, List.get_eq_getElem, List.getElem_mapIdx]
      rfl
    have hmem : ∀ a, a ∈ ((w.append B).outputs.get ⟨i, i2⟩).fuzzy.terms ↔ a ∈ ((w.append A).outputs.get ⟨i, i1⟩).fuzzy.terms := by
      intro a
      simp only [World.append, List.get_eq_getElem, List.getElem_mapIdx, List.mem_append, List.mem_map, List.mem_filter, hAB]
    have hs := hset' _ (List.get_mem _ ⟨i, i1⟩)
    have hi : (w.append A).inputs = e.inputs := hins
    rw [hi]
    clear hset' hset h1 h2
    generalize (w.append A).outputs.get ⟨i, i1⟩ = o at hal hmem hs ⊢
    generalize (w.append B).outputs.get ⟨i, i2⟩ = p at hal hmem ⊢
    have := hs _ hmem
    rw [← hal] at this
    exact ⟨hal, this⟩)
  refine ⟨key.1.trans hok, values_alike ?_⟩
  exact key.2

end settled

/-! ### groups with Maximum -/

section grouped
variable {S : Type} [ScalarOrd S]
open ScalarOrd

theorem foldl_max_out (l : List S) (z a : S) : l.foldl Op.max (Op.max z a) = Op.max z (l.foldl Op.max a) := by
  induction l generalizing a with
  | nil => rfl
  | cons b l ih => rw [List.foldl_cons, List.foldl_cons, opMax_assoc, ih]

/-- the maximum of a list that is not empty depends on its members only -/
theorem foldl_max_mem (a b : S) (l m : List S) (h : ∀ d, d ∈ b :: m ↔ d ∈ a :: l) : l.foldl Op.max a = m.foldl Op.max b := by
  have absorbs : ∀ (a : S) (l : List S), ∀ d ∈ a :: l, Op.max (l.foldl Op.max a) d = l.foldl Op.max a := by
    intro a l d hd
    have := foldl_max_absorbs (a :: l) a d hd
    rw [List.foldl_cons, opMax_self] at this
    exact this
  have all : ∀ (l : List S) (y : S), (∀ d ∈ l, Op.max y d = y) → l.foldl Op.max y = y := by
    intro l
    induction l with
    | nil => intros; rfl
    | cons d l ih =>
      intro y hy
      rw [List.foldl_cons, hy d List.mem_cons_self]
      exact ih y fun c hc => hy c (List.mem_cons_of_mem _ hc)
  have e1 := all (a :: l) _ fun d hd => absorbs b m d ((h d).2 hd)
  have e2 := all (b :: m) _ fun d hd => absorbs a l d ((h d).1 hd)
  rw [List.foldl_cons, foldl_max_out] at e1 e2
  rw [← e1, opMax_comm, e2]

namespace Weighted

/-- with Maximum, the degree of a group is the greatest of its degrees -/
theorem combined_maximum (a : Activated S) (l : List (Activated S)) :
    Aggregated.combined (.builtin .maximum) (a :: l) = .ok ((l.map Activated.degree).foldl Op.max a.degree) := by
  simp only [Aggregated.combined]
  generalize a.degree = d
  induction l generalizing d with
  | nil => rfl
  | cons b l ih =>
    rw [List.foldlM_cons, List.map_cons, List.foldl_cons]
    exact ih _

/-- groups of the same name are the same in fuzzy outputs with Maximum that have the same activated terms -/
theorem grouped_agree (g₁ g₂ g₁' g₂' : Aggregated S) (h₁ : g₁.grouped = .ok g₁') (h₂ : g₂.grouped = .ok g₂')
    (hagg : g₁.aggregation = some (.builtin .maximum)) (hagg' : g₂.aggregation = some (.builtin .maximum))
    (hm : ∀ a, a ∈ g₂.terms ↔ a ∈ g₁.terms)
    (hname : ∀ a ∈ g₁.terms, ∀ b ∈ g₁.terms, a.term.name = b.term.name → a.term = b.term) :
    ∀ b₁ ∈ g₁'.terms, ∀ b₂ ∈ g₂'.terms, b₁.term.name = b₂.term.name → b₁.term = b₂.term ∧ b₁.degree = b₂.degree := by
  obtain ⟨-, n1, d1, s1⟩ := Aggregated.grouped_spec g₁ g₁' h₁
  obtain ⟨-, n2, d2, s2⟩ := Aggregated.grouped_spec g₂ g₂' h₂
  intro b₁ hb₁ b₂ hb₂ hn
  obtain ⟨f₁, r₁, e₁, k₁, c₁⟩ := s1 b₁ hb₁
  obtain ⟨f₂, r₂, e₂, k₂, c₂⟩ := s2 b₂ hb₂
  have m₁ : f₁ ∈ g₁.terms.filter fun a => a.term.name == b₁.term.name := by rw [e₁]; simp
  have m₂ : f₂ ∈ g₂.terms.filter fun a => a.term.name == b₂.term.name := by rw [e₂]; simp
  rw [List.mem_filter] at m₁ m₂
  have t₁ : b₁.term = f₁.term := by rw [k₁]
  have t₂ : b₂.term = f₂.term := by rw [k₂]
  constructor
  · rw [t₁, t₂]
    apply hname f₁ m₁.1 f₂ ((hm _).1 m₂.1)
    rw [← t₁, ← t₂]; exact hn
  · rw [hagg, Option.getD_some, combined_maximum, Except.ok.injEq] at c₁
    rw [hagg', Option.getD_some, combined_maximum, Except.ok.injEq] at c₂
    have hmem : ∀ a, a ∈ f₂ :: r₂ ↔ a ∈ f₁ :: r₁ := by
      intro a
      rw [← e₁, ← e₂, List.mem_filter, List.mem_filter, hm, hn]
    rw [← c₁, ← c₂]
    refine foldl_max_mem _ _ _ _ fun d => ?_
    rw [← List.map_cons, ← List.map_cons, List.mem_map, List.mem_map]
    simp only [hmem]

omit [ScalarOrd S] in
/-- lists of groups with the same names in the same order are the same if groups of the same name are -/
theorem eq_of_names : ∀ (l₁ l₂ : List (Activated S)), (l₁.map fun a => a.term.name) = (l₂.map fun a => a.term.name) →
    (∀ b₁ ∈ l₁, ∀ b₂ ∈ l₂, b₁.term.name = b₂.term.name → b₁.term = b₂.term ∧ b₁.degree = b₂.degree) →
    (l₁.map fun a => (a.term, a.degree)) = (l₂.map fun a => (a.term, a.degree))
  | [], [], _, _ => rfl
  | [], _ :: _, h, _ => by simp at h
  | _ :: _, [], h, _ => by simp at h
  | a :: l₁, b :: l₂, h, hag => by
    simp only [List.map_cons, List.cons.injEq] at h
    have hab := hag a List.mem_cons_self b List.mem_cons_self h.1
    simp only [List.map_cons, hab.1, hab.2]
    rw [eq_of_names l₁ l₂ h.2 fun b₁ hb₁ b₂ hb₂ => hag b₁ (List.mem_cons_of_mem _ hb₁) b₂ (List.mem_cons_of_mem _ hb₂)]

omit [ScalarOrd S] in
/-- the same up to order -/
theorem perm_of_names (l₁ l₂ : List (Activated S)) (h : (l₁.map fun a => a.term.name).Perm (l₂.map fun a => a.term.name))
    (hag : ∀ b₁ ∈ l₁, ∀ b₂ ∈ l₂, b₁.term.name = b₂.term.name → b₁.term = b₂.term ∧ b₁.degree = b₂.degree) :
    (l₁.map fun a => (a.term, a.degree)).Perm (l₂.map fun a => (a.term, a.degree)) := by
  induction l₁ generalizing l₂ with
  | nil =>
    have : l₂ = [] := by simpa using h.symm
    subst this; exact List.Perm.refl _
  | cons a l₁ ih =>
    have : a.term.name ∈ l₂.map fun a => a.term.name := h.mem_iff.1 (by simp)
    obtain ⟨b, hb, hbn⟩ := List.mem_map.1 this
    obtain ⟨pre, post, rfl⟩ := List.append_of_mem hb
    have hpm : (pre ++ b :: post).Perm (b :: (pre ++ post)) := List.perm_middle
    have hab := hag a (by simp) b hb hbn.symm
    have h' : (l₁.map fun a => a.term.name).Perm ((pre ++ post).map fun a => a.term.name) := by
      have h2 := h.trans (hpm.map _)
      simp only [List.map_cons, hbn] at h2
      exact h2.cons_inv
    refine List.Perm.trans ?_ (hpm.map _).symm
    simp only [List.map_cons, hab.1, hab.2]
    exact (ih _ h' fun b₁ hb₁ b₂ hb₂ => hag b₁ (List.mem_cons_of_mem _ hb₁) b₂ (by
      rcases List.mem_append.1 hb₂ with h | h <;> simp [h])).cons _

theorem value_congr (ctx : Ctx S) (type : WeightedType) {a b : Activated S} (h1 : a.term = b.term) (h2 : a.degree = b.degree) :
    value ctx type a = value ctx type b := by
  cases type <;> simp only [value, h1, h2]

/-- **C96, weighted defuzzifiers in every number format**: with Maximum, activated terms that repeat earlier ones change nothing. -/
theorem defuzzify_repeated (ctx : Ctx S) (k : WeightedKind) (type : WeightedType) (ht : type ≠ .automatic) (g₁ g₂ : Aggregated S)
    (hagg : g₁.aggregation = some (.builtin .maximum)) (hagg' : g₂.aggregation = some (.builtin .maximum))
    (hm : ∀ a, a ∈ g₂.terms ↔ a ∈ g₁.terms)
    (hord : (g₂.terms.map fun a => a.term.name).eraseDups = (g₁.terms.map fun a => a.term.name).eraseDups)
    (hname : ∀ a ∈ g₁.terms, ∀ b ∈ g₁.terms, a.term.name = b.term.name → a.term = b.term) :
    defuzzify ctx k type g₂ = defuzzify ctx k type g₁ := by
  by_cases hne : g₁.terms = []
  · have hne' : g₂.terms = [] := by
      rw [hne] at hm
      exact List.eq_nil_iff_forall_not_mem.2 fun a ha => by simpa using (hm a).1 ha
    rw [defuzzify_empty _ _ _ _ hne, defuzzify_empty _ _ _ _ hne']
  have hne' : g₂.terms ≠ [] := by
    intro h
    rw [h] at hm
    exact hne (List.eq_nil_iff_forall_not_mem.2 fun a ha => by simpa using (hm a).2 ha)
  obtain ⟨g₁', h₁⟩ := Aggregated.grouped_ok g₁ (by intro f; simp [hagg])
  obtain ⟨g₂', h₂⟩ := Aggregated.grouped_ok g₂ (by intro f; simp [hagg'])
  obtain ⟨-, n1, -, -⟩ := Aggregated.grouped_spec g₁ g₁' h₁
  obtain ⟨-, n2, -, -⟩ := Aggregated.grouped_spec g₂ g₂' h₂
  have he := eq_of_names _ _ (by rw [n1, n2, hord]) (grouped_agree g₁ g₂ g₁' g₂' h₁ h₂ hagg hagg' hm hname)
  have hs : sums (value ctx type) g₂'.terms = sums (value ctx type) g₁'.terms := by
    unfold sums
    generalize ((lit 0, lit 0) : S × S) = z
    generalize g₁'.terms = l₁ at he
    generalize g₂'.terms = l₂ at he
    induction l₁ generalizing l₂ z with
    | nil =>
      cases l₂ with
      | nil => rfl
      | cons b l₂ => simp at he
    | cons a l₁ ih =>
      cases l₂ with
      | nil => simp at he
      | cons b l₂ =>
        simp only [List.map_cons, List.cons.injEq, Prod.mk.injEq] at he
        rw [List.foldlM_cons, List.foldlM_cons, value_congr ctx type he.1.1 he.1.2, he.1.2]
        cases value ctx type b with
        | error e => rfl
        | ok z => exact ih _ l₂ he.2
  rw [defuzzify_explicit ctx _ type ht g₁ g₁' hne h₁, defuzzify_explicit ctx _ type ht g₂ g₂' hne' h₂, hs]

end Weighted
end grouped

section real
open Ext
variable [Tol ℝ]

/-- **C96, weighted defuzzifiers in exact arithmetic**: with Maximum, the order and the number of activated terms change nothing. -/
theorem Weighted.defuzzify_set (ctx : Ctx (Ext ℝ)) (k : WeightedKind) (type : WeightedType) (ht : type ≠ .automatic)
    (g₁ g₂ g₁' : Aggregated (Ext ℝ)) (h₁ : g₁.grouped = .ok g₁')
    (hagg : g₁.aggregation = some (.builtin .maximum)) (hagg' : g₂.aggregation = some (.builtin .maximum))
    (hm : ∀ a, a ∈ g₂.terms ↔ a ∈ g₁.terms)
    (hname : ∀ a ∈ g₁.terms, ∀ b ∈ g₁.terms, a.term.name = b.term.name → a.term = b.term)
    (hz : ∀ a ∈ g₁'.terms, ∃ w v : ℝ, a.degree = fin w ∧ value ctx type a = .ok (fin v)) :
    defuzzify ctx k type g₂ = defuzzify ctx k type g₁ := by
  by_cases hne : g₁.terms = []
  · have hne' : g₂.terms = [] := by
      rw [hne] at hm
      exact List.eq_nil_iff_forall_not_mem.2 fun a ha => by simpa using (hm a).1 ha
    rw [defuzzify_empty _ _ _ _ hne, defuzzify_empty _ _ _ _ hne']
  have hne' : g₂.terms ≠ [] := by
    intro h
    rw [h] at hm
    exact hne (List.eq_nil_iff_forall_not_mem.2 fun a ha => by simpa using (hm a).2 ha)
  obtain ⟨g₂', h₂⟩ := Aggregated.grouped_ok g₂ (by intro f; simp [hagg'])
  have hgp : (g₁'.terms.map fun a => (a.term, a.degree)).Perm (g₂'.terms.map fun a => (a.term, a.degree)) := by
    obtain ⟨-, n1, d1, -⟩ := Aggregated.grouped_spec g₁ g₁' h₁
    obtain ⟨-, n2, d2, -⟩ := Aggregated.grouped_spec g₂ g₂' h₂
    refine perm_of_names _ _ ((List.perm_ext_iff_of_nodup d1 d2).2 fun n => ?_) (grouped_agree g₁ g₂ g₁' g₂' h₁ h₂ hagg hagg' hm hname)
    rw [n1, n2, List.mem_eraseDups, List.mem_eraseDups]
    simp only [List.mem_map, hm]
  let q : Term (Ext ℝ) × Ext ℝ → ℝ × ℝ := fun p =>
    ((match p.2 with | .fin w => w | _ => 0),
      (match value ctx type ⟨0, p.1, p.2, none⟩ with | .ok (.fin v) => v | _ => 0))
  have hq : ∀ a : Activated (Ext ℝ), (∃ w v : ℝ, a.degree = fin w ∧ value ctx type a = .ok (fin v)) →
      a.degree = fin (q (a.term, a.degree)).1 ∧ value ctx type a = .ok (fin (q (a.term, a.degree)).2) := by
    rintro a ⟨w, v, hw, hv⟩
    have : value ctx type ⟨0, a.term, a.degree, none⟩ = .ok (fin v) := by rw [← hv]; exact value_congr ctx type rfl rfl
    constructor
    · simp only [q]; rw [hw]
    · simp only [q]; rw [this, hv]
  have hz' : ∀ a ∈ g₂'.terms, ∃ w v : ℝ, a.degree = fin w ∧ value ctx type a = .ok (fin v) := by
    intro a ha
    have : (a.term, a.degree) ∈ g₁'.terms.map fun a => (a.term, a.degree) :=
      hgp.mem_iff.2 (List.mem_map.2 ⟨a, ha, rfl⟩)
    obtain ⟨b, hb, he⟩ := List.mem_map.1 this
    obtain ⟨w, v, h1, h2⟩ := hz b hb
    simp only [Prod.mk.injEq] at he
    exact ⟨w, v, by rw [← he.2, h1], by rw [← h2]; exact value_congr ctx type he.1.symm he.2.symm⟩
  have e : ∀ (f : ℝ × ℝ → ℝ), (g₁'.terms.map fun a => f (q (a.term, a.degree))).sum =
      (g₂'.terms.map fun a => f (q (a.term, a.degree))).sum := by
    intro f
    have := (hgp.map fun p => f (q p)).sum_eq
    simpa [List.map_map, Function.comp_def] using this
  rw [defuzzify_explicit ctx _ type ht g₁ g₁' hne h₁, defuzzify_explicit ctx _ type ht g₂ g₂' hne' h₂,
    sums_fin _ _ (fun a => (q (a.term, a.degree)).1) (fun a => (q (a.term, a.degree)).2) fun a ha => hq a (hz a ha),
    sums_fin _ _ (fun a => (q (a.term, a.degree)).1) (fun a => (q (a.term, a.degree)).2) fun a ha => hq a (hz' a ha),
    e fun p => p.1 * p.2, e fun p => p.1]

/-- **C96.**  In exact arithmetic an output variable with Maximum and a weighted defuzzifier does not count terms, provided that names
identify terms and that the groups of activated terms have finite values. -/
theorem OutputVariable.settled_weighted (ins : List (Str × Ext ℝ)) (o : OutputVariable (Ext ℝ)) (k : WeightedKind) (type actual : WeightedType)
    (hd : o.defuzzifier = some (.weighted k type)) (ht : Weighted.Resolved type o.fuzzy.terms actual)
    (hagg : o.fuzzy.aggregation = some (.builtin .maximum))
    (hname : ∀ a ∈ o.fuzzy.terms, ∀ b ∈ o.fuzzy.terms, a.term.name = b.term.name → a.term = b.term)
    (hz : ∀ g, o.fuzzy.grouped = .ok g → ∀ a ∈ g.terms, ∀ outs, ∃ w v : ℝ, a.degree = fin w ∧ Weighted.value ⟨ins, outs⟩ actual a = .ok (fin v)) :
    o.Settled ins := by
  intro ts hts _ d hd' outs
  rw [hd, Option.some.injEq] at hd'
  subst hd'
  unfold Defuzzifier.defuzzify
  simp only
  obtain ⟨g, hg⟩ := Aggregated.grouped_ok o.fuzzy (by intro f; simp [hagg])
  have hact : actual ≠ .automatic := by
    rcases ht with ⟨_, h⟩ | ⟨_, h, _⟩ | ⟨_, h, _⟩
    · exact h
    · rw [h]; simp
    · rw [h]; simp
  have hmain := Weighted.defuzzify_set ⟨ins, outs⟩ k actual hact o.fuzzy { o.fuzzy with terms := ts } g hg hagg hagg hts hname
    fun a ha => hz g hg a ha outs
  by_cases hne : o.fuzzy.terms = []
  · have hts' : ts = [] := by
      rw [hne] at hts
      exact List.eq_nil_iff_forall_not_mem.2 fun a ha => by simpa using (hts a).1 ha
    rw [Weighted.defuzzify_empty _ _ _ o.fuzzy hne, Weighted.defuzzify_empty _ _ _ { o.fuzzy with terms := ts } hts']
  · have hne' : ts ≠ [] := by
      intro h
      rw [h] at hts
      exact hne (List.eq_nil_iff_forall_not_mem.2 fun a ha => by simpa using (hts a).2 ha)
    rcases ht with ⟨h1, _⟩ | ⟨h1, h2, h3⟩ | ⟨h1, h2, h3⟩
    · rw [h1]; exact hmain
    · rw [h2] at hmain
      rw [h1, (Weighted.defuzzify_automatic _ k o.fuzzy hne).1 h3,
        (Weighted.defuzzify_automatic _ k { o.fuzzy with terms := ts } hne').1 fun a ha => h3 a ((hts a).1 ha)]
      exact hmain
    · rw [h2] at hmain
      rw [h1, (Weighted.defuzzify_automatic _ k o.fuzzy hne).2.1 h3,
        (Weighted.defuzzify_automatic _ k { o.fuzzy with terms := ts } hne').2.1 fun a ha => h3 a ((hts a).1 ha)]
      exact hmain

end real
end FL

/-! ### examples -/

namespace FL.RuleSetWeighted
open Scalar FL.Rounded FL.Rounded.Demo

/-- the fuzzy output of a variable with Maximum -/
def fuzzy (l : List (Activated (Flt dbl))) : Aggregated (Flt dbl) := ⟨[], lit 0, lit 9, some (.builtin .maximum), l⟩

def constant (n : Str) (d v : Rat) : Activated (Flt dbl) := ⟨0, ⟨n, lit 1, .constant (lit v)⟩, lit d, none⟩

/-- in double precision, terms activated again later do not count -/
example (ctx : Ctx (Flt dbl)) (k : WeightedKind) :
    Weighted.defuzzify ctx k .takagiSugeno (fuzzy [constant (cs! "a") (1/3) 4, constant (cs! "b") (1/7) 9, constant (cs! "b") (1/7) 9,
      constant (cs! "a") (1/3) 4]) =
    Weighted.defuzzify ctx k .takagiSugeno (fuzzy [constant (cs! "a") (1/3) 4, constant (cs! "b") (1/7) 9]) := by
  refine Weighted.defuzzify_repeated ctx k _ (by simp) _ _ rfl rfl (fun a => ?_) (by decide +kernel) ?_
  · simp only [fuzzy, List.mem_cons, List.not_mem_nil, or_false]
    tauto
  · intro a ha b hb
    simp only [fuzzy, List.mem_cons, List.not_mem_nil, or_false] at ha hb
    rcases ha with rfl | rfl <;> rcases hb with rfl | rfl <;> simp [constant]

local instance : Heap (Flt dbl) := RuleBlock.stableHeap _

/-- the Takagi-Sugeno controller of the demonstration with Maximum -/
def weighted (rules : List (Rule (Flt dbl))) : Engine (Flt dbl) :=
  { engine with
    outputs := engine.outputs.map fun o => { o with fuzzy := { o.fuzzy with aggregation := some (.builtin .maximum) } }
    blocks := [{ block with rules := rules }] }

/-- with Maximum a rule that is repeated counts once, also for the weighted average -/
example : (weighted [conclude [] 0 0, conclude [] 1 1]).process.2 = none ∧
    (weighted [conclude [] 0 0, conclude [] 0 0, conclude [] 1 1]).process.1.outputValues =
      (weighted [conclude [] 0 0, conclude [] 1 1]).process.1.outputValues ∧
    (weighted [conclude [] 0 0, conclude [] 0 0, conclude [] 1 1]).process.1.outputValues ≠
      (weighted [conclude [] 0 0]).process.1.outputValues := by decide +kernel

/-- **C96 is violated by weighted defuzzifiers in double precision**, also with Maximum: 0.1 + 0.2 + 0.3 is not 0.3 + 0.2 + 0.1. -/
theorem order_violated :
    Weighted.defuzzify ⟨[], []⟩ .sum .takagiSugeno (fuzzy [constant (cs! "a") 1 (1/10), constant (cs! "b") 1 (2/10), constant (cs! "c") 1 (3/10)]) ≠
    Weighted.defuzzify ⟨[], []⟩ .sum .takagiSugeno (fuzzy [constant (cs! "c") 1 (3/10), constant (cs! "b") 1 (2/10), constant (cs! "a") 1 (1/10)]) := by
  decide +kernel

end FL.RuleSetWeighted

namespace FL.RuleSetWeighted
open Ext
variable [Tol ℝ]

noncomputable def exact (n : Str) (d v : ℝ) : Activated (Ext ℝ) := ⟨0, ⟨n, .fin 1, .constant (.fin v)⟩, .fin d, none⟩

/-- an output variable to which the theorem applies: in exact arithmetic neither the order nor repeating matters -/
example (ins : List (Str × Ext ℝ)) (o : OutputVariable (Ext ℝ)) (hd : o.defuzzifier = some (.weighted .average .takagiSugeno))
    (hagg : o.fuzzy.aggregation = some (.builtin .maximum))
    (ht : o.fuzzy.terms = [exact (cs! "a") (1/3) 4, exact (cs! "b") (1/7) 9, exact (cs! "a") (1/2) 4]) : o.Settled ins := by
  refine OutputVariable.settled_weighted ins o _ _ .takagiSugeno hd (.inl ⟨rfl, by simp⟩) hagg ?_ ?_
  · intro a ha b hb
    rw [ht] at ha hb
    simp only [List.mem_cons, List.not_mem_nil, or_false] at ha hb
    rcases ha with rfl | rfl | rfl <;> rcases hb with rfl | rfl | rfl <;> simp [exact]
  · intro g hg a ha outs
    obtain ⟨-, -, -, hs⟩ := Aggregated.grouped_spec _ _ hg
    obtain ⟨f, r, e, ka, c⟩ := hs a ha
    have hf : f ∈ o.fuzzy.terms.filter fun b => b.term.name == a.term.name := by rw [e]; simp
    have hf := (List.mem_filter.1 hf).1
    have hv : ∀ b ∈ o.fuzzy.terms, ∃ d v : ℝ, b = exact b.term.name d v := by
      intro b hb
      rw [ht] at hb
      simp only [List.mem_cons, List.not_mem_nil, or_false] at hb
      rcases hb with rfl | rfl | rfl <;> exact ⟨_, _, rfl⟩
    obtain ⟨d, v, hfe⟩ := hv f hf
    have hk : a.term.kind = .constant (.fin v) := by rw [ka, hfe]; rfl
    have hdeg : ∃ w : ℝ, a.degree = fin w := by
      rw [hagg, Option.getD_some, Weighted.combined_maximum, Except.ok.injEq] at c
      rw [← c]
      have hr : ∀ b ∈ r, ∃ w : ℝ, b.degree = fin w := by
        intro b hb
        have hb' : b ∈ o.fuzzy.terms.filter fun b => b.term.name == a.term.name := by rw [e]; simp [hb]
        obtain ⟨d, v, h⟩ := hv b (List.mem_filter.1 hb').1
        exact ⟨d, by rw [h]; rfl⟩
      have h0 : ∃ w : ℝ, f.degree = fin w := ⟨d, by rw [hfe]; rfl⟩
      clear c e
      generalize f.degree = z at h0
      induction r generalizing z with
      | nil => exact h0
      | cons b r ih =>
        obtain ⟨x, rfl⟩ := h0
        obtain ⟨y, hy⟩ := hr b List.mem_cons_self
        rw [List.map_cons, List.foldl_cons, hy]
        exact ih (fun c hc => hr c (List.mem_cons_of_mem _ hc)) _ ⟨max x y, by simp⟩
    obtain ⟨w, hw⟩ := hdeg
    exact ⟨w, v, hw, by simp [Weighted.value, Term.membership, hk]⟩

end FL.RuleSetWeighted
