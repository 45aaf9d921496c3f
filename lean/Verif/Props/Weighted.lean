/-
C38, C39: weighted defuzzifiers.
-/
import Verif.Model.Defuzzifier
import Verif.Props.Aggregated

namespace FL
open Scalar
namespace Weighted

section general
variable {S : Type} [Scalar S]

/-- the term is a `Constant`, a `Linear` or a `Function` -/
def IsSugeno (t : Term S) : Prop :=
  (∃ v, t.kind = .constant v) ∨ (∃ c e, t.kind = .linear c e) ∨ ∃ f, t.kind = .function f

theorem inferTerm_takagiSugeno (t : Term S) : inferTerm t = .takagiSugeno ↔ IsSugeno t := by
  unfold inferTerm IsSugeno
  cases h : t.kind <;> simp
  · split <;> simp
  · split <;> simp

theorem inferTerm_tsukamoto (t : Term S) : inferTerm t = .tsukamoto ↔ t.isMonotonic = true := by
  unfold inferTerm Term.isMonotonic
  cases h : t.kind <;> simp

theorem inferTerm_automatic (t : Term S) :
    inferTerm t = .automatic ↔ ¬ IsSugeno t ∧ t.isMonotonic = false := by
  rw [← inferTerm_takagiSugeno, ← Bool.not_eq_true, ← inferTerm_tsukamoto]
  cases inferTerm t <;> simp

theorem dedup_singleton {α : Type} [DecidableEq α] (l : List α) (a : α) :
    l.dedup = [a] ↔ l ≠ [] ∧ ∀ b ∈ l, b = a := by
  constructor
  · intro h
    refine ⟨by rintro rfl; simp at h, ?_⟩
    intro b hb
    have : b ∈ l.dedup := List.mem_dedup.2 hb
    rw [h] at this; simpa using this
  · rintro ⟨hne, h⟩
    have hn := List.nodup_dedup l
    have hm : ∀ b, b ∈ l.dedup ↔ b = a := by
      intro b
      rw [List.mem_dedup]
      refine ⟨h b, ?_⟩
      rintro rfl
      obtain ⟨c, hc⟩ := List.exists_mem_of_ne_nil l hne
      rw [← h c hc]; exact hc
    generalize l.dedup = m at hn hm
    match m, hn with
    | [], _ => have := (hm a).2 rfl; simp at this
    | [b], _ => rw [(hm b).1 (by simp)]
    | b :: c :: m, hn =>
      have e1 := (hm b).1 (by simp)
      have e2 := (hm c).1 (by simp)
      rw [e1, e2] at hn; simp at hn

/-- the type inferred from some terms is `t` exactly when all of them have it -/
theorem inferTypes_ok (ts : List (Term S)) (t : WeightedType) :
    inferTypes ts = .ok t ↔ (ts = [] ∧ t = .automatic) ∨ (ts ≠ [] ∧ ∀ u ∈ ts, inferTerm u = t) := by
  have hs := dedup_singleton (ts.map inferTerm)
  unfold inferTypes
  split
  · rename_i h
    have : ts = [] := by
      cases ts with
      | nil => rfl
      | cons u ts =>
        have : inferTerm u ∈ ((u :: ts).map inferTerm).dedup := List.mem_dedup.2 (by simp)
        rw [h] at this; simp at this
    simp [this, eq_comm]
  · rename_i u h
    obtain ⟨hne, hall⟩ := (hs u).1 h
    simp only [ne_eq, List.map_eq_nil_iff] at hne
    simp only [hne, false_and, not_false_eq_true, true_and, false_or, Except.ok.injEq, ne_eq]
    constructor
    · rintro rfl v hv; exact hall _ (List.mem_map_of_mem hv)
    · intro hv
      obtain ⟨v, hv'⟩ := List.exists_mem_of_ne_nil ts hne
      rw [← hv v hv', hall _ (List.mem_map_of_mem hv')]
  · rename_i h1 h2
    simp only [false_iff, not_or, not_and, reduceCtorEq]
    constructor
    · rintro rfl; exact absurd rfl h1
    · intro hne hall
      apply h2 t
      rw [hs]
      refine ⟨by simpa using hne, ?_⟩
      intro b hb
      obtain ⟨u, hu, rfl⟩ := List.mem_map.1 hb
      exact hall u hu

/-- C39: the inferred type is TakagiSugeno exactly when there are terms and all are `Constant`,
`Linear` or `Function`; Tsukamoto exactly when there are terms and all are monotonic; Automatic
when there are no terms or all are neither; and otherwise an exception is raised. -/
theorem inferTypes_spec (ts : List (Term S)) :
    (inferTypes ts = .ok .takagiSugeno ↔ ts ≠ [] ∧ ∀ t ∈ ts, IsSugeno t) ∧
    (inferTypes ts = .ok .tsukamoto ↔ ts ≠ [] ∧ ∀ t ∈ ts, t.isMonotonic = true) ∧
    (inferTypes ts = .ok .automatic ↔ ∀ t ∈ ts, ¬ IsSugeno t ∧ t.isMonotonic = false) ∧
    (inferTypes ts = .error .unsupported ↔ ¬ ∃ t, inferTypes ts = .ok t) := by
  refine ⟨?_, ?_, ?_, ?_⟩
  · rw [inferTypes_ok]; simp [inferTerm_takagiSugeno]
  · rw [inferTypes_ok]; simp [inferTerm_tsukamoto]
  · rw [inferTypes_ok]; simp only [inferTerm_automatic]
    by_cases h : ts = []
    · simp [h]
    · simp [h]
  · unfold inferTypes
    split <;> simp

/-- no term is both -/
theorem sugeno_not_monotonic (t : Term S) (h : IsSugeno t) : t.isMonotonic = false := by
  rw [← inferTerm_takagiSugeno] at h
  rw [← Bool.not_eq_true, ← inferTerm_tsukamoto, h]; simp

/-- the value that a type assigns to an activated term -/
def value (ctx : Ctx S) : WeightedType → Activated S → Except Err S
  | .takagiSugeno, a => a.term.membership ctx a.degree
  | .tsukamoto, a => a.term.tsukamoto a.degree
  | .automatic, _ => .error .unsupported

/-- C38, C39: an empty fuzzy output yields NaN whatever the type. -/
theorem defuzzify_empty (ctx : Ctx S) (k : WeightedKind) (type : WeightedType) (g : Aggregated S)
    (h : g.terms = []) : defuzzify ctx k type g = .ok nan := by
  simp [defuzzify, h]

/-- C39: with type Automatic, a fuzzy output is defuzzified as TakagiSugeno when all its terms are
`Constant`, `Linear` or `Function`, as Tsukamoto when all are monotonic, and raises an exception in
every other case. -/
theorem defuzzify_automatic (ctx : Ctx S) (k : WeightedKind) (g : Aggregated S) (hne : g.terms ≠ []) :
    ((∀ a ∈ g.terms, IsSugeno a.term) → defuzzify ctx k .automatic g = defuzzify ctx k .takagiSugeno g) ∧
    ((∀ a ∈ g.terms, a.term.isMonotonic = true) → defuzzify ctx k .automatic g = defuzzify ctx k .tsukamoto g) ∧
    ((∃ a ∈ g.terms, ¬ IsSugeno a.term) → (∃ a ∈ g.terms, a.term.isMonotonic = false) →
      defuzzify ctx k .automatic g = .error .unsupported) := by
  have he : g.terms.isEmpty = false := by simpa using hne
  obtain ⟨h1, h2, h3, h4⟩ := inferTypes_spec (g.terms.map Activated.term)
  have hne' : g.terms.map Activated.term ≠ [] := by simpa using hne
  refine ⟨?_, ?_, ?_⟩
  · intro h
    have := h1.2 ⟨hne', by simpa using h⟩
    simp [defuzzify, he, this, bind, Except.bind]
  · intro h
    have := h2.2 ⟨hne', by simpa using h⟩
    simp [defuzzify, he, this, bind, Except.bind]
  · rintro ⟨a, ha, ha'⟩ ⟨b, hb, hb'⟩
    cases hi : inferTypes (g.terms.map Activated.term) with
    | error e =>
      have : e = .unsupported := by
        have := h4.2 (by rw [hi]; simp)
        rw [hi] at this; simpa using this
      simp [defuzzify, he, hi, this, bind, Except.bind]
    | ok t =>
      cases t with
      | takagiSugeno => exact absurd ((h1.1 hi).2 a.term (List.mem_map_of_mem ha)) ha'
      | tsukamoto =>
        have := (h2.1 hi).2 b.term (List.mem_map_of_mem hb)
        rw [hb'] at this; exact Bool.noConfusion this
      | automatic => simp [defuzzify, he, hi, bind, Except.bind]

/-- the sums that a defuzzifier of an explicit type computes -/
theorem defuzzify_explicit (ctx : Ctx S) (k : WeightedKind) (type : WeightedType) (ht : type ≠ .automatic)
    (g g' : Aggregated S) (hne : g.terms ≠ []) (hg : g.grouped = .ok g') :
    defuzzify ctx k type g = (do
      let s ← sums (value ctx type) g'.terms
      .ok (match k with
        | .average => s.1 / s.2
        | .sum => s.1)) := by
  have he : g.terms.isEmpty = false := by simpa using hne
  cases type with
  | automatic => exact absurd rfl ht
  | takagiSugeno => simp only [defuzzify, he, hg, bind, Except.bind, reduceCtorEq]; rfl
  | tsukamoto => simp only [defuzzify, he, hg, bind, Except.bind, reduceCtorEq]; rfl

/-- a Tsukamoto defuzzifier never succeeds on a term that is not monotonic -/
theorem tsukamoto_monotonic (t : Term S) (y : S) : (∃ z, t.tsukamoto y = .ok z) ↔ t.isMonotonic = true := by
  unfold Term.tsukamoto Term.isMonotonic
  cases h : t.kind with
  | shape s => cases s <;> simp [Shape.tsukamoto, Shape.isMonotonic]
  | _ => simp

/-! ### Grouping does not depend on the order -/

theorem combined_perm (agg : SNorm S) (P : S → Prop) (op : S → S → S)
    (hop : ∀ a b, P a → P b → agg.compute a b = .ok (op a b) ∧ P (op a b))
    (hcomm : ∀ a b, P a → P b → op a b = op b a)
    (hassoc : ∀ a b c, P a → P b → P c → op (op a b) c = op a (op b c))
    {l l' : List (Activated S)} (hp : l.Perm l') : (∀ a ∈ l, P a.degree) →
    Aggregated.combined agg l = Aggregated.combined agg l' := by
  induction hp with
  | nil => intro _; rfl
  | cons a hp _ =>
    intro h
    exact Aggregated.fold_perm agg (fun b : Activated S => .ok b.degree) P op hop hcomm hassoc hp
      (fun b hb => ⟨_, rfl, h b (List.mem_cons_of_mem _ hb)⟩) a.degree (h a List.mem_cons_self)
  | swap a b l =>
    intro h
    have ha := h a (by simp)
    have hb := h b (by simp)
    simp only [Aggregated.combined, List.foldlM_cons, (hop _ _ ha hb).1, (hop _ _ hb ha).1, hcomm _ _ ha hb]
  | trans p1 _ ih1 ih2 =>
    intro h
    rw [ih1 h, ih2 fun a ha => h a (p1.mem_iff.2 ha)]

/-- Fuzzy outputs with the same activated terms in another order have the same groups, up to
order, when names identify terms and the degrees are combined by a commutative and associative
operator. -/
theorem grouped_perm (g₁ g₂ g₁' g₂' : Aggregated S) (h₁ : g₁.grouped = .ok g₁') (h₂ : g₂.grouped = .ok g₂')
    (hagg : g₁.aggregation = g₂.aggregation) (hp : g₁.terms.Perm g₂.terms)
    (hname : ∀ a ∈ g₁.terms, ∀ b ∈ g₁.terms, a.term.name = b.term.name → a.term = b.term)
    (P : S → Prop) (op : S → S → S)
    (hop : ∀ a b, P a → P b → (g₁.aggregation.getD (.builtin .unboundedSum)).compute a b = .ok (op a b) ∧ P (op a b))
    (hcomm : ∀ a b, P a → P b → op a b = op b a)
    (hassoc : ∀ a b c, P a → P b → P c → op (op a b) c = op a (op b c))
    (hP : ∀ a ∈ g₁.terms, P a.degree) :
    (g₁'.terms.map fun a => (a.term, a.degree)).Perm (g₂'.terms.map fun a => (a.term, a.degree)) := by
  obtain ⟨-, n1, d1, s1⟩ := Aggregated.grouped_spec g₁ g₁' h₁
  obtain ⟨-, n2, d2, s2⟩ := Aggregated.grouped_spec g₂ g₂' h₂
  -- groups of the same name agree
  have agree : ∀ b₁ ∈ g₁'.terms, ∀ b₂ ∈ g₂'.terms, b₁.term.name = b₂.term.name →
      b₁.term = b₂.term ∧ b₁.degree = b₂.degree := by
    intro b₁ hb₁ b₂ hb₂ hn
    obtain ⟨f₁, r₁, e₁, k₁, c₁⟩ := s1 b₁ hb₁
    obtain ⟨f₂, r₂, e₂, k₂, c₂⟩ := s2 b₂ hb₂
    have m₁ : f₁ ∈ g₁.terms.filter fun a => a.term.name == b₁.term.name := by rw [e₁]; simp
    have m₂ : f₂ ∈ g₂.terms.filter fun a => a.term.name == b₂.term.name := by rw [e₂]; simp
    rw [List.mem_filter] at m₁ m₂
    have t₁ : b₁.term = f₁.term := by rw [k₁]
    have t₂ : b₂.term = f₂.term := by rw [k₂]
    constructor
    · rw [t₁, t₂]
      apply hname f₁ m₁.1 f₂ (hp.mem_iff.2 m₂.1)
      rw [← t₁, ← t₂]; exact hn
    · have hpf : (f₁ :: r₁).Perm (f₂ :: r₂) := by
        rw [← e₁, ← e₂, hn]; exact hp.filter _
      have := combined_perm _ P op hop hcomm hassoc hpf (by
        intro a ha
        rw [← e₁] at ha
        exact hP a (List.mem_filter.1 ha).1)
      rw [c₁, hagg, c₂] at this
      simpa using this
  -- the names are the same up to order
  have hnames : (g₁'.terms.map fun a => a.term.name).Perm (g₂'.terms.map fun a => a.term.name) := by
    apply (List.perm_ext_iff_of_nodup d1 d2).2
    intro n
    rw [n1, n2, List.mem_eraseDups, List.mem_eraseDups]
    exact (hp.map _).mem_iff
  -- a function from names to groups
  have build : ∀ (l₁ : List (Activated S)), ∀ (l₂ : List (Activated S)),
      (l₁.map fun a => a.term.name).Perm (l₂.map fun a => a.term.name) →
      (∀ b₁ ∈ l₁, ∀ b₂ ∈ l₂, b₁.term.name = b₂.term.name → b₁.term = b₂.term ∧ b₁.degree = b₂.degree) →
      (l₁.map fun a => (a.term, a.degree)).Perm (l₂.map fun a => (a.term, a.degree)) := by
    intro l₁
    induction l₁ with
    | nil =>
      intro l₂ h _
      have : l₂ = [] := by simpa using h.symm
      subst this; exact List.Perm.refl _
    | cons a l₁ ih =>
      intro l₂ h hag
      have : a.term.name ∈ l₂.map fun a => a.term.name := h.mem_iff.1 (by simp)
      obtain ⟨b, hb, hbn⟩ := List.mem_map.1 this
      obtain ⟨pre, post, rfl⟩ := List.append_of_mem hb
      have hpm : (pre ++ b :: post).Perm (b :: (pre ++ post)) := List.perm_middle
      have hab := hag a (by simp) b hb hbn.symm
      have h' : (l₁.map fun a => a.term.name).Perm ((pre ++ post).map fun a => a.term.name) := by
        have h2 := h.trans (hpm.map _)
        simp only [List.map_cons, hbn] at h2
        exact h2.cons_inv
      refine List.Perm.trans ?_ (hpm.map _).symm
      simp only [List.map_cons, hab.1, hab.2]
      exact (ih _ h' fun b₁ hb₁ b₂ hb₂ => hag b₁ (List.mem_cons_of_mem _ hb₁) b₂ (by
        rcases List.mem_append.1 hb₂ with h | h <;> simp [h])).cons _
  exact build _ _ hnames agree

end general

section real
open Ext
variable [Tol ℝ]

theorem sums_fin (z : Activated (Ext ℝ) → Except Err (Ext ℝ)) (l : List (Activated (Ext ℝ)))
    (w v : Activated (Ext ℝ) → ℝ) (h : ∀ a ∈ l, a.degree = fin (w a) ∧ z a = .ok (fin (v a))) :
    sums z l = .ok (fin (l.map fun a => w a * v a).sum, fin (l.map w).sum) := by
  have key : ∀ (l : List (Activated (Ext ℝ))), (∀ a ∈ l, a.degree = fin (w a) ∧ z a = .ok (fin (v a))) → ∀ s t : ℝ,
      l.foldlM (fun s a => do
        let z ← z a
        .ok (s.1 + a.degree * z, s.2 + a.degree)) ((fin s, fin t) : Ext ℝ × Ext ℝ) =
      (.ok (fin (s + (l.map fun a => w a * v a).sum), fin (t + (l.map w).sum)) : Except Err _) := by
    intro l
    induction l with
    | nil => intro _ s t; simp; rfl
    | cons a l ih =>
      intro h s t
      obtain ⟨h1, h2⟩ := h a List.mem_cons_self
      rw [List.foldlM_cons]
      simp only [h1, h2, bind, Except.bind, mul_fin, add_fin]
      have := ih (fun b hb => h b (List.mem_cons_of_mem _ hb)) (s + w a * v a) (t + w a)
      simp only [bind, Except.bind] at this
      rw [this]
      simp [add_assoc]
  simpa [sums] using key l h 0 0

/-- C38: let `g'` be the grouped fuzzy output, with degree `w` and value `v` of every group.
`WeightedSum` is the sum of the products; `WeightedAverage` is that divided by the total degree,
which makes the sum the average times the total degree.  For non-negative degrees not all zero the
average lies between any bounds of the values of the groups with a positive degree.  If all degrees
are zero the sum is zero and the average is NaN. -/
theorem weighted_value (ctx : Ctx (Ext ℝ)) (type : WeightedType) (ht : type ≠ .automatic)
    (g g' : Aggregated (Ext ℝ)) (hne : g.terms ≠ []) (hg : g.grouped = .ok g')
    (w v : Activated (Ext ℝ) → ℝ)
    (hwv : ∀ a ∈ g'.terms, a.degree = fin (w a) ∧ 0 ≤ w a ∧ value ctx type a = .ok (fin (v a))) :
    ∃ total prod : ℝ, total = (g'.terms.map w).sum ∧ prod = (g'.terms.map fun a => w a * v a).sum ∧
      defuzzify ctx .sum type g = .ok (fin prod) ∧
      ((∃ a ∈ g'.terms, w a ≠ 0) → ∃ avg : ℝ, defuzzify ctx .average type g = .ok (fin avg) ∧
        prod = avg * total ∧ 0 < total ∧
        ∀ lo hi : ℝ, (∀ a ∈ g'.terms, 0 < w a → lo ≤ v a ∧ v a ≤ hi) → lo ≤ avg ∧ avg ≤ hi) ∧
      ((∀ a ∈ g'.terms, w a = 0) → prod = 0 ∧ defuzzify ctx .average type g = .ok Ext.nan) := by
  have hs := sums_fin (value ctx type) g'.terms w v fun a ha => ⟨(hwv a ha).1, (hwv a ha).2.2⟩
  refine ⟨_, _, rfl, rfl, ?_, ?_, ?_⟩
  · rw [defuzzify_explicit ctx _ type ht g g' hne hg, hs]; rfl
  · rintro ⟨a, ha, haw⟩
    have hpos : ∀ l : List (Activated (Ext ℝ)), (∀ a ∈ l, 0 ≤ w a) → 0 ≤ (l.map w).sum ∧ ∀ a ∈ l, w a ≤ (l.map w).sum := by
      intro l
      induction l with
      | nil => intro _; simp
      | cons b l ih =>
        intro h
        have hb := h b List.mem_cons_self
        obtain ⟨i1, i2⟩ := ih fun c hc => h c (List.mem_cons_of_mem _ hc)
        simp only [List.map_cons, List.sum_cons]
        refine ⟨by linarith, ?_⟩
        intro c hc
        rcases List.mem_cons.1 hc with rfl | hc
        · linarith
        · have := i2 c hc; linarith
    have h0 := fun a ha => (hwv a ha).2.1
    have htot : 0 < (g'.terms.map w).sum :=
      lt_of_lt_of_le (lt_of_le_of_ne (h0 a ha) (Ne.symm haw)) ((hpos _ h0).2 a ha)
    refine ⟨(g'.terms.map fun a => w a * v a).sum / (g'.terms.map w).sum, ?_, ?_, htot, ?_⟩
    · rw [defuzzify_explicit ctx _ type ht g g' hne hg, hs]
      change Except.ok (_ / _) = _
      rw [div_fin _ _ htot.ne']
    · field_simp
    · intro lo hi hb
      have key : ∀ l : List (Activated (Ext ℝ)), (∀ a ∈ l, 0 ≤ w a ∧ (0 < w a → lo ≤ v a ∧ v a ≤ hi)) →
          lo * (l.map w).sum ≤ (l.map fun a => w a * v a).sum ∧ (l.map fun a => w a * v a).sum ≤ hi * (l.map w).sum := by
        intro l
        induction l with
        | nil => intro _; simp
        | cons b l ih =>
          intro h
          obtain ⟨hb0, hb1⟩ := h b List.mem_cons_self
          obtain ⟨i1, i2⟩ := ih fun c hc => h c (List.mem_cons_of_mem _ hc)
          simp only [List.map_cons, List.sum_cons]
          rcases hb0.eq_or_lt with hz | hp
          · rw [← hz]; constructor <;> linarith
          · obtain ⟨j1, j2⟩ := hb1 hp
            constructor <;> nlinarith
      obtain ⟨k1, k2⟩ := key _ fun a ha => ⟨h0 a ha, hb a ha⟩
      exact ⟨by rw [le_div_iff₀ htot]; exact k1, by rw [div_le_iff₀ htot]; exact k2⟩
  · intro hz
    have e1 : (g'.terms.map fun a => w a * v a).sum = 0 := List.sum_eq_zero fun x hx => by
      obtain ⟨a, ha, rfl⟩ := List.mem_map.1 hx; rw [hz a ha, zero_mul]
    have e2 : (g'.terms.map w).sum = 0 := List.sum_eq_zero fun x hx => by
      obtain ⟨a, ha, rfl⟩ := List.mem_map.1 hx; rw [hz a ha]
    refine ⟨e1, ?_⟩
    rw [defuzzify_explicit ctx _ type ht g g' hne hg, hs, e1, e2]
    change Except.ok (_ / _) = _
    simp

/-- C38 (partial: names must identify terms, see `weighted_perm_violated`): the result does not
depend on the order of activation when degrees are combined by an operator that is commutative and
associative on a set containing the degrees, and every group has a finite degree and value. -/
theorem weighted_perm_partial (ctx : Ctx (Ext ℝ)) (k : WeightedKind) (type : WeightedType) (ht : type ≠ .automatic)
    (g₁ g₂ g₁' g₂' : Aggregated (Ext ℝ)) (h₁ : g₁.grouped = .ok g₁') (h₂ : g₂.grouped = .ok g₂')
    (hagg : g₁.aggregation = g₂.aggregation) (hp : g₁.terms.Perm g₂.terms)
    (hname : ∀ a ∈ g₁.terms, ∀ b ∈ g₁.terms, a.term.name = b.term.name → a.term = b.term)
    (P : Ext ℝ → Prop) (op : Ext ℝ → Ext ℝ → Ext ℝ)
    (hop : ∀ a b, P a → P b → (g₁.aggregation.getD (.builtin .unboundedSum)).compute a b = .ok (op a b) ∧ P (op a b))
    (hcomm : ∀ a b, P a → P b → op a b = op b a)
    (hassoc : ∀ a b c, P a → P b → P c → op (op a b) c = op a (op b c))
    (hP : ∀ a ∈ g₁.terms, P a.degree)
    (hz : ∀ a ∈ g₁'.terms, ∃ w v : ℝ, a.degree = fin w ∧ value ctx type a = .ok (fin v)) :
    defuzzify ctx k type g₁ = defuzzify ctx k type g₂ := by
  by_cases hne : g₁.terms = []
  · rw [hne] at hp
    have : g₂.terms = [] := by simpa using hp.symm
    rw [defuzzify_empty _ _ _ _ hne, defuzzify_empty _ _ _ _ this]
  have hne' : g₂.terms ≠ [] := fun h => hne (by rw [h] at hp; simpa using hp)
  have hgp := grouped_perm g₁ g₂ g₁' g₂' h₁ h₂ hagg hp hname P op hop hcomm hassoc hP
  -- degree and value as functions of the term and the degree
  have hval : ∀ a b : Activated (Ext ℝ), a.term = b.term → a.degree = b.degree → value ctx type a = value ctx type b := by
    intro a b h1 h2
    cases type <;> simp only [value, h1, h2]
  let q : Term (Ext ℝ) × Ext ℝ → ℝ × ℝ := fun p =>
    ((match p.2 with | .fin w => w | _ => 0),
      (match value ctx type ⟨0, p.1, p.2, none⟩ with | .ok (.fin v) => v | _ => 0))
  have hq : ∀ a : Activated (Ext ℝ), (∃ w v : ℝ, a.degree = fin w ∧ value ctx type a = .ok (fin v)) →
      a.degree = fin (q (a.term, a.degree)).1 ∧ value ctx type a = .ok (fin (q (a.term, a.degree)).2) := by
    rintro a ⟨w, v, hw, hv⟩
    have : value ctx type ⟨0, a.term, a.degree, none⟩ = .ok (fin v) := by rw [← hv]; exact hval _ _ rfl rfl
    constructor
    · simp only [q]; rw [hw]
    · simp only [q]; rw [this, hv]
  have hz' : ∀ a ∈ g₂'.terms, ∃ w v : ℝ, a.degree = fin w ∧ value ctx type a = .ok (fin v) := by
    intro a ha
    have : (a.term, a.degree) ∈ g₁'.terms.map fun a => (a.term, a.degree) :=
      hgp.mem_iff.2 (List.mem_map.2 ⟨a, ha, rfl⟩)
    obtain ⟨b, hb, he⟩ := List.mem_map.1 this
    obtain ⟨w, v, h1, h2⟩ := hz b hb
    simp only [Prod.mk.injEq] at he
    exact ⟨w, v, by rw [← he.2, h1], by rw [← h2]; exact hval _ _ he.1.symm he.2.symm⟩
  have e : ∀ (f : ℝ × ℝ → ℝ), (g₁'.terms.map fun a => f (q (a.term, a.degree))).sum =
      (g₂'.terms.map fun a => f (q (a.term, a.degree))).sum := by
    intro f
    have := (hgp.map fun p => f (q p)).sum_eq
    simpa [List.map_map, Function.comp_def] using this
  rw [defuzzify_explicit ctx _ type ht g₁ g₁' hne h₁, defuzzify_explicit ctx _ type ht g₂ g₂' hne' h₂,
    sums_fin _ _ (fun a => (q (a.term, a.degree)).1) (fun a => (q (a.term, a.degree)).2) fun a ha => hq a (hz a ha),
    sums_fin _ _ (fun a => (q (a.term, a.degree)).1) (fun a => (q (a.term, a.degree)).2) fun a ha => hq a (hz' a ha),
    e fun p => p.1 * p.2, e fun p => p.1]

/-- C38 (partial as above) for the built-in operators other than HamacherSum, and for none. -/
theorem weighted_order_partial (ctx : Ctx (Ext ℝ)) (k : WeightedKind) (type : WeightedType) (ht : type ≠ .automatic)
    (g₁ g₂ g₁' : Aggregated (Ext ℝ)) (h₁ : g₁.grouped = .ok g₁') (n : SNormKind) (hn : n ≠ .hamacherSum)
    (hagg : g₁.aggregation = none ∨ g₁.aggregation = some (.builtin n)) (hagg' : g₂.aggregation = g₁.aggregation)
    (hp : g₁.terms.Perm g₂.terms)
    (hname : ∀ a ∈ g₁.terms, ∀ b ∈ g₁.terms, a.term.name = b.term.name → a.term = b.term)
    (hd : ∀ a ∈ g₁.terms, ∃ d : ℝ, a.degree = fin d ∧ 0 ≤ d ∧ d ≤ 1)
    (hz : ∀ a ∈ g₁'.terms, ∃ w v : ℝ, a.degree = fin w ∧ value ctx type a = .ok (fin v)) :
    defuzzify ctx k type g₁ = defuzzify ctx k type g₂ := by
  obtain ⟨g₂', h₂⟩ := Aggregated.grouped_ok g₂ (by
    intro f; rw [hagg']; rcases hagg with h | h <;> simp [h])
  have hagg2 : g₁.aggregation.getD (.builtin .unboundedSum) = .builtin .unboundedSum ∨
      g₁.aggregation.getD (.builtin .unboundedSum) = .builtin n := by
    rcases hagg with h | h <;> simp [h]
  by_cases hu : g₁.aggregation.getD (.builtin .unboundedSum) = .builtin .unboundedSum
  · refine weighted_perm_partial ctx k type ht g₁ g₂ g₁' g₂' h₁ h₂ hagg'.symm hp hname (fun s => ∃ v : ℝ, s = fin v)
      (fun a b => a + b) ?_ ?_ ?_ ?_ hz
    · rintro _ _ ⟨a, rfl⟩ ⟨b, rfl⟩; rw [hu]; exact ⟨rfl, _, rfl⟩
    · rintro _ _ ⟨a, rfl⟩ ⟨b, rfl⟩; simp [add_comm]
    · rintro _ _ _ ⟨a, rfl⟩ ⟨b, rfl⟩ ⟨c, rfl⟩; simp [add_assoc]
    · intro a ha; obtain ⟨d, hd, _⟩ := hd a ha; exact ⟨d, hd⟩
  · have hb := hagg2.resolve_left hu
    have hnu : n ≠ .unboundedSum := by rintro rfl; exact hu hb
    refine weighted_perm_partial ctx k type ht g₁ g₂ g₁' g₂' h₁ h₂ hagg'.symm hp hname
      (fun s => ∃ v : ℝ, s = fin v ∧ 0 ≤ v ∧ v ≤ 1) (fun a b => n.compute a b) ?_ ?_ ?_ hd hz
    · rintro _ _ ⟨a, rfl, ha, ha1⟩ ⟨b, rfl, hb0, hb1⟩
      have hr := n.real_range hnu a b ha ha1 hb0 hb1
      rw [hb]
      exact ⟨rfl, _, n.compute_fin a b ha ha1 hb0 hb1, ha.trans ((le_max_left _ _).trans hr.1), hr.2⟩
    · rintro _ _ ⟨a, rfl, ha, ha1⟩ ⟨b, rfl, hb, hb1⟩
      exact (snorm_range_comm n a b ha ha1 hb hb1).2
    · rintro _ _ _ ⟨a, rfl, ha, ha1⟩ ⟨b, rfl, hb, hb1⟩ ⟨c, rfl, hc, hc1⟩
      exact snorm_associative_partial n hn a b c ha ha1 hb hb1 hc hc1

end real

/-! ### Examples -/

def demoConst (n : Str) (d v : ℚ) : Activated (Ext ℚ) := ⟨0, ⟨n, .fin 1, .constant (.fin v)⟩, .fin d, none⟩

def demoRampTerm (n : Str) (d : ℚ) : Activated (Ext ℚ) := ⟨0, ⟨n, .fin 1, .shape (.ramp (.fin 0) (.fin 10))⟩, .fin d, none⟩

def demoTri (n : Str) (d : ℚ) : Activated (Ext ℚ) :=
  ⟨0, ⟨n, .fin 1, .shape (.triangle (.fin 0) (.fin 1) (.fin 2))⟩, .fin d, none⟩

def demoOut (l : List (Activated (Ext ℚ))) : Aggregated (Ext ℚ) := ⟨[], .fin 0, .fin 1, none, l⟩

def demoCtx : Ctx (Ext ℚ) := ⟨[], []⟩

/-- a twice with degrees 1/4 and 1/4, b with degree 1/2 -/
example :
    defuzzify demoCtx .average .automatic (demoOut [demoConst (cs! "a") (1/4) 4, demoConst (cs! "b") (1/2) 10,
      demoConst (cs! "a") (1/4) 4]) = .ok (.fin 7) ∧
    defuzzify demoCtx .sum .automatic (demoOut [demoConst (cs! "a") (1/4) 4, demoConst (cs! "b") (1/2) 20,
      demoConst (cs! "a") (1/4) 4]) = .ok (.fin 12) ∧
    defuzzify demoCtx .average .automatic (demoOut [demoRampTerm (cs! "r") (1/4), demoRampTerm (cs! "s") (3/4)]) =
      .ok (.fin (25/4)) ∧
    defuzzify demoCtx .average .automatic (demoOut [demoRampTerm (cs! "r") (1/4), demoConst (cs! "a") (1/4) 4]) =
      .error .unsupported ∧
    defuzzify demoCtx .average .automatic (demoOut [demoTri (cs! "t") (1/4)]) = .error .unsupported ∧
    defuzzify demoCtx .sum .automatic (demoOut []) = .ok .nan := by decide +kernel

/-- C38 is violated when a variable has two terms of the same name: grouping merges them into the
one activated first, so that the order decides. -/
theorem weighted_perm_violated :
    defuzzify demoCtx .average .takagiSugeno (demoOut [demoConst (cs! "a") (1/2) 4, demoConst (cs! "a") (1/2) 8]) =
      .ok (.fin 4) ∧
    defuzzify demoCtx .average .takagiSugeno (demoOut [demoConst (cs! "a") (1/2) 8, demoConst (cs! "a") (1/2) 4]) =
      .ok (.fin 8) := by decide +kernel

end Weighted
end FL
