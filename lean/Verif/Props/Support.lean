/-
C103: the values of integral defuzzifiers lie within the support of the fuzzy output.
-/
import Verif.Props.Between
import Verif.Props.Integral

namespace FL
open Scalar

section any
variable {S : Type} [Scalar S]

/-- all activated terms have implications with the property -/
def World.ImpliedBy (R : Option (TNorm S) → Prop) (w : World S) : Prop := ∀ o ∈ w.outputs, ∀ a ∈ o.fuzzy.terms, R a.implication

theorem modifyLoop_impliedBy (R : Option (TNorm S) → Prop) (imp : Option (TNorm S)) (hR : R imp) (ps : List (Proposition S)) (w : World S) (d : S)
    (hw : w.ImpliedBy R) : (modifyLoop imp w d ps).1.ImpliedBy R := by
  induction ps generalizing w d with
  | nil => exact hw
  | cons p ps ih =>
    obtain ⟨v, hs, t⟩ := p
    cases v with
    | input i => exact hw
    | output i =>
      cases t with
      | none => exact hw
      | some j =>
        simp only [modifyLoop]
        cases ho : w.outputs[i]? with
        | none => exact hw
        | some o =>
          simp only
          split
          · exact ih w d hw
          · cases applyHedges hs d with
            | error e => exact hw
            | ok d' =>
              simp only
              cases o.terms[j]? with
              | none => exact hw
              | some t =>
                refine ih _ d' ?_
                intro q hq a ha
                rcases List.mem_or_eq_of_mem_set hq with hq | rfl
                · exact hw q hq a ha
                · simp only [Aggregated.addTerm, List.mem_append, List.mem_singleton] at ha
                  rcases ha with ha | rfl
                  · exact hw o (List.mem_of_getElem? ho) a ha
                  · exact hR

/-- activated terms carry the implication of one of the rule blocks -/
theorem Engine.activateBlocks_implied [Heap S] (R : Option (TNorm S) → Prop) (e : Engine S) (hR : ∀ b ∈ e.blocks, R b.implication) :
    (activateBlocks e.cleared e.blocks).1.ImpliedBy R := by
  refine activateBlocks_active (World.ImpliedBy R) e.blocks ?_ e.cleared ?_
  · intro b hb r hr _ w d hd hw
    unfold modify
    split
    · exact hw
    · exact modifyLoop_impliedBy R _ (hR b hb) _ w d hw
  · intro o ho a ha
    simp only [cleared, List.mem_map] at ho
    obtain ⟨q, -, rfl⟩ := ho
    simp [Aggregated.clear] at ha

end any

open Ext
variable [Tol ℝ]

namespace Integral

/-- the points at which a membership function is sampled -/
def Sampled (a b : ℝ) (n : Nat) (x : ℝ) : Prop := ∃ i < n, x = point a b n i

/-- **C103, defuzzifiers.**  If all points of positive membership lie between `lo` and `hi` and one of the sampled points has positive membership (two of
them for `Bisector`), then the value lies between `lo` and `hi`. -/
theorem defuzzify_support_partial (k : IntegralKind) (mu : Ext ℝ → Except Err (Ext ℝ)) (m : ℝ → ℝ) (a b : ℝ) (hab : a < b) (n : Nat)
    (hmu : ∀ x, Sampled a b n x → mu (fin x) = .ok (fin (m x)) ∧ 0 ≤ m x) (lo hi : ℝ) (hsup : ∀ x, Sampled a b n x → 0 < m x → lo < x ∧ x < hi)
    (p q : Nat) (hq : q < n) (hmp : 0 < m (point a b n p)) (hmq : 0 < m (point a b n q)) (hk : k = .bisector → p < q) :
    ∃ r, defuzzify k (n : Int) mu (fin a) (fin b) = .ok (fin r) ∧ lo < r ∧ r < hi := by
  have hm : ∀ i < n, mu (fin (point a b n i)) = .ok (fin (m (point a b n i))) := fun i hi => (hmu _ ⟨i, hi, rfl⟩).1
  have h0 : ∀ i < n, 0 ≤ m (point a b n i) := fun i hi => (hmu _ ⟨i, hi, rfl⟩).2
  have hs : ∀ i < n, 0 < m (point a b n i) → lo < point a b n i ∧ point a b n i < hi := fun i hi => hsup _ ⟨i, hi, rfl⟩
  rw [defuzzify_fin k mu a b n (fun i => m (point a b n i)) hm]
  have hmono : ∀ i j, i ≤ j → point a b n i ≤ point a b n j := by
    intro i j hij
    rcases hij.eq_or_lt with rfl | h
    · exact le_refl _
    · exact (point_lt a b hab n i j (by omega) h).le
  generalize hy : (fun i => m (point a b n i)) = y at *
  have hy' : ∀ i, m (point a b n i) = y i := fun i => congrFun hy i
  simp only [hy'] at *
  generalize hx : point a b n = x at *
  have hT : 0 < ∑ i ∈ Finset.range n, y i :=
    Finset.sum_pos' (fun i hi => h0 i (Finset.mem_range.1 hi)) ⟨q, Finset.mem_range.2 hq, hmq⟩
  obtain ⟨t1, t2, ⟨u, t3, t4⟩, w, t5, t6⟩ := table_maxima n (by omega) x y
  have tin : ∀ z ∈ tops n x y, lo < z ∧ z < hi := by
    intro z hz
    simp only [tops, List.mem_map, mem_topIdx] at hz
    obtain ⟨i, ⟨hi, hle⟩, rfl⟩ := hz
    exact hs i hi (lt_of_lt_of_le hmq (hle q hq))
  cases k with
  | largestOfMaximum => exact ⟨w, by simp only [t6], tin w (List.mem_of_getLast? t5)⟩
  | smallestOfMaximum => exact ⟨u, by simp only [t4], tin u (List.mem_of_head? t3)⟩
  | meanOfMaximum =>
    refine ⟨_, ?_, mean_strict _ lo hi t1 tin⟩
    simp only [meanOfMaxima]; rw [t2, Op.mean_fin _ t1]
  | centroid =>
    refine ⟨_, by simp only [centroid_fin]; rw [div_fin _ _ hT.ne'], ?_, ?_⟩
    · rw [lt_div_iff₀ hT, Finset.mul_sum]
      apply Finset.sum_lt_sum
      · intro j hj
        have hj := Finset.mem_range.1 hj
        rcases (h0 j hj).eq_or_lt with e | hp
        · rw [← e]; simp
        · have := (hs j hj hp).1; nlinarith
      · exact ⟨q, Finset.mem_range.2 hq, by have := (hs q hq hmq).1; nlinarith⟩
    · rw [div_lt_iff₀ hT, Finset.mul_sum]
      apply Finset.sum_lt_sum
      · intro j hj
        have hj := Finset.mem_range.1 hj
        rcases (h0 j hj).eq_or_lt with e | hp
        · rw [← e]; simp
        · have := (hs j hj hp).2; nlinarith
      · exact ⟨q, Finset.mem_range.2 hq, by have := (hs q hq hmq).2; nlinarith⟩
  | bisector =>
    have hlt : p < q := hk rfl
    obtain ⟨xs, hxs, hne, he⟩ := (bisector_fin n (by omega) x y).2 hT.ne'
    refine ⟨_, by simp only [he], mean_strict xs lo hi hne ?_⟩
    intro z hz
    rw [hxs] at hz
    simp only [List.mem_map, List.mem_filter, List.mem_range, decide_eq_true_eq] at hz
    obtain ⟨i, ⟨hi', hle⟩, rfl⟩ := hz
    have hsub : ∀ i, i < n → Finset.range (i + 1) ⊆ Finset.range n := by
      intro i hi j hj
      simp only [Finset.mem_range] at *
      omega
    have hA0 : 0 < area y p :=
      Finset.sum_pos' (fun j hj => h0 j (Finset.mem_range.1 (hsub p (by omega) hj))) ⟨p, by simp, hmp⟩
    have hA1 : area y p < ∑ j ∈ Finset.range n, y j :=
      Finset.sum_lt_sum_of_subset (hsub p (by omega)) (Finset.mem_range.2 hq) (by simp; omega) hmq
        fun j hj _ => h0 j (Finset.mem_range.1 hj)
    have hgp : gap y n p < 1 / 2 := by
      unfold gap
      have h1 : 0 < area y p / ∑ j ∈ Finset.range n, y j := div_pos hA0 hT
      have h2 : area y p / ∑ j ∈ Finset.range n, y j < 1 := (div_lt_one hT).2 hA1
      rw [abs_lt]
      constructor <;> linarith
    have hgi : gap y n i < 1 / 2 := lt_of_le_of_lt (hle p (by omega)) hgp
    unfold gap at hgi
    rw [abs_lt] at hgi
    have hB0 : 0 < area y i := by
      have : 0 < area y i / ∑ j ∈ Finset.range n, y j := by linarith [hgi.1]
      exact (div_pos_iff_of_pos_right hT).1 this
    have hB1 : area y i < ∑ j ∈ Finset.range n, y j := by
      have : area y i / ∑ j ∈ Finset.range n, y j < 1 := by linarith [hgi.2]
      exact (div_lt_one hT).1 this
    constructor
    · obtain ⟨j, hj, hjp⟩ : ∃ j ∈ Finset.range (i + 1), 0 < y j := by
        by_contra hcon
        push Not at hcon
        exact absurd (Finset.sum_nonpos hcon) (not_le.2 hB0)
      have hj := Finset.mem_range.1 hj
      exact lt_of_lt_of_le (hs j (by omega) hjp).1 (hmono j i (by omega))
    · obtain ⟨j, hj, hji, hjp⟩ : ∃ j, j < n ∧ i < j ∧ 0 < y j := by
        by_contra hcon
        push Not at hcon
        refine absurd ?_ hB1.ne
        refine Finset.sum_subset (hsub i hi') ?_
        intro j hj hji
        simp only [Finset.mem_range] at hj hji
        exact le_antisymm (hcon j hj (by omega)) (h0 j hj)
      exact lt_of_le_of_lt (hmono i j hji.le) (hs j hj hjp).2

end Integral

/-! ### the support of fuzzy outputs -/

/-- at the points of `X` the term has memberships, and positive ones only between `lo` and `hi` -/
def Term.Supported (X : ℝ → Prop) (lo hi : ℝ) (t : Term (Ext ℝ)) : Prop :=
  ∃ f : ℝ → ℝ, ∀ ctx x, X x → t.membership ctx (fin x) = .ok (fin (f x)) ∧ 0 ≤ f x ∧ (0 < f x → lo < x ∧ x < hi)

/-- implying gives no membership where there was none -/
def TNorm.Supports (imp : TNorm (Ext ℝ)) (d : Ext ℝ) : Prop :=
  ∀ y : ℝ, 0 ≤ y → ∃ z : ℝ, imp.compute (fin y) d = .ok (fin z) ∧ 0 ≤ z ∧ (0 < z → 0 < y)

/-- aggregating gives no membership where there was none -/
def SNorm.Supports (agg : SNorm (Ext ℝ)) : Prop :=
  ∀ y z : ℝ, 0 ≤ y → 0 ≤ z → ∃ w : ℝ, agg.compute (fin y) (fin z) = .ok (fin w) ∧ 0 ≤ w ∧ (0 < w → 0 < y ∨ 0 < z)

theorem minimum_supports (d : Ext ℝ) (hd : d.Positive) : TNorm.Supports (.builtin .minimum) d := by
  intro y hy
  rcases hd with ⟨w, hw, rfl⟩ | rfl
  · exact ⟨min y w, by simp [TNorm.compute, TNormKind.compute], le_min hy hw.le, fun h => (lt_min_iff.1 h).1⟩
  · exact ⟨y, by simp [TNorm.compute, TNormKind.compute, Op.min, Op.stdMin], hy, id⟩

theorem maximum_supports : SNorm.Supports (.builtin .maximum) := fun y z hy _ =>
  ⟨max y z, by simp [SNorm.compute, SNormKind.compute], le_max_of_le_left hy, fun h => lt_max_iff.1 h⟩

theorem unboundedSum_supports : SNorm.Supports (.builtin .unboundedSum) := fun y z hy hz =>
  ⟨y + z, by simp [SNorm.compute, SNormKind.compute], add_nonneg hy hz, fun h => by
    by_contra hcon
    push Not at hcon
    linarith [hcon.1, hcon.2]⟩

/-- the support of a fuzzy output lies where its terms have their supports -/
theorem Aggregated.membership_supported (X : ℝ → Prop) (lo hi : ℝ) (g : Aggregated (Ext ℝ)) (agg : SNorm (Ext ℝ)) (hg : g.aggregation = some agg) (hagg : agg.Supports)
    (h : ∀ t ∈ g.terms, t.term.Supported X lo hi ∧ ∃ imp, t.implication = some imp ∧ imp.Supports t.degree) :
    ∃ m : ℝ → ℝ, ∀ ctx x, X x → g.membership ctx (fin x) = .ok (fin (m x)) ∧ 0 ≤ m x ∧ (0 < m x → lo < x ∧ x < hi) := by
  have key : ∀ (l : List (Activated (Ext ℝ))) (m0 : ℝ → ℝ), (∀ x, X x → 0 ≤ m0 x ∧ (0 < m0 x → lo < x ∧ x < hi)) →
      (∀ t ∈ l, t.term.Supported X lo hi ∧ ∃ imp, t.implication = some imp ∧ imp.Supports t.degree) →
      ∃ m : ℝ → ℝ, ∀ ctx x, X x → l.foldlM (fun mu (t : Activated (Ext ℝ)) => do
        let y ← t.membership ctx (fin x)
        agg.compute mu y) (fin (m0 x)) = .ok (fin (m x)) ∧ 0 ≤ m x ∧ (0 < m x → lo < x ∧ x < hi) := by
    intro l
    induction l with
    | nil => exact fun m0 h0 _ => ⟨m0, fun ctx x h1 => ⟨rfl, h0 x h1⟩⟩
    | cons t l ih =>
      intro m0 h0 hl
      obtain ⟨⟨f, hf⟩, imp, himp, hsup⟩ := hl t List.mem_cons_self
      have hstep : ∀ x, ∃ w, X x → (∀ ctx, (do
          let y ← t.membership ctx (fin x)
          agg.compute (fin (m0 x)) y) = (.ok (fin w) : Except Err (Ext ℝ))) ∧ 0 ≤ w ∧ (0 < w → lo < x ∧ x < hi) := by
        intro x
        by_cases h1 : X x
        · have hf0 := fun ctx => hf ctx x h1
          obtain ⟨-, f0, f1⟩ := hf0 ⟨[], []⟩
          obtain ⟨z, hz, z0, z1⟩ := hsup (f x) f0
          obtain ⟨w, hw, w0, w1⟩ := hagg (m0 x) z (h0 x h1).1 z0
          refine ⟨w, fun _ => ⟨fun ctx => ?_, w0, fun hw => ?_⟩⟩
          · have e : t.membership ctx (fin x) = .ok (fin z) := by
              simp only [Activated.membership, himp, (hf0 ctx).1, isNaN_fin, Bool.false_eq_true, if_false]
              exact hz
            rw [e]
            exact hw
          · rcases w1 hw with h | h
            · exact (h0 x h1).2 h
            · exact f1 (z1 h)
        · exact ⟨0, fun h => absurd h h1⟩
      choose m1 hm1 using hstep
      obtain ⟨m, hm⟩ := ih m1 (fun x h1 => (hm1 x h1).2) fun t ht => hl t (List.mem_cons_of_mem _ ht)
      refine ⟨m, fun ctx x h1 => ?_⟩
      rw [List.foldlM_cons, (hm1 x h1).1 ctx]
      exact hm ctx x h1
  obtain ⟨m, hm⟩ := key g.terms (fun _ => 0) (fun x _ => ⟨le_refl 0, fun h => absurd h (lt_irrefl 0)⟩) h
  refine ⟨m, fun ctx x h1 => ?_⟩
  have := hm ctx x h1
  unfold membership
  rw [hg]
  simp only [isNaN_fin, Bool.false_eq_true, if_false]
  simpa using this

/-- shapes that have membership 0 at all points of `X` outside of `lo` to `hi` -/
theorem shape_supported (X : ℝ → Prop) (lo hi : ℝ) (name : Str) (h : ℝ) (hh : 0 ≤ h) (sh : Shape ℝ) (hw : sh.Ordered) (hs : ∀ x, X x → sh.Safe x)
    (hout : ∀ x, X x → ¬ (lo < x ∧ x < hi) → sh.Outside x) : Term.Supported X lo hi ⟨name, fin h, .shape (sh.map fin)⟩ := by
  refine ⟨fun x => h * sh.unit x, fun ctx x hx => ⟨?_, mul_nonneg hh (Shape.unit_range sh x hw (hs x hx)).1, fun hp => ?_⟩⟩
  · simp only [Term.membership, Shape.membership_fin sh hw h x]
  · by_contra hcon
    have := Shape.outside_zero sh hw h x (hout x hx hcon)
    rw [Shape.membership_fin sh hw h x] at this
    have e : h * sh.unit x = 0 := by simpa using this
    simp only at hp
    linarith

/-- **C103.**  Process any engine in exact arithmetic whose conclusions have no hedges other than such as keep degrees greater than 0, whatever the activation
methods, the antecedents, the weights and the inputs.  Let the activated terms of an output variable have their supports between `lo` and `hi`.  If then a sampled
point has positive membership in the fuzzy output (two of them for `Bisector`), the value of the variable lies between `lo` and `hi`. -/
theorem Engine.process_support_partial [Heap (Ext ℝ)] (e : Engine (Ext ℝ))
    (hc : ∀ b ∈ e.blocks, ∀ r ∈ b.rules, ∀ p ∈ r.conclusions, ∀ h ∈ p.hedges, h.Keeps Ext.Positive)
    (himp : ∀ b ∈ e.blocks, ∃ imp, b.implication = some imp ∧ ∀ d : Ext ℝ, d.Positive → imp.Supports d)
    (i : Nat) (o : OutputVariable (Ext ℝ)) (ho : e.outputs[i]? = some o) (hen : o.enabled = true) (hlock : o.lockRange = false)
    (k : IntegralKind) (n : Nat) (hd : o.defuzzifier = some (.integral k n)) (a b : ℝ) (hab : a < b) (hmin : o.minimum = fin a) (hmax : o.maximum = fin b)
    (agg : SNorm (Ext ℝ)) (hagg : o.fuzzy.aggregation = some agg) (hsup : agg.Supports)
    (hok : e.process.2 = none) :
    ∃ q, e.process.1.outputs[i]? = some q ∧ (∀ x ∈ q.fuzzy.terms, x.term ∈ o.terms) ∧
      ∀ lo hi : ℝ, (∀ x ∈ q.fuzzy.terms, x.term.Supported (Integral.Sampled a b n) lo hi) → ∀ (s t : Nat) (ctx : Ctx (Ext ℝ)) (u v : ℝ), s < n → t < n → (k = .bisector → s < t) →
      q.fuzzy.membership ctx (fin (Integral.point a b n s)) = .ok (fin u) → q.fuzzy.membership ctx (fin (Integral.point a b n t)) = .ok (fin v) →
      0 < u → 0 < v → ∃ r, q.value = fin r ∧ lo < r ∧ r < hi := by
  have hact := e.activateBlocks_degrees Ext.Positive (fun _ h => positive_of_isGt h) hc
  have himpl := e.activateBlocks_implied (fun I => ∃ imp, I = some imp ∧ ∀ d : Ext ℝ, d.Positive → imp.Supports d) himp
  have hfr := (activateBlocks_frame e.blocks e.cleared).outputs
  rw [process_eq] at hok ⊢
  cases he : (activateBlocks e.cleared e.blocks).2.2 with
  | some err => rw [he] at hok; simp at hok
  | none =>
    rw [he] at hok
    simp only at hok ⊢
    obtain ⟨os', h1, h2⟩ := defuzzifyAll_each _ _ _ hok
    rw [h1, List.nil_append]
    generalize (activateBlocks e.cleared e.blocks).1 = w at *
    have hcl : e.cleared.outputs[i]? = some { o with fuzzy := o.fuzzy.clear } := by
      simp [cleared, ho]
    obtain ⟨hi0, hcl⟩ := List.getElem?_eq_some_iff.1 hcl
    have hi1 : i < w.outputs.length := by rw [← hfr.length_eq]; exact hi0
    have hi2 : i < os'.length := by rw [← h2.length_eq]; exact hi1
    have hf := (List.forall₂_iff_get.1 hfr).2 i hi0 hi1
    have hq := (List.forall₂_iff_get.1 h2).2 i hi1 hi2
    simp only [List.get_eq_getElem] at hf hq
    rw [hcl] at hf
    have hmem : w.outputs[i] ∈ w.outputs := List.getElem_mem _
    have hpos := hact _ hmem
    have hmp := himpl _ hmem
    generalize w.outputs[i] = p at *
    obtain ⟨hp, -, l, hl, hlt⟩ := hf
    simp only [Aggregated.clear, List.nil_append] at hl hp hlt
    obtain ⟨ctx, hq⟩ := hq
    refine ⟨os'[i], List.getElem?_eq_getElem hi2, ?_⟩
    generalize os'[i] = q at *
    unfold OutputVariable.defuzzify at hq
    have e1 : p.enabled = true := by rw [hp]; exact hen
    have e2 : p.defuzzifier = some (.integral k n) := by rw [hp]; exact hd
    have e4 : p.lockRange = false := by rw [hp]; exact hlock
    have e5 : p.minimum = fin a := by rw [hp]; exact hmin
    have e6 : p.maximum = fin b := by rw [hp]; exact hmax
    have e7 : p.fuzzy.aggregation = some agg := by rw [hp]; exact hagg
    simp only [e1, e2, Bool.not_true, Bool.false_eq_true, if_false, bind, Except.bind] at hq
    cases hz : Defuzzifier.defuzzify ctx (.integral k n) p.fuzzy p.minimum p.maximum with
    | error err => rw [hz] at hq; simp at hq
    | ok z =>
      rw [hz] at hq
      simp only [Except.ok.injEq] at hq
      have hfz : q.fuzzy = p.fuzzy := by rw [← hq]; rfl
      rw [hfz]
      refine ⟨fun x hx => hlt x (hl ▸ hx), ?_⟩
      intro lo hi hts s t ctx' u v hsn htn hk hu hv hu0 hv0
      obtain ⟨m, hm⟩ := Aggregated.membership_supported (Integral.Sampled a b n) lo hi p.fuzzy agg e7 hsup (fun x hx =>
        ⟨hts x hx, (hmp x hx).imp fun imp h => ⟨h.1, h.2 _ (hpos x hx)⟩⟩)
      rw [(hm ctx' _ ⟨s, hsn, rfl⟩).1] at hu
      rw [(hm ctx' _ ⟨t, htn, rfl⟩).1] at hv
      cases hu
      cases hv
      obtain ⟨r, hr, hr1, hr2⟩ := Integral.defuzzify_support_partial k (p.fuzzy.membership ctx) m a b hab n
        (fun x h1 => ⟨(hm ctx x h1).1, (hm ctx x h1).2.1⟩) lo hi (fun x h1 => (hm ctx x h1).2.2) s t htn hu0 hv0 hk
      have hzr : z = fin r := by
        have : Defuzzifier.defuzzify ctx (.integral k n) p.fuzzy p.minimum p.maximum = .ok (fin r) := by
          rw [e5, e6]
          exact hr
        rw [hz] at this
        simpa using this
      refine ⟨r, ?_, hr1, hr2⟩
      rw [← hq, hzr]
      simp [OutputVariable.setValue, Variable.setValue, e4]

end FL

namespace FL.SupportDemo
open Scalar

section exact
local instance : Heap (Ext Rat) := RuleBlock.stableHeap _

def input : Variable (Ext Rat) :=
  { Variable.new (cs! "x") (.fin 0) (.fin 4) [⟨cs! "low", .fin 1, .shape (.ramp (.fin 4) (.fin 0))⟩, ⟨cs! "high", .fin 1, .shape (.ramp (.fin 0) (.fin 4))⟩] with
    value := .fin 1 }

/-- one triangular term; five sampled points: 1, 3, 5, 7 and 9 -/
def output (k : IntegralKind) (a b c : Rat) : OutputVariable (Ext Rat) :=
  let o := OutputVariable.new (cs! "y") (.fin 0) (.fin 10) [⟨cs! "some", .fin 1, .shape (.triangle (.fin a) (.fin b) (.fin c))⟩]
  { o with
    fuzzy := { o.fuzzy with aggregation := some (.builtin .maximum) }
    defuzzifier := some (.integral k 5) }

def engine (k : IntegralKind) (a b c : Rat) : Engine (Ext Rat) :=
  ⟨[], [], [input], [output k a b c], [{ RuleBlock.new [] with
    activation := some .general
    implication := some (.builtin .minimum)
    rules := [{ Rule.new [] with
      antecedent := some (.prop ⟨.input 0, [], some 0⟩)
      conclusions := [⟨.output 0, [], some 0⟩] }] }]⟩

/-- two sampled points in the support: all values lie between 4 and 8 -/
example : (engine .centroid 4 5 8).process.1.outputValues = [.fin (73 / 13)] ∧ (engine .bisector 4 5 8).process.1.outputValues = [.fin 5] ∧
    (engine .meanOfMaximum 4 5 8).process.1.outputValues = [.fin 5] ∧ (engine .largestOfMaximum 4 5 8).process.1.outputValues = [.fin 5] := by
  decide +kernel

/-- **C103 is violated by Bisector**: if a single sampled point has positive membership, all points have an area of none or all on their left, each of them
is as good a bisector as any other, and the value is the middle of the range, here 5 for a triangle from 8 to 10. -/
theorem bisector_violated : (engine .bisector 8 9 10).process.2 = none ∧ (engine .bisector 8 9 10).process.1.outputValues = [.fin 5] ∧
    (engine .centroid 8 9 10).process.1.outputValues = [.fin 9] := by decide +kernel

/-- **C103 is violated if no sampled point has positive membership**: the smallest of maximum of a triangle from 7.5 to 8.5 is 1, the largest 9. -/
theorem unsampled_violated : (engine .smallestOfMaximum (15 / 2) 8 (17 / 2)).process.2 = none ∧
    (engine .smallestOfMaximum (15 / 2) 8 (17 / 2)).process.1.outputValues = [.fin 1] ∧
    (engine .largestOfMaximum (15 / 2) 8 (17 / 2)).process.1.outputValues = [.fin 9] := by decide +kernel

end exact

section real
open Ext
variable [Tol ℝ]

/-- a rectangle from 2 to 3, whatever the range and the resolution -/
example (a b : ℝ) (n : Nat) : Term.Supported (Integral.Sampled a b n) (2 - tol) (3 + tol) ⟨cs! "box", fin 1, .shape (.rectangle (fin 2) (fin 3))⟩ :=
  shape_supported _ _ _ _ 1 (by norm_num) (.rectangle 2 3) trivial (fun _ _ => trivial) fun x _ h => by
    rcases not_and_or.1 h with h | h
    · exact Or.inl (not_lt.1 h)
    · exact Or.inr (not_lt.1 h)

/-- the centroid of a fuzzy set that is 1 from 2 to 3 and sampled at 2.5 -/
example (mu : Ext ℝ → Except Err (Ext ℝ)) (m : ℝ → ℝ) (hm : ∀ x, mu (fin x) = .ok (fin (m x))) (h0 : ∀ x, 0 ≤ m x) (h1 : m (5 / 2) = 1)
    (h2 : ∀ x, 0 < m x → 2 < x ∧ x < 3) : ∃ r, Integral.defuzzify .centroid (5 : Nat) mu (fin 0) (fin 5) = .ok (fin r) ∧ 2 < r ∧ r < 3 := by
  have e : Integral.point 0 5 5 2 = 5 / 2 := by norm_num [Integral.point]
  refine Integral.defuzzify_support_partial .centroid mu m 0 5 (by norm_num) 5 (fun x _ => ⟨hm x, h0 x⟩) 2 3 (fun x _ => h2 x) 2 2 (by norm_num) ?_ ?_
    (by simp)
  all_goals
    rw [e, h1]
    norm_num

end real
end FL.SupportDemo
