/-
C48: the error counts and the mean squared error of a benchmark.
-/
import Verif.Model.Benchmark
import Verif.Lemmas.Ext
import Mathlib.Algebra.BigOperators.Group.List.Basic
import Mathlib.Algebra.Order.BigOperators.Group.List
import Mathlib.Tactic.Positivity
import Mathlib.Tactic.FieldSimp

namespace FL
namespace Benchmark
open Scalar

section General
variable {S : Type} [Scalar S]

theorem foldlM_ite {α σ : Type} (ok : α → Prop) [DecidablePred ok] (u : σ → α → σ) (l : List α) (s : σ) :
    l.foldlM (m := Except Err) (fun s a => if ok a then .ok (u s a) else .error .outOfRange) s =
      if ∀ a ∈ l, ok a then .ok (l.foldl u s) else .error .outOfRange := by
  induction l generalizing s with
  | nil => simp; rfl
  | cons a l ih =>
    rw [List.foldlM_cons]
    by_cases ha : ok a
    · rw [if_pos ha]
      show l.foldlM _ (u s a) = _
      rw [ih]
      by_cases hl : ∀ b ∈ l, ok b
      · rw [if_pos hl, if_pos (by simpa [ha] using hl), List.foldl_cons]
      · rw [if_neg hl, if_neg (by simpa [ha] using hl)]
    · rw [if_neg ha, if_neg (by simp [ha])]
      rfl

/-- The values of the chosen outputs can be read in a pair of rows. -/
def Readable (en : Engine S) (out : Option Nat) (p : List S × List S) : Prop :=
  ∀ y < en.outputs.length, chosen out y = true →
    y + en.inputs.length < p.1.length ∧ y + en.inputs.length < p.2.length

instance (en : Engine S) (out : Option Nat) : DecidablePred (Readable en out) :=
  fun p => by unfold Readable; infer_instance

/-- the pairs of rows -/
def pairs (b : Benchmark S) : List (List S × List S) := b.expected.zip b.obtained

/-- the pairs of expected and obtained values of the chosen outputs in two rows -/
def rowCells (en : Engine S) (out : Option Nat) (p : List S × List S) : List (S × S) :=
  ((List.range en.outputs.length).filter fun y => chosen out y).map fun y =>
    (p.1.getD (y + en.inputs.length) nan, p.2.getD (y + en.inputs.length) nan)

/-- the pairs of expected and obtained values of the chosen outputs -/
def cells (b : Benchmark S) (en : Engine S) (out : Option Nat) : List (S × S) :=
  b.pairs.flatMap (rowCells en out)

theorem foldl_flatMap {α β σ : Type} (f : α → List β) (u : σ → β → σ) (l : List α) (s : σ) :
    (l.flatMap f).foldl u s = l.foldl (fun s a => (f a).foldl u s) s := by
  induction l generalizing s with
  | nil => rfl
  | cons a l ih => simp [ih]

theorem foldl_filter_map {α β σ : Type} (q : α → Bool) (f : α → β) (u : σ → β → σ) (l : List α) (s : σ) :
    ((l.filter q).map f).foldl u s = l.foldl (fun s a => if q a then u s (f a) else s) s := by
  induction l generalizing s with
  | nil => rfl
  | cons a l ih => by_cases h : q a <;> simp [h, ih]

theorem get_eq (row : List S) (i : Nat) :
    get row i = if i < row.length then .ok (row.getD i nan) else .error .outOfRange := by
  unfold get
  by_cases h : i < row.length
  · simp [h]
  · simp [h]

/-- The loops over rows and outputs are a fold over the pairs of values, or a range error. -/
theorem loops (b : Benchmark S) (en : Engine S) (out : Option Nat) {σ : Type} (u : σ → S × S → σ) (s : σ)
    (f : σ → List S × List S → Nat → Except Err σ)
    (hf : ∀ s p y, f s p y = if chosen out y then
      (get p.1 (y + en.inputs.length) >>= fun ev => get p.2 (y + en.inputs.length) >>= fun ov => .ok (u s (ev, ov)))
      else .ok s) :
    b.pairs.foldlM (fun s p => (List.range en.outputs.length).foldlM (fun s y => f s p y) s) s =
      if ∀ p ∈ b.pairs, Readable en out p then .ok ((b.cells en out).foldl u s) else .error .outOfRange := by
  have hrow : ∀ (s : σ) (p : List S × List S),
      (List.range en.outputs.length).foldlM (fun s y => f s p y) s =
        if Readable en out p then .ok ((rowCells en out p).foldl u s) else .error .outOfRange := by
    intro s p
    have hstep : (fun s y => f s p y) = fun s y =>
        if (chosen out y = true → y + en.inputs.length < p.1.length ∧ y + en.inputs.length < p.2.length) then
          Except.ok ((fun s y => if chosen out y then
            u s (p.1.getD (y + en.inputs.length) nan, p.2.getD (y + en.inputs.length) nan) else s) s y)
        else .error .outOfRange := by
      funext s y
      rw [hf, get_eq, get_eq]
      by_cases hc : chosen out y = true
      · by_cases h1 : y + en.inputs.length < p.1.length
        · by_cases h2 : y + en.inputs.length < p.2.length
          · simp only [hc, h1, h2, if_true, and_self, forall_const, true_implies]; rfl
          · simp only [hc, h1, h2, if_true, if_false, and_false, forall_const, true_implies]; rfl
        · simp only [hc, h1, if_true, if_false, false_and, forall_const, true_implies]; rfl
      · simp [hc]
    rw [hstep, foldlM_ite]
    unfold Readable rowCells
    rw [foldl_filter_map]
    simp only [List.mem_range]
  simp only [hrow]
  rw [foldlM_ite]
  unfold cells
  rw [foldl_flatMap]

theorem foldl_count (q : S × S → Bool) (l : List (S × S)) (n : Int) :
    l.foldl (fun n c => if q c then n + 1 else n) n = n + (l.countP q : Int) := by
  induction l generalizing n with
  | nil => simp
  | cons a l ih =>
    rw [List.foldl_cons, ih, List.countP_cons]
    by_cases h : q a = true
    · simp only [h, if_true]; push_cast; ring
    · simp only [h]; simp

/-- `numberOfErrors` counts the pairs of values. -/
theorem numberOfErrors_eq (b : Benchmark S) (ty : ErrorType) (out : Option Nat) (en : Engine S)
    (hen : b.engine = some en) (hc : b.canComputeErrors = true) :
    b.numberOfErrors ty out =
      if ∀ p ∈ b.pairs, Readable en out p then
        .ok ((b.cells en out).countP fun c => counts b.tolerance ty c.1 c.2)
      else .error .outOfRange := by
  unfold numberOfErrors
  rw [hen]
  simp only [hc, Bool.not_true, Bool.false_eq_true, if_false]
  rw [show b.expected.zip b.obtained = b.pairs from rfl]
  refine (loops b en out (u := fun n c => if counts b.tolerance ty c.1 c.2 then n + 1 else n) (0 : Int)
    (f := fun n p y => if chosen out y then do
            let ev ← get p.1 (y + en.inputs.length)
            let ov ← get p.2 (y + en.inputs.length)
            pure (if counts b.tolerance ty ev ov then n + 1 else n)
          else pure n) (fun s p y => rfl)).trans ?_
  rw [foldl_count]
  simp

/-- What each of the three counters counts, independently of how it is written: the values differ
beyond the tolerance, and the difference is finite (accuracy), is not (non-finite), or whatever. -/
theorem counts_spec (t e o : S) :
    (counts t .all e o = true ↔ Op.isEqT t e o = false) ∧
    (counts t .accuracy e o = true ↔ Op.isEqT t e o = false ∧ Op.isFinite (e - o) = true) ∧
    (counts t .nonFinite e o = true ↔ Op.isEqT t e o = false ∧ Op.isFinite (e - o) = false) := by
  unfold counts
  cases h1 : Op.isEqT t e o <;> cases h2 : Op.isFinite (e - o) <;> simp

theorem countP_split (t : S) (l : List (S × S)) :
    (l.countP fun c => counts t .all c.1 c.2) =
      (l.countP fun c => counts t .nonFinite c.1 c.2) + (l.countP fun c => counts t .accuracy c.1 c.2) := by
  induction l with
  | nil => rfl
  | cons c l ih =>
    simp only [List.countP_cons, ih]
    obtain ⟨h1, h2, h3⟩ := counts_spec t c.1 c.2
    cases he : Op.isEqT t c.1 c.2 <;> cases hf : Op.isFinite (c.1 - c.2) <;> simp [h1, h2, h3, he, hf] <;> omega

/-- C48: all errors are the non-finite errors and the accuracy errors, for one output variable or
all of them, when the errors can be computed; a row that is too short makes all three raise.
Partial: the three counts are -1 when the errors cannot be computed, see `minus_one_violated`. -/
theorem allErrors_partial (b : Benchmark S) (out : Option Nat) (hc : b.canComputeErrors = true) :
    b.allErrors out = (do
      let n ← b.nonFiniteErrors out
      let a ← b.accuracyErrors out
      pure (n + a)) := by
  obtain ⟨en, hen⟩ : ∃ en, b.engine = some en := by
    cases h : b.engine with
    | none => simp [canComputeErrors, h] at hc
    | some en => exact ⟨en, rfl⟩
  unfold allErrors nonFiniteErrors accuracyErrors
  rw [numberOfErrors_eq b .all out en hen hc, numberOfErrors_eq b .nonFinite out en hen hc,
    numberOfErrors_eq b .accuracy out en hen hc]
  split
  · rw [countP_split]
    show Except.ok _ = Except.ok _
    push_cast
    rfl
  · rfl

theorem chosen_some (k y : Nat) : chosen (some k) y = true ↔ y = k := by simp [chosen]

theorem rowCells_some (en : Engine S) (p : List S × List S) (k : Nat) (hk : k < en.outputs.length) :
    rowCells en (some k) p =
      [(p.1.getD (k + en.inputs.length) nan, p.2.getD (k + en.inputs.length) nan)] := by
  unfold rowCells
  have h : ∀ n, (List.range n).filter (fun y => chosen (some k) y) = if k < n then [k] else [] := by
    intro n
    induction n with
    | zero => rfl
    | succ n ih =>
      rw [List.range_succ, List.filter_append, ih]
      by_cases h1 : k < n
      · have h2 : k < n + 1 := by omega
        have h3 : n ≠ k := by omega
        simp [h1, h2, chosen, h3]
      · by_cases h2 : n = k
        · subst h2; simp [chosen]
        · have h3 : ¬ k < n + 1 := by omega
          simp [h1, h3, chosen, h2]
  rw [h, if_pos hk]
  rfl

theorem countP_sum {α : Type} (l : List α) (n : Nat) (f : Nat → α → Bool) :
    ((List.range n).map fun y => l.countP (f y)).sum = (l.map fun a => (List.range n).countP fun y => f y a).sum := by
  induction l with
  | nil => simp
  | cons a l ih =>
    simp only [List.countP_cons, List.map_cons, List.sum_cons, ← ih]
    rw [List.sum_map_add, Nat.add_comm]
    congr 1
    induction List.range n with
    | nil => rfl
    | cons y l ih => simp [List.countP_cons, ih, Nat.add_comm]

/-- adding up the results of calls in order, stopping at the first exception -/
def total (l : List (Except Err Int)) : Except Err Int := l.foldrM (fun x n => do pure ((← x) + n)) 0

theorem total_ok (l : List Nat) : total (l.map fun n : Nat => .ok (n : Int)) = .ok (l.sum : Nat) := by
  unfold total
  induction l with
  | nil => rfl
  | cons n l ih =>
    rw [List.map_cons, List.foldrM_cons, ih]
    show Except.ok _ = _
    rw [List.sum_cons]
    push_cast
    rfl

theorem total_error (l : List (Except Err Int)) (h : ∃ x ∈ l, x = .error .outOfRange)
    (hl : ∀ x ∈ l, x = .error .outOfRange ∨ ∃ n, x = .ok n) : total l = .error .outOfRange := by
  unfold total
  induction l with
  | nil => simp at h
  | cons x l ih =>
    rw [List.foldrM_cons]
    by_cases hr : ∃ x ∈ l, x = .error .outOfRange
    · rw [ih hr (fun x hx => hl x (by simp [hx]))]
      rfl
    · have hx : x = .error .outOfRange := by
        obtain ⟨z, hz, hze⟩ := h
        rcases List.mem_cons.1 hz with rfl | hz
        · exact hze
        · exact absurd ⟨z, hz, hze⟩ hr
      have : ∃ m, l.foldrM (fun x n => do pure ((← x) + n)) (0 : Int) = Except.ok (ε := Err) m := by
        clear ih h
        induction l with
        | nil => exact ⟨0, rfl⟩
        | cons z l ih =>
          obtain ⟨m, hm⟩ := ih (fun a ha => hl a (by
              rcases List.mem_cons.1 ha with rfl | ha
              · simp
              · simp [ha]))
            (by rintro ⟨a, ha, h⟩; exact hr ⟨a, by simp [ha], h⟩)
          rw [List.foldrM_cons, hm]
          rcases hl z (by simp) with h | ⟨n, h⟩
          · exact absurd ⟨z, by simp, h⟩ hr
          · rw [h]; exact ⟨n + m, rfl⟩
      obtain ⟨m, hm⟩ := this
      rw [hm, hx]
      rfl

/-- C48: the count for all outputs is the sum of the counts for each output, when the errors can be
computed; a row that is too short makes both raise.  Partial: the counts are -1 when the errors
cannot be computed, see `minus_one_violated`. -/
theorem numberOfErrors_sum_partial (b : Benchmark S) (ty : ErrorType) (en : Engine S) (hen : b.engine = some en)
    (hc : b.canComputeErrors = true) :
    b.numberOfErrors ty none =
      total ((List.range en.outputs.length).map fun y => b.numberOfErrors ty (some y)) := by
  rw [numberOfErrors_eq b ty none en hen hc]
  by_cases h : ∀ p ∈ b.pairs, Readable en none p
  · rw [if_pos h]
    have h' : ∀ y ∈ List.range en.outputs.length, b.numberOfErrors ty (some y) =
        .ok (((b.pairs.countP fun p => counts b.tolerance ty (p.1.getD (y + en.inputs.length) nan)
          (p.2.getD (y + en.inputs.length) nan)) : Nat) : Int) := by
      intro y hy
      rw [List.mem_range] at hy
      rw [numberOfErrors_eq b ty (some y) en hen hc, if_pos]
      · unfold cells
        rw [List.countP_flatMap]
        congr 2
        induction b.pairs with
        | nil => rfl
        | cons p l ih =>
          rw [List.map_cons, List.sum_cons, ih, List.countP_cons, Nat.add_comm]
          simp only [Function.comp_apply, rowCells_some en p y hy, List.countP_cons, List.countP_nil,
            Nat.zero_add]
      · intro p hp z hz hzy
        exact h p hp z hz rfl
    rw [List.map_congr_left h']
    have : ((List.range en.outputs.length).map fun y =>
        (Except.ok (((b.pairs.countP fun p => counts b.tolerance ty (p.1.getD (y + en.inputs.length) nan)
          (p.2.getD (y + en.inputs.length) nan)) : Nat) : Int) : Except Err Int)) =
      ((List.range en.outputs.length).map fun y => b.pairs.countP fun p =>
        counts b.tolerance ty (p.1.getD (y + en.inputs.length) nan)
          (p.2.getD (y + en.inputs.length) nan)).map fun n => .ok (n : Int) := by
      rw [List.map_map]; rfl
    rw [this, total_ok, countP_sum]
    unfold cells
    rw [List.countP_flatMap]
    congr 3
    refine List.map_congr_left fun p _ => ?_
    simp only [Function.comp_apply, rowCells, List.countP_map]
    rw [List.filter_eq_self.2 (fun _ _ => by rfl)]
    rfl
  · rw [if_neg h]
    symm
    apply total_error
    · simp only [not_forall] at h
      obtain ⟨p, hp, hnp⟩ := h
      unfold Readable at hnp
      simp only [not_forall] at hnp
      obtain ⟨y, hy, hch, hlen⟩ := hnp
      refine ⟨_, List.mem_map.2 ⟨y, List.mem_range.2 hy, rfl⟩, ?_⟩
      rw [numberOfErrors_eq b ty (some y) en hen hc, if_neg]
      intro hall
      exact hlen (hall p hp y hy (by simp [chosen]))
    · intro x hx
      obtain ⟨y, _, rfl⟩ := List.mem_map.1 hx
      rw [numberOfErrors_eq b ty (some y) en hen hc]
      split
      · exact .inr ⟨_, rfl⟩
      · exact .inl rfl

/-- The counts are not negative when the errors can be computed, and -1 otherwise. -/
theorem numberOfErrors_sign (b : Benchmark S) (ty : ErrorType) (out : Option Nat) (n : Int)
    (h : b.numberOfErrors ty out = .ok n) : (0 ≤ n ↔ b.canComputeErrors = true) ∧ (n = -1 ∨ 0 ≤ n) := by
  by_cases hc : b.canComputeErrors = true
  · obtain ⟨en, hen⟩ : ∃ en, b.engine = some en := by
      cases h : b.engine with
      | none => simp [canComputeErrors, h] at hc
      | some en => exact ⟨en, rfl⟩
    rw [numberOfErrors_eq b ty out en hen hc] at h
    split at h
    · injection h with h
      have : 0 ≤ n := by omega
      exact ⟨by simp [hc, this], .inr this⟩
    · cases h
  · have : b.numberOfErrors ty out = .ok (-1) := by
      unfold numberOfErrors
      cases b.engine with
      | none => rfl
      | some en => simp [hc]
    rw [this] at h
    injection h with h
    subst h
    simp [hc]

/-- C48: without expected and obtained values the three counts are -1, so that they do not add up. -/
theorem minus_one_violated : ∃ b : Benchmark S,
    b.allErrors none = .ok (-1) ∧ b.nonFiniteErrors none = .ok (-1) ∧ b.accuracyErrors none = .ok (-1) ∧
    b.allErrors none ≠ (do
      let n ← b.nonFiniteErrors none
      let a ← b.accuracyErrors none
      pure (n + a)) := by
  refine ⟨⟨none, [], [], lit 0⟩, rfl, rfl, rfl, ?_⟩
  show Except.ok (-1 : Int) ≠ Except.ok (-1 + -1)
  intro h
  injection h with h
  omega

end General

section Mean
variable [Tol ℝ]
open Ext

/-- the squares of the finite differences that are not within the tolerance of zero -/
noncomputable def deviation (t : Ext ℝ) (c : Ext ℝ × Ext ℝ) : Option ℝ :=
  match c.1, c.2 with
  | .fin a, .fin b => if counts t .accuracy (.fin a) (.fin b) then some (a - b) else none
  | _, _ => none

/-- the differences between expected and obtained values that are accuracy errors -/
noncomputable def deviations (b : Benchmark (Ext ℝ)) (en : Engine (Ext ℝ)) (out : Option Nat) : List ℝ :=
  (b.cells en out).filterMap (deviation b.tolerance)

theorem isEqT_diff (t : Ext ℝ) (a b : ℝ) : Op.isEqT t (.fin (a - b)) (.fin 0) = Op.isEqT t (.fin a) (.fin b) := by
  unfold Op.isEqT
  have h : (a - b = 0) ↔ (a = b) := sub_eq_zero
  simp [h]

theorem step_eq (t : Ext ℝ) (s : ℝ) (n : Nat) (e o : Ext ℝ) :
    (if Op.isFinite (e - o) && !Op.isEqT t (e - o) (lit 0) then
      ((Ext.fin s : Ext ℝ) + (e - o) * (e - o), n + 1) else (Ext.fin s, n)) =
    match deviation t (e, o) with
    | some d => (Ext.fin (s + d * d), n + 1)
    | none => (Ext.fin s, n) := by
  have hl : (lit 0 : Ext ℝ) = .fin 0 := by simp
  cases e <;> cases o <;> simp only [deviation] <;>
    first
    | (rename_i a b
       rw [sub_fin, hl, isEqT_diff]
       have := (counts_spec t (.fin a) (.fin b)).2.1
       rw [sub_fin] at this
       simp only [isFinite_fin, and_true] at this
       by_cases h : Op.isEqT t (Ext.fin a) (Ext.fin b) = true
       · have : counts t .accuracy (.fin a) (.fin b) = false := by
           rw [← Bool.not_eq_true, this, h]; simp
         simp [h, this]
       · have : counts t .accuracy (.fin a) (.fin b) = true := by
           rw [this]; simpa using h
         simp [h, this])
    | simp

theorem counts_deviation (t : Ext ℝ) (c : Ext ℝ × Ext ℝ) :
    counts t .accuracy c.1 c.2 = (deviation t c).isSome := by
  obtain ⟨e, o⟩ := c
  cases e <;> cases o <;> simp only [deviation] <;>
    first
    | (rename_i a b; by_cases h : counts t .accuracy (Ext.fin a) (Ext.fin b) = true <;> simp [h])
    | (rw [Option.isSome_none, ← Bool.not_eq_true, (counts_spec t _ _).2.1]; simp)

theorem fold_mse (t : Ext ℝ) (l : List (Ext ℝ × Ext ℝ)) (s : ℝ) (n : Nat) :
    l.foldl (fun s c => if Op.isFinite (c.1 - c.2) && !Op.isEqT t (c.1 - c.2) (lit 0) then
      (s.1 + (c.1 - c.2) * (c.1 - c.2), s.2 + 1) else s) ((Ext.fin s : Ext ℝ), n) =
    (Ext.fin (s + ((l.filterMap (deviation t)).map fun d => d * d).sum), n + (l.filterMap (deviation t)).length) := by
  induction l generalizing s n with
  | nil => simp
  | cons c l ih =>
    obtain ⟨e, o⟩ := c
    rw [List.foldl_cons]
    show List.foldl _ (if Op.isFinite (e - o) && !Op.isEqT t (e - o) (lit 0) then
      ((Ext.fin s : Ext ℝ) + (e - o) * (e - o), n + 1) else (Ext.fin s, n)) l = _
    rw [step_eq]
    cases h : deviation t (e, o) with
    | none => simp only [ih, List.filterMap_cons, h]
    | some d =>
      simp only [ih, List.filterMap_cons, h, List.map_cons, List.sum_cons, List.length_cons]
      refine Prod.ext ?_ ?_
      · show Ext.fin _ = Ext.fin _
        congr 1; ring
      · show n + 1 + _ = n + (_ + 1)
        omega

/-- the accuracy errors are the deviations -/
theorem accuracyErrors_eq (b : Benchmark (Ext ℝ)) (out : Option Nat) (en : Engine (Ext ℝ))
    (hen : b.engine = some en) (hc : b.canComputeErrors = true) :
    b.accuracyErrors out =
      if ∀ p ∈ b.pairs, Readable en out p then .ok ((b.deviations en out).length : Int)
      else .error .outOfRange := by
  unfold accuracyErrors
  rw [numberOfErrors_eq b .accuracy out en hen hc]
  congr 2
  unfold deviations
  have : ∀ l : List (Ext ℝ × Ext ℝ), (l.countP fun c => counts b.tolerance .accuracy c.1 c.2) =
      (l.filterMap (deviation b.tolerance)).length := by
    intro l
    induction l with
    | nil => rfl
    | cons c l ih =>
      rw [List.countP_cons, ih, List.filterMap_cons, counts_deviation]
      cases h : deviation b.tolerance c <;> simp
  rw [this]

/-- the mean squared error is the mean of the squares of the deviations -/
theorem meanSquaredError_eq (b : Benchmark (Ext ℝ)) (out : Option Nat) (en : Engine (Ext ℝ))
    (hen : b.engine = some en) (hc : b.canComputeErrors = true) :
    b.meanSquaredError out =
      if ∀ p ∈ b.pairs, Readable en out p then
        .ok (.fin (((b.deviations en out).map fun d => d * d).sum / (b.deviations en out).length))
      else .error .outOfRange := by
  unfold meanSquaredError
  rw [hen]
  simp only [hc, Bool.not_true, Bool.false_eq_true, if_false]
  rw [show b.expected.zip b.obtained = b.pairs from rfl]
  rw [show (lit 0 : Ext ℝ) = .fin 0 by simp]
  have := loops b en out (u := fun s c => if Op.isFinite (c.1 - c.2) && !Op.isEqT b.tolerance (c.1 - c.2) (lit 0) then
      (s.1 + (c.1 - c.2) * (c.1 - c.2), s.2 + 1) else s) ((Ext.fin 0 : Ext ℝ), (0 : Nat))
    (f := fun s p y => if chosen out y then do
            let ev ← get p.1 (en.inputs.length + y)
            let ov ← get p.2 (en.inputs.length + y)
            let d := ev - ov
            pure (if Op.isFinite d && !Op.isEqT b.tolerance d (lit 0) then (s.1 + d * d, s.2 + 1) else s)
          else pure s) (fun s p y => by rw [Nat.add_comm y]; rfl)
  rw [fold_mse] at this
  rw [show (lit 0 : Ext ℝ) = .fin 0 by simp] at this
  erw [this]
  split
  · show Except.ok _ = Except.ok _
    congr 1
    simp only [zero_add]
    rw [show (b.cells en out).filterMap (deviation b.tolerance) = b.deviations en out from rfl]
    split
    · rename_i h
      rw [show (lit ((b.deviations en out).length : ℚ) : Ext ℝ) = .fin ((b.deviations en out).length : ℝ) by simp]
      rw [div_fin _ _ (by positivity)]
    · rename_i h
      have : b.deviations en out = [] := List.eq_nil_of_length_eq_zero (by omega)
      rw [this]
      simp
  · rfl

/-- the deviations are not zero, and at least the tolerance -/
theorem deviations_ne (b : Benchmark (Ext ℝ)) (en : Engine (Ext ℝ)) (out : Option Nat) {d : ℝ}
    (h : d ∈ b.deviations en out) : d ≠ 0 ∧ ∀ t, b.tolerance = .fin t → t ≤ |d| := by
  unfold deviations at h
  obtain ⟨⟨e, o⟩, hmem, hd⟩ := List.mem_filterMap.1 h
  clear hmem
  cases e <;> cases o <;> simp only [deviation] at hd <;> try cases hd
  rename_i a c
  split at hd
  · rename_i hc
    injection hd with hd
    subst hd
    have := ((counts_spec b.tolerance (.fin a) (.fin c)).2.1.1 hc).1
    unfold Op.isEqT at this
    simp only [eq_fin, sub_fin, Bool.or_eq_false_iff, decide_eq_false_iff_not, abs_fin] at this
    refine ⟨sub_ne_zero.2 this.1.1, fun t ht => ?_⟩
    have h2 := this.1.2
    rw [ht, lt_fin] at h2
    simpa using h2
  · cases hd

/-- C48: the mean squared error is not negative, is zero exactly when there is no accuracy error,
and otherwise is at least the square of the tolerance, whatever the tables and the tolerance.
Partial: exact arithmetic, and the result is NaN when the errors cannot be computed, see
`mean_nan_violated`. -/
theorem meanSquaredError_partial (b : Benchmark (Ext ℝ)) (out : Option Nat) (hc : b.canComputeErrors = true) :
    (∃ (n : Nat) (r : ℝ), b.accuracyErrors out = .ok (n : Int) ∧ b.meanSquaredError out = .ok (.fin r) ∧ 0 ≤ r ∧
      (r = 0 ↔ n = 0) ∧ (n ≠ 0 → ∀ t, b.tolerance = .fin t → 0 ≤ t → t * t ≤ r)) ∨
    (b.accuracyErrors out = .error .outOfRange ∧ b.meanSquaredError out = .error .outOfRange) := by
  obtain ⟨en, hen⟩ : ∃ en, b.engine = some en := by
    cases h : b.engine with
    | none => simp [canComputeErrors, h] at hc
    | some en => exact ⟨en, rfl⟩
  rw [accuracyErrors_eq b out en hen hc, meanSquaredError_eq b out en hen hc]
  by_cases h : ∀ p ∈ b.pairs, Readable en out p
  · rw [if_pos h, if_pos h]
    left
    have hpos : ∀ l : List ℝ, (∀ d ∈ l, d ≠ 0) → 0 ≤ (l.map fun d => d * d).sum ∧
        ((l.map fun d => d * d).sum = 0 ↔ l.length = 0) := by
      intro l
      induction l with
      | nil => simp
      | cons d l ih =>
        intro hl
        obtain ⟨h1, h2⟩ := ih (fun d hd => hl d (by simp [hd]))
        have hd : 0 < d * d := mul_self_pos.2 (hl d (by simp))
        simp only [List.map_cons, List.sum_cons, List.length_cons]
        refine ⟨by positivity, ?_⟩
        constructor
        · intro h; linarith
        · intro h; omega
    have hlow : ∀ (t : ℝ) (l : List ℝ), 0 ≤ t → (∀ d ∈ l, t ≤ |d|) → t * t * l.length ≤ (l.map fun d => d * d).sum := by
      intro t l ht
      induction l with
      | nil => simp
      | cons d l ih =>
        intro hl
        have h1 := ih (fun d hd => hl d (by simp [hd]))
        have h2 : t * t ≤ d * d := by
          rw [← abs_mul_abs_self d]
          exact mul_self_le_mul_self ht (hl d (by simp))
        simp only [List.map_cons, List.sum_cons, List.length_cons]
        push_cast
        linarith
    obtain ⟨h1, h2⟩ := hpos (b.deviations en out) (fun d hd => (deviations_ne b en out hd).1)
    refine ⟨_, _, rfl, rfl, by positivity, ?_, ?_⟩
    · rw [div_eq_zero_iff, h2]
      simp
    · intro hn t ht h0
      have hn' : (0 : ℝ) < (b.deviations en out).length := by positivity
      rw [le_div_iff₀ hn']
      exact hlow t _ h0 (fun d hd => (deviations_ne b en out hd).2 t ht)
  · rw [if_neg h, if_neg h]
    exact .inr ⟨rfl, rfl⟩

/-- C48: the mean squared error of a benchmark without values is NaN, which is neither non-negative
nor zero, although the count of accuracy errors is not positive. -/
theorem mean_nan_violated : ∃ b : Benchmark (Ext ℝ), b.meanSquaredError none = .ok Ext.nan := ⟨⟨none, [], [], .fin 0⟩, rfl⟩

end Mean

/-- Non-vacuity of C48: one input, two outputs and four rows, with two accuracy errors and an error
that is not finite; two infinite values agree. -/
def demo : Benchmark (Ext Rat) :=
  ⟨some ⟨[], [], [Variable.new (cs! "a") (.fin 0) (.fin 1) []],
      [OutputVariable.new (cs! "y") (.fin 0) (.fin 1) [], OutputVariable.new (cs! "z") (.fin 0) (.fin 1) []], []⟩,
    [[.fin 0, .fin 1, .fin 2], [.fin 0, .nan, .nan], [.fin 0, .pinf, .fin 5], [.fin 0, .fin 1, .fin 1]],
    [[.fin 0, .fin 1, .fin 4], [.fin 0, .nan, .fin 3], [.fin 0, .pinf, .fin 1], [.fin 0, .fin 1, .fin (11/10)]],
    .fin (1/2)⟩

example : demo.canComputeErrors = true ∧ demo.allErrors none = .ok 3 ∧ demo.accuracyErrors none = .ok 2 ∧
    demo.nonFiniteErrors none = .ok 1 ∧ demo.allErrors (some 0) = .ok 0 ∧ demo.allErrors (some 1) = .ok 3 ∧
    demo.meanSquaredError none = .ok (.fin 10) ∧ demo.meanSquaredError (some 0) = .ok (.fin 0) := by
  decide +kernel

/-- rows of different lengths: only the first is checked, and the others raise -/
example : ({ demo with obtained := demo.obtained.take 3 ++ [[Ext.fin 0]] }).canComputeErrors = true ∧
    ({ demo with obtained := demo.obtained.take 3 ++ [[Ext.fin 0]] }).allErrors none = .error .outOfRange := by
  decide +kernel

end Benchmark
end FL
