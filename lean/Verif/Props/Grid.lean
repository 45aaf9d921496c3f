/-
C52: data exported on a regular grid.
-/
import Verif.Model.Benchmark
import Verif.Props.Increment
import Verif.Props.Process
import Verif.Lemmas.Ext
import Mathlib.Analysis.SpecialFunctions.Pow.NNReal
import Mathlib.Tactic.Positivity
import Mathlib.Tactic.FieldSimp

namespace FL
open Scalar

/-! ### the odometer loop -/

theorem odometer_chain (mn mx : List Int) (x : List Int) (l : List (List Int)) (n : Nat)
    (hn : l.length < n)
    (hch : List.IsChain (fun x y => Op.increment x mn mx = some (y, true)) (x :: l))
    (hlast : ∀ z, (x :: l).getLast? = some z → ∃ w, Op.increment z mn mx = some (w, false)) :
    odometer mn mx n x = some (x :: l) := by
  induction l generalizing x n with
  | nil =>
    cases n with
    | zero => simp at hn
    | succ n =>
      obtain ⟨w, hw⟩ := hlast x rfl
      simp [odometer, hw]
  | cons y l ih =>
    cases n with
    | zero => simp at hn
    | succ n =>
      rw [List.isChain_cons_cons] at hch
      simp only [odometer, hch.1]
      rw [ih y n (by simp at hn; omega) hch.2 (by simpa using hlast)]
      rfl

/-- The loop visits every vector between the limits exactly once, in lexicographic order, however
large the fuel. -/
theorem odometer_box (mn mx : List Int) (h : Op.Bounds mn mx) (n : Nat) (hn : (Op.box mn mx).length ≤ n) :
    odometer mn mx n mn = some (Op.box mn mx) := by
  obtain ⟨h1, h2, h3⟩ := Op.increment_enumerates mn mx h
  cases hb : Op.box mn mx with
  | nil => rw [hb] at h1; cases h1
  | cons x l =>
    rw [hb] at h1 h2 h3 hn
    simp only [List.head?_cons, Option.some.injEq] at h1
    subst h1
    exact odometer_chain _ _ _ _ _ (by simpa using hn) h2 (fun z hz => ⟨_, h3 z hz⟩)

/-- the vectors of zeros for the limits -/
def origin (active : List Bool) : List Int := active.map fun _ => (0 : Int)

theorem origin_bounds (active : List Bool) (r : Int) (hr : 0 ≤ r) : Op.Bounds (origin active) (gridLimits r active) := by
  unfold Op.Bounds origin gridLimits
  rw [List.forall₂_map_left_iff, List.forall₂_map_right_iff]
  apply List.forall₂_same.2
  intro a _
  cases a
  · simp
  · simpa using hr

/-- The number of grid points. -/
theorem grid_length (active : List Bool) (r : Int) (hr : 0 ≤ r) :
    (Op.box (origin active) (gridLimits r active)).length = (r + 1).toNat ^ active.count true := by
  rw [Op.box_length _ _ (origin_bounds active r hr)]
  induction active with
  | nil => simp [origin, gridLimits]
  | cons a as ih =>
    simp only [origin, gridLimits, List.map_cons, List.zip_cons_cons, List.prod_cons] at ih ⊢
    rw [ih]
    cases a
    · simp
    · simp [Nat.pow_succ, Nat.mul_comm]

theorem fuel_suffices (active : List Bool) (r : Int) (hr : 0 ≤ r) :
    (Op.box (origin active) (gridLimits r active)).length ≤ fuelFor (gridLimits r active) := by
  rw [grid_length active r hr]
  unfold fuelFor gridLimits
  induction active with
  | nil => simp
  | cons a as ih =>
    simp only [List.map_cons, List.foldr_cons]
    cases a
    · simp only [List.count_cons, Bool.false_eq_true, if_false]
      refine le_trans ?_ (Nat.le_mul_of_pos_left _ (by simp))
      simpa using ih
    · simp only [List.count_cons_self, Nat.pow_succ, Nat.mul_comm, if_true]
      exact Nat.mul_le_mul (by omega) ih

section General
variable {S : Type} [Scalar S]

/-- The points of the grid: the coordinates of active variables on `resolution + 1` samples, and the
values of the others. -/
def gridPoints (r : Int) (vs : List (Variable S)) (active : List Bool) : List (List S) :=
  (Op.box (origin active) (gridLimits r active)).map (gridInput r vs active)

/-- Variables that differ from given ones in the values of the active ones only. -/
def Kept : List Bool → List (Variable S) → List (Variable S) → Prop
  | a :: as, v :: vs, v' :: vs' => (if a then ∃ x, v' = { v with value := x } else v' = v) ∧ Kept as vs vs'
  | [], [], [] => True
  | _, _, _ => False

/-- The value of an inactive variable is not changed by setting it again: the variable is not
locked in its range, or the value is in the range. -/
def Stable : List Bool → List (Variable S) → Prop
  | a :: as, v :: vs => (a = false → v.setValue v.value = v) ∧ Stable as vs
  | _, _ => True

theorem Kept.refl (active : List Bool) (vs : List (Variable S)) (h : active.length = vs.length) : Kept active vs vs := by
  induction active generalizing vs with
  | nil => cases vs <;> simp_all [Kept]
  | cons a as ih =>
    cases vs with
    | nil => simp at h
    | cons v vs =>
      refine ⟨?_, ih vs (by simpa using h)⟩
      cases a
      · simp
      · exact ⟨v.value, rfl⟩

theorem Kept.gridInput {active : List Bool} {vs vs' : List (Variable S)} (h : Kept active vs vs') (r : Int) (s : List Int) :
    FL.gridInput r vs' active s = FL.gridInput r vs active s := by
  induction active generalizing vs vs' s with
  | nil => cases vs <;> cases vs' <;> simp_all [Kept, FL.gridInput]
  | cons a as ih =>
    cases vs with
    | nil => simp [Kept] at h
    | cons v vs =>
      cases vs' with
      | nil => simp [Kept] at h
      | cons v' vs' =>
        cases s with
        | nil => rfl
        | cons k ks =>
          simp only [FL.gridInput]
          rw [ih h.2]
          have := h.1
          cases a
          · simp only [Bool.false_eq_true, if_false] at this ⊢
            rw [this]
          · simp only [if_true] at this ⊢
            obtain ⟨x, rfl⟩ := this
            rfl

theorem setValue_value (v : Variable S) (x : S) : ∃ y, v.setValue x = { v with value := y } := by
  unfold Variable.setValue
  exact ⟨_, rfl⟩

theorem Kept.step {active : List Bool} {vs vs' : List (Variable S)} (h : Kept active vs vs') (hs : Stable active vs)
    (r : Int) (s : List Int) (hlen : s.length = active.length) :
    Kept active vs (List.zipWith (fun v x => v.setValue x) vs' (FL.gridInput r vs active s)) := by
  induction active generalizing vs vs' s with
  | nil => cases vs <;> cases vs' <;> simp_all [Kept]
  | cons a as ih =>
    cases vs with
    | nil => simp [Kept] at h
    | cons v vs =>
      cases vs' with
      | nil => simp [Kept] at h
      | cons v' vs' =>
        cases s with
        | nil => simp at hlen
        | cons k ks =>
          simp only [FL.gridInput, List.zipWith_cons_cons]
          refine ⟨?_, ih h.2 hs.2 ks (by simpa using hlen)⟩
          have := h.1
          cases a
          · simp only [Bool.false_eq_true, if_false] at this ⊢
            rw [this]
            exact hs.1 rfl
          · simp only [if_true] at this ⊢
            obtain ⟨x, rfl⟩ := this
            obtain ⟨y, hy⟩ := setValue_value { v with value := x } (v.sample r k)
            exact ⟨y, hy⟩

theorem Kept.length {active : List Bool} {vs vs' : List (Variable S)} (h : Kept active vs vs') :
    vs'.length = active.length ∧ vs.length = active.length := by
  induction active generalizing vs vs' with
  | nil => cases vs <;> cases vs' <;> simp_all [Kept]
  | cons a as ih =>
    cases vs with
    | nil => simp [Kept] at h
    | cons v vs =>
      cases vs' with
      | nil => simp [Kept] at h
      | cons v' vs' =>
        have := ih h.2
        simp [this.1, this.2]

theorem gridInput_length (r : Int) (vs : List (Variable S)) (active : List Bool) (s : List Int)
    (h1 : active.length = vs.length) (h2 : s.length = vs.length) : (gridInput r vs active s).length = vs.length := by
  induction vs generalizing active s with
  | nil => cases active <;> simp_all [gridInput]
  | cons v vs ih =>
    cases active with
    | nil => simp at h1
    | cons a as =>
      cases s with
      | nil => simp at h2
      | cons k ks => simp [gridInput, ih as ks (by simpa using h1) (by simpa using h2)]

theorem given_gridInput (r : Int) (vs : List (Variable S)) (active : List Bool) (s : List Int) :
    FldExporter.given vs active (gridInput r vs active s) = gridInput r vs active s := by
  induction vs generalizing active s with
  | nil => cases active <;> rfl
  | cons v vs ih =>
    cases active with
    | nil => rfl
    | cons a as =>
      cases s with
      | nil => rfl
      | cons k ks =>
        simp only [gridInput, FldExporter.given, ih]
        cases a <;> rfl

/-- processing does not change the input variables -/
theorem process_inputs [Heap S] (e : Engine S) : e.process.1.inputs = e.inputs := by
  have : e.process.1.forget.inputs = e.forget.inputs := by rw [Engine.process_forget]
  exact this

/-- Reference semantics: for each point in order, set the values of the input variables to the
point, process the engine once and write the values; stop at the first exception. -/
def sweep [Heap S] (x : FldExporter) : Engine S → List (List S) → Engine S × List (List S) × Option Err
  | e, [] => (e, [], none)
  | e, p :: ps =>
    match (e.setInputs p).process with
    | (e, some err) => (e, [], some err)
    | (e, none) =>
      match sweep x e ps with
      | (e', rows, err) =>
        (e', ((if x.inputValues then p else []) ++ (if x.outputValues then e.outputValues else [])) :: rows, err)

theorem writeRows_eq [Heap S] (x : FldExporter) (r : Int) (active : List Bool) (vs : List (Variable S)) (hvs : vs ≠ [])
    (hs : Stable active vs) (ss : List (List Int)) (hss : ∀ s ∈ ss, s.length = active.length) (e : Engine S)
    (h : Kept active vs e.inputs) :
    x.writeRows r active e ss = sweep x e (ss.map (gridInput r vs active)) ∧
    Kept active vs (x.writeRows r active e ss).1.inputs := by
  induction ss generalizing e with
  | nil => exact ⟨rfl, h⟩
  | cons s ss ih =>
    have hl1 := h.length.1
    have hl2 := h.length.2
    have hg : gridInput r e.inputs active s = gridInput r vs active s := h.gridInput r s
    have hlen : (gridInput r vs active s).length = vs.length :=
      gridInput_length r vs active s hl2.symm ((hss s (by simp)).trans hl2.symm)
    have hpos : 0 < vs.length := List.length_pos_iff.2 hvs
    have hin : (e.setInputs (gridInput r vs active s)).inputs =
        List.zipWith (fun v x => v.setValue x) e.inputs (gridInput r vs active s) := by
      unfold Engine.setInputs
      simp only
      rw [List.drop_of_length_le (by omega), List.append_nil]
    have hk : Kept active vs (e.setInputs (gridInput r vs active s)).process.1.inputs := by
      rw [process_inputs, hin]
      exact h.step hs r s (hss s (by simp))
    have hrow : x.writeRow e (gridInput r e.inputs active s) active =
        match (e.setInputs (gridInput r vs active s)).process with
        | (e, some err) => (e, .error err)
        | (e, none) => (e, .ok ((if x.inputValues then gridInput r vs active s else []) ++
            (if x.outputValues then e.outputValues else []))) := by
      unfold FldExporter.writeRow
      have h1 : (gridInput r e.inputs active s).isEmpty = false := by
        rw [hg, List.isEmpty_eq_false_iff, ← List.length_pos_iff]; omega
      have h2 : ¬ (gridInput r e.inputs active s).length < e.inputs.length := by rw [hg]; omega
      rw [h1, if_neg (by simp), if_neg h2, if_neg (by omega)]
      simp only [given_gridInput]
      rw [hg]
      rfl
    rw [List.map_cons]
    unfold FldExporter.writeRows sweep
    rw [hrow]
    generalize hp : (e.setInputs (gridInput r vs active s)).process = q at *
    obtain ⟨e1, err⟩ := q
    cases err with
    | some err => exact ⟨rfl, hk⟩
    | none =>
      obtain ⟨ih1, ih2⟩ := ih (fun s hs => hss s (by simp [hs])) e1 hk
      refine ⟨?_, ?_⟩
      · simp only; rw [ih1]
      · exact ih2

theorem box_lengths (active : List Bool) (r : Int) (hr : 0 ≤ r) :
    ∀ s ∈ Op.box (origin active) (gridLimits r active), s.length = active.length := by
  intro s hs
  have := ((Op.box_exact _ _ (origin_bounds active r hr)).1 s).1 hs
  have := this.1.length_eq
  simpa [origin] using this.symm

/-- C52: exporting on the grid processes the engine exactly once at each grid point, in
lexicographic order of the samples (the last variable fastest), and stops at the first exception;
inactive input variables are not changed, and only the values of the active ones are.
Partial: the engine has input variables (see `no_inputs_violated`), the resolution is not negative
(see `negative_resolution_violated`) and inactive variables locked in their range have a value in
their range (see `inactive_violated`). -/
theorem FldExporter.writeGrid_partial [Heap S] (x : FldExporter) (e : Engine S) (r : Int) (hr : 0 ≤ r)
    (active : List Bool) (hlen : active.length = e.inputs.length) (hne : e.inputs ≠ []) (hs : Stable active e.inputs) :
    x.writeGrid e r active = sweep x e (gridPoints r e.inputs active) ∧
    Kept active e.inputs (x.writeGrid e r active).1.inputs := by
  have : x.writeGrid e r active = x.writeRows r active e (Op.box (origin active) (gridLimits r active)) := by
    unfold writeGrid
    rw [if_neg (by simpa using hlen)]
    have := odometer_box (origin active) (gridLimits r active) (origin_bounds active r hr) _ (fuel_suffices active r hr)
    simp only
    unfold origin at this
    rw [this]
    rfl
  rw [this]
  exact writeRows_eq x r active e.inputs hne hs _ (box_lengths active r hr) e (Kept.refl _ _ hlen)

theorem gridPoints_length (r : Int) (hr : 0 ≤ r) (vs : List (Variable S)) (active : List Bool) :
    (gridPoints r vs active).length = (r + 1).toNat ^ active.count true := by
  unfold gridPoints
  rw [List.length_map, grid_length active r hr]

theorem sweep_length [Heap S] (x : FldExporter) (ps : List (List S)) (e : Engine S) :
    (sweep x e ps).2.1.length ≤ ps.length ∧ ((sweep x e ps).2.2 = none → (sweep x e ps).2.1.length = ps.length) := by
  induction ps generalizing e with
  | nil => exact ⟨le_refl _, fun _ => rfl⟩
  | cons p ps ih =>
    unfold sweep
    cases hp : (e.setInputs p).process with
    | mk e1 err =>
      cases err with
      | some err => simp
      | none =>
        have hih := ih e1
        dsimp only
        generalize sweep x e1 ps = q at hih ⊢
        obtain ⟨e2, rows, err⟩ := q
        obtain ⟨h1, h2⟩ := hih
        simp only at h1 h2
        simp only [List.length_cons]
        exact ⟨by omega, fun h => by rw [h2 h]⟩

/-- C52: the number of lines after the header is `(resolution + 1) ^ (number of active variables)`,
unless processing raises, in which case there are fewer. -/
theorem FldExporter.lines_partial [Heap S] (x : FldExporter) (e : Engine S) (r : Int) (hr : 0 ≤ r)
    (active : List Bool) (hlen : active.length = e.inputs.length) (hne : e.inputs ≠ []) (hs : Stable active e.inputs) :
    (x.writeGrid e r active).2.1.length ≤ (r + 1).toNat ^ active.count true ∧
    ((x.writeGrid e r active).2.2 = none →
      (x.writeGrid e r active).2.1.length = (r + 1).toNat ^ active.count true) := by
  rw [(writeGrid_partial x e r hr active hlen hne hs).1, ← gridPoints_length r hr e.inputs active]
  exact sweep_length x _ e

/-- The lines contain the grid points in order. -/
theorem FldExporter.points_partial [Heap S] (x : FldExporter) (hi : x.inputValues = true) (ho : x.outputValues = false)
    (e : Engine S) (r : Int) (hr : 0 ≤ r)
    (active : List Bool) (hlen : active.length = e.inputs.length) (hne : e.inputs ≠ []) (hs : Stable active e.inputs) :
    (x.writeGrid e r active).2.1 <+: gridPoints r e.inputs active := by
  rw [(writeGrid_partial x e r hr active hlen hne hs).1]
  generalize gridPoints r e.inputs active = ps
  clear hs hne hlen
  induction ps generalizing e with
  | nil => exact List.nil_prefix
  | cons p ps ih =>
    unfold sweep
    cases hp : (e.setInputs p).process with
    | mk e1 err =>
      cases err with
      | some err => exact List.nil_prefix
      | none => simpa [hi, ho] using ih e1

/-- C52: `write` is the grid at the resolution of the scope; it raises when the number of active
variables differs from the number of input variables, without processing. -/
theorem FldExporter.write_spec [Heap S] [Truncate S] (x : FldExporter) (e : Engine S) (values : Int) (scope : Scope)
    (active : List Bool) :
    (active.length ≠ e.inputs.length → x.write e values scope active = (e, [], some .exporting)) ∧
    (active.length = e.inputs.length → ∀ r, scope.resolution (S := S) e.inputs.length values = some r →
      x.write e values scope active = x.writeGrid e r active) := by
  unfold write
  refine ⟨fun h => by rw [if_pos h], fun h r hr => ?_⟩
  rw [if_neg (by simpa using h), hr]

/-- The rows of a benchmark prepared for values and scope are the points of the same grid. -/
theorem Benchmark.prepare_spec [Truncate S] (b : Benchmark S) (e : Engine S) (he : b.engine = some e) (values : Int)
    (scope : Scope) (r : Int) (hr : 0 ≤ r) (hres : scope.resolution (S := S) e.inputs.length values = some r) :
    b.prepare values scope =
      .ok { b with expected := gridPoints r e.inputs (e.inputs.map fun _ => true) } := by
  unfold prepare
  rw [he]
  simp only
  rw [hres]
  simp only
  have h1 : (e.inputs.map fun _ => r) = gridLimits r (e.inputs.map fun _ => true) := by
    unfold gridLimits; rw [List.map_map]; rfl
  have h2 : (e.inputs.map fun _ => (0 : Int)) = origin (e.inputs.map fun _ => true) := by
    unfold origin; rw [List.map_map]; rfl
  rw [h1, h2, odometer_box _ _ (origin_bounds _ r hr) _ (fuel_suffices _ r hr)]
  rfl

end General

/-! ### the coordinates -/
section Real
variable [Tol ℝ]
open Ext

theorem sample_fin (v : Variable (Ext ℝ)) (mn mx : ℝ) (hmn : v.minimum = .fin mn) (hmx : v.maximum = .fin mx)
    (r k : Int) : v.sample r k = .fin (mn + k * (mx - mn) / (max 1 r : Int)) := by
  unfold Variable.sample Variable.range
  have hpos : (0 : ℝ) < ((max 1 r : Int) : ℝ) := by
    have : (0 : Int) < max 1 r := by omega
    exact_mod_cast this
  rw [hmn, hmx, sub_fin]
  rw [show (lit (k : Int) : Ext ℝ) = .fin (k : ℝ) by simp, mul_fin]
  rw [show (lit ((max 1 r : Int) : ℚ) : Ext ℝ) = .fin ((max 1 r : Int) : ℝ) by simp only [ofRat_def]; norm_num]
  rw [div_fin _ _ hpos.ne', add_fin]

/-- C52: the samples of a variable with a finite range are in the range, include both ends when the
resolution is at least one, are equally spaced, and are distinct unless the range is empty.
Partial: exact arithmetic. -/
theorem sample_partial (v : Variable (Ext ℝ)) (mn mx : ℝ) (hmn : v.minimum = .fin mn) (hmx : v.maximum = .fin mx)
    (h : mn ≤ mx) (r : Int) :
    (∀ k, 0 ≤ k → k ≤ max 1 r → ∃ c, v.sample r k = .fin c ∧ mn ≤ c ∧ c ≤ mx) ∧
    v.sample r 0 = .fin mn ∧
    (1 ≤ r → v.sample r r = .fin mx) ∧
    (1 ≤ r → ∀ k, v.sample r (k + 1) - v.sample r k = .fin ((mx - mn) / r)) ∧
    (mn < mx → ∀ k l, v.sample r k = v.sample r l → k = l) := by
  have hpos : (0 : ℝ) < ((max 1 r : Int) : ℝ) := by
    have : (0 : Int) < max 1 r := by omega
    exact_mod_cast this
  simp only [sample_fin v mn mx hmn hmx]
  refine ⟨?_, by simp, ?_, ?_, ?_⟩
  · intro k h0 h1
    refine ⟨_, rfl, ?_, ?_⟩
    · have : 0 ≤ (k : ℝ) := by exact_mod_cast h0
      have : 0 ≤ (k : ℝ) * (mx - mn) / ((max 1 r : Int) : ℝ) :=
        div_nonneg (mul_nonneg this (by linarith)) hpos.le
      linarith
    · have hk : (k : ℝ) ≤ ((max 1 r : Int) : ℝ) := by exact_mod_cast h1
      have : (k : ℝ) * (mx - mn) / ((max 1 r : Int) : ℝ) ≤ mx - mn := by
        rw [div_le_iff₀ hpos, mul_comm]
        exact mul_le_mul_of_nonneg_left hk (by linarith)
      linarith
  · intro hr
    have : (max 1 r : Int) = r := by omega
    rw [this] at hpos ⊢
    congr 1
    field_simp
    ring
  · intro hr k
    have : (max 1 r : Int) = r := by omega
    rw [this] at hpos ⊢
    rw [sub_fin]
    congr 1
    push_cast
    field_simp
    ring
  · intro hlt k l hkl
    injection hkl with hkl
    have : (k : ℝ) * (mx - mn) = l * (mx - mn) := by
      have h' : (k : ℝ) * (mx - mn) / ((max 1 r : Int) : ℝ) = (l : ℝ) * (mx - mn) / ((max 1 r : Int) : ℝ) := by linarith
      rwa [div_left_inj' hpos.ne'] at h'
    have := mul_right_cancel₀ (by linarith : (mx - mn) ≠ 0) this
    exact_mod_cast this

/-- variables with a finite range that is not inverted -/
def Ranged (v : Variable (Ext ℝ)) : Prop := ∃ mn mx : ℝ, v.minimum = .fin mn ∧ v.maximum = .fin mx ∧ mn ≤ mx

/-- `c` is a coordinate of the grid for an active or inactive variable -/
def Within (v : Variable (Ext ℝ)) (a : Bool) (c : Ext ℝ) : Prop :=
  if a then ∃ mn mx x : ℝ, v.minimum = .fin mn ∧ v.maximum = .fin mx ∧ c = .fin x ∧ mn ≤ x ∧ x ≤ mx else c = v.value

theorem forall₂_gridInput (r : Int) (hr : 0 ≤ r) (vs : List (Variable (Ext ℝ))) (active : List Bool) (s : List Int)
    (hlen : active.length = vs.length) (hv : ∀ v ∈ vs, Ranged v)
    (hs : s ∈ Op.box (origin active) (gridLimits r active)) :
    List.Forall₂ (fun (va : Variable (Ext ℝ) × Bool) c => Within va.1 va.2 c) (vs.zip active) (gridInput r vs active s) := by
  have hb := ((Op.box_exact _ _ (origin_bounds active r hr)).1 s).1 hs
  obtain ⟨h1, h2⟩ := hb
  clear hs
  induction vs generalizing active s with
  | nil => cases active <;> simp [gridInput]
  | cons v vs ih =>
    cases active with
    | nil => simp at hlen
    | cons a as =>
      cases s with
      | nil => cases h1
      | cons k ks =>
        simp only [origin, gridLimits, List.map_cons] at h1 h2
        cases h1 with
        | cons hk1 h1 =>
          cases h2 with
          | cons hk2 h2 =>
            simp only [gridInput, List.zip_cons_cons]
            refine .cons ?_ (ih as ks (by simpa using hlen) (fun v hv' => hv v (by simp [hv'])) h1 h2)
            unfold Within
            cases a with
            | false => simp
            | true =>
              simp only [if_true] at hk2 ⊢
              obtain ⟨mn, mx, hmn, hmx, hle⟩ := hv v (by simp)
              obtain ⟨c, hc, hc1, hc2⟩ := (sample_partial v mn mx hmn hmx hle r).1 k hk1 (by omega)
              exact ⟨mn, mx, c, hmn, hmx, hc, hc1, hc2⟩

/-- C52: every coordinate of every grid point lies within the range of its variable, or is the value
of an inactive variable.  Partial: exact arithmetic. -/
theorem gridPoints_within_partial (r : Int) (hr : 0 ≤ r) (vs : List (Variable (Ext ℝ))) (active : List Bool)
    (hlen : active.length = vs.length) (hv : ∀ v ∈ vs, Ranged v) (p : List (Ext ℝ)) (hp : p ∈ gridPoints r vs active) :
    List.Forall₂ (fun (va : Variable (Ext ℝ) × Bool) c => Within va.1 va.2 c) (vs.zip active) p := by
  obtain ⟨s, hs, rfl⟩ := List.mem_map.1 hp
  exact forall₂_gridInput r hr vs active s hlen hv hs

/-- a corner of the input space: each active variable at one end of its range, as `ends` says -/
def corner : List (Variable (Ext ℝ)) → List Bool → List Bool → List (Ext ℝ)
  | v :: vs, a :: as, b :: bs =>
    (if a then (if b then v.maximum else v.minimum) else v.value) :: corner vs as bs
  | _, _, _ => []

/-- C52: the grid contains all corners of the input space when the resolution is at least one, in
particular both ends of the range of each active variable.  Partial: exact arithmetic. -/
theorem gridPoints_corner_partial (r : Int) (hr : 1 ≤ r) (vs : List (Variable (Ext ℝ))) (active ends : List Bool)
    (hlen : active.length = vs.length) (hends : ends.length = vs.length) (hv : ∀ v ∈ vs, Ranged v) :
    corner vs active ends ∈ gridPoints r vs active := by
  unfold gridPoints
  rw [List.mem_map]
  suffices h : ∃ s, List.Forall₂ (· ≤ ·) (origin active) s ∧ List.Forall₂ (· ≤ ·) s (gridLimits r active) ∧
      gridInput r vs active s = corner vs active ends by
    obtain ⟨s, h1, h2, h3⟩ := h
    exact ⟨s, ((Op.box_exact _ _ (origin_bounds active r (by omega))).1 s).2 ⟨h1, h2⟩, h3⟩
  induction vs generalizing active ends with
  | nil =>
    cases active with
    | nil => exact ⟨[], .nil, .nil, rfl⟩
    | cons a as => simp at hlen
  | cons v vs ih =>
    cases active with
    | nil => simp at hlen
    | cons a as =>
      cases ends with
      | nil => simp at hends
      | cons b bs =>
        obtain ⟨s, h1, h2, h3⟩ := ih as bs (by simpa using hlen) (by simpa using hends) (fun v hv' => hv v (by simp [hv']))
        obtain ⟨mn, mx, hmn, hmx, hle⟩ := hv v (by simp)
        have hsp := sample_partial v mn mx hmn hmx hle r
        refine ⟨(if a && b then r else 0) :: s, ?_, ?_, ?_⟩
        · refine .cons ?_ h1
          show (0 : Int) ≤ _
          split <;> omega
        · refine .cons ?_ h2
          cases a <;> cases b <;> simp <;> omega
        · simp only [gridInput, corner, h3]
          cases a with
          | false => rfl
          | true =>
            cases b with
            | true => simp only [if_true, Bool.and_self]; rw [hsp.2.2.1 hr, hmx]
            | false => simp only [if_true, Bool.and_false, Bool.false_eq_true, if_false]; rw [hsp.2.1, hmn]

/-- C52: the grid points are distinct when the ranges of the active variables are not empty, so the
engine is processed once per point.  Partial: exact arithmetic. -/
theorem gridPoints_nodup_partial (r : Int) (hr : 0 ≤ r) (vs : List (Variable (Ext ℝ))) (active : List Bool)
    (hlen : active.length = vs.length)
    (hv : ∀ v ∈ vs, ∃ mn mx : ℝ, v.minimum = .fin mn ∧ v.maximum = .fin mx ∧ mn < mx) :
    (gridPoints r vs active).Nodup := by
  unfold gridPoints
  refine List.Nodup.map_on ?_ (Op.box_exact _ _ (origin_bounds active r hr)).2.1
  intro s hs t ht hst
  replace hs := ((Op.box_exact _ _ (origin_bounds active r hr)).1 s).1 hs
  replace ht := ((Op.box_exact _ _ (origin_bounds active r hr)).1 t).1 ht
  induction vs generalizing active s t with
  | nil =>
    cases active with
    | nil =>
      have h1 := hs.1; have h2 := ht.1
      simp only [origin, List.map_nil] at h1 h2
      cases h1; cases h2; rfl
    | cons a as => simp at hlen
  | cons v vs ih =>
    cases active with
    | nil => simp at hlen
    | cons a as =>
      obtain ⟨hs1, hs2⟩ := hs
      obtain ⟨ht1, ht2⟩ := ht
      simp only [origin, gridLimits, List.map_cons] at hs1 hs2 ht1 ht2
      cases hs1 with
      | cons hk1 hs1 =>
      cases hs2 with
      | cons hk2 hs2 =>
      cases ht1 with
      | cons hl1 ht1 =>
      cases ht2 with
      | cons hl2 ht2 =>
        simp only [gridInput, List.cons.injEq] at hst
        rw [ih as (by simpa using hlen) (fun v hv' => hv v (by simp [hv'])) _ _ hst.2 ⟨hs1, hs2⟩ ⟨ht1, ht2⟩]
        congr 1
        cases a with
        | false => simp only [Bool.false_eq_true, if_false] at hk2 hl2; omega
        | true =>
          obtain ⟨mn, mx, hmn, hmx, hlt⟩ := hv v (by simp)
          exact (sample_partial v mn mx hmn hmx hlt.le r).2.2.2.2 hlt _ _ (by simpa using hst.1)

/-! ### the resolution -/

/-- C52: with the scope of all variables, the grid over all input variables has at most the number of
values asked for, and one more sample per variable would exceed it.  Partial: exact arithmetic. -/
theorem resolution_all_partial (n : Nat) (hn : n ≠ 0) (values : Int) (h1 : 1 ≤ values) (h2 : values ≤ 2147483647) :
    ∃ r : Nat, Scope.allVariables.resolution (S := Ext ℝ) n values = some (r : Int) ∧
      ((r : Int) + 1) ^ n ≤ values ∧ values < ((r : Int) + 2) ^ n := by
  have hv1 : (1 : ℝ) ≤ (values : ℝ) := by exact_mod_cast h1
  have hn0 : (n : ℝ) ≠ 0 := by exact_mod_cast hn
  have hnpos : 0 < n := Nat.pos_of_ne_zero hn
  set q : ℝ := (values : ℝ) ^ ((1 : ℝ) / n) with hq
  have hq1 : 1 ≤ q := Real.one_le_rpow hv1 (by positivity)
  have hqn : q ^ n = values := by
    rw [hq, ← Real.rpow_natCast, ← Real.rpow_mul (by linarith), one_div, inv_mul_cancel₀ hn0, Real.rpow_one]
  have hqv : q ≤ values := by
    calc q = q ^ 1 := (pow_one q).symm
      _ ≤ q ^ n := pow_le_pow_right₀ hq1 hnpos
      _ = values := hqn
  have hpow : Op.stdMax (lit 1) (Scalar.pow (lit values) (lit 1 / lit n) : Ext ℝ) = .fin q := by
    rw [show (lit 1 : Ext ℝ) = .fin 1 by simp, show (lit ((n : ℕ) : ℚ) : Ext ℝ) = .fin (n : ℝ) by simp,
      show (lit ((values : ℤ) : ℚ) : Ext ℝ) = .fin (values : ℝ) by simp, div_fin _ _ hn0]
    have : (Scalar.pow (.fin (values : ℝ)) (.fin ((1 : ℝ) / n)) : Ext ℝ) = .fin q := by
      show Ext.powR _ _ = _
      unfold Ext.powR
      have h0 : ¬ (Ext.fin ((1 : ℝ) / n) = Ext.fin 0) := by
        intro h; injection h with h
        have : (0 : ℝ) < 1 / n := by positivity
        linarith
      rw [if_neg h0]
      split
      · rename_i h
        injection h with h
        rw [hq, h, Real.one_rpow]
      · simp only
        rw [if_pos (by linarith)]
    rw [this, stdMax_fin, max_eq_right hq1]
  have hfl1 : 1 ≤ ⌊q⌋ := by rw [Int.le_floor]; exact_mod_cast hq1
  have hfl2 : ⌊q⌋ ≤ 2147483647 := by
    have : (⌊q⌋ : ℝ) ≤ values := (Int.floor_le q).trans hqv
    have : ⌊q⌋ ≤ values := by exact_mod_cast this
    omega
  refine ⟨(⌊q⌋ - 1).toNat, ?_, ?_, ?_⟩
  · unfold Scope.resolution
    rw [hpow]
    show (intOf (if 0 ≤ q then ⌊q⌋ else ⌈q⌉)).map _ = _
    rw [if_pos (by linarith)]
    unfold intOf
    rw [if_pos ⟨by omega, hfl2⟩]
    simp only [Option.map_some, Option.some.injEq]
    omega
  · have : (((⌊q⌋ - 1).toNat : Int) + 1) = ⌊q⌋ := by omega
    rw [this]
    have h : ((⌊q⌋ : ℝ)) ^ n ≤ values := by
      rw [← hqn]
      exact pow_le_pow_left₀ (by exact_mod_cast (by omega : 0 ≤ ⌊q⌋)) (Int.floor_le q) n
    exact_mod_cast h
  · have : (((⌊q⌋ - 1).toNat : Int) + 2) = ⌊q⌋ + 1 := by omega
    rw [this]
    have h : (values : ℝ) < ((⌊q⌋ : ℝ) + 1) ^ n := by
      rw [← hqn]
      exact pow_lt_pow_left₀ (Int.lt_floor_add_one q) (by linarith) hn
    exact_mod_cast h

/-- With the scope of all variables, and no input variables, more than one value is converted from
infinity to an integer: undefined behaviour. -/
theorem resolution_no_inputs_violated (values : Int) (h : 1 < values) :
    Scope.allVariables.resolution (S := Ext ℝ) 0 values = none := by
  unfold Scope.resolution
  have hv : (1 : ℝ) < (values : ℝ) := by exact_mod_cast h
  have hd : (lit 1 / lit ((0 : ℕ) : ℚ) : Ext ℝ) = .pinf := by
    rw [show (lit 1 : Ext ℝ) = .fin 1 by simp, show (lit ((0 : ℕ) : ℚ) : Ext ℝ) = .fin 0 by simp, div_fin_zero]
    simp [signInf]
  rw [hd, show (lit ((values : ℤ) : ℚ) : Ext ℝ) = .fin (values : ℝ) by simp, show (lit 1 : Ext ℝ) = .fin 1 by simp]
  have : (Scalar.pow (.fin (values : ℝ)) .pinf : Ext ℝ) = .pinf := by
    show Ext.powR (.fin (values : ℝ)) .pinf = .pinf
    unfold Ext.powR
    have h1 : ¬ (Ext.fin (values : ℝ) = Ext.fin 1) := by intro h; injection h with h; linarith
    rw [if_neg (by simp), if_neg h1]
    simp only
    rw [abs_of_pos (by linarith), if_neg (by linarith), if_neg (by linarith)]
  rw [this]
  have : Op.stdMax (.fin 1) .pinf = (.pinf : Ext ℝ) := by simp [Op.stdMax]
  rw [this]
  rfl

/-- With the scope of each variable, the resolution gives every active variable `values` samples. -/
theorem resolution_each (n : Nat) (values : Int) :
    Scope.eachVariable.resolution (S := Ext ℝ) n values = some (values - 1) := rfl

end Real

namespace GridDemo
local instance : Heap (Ext Rat) := RuleBlock.stableHeap _

/-- an engine with two input variables, and an output without rules -/
def engine (lock : Bool) (value : Ext Rat) : Engine (Ext Rat) :=
  ⟨[], [], [Variable.new (cs! "a") (.fin 0) (.fin 4) [],
      { Variable.new (cs! "b") (.fin 1) (.fin 2) [] with value := value, lockRange := lock }],
    [{ OutputVariable.new (cs! "y") (.fin 0) (.fin 1) [] with default := .fin 7, enabled := false }], []⟩

/-- Non-vacuity of C52: the grid over both variables, and with the second variable inactive -/
example : ((FldExporter.mk [] true true true).write (engine false (.fin 9)) 3 .eachVariable [true, true]).2 =
      ([[.fin 0, .fin 1, .nan], [.fin 0, .fin (3/2), .nan], [.fin 0, .fin 2, .nan],
        [.fin 2, .fin 1, .nan], [.fin 2, .fin (3/2), .nan], [.fin 2, .fin 2, .nan],
        [.fin 4, .fin 1, .nan], [.fin 4, .fin (3/2), .nan], [.fin 4, .fin 2, .nan]], none) ∧
    ((FldExporter.mk [] true true true).write (engine false (.fin 9)) 3 .eachVariable [true, false]).2 =
      ([[.fin 0, .fin 9, .nan], [.fin 2, .fin 9, .nan], [.fin 4, .fin 9, .nan]], none) ∧
    ((FldExporter.mk [] true true true).write (engine false (.fin 9)) 3 .eachVariable [true]).2 = ([], some .exporting) := by
  decide +kernel

/-- C52 is violated by an inactive variable locked in its range, with a value outside (set before
the lock): the export moves the value to the range, and reports the old value on the first line. -/
theorem inactive_violated :
    let x := (FldExporter.mk [] true true false)
    let e := engine true (.fin 9)
    (x.writeGrid e 1 [true, false]).2 = ([[.fin 0, .fin 9], [.fin 4, .fin 2]], none) ∧
    (x.writeGrid e 1 [true, false]).1.inputs.map (fun v => v.value) = [.fin 4, .fin 2] := by decide +kernel

/-- C52 is violated by a number of values that is not positive, for each variable: there is one grid
point instead of none. -/
theorem negative_resolution_violated :
    Scope.eachVariable.resolution (S := Ext Rat) 2 0 = some (-1) ∧
    ((FldExporter.mk [] true true false).write (engine false (.fin 9)) 0 .eachVariable [true, true]).2 =
      ([[.fin 0, .fin 1]], none) := by decide +kernel

/-- C52 is violated by an engine without input variables: the grid has one point, but the engine is
not processed (its output variables are not defuzzified) and an empty line is written. -/
theorem no_inputs_violated :
    let e : Engine (Ext Rat) := ⟨[], [], [],
      [{ OutputVariable.new (cs! "y") (.fin 0) (.fin 1) [] with defuzzifier := none }], []⟩
    (Op.box (origin []) (gridLimits 0 [])).length = 1 ∧
    ((FldExporter.mk [] true true true).writeGrid e 0 []).2 = ([[]], none) ∧
    e.process.2 = some .missingDefuzzifier := by decide +kernel

end GridDemo
end FL
