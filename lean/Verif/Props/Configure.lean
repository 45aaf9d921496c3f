/-
C62: kinds of engines.  C63: sorting the terms of a variable.  C64: configuring engines.
-/
import Verif.Model.Configure
import Verif.Props.Activation
import Verif.Props.Sound

namespace FL
open Scalar

section general
variable {S : Type} [Scalar S]

/-! ### C62 -/
namespace Engine

def HasIntegral (o : OutputVariable S) : Prop := ∃ k r, o.defuzzifier = some (.integral k r)
def HasWeighted (w : WeightedType) (o : OutputVariable S) : Prop := ∃ k, o.defuzzifier = some (.weighted k w)

/-- a weighted defuzzifier of type Automatic or TakagiSugeno, and only `Constant`, `Linear` and `Function` terms -/
def IsTakagiSugeno (o : OutputVariable S) : Prop :=
  (HasWeighted .automatic o ∨ HasWeighted .takagiSugeno o) ∧ ∀ t ∈ o.terms, Weighted.IsSugeno t

/-- a weighted defuzzifier of type Automatic or Tsukamoto, and only monotonic terms -/
def IsTsukamoto (o : OutputVariable S) : Prop :=
  (HasWeighted .automatic o ∨ HasWeighted .tsukamoto o) ∧ ∀ t ∈ o.terms, t.isMonotonic = true

/-- rule blocks, and all with the algebraic product as implication -/
def Products (e : Engine S) : Prop :=
  e.blocks ≠ [] ∧ ∀ b ∈ e.blocks, b.implication = some (.builtin .algebraicProduct)

theorem isIntegral_iff (o : OutputVariable S) : isIntegral o.defuzzifier = true ↔ HasIntegral o := by
  unfold HasIntegral isIntegral
  cases o.defuzzifier with
  | none => simp
  | some d => cases d <;> simp

theorem isProduct_iff (k : Option (TNorm S)) : isProduct k = true ↔ k = some (.builtin .algebraicProduct) := by
  cases k with
  | none => simp [isProduct]
  | some k =>
    cases k with
    | builtin k => cases k <;> simp [isProduct]
    | function f => simp [isProduct]

theorem suitsTakagiSugeno_iff (o : OutputVariable S) : suitsTakagiSugeno o = true ↔ IsTakagiSugeno o := by
  unfold suitsTakagiSugeno IsTakagiSugeno HasWeighted
  cases o.defuzzifier with
  | none => simp [weightedType]
  | some d =>
    cases d with
    | integral k r => simp [weightedType]
    | weighted k w => cases w <;> simp [weightedType, ← Weighted.inferTerm_takagiSugeno]

theorem suitsTsukamoto_iff (o : OutputVariable S) : suitsTsukamoto o = true ↔ IsTsukamoto o := by
  unfold suitsTsukamoto IsTsukamoto HasWeighted
  cases o.defuzzifier with
  | none => simp [weightedType]
  | some d =>
    cases d with
    | integral k r => simp [weightedType]
    | weighted k w => cases w <;> simp [weightedType]

theorem weighted_iff (o : OutputVariable S) : (weightedType o.defuzzifier).isSome = true ↔ ∃ w, HasWeighted w o := by
  unfold HasWeighted
  cases o.defuzzifier with
  | none => simp [weightedType]
  | some d => cases d <;> simp [weightedType]

/-- **C62.**  The kind of an engine, in terms of the defuzzifiers and terms of its output variables and the
implications of its rule blocks. -/
theorem type_spec (e : Engine S) :
    (e.type = .larsen ↔ e.outputs ≠ [] ∧ (∀ o ∈ e.outputs, HasIntegral o) ∧ e.Products) ∧
    (e.type = .mamdani ↔ e.outputs ≠ [] ∧ (∀ o ∈ e.outputs, HasIntegral o) ∧ ¬ e.Products) ∧
    (e.type = .takagiSugeno ↔ e.outputs ≠ [] ∧ ∀ o ∈ e.outputs, IsTakagiSugeno o) ∧
    (e.type = .tsukamoto ↔ e.outputs ≠ [] ∧ (∀ o ∈ e.outputs, IsTsukamoto o) ∧ ¬ ∀ o ∈ e.outputs, IsTakagiSugeno o) ∧
    (e.type = .inverseTsukamoto ↔ e.outputs ≠ [] ∧ (∀ o ∈ e.outputs, ∃ w, HasWeighted w o) ∧
      (¬ ∀ o ∈ e.outputs, IsTakagiSugeno o) ∧ ¬ ∀ o ∈ e.outputs, IsTsukamoto o) ∧
    (e.type = .hybrid ↔ (∀ o ∈ e.outputs, o.defuzzifier.isSome = true) ∧ (∃ o ∈ e.outputs, HasIntegral o) ∧
      ∃ o ∈ e.outputs, ∃ w, HasWeighted w o) ∧
    (e.type = .unknown ↔ e.outputs = [] ∨ ∃ o ∈ e.outputs, o.defuzzifier = none) := by
  have hM : (e.outputs.all fun o => isIntegral o.defuzzifier) = true ↔ ∀ o ∈ e.outputs, HasIntegral o := by
    simp only [List.all_eq_true, isIntegral_iff]
  have hP : (!e.blocks.isEmpty && e.blocks.all fun b => isProduct b.implication) = true ↔ e.Products := by
    simp [List.all_eq_true, isProduct_iff, Products]
  have hT : (e.outputs.all suitsTakagiSugeno) = true ↔ ∀ o ∈ e.outputs, IsTakagiSugeno o := by
    simp only [List.all_eq_true, suitsTakagiSugeno_iff]
  have hU : (e.outputs.all suitsTsukamoto) = true ↔ ∀ o ∈ e.outputs, IsTsukamoto o := by
    simp only [List.all_eq_true, suitsTsukamoto_iff]
  have hW : (e.outputs.all fun o => (weightedType o.defuzzifier).isSome) = true ↔ ∀ o ∈ e.outputs, ∃ w, HasWeighted w o := by
    simp only [List.all_eq_true, weighted_iff]
  have hD : (e.outputs.all fun o => o.defuzzifier.isSome) = true ↔ ∀ o ∈ e.outputs, o.defuzzifier.isSome = true := by
    simp only [List.all_eq_true]
  -- how the conditions are related
  have dis : ∀ o : OutputVariable S, HasIntegral o → ¬ ∃ w, HasWeighted w o := by
    rintro o ⟨k, r, h⟩ ⟨w, k', h'⟩
    rw [h] at h'
    cases h'
  have tri : ∀ o : OutputVariable S, o.defuzzifier.isSome = true → HasIntegral o ∨ ∃ w, HasWeighted w o := by
    intro o h
    obtain ⟨d, hd⟩ := Option.isSome_iff_exists.1 h
    cases d with
    | integral k r => exact .inl ⟨k, r, hd⟩
    | weighted k w => exact .inr ⟨w, k, hd⟩
  have i1 : ∀ o : OutputVariable S, HasIntegral o → o.defuzzifier.isSome = true := by rintro o ⟨k, r, h⟩; simp [h]
  have i2 : ∀ o : OutputVariable S, (∃ w, HasWeighted w o) → o.defuzzifier.isSome = true := by
    rintro o ⟨w, k, h⟩; simp [h]
  have i3 : ∀ o : OutputVariable S, IsTakagiSugeno o → ∃ w, HasWeighted w o := by
    rintro o ⟨h | h, -⟩ <;> exact ⟨_, h⟩
  have i4 : ∀ o : OutputVariable S, IsTsukamoto o → ∃ w, HasWeighted w o := by
    rintro o ⟨h | h, -⟩ <;> exact ⟨_, h⟩
  rcases hout : e.outputs with - | ⟨o₀, os⟩
  · simp [type, hout]
  rw [← hout]
  have hne : e.outputs ≠ [] := by simp [hout]
  have hne' : e.outputs.isEmpty = false := by simp [hout]
  have ho₀ : o₀ ∈ e.outputs := by simp [hout]
  have hnotall : ∀ P : OutputVariable S → Prop, (∀ o ∈ e.outputs, P o) → ∃ o ∈ e.outputs, P o := fun P h => ⟨o₀, ho₀, h _ ho₀⟩
  unfold type
  simp only [hne', Bool.false_eq_true, if_false, Bool.and_assoc]
  have hnone : (∃ o ∈ e.outputs, o.defuzzifier = none) ↔ ¬ ∀ o ∈ e.outputs, o.defuzzifier.isSome = true := by
    simp only [not_forall, Bool.not_eq_true, Option.isSome_eq_false_iff, Option.isNone_iff_eq_none, exists_prop]
  have hhyb : ((∀ o ∈ e.outputs, o.defuzzifier.isSome = true) ∧ (∃ o ∈ e.outputs, HasIntegral o) ∧
      ∃ o ∈ e.outputs, ∃ w, HasWeighted w o) ↔
      (∀ o ∈ e.outputs, o.defuzzifier.isSome = true) ∧ (¬ ∀ o ∈ e.outputs, HasIntegral o) ∧ ¬ ∀ o ∈ e.outputs, ∃ w, HasWeighted w o := by
    constructor
    · rintro ⟨h1, ⟨o, ho, h2⟩, o', ho', h3⟩
      exact ⟨h1, fun h => dis o' (h o' ho') h3, fun h => dis o h2 (h o ho)⟩
    · rintro ⟨h1, h2, h3⟩
      push Not at h2 h3
      obtain ⟨o, ho, h2⟩ := h2
      obtain ⟨o', ho', h3⟩ := h3
      refine ⟨h1, ⟨o', ho', ?_⟩, o, ho, ?_⟩
      · rcases tri o' (h1 o' ho') with h | ⟨w, h⟩
        · exact h
        · exact absurd h (h3 w)
      · rcases tri o (h1 o ho) with h | h
        · exact absurd h h2
        · exact h
  rw [hhyb, hnone]
  have a1 : (∀ o ∈ e.outputs, HasIntegral o) → ¬ ∀ o ∈ e.outputs, ∃ w, HasWeighted w o :=
    fun h h' => dis o₀ (h _ ho₀) (h' _ ho₀)
  have a2 : (∀ o ∈ e.outputs, HasIntegral o) → ∀ o ∈ e.outputs, o.defuzzifier.isSome = true := fun h o ho => i1 o (h o ho)
  have a3 : (∀ o ∈ e.outputs, ∃ w, HasWeighted w o) → ∀ o ∈ e.outputs, o.defuzzifier.isSome = true :=
    fun h o ho => i2 o (h o ho)
  have a4 : (∀ o ∈ e.outputs, IsTakagiSugeno o) → ∀ o ∈ e.outputs, ∃ w, HasWeighted w o := fun h o ho => i3 o (h o ho)
  have a5 : (∀ o ∈ e.outputs, IsTsukamoto o) → ∀ o ∈ e.outputs, ∃ w, HasWeighted w o := fun h o ho => i4 o (h o ho)
  have hnil : ¬ e.outputs = [] := hne
  simp only [← hM, ← hP, ← hT, ← hU, ← hW, ← hD, ne_eq, hnil, not_false_eq_true, true_and, false_or] at a1 a2 a3 a4 a5 ⊢
  generalize (e.outputs.all fun o => isIntegral o.defuzzifier) = m at *
  generalize (!e.blocks.isEmpty && e.blocks.all fun b => isProduct b.implication) = p at *
  generalize e.outputs.all suitsTakagiSugeno = t at *
  generalize e.outputs.all suitsTsukamoto = u at *
  generalize (e.outputs.all fun o => (weightedType o.defuzzifier).isSome) = w at *
  generalize (e.outputs.all fun o => o.defuzzifier.isSome) = d at *
  clear hM hP hT hU hW hD hnone hhyb
  revert m p t u w d
  decide

/-- the kind of an engine depends on its configuration alone: processing does not change it -/
theorem type_config (e : Engine S) : e.config.type = e.type := by
  have h1 : ∀ p : OutputVariable S → Bool,
      (∀ o : OutputVariable S, p { o with fuzzy := { o.fuzzy with terms := [] }, value := nan, previous := nan } = p o) →
      e.config.outputs.all p = e.outputs.all p := by
    intro p hp
    simp only [config, forget, fresh, List.all_map, List.map_map]
    congr 1
    funext o
    exact hp o
  have h2 : (e.config.blocks.all fun b => isProduct b.implication) = e.blocks.all fun b => isProduct b.implication := by
    simp only [config, forget, fresh, List.all_map]; rfl
  have h3 : e.config.blocks.isEmpty = e.blocks.isEmpty := by
    simp [config, forget, fresh]
  have h4 : e.config.outputs.isEmpty = e.outputs.isEmpty := by
    simp [config, forget, fresh]
  unfold type
  rw [h2, h3, h4, h1 _ fun _ => rfl, h1 _ fun _ => rfl, h1 _ fun _ => rfl, h1 _ fun _ => rfl, h1 _ fun _ => rfl]

theorem type_process [Heap S] (e : Engine S) : e.process.1.type = e.type := by
  rw [← type_config, process_config, type_config]

/-- the kind of an engine does not depend on the order of its variables, rule blocks and terms -/
theorem type_perm {e e' : Engine S} (hb : e.blocks.Perm e'.blocks)
    (ho : List.Forall₂ (fun o o' => o.defuzzifier = o'.defuzzifier ∧ o.terms.Perm o'.terms) e.outputs e'.outputs) :
    e.type = e'.type := by
  have h1 : ∀ p : OutputVariable S → Bool, (∀ o o' : OutputVariable S, o.defuzzifier = o'.defuzzifier → o.terms.Perm o'.terms →
      p o = p o') → e.outputs.all p = e'.outputs.all p := by
    intro p hp
    revert ho
    generalize e.outputs = l
    generalize e'.outputs = l'
    intro ho
    induction ho with
    | nil => rfl
    | cons h _ ih => rw [List.all_cons, List.all_cons, hp _ _ h.1 h.2, ih]
  have hall : ∀ (p : Term S → Bool) {l l' : List (Term S)}, l.Perm l' → l.all p = l'.all p := by
    intro p l l' h
    rw [Bool.eq_iff_iff, List.all_eq_true, List.all_eq_true]
    exact ⟨fun q t ht => q t (h.mem_iff.2 ht), fun q t ht => q t (h.mem_iff.1 ht)⟩
  have h2 : (e.blocks.all fun b => isProduct b.implication) = e'.blocks.all fun b => isProduct b.implication := by
    rw [Bool.eq_iff_iff, List.all_eq_true, List.all_eq_true]
    exact ⟨fun q t ht => q t (hb.mem_iff.2 ht), fun q t ht => q t (hb.mem_iff.1 ht)⟩
  have h3 : e.blocks.isEmpty = e'.blocks.isEmpty := hb.isEmpty_eq
  have h4 : e.outputs.isEmpty = e'.outputs.isEmpty := by
    have := ho.length_eq
    cases h : e.outputs <;> cases h' : e'.outputs <;> simp_all
  unfold type
  rw [h2, h3, h4, h1 _ fun o o' h _ => by rw [h],
    h1 suitsTakagiSugeno fun o o' h h' => by unfold suitsTakagiSugeno; rw [h]; split <;> simp only [hall _ h'],
    h1 suitsTsukamoto fun o o' h h' => by unfold suitsTsukamoto; rw [h]; split <;> simp only [hall _ h'],
    h1 (fun o => (weightedType o.defuzzifier).isSome) fun o o' h _ => by rw [h],
    h1 (fun o => o.defuzzifier.isSome) fun o o' h _ => by rw [h]]

theorem type_perm_outputs {e e' : Engine S} (hb : e.blocks.Perm e'.blocks) (ho : e.outputs.Perm e'.outputs) : e.type = e'.type := by
  have h1 : ∀ p : OutputVariable S → Bool, e.outputs.all p = e'.outputs.all p := by
    intro p
    rw [Bool.eq_iff_iff, List.all_eq_true, List.all_eq_true]
    exact ⟨fun q t ht => q t (ho.mem_iff.2 ht), fun q t ht => q t (ho.mem_iff.1 ht)⟩
  have h2 : ∀ p : RuleBlock S → Bool, e.blocks.all p = e'.blocks.all p := by
    intro p
    rw [Bool.eq_iff_iff, List.all_eq_true, List.all_eq_true]
    exact ⟨fun q t ht => q t (hb.mem_iff.2 ht), fun q t ht => q t (hb.mem_iff.1 ht)⟩
  have h3 : e.blocks.isEmpty = e'.blocks.isEmpty := hb.isEmpty_eq
  have h4 : e.outputs.isEmpty = e'.outputs.isEmpty := ho.isEmpty_eq
  unfold type
  rw [h3, h4]
  simp only [h1, h2]

/-- **C62.**  What the kind says about defuzzification: the defuzzifiers of a Tsukamoto engine serve their
variables; those of a Takagi-Sugeno engine do if its terms can be evaluated; those of a Mamdani or Larsen
engine do if moreover there are aggregation operators and no bisector has a negative resolution. -/
theorem type_serves (e : Engine S) :
    (e.type = .tsukamoto → ∀ o ∈ e.outputs, ∃ d, o.defuzzifier = some d ∧ d.Serves e.inputNames e.outputNames o) ∧
    (e.type = .takagiSugeno → (∀ o ∈ e.outputs, ∀ t ∈ o.terms, t.Evaluates e.inputNames e.outputNames) →
      ∀ o ∈ e.outputs, ∃ d, o.defuzzifier = some d ∧ d.Serves e.inputNames e.outputNames o) ∧
    (e.type = .mamdani ∨ e.type = .larsen →
      (∀ o ∈ e.outputs, (∀ t ∈ o.terms, t.Evaluates e.inputNames e.outputNames) ∧ o.fuzzy.aggregation.isSome = true ∧
        ∀ r, o.defuzzifier = some (.integral .bisector r) → 0 ≤ r) →
      ∀ o ∈ e.outputs, ∃ d, o.defuzzifier = some d ∧ d.Serves e.inputNames e.outputNames o) := by
  obtain ⟨hl, hm, ht, hu, -⟩ := e.type_spec
  refine ⟨fun h o ho => ?_, fun h hev o ho => ?_, fun h hev o ho => ?_⟩
  · obtain ⟨⟨k, hk⟩ | ⟨k, hk⟩, hmono⟩ := (hu.1 h).2.1 o ho
    · exact ⟨_, hk, .inr hmono⟩
    · exact ⟨_, hk, hmono⟩
  · obtain ⟨⟨k, hk⟩ | ⟨k, hk⟩, hs⟩ := (ht.1 h).2 o ho
    · exact ⟨_, hk, .inl fun t htm => ⟨hs t htm, hev o ho t htm⟩⟩
    · exact ⟨_, hk, hev o ho⟩
  · obtain ⟨k, r, hk⟩ : HasIntegral o := by
      rcases h with h | h
      · exact (hm.1 h).2.1 o ho
      · exact (hl.1 h).2.1 o ho
    obtain ⟨h1, h2, h3⟩ := hev o ho
    refine ⟨_, hk, ?_, h2, h1⟩
    rintro rfl
    exact h3 r hk

/-! ### C64 -/

/-- **C64.**  Configuring sets the operators of every rule block and the defuzzifier and aggregation of every
output variable, and nothing else: names, descriptions, variables, values, terms, fuzzy outputs and rules
stay as they are; without activation method rule blocks get `General`. -/
theorem configure_spec (e : Engine S) (c : Option (TNorm S)) (d : Option (SNorm S)) (i : Option (TNorm S))
    (a : Option (SNorm S)) (z : Option Defuzzifier) (m : Option (Activation S)) :
    (e.configure c d i a z m).name = e.name ∧ (e.configure c d i a z m).description = e.description ∧
    (e.configure c d i a z m).inputs = e.inputs ∧
    List.Forall₂ (fun b b' => b'.conjunction = c ∧ b'.disjunction = d ∧ b'.implication = i ∧
      (∀ x, m = some x → b'.activation = some x) ∧ (m = none → b'.activation = some .general) ∧
      b'.name = b.name ∧ b'.description = b.description ∧ b'.enabled = b.enabled ∧ b'.rules = b.rules)
      e.blocks (e.configure c d i a z m).blocks ∧
    List.Forall₂ (fun o o' => o'.defuzzifier = z ∧ o'.fuzzy.aggregation = a ∧ o'.fuzzy.terms = o.fuzzy.terms ∧
      o'.fuzzy.name = o.fuzzy.name ∧ o'.fuzzy.minimum = o.fuzzy.minimum ∧ o'.fuzzy.maximum = o.fuzzy.maximum ∧
      o'.toVariable = o.toVariable ∧ o'.previous = o.previous ∧ o'.default = o.default ∧ o'.lockPrevious = o.lockPrevious)
      e.outputs (e.configure c d i a z m).outputs := by
  refine ⟨rfl, rfl, rfl, ?_, ?_⟩
  · refine List.forall₂_map_right_iff.2 (List.forall₂_same.2 fun b _ => ⟨rfl, rfl, rfl, ?_, ?_, rfl, rfl, rfl, rfl⟩)
    · rintro x rfl; rfl
    · rintro rfl; rfl
  · exact List.forall₂_map_right_iff.2 (List.forall₂_same.2 fun o _ => ⟨rfl, rfl, rfl, rfl, rfl, rfl, rfl, rfl, rfl, rfl⟩)

/-- **C64.**  The last configuration counts. -/
theorem configure_twice (e : Engine S) (c c' : Option (TNorm S)) (d d' : Option (SNorm S)) (i i' : Option (TNorm S))
    (a a' : Option (SNorm S)) (z z' : Option Defuzzifier) (m m' : Option (Activation S)) :
    (e.configure c d i a z m).configure c' d' i' a' z' m' = e.configure c' d' i' a' z' m' := by
  simp only [configure, List.map_map]; rfl

/-- **C64.**  A fully configured engine has what its rules need. -/
theorem configure_equipped (e : Engine S) (c : TNorm S) (d : SNorm S) (i : TNorm S) (a : SNorm S) (z : Defuzzifier)
    (m : Option (Activation S)) : (e.configure (some c) (some d) (some i) (some a) (some z) m).Equipped := by
  refine ⟨fun o ho => ?_, fun b hb => ?_, fun b hb _ _ _ _ _ => ?_, fun b hb _ _ _ _ _ => ?_⟩
  · obtain ⟨q, -, rfl⟩ := List.mem_map.1 ho
    exact ⟨rfl, .inl rfl⟩
  · obtain ⟨q, -, rfl⟩ := List.mem_map.1 hb
    exact .inl rfl
  · obtain ⟨q, -, rfl⟩ := List.mem_map.1 hb
    rfl
  · obtain ⟨q, -, rfl⟩ := List.mem_map.1 hb
    rfl

/-- **C64.**  A fully configured engine never fails for a missing operator. -/
theorem configure_complete [Heap S] (e : Engine S) (c : TNorm S) (d : SNorm S) (i : TNorm S) (a : SNorm S) (z : Defuzzifier)
    (m : Option (Activation S)) (err : Err)
    (h : (e.configure (some c) (some d) (some i) (some a) (some z) m).process.2 = some err) : ¬ err.Missing :=
  (e.configure_equipped c d i a z m).complete err h

/-- **C64.**  A fully configured engine is ready exactly when it has inputs, outputs with terms, and rule
blocks with rules. -/
theorem configure_ready (e : Engine S) (c : TNorm S) (d : SNorm S) (i : TNorm S) (a : SNorm S) (z : Defuzzifier)
    (m : Option (Activation S)) :
    (e.configure (some c) (some d) (some i) (some a) (some z) m).isReady = true ↔
      e.inputs ≠ [] ∧ e.outputs ≠ [] ∧ (∀ o ∈ e.outputs, o.terms ≠ []) ∧ e.blocks ≠ [] ∧ ∀ b ∈ e.blocks, b.rules ≠ [] := by
  simp [isReady, configure, outputReady, blockReady, List.all_eq_true]
  tauto

/-- **C64.**  The kind of a configured engine with output variables. -/
theorem configure_type (e : Engine S) (ho : e.outputs ≠ []) (c : Option (TNorm S)) (d : Option (SNorm S))
    (i : Option (TNorm S)) (a : Option (SNorm S)) (z : Option Defuzzifier) (m : Option (Activation S)) :
    (z = none → (e.configure c d i a z m).type = .unknown) ∧
    (∀ k r, z = some (.integral k r) → e.blocks ≠ [] → i = some (.builtin .algebraicProduct) →
      (e.configure c d i a z m).type = .larsen) ∧
    (∀ k r, z = some (.integral k r) → (e.blocks = [] ∨ i ≠ some (.builtin .algebraicProduct)) →
      (e.configure c d i a z m).type = .mamdani) ∧
    (∀ k w, z = some (.weighted k w) → (e.configure c d i a z m).type = .takagiSugeno ∨
      (e.configure c d i a z m).type = .tsukamoto ∨ (e.configure c d i a z m).type = .inverseTsukamoto) := by
  obtain ⟨hl, hm, ht, hu, hv, -, hn⟩ := (e.configure c d i a z m).type_spec
  have hne : (e.configure c d i a z m).outputs ≠ [] := by simpa [configure] using ho
  have hP : (e.configure c d i a z m).Products ↔ e.blocks ≠ [] ∧ (e.blocks = [] ∨ i = some (.builtin .algebraicProduct)) := by
    unfold Products configure
    simp only [ne_eq, List.map_eq_nil_iff, List.forall_mem_map]
    cases e.blocks with
    | nil => simp
    | cons b bs =>
      simp only [reduceCtorEq, not_false_eq_true, true_and, false_or, List.forall_mem_cons]
      exact ⟨fun h => h.1, fun h => ⟨h, fun _ _ => h⟩⟩
  have hall : ∀ {P : OutputVariable S → Prop}, (∀ o, o.defuzzifier = z → P o) → ∀ o ∈ (e.configure c d i a z m).outputs, P o := by
    intro P h o ho
    obtain ⟨q, -, rfl⟩ := List.mem_map.1 ho
    exact h _ rfl
  refine ⟨?_, ?_, ?_, ?_⟩
  · intro hz
    obtain ⟨o, ho'⟩ := List.exists_mem_of_ne_nil _ hne
    exact hn.2 (.inr ⟨o, ho', hall (fun o h => h.trans hz) o ho'⟩)
  · intro k r hz hb hi
    exact hl.2 ⟨hne, hall fun o h => ⟨k, r, h.trans hz⟩, hP.2 ⟨hb, .inr hi⟩⟩
  · intro k r hz hb
    refine hm.2 ⟨hne, hall fun o h => ⟨k, r, h.trans hz⟩, fun h => ?_⟩
    obtain ⟨h1, h2⟩ := hP.1 h
    rcases hb with hb | hb
    · exact h1 hb
    · rcases h2 with h2 | h2
      · exact h1 h2
      · exact hb h2
  · intro k w hz
    by_cases h1 : ∀ o ∈ (e.configure c d i a z m).outputs, IsTakagiSugeno o
    · exact .inl (ht.2 ⟨hne, h1⟩)
    · by_cases h2 : ∀ o ∈ (e.configure c d i a z m).outputs, IsTsukamoto o
      · exact .inr (.inl (hu.2 ⟨hne, h2, h1⟩))
      · exact .inr (.inr (hv.2 ⟨hne, hall fun o h => ⟨w, k, h.trans hz⟩, h1, h2⟩))

theorem construct_iff {α : Type} (reg : List α) (cls : α → Str) (hnd : (reg.map cls).Nodup) (hne : ∀ a ∈ reg, cls a ≠ [])
    (key : Str) (x : Option α) :
    construct reg cls key = .ok x ↔ (key = [] ∧ x = none) ∨ ∃ a ∈ reg, cls a = key ∧ x = some a := by
  unfold construct
  cases key with
  | nil =>
    simp only [List.isEmpty_nil, if_true, Except.ok.injEq, true_and]
    constructor
    · intro h; exact .inl h.symm
    · rintro (h | ⟨a, ha, h, -⟩)
      · exact h.symm
      · exact absurd h (hne a ha)
  | cons ch key =>
    simp only [List.isEmpty_cons, Bool.false_eq_true, if_false, reduceCtorEq, false_and, false_or]
    constructor
    · intro h
      split at h
      · rename_i a ha
        cases h
        have := List.find?_some ha
        exact ⟨a, List.mem_of_find?_eq_some ha, by simpa using this, rfl⟩
      · cases h
    · rintro ⟨a, ha, h, rfl⟩
      cases hf : reg.find? fun a => cls a == ch :: key with
      | none =>
        rw [List.find?_eq_none] at hf
        exact absurd (by simpa using h) (hf a ha)
      | some b =>
        have hb := List.find?_some hf
        have hbm := List.mem_of_find?_eq_some hf
        have : b = a := List.inj_on_of_nodup_map hnd hbm ha (by rw [h]; simpa using hb)
        simp [this]

theorem construct_error {α : Type} (reg : List α) (cls : α → Str) (key : Str) (err : Err) :
    construct reg cls key = .error err ↔ key ≠ [] ∧ (∀ a ∈ reg, cls a ≠ key) ∧ err = .outOfRange := by
  unfold construct
  cases key with
  | nil => simp
  | cons ch key =>
    simp only [List.isEmpty_cons, Bool.false_eq_true, if_false, ne_eq, reduceCtorEq, not_false_eq_true, true_and]
    cases hf : reg.find? fun a => cls a == ch :: key with
    | none =>
      rw [List.find?_eq_none] at hf
      simp only [beq_iff_eq] at hf
      simp only [Except.error.injEq]
      exact ⟨fun h => ⟨hf, h.symm⟩, fun h => h.2.symm⟩
    | some b =>
      have hb := List.find?_some hf
      simp only [reduceCtorEq, false_iff, not_and]
      intro h
      exact absurd (by simpa using hb) (h b (List.mem_of_find?_eq_some hf))

/-- the name of a component: empty, or a name of a registered class -/
def Named {α : Type} (reg : List α) (cls : α → Str) (key : Str) : Prop := key = [] ∨ ∃ a ∈ reg, cls a = key

/-- **C64.**  Configuring by names succeeds exactly when every name is empty or the name of a registered
class, and then it is configuring with default objects of these classes; otherwise it raises. -/
theorem configureNames_iff (resolution : Int) (e e' : Engine S) (c d i a z m : Str) :
    e.configureNames resolution c d i a z m = .ok e' ↔
      ∃ c' d' i' a' z' m', e' = e.configure (c'.map .builtin) (d'.map .builtin) (i'.map .builtin) (a'.map .builtin) z' m' ∧
        ((c = [] ∧ c' = none) ∨ ∃ k ∈ TNormKind.registered, k.className = c ∧ c' = some k) ∧
        ((d = [] ∧ d' = none) ∨ ∃ k ∈ SNormKind.registered, k.className = d ∧ d' = some k) ∧
        ((i = [] ∧ i' = none) ∨ ∃ k ∈ TNormKind.registered, k.className = i ∧ i' = some k) ∧
        ((a = [] ∧ a' = none) ∨ ∃ k ∈ SNormKind.registered, k.className = a ∧ a' = some k) ∧
        ((z = [] ∧ z' = none) ∨ ∃ k ∈ Defuzzifier.registered resolution, k.className = z ∧ z' = some k) ∧
        ((m = [] ∧ m' = none) ∨ ∃ k ∈ Activation.registered, k.className = m ∧ m' = some k) := by
  have hT := construct_iff TNormKind.registered TNormKind.className (by decide) (by decide)
  have hS := construct_iff SNormKind.registered SNormKind.className (by decide) (by decide)
  have hD := construct_iff (Defuzzifier.registered resolution) Defuzzifier.className
    (by simp only [Defuzzifier.registered, List.map_cons, List.map_nil, Defuzzifier.className]; decide)
    (by simp only [Defuzzifier.registered, List.forall_mem_cons, Defuzzifier.className]; decide)
  have hA := construct_iff (Activation.registered (S := S)) Activation.className
    (by simp only [Activation.registered, List.map_cons, List.map_nil, Activation.className]; decide)
    (by simp [Activation.registered, Activation.className])
  unfold configureNames
  simp only [← hT, ← hS, ← hD, ← hA]
  constructor
  · intro h
    cases h1 : construct TNormKind.registered TNormKind.className c with
    | error x => rw [h1] at h; cases h
    | ok c' =>
    cases h2 : construct SNormKind.registered SNormKind.className d with
    | error x => rw [h1, h2] at h; cases h
    | ok d' =>
    cases h3 : construct TNormKind.registered TNormKind.className i with
    | error x => rw [h1, h2, h3] at h; cases h
    | ok i' =>
    cases h4 : construct SNormKind.registered SNormKind.className a with
    | error x => rw [h1, h2, h3, h4] at h; cases h
    | ok a' =>
    cases h5 : construct (Defuzzifier.registered resolution) Defuzzifier.className z with
    | error x => rw [h1, h2, h3, h4, h5] at h; cases h
    | ok z' =>
    cases h6 : construct (Activation.registered (S := S)) Activation.className m with
    | error x => rw [h1, h2, h3, h4, h5, h6] at h; cases h
    | ok m' =>
    rw [h1, h2, h3, h4, h5, h6] at h
    cases h
    exact ⟨c', d', i', a', z', m', rfl, rfl, rfl, rfl, rfl, rfl, rfl⟩
  · rintro ⟨c', d', i', a', z', m', rfl, h1, h2, h3, h4, h5, h6⟩
    rw [h1, h2, h3, h4, h5, h6]
    rfl

/-- **C64.**  Configuring by names raises when a name is unknown. -/
theorem configureNames_raises (resolution : Int) (e : Engine S) (c d i a z m : Str) :
    e.configureNames resolution c d i a z m = .error .outOfRange ↔
      ¬ (Named TNormKind.registered TNormKind.className c ∧ Named SNormKind.registered SNormKind.className d ∧
        Named TNormKind.registered TNormKind.className i ∧ Named SNormKind.registered SNormKind.className a ∧
        Named (Defuzzifier.registered resolution) Defuzzifier.className z ∧
        Named (Activation.registered (S := S)) Activation.className m) := by
  have key : ∀ {α : Type} (reg : List α) (cls : α → Str) (k : Str),
      (Named reg cls k ∧ ∃ x, construct reg cls k = .ok x) ∨ (¬ Named reg cls k ∧ construct reg cls k = .error .outOfRange) := by
    intro α reg cls k
    unfold Named
    cases h : construct reg cls k with
    | error err =>
      obtain ⟨h1, h2, h3⟩ := (construct_error reg cls k err).1 h
      rw [h3]
      exact .inr ⟨by rintro (h | ⟨a, ha, h⟩); exacts [h1 h, h2 a ha h], rfl⟩
    | ok x =>
      refine .inl ⟨?_, x, rfl⟩
      by_contra hc
      rw [not_or] at hc
      push Not at hc
      have := (construct_error reg cls k .outOfRange).2 ⟨hc.1, hc.2, rfl⟩
      rw [h] at this
      cases this
  unfold configureNames
  rcases key TNormKind.registered TNormKind.className c with ⟨n1, x1, h1⟩ | ⟨n1, h1⟩ <;>
  rcases key SNormKind.registered SNormKind.className d with ⟨n2, x2, h2⟩ | ⟨n2, h2⟩ <;>
  rcases key TNormKind.registered TNormKind.className i with ⟨n3, x3, h3⟩ | ⟨n3, h3⟩ <;>
  rcases key SNormKind.registered SNormKind.className a with ⟨n4, x4, h4⟩ | ⟨n4, h4⟩ <;>
  rcases key (Defuzzifier.registered resolution) Defuzzifier.className z with ⟨n5, x5, h5⟩ | ⟨n5, h5⟩ <;>
  rcases key (Activation.registered (S := S)) Activation.className m with ⟨n6, x6, h6⟩ | ⟨n6, h6⟩ <;>
  simp only [h1, h2, h3, h4, h5, h6, n1, n2, n3, n4, n5, n6, and_self, and_true, and_false, false_and, not_true, not_false_eq_true,
    iff_true, iff_false] <;> first | rfl | exact nofun

end Engine
/-! ### C63 -/
namespace Variable

/-- **C63.**  The centroid of a term: of a `Constant` or `Linear` term its value, of another the centroid over
the range of the variable; if that raises, infinity. -/
theorem centroid_spec (r : Int) (ctx : Ctx S) (mn mx : S) (t : Term S) :
    (∀ v, t.kind = .constant v → centroid r ctx mn mx t = .ok v) ∧
    (∀ c, t.kind = .linear c true → centroid r ctx mn mx t = linearMembership c true (ctx.inputs.map Prod.snd)) ∧
    (∀ c, t.kind = .linear c false → centroid r ctx mn mx t = .ok inf) ∧
    ((∀ v, t.kind ≠ .constant v) → (∀ c e, t.kind ≠ .linear c e) →
      (∀ z, Integral.defuzzify .centroid r (t.membership ctx) mn mx = .ok z → centroid r ctx mn mx t = .ok z) ∧
      (∀ err, err ≠ .ub → Integral.defuzzify .centroid r (t.membership ctx) mn mx = .error err →
        centroid r ctx mn mx t = .ok inf)) := by
  unfold centroid
  refine ⟨?_, ?_, ?_, ?_⟩
  · intro v h
    simp [h, Term.membership]
  · intro c h
    simp only [h, Term.membership]
    cases hl : linearMembership c true (ctx.inputs.map Prod.snd) with
    | ok z => rfl
    | error err => simp [linearMembership] at hl
  · intro c h
    simp [h, Term.membership, linearMembership]
  · intro h1 h2
    have : (match t.kind with
        | .constant _ => t.membership ctx (lit 0)
        | .linear _ _ => t.membership ctx (lit 0)
        | _ => Integral.defuzzify .centroid r (t.membership ctx) mn mx)
        = Integral.defuzzify .centroid r (t.membership ctx) mn mx := by
      cases hk : t.kind with
      | constant v => exact absurd hk (h1 v)
      | linear c e => exact absurd hk (h2 c e)
      | _ => rfl
    simp only [this]
    refine ⟨fun z hz => by rw [hz], fun err he hz => ?_⟩
    rw [hz]
    cases err <;> first | rfl | exact absurd rfl he

/-- computing the centroid of a term never raises: the only failure is undefined behaviour -/
theorem centroid_error (r : Int) (ctx : Ctx S) (mn mx : S) (t : Term S) (err : Err)
    (h : centroid r ctx mn mx t = .error err) : err = .ub := by
  unfold centroid at h
  simp only at h
  split at h
  · cases h
  · cases h; rfl
  · cases h

theorem mapM_forall₂ {α β : Type} {f : α → Except Err β} {l : List α} {ys : List β} :
    l.mapM f = .ok ys ↔ List.Forall₂ (fun a y => f a = .ok y) l ys := by
  induction l generalizing ys with
  | nil =>
    rw [List.mapM_nil]
    constructor
    · intro h; cases h; exact .nil
    · intro h; cases h; rfl
  | cons a l ih =>
    rw [List.mapM_cons]
    constructor
    · intro h
      cases ha : f a with
      | error e => rw [ha] at h; cases h
      | ok y =>
        cases hl : l.mapM f with
        | error e => rw [ha, hl] at h; cases h
        | ok zs =>
          rw [ha, hl] at h
          cases h
          exact .cons ha (ih.1 hl)
    · intro h
      cases h with
      | cons h1 h2 => rw [h1, ih.2 h2]; rfl

variable [Heap S]

/-- sorting fails only when the centroid of a term is undefined behaviour -/
theorem sort_error (r : Int) (ctx : Ctx S) (v : Variable S) (err : Err) (h : v.sort r ctx = .error err) :
    err = .ub ∧ ∃ t ∈ v.terms, centroid r ctx v.minimum v.maximum t = .error .ub := by
  by_cases hall : ∀ t ∈ v.terms, ∃ z, centroid r ctx v.minimum v.maximum t = .ok z
  · obtain ⟨zs, hz⟩ := mapM_ok hall
    unfold sort at h
    rw [hz] at h
    cases h
  · push Not at hall
    obtain ⟨t, ht, hz⟩ := hall
    have hub : centroid r ctx v.minimum v.maximum t = .error .ub := by
      cases hc : centroid r ctx v.minimum v.maximum t with
      | ok z => exact absurd hc (hz z)
      | error e => rw [centroid_error r ctx _ _ t e hc]
    refine ⟨?_, t, ht, hub⟩
    unfold sort at h
    have key : ∀ l : List (Term S), ∀ e, l.mapM (centroid r ctx v.minimum v.maximum) = .error e → e = .ub := by
      intro l
      induction l with
      | nil => intro e he; rw [List.mapM_nil] at he; cases he
      | cons a l ih =>
        intro e he
        rw [List.mapM_cons] at he
        cases ha : centroid r ctx v.minimum v.maximum a with
        | error x => rw [ha] at he; cases he; exact centroid_error r ctx _ _ a _ ha
        | ok y =>
          cases hl : l.mapM (centroid r ctx v.minimum v.maximum) with
          | error x => rw [ha, hl] at he; cases he; exact ih _ hl
          | ok zs => rw [ha, hl] at he; cases he
    cases hm : v.terms.mapM (centroid r ctx v.minimum v.maximum) with
    | error x => rw [hm] at h; cases h; exact key _ _ hm
    | ok zs => rw [hm] at h; cases h

/-- **C63.**  Sorting rearranges the terms of a variable and changes nothing else. -/
theorem sort_perm [LawfulHeap S] (r : Int) (ctx : Ctx S) (v v' : Variable S) (h : v.sort r ctx = .ok v') :
    v'.terms.Perm v.terms ∧ v' = { v with terms := v'.terms } := by
  unfold sort at h
  cases hm : v.terms.mapM (centroid r ctx v.minimum v.maximum) with
  | error x => rw [hm] at h; cases h
  | ok zs =>
    rw [hm] at h
    cases h
    refine ⟨?_, rfl⟩
    have hl := (mapM_forall₂.1 hm).length_eq
    have hp := (LawfulHeap.perm (fun a b : S => gt a b) zs).filterMap fun i => v.terms[i]?
    rw [← hl, RuleBlock.range_filterMap] at hp
    exact hp

end Variable
end general

section ordered
variable {S : Type} [ScalarOrd S] [Heap S] [LawfulHeap S]
namespace Variable

/-- **C63 (partial).**  If no centroid is NaN, the terms are in ascending order of their centroids after
sorting.  Missing: terms whose centroid is NaN. -/
theorem sort_sorted_partial (r : Int) (ctx : Ctx S) (v v' : Variable S) (h : v.sort r ctx = .ok v')
    (hn : ∀ t ∈ v.terms, centroid r ctx v.minimum v.maximum t ≠ .ok nan) :
    v'.terms.Pairwise fun s t => ∀ x y, centroid r ctx v.minimum v.maximum s = .ok x →
      centroid r ctx v.minimum v.maximum t = .ok y → le x y = true := by
  unfold sort at h
  cases hm : v.terms.mapM (centroid r ctx v.minimum v.maximum) with
  | error x => rw [hm] at h; cases h
  | ok zs =>
    rw [hm] at h
    cases h
    have hf := mapM_forall₂.1 hm
    have hget : ∀ (i : Nat) t, v.terms[i]? = some t → ∃ z, zs[i]? = some z ∧ centroid r ctx v.minimum v.maximum t = .ok z := by
      intro i t hi
      obtain ⟨hlt, rfl⟩ := List.getElem?_eq_some_iff.1 hi
      have hlt' : i < zs.length := hf.length_eq ▸ hlt
      exact ⟨zs[i], List.getElem?_eq_getElem hlt', (List.forall₂_iff_get.1 hf).2 i hlt hlt'⟩
    have hnan : ∀ z ∈ zs, z ≠ nan := by
      intro z hz
      obtain ⟨i, hi⟩ := List.mem_iff_getElem?.1 hz
      obtain ⟨hlt, rfl⟩ := List.getElem?_eq_some_iff.1 hi
      have hlt' : i < v.terms.length := hf.length_eq ▸ hlt
      have hc := (List.forall₂_iff_get.1 hf).2 i hlt' hlt
      intro he
      refine hn v.terms[i] (List.getElem_mem hlt') ?_
      simp only [List.get_eq_getElem] at hc
      rw [hc, he]
    rw [List.pairwise_filterMap]
    refine (LawfulHeap.sorted (fun a b : S => gt a b) zs (fun a _ => ScalarOrd.lt_irrefl a)
      (fun a _ b _ c _ h1 h2 => ScalarOrd.lt_trans _ _ _ h2 h1) ?_).imp ?_
    · intro a ha b hb c hc h1 h2
      exact ScalarOrd.not_lt_of_le (ScalarOrd.le_trans (ScalarOrd.le_of_not_lt (hnan b hb) (hnan a ha) h1)
        (ScalarOrd.le_of_not_lt (hnan c hc) (hnan b hb) h2))
    · intro i j hij s hs t ht x y hx hy
      obtain ⟨x', hx', hcx⟩ := hget i s hs
      obtain ⟨y', hy', hcy⟩ := hget j t ht
      rw [hx] at hcx
      rw [hy] at hcy
      cases hcx
      cases hcy
      exact ScalarOrd.le_of_not_lt (hnan y (List.mem_of_getElem? hy')) (hnan x (List.mem_of_getElem? hx')) (hij x y hx' hy')

/-- **C63 (partial).**  The sequence of centroids after sorting does not depend on the order of the terms
before, nor on how the queue treats equal centroids. -/
theorem sort_unique_partial (r : Int) (ctx : Ctx S) (v w v' w' : Variable S) (hv : v.sort r ctx = .ok v')
    (hw : w.sort r ctx = .ok w') (hp : v.terms.Perm w.terms) (hr : v.minimum = w.minimum ∧ v.maximum = w.maximum)
    (hn : ∀ t ∈ v.terms, centroid r ctx v.minimum v.maximum t ≠ .ok nan) :
    v'.terms.map (centroid r ctx v.minimum v.maximum) = w'.terms.map (centroid r ctx v.minimum v.maximum) := by
  have hnw : ∀ t ∈ w.terms, centroid r ctx w.minimum w.maximum t ≠ .ok nan := by
    rw [← hr.1, ← hr.2]
    exact fun t ht => hn t (hp.mem_iff.2 ht)
  have s1 := sort_sorted_partial r ctx v v' hv hn
  have s2 := sort_sorted_partial r ctx w w' hw hnw
  rw [← hr.1, ← hr.2] at s2
  have p1 := (sort_perm r ctx v v' hv).1
  have p2 := (sort_perm r ctx w w' hw).1
  have hpp : v'.terms.Perm w'.terms := p1.trans (hp.trans p2.symm)
  have hok : ∀ t ∈ v.terms, ∃ z, centroid r ctx v.minimum v.maximum t = .ok z := by
    unfold sort at hv
    cases hm : v.terms.mapM (centroid r ctx v.minimum v.maximum) with
    | error x => rw [hm] at hv; cases hv
    | ok zs =>
      intro t ht
      obtain ⟨i, hi, rfl⟩ := List.mem_iff_getElem.1 ht
      have hf := mapM_forall₂.1 hm
      exact ⟨_, (List.forall₂_iff_get.1 hf).2 i hi (hf.length_eq ▸ hi)⟩
  let R : Except Err S → Except Err S → Prop := fun a b => ∀ x y, a = .ok x → b = .ok y → le x y = true
  refine List.Perm.eq_of_pairwise (le := R) ?_ (List.pairwise_map.2 s1) (List.pairwise_map.2 s2) (hpp.map _)
  intro a b ha hb hab hba
  obtain ⟨s, hs, rfl⟩ := List.mem_map.1 ha
  obtain ⟨t, ht, rfl⟩ := List.mem_map.1 hb
  obtain ⟨x, hx⟩ := hok s (p1.mem_iff.1 hs)
  obtain ⟨y, hy⟩ := hok t (p1.mem_iff.1 (hpp.mem_iff.2 ht))
  rw [hx, hy, ScalarOrd.le_antisymm (hab x y hx hy) (hba y x hy hx)]

end Variable
end ordered

namespace ConfigureDemo

local instance : Heap (Ext Rat) := RuleBlock.stableHeap _

def triangle (name : Str) (a b c : Rat) : Term (Ext Rat) := ⟨name, .fin 1, .shape (.triangle (.fin a) (.fin b) (.fin c))⟩
def ramp : Term (Ext Rat) := ⟨cs! "ramp", .fin 1, .shape (.ramp (.fin 0) (.fin 10))⟩
def constant (name : Str) (x : Rat) : Term (Ext Rat) := ⟨name, .fin 1, .constant (.fin x)⟩

def output (name : Str) (ts : List (Term (Ext Rat))) (d : Option Defuzzifier) : OutputVariable (Ext Rat) :=
  { OutputVariable.new name (.fin 0) (.fin 10) ts with defuzzifier := d }

def block (i : Option TNormKind) : RuleBlock (Ext Rat) := { RuleBlock.new [] with implication := i.map .builtin }

def kind (os : List (OutputVariable (Ext Rat))) (bs : List (RuleBlock (Ext Rat))) : EngineType := (⟨[], [], [], os, bs⟩ : Engine (Ext Rat)).type

/-- engines of every kind -/
example :
    kind [output (cs! "y") [triangle (cs! "t") 0 5 10] (some (.integral .centroid 100))] [block (some .minimum)] = .mamdani ∧
    kind [output (cs! "y") [triangle (cs! "t") 0 5 10] (some (.integral .centroid 100))] [block (some .algebraicProduct)] = .larsen ∧
    kind [output (cs! "y") [triangle (cs! "t") 0 5 10] (some (.integral .centroid 100))] [] = .mamdani ∧
    kind [output (cs! "y") [constant (cs! "c") 5] (some (.weighted .average .takagiSugeno))] [] = .takagiSugeno ∧
    kind [output (cs! "y") [ramp] (some (.weighted .average .automatic))] [] = .tsukamoto ∧
    kind [output (cs! "y") [ramp] (some (.weighted .average .takagiSugeno))] [] = .inverseTsukamoto ∧
    kind [output (cs! "y") [ramp] (some (.weighted .average .tsukamoto)), output (cs! "z") [] (some (.integral .bisector 9))] []
      = .hybrid ∧
    kind [output (cs! "y") [ramp] (some (.weighted .average .tsukamoto)), output (cs! "z") [] none] [] = .unknown ∧
    kind [] [] = .unknown := by decide +kernel

/-- an engine with one input variable, one rule and the given output variables -/
def engine (os : List (OutputVariable (Ext Rat))) (rule : Str) : Engine (Ext Rat) :=
  let ins := [{ Variable.new (cs! "x") (.fin 0) (.fin 1) [⟨cs! "low", .fin 1, .shape (.ramp (.fin 1) (.fin 0))⟩] with value := .fin (1/4) }]
  ⟨[], [], ins, os, [{ block none with rules := (loadRules Registry.default (World.mk ins os).vocabulary [Rule.new rule]).1 }]⟩

/-- C62 is violated: the documentation of inverse Tsukamoto engines speaks of defuzzifiers of type
TakagiSugeno.  Engines with defuzzifiers of type Automatic or Tsukamoto that do not suit the terms are
reported as inverse Tsukamoto too, and processing them raises an exception. -/
theorem inverse_raises_violated :
    (engine [output (cs! "y") [triangle (cs! "t") 0 5 10] (some (.weighted .average .automatic))] (cs! "if x is low then y is t")).type
      = .inverseTsukamoto ∧
    (engine [output (cs! "y") [triangle (cs! "t") 0 5 10] (some (.weighted .average .automatic))] (cs! "if x is low then y is t")).process.2
      = some .unsupported ∧
    (engine [output (cs! "y") [constant (cs! "t") 5] (some (.weighted .average .tsukamoto))] (cs! "if x is low then y is t")).type
      = .inverseTsukamoto ∧
    (engine [output (cs! "y") [constant (cs! "t") 5] (some (.weighted .average .tsukamoto))] (cs! "if x is low then y is t")).process.2
      = some .unsupported := by decide +kernel

/-- C62 is violated: a Takagi-Sugeno and a Tsukamoto output variable are different, but the engine is
reported as inverse Tsukamoto, not as hybrid. -/
theorem hybrid_violated :
    let e := engine [output (cs! "y") [constant (cs! "t") 5] (some (.weighted .average .takagiSugeno)),
                     output (cs! "z") [ramp] (some (.weighted .average .tsukamoto))] (cs! "if x is low then y is t and z is ramp")
    e.type = .inverseTsukamoto ∧ e.process.2 = none := by decide +kernel

/-- the names of the sorted terms -/
def sorted (ts : List (Term (Ext Rat))) : Option (List Str) :=
  match (Variable.new (cs! "v") (.fin 0) (.fin 10) ts).sort 10 ⟨[], []⟩ with
  | .ok v => some (v.terms.map Term.name)
  | .error _ => none

/-- sorting, with a function that was not loaded last -/
example : sorted [triangle (cs! "b") 3 5 7, ⟨cs! "f", .fin 1, .function ⟨[], none, false, fun _ => none⟩⟩,
    constant (cs! "c") 9, triangle (cs! "a") 0 1 2] = some [cs! "a", cs! "b", cs! "c", cs! "f"] := by decide +kernel

/-- C63 is violated by a term outside the range of the variable, whose centroid is NaN: comparisons with
NaN are not a strict weak order, and a queue that meets the specification of `std::priority_queue` may
leave `c` before `a`. -/
theorem sort_nan_violated : sorted [triangle (cs! "c") 6 8 10, triangle (cs! "n") 20 21 22, triangle (cs! "a") 0 1 2]
    ≠ some [cs! "n", cs! "a", cs! "c"] ∧
    sorted [triangle (cs! "c") 6 8 10, triangle (cs! "n") 20 21 22, triangle (cs! "a") 0 1 2]
    = some [cs! "c", cs! "n", cs! "a"] := by decide +kernel

/-- configuring by names -/
example : (match (engine [output (cs! "y") [triangle (cs! "t") 0 5 10] none] (cs! "if x is low then y is t")).configureNames 10
      (cs! "Minimum") (cs! "") (cs! "AlgebraicProduct") (cs! "Maximum") (cs! "Centroid") (cs! "") with
    | .ok e => some (e.type, e.isReady, e.process.1.outputValues, e.process.2)
    | .error _ => none) = some (.larsen, true, [.fin 5], none) ∧
    (match (engine [] []).configureNames 10 (cs! "Minimum") (cs! "") (cs! "Product") (cs! "") (cs! "") (cs! "") with
    | .ok _ => none
    | .error err => some err) = some .outOfRange := by decide +kernel

end ConfigureDemo
end FL
