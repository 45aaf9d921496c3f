/-
C108: rules can be loaded again after variables were added.
-/
import Verif.Props.MoreTerms

namespace FL
open Scalar

/-- further variables behind the ones there are -/
def Vocabulary.extend (I O : List (Str × List Str)) (V : Vocabulary) : Vocabulary := ⟨V.inputs ++ I, V.outputs ++ O⟩

theorem World.extend_vocabulary {S : Type} (I : List (Variable S)) (O : List (OutputVariable S)) (w : World S) :
    (w.extend I O).vocabulary =
      w.vocabulary.extend (I.map fun v => (v.name, v.terms.map Term.name)) (O.map fun v => (v.name, v.terms.map Term.name)) := by
  simp only [World.vocabulary, World.extend, Vocabulary.extend, List.map_append]

namespace Vocabulary

theorem findIdx_left {l : List (Str × List Str)} (m : List (Str × List Str)) (n : Str) {i : Nat} (h : l.findIdx? (fun p => p.1 == n) = some i) :
    (l ++ m).findIdx? (fun p => p.1 == n) = some i := by
  rw [List.findIdx?_append, h]
  rfl

theorem findIdx_none {l m : List (Str × List Str)} {n : Str} (h : l.findIdx? (fun p => p.1 == n) = none) (hm : ∀ p ∈ m, p.1 ≠ n) :
    (l ++ m).findIdx? (fun p => p.1 == n) = none := by
  rw [List.findIdx?_eq_none_iff] at h ⊢
  intro x hx
  rcases List.mem_append.1 hx with hx | hx
  · exact h x hx
  · simpa using hm x hx

theorem findOutput_extend (I O : List (Str × List Str)) {V : Vocabulary} {n : Str} {v : VarRef} (h : V.findOutput n = some v) :
    (V.extend I O).findOutput n = some v := by
  unfold Vocabulary.findOutput at h ⊢
  obtain ⟨i, hi, hv⟩ := Option.map_eq_some_iff.1 h
  show ((V.outputs ++ O).findIdx? fun p => p.1 == n).map VarRef.output = some v
  rw [findIdx_left O n hi]
  exact congrArg some hv

/-- variables are found as before if no added input variable has the name of an output variable -/
theorem find_extend (I O : List (Str × List Str)) {V : Vocabulary} (hI : ∀ p ∈ I, ∀ o ∈ V.outputs, p.1 ≠ o.1) {n : Str} {v : VarRef}
    (h : V.find n = some v) : (V.extend I O).find n = some v := by
  unfold Vocabulary.find at h ⊢
  show (match (V.inputs ++ I).findIdx? fun p => p.1 == n with
    | some i => some (.input i)
    | none => (V.extend I O).findOutput n) = some v
  cases hi : V.inputs.findIdx? fun p => p.1 == n with
  | some i =>
    rw [hi] at h
    rw [findIdx_left I n hi]
    exact h
  | none =>
    rw [hi] at h
    simp only at h
    have : ∀ p ∈ I, p.1 ≠ n := by
      intro p hp
      unfold Vocabulary.findOutput at h
      obtain ⟨i, ho, -⟩ := Option.map_eq_some_iff.1 h
      obtain ⟨hlt, hn, -⟩ := List.findIdx?_eq_some_iff_getElem.1 ho
      have hn : V.outputs[i].1 = n := by simpa using hn
      rw [← hn]
      exact hI p hp _ (List.getElem_mem hlt)
    rw [findIdx_none hi this]
    exact findOutput_extend I O h

theorem find_extend_none (I O : List (Str × List Str)) {V : Vocabulary} {n : Str} (hI : ∀ p ∈ I, p.1 ≠ n) (hO : ∀ p ∈ O, p.1 ≠ n)
    (h : V.find n = none) : (V.extend I O).find n = none := by
  unfold Vocabulary.find at h ⊢
  show (match (V.inputs ++ I).findIdx? fun p => p.1 == n with
    | some i => some (.input i)
    | none => (V.extend I O).findOutput n) = none
  cases hi : V.inputs.findIdx? fun p => p.1 == n with
  | some i => rw [hi] at h; simp at h
  | none =>
    rw [hi] at h
    simp only at h
    rw [findIdx_none hi hI]
    unfold Vocabulary.findOutput at h ⊢
    rw [Option.map_eq_none_iff] at h
    show ((V.outputs ++ O).findIdx? fun p => p.1 == n).map VarRef.output = none
    rw [findIdx_none h hO]
    rfl

theorem findTerm_extend (I O : List (Str × List Str)) {V : Vocabulary} {v : VarRef} {n : Str} {j : Nat} (h : V.findTerm v n = some j) :
    (V.extend I O).findTerm v n = some j := by
  have key : ∀ (l m : List (Str × List Str)) (i : Nat), (((l[i]?.map Prod.snd).getD []).findIdx? fun t => t == n) = some j →
      ((((l ++ m)[i]?.map Prod.snd).getD []).findIdx? fun t => t == n) = some j := by
    intro l m i h
    cases hl : l[i]? with
    | none => rw [hl] at h; simp at h
    | some p =>
      rw [List.getElem?_append_left (List.getElem?_eq_some_iff.1 hl).1]
      exact h
  cases v with
  | input i => exact key V.inputs I i h
  | output i => exact key V.outputs O i h

end Vocabulary

/-- C108: a rule that can be loaded is loaded as the same rule after variables were added, if no added input variable has the name
of an output variable and no added variable is called `and` or `or`. -/
theorem Rule.load_extend {S : Type} [ScalarText S] (G : Registry S) (w : World S) (I : List (Variable S)) (O : List (OutputVariable S))
    (hI : ∀ v ∈ I, ∀ o ∈ w.outputs, v.name ≠ o.name) (hkI : ∀ v ∈ I, v.name ≠ cs! "and" ∧ v.name ≠ cs! "or")
    (hkO : ∀ o ∈ O, o.name ≠ cs! "and" ∧ o.name ≠ cs! "or") (r : Rule S) (text : Str) (hok : (r.load G w.vocabulary text).2 = none) :
    r.load G (w.extend I O).vocabulary text = r.load G w.vocabulary text := by
  rw [World.extend_vocabulary]
  set I' : List (Str × List Str) := I.map fun v => (v.name, v.terms.map Term.name) with hI'
  set O' : List (Str × List Str) := O.map fun v => (v.name, v.terms.map Term.name) with hO'
  have h1 : ∀ p ∈ I', ∀ o ∈ w.vocabulary.outputs, p.1 ≠ o.1 := by
    intro p hp o ho
    obtain ⟨v, hv, rfl⟩ := List.mem_map.1 hp
    obtain ⟨o', ho', rfl⟩ := List.mem_map.1 ho
    exact hI v hv o' ho'
  have h2 : ∀ p ∈ I', p.1 ≠ cs! "and" ∧ p.1 ≠ cs! "or" := by
    intro p hp
    obtain ⟨v, hv, rfl⟩ := List.mem_map.1 hp
    exact hkI v hv
  have h3 : ∀ p ∈ O', p.1 ≠ cs! "and" ∧ p.1 ≠ cs! "or" := by
    intro p hp
    obtain ⟨v, hv, rfl⟩ := List.mem_map.1 hp
    exact hkO v hv
  have sa : ∀ s x s', Antecedent.step G.hedges w.vocabulary s x = .ok s' →
      Antecedent.step G.hedges (w.vocabulary.extend I' O') s x = .ok s' := by
    rintro ⟨stack, state⟩ x s' hs
    cases state with
    | ready =>
      simp only [Antecedent.step] at hs ⊢
      cases hf : w.vocabulary.find x with
      | some v =>
        rw [hf] at hs
        rw [Vocabulary.find_extend I' O' h1 hf]
        exact hs
      | none =>
        rw [hf] at hs
        simp only at hs
        have hx : x = cs! "and" ∨ x = cs! "or" := by
          by_cases ha : x = andKeyword
          · exact .inl ha
          · by_cases ho : x = orKeyword
            · exact .inr ho
            · rw [if_neg ha, if_neg ho] at hs
              simp at hs
        have : (w.vocabulary.extend I' O').find x = none := by
          refine Vocabulary.find_extend_none I' O' ?_ ?_ hf
          · intro p hp
            rcases hx with rfl | rfl
            · exact (h2 p hp).1
            · exact (h2 p hp).2
          · intro p hp
            rcases hx with rfl | rfl
            · exact (h3 p hp).1
            · exact (h3 p hp).2
        rw [this]
        exact hs
    | expectIs v => exact hs
    | expectTerm v hs' =>
      simp only [Antecedent.step] at hs ⊢
      cases hH : G.hedges x with
      | some k => rw [hH] at hs; exact hs
      | none =>
        rw [hH] at hs
        simp only at hs ⊢
        cases ht : w.vocabulary.findTerm v x with
        | none => rw [ht] at hs; simp at hs
        | some j =>
          rw [ht] at hs
          rw [Vocabulary.findTerm_extend I' O' ht]
          exact hs
  have sc : ∀ s x s', Consequent.step G.hedges w.vocabulary s x = .ok s' →
      Consequent.step G.hedges (w.vocabulary.extend I' O') s x = .ok s' := by
    rintro ⟨stack, state⟩ x s' hs
    cases state with
    | expectVariable =>
      simp only [Consequent.step] at hs ⊢
      cases hf : w.vocabulary.findOutput x with
      | none => rw [hf] at hs; simp at hs
      | some v =>
        rw [hf] at hs
        rw [Vocabulary.findOutput_extend I' O' hf]
        exact hs
    | expectIs v => exact hs
    | expectAnd => exact hs
    | expectTerm v hs' =>
      simp only [Consequent.step] at hs ⊢
      cases hH : G.hedges x with
      | some k => rw [hH] at hs; exact hs
      | none =>
        rw [hH] at hs
        simp only at hs ⊢
        cases ht : w.vocabulary.findTerm v x with
        | none => rw [ht] at hs; simp at hs
        | some j =>
          rw [ht] at hs
          rw [Vocabulary.findTerm_extend I' O' ht]
          exact hs
  unfold Rule.load at hok ⊢
  simp only at hok ⊢
  cases hp : Rule.parts (S := S) text with
  | error e => rfl
  | ok s =>
    rw [hp] at hok
    simp only at hok ⊢
    cases ha : Antecedent.load G.functions G.hedges w.vocabulary s.antecedent with
    | error e => rw [ha] at hok; simp at hok
    | ok a =>
      rw [ha] at hok
      rw [Antecedent.load_of_step _ _ sa _ a ha]
      simp only at hok ⊢
      cases hc : Consequent.load G.hedges w.vocabulary s.consequent with
      | error e => rw [hc] at hok; simp at hok
      | ok c => rw [Consequent.load_of_step _ sc _ c hc]

/-- C108: and so are the rules of a block that can all be loaded. -/
theorem loadRules_extend {S : Type} [ScalarText S] (G : Registry S) (w : World S) (I : List (Variable S)) (O : List (OutputVariable S))
    (hI : ∀ v ∈ I, ∀ o ∈ w.outputs, v.name ≠ o.name) (hkI : ∀ v ∈ I, v.name ≠ cs! "and" ∧ v.name ≠ cs! "or")
    (hkO : ∀ o ∈ O, o.name ≠ cs! "and" ∧ o.name ≠ cs! "or") (rs : List (Rule S)) (hok : (loadRules G w.vocabulary rs).2 = []) :
    loadRules G (w.extend I O).vocabulary rs = loadRules G w.vocabulary rs :=
  loadRules_of_load G (fun r text => r.load_extend G w I O hI hkI hkO text) rs hok

end FL

namespace FL.ExtraLoadDemo

def low : Term (Ext ℚ) := ⟨cs! "low", .fin 1, .shape (.ramp (.fin 1) (.fin 0))⟩

/-- a and y have the term low -/
def world : World (Ext ℚ) := ⟨[Variable.new (cs! "a") (.fin 0) (.fin 1) [low]], [OutputVariable.new (cs! "y") (.fin 0) (.fin 1) [low]]⟩

/-- an input variable with the term low -/
def added (name : Str) : Variable (Ext ℚ) := Variable.new name (.fin 0) (.fin 1) [low]

def text : Str := cs! "if a is low and y is low then y is low"

/-- the variables mentioned -/
def mentioned : Expr (Ext ℚ) → List VarRef
  | .prop p => [p.var]
  | .conj l r => mentioned l ++ mentioned r
  | .disj l r => mentioned l ++ mentioned r

/-- the variables mentioned by the rule, if it can be loaded -/
def load (w : World (Ext ℚ)) : Option (List VarRef) :=
  match (Rule.new []).load Registry.default w.vocabulary text with
  | (_, some _) => none
  | (r, none) => r.antecedent.map mentioned

/-- the theorem applies to it, whatever the output variables added, as long as they are not called `and` or `or` -/
example (O : List (OutputVariable (Ext ℚ))) (hO : ∀ o ∈ O, o.name ≠ cs! "and" ∧ o.name ≠ cs! "or") :
    (Rule.new [] : Rule (Ext ℚ)).load Registry.default (world.extend [added (cs! "z")] O).vocabulary text =
      (Rule.new []).load Registry.default world.vocabulary text :=
  Rule.load_extend Registry.default world [added (cs! "z")] O (by simp [added, world, Variable.new, OutputVariable.new])
    (by simp [added, Variable.new]) hO _ _ (by decide +kernel)

example : load world = some [.input 0, .output 0] ∧ load (world.extend [added (cs! "a")] []) = some [.input 0, .output 0] := by decide +kernel

/-- a block is loaded as before -/
example : (loadRules Registry.default (world.extend [added (cs! "z")] []).vocabulary [Rule.new text, Rule.new text]) =
    loadRules (S := Ext ℚ) Registry.default world.vocabulary [Rule.new text, Rule.new text] :=
  loadRules_extend Registry.default world [added (cs! "z")] [] (by simp [added, world, Variable.new, OutputVariable.new])
    (by simp [added, Variable.new]) (by simp) _ (by decide +kernel)

/-- **Without the conditions it is violated**: an added input variable captures the name of an output variable, and a variable called
`and` takes away the operator, so that the rule cannot be loaded. -/
theorem names_violated :
    load (world.extend [added (cs! "y")] []) = some [.input 0, .input 1] ∧ load (world.extend [added (cs! "and")] []) = none := by decide +kernel

end FL.ExtraLoadDemo
