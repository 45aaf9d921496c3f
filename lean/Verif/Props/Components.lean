/-
C46: lookups by name and operations on the lists of components.
-/
import Verif.Model.Components
import Verif.Model.Ext

namespace FL
variable {S : Type}

theorem insertIdx_length {α : Type} (a : α) (pre post : List α) :
    (pre ++ post).insertIdx pre.length a = pre ++ a :: post := by
  induction pre with
  | nil => simp
  | cons b pre ih => simpa using ih

theorem modify_length {α : Type} (f : α → α) (a : α) (pre post : List α) :
    (pre ++ a :: post).modify pre.length f = pre ++ f a :: post := by
  induction pre with
  | nil => simp
  | cons b pre ih => simpa using ih

namespace Slot
variable {O A : Type} (s : Slot O A)

/-- the object keeps the list that has been stored, and only the last one -/
structure Lawful : Prop where
  list_setList : ∀ o l, s.list (s.setList o l) = l
  setList_setList : ∀ o l l', s.setList (s.setList o l) l' = s.setList o l'
  setList_list : ∀ o, s.setList o (s.list o) = o

theorem scan_none (name : Str) (i : Nat) (l : List A) :
    s.scan name i l = none ↔ ∀ a ∈ l, s.name a ≠ name := by
  induction l generalizing i with
  | nil => simp [scan]
  | cons a l ih =>
    unfold scan
    by_cases h : s.name a = name
    · simp [h]
    · simp [h, ih]

theorem scan_some (name : Str) (i j : Nat) (l : List A) :
    s.scan name i l = some j ↔ ∃ pre a post, l = pre ++ a :: post ∧ (∀ b ∈ pre, s.name b ≠ name) ∧
      s.name a = name ∧ j = i + pre.length := by
  induction l generalizing i with
  | nil => simp [scan]
  | cons a l ih =>
    unfold scan
    by_cases h : s.name a = name
    · rw [if_pos h]
      constructor
      · intro e
        exact ⟨[], a, l, rfl, by simp, h, by simpa using (Option.some.inj e).symm⟩
      · rintro ⟨pre, b, post, e, hp, hb, rfl⟩
        cases pre with
        | nil => rfl
        | cons c pre =>
          rw [List.cons_append, List.cons.injEq] at e
          exact absurd (e.1 ▸ h) (hp c List.mem_cons_self)
    · rw [if_neg h, ih]
      constructor
      · rintro ⟨pre, b, post, rfl, hp, hb, rfl⟩
        refine ⟨a :: pre, b, post, rfl, ?_, hb, by simp; omega⟩
        intro c hc
        rcases List.mem_cons.1 hc with rfl | hc
        · exact h
        · exact hp c hc
      · rintro ⟨pre, b, post, e, hp, hb, rfl⟩
        cases pre with
        | nil =>
          rw [List.nil_append, List.cons.injEq] at e
          exact absurd (e.1 ▸ hb) h
        | cons c pre =>
          rw [List.cons_append, List.cons.injEq] at e
          exact ⟨pre, b, post, e.2, fun d hd => hp d (List.mem_cons_of_mem _ hd), hb, by simp; omega⟩

/-- C46: lookup by name returns the first component with that name, and raises exactly when there is
none -/
theorem get_spec (o : O) (name : Str) :
    (∀ a, s.get o name = .ok a ↔ ∃ pre post, s.list o = pre ++ a :: post ∧ (∀ b ∈ pre, s.name b ≠ name) ∧
      s.name a = name) ∧
    (s.get o name = .error .outOfRange ↔ ∀ a ∈ s.list o, s.name a ≠ name) ∧
    (s.has o name = true ↔ ∃ a, s.get o name = .ok a) ∧
    (s.has o name = true ↔ ∃ a ∈ s.list o, s.name a = name) := by
  unfold get has getAt
  cases h : s.scan name 0 (s.list o) with
  | none =>
    have hn := (s.scan_none name 0 _).1 h
    refine ⟨fun a => ⟨fun e => (by simp at e), ?_⟩, ⟨fun _ => hn, fun _ => rfl⟩, by simp, ?_⟩
    · rintro ⟨pre, post, e, -, ha⟩
      exact absurd ha (hn a (by rw [e]; simp))
    · simpa using hn
  | some j =>
    obtain ⟨pre, a, post, e, hp, ha, rfl⟩ := (s.scan_some name 0 j _).1 h
    have hget : (s.list o)[0 + pre.length]? = some a := by rw [e]; simp
    simp only [hget]
    refine ⟨fun b => ⟨fun hb => ?_, ?_⟩, ⟨fun h => (by simp at h), fun h => ?_⟩, by simp, ?_⟩
    · obtain rfl : a = b := by simpa using hb
      exact ⟨pre, post, e, hp, ha⟩
    · rintro ⟨pre', post', e', hp', hb⟩
      have h' := (s.scan_some name 0 (0 + pre'.length) _).2 ⟨pre', b, post', e', hp', hb, rfl⟩
      rw [h] at h'
      have hl : pre.length = pre'.length := by simpa using h'
      have : (s.list o)[0 + pre.length]? = some b := by rw [e', hl]; simp
      rw [hget] at this
      simpa using this
    · exact absurd ha (h a (by rw [e]; simp))
    · simp only [Option.isSome_some, true_iff]
      exact ⟨a, by rw [e]; simp, ha⟩

/-- C46: removal by name removes the first component with that name and returns it; it raises exactly
when there is none -/
theorem remove_spec (hs : s.Lawful) (o : O) (name : Str) :
    (∀ a o', s.remove o name = .ok (a, o') ↔ ∃ pre post, s.list o = pre ++ a :: post ∧
      (∀ b ∈ pre, s.name b ≠ name) ∧ s.name a = name ∧ o' = s.setList o (pre ++ post)) ∧
    (s.remove o name = .error .outOfRange ↔ ∀ a ∈ s.list o, s.name a ≠ name) ∧
    (∀ a o', s.remove o name = .ok (a, o') → s.get o name = .ok a ∧
      ∃ pre post, s.list o = pre ++ a :: post ∧ s.list o' = pre ++ post) := by
  have main : ∀ a o', s.remove o name = .ok (a, o') ↔ ∃ pre post, s.list o = pre ++ a :: post ∧
      (∀ b ∈ pre, s.name b ≠ name) ∧ s.name a = name ∧ o' = s.setList o (pre ++ post) := by
    intro a o'
    unfold remove removeAt
    cases h : s.scan name 0 (s.list o) with
    | none =>
      have hn := (s.scan_none name 0 _).1 h
      refine ⟨fun e => (by simp at e), ?_⟩
      rintro ⟨pre, post, e, -, ha, -⟩
      exact absurd ha (hn a (by rw [e]; simp))
    | some j =>
      obtain ⟨pre, b, post, e, hp, hb, rfl⟩ := (s.scan_some name 0 j _).1 h
      have hget : (s.list o)[0 + pre.length]? = some b := by rw [e]; simp
      have her : (s.list o).eraseIdx (0 + pre.length) = pre ++ post := by
        rw [e, Nat.zero_add, List.eraseIdx_append_of_length_le (Nat.le_refl _)]
        simp
      simp only [hget, her, Except.ok.injEq, Prod.mk.injEq]
      constructor
      · rintro ⟨rfl, rfl⟩
        exact ⟨pre, post, e, hp, hb, rfl⟩
      · rintro ⟨pre', post', e', hp', ha, rfl⟩
        have h' := (s.scan_some name 0 (0 + pre'.length) _).2 ⟨pre', a, post', e', hp', ha, rfl⟩
        rw [h] at h'
        have hl : pre.length = pre'.length := by simpa using h'
        rw [e] at e'
        obtain ⟨rfl, e2⟩ := List.append_inj e' hl
        rw [List.cons.injEq] at e2
        obtain ⟨rfl, rfl⟩ := e2
        exact ⟨rfl, rfl⟩
  refine ⟨main, ?_, ?_⟩
  · unfold remove removeAt
    cases h : s.scan name 0 (s.list o) with
    | none => exact ⟨fun _ => (s.scan_none name 0 _).1 h, fun _ => rfl⟩
    | some j =>
      obtain ⟨pre, b, post, e, hp, hb, rfl⟩ := (s.scan_some name 0 j _).1 h
      have hget : (s.list o)[0 + pre.length]? = some b := by rw [e]; simp
      simp only [hget]
      exact ⟨fun h => (by simp at h), fun h => absurd hb (h b (by rw [e]; simp))⟩
  · intro a o' h
    obtain ⟨pre, post, e, hp, ha, rfl⟩ := (main a o').1 h
    exact ⟨((s.get_spec o name).1 a).2 ⟨pre, post, e, hp, ha⟩, pre, post, e, hs.list_setList _ _⟩

/-- C46 (partial): the operations with positions act on the list at the position, and raise for
positions out of range.  Missing: insertion beyond the end does not raise. -/
theorem at_spec_partial (hs : s.Lawful) (o : O) (a : A) :
    (s.list (s.add o a) = s.list o ++ [a]) ∧
    (∀ pre b post, s.list o = pre ++ b :: post →
      s.getAt o pre.length = .ok b ∧
      (∃ o', s.set o a pre.length = .ok (b, o') ∧ s.list o' = pre ++ a :: post) ∧
      (∃ o', s.removeAt o pre.length = .ok (b, o') ∧ s.list o' = pre ++ post)) ∧
    (∀ pre post, s.list o = pre ++ post →
      ∃ o', s.insert o a pre.length = .ok o' ∧ s.list o' = pre ++ a :: post) ∧
    (∀ i, (s.list o).length ≤ i → s.getAt o i = .error .outOfRange ∧ s.set o a i = .error .outOfRange ∧
      s.removeAt o i = .error .outOfRange) := by
  refine ⟨hs.list_setList _ _, ?_, ?_, ?_⟩
  · intro pre b post e
    have hget : (s.list o)[pre.length]? = some b := by rw [e]; simp
    refine ⟨by simp [getAt, hget], ⟨_, by simp only [set, hget]; rfl, ?_⟩, ⟨_, by simp only [removeAt, hget]; rfl, ?_⟩⟩
    · rw [hs.list_setList, e, List.set_append_right _ _ (Nat.le_refl _)]; simp
    · rw [hs.list_setList, e, List.eraseIdx_append_of_length_le (Nat.le_refl _)]; simp
  · intro pre post e
    have hle : pre.length ≤ (s.list o).length := by rw [e]; simp
    refine ⟨_, by simp only [insert, hle, if_true]; rfl, ?_⟩
    rw [hs.list_setList, e, insertIdx_length]
  · intro i hi
    have hget : (s.list o)[i]? = none := List.getElem?_eq_none hi
    simp [getAt, set, removeAt, hget]

/-- C46: after an operation on a list the object is otherwise unchanged: storing the old list again
restores it -/
theorem only_list (hs : s.Lawful) (o : O) (a : A) :
    s.setList (s.add o a) (s.list o) = o ∧
    (∀ i b o', s.set o a i = .ok (b, o') → s.setList o' (s.list o) = o) ∧
    (∀ i o', s.insert o a i = .ok o' → s.setList o' (s.list o) = o) ∧
    (∀ i b o', s.removeAt o i = .ok (b, o') → s.setList o' (s.list o) = o) ∧
    (∀ n b o', s.remove o n = .ok (b, o') → s.setList o' (s.list o) = o) := by
  have k : ∀ l, s.setList (s.setList o l) (s.list o) = o := fun l => by
    rw [hs.setList_setList, hs.setList_list]
  have hr : ∀ i b o', s.removeAt o i = .ok (b, o') → s.setList o' (s.list o) = o := by
    intro i b o' h
    unfold removeAt at h
    split at h
    · simp at h
    · simp only [Except.ok.injEq, Prod.mk.injEq] at h
      rw [← h.2, k]
  refine ⟨k _, ?_, ?_, hr, ?_⟩
  · intro i b o' h
    unfold set at h
    split at h
    · simp at h
    · simp only [Except.ok.injEq, Prod.mk.injEq] at h
      rw [← h.2, k]
  · intro i o' h
    unfold insert at h
    split at h
    · simp only [Except.ok.injEq] at h
      rw [← h, k]
    · simp at h
  · intro n b o' h
    unfold remove at h
    split at h
    · simp at h
    · exact hr _ b o' h

/-- C46 (violated): insertion beyond the end is undefined behaviour instead of an exception, for every
list of components -/
theorem insert_violated (o : O) (a : A) (i : Nat) (h : (s.list o).length < i) :
    s.insert o a i = .error .ub := by
  simp [insert, Nat.not_le.2 h]

end Slot

/-- C46: the five kinds of lists -/
theorem slots_lawful : (Engine.inputSlot (S := S)).Lawful ∧ (Engine.outputSlot (S := S)).Lawful ∧
    (Engine.blockSlot (S := S)).Lawful ∧ (Variable.termSlot (S := S)).Lawful ∧ (RuleBlock.ruleSlot (S := S)).Lawful :=
  ⟨⟨fun _ _ => rfl, fun _ _ _ => rfl, fun _ => rfl⟩, ⟨fun _ _ => rfl, fun _ _ _ => rfl, fun _ => rfl⟩,
   ⟨fun _ _ => rfl, fun _ _ _ => rfl, fun _ => rfl⟩, ⟨fun _ _ => rfl, fun _ _ _ => rfl, fun _ => rfl⟩,
   ⟨fun _ _ => rfl, fun _ _ _ => rfl, fun _ => rfl⟩⟩

section
variable [Scalar S]

/-- the functions used by the model of variables are those of the list of terms -/
theorem Variable.termSlot_spec (v : Variable S) (t : Term S) (name : Str) (i : Nat) :
    Variable.termSlot.has v name = v.hasTerm name ∧ Variable.termSlot.get v name = v.getTerm name ∧
    Variable.termSlot.getAt v i = v.getTermAt i ∧ Variable.termSlot.add v t = v.addTerm t ∧
    Variable.termSlot.insert v t i = v.insertTerm t i ∧ Variable.termSlot.removeAt v i = v.removeTerm i := by
  have hspec := Slot.get_spec Variable.termSlot v name
  refine ⟨?_, ?_, ?_, rfl, rfl, ?_⟩
  · rw [Bool.eq_iff_iff, hspec.2.2.2]
    simp [hasTerm, termSlot]
  · unfold getTerm
    cases h : v.terms.find? fun t => t.name == name with
    | none =>
      rw [hspec.2.1]
      intro a ha
      simpa [termSlot] using List.find?_eq_none.1 h a ha
    | some a =>
      rw [hspec.1]
      obtain ⟨ha, pre, post, e, hp⟩ := List.find?_eq_some_iff_append.1 h
      exact ⟨pre, post, e, fun b hb => by simpa [termSlot] using hp b hb, by simpa [termSlot] using ha⟩
  · unfold Slot.getAt getTermAt termSlot
    cases v.terms[i]? <;> rfl
  · unfold Slot.removeAt removeTerm termSlot
    cases v.terms[i]? <;> rfl

/-- C46: `setInputValue` sets the value of the first input variable with the name and no other -/
theorem Engine.setInputValue_spec (e e' : Engine S) (name : Str) (x : S) :
    e.setInputValue name x = .ok e' ↔ ∃ pre v post, e.inputs = pre ++ v :: post ∧ (∀ u ∈ pre, u.name ≠ name) ∧
      v.name = name ∧ e' = { e with inputs := pre ++ v.setValue x :: post } := by
  unfold setInputValue
  cases h : e.inputs.findIdx? fun v => v.name == name with
  | none =>
    refine ⟨fun h => (by simp at h), ?_⟩
    rintro ⟨pre, v, post, he, -, hv, -⟩
    rw [List.findIdx?_eq_none_iff] at h
    have := h v (by rw [he]; simp)
    simp [hv] at this
  | some i =>
    obtain ⟨hi, hp, hlt⟩ := List.findIdx?_eq_some_iff_getElem.1 h
    simp only [Except.ok.injEq]
    have hsplit : e.inputs = e.inputs.take i ++ e.inputs[i] :: e.inputs.drop (i + 1) := by
      rw [← List.drop_eq_getElem_cons hi, List.take_append_drop]
    have hpre : ∀ u ∈ e.inputs.take i, u.name ≠ name := by
      intro u hu
      obtain ⟨j, hj, rfl⟩ := List.mem_iff_getElem.1 hu
      rw [List.length_take] at hj
      have := hlt j (by omega)
      rw [List.getElem_take]
      simpa using this
    have hmod : e.inputs.modify i (fun v => v.setValue x) =
        e.inputs.take i ++ e.inputs[i].setValue x :: e.inputs.drop (i + 1) := by
      have hlen : (e.inputs.take i).length = i := by simp [Nat.min_eq_left (Nat.le_of_lt hi)]
      have := modify_length (fun v : Variable S => v.setValue x) e.inputs[i] (e.inputs.take i) (e.inputs.drop (i + 1))
      rw [← hsplit, hlen] at this
      exact this
    constructor
    · intro he
      exact ⟨_, _, _, hsplit, hpre, by simpa using hp, by rw [← he, hmod]⟩
    · rintro ⟨pre, v, post, he, hpre', hv, rfl⟩
      have hl : pre.length = i := by
        rcases Nat.lt_trichotomy pre.length i with hlt' | h | hgt
        · have := hlt pre.length hlt'
          simp [he, hv] at this
        · exact h
        · have hm : e.inputs[i] ∈ pre := by
            have : e.inputs[i]? = pre[i]? := by rw [he, List.getElem?_append_left hgt]
            rw [List.getElem?_eq_getElem hi, List.getElem?_eq_getElem hgt] at this
            rw [Option.some.inj this]
            exact List.getElem_mem _
          exact absurd (by simpa using hp) (hpre' _ hm)
      subst hl
      congr 1
      rw [he, modify_length]

end

/-- two inputs named alike: lookups and removal find the first -/
def demoEngine : Engine (Ext Rat) :=
  ⟨[], [], [.new (cs! "a") (.fin 0) (.fin 1) [], .new (cs! "b") (.fin 1) (.fin 2) [], .new (cs! "b") (.fin 3) (.fin 4) []],
    [], []⟩

example : (Engine.inputSlot.get demoEngine (cs! "b")).map (fun v => v.minimum) = .ok (.fin 1) ∧
    Engine.inputSlot.has demoEngine (cs! "b") = true ∧ Engine.inputSlot.has demoEngine (cs! "c") = false ∧
    (Engine.inputSlot.remove demoEngine (cs! "b")).map (fun q => q.2.inputs.map fun v => v.minimum) =
      .ok [.fin 0, .fin 3] ∧
    (Engine.inputSlot.remove demoEngine (cs! "c")).map (fun _ => ()) = .error .outOfRange ∧
    (Engine.inputSlot.set demoEngine (.new (cs! "d") (.fin 9) (.fin 9) []) 1).map
      (fun q => (q.1.minimum, q.2.inputs.map fun v => v.minimum)) = .ok (.fin 1, [.fin 0, .fin 9, .fin 3]) ∧
    (Engine.inputSlot.insert demoEngine (.new (cs! "d") (.fin 9) (.fin 9) []) 3).map
      (fun e => e.inputs.map fun v => v.minimum) = .ok [.fin 0, .fin 1, .fin 3, .fin 9] ∧
    (Engine.inputSlot.insert demoEngine (.new (cs! "d") (.fin 9) (.fin 9) []) 4).map (fun _ => ()) = .error .ub ∧
    (demoEngine.setInputValue (cs! "b") (.fin 7)).map (fun e => e.inputs.map fun v => v.value) =
      .ok [.nan, .fin 7, .nan] := by decide +kernel

end FL
