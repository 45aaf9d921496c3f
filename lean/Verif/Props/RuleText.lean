/-
C29: which rule texts load.  C30: loading rule blocks.
-/
import Verif.Props.Antecedent

namespace FL
open Scalar Formula
variable {S : Type}

/-! ### Consequents -/
namespace Consequent

/-- the words of a conclusion: an output variable, `is`, hedges, and a term of the variable whose name
is not that of a hedge -/
def Writes (H : HedgeFactory S) (V : Vocabulary) (p : Proposition S) (ts : List Str) : Prop :=
  ∃ x hs t j, ts = x :: isKeyword :: (hs ++ [t]) ∧ V.findOutput x = some p.var ∧
    List.Forall₂ (fun n h => H n = some h) hs p.hedges ∧ H t = none ∧ p.term = some j ∧ V.findTerm p.var t = some j

/-- the grammar of consequents: a conclusion, or a consequent, `and`, and a conclusion -/
inductive Sentence (H : HedgeFactory S) (V : Vocabulary) : List (Proposition S) → List Str → Prop
  | one (p : Proposition S) (ts : List Str) (h : Writes H V p ts) : Sentence H V [p] ts
  | more (ps : List (Proposition S)) (p : Proposition S) (us ts : List Str) (hs : Sentence H V ps us)
      (h : Writes H V p ts) : Sentence H V (ps ++ [p]) (us ++ andKeyword :: ts)

theorem Sentence.ne_nil {H : HedgeFactory S} {V : Vocabulary} {ps : List (Proposition S)} {ts : List Str}
    (h : Sentence H V ps ts) : ps ≠ [] ∧ ts ≠ [] := by
  cases h with
  | one p ts h => obtain ⟨x, hs, t, j, rfl, _⟩ := h; simp
  | more => simp

theorem steps_hedges {H : HedgeFactory S} {V : Vocabulary} {v : VarRef} {cs : List (Proposition S)} {ns : List Str}
    {hs : List (Hedge S)} (h : List.Forall₂ (fun n h => H n = some h) ns hs) (pre : List (Hedge S)) :
    ns.foldlM (step H V) ⟨cs, .expectTerm v pre⟩ = .ok ⟨cs, .expectTerm v (pre ++ hs)⟩ := by
  induction h generalizing pre with
  | nil => rw [List.append_nil]; rfl
  | @cons n g _ _ hn _ ih =>
    rw [List.foldlM_cons]
    have : step H V ⟨cs, .expectTerm v pre⟩ n = .ok ⟨cs, .expectTerm v (pre ++ [g])⟩ := by
      simp [step, hn]
    rw [this]
    simp only [bind, Except.bind]
    rw [ih (pre ++ [g])]
    simp

theorem steps_writes {H : HedgeFactory S} {V : Vocabulary} {p : Proposition S} {ts : List Str}
    (h : Writes H V p ts) (cs : List (Proposition S)) :
    ts.foldlM (step H V) ⟨cs, .expectVariable⟩ = .ok ⟨cs ++ [p], .expectAnd⟩ := by
  obtain ⟨x, hs, t, j, rfl, hx, hhs, ht, hj, hv⟩ := h
  have h1 : step H V ⟨cs, .expectVariable⟩ x = .ok ⟨cs, .expectIs p.var⟩ := by simp [step, hx]
  have h2 : step H V ⟨cs, .expectIs p.var⟩ isKeyword = .ok ⟨cs, .expectTerm p.var []⟩ := by simp [step]
  have h3 := steps_hedges (V := V) (v := p.var) (cs := cs) hhs []
  have h4 : step H V ⟨cs, .expectTerm p.var p.hedges⟩ t = .ok ⟨cs ++ [p], .expectAnd⟩ := by
    simp only [step, ht, hv]
    obtain ⟨v, hs', tt⟩ := p
    simp only at hj
    subst hj; rfl
  rw [List.foldlM_cons, h1]
  simp only [bind, Except.bind]
  rw [List.foldlM_cons, h2]
  simp only [bind, Except.bind]
  rw [List.foldlM_append, h3]
  simp only [bind, Except.bind, List.nil_append, List.foldlM_cons, List.foldlM_nil, h4]
  rfl

theorem steps_sentence {H : HedgeFactory S} {V : Vocabulary} {ps : List (Proposition S)} {ts : List Str}
    (h : Sentence H V ps ts) : ts.foldlM (step H V) ⟨[], .expectVariable⟩ = .ok ⟨ps, .expectAnd⟩ := by
  induction h with
  | one p ts h => simpa using steps_writes h []
  | more ps p us ts _ h ih =>
    rw [List.foldlM_append, ih]
    simp only [bind, Except.bind]
    rw [List.foldlM_cons]
    have : step H V ⟨ps, .expectAnd⟩ andKeyword = .ok ⟨ps, .expectVariable⟩ := by simp [step]
    rw [this]
    exact steps_writes h ps

/-- the words read so far when the variable of a conclusion is expected -/
def Before (H : HedgeFactory S) (V : Vocabulary) (cs : List (Proposition S)) (ts : List Str) : Prop :=
  (cs = [] ∧ ts = []) ∨ ∃ us, Sentence H V cs us ∧ ts = us ++ [andKeyword]

/-- the words read so far, for every state of the machine -/
def Read (H : HedgeFactory S) (V : Vocabulary) (s : Load S) (ts : List Str) : Prop :=
  match s.state with
  | .expectVariable => Before H V s.conclusions ts
  | .expectIs v => ∃ us x, Before H V s.conclusions us ∧ V.findOutput x = some v ∧ ts = us ++ [x]
  | .expectTerm v hs => ∃ us x ns, Before H V s.conclusions us ∧ V.findOutput x = some v ∧
      List.Forall₂ (fun n h => H n = some h) ns hs ∧ ts = us ++ x :: isKeyword :: ns
  | .expectAnd => Sentence H V s.conclusions ts

theorem step_read {H : HedgeFactory S} {V : Vocabulary} {s s' : Load S} {ts : List Str} {t : Str}
    (h : Read H V s ts) (hs : step H V s t = .ok s') : Read H V s' (ts ++ [t]) := by
  obtain ⟨cs, st⟩ := s
  cases st with
  | expectVariable =>
    simp only [step] at hs
    cases hx : V.findOutput t with
    | none => rw [hx] at hs; cases hs
    | some v =>
      rw [hx] at hs
      simp only [Except.ok.injEq] at hs
      subst hs
      exact ⟨ts, t, h, hx, rfl⟩
  | expectIs v =>
    simp only [step] at hs
    by_cases ht : t = isKeyword
    · rw [if_pos ht] at hs
      simp only [Except.ok.injEq] at hs
      subst hs ht
      obtain ⟨us, x, hb, hx, rfl⟩ := h
      exact ⟨us, x, [], hb, hx, .nil, by simp⟩
    · rw [if_neg ht] at hs; cases hs
  | expectTerm v hs' =>
    obtain ⟨us, x, ns, hb, hx, hn, rfl⟩ := h
    simp only [step] at hs
    cases hh : H t with
    | some g =>
      rw [hh] at hs
      simp only [Except.ok.injEq] at hs
      subst hs
      refine ⟨us, x, ns ++ [t], hb, hx, ?_, by simp⟩
      exact List.rel_append hn (.cons hh .nil)
    | none =>
      rw [hh] at hs
      simp only at hs
      cases hj : V.findTerm v t with
      | none => rw [hj] at hs; cases hs
      | some j =>
        rw [hj] at hs
        simp only [Except.ok.injEq] at hs
        subst hs
        have hw : Writes H V ⟨v, hs', some j⟩ (x :: isKeyword :: (ns ++ [t])) :=
          ⟨x, ns, t, j, rfl, hx, hn, hh, rfl, hj⟩
        simp only [Read]
        rcases hb with ⟨h1, rfl⟩ | ⟨us', hs1, rfl⟩
        · simp only at h1
          subst h1
          simpa using Sentence.one _ _ hw
        · have := Sentence.more cs _ us' _ hs1 hw
          simpa using this
  | expectAnd =>
    simp only [step] at hs
    by_cases ht : t = andKeyword
    · rw [if_pos ht] at hs
      simp only [Except.ok.injEq] at hs
      subst hs ht
      exact Or.inr ⟨ts, h, rfl⟩
    · rw [if_neg ht] at hs; cases hs

theorem steps_read {H : HedgeFactory S} {V : Vocabulary} (us : List Str) {s s' : Load S} {ts : List Str}
    (h : Read H V s ts) (hs : us.foldlM (step H V) s = .ok s') : Read H V s' (ts ++ us) := by
  induction us generalizing s ts with
  | nil =>
    have : s = s' := by
      have h' : (Except.ok s : Except Err (Load S)) = .ok s' := hs
      simpa using h'
    subst this; simpa using h
  | cons u us ih =>
    rw [List.foldlM_cons] at hs
    cases h1 : step H V s u with
    | error e => rw [h1] at hs; cases hs
    | ok s1 =>
      rw [h1] at hs
      have := ih (step_read h h1) hs
      simpa using this

/-- A consequent loads exactly when its words follow the grammar. -/
theorem load_ok_iff (H : HedgeFactory S) (V : Vocabulary) (text : Str) (ps : List (Proposition S)) :
    load H V text = .ok ps ↔ Sentence H V ps (Op.words text) := by
  unfold load
  by_cases ht : Op.trim text = []
  · have hb := (Op.trim_empty_iff text).1 ht
    rw [if_pos (by rw [ht]; rfl), Op.words_blanks text hb]
    exact ⟨fun h => (nomatch h), fun h => absurd rfl h.ne_nil.2⟩
  · rw [if_neg (by simpa using ht)]
    constructor
    · intro h
      cases hs : (Op.words text).foldlM (step H V) ⟨[], .expectVariable⟩ with
      | error e => rw [hs] at h; cases h
      | ok s =>
        rw [hs] at h
        simp only [bind, Except.bind] at h
        have hr := steps_read (ts := []) (Op.words text) (s := ⟨[], .expectVariable⟩) (Or.inl ⟨rfl, rfl⟩) hs
        obtain ⟨cs, st⟩ := s
        cases st with
        | expectAnd =>
          simp only [Except.ok.injEq] at h
          subst h
          simpa [Read] using hr
        | _ => simp at h
    · intro h
      rw [steps_sentence h]
      rfl

end Consequent

/-! ### Rules -/
namespace Rule

/-- words followed by a blank each -/
def unwords (ts : List Str) : Str := ts.flatMap fun t => t ++ cs! " "

theorem unwords_append (ts us : List Str) : unwords (ts ++ us) = unwords ts ++ unwords us := by simp [unwords]

theorem tokens_unwords (ts : List Str) : tokens (unwords ts) = ts.flatMap tokens := by
  induction ts with
  | nil => rfl
  | cons t ts ih =>
    have : unwords (t :: ts) = t ++ ' ' :: unwords ts := by simp [unwords]
    rw [this, tokens_blank, ih]; rfl

variable [ScalarText S]

section parts
variable (a c : Str) (w : S) (s : Parts S)

theorem run_end (ts : List Str) : ts.foldlM step (⟨.endState, a, c, w⟩ : Parts S) = .ok s ↔ ts = [] ∧ s = ⟨.endState, a, c, w⟩ := by
  cases ts with
  | nil =>
    change (Except.ok _ = _) ↔ _
    simp [eq_comm]
  | cons t ts => simp [List.foldlM_cons, step, bind, Except.bind]

theorem run_with (ts : List Str) (hs : s.state = .thenState ∨ s.state = .endState) :
    ts.foldlM step (⟨.withState, a, c, w⟩ : Parts S) = .ok s ↔
      ∃ t w', ts = [t] ∧ ScalarText.ofText t = some w' ∧ s = ⟨.endState, a, c, w'⟩ := by
  cases ts with
  | nil =>
    constructor
    · intro h
      have h' : (Except.ok (⟨.withState, a, c, w⟩ : Parts S) : Except Err _) = .ok s := h
      simp only [Except.ok.injEq] at h'
      subst h'
      rcases hs with hs | hs <;> cases hs
    · rintro ⟨t, w', h, _⟩; cases h
  | cons t ts =>
    rw [List.foldlM_cons]
    cases ht : (ScalarText.ofText t : Option S) with
    | none =>
      have : step (⟨.withState, a, c, w⟩ : Parts S) t = .error .conversion := by simp [step, ht]
      rw [this]
      constructor
      · intro h; cases h
      · rintro ⟨t', w', h, h', _⟩
        simp only [List.cons.injEq] at h
        rw [← h.1, ht] at h'; cases h'
    | some w' =>
      have : step (⟨.withState, a, c, w⟩ : Parts S) t = .ok ⟨.endState, a, c, w'⟩ := by simp [step, ht]
      rw [this]
      simp only [bind, Except.bind]
      rw [run_end]
      constructor
      · rintro ⟨rfl, rfl⟩; exact ⟨t, w', rfl, ht, rfl⟩
      · rintro ⟨t', w'', h, h', rfl⟩
        simp only [List.cons.injEq] at h
        obtain ⟨rfl, rfl⟩ := h
        rw [ht] at h'
        simp only [Option.some.injEq] at h'
        subst h'
        exact ⟨rfl, rfl⟩

/-- nothing, or the keyword `with` and the given weight -/
def Weight (rest : List Str) (w : S) : Prop :=
  (rest = [] ∧ w = lit 1) ∨ ∃ t, rest = [withKeyword, t] ∧ ScalarText.ofText t = some w

theorem run_then (ts : List Str) (hs : s.state = .thenState ∨ s.state = .endState) :
    ts.foldlM step (⟨.thenState, a, c, lit 1⟩ : Parts S) = .ok s ↔
      ∃ C rest, ts = C ++ rest ∧ withKeyword ∉ C ∧ Weight rest s.weight ∧ s.antecedent = a ∧
        s.consequent = c ++ unwords C ∧ s.state = (if rest = [] then .thenState else .endState) := by
  induction ts generalizing c with
  | nil =>
    constructor
    · intro h
      have h' : (Except.ok (⟨.thenState, a, c, lit 1⟩ : Parts S) : Except Err _) = .ok s := h
      simp only [Except.ok.injEq] at h'
      subst h'
      exact ⟨[], [], rfl, by simp, Or.inl ⟨rfl, rfl⟩, rfl, by simp [unwords], by simp⟩
    · rintro ⟨C, rest, h, _, hw, ha, hc, hst⟩
      have h' := List.append_eq_nil_iff.1 h.symm
      obtain ⟨rfl, rfl⟩ := h'
      rcases hw with ⟨_, hw⟩ | ⟨t, h, _⟩
      · obtain ⟨st, a', c', w'⟩ := s
        simp only [if_true] at ha hc hst hw
        subst ha hw hst
        simp only [unwords, List.flatMap_nil, List.append_nil] at hc
        subst hc; rfl
      · cases h
  | cons t ts ih =>
    rw [List.foldlM_cons]
    by_cases ht : t = withKeyword
    · subst ht
      have : step (⟨.thenState, a, c, lit 1⟩ : Parts S) withKeyword = .ok ⟨.withState, a, c, lit 1⟩ := by simp [step]
      rw [this]
      simp only [bind, Except.bind]
      rw [run_with a c (lit 1) s ts hs]
      constructor
      · rintro ⟨t', w', rfl, hw, rfl⟩
        exact ⟨[], [withKeyword, t'], rfl, by simp, Or.inr ⟨t', rfl, hw⟩, rfl, by simp [unwords], by simp⟩
      · rintro ⟨C, rest, h, hn, hw, ha, hc, hst⟩
        cases C with
        | cons c' C =>
          simp only [List.cons_append, List.cons.injEq] at h
          exact absurd (by rw [h.1]; simp) hn
        | nil =>
          simp only [List.nil_append] at h
          subst h
          rcases hw with ⟨h, _⟩ | ⟨t', h, hw⟩
          · cases h
          · simp only [List.cons.injEq, true_and] at h
            subst h
            refine ⟨t', s.weight, rfl, hw, ?_⟩
            obtain ⟨st, a', c', w'⟩ := s
            simp only [unwords, List.flatMap_nil, List.append_nil] at ha hc hst
            subst ha hc
            simpa using hst
    · have : step (⟨.thenState, a, c, lit 1⟩ : Parts S) t = .ok ⟨.thenState, a, c ++ t ++ [' '], lit 1⟩ := by
        simp [step, ht]
      rw [this]
      simp only [bind, Except.bind]
      rw [ih]
      constructor
      · rintro ⟨C, rest, rfl, hn, hw, ha, hc, hst⟩
        refine ⟨t :: C, rest, rfl, ?_, hw, ha, ?_, hst⟩
        · simp [hn, Ne.symm ht]
        · rw [hc]; simp [unwords]
      · rintro ⟨C, rest, h, hn, hw, ha, hc, hst⟩
        cases C with
        | nil =>
          simp only [List.nil_append] at h
          subst h
          rcases hw with ⟨h, _⟩ | ⟨t', h, _⟩
          · cases h
          · simp only [List.cons.injEq] at h
            exact absurd h.1 ht
        | cons c' C =>
          simp only [List.cons_append, List.cons.injEq] at h
          obtain ⟨rfl, rfl⟩ := h
          refine ⟨C, rest, rfl, fun h => hn (by simp [h]), hw, ha, ?_, hst⟩
          rw [hc]; simp [unwords]

theorem run_if (ts : List Str) (hs : s.state = .thenState ∨ s.state = .endState) :
    ts.foldlM step (⟨.ifState, a, [], lit 1⟩ : Parts S) = .ok s ↔
      ∃ A C rest, ts = A ++ thenKeyword :: (C ++ rest) ∧ thenKeyword ∉ A ∧ withKeyword ∉ C ∧ Weight rest s.weight ∧
        s.antecedent = a ++ unwords A ∧ s.consequent = unwords C ∧
        s.state = (if rest = [] then .thenState else .endState) := by
  induction ts generalizing a with
  | nil =>
    constructor
    · intro h
      have h' : (Except.ok (⟨.ifState, a, [], lit 1⟩ : Parts S) : Except Err _) = .ok s := h
      simp only [Except.ok.injEq] at h'
      subst h'
      rcases hs with hs | hs <;> cases hs
    · rintro ⟨A, C, rest, h, _⟩
      simp at h
  | cons t ts ih =>
    rw [List.foldlM_cons]
    by_cases ht : t = thenKeyword
    · subst ht
      have : step (⟨.ifState, a, [], lit 1⟩ : Parts S) thenKeyword = .ok ⟨.thenState, a, [], lit 1⟩ := by simp [step]
      rw [this]
      simp only [bind, Except.bind]
      rw [run_then a [] s ts hs]
      constructor
      · rintro ⟨C, rest, rfl, hn, hw, ha, hc, hst⟩
        exact ⟨[], C, rest, rfl, by simp, hn, hw, by simpa [unwords] using ha, by simpa using hc, hst⟩
      · rintro ⟨A, C, rest, h, hA, hn, hw, ha, hc, hst⟩
        cases A with
        | nil =>
          simp only [List.nil_append, List.cons.injEq, true_and] at h
          exact ⟨C, rest, h, hn, hw, by simpa [unwords] using ha, by simpa using hc, hst⟩
        | cons x A =>
          simp only [List.cons_append, List.cons.injEq] at h
          exact absurd (by rw [h.1]; simp) hA
    · have : step (⟨.ifState, a, [], lit 1⟩ : Parts S) t = .ok ⟨.ifState, a ++ t ++ [' '], [], lit 1⟩ := by
        simp [step, ht]
      rw [this]
      simp only [bind, Except.bind]
      rw [ih]
      constructor
      · rintro ⟨A, C, rest, rfl, hA, hn, hw, ha, hc, hst⟩
        refine ⟨t :: A, C, rest, rfl, ?_, hn, hw, ?_, hc, hst⟩
        · simp [hA, Ne.symm ht]
        · rw [ha]; simp [unwords]
      · rintro ⟨A, C, rest, h, hA, hn, hw, ha, hc, hst⟩
        cases A with
        | nil =>
          simp only [List.nil_append, List.cons.injEq] at h
          exact absurd h.1 ht
        | cons x A =>
          simp only [List.cons_append, List.cons.injEq] at h
          obtain ⟨rfl, rfl⟩ := h
          refine ⟨A, C, rest, rfl, fun h => hA (by simp [h]), hn, hw, ?_, hc, hst⟩
          rw [ha]; simp [unwords]

end parts

theorem parts_ok_iff (text : Str) (s : Parts S) :
    parts text = .ok s ↔
      ∃ A C rest, Op.words (uncomment text) = ifKeyword :: A ++ thenKeyword :: C ++ rest ∧
        thenKeyword ∉ A ∧ withKeyword ∉ C ∧ Weight rest s.weight ∧ s.antecedent = unwords A ∧
        s.consequent = unwords C ∧ s.state = (if rest = [] then .thenState else .endState) := by
  have hst : parts text = .ok s ↔ (Op.words (uncomment text)).foldlM step (⟨.none, [], [], lit 1⟩ : Parts S) = .ok s ∧
      (s.state = .thenState ∨ s.state = .endState) := by
    unfold parts
    cases (Op.words (uncomment text)).foldlM step (⟨.none, [], [], lit 1⟩ : Parts S) with
    | error e => simp [bind, Except.bind]
    | ok s' =>
      simp only [bind, Except.bind, Except.ok.injEq]
      obtain ⟨st, a, c, w⟩ := s'
      constructor
      · intro h
        cases st <;> simp at h <;> subst h <;> simp
      · rintro ⟨rfl, h⟩
        cases st <;> simp_all
  rw [hst]
  cases hw : Op.words (uncomment text) with
  | nil =>
    constructor
    · rintro ⟨h, hs⟩
      have h' : (Except.ok (⟨.none, [], [], lit 1⟩ : Parts S) : Except Err _) = .ok s := h
      simp only [Except.ok.injEq] at h'
      subst h'
      rcases hs with hs | hs <;> cases hs
    · rintro ⟨A, C, rest, h, _⟩; simp at h
  | cons t ts =>
    rw [List.foldlM_cons]
    by_cases ht : t = ifKeyword
    · subst ht
      have : step (⟨.none, [], [], lit 1⟩ : Parts S) ifKeyword = .ok ⟨.ifState, [], [], lit 1⟩ := by simp [step]
      rw [this]
      simp only [bind, Except.bind]
      constructor
      · rintro ⟨h, hs⟩
        obtain ⟨A, C, rest, rfl, h'⟩ := (run_if [] s ts hs).1 h
        exact ⟨A, C, rest, by simp, by simpa using h'⟩
      · rintro ⟨A, C, rest, h, h'⟩
        have hs : s.state = .thenState ∨ s.state = .endState := by
          rw [h'.2.2.2.2.2]; split <;> simp
        refine ⟨(run_if [] s ts hs).2 ⟨A, C, rest, ?_, by simpa using h'⟩, hs⟩
        simpa using h
    · have : step (⟨.none, [], [], lit 1⟩ : Parts S) t = .error .syntaxError := by simp [step, ht]
      rw [this]
      constructor
      · rintro ⟨h, _⟩; cases h
      · rintro ⟨A, C, rest, h, _⟩
        simp only [List.cons_append, List.cons.injEq] at h
        exact absurd h.1 ht

/-- removing a comment -/
theorem uncomment_spec (text : Str) : '#' ∉ uncomment text ∧
    (uncomment text = text ∨ ∃ rest, text = uncomment text ++ '#' :: rest) := by
  unfold uncomment
  constructor
  · intro h
    have := List.all_takeWhile (l := text) (p := fun c => c != '#')
    rw [List.all_eq_true] at this
    simpa using this _ h
  · induction text with
    | nil => simp
    | cons c cs ih =>
      by_cases hc : c = '#'
      · subst hc; right; exact ⟨cs, by simp⟩
      · rw [List.takeWhile_cons_of_pos (by simpa using hc)]
        rcases ih with h | ⟨rest, h⟩
        · left; rw [h]
        · right; exact ⟨rest, by rw [List.cons_append, ← h]⟩

/-- what loading means for a rule: the words of the text without its comment are `if`, the words of
the antecedent, `then`, the words of the consequent, and possibly `with` and a number -/
structure Loads (G : Registry S) (V : Vocabulary) (text : Str) (e : Expr S) (ps : List (Proposition S)) (w : S)
    (A C : List Str) : Prop where
  words : ∃ rest, Op.words (uncomment text) = ifKeyword :: A ++ thenKeyword :: C ++ rest ∧ Weight rest w
  noThen : thenKeyword ∉ A
  noWith : withKeyword ∉ C
  antecedent : ∃ q, shunt G.functions (A.flatMap tokens) = .ok q ∧ Antecedent.Serial G.hedges V e q
  consequent : Consequent.Sentence G.hedges V ps C

/-- **C29.**  A rule loads exactly when its text follows the grammar, and then it is enabled, with the
given weight or 1, inactive, and with the parsed antecedent and consequent. -/
theorem load_iff (G : Registry S) (V : Vocabulary) (r r' : Rule S) (text : Str) :
    r.load G V text = (r', none) ↔ ∃ e ps w A C, Loads G V text e ps w A C ∧
      r' = ⟨true, text, w, lit 0, false, unwords A, some e, unwords C, ps⟩ := by
  have hC : ∀ C : List Str, (∃ p q : List Str, Op.words (uncomment text) = p ++ C ++ q) → Op.words (unwords C) = C := by
    rintro C ⟨p, q, h⟩
    apply Op.words_spaced
    intro t ht
    exact Op.words_mem (uncomment text) t (by rw [h]; simp [ht])
  constructor
  · intro h
    unfold load at h
    simp only at h
    cases hp : parts (S := S) text with
    | error e => rw [hp] at h; simp at h
    | ok s =>
      rw [hp] at h
      obtain ⟨A, C, rest, hw, hA, hn, hwt, ha, hc, hst⟩ := (parts_ok_iff text s).1 hp
      simp only at h
      cases he : Antecedent.load G.functions G.hedges V s.antecedent with
      | error e => rw [he] at h; simp at h
      | ok e =>
        rw [he] at h
        simp only at h
        cases hq : Consequent.load G.hedges V s.consequent with
        | error e => rw [hq] at h; simp at h
        | ok ps =>
          rw [hq] at h
          simp only [Prod.mk.injEq, and_true] at h
          rw [ha, Antecedent.load_ok_iff, tokens_unwords] at he
          rw [hc, Consequent.load_ok_iff, hC C ⟨ifKeyword :: A ++ [thenKeyword], rest, by rw [hw]; simp⟩] at hq
          refine ⟨e, ps, s.weight, A, C, ⟨⟨rest, hw, hwt⟩, hA, hn, he, hq⟩, ?_⟩
          rw [← h, ha, hc]; rfl
  · rintro ⟨e, ps, w, A, C, ⟨⟨rest, hw, hwt⟩, hA, hn, he, hq⟩, rfl⟩
    have hp := (parts_ok_iff text ⟨if rest = [] then .thenState else .endState, unwords A, unwords C, w⟩).2
      ⟨A, C, rest, hw, hA, hn, hwt, rfl, rfl, rfl⟩
    rw [← tokens_unwords, ← Antecedent.load_ok_iff] at he
    have hq' : Consequent.load G.hedges V (unwords C) = .ok ps := by
      rw [Consequent.load_ok_iff, hC C ⟨ifKeyword :: A ++ [thenKeyword], rest, by rw [hw]; simp⟩]; exact hq
    unfold load
    simp only [hp, he, hq']
    rfl

/-- **C29.**  A loaded rule is loaded; a failed load raises and leaves the rule unloaded and inactive,
with the given text, enabled, and with its old weight. -/
theorem load_outcome (G : Registry S) (V : Vocabulary) (r : Rule S) (text : Str) :
    ((r.load G V text).2 = none ∧ (r.load G V text).1.isLoaded = true) ∨
    ((∃ err, (r.load G V text).2 = some err) ∧ (r.load G V text).1.isLoaded = false ∧
      (r.load G V text).1.antecedent = none ∧ (r.load G V text).1.conclusions = [] ∧
      (r.load G V text).1.weight = r.weight ∧ (r.load G V text).1.degree = lit 0 ∧
      (r.load G V text).1.triggered = false ∧ (r.load G V text).1.text = text) := by
  cases h : (r.load G V text).2 with
  | none =>
    left
    refine ⟨rfl, ?_⟩
    obtain ⟨e, ps, w, A, C, hl, hr⟩ := (load_iff G V r (r.load G V text).1 text).1 (by rw [← h])
    rw [hr]
    have := hl.consequent.ne_nil.1
    cases ps with
    | nil => simp at this
    | cons => rfl
  | some err =>
    right
    refine ⟨⟨err, rfl⟩, ?_⟩
    unfold load at h ⊢
    simp only at h ⊢
    split
    · simp [unload, isLoaded, deactivate]
    · split
      · simp [unload, isLoaded, deactivate]
      · split
        · simp [unload, isLoaded, deactivate]
        · simp_all

/-- the tree, the conclusions, and the weight of a loaded rule are determined by the text -/
theorem load_text_only (G : Registry S) (V : Vocabulary) (r q : Rule S) (text : Str) (h : (r.load G V text).2 = none) :
    q.load G V text = r.load G V text := by
  have h' : r.load G V text = ((r.load G V text).1, none) := by rw [← h]
  rw [h']
  exact (load_iff G V q _ text).2 ((load_iff G V r _ text).1 h')

/-- **C29 (texts that follow the intended grammar).**  A text made of a well-formed infix antecedent, a
consequent, and an optional weight loads. -/
theorem load_wellFormed (G : Registry S) (hF : Coherent G.functions) (hc : Antecedent.Connectives G.functions)
    (V : Vocabulary) (hva : V.find andKeyword = none) (hvo : V.find orKeyword = none) (r : Rule S) (text : Str)
    (e : Expr S) (ps : List (Proposition S)) (w : S) (A C : List Str)
    (hw : ∃ rest, Op.words (uncomment text) = ifKeyword :: A ++ thenKeyword :: C ++ rest ∧ Weight rest w)
    (hA : thenKeyword ∉ A) (hC : withKeyword ∉ C) (n : Nat)
    (he : Antecedent.Infix G.functions G.hedges V n e (A.flatMap tokens))
    (hp : Consequent.Sentence G.hedges V ps C) :
    r.load G V text = (⟨true, text, w, lit 0, false, unwords A, some e, unwords C, ps⟩, none) := by
  rw [load_iff]
  refine ⟨e, ps, w, A, C, ⟨hw, hA, hC, ?_, hp⟩, rfl⟩
  rw [← tokens_unwords, ← Antecedent.load_ok_iff]
  exact Antecedent.load_infix_partial G.functions hF hc G.hedges V hva hvo n e _ he _ (tokens_unwords A)

end Rule

/-! ### Rule blocks -/

variable [ScalarText S]

theorem Rule.load_unload (G : Registry S) (V : Vocabulary) (r : Rule S) (text : Str) :
    r.unload.load G V text = r.load G V text := rfl

/-- **C30.**  Loading a rule block loads every rule on its own, from its text. -/
theorem loadRules_eq (G : Registry S) (V : Vocabulary) (rs : List (Rule S)) :
    loadRules G V rs = (rs.map fun r => (r.load G V r.text).1, rs.filterMap fun r => (r.load G V r.text).2) := by
  induction rs with
  | nil => rfl
  | cons r rs ih =>
    have : ((if r.isLoaded then r.unload else r).reload G V) = r.load G V r.text := by
      split
      · exact Rule.load_unload G V r r.text
      · rfl
    simp only [loadRules, this, ih, List.map_cons, List.filterMap_cons]
    cases (r.load G V r.text).2 <;> simp

/-- **C30.**  The outcome for the rule block: as many rules, in the same order and with the same texts,
of which exactly the loadable ones are loaded; an exception is raised iff some rule is not loadable, and it
lists as many failures as there are such rules. -/
theorem loadRules_spec (G : Registry S) (V : Vocabulary) (rs : List (Rule S)) :
    (loadRules G V rs).1.length = rs.length ∧
    (∀ (i : Nat) r, rs[i]? = some r → ∃ r', (loadRules G V rs).1[i]? = some r' ∧ r'.text = r.text ∧
      (r'.isLoaded = true ↔ ∃ e ps w A C, Rule.Loads G V r.text e ps w A C)) ∧
    ((loadRules G V rs).2 = [] ↔ ∀ r ∈ rs, ∃ e ps w A C, Rule.Loads G V r.text e ps w A C) ∧
    (loadRules G V rs).2.length = rs.countP (fun r => (r.load G V r.text).2.isSome) := by
  have key : ∀ r : Rule S, (r.load G V r.text).2 = none ↔ ∃ e ps w A C, Rule.Loads G V r.text e ps w A C := by
    intro r
    constructor
    · intro h
      obtain ⟨e, ps, w, A, C, hl, _⟩ := (Rule.load_iff G V r (r.load G V r.text).1 r.text).1 (by rw [← h])
      exact ⟨e, ps, w, A, C, hl⟩
    · rintro ⟨e, ps, w, A, C, hl⟩
      rw [(Rule.load_iff G V r _ r.text).2 ⟨e, ps, w, A, C, hl, rfl⟩]
  rw [loadRules_eq]
  refine ⟨by simp, ?_, ?_, ?_⟩
  · intro i r hr
    refine ⟨(r.load G V r.text).1, by simp [hr], ?_, ?_⟩
    · rcases Rule.load_outcome G V r r.text with ⟨h, _⟩ | ⟨_, h⟩
      · obtain ⟨e, ps, w, A, C, _, h'⟩ := (Rule.load_iff G V r (r.load G V r.text).1 r.text).1 (by rw [← h])
        rw [h']
      · exact h.2.2.2.2.2.2
    · rw [← key]
      rcases Rule.load_outcome G V r r.text with ⟨h, h'⟩ | ⟨⟨err, h⟩, h', _⟩
      · simp [h, h']
      · simp [h, h']
  · simp only [List.filterMap_eq_nil_iff, ← key]
  · simp only
    induction rs with
    | nil => rfl
    | cons r rs ih =>
      rw [List.filterMap_cons, List.countP_cons]
      cases h : (r.load G V r.text).2 <;> simp [ih]

/-- **C30 (order).**  Permuting the rules permutes the outcome. -/
theorem loadRules_perm (G : Registry S) (V : Vocabulary) (rs qs : List (Rule S)) (h : rs.Perm qs) :
    (loadRules G V rs).1.Perm (loadRules G V qs).1 ∧ (loadRules G V rs).2.Perm (loadRules G V qs).2 := by
  rw [loadRules_eq, loadRules_eq]
  exact ⟨h.map _, h.filterMap _⟩

section examples
open Ext Antecedent

/-- the text, weight and parsed antecedent of a rule -/
def demoRule (text : Str) : Option (Ext ℚ × Option (List Str) × Nat) :=
  match (Rule.new (cs! "")).load Registry.default demo text with
  | (_, some _) => none
  | (r, none) => some (r.weight, r.antecedent.map (Expr.tokens demo 0), r.conclusions.length)

example : demoRule (cs! "if a is low then o is very high and o is low with 0.5 # half")
    = some (fin (1/2), some [cs! "a", cs! "is", cs! "low"], 2) := by decide +kernel
example : demoRule (cs! "if a is low then o is high") = some (fin 1, some [cs! "a", cs! "is", cs! "low"], 1) := by
  decide +kernel
/-- texts that do not load -/
def demoBad : List Str :=
  [cs! "", cs! "if a is low", cs! "a is low then o is high", cs! "if a is low then o is high with",
   cs! "if a is low then o is high with x", cs! "if a is low then o is high with 1 2", cs! "if then o is high",
   cs! "if a is low then", cs! "if a is low then a is low", cs! "if a is low then o is high or o is low",
   cs! "# if a is low then o is high"]
example : ∀ t ∈ demoBad, demoRule t = none := by decide +kernel

/-- Read strictly, C29 does not hold: texts whose antecedent is not well formed load too. -/
theorem Rule.load_scrambled_violated :
    demoRule (cs! "if and a is low b is high then o is low") = demoRule (cs! "if a is low and b is high then o is low")
    ∧ (demoRule (cs! "if and a is low b is high then o is low")).isSome = true := by
  decide +kernel

/-- a block with a rule that does not load between two that do -/
def demoBlock : List (Rule (Ext ℚ)) :=
  [Rule.new (cs! "if a is low then o is high"), Rule.new (cs! "if a is cold then o is high"),
   Rule.new (cs! "if a is high then o is low")]
example : (loadRules Registry.default demo demoBlock).1.map Rule.isLoaded = [true, false, true]
    ∧ (loadRules Registry.default demo demoBlock).2.length = 1 := by
  decide +kernel

end examples
end FL
