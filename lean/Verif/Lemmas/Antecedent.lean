/-
The grammar of antecedents and the stack machine of `Antecedent::load`.
-/
import Verif.Model.Rule
import Verif.Lemmas.Build

namespace FL
open Scalar Formula
variable {S : Type}

namespace Antecedent

/-- `names` are the names of `hedges`, none of which is `any` -/
def Plain (H : HedgeFactory S) (names : List Str) (hedges : List (Hedge S)) : Prop :=
  List.Forall₂ (fun n h => H n = some h ∧ h.isAny = false) names hedges

/-- The token sequences that write a proposition: `variable is hedge ... hedge term` or
`variable is hedge ... hedge any`, names being resolved to the first match, inputs before outputs,
hedges before terms. -/
inductive Writes (H : HedgeFactory S) (V : Vocabulary) : Proposition S → List Str → Prop
  | term (x : Str) (v : VarRef) (names : List Str) (hedges : List (Hedge S)) (t : Str) (j : Nat)
      (hx : V.find x = some v) (hh : Plain H names hedges) (ht : H t = none) (hj : V.findTerm v t = some j) :
      Writes H V ⟨v, hedges, some j⟩ (x :: isKeyword :: names ++ [t])
  | any (x : Str) (v : VarRef) (names : List Str) (hedges : List (Hedge S)) (n : Str) (a : Hedge S)
      (hx : V.find x = some v) (hh : Plain H names hedges) (hn : H n = some a) (ha : a.isAny = true) :
      Writes H V ⟨v, hedges ++ [a], none⟩ (x :: isKeyword :: names ++ [n])

/-- Postfix serialisations of a tree. -/
inductive Serial (H : HedgeFactory S) (V : Vocabulary) : Expr S → List Str → Prop
  | prop (p : Proposition S) (ts : List Str) (h : Writes H V p ts) : Serial H V (.prop p) ts
  | conj (l r : Expr S) (s t : List Str) (hl : Serial H V l s) (hr : Serial H V r t)
      (h : V.find andKeyword = none) : Serial H V (.conj l r) (s ++ t ++ [andKeyword])
  | disj (l r : Expr S) (s t : List Str) (hl : Serial H V l s) (hr : Serial H V r t)
      (h : V.find orKeyword = none) : Serial H V (.disj l r) (s ++ t ++ [orKeyword])

theorem Writes.ne_nil {H : HedgeFactory S} {V : Vocabulary} {p : Proposition S} {ts : List Str} (h : Writes H V p ts) :
    ts ≠ [] := by cases h <;> simp

/-! ### The machine reads serialisations -/

theorem steps_plain (H : HedgeFactory S) (V : Vocabulary) (st : List (Expr S)) (v : VarRef) {names : List Str}
    {hs : List (Hedge S)} (hh : Plain H names hs) (pre : List (Hedge S)) (rest : List Str) :
    (names ++ rest).foldlM (step H V) ⟨st, .expectTerm v pre⟩
      = rest.foldlM (step H V) ⟨st, .expectTerm v (pre ++ hs)⟩ := by
  unfold Plain at hh
  induction hh generalizing pre with
  | nil => simp
  | @cons n hd _ _ h _ ih =>
    rw [List.cons_append, foldlM_cons_ok (step H V) _ ⟨st, .expectTerm v (pre ++ [hd])⟩ _ _ (by simp [step, h.1, h.2]), ih]
    simp

theorem steps_writes {H : HedgeFactory S} {V : Vocabulary} {p : Proposition S} {ts : List Str} (h : Writes H V p ts)
    (st : List (Expr S)) : ts.foldlM (step H V) ⟨st, .ready⟩ = .ok ⟨.prop p :: st, .ready⟩ := by
  cases h with
  | term x v names hedges t j hx hh ht hj =>
    rw [List.cons_append, List.cons_append, foldlM_cons_ok _ _ ⟨st, .expectIs v⟩ _ _ (by simp [step, hx]),
      foldlM_cons_ok _ _ ⟨st, .expectTerm v []⟩ _ _ (by simp [step]), steps_plain H V st v hh,
      foldlM_cons_ok _ _ ⟨.prop ⟨v, hedges, some j⟩ :: st, .ready⟩ _ _ (by simp [step, ht, hj])]
    rfl
  | any x v names hedges n a hx hh hn ha =>
    rw [List.cons_append, List.cons_append, foldlM_cons_ok _ _ ⟨st, .expectIs v⟩ _ _ (by simp [step, hx]),
      foldlM_cons_ok _ _ ⟨st, .expectTerm v []⟩ _ _ (by simp [step]), steps_plain H V st v hh,
      foldlM_cons_ok _ _ ⟨.prop ⟨v, hedges ++ [a], none⟩ :: st, .ready⟩ _ _ (by simp [step, hn, ha])]
    rfl

theorem steps_serial {H : HedgeFactory S} {V : Vocabulary} {e : Expr S} {ts : List Str} (h : Serial H V e ts)
    (st : List (Expr S)) : ts.foldlM (step H V) ⟨st, .ready⟩ = .ok ⟨e :: st, .ready⟩ := by
  induction h generalizing st with
  | prop p ts h => exact steps_writes h st
  | conj l r s t _ _ h ihl ihr =>
    rw [List.append_assoc, foldlM_append_ok _ _ _ _ _ (ihl st), foldlM_append_ok _ _ _ _ _ (ihr _),
      foldlM_cons_ok _ _ ⟨.conj l r :: st, .ready⟩ _ _ (by simp [step, h])]
    rfl
  | disj l r s t _ _ h ihl ihr =>
    have : orKeyword ≠ andKeyword := by decide
    rw [List.append_assoc, foldlM_append_ok _ _ _ _ _ (ihl st), foldlM_append_ok _ _ _ _ _ (ihr _),
      foldlM_cons_ok _ _ ⟨.disj l r :: st, .ready⟩ _ _ (by simp [step, h, this])]
    rfl

theorem build_serial {H : HedgeFactory S} {V : Vocabulary} {e : Expr S} {ts : List Str} (h : Serial H V e ts) :
    build H V ts = .ok e := by
  unfold build
  rw [steps_serial h []]
  rfl

/-! ### Only serialisations are read -/

/-- the tokens of an unfinished proposition -/
def Pending (H : HedgeFactory S) (V : Vocabulary) : State S → List Str → Prop
  | .ready, ts => ts = []
  | .expectIs v, ts => ∃ x, V.find x = some v ∧ ts = [x]
  | .expectTerm v hs, ts => ∃ x names, V.find x = some v ∧ Plain H names hs ∧ ts = x :: isKeyword :: names

/-- the tokens read so far serialise the trees on the stack and the unfinished proposition -/
def Read (H : HedgeFactory S) (V : Vocabulary) (ts : List Str) (s : Load S) : Prop :=
  ∃ (qs : List (List Str)) (pending : List Str),
    List.Forall₂ (Serial H V) s.stack qs ∧ Pending H V s.state pending ∧ ts = qs.reverse.flatten ++ pending

theorem step_read (H : HedgeFactory S) (V : Vocabulary) (ts : List Str) (s s' : Load S) (t : Str)
    (hr : Read H V ts s) (h : step H V s t = .ok s') : Read H V (ts ++ [t]) s' := by
  obtain ⟨qs, pending, hq, hp, rfl⟩ := hr
  obtain ⟨stack, state⟩ := s
  cases state with
  | ready =>
    simp only [Pending] at hp
    subst hp
    simp only [step] at h
    cases hv : V.find t with
    | some v =>
      rw [hv] at h
      simp only [Except.ok.injEq] at h
      subst h
      exact ⟨qs, [t], hq, ⟨t, hv, rfl⟩, by simp⟩
    | none =>
      rw [hv] at h
      simp only at h
      split at h
      · rename_i ht
        subst ht
        split at h
        · rename_i r l rest
          simp only [Except.ok.injEq] at h
          subst h
          cases hq with
          | cons h1 hq =>
            cases hq with
            | cons h2 hq =>
              rename_i q1 q2 qs
              refine ⟨(q2 ++ q1 ++ [andKeyword]) :: qs, [], .cons (.conj l r q2 q1 h2 h1 hv) hq, rfl, by simp⟩
        · cases h
      · split at h
        · rename_i ht
          subst ht
          split at h
          · rename_i r l rest
            simp only [Except.ok.injEq] at h
            subst h
            cases hq with
            | cons h1 hq =>
              cases hq with
              | cons h2 hq =>
                rename_i q1 q2 qs
                refine ⟨(q2 ++ q1 ++ [orKeyword]) :: qs, [], .cons (.disj l r q2 q1 h2 h1 hv) hq, rfl, by simp⟩
          · cases h
        · cases h
  | expectIs v =>
    obtain ⟨x, hx, rfl⟩ := hp
    simp only [step] at h
    split at h
    · rename_i ht
      subst ht
      simp only [Except.ok.injEq] at h
      subst h
      exact ⟨qs, [x, isKeyword], hq, ⟨x, [], hx, .nil, rfl⟩, by simp⟩
    · cases h
  | expectTerm v hs =>
    obtain ⟨x, names, hx, hn, rfl⟩ := hp
    simp only [step] at h
    cases ht : H t with
    | some hd =>
      rw [ht] at h
      simp only at h
      split at h
      · rename_i ha
        simp only [Except.ok.injEq] at h
        subst h
        exact ⟨(x :: isKeyword :: names ++ [t]) :: qs, [], .cons (.prop _ _ (.any x v names hs t hd hx hn ht ha)) hq, rfl,
          by simp⟩
      · rename_i ha
        simp only [Except.ok.injEq] at h
        subst h
        refine ⟨qs, x :: isKeyword :: (names ++ [t]), hq, ⟨x, names ++ [t], hx, ?_, rfl⟩, by simp⟩
        exact List.rel_append (R := fun n h => H n = some h ∧ h.isAny = false) hn
          (.cons ⟨ht, by simpa using ha⟩ .nil)
    | none =>
      rw [ht] at h
      simp only at h
      cases hj : V.findTerm v t with
      | some j =>
        rw [hj] at h
        simp only [Except.ok.injEq] at h
        subst h
        exact ⟨(x :: isKeyword :: names ++ [t]) :: qs, [], .cons (.prop _ _ (.term x v names hs t j hx hn ht hj)) hq, rfl,
          by simp⟩
      | none => rw [hj] at h; cases h

theorem steps_read (H : HedgeFactory S) (V : Vocabulary) (us : List Str) :
    ∀ (ts : List Str) (s s' : Load S), Read H V ts s → us.foldlM (step H V) s = .ok s' → Read H V (ts ++ us) s' := by
  induction us with
  | nil =>
    intro ts s s' hr h
    simp only [List.foldlM_nil, pure, Except.pure, Except.ok.injEq] at h
    subst h
    simpa using hr
  | cons u us ih =>
    intro ts s s' hr h
    cases hu : step H V s u with
    | error e => rw [List.foldlM_cons, hu] at h; cases h
    | ok s1 =>
      rw [foldlM_cons_ok _ _ _ _ _ hu] at h
      have := ih (ts ++ [u]) s1 s' (step_read H V ts s s1 u hr hu) h
      simpa using this

/-- The machine accepts exactly the serialisations. -/
theorem build_ok_iff (H : HedgeFactory S) (V : Vocabulary) (ts : List Str) (e : Expr S) :
    build H V ts = .ok e ↔ Serial H V e ts := by
  refine ⟨fun h => ?_, build_serial⟩
  unfold build at h
  cases hs : ts.foldlM (step H V) ⟨[], .ready⟩ with
  | error e => rw [hs] at h; cases h
  | ok s =>
    rw [hs] at h
    obtain ⟨qs, pending, hq, hp, ht⟩ := steps_read H V ts [] ⟨[], .ready⟩ s ⟨[], [], .nil, rfl, rfl⟩ hs
    obtain ⟨stack, state⟩ := s
    simp only [bind, Except.bind] at h
    cases state with
    | ready =>
      simp only [Pending] at hp
      subst hp
      match stack, hq, h with
      | [e'], hq, h =>
        simp only [Except.ok.injEq] at h
        subst h
        cases hq with
        | cons h1 hq2 =>
          obtain rfl := List.forall₂_nil_left_iff.1 hq2
          simp only [List.nil_append, List.reverse_cons, List.reverse_nil, List.flatten_cons, List.flatten_nil,
            List.append_nil] at ht
          rw [ht]
          exact h1
    | expectIs v => cases h
    | expectTerm v hs => cases h

theorem words_nil_iff (s : Str) : Op.words s = [] ↔ s.all isSpace = true := by
  constructor
  · intro h
    induction s with
    | nil => rfl
    | cons c s ih =>
      rw [List.all_cons, Bool.and_eq_true]
      have hc : isSpace c = true := by
        by_contra hc
        have hc : isSpace c = false := by simpa using hc
        have : ∀ (s acc : Str), acc ≠ [] → Op.wordsAux acc s ≠ [] := by
          intro s
          induction s with
          | nil => intro acc ha; simp [Op.wordsAux, ha]
          | cons d s ih =>
            intro acc ha
            simp only [Op.wordsAux]
            split
            · rw [if_neg (by simpa using ha)]; simp
            · exact ih _ (by simp)
        exact this s [c] (by simp) (by simpa [Op.words, Op.wordsAux, hc] using h)
      refine ⟨hc, ih ?_⟩
      have := Op.words_blank [] s c hc
      simp only [List.nil_append] at this
      rw [this] at h
      simpa [Op.words, Op.wordsAux] using h
  · exact Op.words_blanks s

theorem tokens_blanks (s : Str) (h : s.all isSpace = true) : tokens s = [] := by
  unfold tokens
  apply Op.words_blanks
  rw [List.all_eq_true] at h ⊢
  intro c hc
  rw [List.mem_flatMap] at hc
  obtain ⟨a, ha, hc⟩ := hc
  have hsp := h a ha
  have hns : a ∉ symbolChars := by
    intro hm
    have : ∀ c ∈ symbolChars, isSpace c = false := by decide
    rw [this a hm] at hsp; simp at hsp
  simp only [pad, if_neg hns, List.mem_singleton] at hc
  rw [hc]; exact hsp

/-- An antecedent loads exactly when the postfix form of its tokens serialises the tree. -/
theorem load_ok_iff (F : ElementFactory S) (H : HedgeFactory S) (V : Vocabulary) (text : Str) (e : Expr S) :
    load F H V text = .ok e ↔ ∃ q, shunt F (tokens text) = .ok q ∧ Serial H V e q := by
  have key : (do let p ← toPostfix F text; build H V (Op.words p)) = (do let q ← shunt F (tokens text); build H V q) := by
    rw [← toPostfix_tokens]
    cases toPostfix F text <;> rfl
  unfold load
  by_cases ht : Op.trim text = []
  · have hb := (Op.trim_empty_iff text).1 ht
    rw [if_pos (by rw [ht]; rfl), tokens_blanks text hb]
    refine ⟨fun h => (nomatch h), ?_⟩
    rintro ⟨q, hq, hs⟩
    have : q = [] := by
      have : shunt F [] = .ok [] := rfl
      rw [this] at hq; simpa using hq.symm
    subst this
    rw [← build_ok_iff] at hs
    cases hs
  · rw [if_neg (by simpa using ht), key]
    cases hq : shunt F (tokens text) with
    | error e => simp [bind, Except.bind]
    | ok q => simp [bind, Except.bind, build_ok_iff]

/-- serialisations determine the tree -/
theorem Serial.unique {H : HedgeFactory S} {V : Vocabulary} {e e' : Expr S} {q : List Str} (h : Serial H V e q)
    (h' : Serial H V e' q) : e = e' := by
  have h1 := (build_ok_iff H V q e).2 h
  have h2 := (build_ok_iff H V q e').2 h'
  rw [h1] at h2
  simpa using h2

end Antecedent
end FL
