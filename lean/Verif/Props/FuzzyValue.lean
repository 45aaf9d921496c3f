/-
C82: the texts of fuzzy values show the degree of every term.
-/
import Verif.Model.FuzzyValue
import Verif.Props.Variable
import Verif.Lemmas.Text
import Verif.Props.DoubleText

namespace FL
open Scalar
variable {S : Type}

namespace FuzzyValue

/-- what is written about a term: whether the degree is negative, its magnitude, and the name -/
structure Entry where
  negative : Bool
  magnitude : Str
  name : Str
  deriving DecidableEq, Repr

/-- `magnitude/name` -/
def readEntry (negative : Bool) (w : Str) : Entry :=
  ⟨negative, w.takeWhile (· ≠ '/'), (w.dropWhile (· ≠ '/')).drop 1⟩

/-- `+ magnitude/name - magnitude/name ...` -/
def readMore : List Str → Option (List Entry)
  | [] => some []
  | [_] => none
  | s :: w :: ws =>
    if s = cs! "+" then (readMore ws).map (readEntry false w :: ·)
    else if s = cs! "-" then (readMore ws).map (readEntry true w :: ·)
    else none

/-- the sum written as a text: the sign of the first summand is part of it and written only if negative -/
def read (text : Str) : Option (List Entry) :=
  match Op.words text with
  | [] => some []
  | w :: ws => (readMore ws).map ((if w.head? = some '-' then readEntry true (w.drop 1) else readEntry false w) :: ·)

end FuzzyValue

open FuzzyValue

section general
variable [ScalarText S]

/-- what should be written about an activated term -/
def Activated.entry (a : Activated S) : Entry :=
  ⟨!(ge a.degree (lit 0) || Op.isNaN a.degree), ScalarText.str (abs a.degree), a.term.name⟩

/-- magnitudes are written without a sign, a slash or a blank -/
def Magnitudes (S : Type) [ScalarText S] : Prop :=
  ∀ x : S, (ScalarText.str (abs x)).head? ≠ some '-' ∧ '/' ∉ ScalarText.str (abs x) ∧ ScalarText.str (abs x) ≠ [] ∧
    Op.NoBlank (ScalarText.str (abs x))

/-- `magnitude/name` is one word -/
def Activated.word (a : Activated S) : Str := ScalarText.str (abs a.degree) ++ cs! "/" ++ a.term.name

theorem Activated.fuzzyValue_word (a : Activated S) : a.fuzzyValue = a.sign :: a.word := rfl

theorem readEntry_word (hS : Magnitudes S) (a : Activated S) (n : Bool) :
    readEntry n a.word = ⟨n, ScalarText.str (abs a.degree), a.term.name⟩ := by
  have h := (hS a.degree).2.1
  have h1 : a.word.takeWhile (· ≠ '/') = ScalarText.str (abs a.degree) := by
    unfold Activated.word
    rw [List.append_assoc, List.takeWhile_append_of_pos]
    · simp
    · intro c hc
      simp only [ne_eq, decide_not, Bool.not_eq_eq_eq_not, Bool.not_true, decide_eq_false_iff_not]
      rintro rfl
      exact h hc
  have h2 : a.word.dropWhile (· ≠ '/') = '/' :: a.term.name := by
    unfold Activated.word
    rw [List.append_assoc, List.dropWhile_append_of_pos]
    · simp
    · intro c hc
      simp only [ne_eq, decide_not, Bool.not_eq_eq_eq_not, Bool.not_true, decide_eq_false_iff_not]
      rintro rfl
      exact h hc
  simp only [readEntry, h1, h2]
  rfl

theorem Activated.sign_cases (a : Activated S) :
    (a.sign = '+' ∧ a.entry.negative = false) ∨ (a.sign = '-' ∧ a.entry.negative = true) := by
  unfold Activated.sign Activated.entry
  by_cases h : (ge a.degree (lit 0) || Op.isNaN a.degree) = true <;> simp [h]

theorem Activated.word_ok (hS : Magnitudes S) (a : Activated S) (hn : Op.NoBlank a.term.name) :
    a.word ≠ [] ∧ Op.NoBlank a.word ∧ a.word.head? ≠ some '-' := by
  obtain ⟨h1, _, h3, h4⟩ := hS a.degree
  refine ⟨by simp [Activated.word], ?_, ?_⟩
  · intro c hc
    simp only [Activated.word, List.append_assoc, List.mem_append, List.mem_singleton] at hc
    rcases hc with hc | rfl | hc
    · exact h4 c hc
    · decide
    · exact hn c hc
  · unfold Activated.word
    obtain ⟨c, s, hs⟩ := List.exists_cons_of_ne_nil h3
    rw [hs] at h1 ⊢
    simpa using h1

/-- the text of the terms after the first -/
theorem words_more (hS : Magnitudes S) (ts : List (Activated S)) (hn : ∀ a ∈ ts, Op.NoBlank a.term.name) :
    ∀ k, 0 < k → ∃ ws, (∀ w : Str, Op.words (w ++ (ts.zipIdx k).flatMap fun p => Aggregated.fuzzyValuePart p.2 p.1.fuzzyValue) =
      Op.words w ++ ws) ∧ readMore ws = some (ts.map Activated.entry) := by
  induction ts with
  | nil => intro k _; exact ⟨[], fun w => by simp, rfl⟩
  | cons a ts ih =>
    intro k hk
    obtain ⟨ws, hw, hr⟩ := ih (fun b hb => hn b (List.mem_cons_of_mem _ hb)) (k + 1) (by omega)
    have hok := a.word_ok hS (hn a (by simp))
    have hsb : Op.words [a.sign] = [[a.sign]] := by
      rcases a.sign_cases with ⟨h, _⟩ | ⟨h, _⟩ <;> rw [h] <;> decide
    refine ⟨[a.sign] :: a.word :: ws, ?_, ?_⟩
    · intro w
      have e : w ++ ((a :: ts).zipIdx k).flatMap (fun p => Aggregated.fuzzyValuePart p.2 p.1.fuzzyValue) =
          w ++ ' ' :: ([a.sign] ++ ' ' :: (a.word ++ (ts.zipIdx (k + 1)).flatMap
            fun p => Aggregated.fuzzyValuePart p.2 p.1.fuzzyValue)) := by
        have h0 : ¬ k = 0 := by omega
        simp [List.zipIdx_cons, Aggregated.fuzzyValuePart, Activated.fuzzyValue_word, h0, hk]
      rw [e, Op.words_blank _ _ ' ' (by decide), Op.words_blank _ _ ' ' (by decide), hw, hsb,
        Op.words_single _ hok.1 hok.2.1]
      rfl
    · rcases a.sign_cases with ⟨h, hb⟩ | ⟨h, hb⟩
      · simp only [readMore, h, if_true, hr, Option.map_some, List.map_cons, readEntry_word hS]
        rw [← hb]; rfl
      · simp only [readMore, h, hr, Option.map_some, List.map_cons, readEntry_word hS]
        rw [if_neg (by decide), if_pos trivial, ← hb]; rfl

/-- **C82.**  The text of a fuzzy value is a sum with the sign, the magnitude of the degree and the name of
each term, in order, if names have no blanks. -/
theorem Aggregated.fuzzyValue_reads_partial (hS : Magnitudes S) (g : Aggregated S)
    (hn : ∀ a ∈ g.terms, Op.NoBlank a.term.name) : read g.fuzzyValue = some (g.terms.map Activated.entry) := by
  unfold Aggregated.fuzzyValue
  cases hts : g.terms with
  | nil => rfl
  | cons a ts =>
    rw [hts] at hn
    obtain ⟨ws, hw, hr⟩ := words_more hS ts (fun b hb => hn b (List.mem_cons_of_mem _ hb)) 1 (by omega)
    have hok := a.word_ok hS (hn a (by simp))
    rcases a.sign_cases with ⟨h, hb⟩ | ⟨h, hb⟩
    · have e : ((a :: ts).zipIdx).flatMap (fun p => Aggregated.fuzzyValuePart p.2 p.1.fuzzyValue) =
          a.word ++ (ts.zipIdx 1).flatMap fun p => Aggregated.fuzzyValuePart p.2 p.1.fuzzyValue := by
        simp [List.zipIdx_cons, Aggregated.fuzzyValuePart, Activated.fuzzyValue_word, h]
      rw [e, FuzzyValue.read, hw, Op.words_single _ hok.1 hok.2.1]
      simp only [List.cons_append, List.nil_append, if_neg hok.2.2, hr, Option.map_some, readEntry_word hS, List.map_cons]
      rw [← hb]; rfl
    · have e : ((a :: ts).zipIdx).flatMap (fun p => Aggregated.fuzzyValuePart p.2 p.1.fuzzyValue) =
          ('-' :: a.word) ++ (ts.zipIdx 1).flatMap fun p => Aggregated.fuzzyValuePart p.2 p.1.fuzzyValue := by
        simp [List.zipIdx_cons, Aggregated.fuzzyValuePart, Activated.fuzzyValue_word, h]
      have hnb : Op.NoBlank ('-' :: a.word) := by
        intro c hc
        rw [List.mem_cons] at hc
        rcases hc with rfl | hc
        · decide
        · exact hok.2.1 c hc
      rw [e, FuzzyValue.read, hw, Op.words_single _ (by simp) hnb]
      simp only [List.cons_append, List.nil_append, List.head?_cons, if_true, List.drop_succ_cons, List.drop_zero, hr,
        Option.map_some, readEntry_word hS, List.map_cons]
      rw [← hb]; rfl

/-- **C82.**  `fuzzify` shows every term of the variable once, in order, with its membership, NaN where the
term raises an exception. -/
theorem Variable.fuzzify_partial (hS : Magnitudes S) (ctx : Ctx S) (v : Variable S) (x : S)
    (hn : ∀ t ∈ v.terms, Op.NoBlank t.name) (hub : ∀ t ∈ v.terms, t.membership ctx x ≠ .error .ub) :
    ∃ s es, v.fuzzify ctx x = .ok s ∧ read s = some es ∧ es.length = v.terms.length ∧
      ∀ (i : Nat) (t : Term S), v.terms[i]? = some t → ∃ y, es[i]? =
          some ⟨!(ge y (lit 0) || Op.isNaN y), ScalarText.str (Scalar.abs y), t.name⟩ ∧
        (∀ z, t.membership ctx x = .ok z → y = z) ∧ (∀ e, t.membership ctx x = .error e → y = nan) := by
  obtain ⟨l, hl, hlen, hi⟩ := v.activations_spec ctx x hub
  have hnl : ∀ a ∈ l, Op.NoBlank a.term.name := by
    intro a ha
    obtain ⟨i, hil, rfl⟩ := List.getElem_of_mem ha
    have hiv : i < v.terms.length := by omega
    obtain ⟨a, h1, _, h3, _⟩ := hi i _ (List.getElem?_eq_getElem hiv)
    rw [List.getElem?_eq_getElem hil] at h1
    simp only [Option.some.injEq] at h1
    rw [h1, h3]
    exact hn _ (List.getElem_mem hiv)
  refine ⟨_, l.map Activated.entry, by simp only [Variable.fuzzify, hl, bind, Except.bind]; rfl,
    Aggregated.fuzzyValue_reads_partial hS _ hnl, by simp [hlen], ?_⟩
  intro i t ht
  obtain ⟨a, h1, _, h3, _, h5, h6⟩ := hi i t ht
  refine ⟨a.degree, ?_, h5, h6⟩
  rw [List.getElem?_map, h1, ← h3]
  rfl

/-- **C82.**  `fuzzyInputValue` shows every term of the variable once, in order, with the membership of the
value of the variable. -/
theorem Variable.fuzzyInputValue_partial (hS : Magnitudes S) (ctx : Ctx S) (v : Variable S)
    (hn : ∀ t ∈ v.terms, Op.NoBlank t.name) (hub : ∀ t ∈ v.terms, t.membership ctx v.value ≠ .error .ub) :
    ∃ s es, v.fuzzyInputValue ctx = .ok s ∧ read s = some es ∧ es.length = v.terms.length ∧
      ∀ (i : Nat) (t : Term S), v.terms[i]? = some t → ∃ y, es[i]? =
          some ⟨!(ge y (lit 0) || Op.isNaN y), ScalarText.str (Scalar.abs y), t.name⟩ ∧
        (∀ z, t.membership ctx v.value = .ok z → y = z) ∧ (∀ e, t.membership ctx v.value = .error e → y = nan) :=
  v.fuzzify_partial hS ctx v.value hn hub

/-! ### Output variables -/

theorem eraseDups_append_sub (l m : List Str) (hl : l.Nodup) (hm : ∀ x ∈ m, x ∈ l) : (l ++ m).eraseDups = l := by
  rw [List.eraseDups_append, Aggregated.eraseDups_of_nodup l hl]
  have : m.removeAll l = [] := by
    unfold List.removeAll
    rw [List.filter_eq_nil_iff]
    intro x hx
    simpa using hm x hx
  rw [this]; simp

omit [ScalarText S] in
theorem filter_single (zs : List (Activated S)) (z : Activated S) (hmem : z ∈ zs)
    (hnd : (zs.map fun a => a.term.name).Nodup) : zs.filter (fun a => a.term.name == z.term.name) = [z] := by
  induction zs with
  | nil => simp at hmem
  | cons y zs ih =>
    rw [List.map_cons, List.nodup_cons] at hnd
    rw [List.mem_cons] at hmem
    rcases hmem with rfl | hmem
    · rw [List.filter_cons_of_pos (by simp)]
      congr 1
      rw [List.filter_eq_nil_iff]
      intro a ha hh
      apply hnd.1
      rw [← beq_iff_eq.1 hh]
      exact List.mem_map_of_mem (f := fun a : Activated S => a.term.name) ha
    · rw [List.filter_cons_of_neg, ih hmem hnd.2]
      intro hh
      apply hnd.1
      rw [beq_iff_eq.1 hh]
      exact List.mem_map_of_mem (f := fun a : Activated S => a.term.name) hmem

/-- **C82.**  `fuzzyOutputValue` shows every term of the variable once, in order: with zero if it is not
activated, otherwise with zero plus the degree of its group, that is of the activations of its name
combined by the aggregation operator. -/
theorem OutputVariable.fuzzyOutputValue_partial (hS : Magnitudes S) (o : OutputVariable S)
    (hn : ∀ t ∈ o.terms, Op.NoBlank t.name) (hd : (o.terms.map Term.name).Nodup)
    (hin : ∀ a ∈ o.fuzzy.terms, a.term.name ∈ o.terms.map Term.name) (g : Aggregated S) (hg : o.fuzzy.grouped = .ok g) :
    ∃ s es, o.fuzzyOutputValue = .ok s ∧ read s = some es ∧ es.length = o.terms.length ∧
      ∀ (i : Nat) (t : Term S), o.terms[i]? = some t → ∃ y, es[i]? =
          some ⟨!(ge y (lit 0) || Op.isNaN y), ScalarText.str (Scalar.abs y), t.name⟩ ∧
        ((∀ a ∈ o.fuzzy.terms, a.term.name ≠ t.name) ∧ y = lit 0 ∨
         ∃ b ∈ g.terms, b.term.name = t.name ∧ y = lit 0 + b.degree) := by
  set zeros : List (Activated S) := o.terms.zipIdx.map fun p => ⟨p.2, p.1, lit 0, none⟩ with hz
  obtain ⟨-, hgn, hgd, -⟩ := Aggregated.grouped_spec _ _ hg
  have hzn : zeros.map (fun a => a.term.name) = o.terms.map Term.name := by
    rw [hz, List.map_map]
    have : (fun a : Activated S => a.term.name) ∘ (fun p : Term S × Nat => (⟨p.2, p.1, lit 0, none⟩ : Activated S)) =
        Term.name ∘ Prod.fst := rfl
    rw [this, ← List.map_map, List.zipIdx_map_fst]
  have hsub : ∀ x ∈ g.terms.map (fun a => a.term.name), x ∈ o.terms.map Term.name := by
    intro x hx
    rw [hgn, List.mem_eraseDups] at hx
    obtain ⟨a, ha, rfl⟩ := List.mem_map.1 hx
    exact hin a ha
  obtain ⟨r, hr⟩ := Aggregated.grouped_ok (⟨[], nan, nan, none, zeros ++ g.terms⟩ : Aggregated S) (by simp)
  obtain ⟨-, hrn, -, hrg⟩ := Aggregated.grouped_spec _ _ hr
  have hrn' : r.terms.map (fun a => a.term.name) = o.terms.map Term.name := by
    rw [hrn, List.map_append, hzn, eraseDups_append_sub _ _ hd hsub]
  have hlen : r.terms.length = o.terms.length := by
    have := congrArg List.length hrn'
    simpa using this
  refine ⟨r.fuzzyValue, r.terms.map Activated.entry, ?_, ?_, by simp [hlen], ?_⟩
  · simp only [OutputVariable.fuzzyOutputValue, hg, bind, Except.bind, ← hz, hr]
  · apply Aggregated.fuzzyValue_reads_partial hS
    intro a ha
    have : a.term.name ∈ o.terms.map Term.name := by
      rw [← hrn']; exact List.mem_map_of_mem ha
    obtain ⟨t, ht, e⟩ := List.mem_map.1 this
    rw [← e]; exact hn t ht
  · intro i t ht
    have hil : i < o.terms.length := (List.getElem?_eq_some_iff.1 ht).1
    have hri : r.terms[i]? = some r.terms[i] := List.getElem?_eq_getElem (by omega)
    set b := r.terms[i]
    have hname : b.term.name = t.name := by
      have := congrArg (·[i]?) hrn'
      simp only [List.getElem?_map, hri, ht, Option.map_some, Option.some.injEq] at this
      exact this
    refine ⟨b.degree, by rw [List.getElem?_map, hri, ← hname]; rfl, ?_⟩
    obtain ⟨first, rest, hf, -, hc⟩ := hrg b (List.mem_of_getElem? hri)
    -- the zero of the term comes first
    have hzf : zeros.filter (fun a => a.term.name == b.term.name) = [⟨i, t, lit 0, none⟩] := by
      rw [hname]
      have hmem : (⟨i, t, lit 0, none⟩ : Activated S) ∈ zeros := by
        rw [hz, List.mem_map]
        exact ⟨(t, i), List.mem_zipIdx_iff_getElem?.2 ht, rfl⟩
      have hnd : (zeros.map fun a => a.term.name).Nodup := by rw [hzn]; exact hd
      exact filter_single zeros _ hmem hnd
    rw [List.filter_append, hzf] at hf
    simp only [List.cons_append, List.nil_append, List.cons.injEq] at hf
    obtain ⟨rfl, rfl⟩ := hf
    cases hgf : g.terms.filter (fun a => a.term.name == b.term.name) with
    | nil =>
      left
      rw [hgf] at hc
      simp only [Aggregated.combined, List.foldlM_nil, pure, Except.pure, Except.ok.injEq] at hc
      refine ⟨?_, hc.symm⟩
      intro a ha hh
      rw [List.filter_eq_nil_iff] at hgf
      have : a.term.name ∈ g.terms.map (fun a => a.term.name) := by
        rw [hgn, List.mem_eraseDups]
        exact List.mem_map_of_mem (f := fun a : Activated S => a.term.name) ha
      obtain ⟨c, hc1, hc2⟩ := List.mem_map.1 this
      exact hgf c hc1 (by simp only [beq_iff_eq]; rw [hc2, hh, hname])
    | cons c cs =>
      right
      have hcm : c ∈ g.terms ∧ c.term.name = b.term.name := by
        have : c ∈ g.terms.filter (fun a => a.term.name == b.term.name) := by rw [hgf]; simp
        rw [List.mem_filter] at this
        exact ⟨this.1, beq_iff_eq.1 this.2⟩
      have hcs : cs = [] := by
        have hnd : ((c :: cs).map fun a => a.term.name).Nodup := by
          rw [← hgf]
          exact hgd.sublist (List.filter_sublist.map _)
        cases cs with
        | nil => rfl
        | cons d ds =>
          have hdm : d ∈ g.terms.filter (fun a => a.term.name == b.term.name) := by rw [hgf]; simp
          rw [List.mem_filter] at hdm
          simp only [List.map_cons, List.nodup_cons, List.mem_cons, not_or] at hnd
          exact absurd (hcm.2.trans (beq_iff_eq.1 hdm.2).symm) hnd.1.1
      rw [hgf, hcs] at hc
      simp only [Aggregated.combined, Option.getD_none, SNorm.compute, SNormKind.compute, List.foldlM_cons,
        List.foldlM_nil, bind, Except.bind, pure, Except.pure, Except.ok.injEq] at hc
      exact ⟨c, hcm.1, hcm.2.trans hname, hc.symm⟩

/-- **C82.**  If 0 is neutral for the aggregation operator and for the sum on the degrees, and activations
are those of the terms of the variable, what is shown for a term is its activation degree. -/
theorem OutputVariable.fuzzyOutputValue_degree_partial (hS : Magnitudes S) (o : OutputVariable S)
    (hn : ∀ t ∈ o.terms, Op.NoBlank t.name) (hd : (o.terms.map Term.name).Nodup)
    (hin : ∀ a ∈ o.fuzzy.terms, o.terms[a.id]? = some a.term) (g : Aggregated S) (hg : o.fuzzy.grouped = .ok g)
    (h0 : ∀ a ∈ o.fuzzy.terms, (o.fuzzy.aggregation.getD (.builtin .unboundedSum)).compute (lit 0) a.degree = .ok a.degree)
    (hadd : ∀ b ∈ g.terms, lit 0 + b.degree = b.degree) :
    ∃ s es, o.fuzzyOutputValue = .ok s ∧ read s = some es ∧ es.length = o.terms.length ∧
      ∀ (i : Nat) (t : Term S), o.terms[i]? = some t → ∃ y, o.fuzzy.activationDegree i = .ok y ∧ es[i]? =
          some ⟨!(ge y (lit 0) || Op.isNaN y), ScalarText.str (Scalar.abs y), t.name⟩ := by
  have hinj : ∀ (i j : Nat) (t u : Term S), o.terms[i]? = some t → o.terms[j]? = some u → t.name = u.name → i = j := by
    intro i j t u hi hj h
    obtain ⟨hil, rfl⟩ := List.getElem?_eq_some_iff.1 hi
    obtain ⟨hjl, rfl⟩ := List.getElem?_eq_some_iff.1 hj
    rw [List.nodup_iff_injective_get] at hd
    have := @hd ⟨i, by simpa using hil⟩ ⟨j, by simpa using hjl⟩ (by simpa using h)
    simpa using this
  obtain ⟨s, es, h1, h2, h3, h4⟩ := o.fuzzyOutputValue_partial hS hn hd
    (fun a ha => List.mem_map_of_mem (List.mem_of_getElem? (hin a ha))) g hg
  refine ⟨s, es, h1, h2, h3, ?_⟩
  intro i t ht
  obtain ⟨y, hy, hc⟩ := h4 i t ht
  refine ⟨y, ?_, hy⟩
  rcases hc with ⟨hnone, rfl⟩ | ⟨b, hb, hbn, rfl⟩
  · unfold Aggregated.activationDegree
    have key : ∀ l : List (Activated S), (∀ a ∈ l, a.id ≠ i) → ∀ s : S, l.foldlM (fun result a =>
        if a.id = i then (match o.fuzzy.aggregation with
          | some agg => agg.compute result a.degree
          | none => .ok (result + a.degree)) else .ok result) s = (.ok s : Except Err S) := by
      intro l
      induction l with
      | nil => intros; rfl
      | cons a l ih =>
        intro hl s
        rw [List.foldlM_cons, if_neg (hl a (by simp))]
        exact ih (fun b hb => hl b (by simp [hb])) s
    refine key _ ?_ _
    intro a ha hai
    have := hin a ha
    rw [hai, ht] at this
    simp only [Option.some.injEq] at this
    exact hnone a ha (by rw [this])
  · have := Aggregated.grouped_activationDegree o.fuzzy g hg (by
      intro a ha c hc
      constructor
      · intro h
        have h1 := hin a ha
        have h2 := hin c hc
        rw [h, h2] at h1
        simp only [Option.some.injEq] at h1
        rw [h1]
      · intro h
        exact hinj _ _ _ _ (hin a ha) (hin c hc) h) h0 b hb
    rw [hadd b hb]
    have hbi : b.id = i := by
      obtain ⟨first, rest, hf, hb', -⟩ := (Aggregated.grouped_spec _ _ hg).2.2.2 b hb
      have hfm : first ∈ o.fuzzy.terms := by
        have : first ∈ o.fuzzy.terms.filter (fun a => a.term.name == b.term.name) := by rw [hf]; simp
        exact (List.mem_filter.1 this).1
      have e1 : b.id = first.id := by rw [hb']
      have e2 : b.term = first.term := by rw [hb']
      rw [e1]
      exact hinj _ _ _ _ (hin first hfm) ht (by rw [← e2, hbn])
    rw [← hbi]; exact this

theorem magnitudes_of [PlainText S] (h : ∀ x : S, (ScalarText.str (Scalar.abs x)).head? ≠ some '-') : Magnitudes S := by
  intro x
  refine ⟨h x, ?_, LawfulText.str_ne _, fun c hc => (LawfulText.str_char _ c hc).1⟩
  intro hc
  rcases PlainText.str_plain _ _ hc with hc | hc | hc | hc
  · revert hc; decide
  all_goals revert hc; decide

end general

/-- the hypothesis holds for decimal numbers with three decimals -/
theorem magnitudes_rat : Magnitudes (Ext ℚ) := by
  apply magnitudes_of
  have hd : ∀ n, (Decimal.thousandths n).head? ≠ some '-' := by
    intro n h
    obtain ⟨c, r, e, hc⟩ := Decimal.thousandths_head n
    rw [e] at h
    simp only [List.head?_cons, Option.some.injEq] at h
    subst h
    revert hc; decide
  intro x
  cases x with
  | nan => decide +kernel
  | pinf => decide +kernel
  | ninf => decide +kernel
  | fin q =>
    change (Decimal.str (.fin |q|)).head? ≠ some '-'
    simp only [Decimal.str]
    split_ifs with h1 h2
    · decide
    · exact absurd h2 (not_lt.2 (abs_nonneg q))
    · exact hd _

open Flt in
/-- the hypothesis holds for `double` with every number of decimals -/
theorem magnitudes_double [Decimals] {lib1 : Fn1 → Ext ℚ → Ext ℚ} {lib2 : Fn2 → Ext ℚ → Ext ℚ → Ext ℚ} :
    Magnitudes (Flt (binary64 lib1 lib2)) := by
  apply magnitudes_of
  have hd : ∀ d n, (Decimal.fixed d n).head? ≠ some '-' := by
    intro d n h
    obtain ⟨c, r, e, hc⟩ := Decimal.fixed_head d n
    rw [e] at h
    simp only [List.head?_cons, Option.some.injEq] at h
    subst h
    revert hc; decide
  rintro ⟨v, hv⟩
  cases v with
  | nan => change (cs! "nan").head? ≠ some '-'; decide
  | pinf =>
    have : (ScalarText.str (Scalar.abs (⟨.pinf, hv⟩ : Flt (binary64 lib1 lib2))) : Str) =
        if Ext.lt .pinf ((binary64 lib1 lib2).round (.fin 0)) then cs! "-inf" else cs! "inf" := rfl
    rw [this]
    split_ifs with h
    · exact absurd h (by cases (binary64 lib1 lib2).round (.fin 0) <;> simp [Ext.lt])
    · decide
  | ninf =>
    have : (ScalarText.str (Scalar.abs (⟨.ninf, hv⟩ : Flt (binary64 lib1 lib2))) : Str) =
        if Ext.lt .pinf ((binary64 lib1 lib2).round (.fin 0)) then cs! "-inf" else cs! "inf" := rfl
    rw [this]
    split_ifs with h
    · exact absurd h (by cases (binary64 lib1 lib2).round (.fin 0) <;> simp [Ext.lt])
    · decide
  | fin q =>
    have hq : (binary64 lib1 lib2).Rep q := hv
    rw [show (⟨.fin q, hv⟩ : Flt (binary64 lib1 lib2)) = of q hq from rfl, abs_of hq]
    change (Flt.str _).head? ≠ some '-'
    unfold Flt.str
    rw [isNaN_fin, isInf_fin]
    simp only [Bool.false_eq_true, if_false]
    split
    · exact hd _ _
    · change (if |q| < 0 then _ else _ : Str).head? ≠ some '-'
      rw [if_neg (not_lt.2 (abs_nonneg q))]
      exact hd _ _

/-! ### Examples -/

namespace FuzzyValue

/-- a variable with constant terms of the given names and values -/
def constants (ts : List (Str × ℚ)) : Variable (Ext ℚ) :=
  .new (cs! "x") (.fin 0) (.fin 1) (ts.map fun t => ⟨t.1, .fin 1, .constant (.fin t.2)⟩)

def ctx : Ctx (Ext ℚ) := ⟨[], []⟩

/-- the memberships of two triangles and a constant; the value is not needed to be set -/
example : ((Variable.new (cs! "x") (.fin 0) (.fin 10) Variable.demoTerms).fuzzify ctx (.fin 3)).toOption =
      some (cs! "0.000/none + 0.500/low + 0.500/high") ∧
    ((Variable.new (cs! "x") (.fin 0) (.fin 10) Variable.demoTerms).fuzzyInputValue ctx).toOption =
      some (cs! "0.000/none + nan/low + nan/high") := by decide +kernel

/-- the first sign stands before the number, the others between blanks, and a plus is not written first -/
example : ((constants [(cs! "a", -1/2), (cs! "b", -1/4), (cs! "c", 1)]).fuzzify ctx (.fin 0)).toOption =
      some (cs! "-0.500/a - 0.250/b + 1.000/c") ∧
    read (cs! "-0.500/a - 0.250/b + 1.000/c") =
      some [⟨true, cs! "0.500", cs! "a"⟩, ⟨true, cs! "0.250", cs! "b"⟩, ⟨false, cs! "1.000", cs! "c"⟩] ∧
    read (cs! "0.500/a * 0.250/b") = none := by decide +kernel

/-- an output variable with two terms and activations of the given positions and degrees -/
def output (agg : Option (SNormKind)) (ts : List Str) (as : List (Nat × ℚ)) : OutputVariable (Ext ℚ) :=
  { OutputVariable.new (cs! "y") (.fin 0) (.fin 1) (ts.map fun n => ⟨n, .fin 1, .constant (.fin 1)⟩) with
    fuzzy := ⟨cs! "y", .fin 0, .fin 1, agg.map .builtin, as.map fun a =>
      ⟨a.1, ⟨ts.getD a.1 [], .fin 1, .constant (.fin 1)⟩, .fin a.2, none⟩⟩ }

/-- terms in the order of the variable, the degrees of the activations of a term combined, a term without
activations shown with zero -/
example :
    (output (some .maximum) [cs! "low", cs! "mid", cs! "high"] [(2, 1/2), (0, 1/4), (2, 1/4)]).fuzzyOutputValue.toOption =
      some (cs! "0.250/low + 0.000/mid + 0.500/high") ∧
    (output none [cs! "low", cs! "mid", cs! "high"] [(2, 1/2), (0, 1/4), (2, 1/4)]).fuzzyOutputValue.toOption =
      some (cs! "0.250/low + 0.000/mid + 0.750/high") := by decide +kernel

/-- the theorem on degrees applies to this variable -/
example : ∃ s es, (output (some .maximum) [cs! "low", cs! "high"] [(1, 1/2), (0, 1/4), (1, 1/4)]).fuzzyOutputValue = .ok s ∧
    read s = some es ∧ es.length = 2 := by
  have hg : ∃ g, (output (some .maximum) [cs! "low", cs! "high"] [(1, 1/2), (0, 1/4), (1, 1/4)]).fuzzy.grouped = .ok g ∧
      g.terms.map (fun b => b.degree) = [.fin (1/2), .fin (1/4)] := ⟨_, rfl, by decide +kernel⟩
  obtain ⟨g, hg, hd⟩ := hg
  obtain ⟨s, es, h1, h2, h3, -⟩ := OutputVariable.fuzzyOutputValue_degree_partial magnitudes_rat
    (output (some .maximum) [cs! "low", cs! "high"] [(1, 1/2), (0, 1/4), (1, 1/4)])
    (by simp [output, OutputVariable.new, Variable.new, Op.NoBlank]; decide) (by decide)
    (by simp [output, OutputVariable.new, Variable.new]) g hg
    (by
      intro a ha
      simp only [output, List.map_cons, List.map_nil, List.mem_cons, List.not_mem_nil, or_false] at ha
      rcases ha with rfl | rfl | rfl <;> decide +kernel)
    (by
      intro b hb
      have : b.degree ∈ g.terms.map (fun b => b.degree) := List.mem_map_of_mem hb
      rw [hd] at this
      simp only [List.mem_cons, List.not_mem_nil, or_false] at this
      rcases this with h | h <;> rw [h] <;> decide +kernel)
  exact ⟨s, es, h1, h2, h3⟩

/-! ### Violations -/

/-- C82 is violated by names with blanks: variables with one and with two terms have the same text. -/
theorem fuzzify_blanks_violated :
    ((constants [(cs! "a + 1.000/b", 1)]).fuzzify ctx (.fin 0)).toOption = some (cs! "1.000/a + 1.000/b") ∧
    ((constants [(cs! "a", 1), (cs! "b", 1)]).fuzzify ctx (.fin 0)).toOption = some (cs! "1.000/a + 1.000/b") := by
  decide +kernel

/-- C82 is violated by terms of the same name: `fuzzify` shows both, `fuzzyOutputValue` one, with the sum of
degrees of different terms. -/
theorem fuzzyOutputValue_names_violated :
    ((constants [(cs! "a", 1/2), (cs! "a", 1/4)]).fuzzify ctx (.fin 0)).toOption = some (cs! "0.500/a + 0.250/a") ∧
    (output none [cs! "a", cs! "a"] [(0, 1/2), (1, 1/4)]).fuzzyOutputValue.toOption = some (cs! "0.750/a") := by
  decide +kernel

/-- C82 is violated by degrees above one, which rule weights make: what is shown need not be the activation
degree that defuzzifiers use. -/
theorem fuzzyOutputValue_degree_violated :
    (output (some .nilpotentMaximum) [cs! "a"] [(0, 3/2)]).fuzzyOutputValue.toOption = some (cs! "1.500/a") ∧
    ((output (some .nilpotentMaximum) [cs! "a"] [(0, 3/2)]).fuzzy.activationDegree 0).toOption = some (.fin 1) := by
  decide +kernel

/-- C82 is violated by decimals: a term with a positive membership is shown like one with none, and a small
negative one as minus zero. -/
theorem fuzzify_decimals_violated :
    ((constants [(cs! "a", 1/10000), (cs! "b", 0), (cs! "c", -1/10000)]).fuzzify ctx (.fin 0)).toOption =
      some (cs! "0.000/a + 0.000/b - 0.000/c") := by decide +kernel

end FuzzyValue
end FL
