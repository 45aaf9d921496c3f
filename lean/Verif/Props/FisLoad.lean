/-
C70: what the rules read from the FIS format are.
-/
import Verif.Props.FisEngine

namespace FL
open Scalar Formula

section
variable {S : Type} [ScalarText S]

namespace Fis

/-- a proposition as it is read: the hedge `not` comes first, if it was there an odd number of times -/
def canon (p : Proposition S) : Proposition S :=
  { p with hedges := (if negated p.hedges then (p.hedges.filter fun h => h.name = HedgeKind.not.name).take 1 else [])
    ++ p.hedges.filter fun h => h.name ≠ HedgeKind.not.name }

/-- the first proposition about each of `n` variables, in the order of the variables -/
def ordered (ref : Nat → VarRef) (n : Nat) (ps : List (Proposition S)) : List (Proposition S) :=
  (List.range n).filterMap fun i => ps.find? fun p => p.var == ref i

/-- propositions joined by `and` (or by `or`) from the left -/
def chain (b : Bool) (p : Proposition S) (ps : List (Proposition S)) : Expr S :=
  ps.foldl (fun e q => if b then .conj e (.prop q) else .disj e (.prop q)) (.prop p)

/-- the words of a chain -/
def chainWords (V : Vocabulary) (k : Str) (p : Proposition S) (ps : List (Proposition S)) : List Str :=
  p.tokens V ++ ps.flatMap fun q => k :: q.tokens V

theorem canon_names (p : Proposition S) :
    (canon p).hedges.map Hedge.name = (if negated p.hedges then [HedgeKind.not.name] else []) ++ others p.hedges := by
  unfold canon others
  simp only [List.map_append, List.filter_map]
  congr 1
  split
  · next h =>
    cases hf : p.hedges.filter fun h => h.name = HedgeKind.not.name with
    | nil =>
      exfalso
      unfold negated at h
      rw [List.countP_eq_length_filter, hf] at h
      simp at h
    | cons a l =>
      have : a ∈ p.hedges.filter fun h => h.name = HedgeKind.not.name := by rw [hf]; simp
      rw [List.mem_filter] at this
      simpa using this.2
  · rfl

theorem canon_mem {p : Proposition S} {h : Hedge S} (hm : h ∈ (canon p).hedges) : h ∈ p.hedges := by
  unfold canon at hm
  simp only [List.mem_append] at hm
  rcases hm with hm | hm
  · split at hm
    · exact (List.mem_filter.1 (List.mem_of_mem_take hm)).1
    · simp at hm
  · exact (List.mem_filter.1 hm).1

theorem canon_over {H : HedgeFactory S} {V : Vocabulary} (p : Proposition S) (hp : p.Over H V) : (canon p).Over H V := by
  obtain ⟨h1, h2, h3⟩ := hp
  refine ⟨h1, fun h hh => h2 h (canon_mem hh), ?_⟩
  have ht : (canon p).term = p.term := rfl
  have hv : (canon p).var = p.var := rfl
  rw [ht, hv]
  cases hterm : p.term with
  | some j =>
    rw [hterm] at h3
    exact ⟨h3.1, fun h hh => h3.2 h (canon_mem hh)⟩
  | none =>
    rw [hterm] at h3
    obtain ⟨hs, a, h4, h5, h6⟩ := h3
    have hn : a.name ≠ HedgeKind.not.name := by
      have := (isAny_iff a).1 h5
      subst this
      show HedgeKind.any.name ≠ HedgeKind.not.name
      decide
    refine ⟨(if negated p.hedges then (p.hedges.filter fun h => h.name = HedgeKind.not.name).take 1 else [])
      ++ hs.filter fun h => h.name ≠ HedgeKind.not.name, a, ?_, h5, ?_⟩
    · unfold canon
      simp [h4, hn]
    · intro h hh
      rcases List.mem_append.1 hh with hh | hh
      · split at hh
        · have := List.mem_filter.1 (List.mem_of_mem_take hh)
          rw [h4] at this
          rcases List.mem_append.1 this.1 with hm | hm
          · exact h6 h hm
          · obtain rfl := List.mem_singleton.1 hm
            exact absurd (by simpa using this.2) hn
        · simp at hh
      · exact h6 h (List.mem_filter.1 hh).1

theorem words_unwords (ts : List Str) (h : ∀ t ∈ ts, t ≠ [] ∧ Op.NoBlank t) (s : Str) :
    Op.words (ts.flatMap (fun t => t ++ cs! " ") ++ s) = ts ++ Op.words s := by
  induction ts with
  | nil => rfl
  | cons t ts ih =>
    have ht := h t (by simp)
    have : ((t :: ts).flatMap fun t => t ++ cs! " ") ++ s = t ++ ' ' :: ((ts.flatMap fun t => t ++ cs! " ") ++ s) := by simp
    rw [this, Op.words_blank _ _ _ (by decide), Op.words_single t ht.1 ht.2, ih fun t ht => h t (List.mem_cons_of_mem _ ht)]
    rfl

theorem hedge_word (m : Modifier) : ∀ n ∈ m.hedges.map HedgeKind.name, n ≠ [] ∧ Op.NoBlank n ∧ '#' ∉ n ∧ n ≠ thenKeyword ∧ n ≠ withKeyword := by
  cases m <;> decide

/-- the words said about a variable -/
theorem saying_words (V : Vocabulary) (p : Proposition S) (hn : V.nameOf p.var ≠ [] ∧ Op.NoBlank (V.nameOf p.var))
    (ht : ∀ t ∈ V.terms p.var, t ≠ [] ∧ Op.NoBlank t) (hp : GoodProposition (V.terms p.var).length p) :
    Op.words (V.nameOf p.var ++ cs! " is " ++ saying (V.terms p.var) p) = (canon p).tokens V := by
  obtain ⟨⟨m, hm, hnone⟩, hterm⟩ := hp
  have e1 : V.nameOf p.var ++ cs! " is " ++ saying (V.terms p.var) p =
      V.nameOf p.var ++ ' ' :: (isKeyword ++ ' ' :: saying (V.terms p.var) p) := by simp [isKeyword]
  have e2 : saying (V.terms p.var) p = (((if negated p.hedges then [HedgeKind.not.name] else []) ++ others p.hedges).flatMap
      fun t => t ++ cs! " ") ++ (p.term.bind fun j => (V.terms p.var)[j]?).getD [] := by
    unfold saying
    rw [List.flatMap_append]
    split <;> simp [HedgeKind.name]
  rw [e1, Op.words_blank _ _ _ (by decide), Op.words_blank _ _ _ (by decide), Op.words_single _ hn.1 hn.2,
    Op.words_single isKeyword (by decide) (by decide), e2, words_unwords]
  · unfold Proposition.tokens
    rw [canon_names]
    show _ = V.nameOf p.var :: isKeyword :: _ ++ (match p.term with | some j => [((V.terms p.var)[j]?).getD []] | none => [])
    cases h : p.term with
    | none => simp [Op.words, Op.wordsAux]
    | some j =>
      have hj := hterm j h
      have hw := ht _ (List.getElem_mem hj)
      simp [List.getElem?_eq_getElem hj, Op.words_single _ hw.1 hw.2]
  · intro t ht
    rcases List.mem_append.1 ht with ht | ht
    · split at ht
      · obtain rfl := List.mem_singleton.1 ht
        decide
      · simp at ht
    · rw [hm] at ht
      exact ⟨(hedge_word m t ht).1, (hedge_word m t ht).2.1⟩

/-- the words of texts joined by a keyword -/
theorem join_words (k : Str) (hk : k ≠ [] ∧ Op.NoBlank k) (t : Str) (ts : List Str) :
    Op.words (Op.join (t :: ts) (cs! " " ++ k ++ cs! " ")) = Op.words t ++ ts.flatMap fun u => k :: Op.words u := by
  induction ts generalizing t with
  | nil => simp [Op.join]
  | cons u us ih =>
    have : Op.join (t :: u :: us) (cs! " " ++ k ++ cs! " ") = t ++ ' ' :: (k ++ ' ' :: Op.join (u :: us) (cs! " " ++ k ++ cs! " ")) := by
      rw [Op.join_cons t _ _ (by simp)]; simp
    rw [this, Op.words_blank _ _ _ (by decide), Op.words_blank _ _ _ (by decide), Op.words_single k hk.1 hk.2, ih]
    simp

theorem spoken_ordered (V : Vocabulary) (ref : Nat → VarRef) (vs : List (Str × List Str)) (ps : List (Proposition S))
    (hV : ∀ i (h : i < vs.length), V.nameOf (ref i) = vs[i].1 ∧ V.terms (ref i) = vs[i].2) :
    spoken ref vs ps = (ordered ref vs.length ps).map fun p => V.nameOf p.var ++ cs! " is " ++ saying (V.terms p.var) p := by
  have e : (vs.mapIdx fun i v => (ps.find? fun p => p.var == ref i).map fun p => v.1 ++ cs! " is " ++ saying v.2 p) =
      (List.range vs.length).map fun i => (ps.find? fun p => p.var == ref i).map fun p =>
        V.nameOf p.var ++ cs! " is " ++ saying (V.terms p.var) p := by
    apply List.ext_getElem
    · simp
    · intro i h1 h2
      have hi : i < vs.length := by simpa using h1
      rw [List.getElem_mapIdx, List.getElem_map, List.getElem_range]
      cases hf : ps.find? fun p => p.var == ref i with
      | none => rfl
      | some p =>
        have hq : p.var = ref i := by simpa using List.find?_some hf
        simp only [Option.map_some]
        rw [hq, (hV i hi).1, (hV i hi).2]
  unfold spoken ordered
  rw [e, List.filterMap_map, List.map_filterMap]
  rfl

theorem ordered_mem {ref : Nat → VarRef} {n : Nat} {ps : List (Proposition S)} {p : Proposition S} (h : p ∈ ordered ref n ps) :
    p ∈ ps := by
  obtain ⟨i, -, hi⟩ := List.mem_filterMap.1 h
  exact List.mem_of_find?_eq_some hi

theorem ordered_ne {ref : Nat → VarRef} {n : Nat} {ps : List (Proposition S)} {p : Proposition S} {i : Nat} (hp : p ∈ ps)
    (hi : p.var = ref i) (hn : i < n) : ordered ref n ps ≠ [] := by
  cases hf : ps.find? fun p => p.var == ref i with
  | none =>
    have := List.find?_eq_none.1 hf p hp
    simp [hi] at this
  | some q =>
    have : q ∈ ordered ref n ps := List.mem_filterMap.2 ⟨i, List.mem_range.2 hn, hf⟩
    intro h
    rw [h] at this
    cases this

theorem chain_infix (b : Bool) (F : ElementFactory S) (H : HedgeFactory S) (V : Vocabulary) (ps : List (Proposition S))
    (h : ∀ q ∈ ps, Antecedent.Writes H V q (q.tokens V) ∧ ∀ t ∈ q.tokens V, Operand F t) (e : Expr S) (ts : List Str)
    (he : Antecedent.Infix F H V (if b then 1 else 0) e ts) :
    Antecedent.Infix F H V (if b then 1 else 0)
      (ps.foldl (fun e q => if b then .conj e (.prop q) else .disj e (.prop q)) e)
      (ts ++ ps.flatMap fun q => (if b then andKeyword else orKeyword) :: q.tokens V) := by
  induction ps generalizing e ts with
  | nil => simpa using he
  | cons q ps ih =>
    have hq : Antecedent.Infix F H V 2 (.prop q) (q.tokens V) := .prop q _ (h q (by simp)).1 (h q (by simp)).2
    have := ih (fun q hq => h q (List.mem_cons_of_mem _ hq)) (if b then .conj e (.prop q) else .disj e (.prop q))
      (ts ++ (if b then andKeyword else orKeyword) :: q.tokens V) (by
        cases b
        · exact .disj _ _ _ _ he (.weaken _ _ _ hq)
        · exact .conj _ _ _ _ he hq)
    simpa using this

theorem sentence_chain (H : HedgeFactory S) (V : Vocabulary) (p : Proposition S) (ps : List (Proposition S))
    (h : ∀ q ∈ p :: ps, Consequent.Writes H V q (q.tokens V)) :
    Consequent.Sentence H V (p :: ps) (chainWords V andKeyword p ps) := by
  induction ps using List.reverseRecOn with
  | nil => simpa [chainWords] using Consequent.Sentence.one p _ (h p (by simp))
  | append_singleton ps q ih =>
    have h1 := ih fun q hq => h q (by
      rcases List.mem_cons.1 hq with rfl | hq
      · simp
      · simp [hq])
    have := Consequent.Sentence.more _ q _ _ h1 (h q (by simp))
    simpa [chainWords] using this

theorem conclusion_writes {F : ElementFactory S} {H : HedgeFactory S} {V : Vocabulary} (hT : Tidy F H V) (p : Proposition S)
    (hp : p.Over H V) (i : Nat) (hv : p.var = .output i) (j : Nat) (hj : p.term = some j) :
    Consequent.Writes H V p (p.tokens V) := by
  obtain ⟨h1, h2, h3⟩ := hp
  rw [hv] at h1
  rw [hj] at h3
  simp only at h1 h3
  have hn := hT.names
  unfold Vocabulary.names at hn
  rw [List.nodup_append] at hn
  have hi : V.outputs[i]? = some V.outputs[i] := List.getElem?_eq_getElem h1
  have hf := Antecedent.findIdx_nodup Prod.fst V.outputs hn.2.1 i _ hi
  have ht : (V.terms p.var)[j]? = some (V.terms p.var)[j] := List.getElem?_eq_getElem h3.1
  refine ⟨V.nameOf p.var, p.hedges.map Hedge.name, (V.terms p.var)[j]'h3.1, j, ?_, ?_, ?_, ?_, hj, ?_⟩
  · unfold Proposition.tokens
    simp [hj, ht]
  · rw [hv]
    simp only [Vocabulary.nameOf, Vocabulary.findOutput, hi, Option.map_some, Option.getD_some, hf]
  · clear * - h2
    generalize p.hedges = hs at h2
    induction hs with
    | nil => exact .nil
    | cons h hs ih => exact .cons (h2 h (by simp)) (ih fun h hh => h2 h (List.mem_cons_of_mem _ hh))
  · exact (hT.usableTerm p.var _ (List.getElem_mem h3.1)).2
  · have := Antecedent.findIdx_nodup id (V.terms p.var) (by simpa using hT.terms p.var) j _ ht
    simpa [Vocabulary.findTerm] using this

/-- a rule over an engine, with what is needed to read it again: its hedges are registered, its conclusions
have terms -/
structure Readable (G : Registry S) (e : Engine S) (r : Rule S) (a : Expr S) : Prop extends GoodRule e r a where
  antecedent : ∀ p ∈ a.props, p.Over G.hedges (vocabulary e)
  conclusions : ∀ p ∈ r.conclusions, p.Over G.hedges (vocabulary e) ∧ p.term ≠ none
  some : r.conclusions ≠ []

/-- names that do not interfere with the keywords of rules -/
structure Named (G : Registry S) (e : Engine S) : Prop where
  tidy : Tidy G.functions G.hedges (vocabulary e)
  noThen : thenKeyword ∉ (vocabulary e).names ∧ ∀ v, thenKeyword ∉ (vocabulary e).terms v
  noWith : withKeyword ∉ (vocabulary e).names ∧ ∀ v, withKeyword ∉ (vocabulary e).terms v

/-- the weight read where `w` was written: it is not written if it is nearly 1 -/
def readWeight (w : S) : S := if Op.isEq (reread w) (lit 1) then lit 1 else reread w

theorem vocabulary_inputs (e : Engine S) (i : Nat) (h : i < (names e.inputs).length) :
    (vocabulary e).nameOf (.input i) = (names e.inputs)[i].1 ∧ (vocabulary e).terms (.input i) = (names e.inputs)[i].2 := by
  simp [vocabulary, Vocabulary.nameOf, Vocabulary.terms, List.getElem?_eq_getElem h]

theorem vocabulary_outputs (e : Engine S) (i : Nat) (h : i < (names (e.outputs.map OutputVariable.toVariable)).length) :
    (vocabulary e).nameOf (.output i) = (names (e.outputs.map OutputVariable.toVariable))[i].1 ∧
      (vocabulary e).terms (.output i) = (names (e.outputs.map OutputVariable.toVariable))[i].2 := by
  simp [vocabulary, Vocabulary.nameOf, Vocabulary.terms, List.getElem?_eq_getElem h]

theorem names_hash (vs : List (Variable S)) : ∀ n ∈ names vs, '#' ∉ n.1 ∧ ∀ t ∈ n.2, '#' ∉ t := by
  intro n hn
  obtain ⟨v, -, rfl⟩ := List.mem_map.1 hn
  refine ⟨(Fll.validName_word _).2.1, fun t ht => ?_⟩
  obtain ⟨u, -, rfl⟩ := List.mem_map.1 ht
  exact (Fll.validName_word _).2.1

theorem spoken_hash (ref : Nat → VarRef) (vs : List (Variable S)) (ps : List (Proposition S))
    (h : ∀ p ∈ ps, ∃ m : Modifier, others p.hedges = m.hedges.map HedgeKind.name) : ∀ s ∈ spoken ref (names vs) ps, '#' ∉ s := by
  intro s hs
  obtain ⟨o, ho, rfl⟩ := List.mem_filterMap.1 hs
  obtain ⟨i, hi, hx⟩ := List.mem_mapIdx.1 ho
  cases hf : ps.find? fun p => p.var == ref i with
  | none => rw [hf] at hx; cases hx
  | some p =>
    rw [hf] at hx
    obtain rfl := Option.some.inj hx
    obtain ⟨m, hm⟩ := h p (List.mem_of_find?_eq_some hf)
    obtain ⟨h1, h2⟩ := names_hash vs _ (List.getElem_mem hi)
    have h3 : '#' ∉ (others p.hedges).flatMap fun h => h ++ cs! " " := by
      intro hc
      obtain ⟨t, ht, hc⟩ := List.mem_flatMap.1 hc
      rw [hm] at ht
      rcases List.mem_append.1 hc with hc | hc
      · exact (hedge_word m t ht).2.2.1 hc
      · revert hc; decide
    have h4 : '#' ∉ (p.term.bind fun j => (names vs)[i].2[j]?).getD [] := by
      cases hj : p.term.bind fun j => (names vs)[i].2[j]? with
      | none => simp
      | some t =>
        cases ht : p.term with
        | none => rw [ht] at hj; cases hj
        | some j =>
          rw [ht] at hj
          exact h2 t (List.mem_of_getElem? hj)
    unfold saying
    simp only [List.mem_append, not_or]
    refine ⟨⟨h1, by decide⟩, ⟨?_, h3⟩, h4⟩
    split <;> decide

theorem join_hash (ts : List Str) (k : Str) (hk : '#' ∉ k) (h : ∀ t ∈ ts, '#' ∉ t) : '#' ∉ Op.join ts k := by
  intro hm
  rcases Op.mem_join hm with ⟨t, ht, hc⟩ | hc
  · exact h t ht hc
  · exact hk hc

theorem uncomment_free (t : Str) (h : '#' ∉ t) : Rule.uncomment t = t := by
  unfold Rule.uncomment
  induction t with
  | nil => rfl
  | cons c t ih =>
    have hc : c ≠ '#' := by rintro rfl; simp at h
    rw [List.takeWhile_cons_of_pos (by simpa using hc), ih fun hm => h (List.mem_cons_of_mem _ hm)]

theorem find_registered {F : ElementFactory S} {H : HedgeFactory S} {V : Vocabulary} (hT : Tidy F H V) (k : Str) (el : Element S)
    (hk : F k = some el) : V.find k = none := by
  have hnot : k ∉ V.names := by
    intro hm
    have := (hT.usable k hm).2.1
    rw [hk] at this; cases this
  unfold Vocabulary.names at hnot
  rw [List.mem_append, not_or] at hnot
  have h1 : V.inputs.findIdx? (fun p => p.1 == k) = none := by
    rw [List.findIdx?_eq_none_iff]
    intro p hp
    have : p.1 ≠ k := fun h => hnot.1 (h ▸ List.mem_map_of_mem hp)
    simpa using this
  have h2 : V.outputs.findIdx? (fun p => p.1 == k) = none := by
    rw [List.findIdx?_eq_none_iff]
    intro p hp
    have : p.1 ≠ k := fun h => hnot.2 (h ▸ List.mem_map_of_mem hp)
    simpa using this
  simp [Vocabulary.find, Vocabulary.findOutput, h1, h2]

/-- the words of a list of propositions -/
theorem spoken_words (V : Vocabulary) (ref : Nat → VarRef) (vs : List (Str × List Str)) (ps : List (Proposition S))
    (hV : ∀ i (h : i < vs.length), V.nameOf (ref i) = vs[i].1 ∧ V.terms (ref i) = vs[i].2)
    (hw : ∀ p ∈ ps, (V.nameOf p.var ≠ [] ∧ Op.NoBlank (V.nameOf p.var)) ∧ (∀ t ∈ V.terms p.var, t ≠ [] ∧ Op.NoBlank t) ∧
      GoodProposition (V.terms p.var).length p) (k : Str) (hk : k ≠ [] ∧ Op.NoBlank k) (q : Proposition S) (qs : List (Proposition S))
    (ho : (ordered ref vs.length ps).map canon = q :: qs) :
    Op.words (Op.join (spoken ref vs ps) (cs! " " ++ k ++ cs! " ")) = chainWords V k q qs := by
  rw [spoken_ordered V ref vs ps hV]
  have hmem : ∀ p ∈ ordered ref vs.length ps, p ∈ ps := fun p hp => ordered_mem hp
  cases hord : ordered ref vs.length ps with
  | nil => rw [hord] at ho; cases ho
  | cons p qs' =>
    rw [hord] at ho hmem
    rw [List.map_cons] at ho
    obtain ⟨rfl, rfl⟩ := List.cons.inj ho
    have key : ∀ p' ∈ p :: qs', Op.words (V.nameOf p'.var ++ cs! " is " ++ saying (V.terms p'.var) p') = (canon p').tokens V :=
      fun p' hp' => by
        obtain ⟨h1, h2, h3⟩ := hw p' (hmem p' hp')
        exact saying_words V p' h1 h2 h3
    rw [List.map_cons, join_words k hk]
    unfold chainWords
    rw [key p (by simp)]
    congr 1
    rw [List.flatMap_map, List.flatMap_map]
    clear * - key
    induction qs' with
    | nil => rfl
    | cons p' qs' ih =>
      rw [List.flatMap_cons, List.flatMap_cons, key p' (by simp), ih fun p'' h => key p'' (by
        rcases List.mem_cons.1 h with rfl | h
        · simp
        · simp [h])]

/-- the words of a proposition that can be read have no keywords -/
theorem tokens_free {G : Registry S} {e : Engine S} (k : Str) (hk : k ≠ isKeyword) (hk' : ∀ m : Modifier, k ∉ m.hedges.map HedgeKind.name)
    (hkn : k ≠ HedgeKind.not.name) (hn : k ∉ (vocabulary e).names ∧ ∀ v, k ∉ (vocabulary e).terms v)
    (hT : Tidy G.functions G.hedges (vocabulary e)) (p : Proposition S) (hp : p.Over G.hedges (vocabulary e))
    (hg : ∃ m : Modifier, others p.hedges = m.hedges.map HedgeKind.name) : k ∉ (canon p).tokens (vocabulary e) := by
  obtain ⟨m, hm⟩ := hg
  intro h
  unfold Proposition.tokens at h
  rw [canon_names] at h
  rcases List.mem_append.1 h with h | h
  · rcases List.mem_cons.1 h with rfl | h
    · exact hn.1 (Antecedent.Tidy.find hT p.var hp.1).2
    · rcases List.mem_cons.1 h with h | h
      · exact hk h
      · rcases List.mem_append.1 h with h | h
        · split at h
          · exact hkn (List.mem_singleton.1 h)
          · simp at h
        · rw [hm] at h
          exact hk' m h
  · have h3 := hp.2.2
    change k ∈ (match p.term with | some j => [((vocabulary e).terms p.var)[j]?.getD []] | none => []) at h
    cases ht : p.term with
    | none => rw [ht] at h; simp at h
    | some j =>
      rw [ht] at h h3
      simp only [List.mem_singleton] at h
      rw [List.getElem?_eq_getElem h3.1, Option.getD_some] at h
      exact hn.2 p.var (h ▸ List.getElem_mem h3.1)

theorem chainWords_mem {V : Vocabulary} {k : Str} {p : Proposition S} {ps : List (Proposition S)} {t : Str}
    (h : t ∈ chainWords V k p ps) : t = k ∨ ∃ q ∈ p :: ps, t ∈ q.tokens V := by
  rcases List.mem_append.1 h with h | h
  · exact .inr ⟨p, by simp, h⟩
  · obtain ⟨q, hq, h⟩ := List.mem_flatMap.1 h
    rcases List.mem_cons.1 h with rfl | h
    · exact .inl rfl
    · exact .inr ⟨q, by simp [hq], h⟩

/-- **C70.**  A rule that is written and read again is loaded.  Its antecedent joins by the same operator the
propositions of the antecedent written, in the order of the variables; its consequent has the first
conclusion for each variable, in the order of the variables; its propositions are as written, except that
`not` comes first; and it has the weight written, or 1. -/
theorem rule_load [PlainText S] (G : Registry S) (hF : Coherent G.functions) (hc : Antecedent.Connectives G.functions) (e : Engine S)
    (hN : Named G e) (r : Rule S) (a : Expr S) (h : Readable G e r a) :
    ∃ p ps c cs, (ordered .input e.inputs.length a.props).map canon = p :: ps ∧
      (ordered .output e.outputs.length r.conclusions).map canon = c :: cs ∧
      (Rule.new (ruleSaid e r a)).reload G (vocabulary e) =
        (⟨true, ruleSaid e r a, readWeight r.weight, lit 0, false,
          Rule.unwords (chainWords (vocabulary e) (if isConj a then andKeyword else orKeyword) p ps), some (chain (isConj a) p ps),
          Rule.unwords (chainWords (vocabulary e) andKeyword c cs), c :: cs⟩, none) := by
  have hT := hN.tidy
  have li : (names e.inputs).length = e.inputs.length := by simp [names]
  have lo : (names (e.outputs.map OutputVariable.toVariable)).length = e.outputs.length := by simp [names]
  -- good propositions, in terms of the vocabulary
  have gi : ∀ p ∈ a.props, GoodProposition ((vocabulary e).terms p.var).length p := by
    intro p hp
    obtain ⟨i, v, h1, h2, h3⟩ := h.about p hp
    rw [h1]
    simpa [vocabulary, Vocabulary.terms, names, h2] using h3
  have go : ∀ p ∈ r.conclusions, GoodProposition ((vocabulary e).terms p.var).length p := by
    intro p hp
    obtain ⟨i, v, h1, h2, h3⟩ := h.concludes p hp
    rw [h1]
    simpa [vocabulary, Vocabulary.terms, names, h2] using h3
  have wv : ∀ p : Proposition S, p.Over G.hedges (vocabulary e) → ((vocabulary e).nameOf p.var ≠ [] ∧ Op.NoBlank ((vocabulary e).nameOf p.var)) ∧
      ∀ t ∈ (vocabulary e).terms p.var, t ≠ [] ∧ Op.NoBlank t := by
    intro p hp
    have h1 := (hT.usable _ (Antecedent.Tidy.find hT p.var hp.1).2).1
    exact ⟨⟨h1.1, h1.2.1⟩, fun t ht => by
      have := (hT.usableTerm p.var t ht).1.1
      exact ⟨this.1, this.2.1⟩⟩
  -- the lists are not empty
  obtain ⟨p, ps, hp⟩ : ∃ p ps, (ordered .input e.inputs.length a.props).map canon = p :: ps := by
    obtain ⟨p, hp⟩ : ∃ p, p ∈ a.props := by
      clear * -
      induction a with
      | prop p => exact ⟨p, by simp [Expr.props]⟩
      | conj l r ih _ => obtain ⟨p, hp⟩ := ih; exact ⟨p, by simp [Expr.props, hp]⟩
      | disj l r ih _ => obtain ⟨p, hp⟩ := ih; exact ⟨p, by simp [Expr.props, hp]⟩
    obtain ⟨i, v, h1, h2, -⟩ := h.about p hp
    have := ordered_ne hp h1 (List.getElem?_eq_some_iff.1 h2).1
    cases ho : ordered .input e.inputs.length a.props with
    | nil => exact absurd ho this
    | cons q qs => exact ⟨_, _, rfl⟩
  obtain ⟨c, cs, hcs⟩ : ∃ c cs, (ordered .output e.outputs.length r.conclusions).map canon = c :: cs := by
    obtain ⟨p, hp⟩ := List.exists_mem_of_ne_nil _ h.some
    obtain ⟨i, v, h1, h2, -⟩ := h.concludes p hp
    have := ordered_ne hp h1 (List.getElem?_eq_some_iff.1 h2).1
    cases ho : ordered .output e.outputs.length r.conclusions with
    | nil => exact absurd ho this
    | cons q qs => exact ⟨_, _, rfl⟩
  have mi : ∀ q ∈ p :: ps, ∃ p' ∈ a.props, q = canon p' := by
    intro q hq
    rw [← hp] at hq
    obtain ⟨p', hp', rfl⟩ := List.mem_map.1 hq
    exact ⟨p', ordered_mem hp', rfl⟩
  have mo : ∀ q ∈ c :: cs, ∃ p' ∈ r.conclusions, q = canon p' := by
    intro q hq
    rw [← hcs] at hq
    obtain ⟨p', hp', rfl⟩ := List.mem_map.1 hq
    exact ⟨p', ordered_mem hp', rfl⟩
  refine ⟨p, ps, c, cs, hp, hcs, ?_⟩
  have kw : (if isConj a then andKeyword else orKeyword) ≠ [] ∧ Op.NoBlank (if isConj a then andKeyword else orKeyword) := by
    cases isConj a <;> decide
  have ja := spoken_words (vocabulary e) .input (names e.inputs) a.props (vocabulary_inputs e)
    (fun p hp => ⟨(wv p (h.antecedent p hp)).1, (wv p (h.antecedent p hp)).2, gi p hp⟩) (if isConj a then andKeyword else orKeyword) kw p ps
    (by rw [li]; exact hp)
  have jc := spoken_words (vocabulary e) .output (names (e.outputs.map OutputVariable.toVariable)) r.conclusions (vocabulary_outputs e)
    (fun p hp => ⟨(wv p (h.conclusions p hp).1).1, (wv p (h.conclusions p hp).1).2, go p hp⟩) andKeyword (by decide) c cs
    (by rw [lo]; exact hcs)
  have hhash : '#' ∉ ruleSaid e r a := by
    have h1 := join_hash _ (if isConj a then cs! " and " else cs! " or ") (by cases isConj a <;> decide) (spoken_hash .input e.inputs a.props fun p hp => by
      obtain ⟨m, hm, -⟩ := (gi p hp).hedges; exact ⟨m, hm⟩)
    have h2 := join_hash _ (cs! " and ") (by decide) (spoken_hash .output (e.outputs.map OutputVariable.toVariable) r.conclusions fun p hp => by
      obtain ⟨m, hm, -⟩ := (go p hp).hedges; exact ⟨m, hm⟩)
    have h3 := str_mark r.weight (c := '#') (by decide)
    unfold ruleSaid
    simp only [List.mem_append, not_or]
    refine ⟨⟨⟨⟨by decide, h1⟩, by decide⟩, h2⟩, ?_⟩
    split
    · simp
    · simp only [List.mem_append, not_or]; exact ⟨by decide, h3⟩
  unfold Rule.reload
  refine Rule.load_wellFormed G hF hc (vocabulary e) ?_ ?_ _ _ _ _ _ _ _ ?_ ?_ ?_ (if isConj a then 1 else 0) ?_ ?_
  · obtain ⟨x, o, hx, ho, -⟩ := hc
    exact find_registered hT _ _ hx
  · obtain ⟨x, o, hx, ho, -⟩ := hc
    exact find_registered hT _ _ ho
  · have ht : (Rule.new (ruleSaid e r a) : Rule S).text = ruleSaid e r a := rfl
    rw [ht, uncomment_free _ hhash]
    have e1 : ruleSaid e r a = ifKeyword ++ ' ' :: (Op.join (spoken .input (names e.inputs) a.props)
        (cs! " " ++ (if isConj a then andKeyword else orKeyword) ++ cs! " ") ++ ' ' :: (thenKeyword ++ ' ' ::
        (Op.join (spoken .output (names (e.outputs.map OutputVariable.toVariable)) r.conclusions) (cs! " " ++ andKeyword ++ cs! " ") ++
          if Op.isEq (reread r.weight) (lit 1) then [] else cs! " with " ++ ScalarText.str r.weight))) := by
      unfold ruleSaid
      have : (if isConj a then cs! " and " else cs! " or ") = cs! " " ++ (if isConj a then andKeyword else orKeyword) ++ cs! " " := by
        cases isConj a <;> rfl
      rw [this]
      simp [ifKeyword, thenKeyword, andKeyword]
    rw [e1, Op.words_blank _ _ _ (by decide), Op.words_blank _ _ _ (by decide), Op.words_blank _ _ _ (by decide), ja,
      Op.words_single ifKeyword (by decide) (by decide), Op.words_single thenKeyword (by decide) (by decide)]
    unfold readWeight
    by_cases hw : Op.isEq (reread r.weight) (lit 1 : S) = true
    · refine ⟨[], ?_, .inl ⟨rfl, by rw [if_pos hw]⟩⟩
      rw [if_pos hw, List.append_nil, jc]
      simp
    · refine ⟨[withKeyword, ScalarText.str r.weight], ?_, .inr ⟨_, rfl, ?_⟩⟩
      · rw [if_neg hw]
        have e2 : ∀ J : Str, J ++ (cs! " with " ++ ScalarText.str r.weight) = J ++ ' ' :: (withKeyword ++ ' ' :: ScalarText.str r.weight) := by
          intro J; simp [withKeyword]
        rw [e2, Op.words_blank _ _ _ (by decide), Op.words_blank _ _ _ (by decide), jc, Op.words_single withKeyword (by decide) (by decide),
          Op.words_single _ (LawfulText.str_ne _) (fun c hc => (LawfulText.str_char _ c hc).1)]
        simp
      · rw [if_neg hw]
        exact ofText_str _
  · intro hm
    rcases chainWords_mem hm with h1 | ⟨q, hq, h1⟩
    · revert h1; cases isConj a <;> decide
    · obtain ⟨p', hp', rfl⟩ := mi q hq
      obtain ⟨m, hm', -⟩ := (gi p' hp').hedges
      exact tokens_free thenKeyword (by decide) (fun m hm => (hedge_word m _ hm).2.2.2.1 rfl) (by decide) hN.noThen hT p'
        (h.antecedent p' hp') ⟨m, hm'⟩ h1
  · intro hm
    rcases chainWords_mem hm with h1 | ⟨q, hq, h1⟩
    · revert h1; decide
    · obtain ⟨p', hp', rfl⟩ := mo q hq
      obtain ⟨m, hm', -⟩ := (go p' hp').hedges
      exact tokens_free withKeyword (by decide) (fun m hm => (hedge_word m _ hm).2.2.2.2 rfl) (by decide) hN.noWith hT p'
        (h.conclusions p' hp').1 ⟨m, hm'⟩ h1
  · have hwr : ∀ q ∈ p :: ps, Antecedent.Writes G.hedges (vocabulary e) q (q.tokens (vocabulary e)) ∧
        ∀ t ∈ q.tokens (vocabulary e), Usable G.functions t := by
      intro q hq
      obtain ⟨p', hp', rfl⟩ := mi q hq
      exact Antecedent.Tidy.proposition hT _ (canon_over p' (h.antecedent p' hp'))
    have hlex : (chainWords (vocabulary e) (if isConj a then andKeyword else orKeyword) p ps).flatMap tokens =
        chainWords (vocabulary e) (if isConj a then andKeyword else orKeyword) p ps := by
      have : ∀ t ∈ chainWords (vocabulary e) (if isConj a then andKeyword else orKeyword) p ps, tokens t = [t] := by
        intro t ht
        rcases chainWords_mem ht with rfl | ⟨q, hq, h1⟩
        · cases isConj a <;> decide
        · exact tokens_lexeme t ((hwr q hq).2 t h1).1
      revert this
      generalize chainWords (vocabulary e) (if isConj a then andKeyword else orKeyword) p ps = ts
      intro this
      induction ts with
      | nil => rfl
      | cons t ts ih => rw [List.flatMap_cons, this t (by simp), ih fun t ht => this t (List.mem_cons_of_mem _ ht)]; rfl
    rw [hlex]
    refine chain_infix (isConj a) G.functions G.hedges (vocabulary e) ps (fun q hq => ⟨(hwr q (by simp [hq])).1, fun t ht =>
      ((hwr q (by simp [hq])).2 t ht).2⟩) _ _ ?_
    have h2 : Antecedent.Infix G.functions G.hedges (vocabulary e) 2 (.prop p) (p.tokens (vocabulary e)) :=
      .prop p _ (hwr p (by simp)).1 fun t ht => ((hwr p (by simp)).2 t ht).2
    cases isConj a
    · exact .weaken _ _ _ (.weaken _ _ _ h2)
    · exact .weaken _ _ _ h2
  · refine sentence_chain G.hedges (vocabulary e) c cs fun q hq => ?_
    obtain ⟨p', hp', rfl⟩ := mo q hq
    obtain ⟨i, v, h1, -, -⟩ := h.concludes p' hp'
    obtain ⟨h2, h3⟩ := h.conclusions p' hp'
    obtain ⟨j, hj⟩ := Option.ne_none_iff_exists'.1 h3
    exact conclusion_writes hT (canon p') (canon_over p' h2) i h1 j hj

/-! ### rules in normal form -/

/-- the propositions are about different variables, in the order of the variables -/
def InOrder (ref : Nat → VarRef) (ps : List (Proposition S)) : Prop :=
  ∃ is : List Nat, is.Pairwise (· < ·) ∧ ps.map Proposition.var = is.map ref

theorem ordered_sublist (ref : Nat → VarRef) (hinj : ∀ i j, ref i = ref j → i = j) {is l : List Nat} (hs : is.Sublist l) (hl : l.Nodup)
    (ps : List (Proposition S)) (h : ps.map Proposition.var = is.map ref) :
    (l.filterMap fun i => ps.find? fun p => p.var == ref i) = ps := by
  induction hs generalizing ps with
  | slnil =>
    cases ps with
    | nil => rfl
    | cons p ps => simp at h
  | @cons is l j hs ih =>
    rw [List.nodup_cons] at hl
    rw [List.filterMap_cons_none, ih hl.2 ps h]
    rw [List.find?_eq_none]
    intro p hp
    have : p.var ∈ is.map ref := by rw [← h]; exact List.mem_map_of_mem hp
    obtain ⟨i, hi, he⟩ := List.mem_map.1 this
    simp only [beq_iff_eq]
    intro hj
    obtain rfl := hinj i j (he.trans hj)
    exact hl.1 (hs.subset hi)
  | @cons_cons is l j hs ih =>
    rw [List.nodup_cons] at hl
    cases ps with
    | nil => simp at h
    | cons p ps =>
      rw [List.map_cons, List.map_cons] at h
      obtain ⟨h1, h2⟩ := List.cons.inj h
      rw [List.filterMap_cons_some (b := p) (by simp [h1])]
      congr 1
      have e : (l.filterMap fun i => (p :: ps).find? fun p => p.var == ref i) = l.filterMap fun i => ps.find? fun p => p.var == ref i := by
        apply List.filterMap_congr
        intro i hi
        rw [List.find?_cons_of_neg]
        simp only [beq_iff_eq, h1]
        intro hj
        obtain rfl := hinj j i hj
        exact hl.1 hi
      rw [e]
      exact ih hl.2 ps h2

theorem sublist_range {is : List Nat} (h : is.Pairwise (· < ·)) (n : Nat) (hn : ∀ i ∈ is, i < n) : is.Sublist (List.range n) := by
  have key : ∀ (k m : Nat) (is : List Nat), is.Pairwise (· < ·) → (∀ i ∈ is, k ≤ i ∧ i < k + m) → is.Sublist (List.range' k m) := by
    intro k m
    induction m generalizing k with
    | zero =>
      intro is _ hb
      cases is with
      | nil => exact .slnil
      | cons i is => have := hb i (by simp); omega
    | succ m ih =>
      intro is hp hb
      rw [List.range'_succ]
      cases is with
      | nil => exact List.nil_sublist _
      | cons i is =>
        rw [List.pairwise_cons] at hp
        have hi := hb i (by simp)
        by_cases he : i = k
        · subst he
          refine .cons_cons _ (ih (i + 1) is hp.2 fun j hj => ?_)
          have h1 := hp.1 j hj
          have h2 := hb j (by simp [hj])
          omega
        · refine .cons _ (ih (k + 1) (i :: is) (List.pairwise_cons.2 hp) fun j hj => ?_)
          have h2 := hb j hj
          rcases List.mem_cons.1 hj with rfl | hj
          · omega
          · have h1 := hp.1 j hj
            omega
  rw [List.range_eq_range']
  exact key 0 n is h fun i hi => ⟨Nat.zero_le _, by have := hn i hi; omega⟩

theorem ordered_same (ref : Nat → VarRef) (hinj : ∀ i j, ref i = ref j → i = j) (n : Nat) (ps : List (Proposition S)) (h : InOrder ref ps)
    (hn : ∀ p ∈ ps, ∃ i, p.var = ref i ∧ i < n) : ordered ref n ps = ps := by
  obtain ⟨is, h1, h2⟩ := h
  refine ordered_sublist ref hinj (sublist_range h1 n fun i hi => ?_) List.nodup_range ps h2
  have : ref i ∈ ps.map Proposition.var := by rw [h2]; exact List.mem_map_of_mem hi
  obtain ⟨p, hp, he⟩ := List.mem_map.1 this
  obtain ⟨j, hj, hlt⟩ := hn p hp
  obtain rfl := hinj j i (hj.symm.trans he)
  exact hlt

theorem chain_props (b : Bool) (p : Proposition S) (ps : List (Proposition S)) :
    (chain b p ps).props = p :: ps ∧ (ps ≠ [] → isConj (chain b p ps) = b) := by
  have key : ∀ (ps : List (Proposition S)) (e : Expr S),
      (ps.foldl (fun e q => if b then Expr.conj e (.prop q) else .disj e (.prop q)) e).props = e.props ++ ps ∧
      (ps ≠ [] → isConj (ps.foldl (fun e q => if b then Expr.conj e (.prop q) else .disj e (.prop q)) e) = b) := by
    intro ps
    induction ps with
    | nil => intro e; simp
    | cons q ps ih =>
      intro e
      rw [List.foldl_cons]
      obtain ⟨h1, h2⟩ := ih (if b then Expr.conj e (.prop q) else .disj e (.prop q))
      refine ⟨?_, fun _ => ?_⟩
      · rw [h1]
        cases b <;> simp [Expr.props]
      · by_cases hp : ps = []
        · subst hp
          cases b <;> simp [isConj]
        · exact h2 hp
  exact ⟨(key ps (.prop p)).1, (key ps (.prop p)).2⟩

theorem map_canon {ps : List (Proposition S)} (h : ∀ p ∈ ps, canon p = p) : ps.map canon = ps := by
  induction ps with
  | nil => rfl
  | cons p ps ih => rw [List.map_cons, h p (by simp), ih fun p hp => h p (List.mem_cons_of_mem _ hp)]

/-- **C70.**  A rule whose antecedent joins propositions from the left, about different variables in the
order of the variables, with `not` only at the start of the hedges, and whose conclusions are likewise in
order, is read with the same antecedent and the same conclusions. -/
theorem rule_same [PlainText S] (G : Registry S) (hF : Coherent G.functions) (hc : Antecedent.Connectives G.functions) (e : Engine S)
    (hN : Named G e) (r : Rule S) (b : Bool) (p : Proposition S) (ps : List (Proposition S)) (h : Readable G e r (chain b p ps))
    (hi : InOrder .input (p :: ps)) (ho : InOrder .output r.conclusions) (hci : ∀ q ∈ p :: ps, canon q = q)
    (hco : ∀ q ∈ r.conclusions, canon q = q) :
    ∃ A C, (Rule.new (ruleSaid e r (chain b p ps))).reload G (vocabulary e) =
      (⟨true, ruleSaid e r (chain b p ps), readWeight r.weight, lit 0, false, A, some (chain b p ps), C, r.conclusions⟩, none) := by
  obtain ⟨q, qs, c, cs, h1, h2, h3⟩ := rule_load G hF hc e hN r _ h
  obtain ⟨hp, hb⟩ := chain_props b p ps
  rw [hp, ordered_same .input (fun i j h => by cases h; rfl) _ _ hi, map_canon hci] at h1
  · rw [ordered_same .output (fun i j h => by cases h; rfl) _ _ ho, map_canon hco] at h2
    · obtain ⟨rfl, rfl⟩ := List.cons.inj h1
      have : chain (isConj (chain b p ps)) p ps = chain b p ps := by
        by_cases hps : ps = []
        · subst hps; rfl
        · rw [hb hps]
      rw [this, ← h2] at h3
      exact ⟨_, _, h3⟩
    · intro q hq
      obtain ⟨i, v, h4, h5, -⟩ := h.concludes q hq
      exact ⟨i, h4, (List.getElem?_eq_some_iff.1 h5).1⟩
  · intro q hq
    obtain ⟨i, v, h4, h5, -⟩ := h.about q (by rw [hp]; exact hq)
    exact ⟨i, h4, (List.getElem?_eq_some_iff.1 h5).1⟩

/-! ### when reading succeeds -/

/-- a term whose formula has lost its blanks -/
def unspaced (t : Term S) : Term S :=
  match t.kind with
  | .function f => { t with kind := .function { f with formula := f.formula.filter fun c => !isSpace c } }
  | _ => t

/-- every formula can be loaded without its blanks; it may mention `x`, the variable of its term and those
before, where input variables come before output variables -/
def Loads (F : ElementFactory S) (e : Engine S) : Prop :=
  (∀ i v, e.inputs[i]? = some v → ∀ t ∈ v.terms,
    Fll.Loadable F ((e.inputs.take (i + 1)).map fun v => Op.validName v.name) (unspaced t)) ∧
  (∀ i v, e.outputs[i]? = some v → ∀ t ∈ v.terms,
    Fll.Loadable F ((e.inputs.map fun v => Op.validName v.name) ++ (e.outputs.take (i + 1)).map fun v => Op.validName v.name) (unspaced t))

theorem readTerm_ok_iff [LawfulText S] (F : ElementFactory S) (ctx : Ctx S) (t : Term S) :
    (∃ u, readTerm F ctx t = .ok u) ↔ Fll.Loadable F (ctx.inputs.map Prod.fst ++ ctx.outputs.map Prod.fst) (unspaced t) := by
  rw [← Fll.readTerm_ok_iff]
  unfold readTerm unspaced
  cases hk : t.kind with
  | shape s => simp [Fll.readTerm_shape F ctx t s hk]
  | discrete xy => simp [Fll.readTerm_discrete F ctx t xy hk]
  | constant v => simp [Fll.readTerm_constant F ctx t v hk]
  | linear c b => simp [Fll.readTerm_linear F ctx t c b hk]
  | function f =>
    rw [Fll.readTerm_function F ctx _ _ rfl]
    simp only
    rcases Fun.load F ⟨[], none, true, fun _ => none⟩ (f.formula.filter fun c => !isSpace c) true ctx with ⟨g, _ | e⟩ <;> simp

theorem readInput_ok_iff [LawfulText S] (F : ElementFactory S) (ctx : Ctx S) (v : Variable S) :
    (∃ w, readInput F ctx v = .ok w) ↔
      ∀ t ∈ v.terms, Fll.Loadable F (ctx.inputs.map Prod.fst ++ ctx.outputs.map Prod.fst) (unspaced t) := by
  simp only [← readTerm_ok_iff, ← Fll.mapM_ok_iff]
  unfold readInput
  cases v.terms.mapM (readTerm F ctx) <;> simp [bind, Except.bind]

theorem readOutput_ok_iff [LawfulText S] (F : ElementFactory S) (ctx : Ctx S) (v : OutputVariable S) :
    (∃ w, readOutput F ctx v = .ok w) ↔
      ∀ t ∈ v.terms, Fll.Loadable F (ctx.inputs.map Prod.fst ++ ctx.outputs.map Prod.fst) (unspaced t) := by
  simp only [← readTerm_ok_iff, ← Fll.mapM_ok_iff]
  unfold readOutput
  cases v.terms.mapM (readTerm F ctx) <;> simp [bind, Except.bind]

theorem readInputs_ok_iff [LawfulText S] (F : ElementFactory S) (c : Ctx S) (hc : c.outputs = []) (vs : List (Variable S)) :
    (∃ ws, readInputs F c vs = .ok ws) ↔ ∀ i v, vs[i]? = some v → ∀ t ∈ v.terms,
      Fll.Loadable F (c.inputs.map Prod.fst ++ (vs.take (i + 1)).map fun v => Op.validName v.name) (unspaced t) := by
  induction vs generalizing c with
  | nil => simp [readInputs]
  | cons v vs ih =>
    rw [readInputs]
    have h1 := readInput_ok_iff F ⟨c.inputs ++ [(Op.validName v.name, nan)], c.outputs⟩ v
    have h2 := ih ⟨c.inputs ++ [(Op.validName v.name, nan)], c.outputs⟩ hc
    simp only [hc, List.map_nil, List.append_nil, List.map_append, List.map_cons] at h1
    simp only [List.map_append, List.map_cons, List.map_nil] at h2
    have hall : (∀ i w, (v :: vs)[i]? = some w → ∀ t ∈ w.terms,
        Fll.Loadable F (c.inputs.map Prod.fst ++ ((v :: vs).take (i + 1)).map fun v => Op.validName v.name) (unspaced t)) ↔
        (∀ t ∈ v.terms, Fll.Loadable F (c.inputs.map Prod.fst ++ [Op.validName v.name]) (unspaced t)) ∧
        ∀ i w, vs[i]? = some w → ∀ t ∈ w.terms,
          Fll.Loadable F (c.inputs.map Prod.fst ++ [Op.validName v.name] ++ (vs.take (i + 1)).map fun v => Op.validName v.name) (unspaced t) := by
      constructor
      · intro h
        refine ⟨by simpa using h 0 v rfl, fun i w hw => by simpa using h (i + 1) w (by simpa using hw)⟩
      · rintro ⟨ha, hb⟩ i w hw
        cases i with
        | zero =>
          obtain rfl : v = w := by simpa using hw
          simpa using ha
        | succ i => simpa using hb i w (by simpa using hw)
    rw [hall, ← h1, ← h2, hc]
    cases readInput F ⟨c.inputs ++ [(Op.validName v.name, nan)], []⟩ v with
    | error err => simp [bind, Except.bind]
    | ok w =>
      rw [Fll.ok_bind]
      cases readInputs F ⟨c.inputs ++ [(Op.validName v.name, nan)], []⟩ vs <;> simp [bind, Except.bind]

theorem readOutputs_ok_iff [LawfulText S] (F : ElementFactory S) (c : Ctx S) (vs : List (OutputVariable S)) :
    (∃ ws, readOutputs F c vs = .ok ws) ↔ ∀ i v, vs[i]? = some v → ∀ t ∈ v.terms,
      Fll.Loadable F (c.inputs.map Prod.fst ++ c.outputs.map Prod.fst ++ (vs.take (i + 1)).map fun v => Op.validName v.name) (unspaced t) := by
  induction vs generalizing c with
  | nil => simp [readOutputs]
  | cons v vs ih =>
    rw [readOutputs]
    have h1 := readOutput_ok_iff F ⟨c.inputs, c.outputs ++ [(Op.validName v.name, nan)]⟩ v
    have h2 := ih ⟨c.inputs, c.outputs ++ [(Op.validName v.name, nan)]⟩
    simp only [List.map_nil, List.map_append, List.map_cons] at h1
    simp only [List.map_append, List.map_cons, List.map_nil] at h2
    have hall : (∀ i w, (v :: vs)[i]? = some w → ∀ t ∈ w.terms,
        Fll.Loadable F (c.inputs.map Prod.fst ++ c.outputs.map Prod.fst ++ ((v :: vs).take (i + 1)).map fun v => Op.validName v.name)
          (unspaced t)) ↔
        (∀ t ∈ v.terms, Fll.Loadable F (c.inputs.map Prod.fst ++ (c.outputs.map Prod.fst ++ [Op.validName v.name])) (unspaced t)) ∧
        ∀ i w, vs[i]? = some w → ∀ t ∈ w.terms,
          Fll.Loadable F (c.inputs.map Prod.fst ++ (c.outputs.map Prod.fst ++ [Op.validName v.name]) ++
            (vs.take (i + 1)).map fun v => Op.validName v.name) (unspaced t) := by
      constructor
      · intro h
        refine ⟨by simpa using h 0 v rfl, fun i w hw => by simpa using h (i + 1) w (by simpa using hw)⟩
      · rintro ⟨ha, hb⟩ i w hw
        cases i with
        | zero =>
          obtain rfl : v = w := by simpa using hw
          simpa using ha
        | succ i => simpa using hb i w (by simpa using hw)
    rw [hall, ← h1, ← h2]
    cases readOutput F ⟨c.inputs, c.outputs ++ [(Op.validName v.name, nan)]⟩ v with
    | error err => simp [bind, Except.bind]
    | ok w =>
      rw [Fll.ok_bind]
      cases readOutputs F ⟨c.inputs, c.outputs ++ [(Op.validName v.name, nan)]⟩ vs <;> simp [bind, Except.bind]

/-- C70: reading what was written succeeds exactly when the formulas can be loaded -/
theorem reading_ok_iff [LawfulText S] (x : FisImporter) (G : Registry S) (e : Engine S) :
    (∃ e', reading x G e = .ok e') ↔ Loads G.functions e := by
  have h1 := readInputs_ok_iff G.functions (⟨[], []⟩ : Ctx S) rfl e.inputs
  have h2 := readOutputs_ok_iff G.functions (⟨e.inputs.map fun v => (Op.validName v.name, nan), []⟩ : Ctx S) e.outputs
  simp only [List.map_nil, List.nil_append] at h1
  simp only [List.map_nil, List.append_nil, List.map_map, Function.comp_def] at h2
  unfold Loads
  rw [← h1, ← h2]
  unfold reading
  cases readInputs G.functions ⟨[], []⟩ e.inputs with
  | error err => simp [bind, Except.bind]
  | ok is =>
    rw [Fll.ok_bind]
    cases readOutputs G.functions ⟨e.inputs.map fun v => (Op.validName v.name, nan), []⟩ e.outputs <;> simp [bind, Except.bind]

/-- the rule read where `r` was written, with the antecedent `a` -/
def readRule (e : Engine S) (r : Rule S) (a : Expr S) : Rule S :=
  match (ordered .input e.inputs.length a.props).map canon, (ordered .output e.outputs.length r.conclusions).map canon with
  | p :: ps, c :: cs =>
    ⟨true, ruleSaid e r a, readWeight r.weight, lit 0, false,
      Rule.unwords (chainWords (vocabulary e) (if isConj a then andKeyword else orKeyword) p ps), some (chain (isConj a) p ps),
      Rule.unwords (chainWords (vocabulary e) andKeyword c cs), c :: cs⟩
  | _, _ => Rule.new (ruleSaid e r a)

/-- **C70.**  Exporting a good engine whose rules can be read, and whose formulas can be loaded, and importing
the text, succeeds; the engine read has the name, the variables with their ranges and terms (as printed), and a
single rule block with the rules of all blocks, loaded; it has the first norms and the first defuzzifier
found, by default minimum and maximum.  Everything else is lost (`…_violated` in `FisWitness`). -/
theorem roundTrip_partial [Truncate S] [CodeText S] (x : FisImporter) (G : Registry S) (hF : Coherent G.functions)
    (hc : Antecedent.Connectives G.functions) (e : Engine S) (h : Good e) (hN : Named G e) (hl : Loads G.functions e)
    (hr : ∀ b ∈ e.blocks, ∀ r ∈ b.rules, ∀ a, r.antecedent = some a → r.conclusions ≠ [] → Readable G e r a) :
    ∃ text e' is os, FisExporter.toString e = .ok text ∧ x.fromString G text = .ok e' ∧
      readInputs G.functions ⟨[], []⟩ e.inputs = .ok is ∧
      readOutputs G.functions ⟨e.inputs.map fun v => (Op.validName v.name, nan), []⟩ e.outputs = .ok os ∧
      e' = { name := Op.trim e.name, description := [], inputs := is,
             outputs := os.map fun o =>
               { o with
                 defuzzifier := (e.outputs.findSome? OutputVariable.defuzzifier).map (readDefuzzifier x)
                 fuzzy := { o.fuzzy with
                   aggregation := some ((e.outputs.findSome? fun o => o.fuzzy.aggregation).getD (.builtin .maximum)) } }
             blocks :=
               [{ name := [], description := [], enabled := true
                  conjunction := some ((e.blocks.findSome? RuleBlock.conjunction).getD (.builtin .minimum))
                  disjunction := some ((e.blocks.findSome? RuleBlock.disjunction).getD (.builtin .maximum))
                  implication := some ((e.blocks.findSome? RuleBlock.implication).getD (.builtin .minimum))
                  activation := some .general
                  rules := (e.blocks.flatMap RuleBlock.rules).filterMap fun r =>
                    if r.isLoaded then r.antecedent.map (readRule e r) else none }] } := by
  obtain ⟨text, h1, h2⟩ := fromString_toString x G e h
  obtain ⟨e', he⟩ := (reading_ok_iff x G e).2 hl
  unfold reading at he
  cases hi : readInputs G.functions ⟨[], []⟩ e.inputs with
  | error err => rw [hi] at he; cases he
  | ok is =>
    rw [hi, Fll.ok_bind] at he
    cases ho : readOutputs G.functions ⟨e.inputs.map fun v => (Op.validName v.name, nan), []⟩ e.outputs with
    | error err => rw [ho] at he; cases he
    | ok os =>
      rw [ho, Fll.ok_bind] at he
      refine ⟨text, e', is, os, h1, ?_, rfl, rfl, ?_⟩
      · rw [h2]; unfold reading; rw [hi, Fll.ok_bind, ho, Fll.ok_bind, he]
      · obtain rfl := Except.ok.inj he
        have : ((saidRules e).map fun t => ((Rule.new t).reload G (vocabulary e)).1) =
            (e.blocks.flatMap RuleBlock.rules).filterMap fun r => if r.isLoaded then r.antecedent.map (readRule e r) else none := by
          unfold saidRules
          rw [List.map_filterMap]
          refine List.filterMap_congr fun r hrm => ?_
          obtain ⟨b, hb, hrb⟩ := List.mem_flatMap.1 hrm
          by_cases hld : r.isLoaded = true
          · rw [if_pos hld, if_pos hld]
            cases ha : r.antecedent with
            | none => rfl
            | some a =>
              have hne : r.conclusions ≠ [] := by
                unfold Rule.isLoaded at hld
                rintro h0
                simp [h0] at hld
              obtain ⟨p, ps, c, cs, q1, q2, q3⟩ := rule_load G hF hc e hN r a (hr b hb r hrb a ha hne)
              simp only [Option.map_some, q3]
              unfold readRule
              rw [q1, q2]
          · rw [if_neg hld, if_neg hld]; rfl
        rw [this]

end Fis
end
end FL
