/-
C70: what the importer of the FIS format makes of exported rules and engines.
-/
import Verif.Props.Fis
import Verif.Props.Degree
import Verif.Props.Configure
import Verif.Props.RuleText

namespace FL
open Scalar

section
variable {S : Type} [ScalarText S]

namespace Fis

/-! ### what is said about a variable -/

/-- the number of hedges `not` is odd -/
def negated (hs : List (Hedge S)) : Bool := decide ((hs.countP fun h => h.name = HedgeKind.not.name) % 2 = 1)

/-- the names of the hedges besides `not` -/
def others (hs : List (Hedge S)) : List Str := (hs.map Hedge.name).filter fun n => n ≠ HedgeKind.not.name

/-- the words said about a variable with terms of these names: `not` comes first, and at most once -/
def saying (terms : List Str) (p : Proposition S) : Str :=
  (if negated p.hedges then cs! "not " else []) ++ (others p.hedges).flatMap (fun h => h ++ cs! " ")
    ++ (p.term.bind fun j => terms[j]?).getD []

/-- a proposition about a variable with `n` terms that has a code -/
structure GoodProposition (n : Nat) (p : Proposition S) : Prop where
  hedges : ∃ m : Modifier, others p.hedges = m.hedges.map HedgeKind.name ∧ (p.term = none → m = .any)
  term : ∀ j, p.term = some j → j < n

theorem hedges_fold (hs : List (Hedge S)) (x : S) (b : Bool) :
    hs.foldl FisExporter.hedgeStep (x, b) =
      ((others hs).foldl (fun x n => (FisExporter.hedgeStep (x, false) (.function n ⟨[], none, true, fun _ => none⟩)).1) x,
        Bool.xor b (negated hs)) := by
  induction hs generalizing x b with
  | nil => simp [others, negated]
  | cons h hs ih =>
    rw [List.foldl_cons]
    by_cases hn : h.name = HedgeKind.not.name
    · have e1 : FisExporter.hedgeStep (x, b) h = (x, !b) := by unfold FisExporter.hedgeStep; rw [if_pos hn]
      have e2 : others (h :: hs) = others hs := by simp [others, hn]
      have e3 : negated (h :: hs) = !negated hs := by
        unfold negated
        rw [List.countP_cons_of_pos (by simpa using hn)]
        rcases Nat.mod_two_eq_zero_or_one (hs.countP fun h => h.name = HedgeKind.not.name) with h2 | h2 <;>
          simp [Nat.add_mod, h2]
      rw [e1, ih, e2, e3]
      cases b <;> cases negated hs <;> rfl
    · have e1 : FisExporter.hedgeStep (x, b) h =
          ((FisExporter.hedgeStep (x, false) (.function h.name ⟨[], none, true, fun _ => none⟩)).1, b) := by
        unfold FisExporter.hedgeStep
        rw [show (Hedge.function h.name ⟨[], none, true, fun _ => none⟩ : Hedge S).name = h.name from rfl]
        revert hn
        generalize h.name = n
        intro hn
        rw [if_neg hn, if_neg hn]
        split_ifs <;> rfl
      have e2 : others (h :: hs) = h.name :: others hs := by simp [others, hn]
      have e3 : negated (h :: hs) = negated hs := by
        unfold negated
        rw [List.countP_cons_of_neg (by simpa using hn)]
      rw [e1, ih, e2, e3, List.foldl_cons]

theorem hedges_code (hs : List (Hedge S)) (m : Modifier) (h : others hs = m.hedges.map HedgeKind.name) :
    hs.foldl FisExporter.hedgeStep (lit 0, false) = (m.plus, negated hs) := by
  rw [hedges_fold, h, Bool.false_xor]
  congr 1
  cases m <;> simp only [Modifier.hedges, List.map_cons, List.map_nil, List.foldl_cons, List.foldl_nil, FisExporter.hedgeStep,
    Hedge.name, Modifier.plus] <;> simp only [HedgeKind.name] <;> rfl

theorem hedgeText_means [Truncate S] {y : S} {i : Nat} {m : Modifier} {b : Bool} (h : Means y i m b) :
    FisImporter.hedgeText (fn2 .fmod (abs y) (lit 1)) = .ok (m.hedges.flatMap fun h => h.name ++ cs! " ") := by
  have h1 := h.fraction .seldom
  have h2 := h.fraction .somewhat
  have h3 := h.fraction .very
  have h4 := h.fraction .extremely
  have h5 := h.fraction .veryVery
  have h6 := h.fraction .any
  have h7 := h.fraction .plain
  rw [show (((Modifier.seldom.hundredths : Nat) : ℚ) / 100) = 1 / 100 by norm_num [Modifier.hundredths]] at h1
  rw [show (((Modifier.somewhat.hundredths : Nat) : ℚ) / 100) = 5 / 100 by norm_num [Modifier.hundredths]] at h2
  rw [show (((Modifier.very.hundredths : Nat) : ℚ) / 100) = 2 / 10 by norm_num [Modifier.hundredths]] at h3
  rw [show (((Modifier.extremely.hundredths : Nat) : ℚ) / 100) = 3 / 10 by norm_num [Modifier.hundredths]] at h4
  rw [show (((Modifier.veryVery.hundredths : Nat) : ℚ) / 100) = 4 / 10 by norm_num [Modifier.hundredths]] at h5
  rw [show (((Modifier.any.hundredths : Nat) : ℚ) / 100) = 99 / 100 by norm_num [Modifier.hundredths]] at h6
  rw [show (((Modifier.plain.hundredths : Nat) : ℚ) / 100) = 0 by norm_num [Modifier.hundredths]] at h7
  unfold FisImporter.hedgeText
  rw [h1, h2, h3, h4, h5, h6, h7]
  cases m <;> decide

theorem translateProposition_means [Truncate S] {y : S} {i : Nat} {m : Modifier} {b : Bool} (h : Means y i m b)
    (hne : i ≠ 0 ∨ m ≠ .plain) (terms : List Str) (hi : i ≤ terms.length) :
    FisImporter.translateProposition y terms = .ok ((if b then cs! "not " else []) ++
      m.hedges.flatMap (fun h => h.name ++ cs! " ") ++ (if i = 0 then [] else terms[i - 1]?.getD [])) := by
  unfold FisImporter.translateProposition
  rw [h.whole]
  simp only
  rw [if_neg (by omega), hedgeText_means h, Fll.ok_bind, h.sign hne]
  by_cases h0 : i = 0
  · subst h0; simp
  · rw [if_neg (show ¬ ((i : Int) - 1 < 0) by omega), if_neg h0]
    have : ((i : Int) - 1).toNat = i - 1 := by omega
    rw [this]

/-- one code in a line of a rule -/
structure Code [Truncate S] (v : Str × List Str) (p : Option (Proposition S)) (text : Str) : Prop where
  code : FisExporter.code v.2.length p = text ++ cs! " "
  ne : text ≠ []
  marks : ∀ c ∈ cs! "'=:,[]#/\n() ", c ∉ text
  head : ∀ c, text.head? = some c → c.isDigit = true ∨ c ∈ cs! "+-.ni"
  reads : ∃ y : S, ScalarText.ofText text = some y ∧ Op.isEq y (lit 0) = p.isNone ∧
    ∀ q, p = some q → FisImporter.translateProposition y v.2 = .ok (saying v.2 q)

theorem head_of_text [PlainText S] (t : Str) (y : S) (h : ScalarText.ofText t = some y) (c : Char) (hc : t.head? = some c) :
    c.isDigit = true ∨ c ∈ cs! "+-.ni" := by
  cases t with
  | nil => simp at hc
  | cons d t =>
    obtain rfl : d = c := by simpa using hc
    exact PlainText.head (S := S) d t (by rw [h]; simp)

theorem code_none [Truncate S] [CodeText S] (v : Str × List Str) : ∃ text, Code (S := S) v none text := by
  obtain ⟨y, z, hy, my, -, -⟩ := CodeText.code (S := S) 0 .plain (by decide)
  refine ⟨ScalarText.str (lit (0 : Nat) + Modifier.plain.plus : S), ⟨?_, LawfulText.str_ne _, fun c hc => str_mark _ hc,
    head_of_text _ y hy, y, hy, ?_, by simp⟩⟩
  · unfold FisExporter.code
    simp only [Option.bind_none, Option.map_none, Option.getD_none, List.foldl_nil]
    have := CodeText.number (S := S) .plain
    simp only [Modifier.plus] at this ⊢
    simp only [this, Bool.false_eq_true, if_false, Nat.cast_zero]
    rfl
  · rw [my.zero]; rfl

theorem code_some [Truncate S] [CodeText S] (v : Str × List Str) (hv : v.2.length < 2147483648) (p : Proposition S)
    (hp : GoodProposition v.2.length p) : ∃ text, Code (S := S) v (some p) text := by
  obtain ⟨⟨m, hm, hnone⟩, hterm⟩ := hp
  let i := (p.term.map (· + 1)).getD 0
  have hi : i ≤ v.2.length := by
    show (p.term.map (· + 1)).getD 0 ≤ _
    cases ht : p.term with
    | none => simp
    | some j => have := hterm j ht; simp; omega
  have hne : i ≠ 0 ∨ m ≠ .plain := by
    show (p.term.map (· + 1)).getD 0 ≠ 0 ∨ _
    cases ht : p.term with
    | none => right; rw [hnone ht]; decide
    | some j => simp
  have hcode : FisExporter.code v.2.length (some p) = ((if negated p.hedges then cs! "-" else []) ++
      ScalarText.str (lit (i : ℚ) + m.plus : S)) ++ cs! " " := by
    unfold FisExporter.code
    simp only [Option.bind_some, Option.map_some, Option.getD_some, hedges_code p.hedges m hm]
    have hnum := CodeText.number (S := S) m
    simp only [hnum, Bool.false_eq_true, if_false]
    change _ = _ ++ ScalarText.str (lit (((p.term.map (· + 1)).getD 0 : Nat) : ℚ) + m.plus : S) ++ _
    cases ht : p.term with
    | none => rfl
    | some j => simp [hterm j ht]
  have hsay : saying v.2 p = (if negated p.hedges then cs! "not " else []) ++
      m.hedges.flatMap (fun h => h.name ++ cs! " ") ++ (if i = 0 then [] else v.2[i - 1]?.getD []) := by
    unfold saying
    rw [hm, List.flatMap_map]
    congr 1
    have key : ∀ t : Option Nat, (t.bind fun j => v.2[j]?).getD [] =
        if (t.map (· + 1)).getD 0 = 0 then [] else v.2[(t.map (· + 1)).getD 0 - 1]?.getD [] := by
      rintro (_ | j) <;> simp
    exact key p.term
  have hz : decide (i = 0 ∧ m = .plain) = false := by
    rw [decide_eq_false_iff_not]; rintro ⟨h1, h2⟩; rcases hne with h | h <;> contradiction
  obtain ⟨y, z, hy, my, hz', mz⟩ := CodeText.code (S := S) i m (by omega)
  cases hb : negated p.hedges with
  | false =>
    rw [hb] at hcode hsay
    refine ⟨_, ⟨hcode, by simpa using LawfulText.str_ne _, fun c hc => by simpa using str_mark (S := S) _ hc,
      head_of_text _ y hy, y, hy, ?_, ?_⟩⟩
    · rw [my.zero, hz]; rfl
    · rintro q hq
      obtain rfl := Option.some.inj hq
      rw [hsay, translateProposition_means my hne v.2 hi]
  | true =>
    rw [hb] at hcode hsay
    refine ⟨_, ⟨hcode, by simp, fun c hc => ?_, head_of_text _ z hz', z, hz', ?_, ?_⟩⟩
    · have h1 := str_mark (S := S) (lit (i : ℚ) + m.plus) hc
      have h2 : c ≠ '-' := by rintro rfl; revert hc; decide
      simp [h1, h2]
    · rw [mz.zero, hz]; rfl
    · rintro q hq
      obtain rfl := Option.some.inj hq
      rw [hsay, translateProposition_means mz hne v.2 hi]

/-- what is said about each of the variables -/
def spoken (ref : Nat → VarRef) (vs : List (Str × List Str)) (ps : List (Proposition S)) : List Str :=
  (vs.mapIdx fun i v => (ps.find? fun p => p.var == ref i).map fun p => v.1 ++ cs! " is " ++ saying v.2 p).filterMap id

theorem codes_of [Truncate S] [CodeText S] (xs : List ((Str × List Str) × Option (Proposition S)))
    (h : ∀ x ∈ xs, x.1.2.length < 2147483648 ∧ ∀ p, x.2 = some p → GoodProposition x.1.2.length p) :
    ∃ ts : List Str, List.Forall₂ (fun x t => Code x.1 x.2 t) xs ts := by
  induction xs with
  | nil => exact ⟨[], .nil⟩
  | cons x xs ih =>
    obtain ⟨ts, hts⟩ := ih fun x hx => h x (List.mem_cons_of_mem _ hx)
    obtain ⟨hl, hx⟩ := h x (by simp)
    obtain ⟨⟨n, terms⟩, p⟩ := x
    cases p with
    | none => obtain ⟨t, ht⟩ := code_none (S := S) (n, terms); exact ⟨t :: ts, .cons ht hts⟩
    | some p => obtain ⟨t, ht⟩ := code_some (S := S) (n, terms) hl p (hx p rfl); exact ⟨t :: ts, .cons ht hts⟩

theorem codes_text [Truncate S] {xs : List ((Str × List Str) × Option (Proposition S))} {ts : List Str}
    (h : List.Forall₂ (fun x t => Code x.1 x.2 t) xs ts) :
    (xs.flatMap fun x => FisExporter.code x.1.2.length x.2) = ts.flatMap fun t => t ++ cs! " " := by
  induction h with
  | nil => rfl
  | cons h _ ih => rw [List.flatMap_cons, List.flatMap_cons, h.code, ih]

theorem codes_propositions [Truncate S] {xs : List ((Str × List Str) × Option (Proposition S))} {ts : List Str}
    (h : List.Forall₂ (fun x t => Code x.1 x.2 t) xs ts) :
    FisImporter.propositions (S := S) ts (xs.map Prod.fst) =
      .ok ((xs.map fun x => x.2.map fun p => x.1.1 ++ cs! " is " ++ saying x.1.2 p).filterMap id) := by
  induction h with
  | nil => rfl
  | @cons x t xs ts h _ ih =>
    obtain ⟨y, hy, hz, hq⟩ := h.reads
    obtain ⟨v, p⟩ := x
    rw [List.map_cons, List.map_cons, FisImporter.propositions]
    unfold toScalar
    rw [hy]
    rw [Fll.ok_bind, hz]
    cases p with
    | none => rw [if_pos (by rfl), ih]; rfl
    | some p =>
      rw [if_neg (by simp), hq p rfl, Fll.ok_bind, ih, Fll.ok_bind]; rfl

/-! ### rules -/

/-- the propositions of an antecedent are joined by `and` -/
def isConj : Expr S → Bool
  | .disj _ _ => false
  | _ => true

/-- the operators of an antecedent: whether each is `and` -/
def ops : Expr S → List Bool
  | .prop _ => []
  | .conj l r => true :: (ops l ++ ops r)
  | .disj l r => false :: (ops l ++ ops r)

/-- the names of variables and of their terms, as they are written -/
def names (vs : List (Variable S)) : List (Str × List Str) :=
  vs.map fun v => (Op.validName v.name, v.terms.map fun t => Op.validName t.name)

/-- a rule that can be written: with one kind of operator, at most one proposition about each input
variable and none about output variables, at most one conclusion for each output variable, and codes
for all -/
structure GoodRule (e : Engine S) (r : Rule S) (a : Expr S) : Prop where
  same : ∀ o ∈ ops a, o = isConj a
  about : ∀ p ∈ a.props, ∃ i v, p.var = .input i ∧ e.inputs[i]? = some v ∧ GoodProposition v.terms.length p
  once : (a.props.map Proposition.var).Nodup
  concludes : ∀ p ∈ r.conclusions, ∃ i v, p.var = .output i ∧ e.outputs[i]? = some v ∧ GoodProposition v.terms.length p

/-- the text of the rule read where `r` was written, with the antecedent `a`: the propositions come in the
order of the variables -/
def ruleSaid (e : Engine S) (r : Rule S) (a : Expr S) : Str :=
  cs! "if " ++ Op.join (spoken .input (names e.inputs) a.props) (if isConj a then cs! " and " else cs! " or ")
    ++ cs! " then " ++ Op.join (spoken .output (names (e.outputs.map OutputVariable.toVariable)) r.conclusions) (cs! " and ")
    ++ (if Op.isEq (reread r.weight) (lit 1) then [] else cs! " with " ++ ScalarText.str r.weight)

theorem size_pos (a : Expr S) : 0 < a.size := by cases a <;> simp [Expr.size]

theorem traverse_spec (n : Nat) (q : List (Expr S)) (h : (q.map Expr.size).sum ≤ n) :
    (FisExporter.traverse n q).1.Perm (q.flatMap Expr.props) ∧
      ∀ o ∈ (FisExporter.traverse n q).2, o ∈ q.flatMap ops := by
  induction n generalizing q with
  | zero =>
    cases q with
    | nil => simp [FisExporter.traverse]
    | cons a q => have := size_pos a; simp at h; omega
  | succ n ih =>
    cases q with
    | nil => simp [FisExporter.traverse]
    | cons a q =>
      cases a with
      | prop p =>
        obtain ⟨h1, h2⟩ := ih q (by simp [Expr.size] at h; omega)
        rw [FisExporter.traverse]
        refine ⟨?_, ?_⟩
        · simpa [Expr.props] using h1
        · intro o ho
          have := h2 o ho
          simpa [ops] using this
      | conj a b =>
        obtain ⟨h1, h2⟩ := ih (q ++ [a, b]) (by simp [Expr.size] at h ⊢; omega)
        rw [FisExporter.traverse]
        refine ⟨?_, ?_⟩
        · refine h1.trans ?_
          simp only [List.flatMap_append, List.flatMap_cons, List.flatMap_nil, List.append_nil, Expr.props]
          exact List.perm_append_comm
        · intro o ho
          rcases List.mem_cons.1 ho with rfl | ho
          · simp [ops]
          · have := h2 o ho
            simp only [List.flatMap_append, List.flatMap_cons, List.flatMap_nil, List.append_nil, List.mem_append] at this
            simp only [List.flatMap_cons, ops, List.mem_append, List.mem_cons]
            tauto
      | disj a b =>
        obtain ⟨h1, h2⟩ := ih (q ++ [a, b]) (by simp [Expr.size] at h ⊢; omega)
        rw [FisExporter.traverse]
        refine ⟨?_, ?_⟩
        · refine h1.trans ?_
          simp only [List.flatMap_append, List.flatMap_cons, List.flatMap_nil, List.append_nil, Expr.props]
          exact List.perm_append_comm
        · intro o ho
          rcases List.mem_cons.1 ho with rfl | ho
          · simp [ops]
          · have := h2 o ho
            simp only [List.flatMap_append, List.flatMap_cons, List.flatMap_nil, List.append_nil, List.mem_append] at this
            simp only [List.flatMap_cons, ops, List.mem_append, List.mem_cons]
            tauto

theorem traverse_head (a : Expr S) : ((FisExporter.traverse a.size [a]).2 = [] ∧ isConj a = true) ∨
    ∃ os, (FisExporter.traverse a.size [a]).2 = isConj a :: os := by
  cases a <;> simp [Expr.size, FisExporter.traverse, isConj]

theorem equalOperators_of (b : Bool) (os : List Bool) (h : ∀ o ∈ os, o = b) : FisExporter.equalOperators os = true := by
  induction os with
  | nil => rfl
  | cons o os ih =>
    cases os with
    | nil => rfl
    | cons o' os =>
      have h1 := h o (by simp)
      have h2 := h o' (by simp)
      rw [FisExporter.equalOperators, ih fun o ho => h o (List.mem_cons_of_mem _ ho), h1, h2]
      simp

theorem find_var {ps : List (Proposition S)} (hn : (ps.map Proposition.var).Nodup) (v : VarRef) (p : Proposition S) :
    (ps.find? fun p => p.var == v) = some p ↔ p ∈ ps ∧ p.var = v := by
  induction ps with
  | nil => simp
  | cons q ps ih =>
    rw [List.map_cons, List.nodup_cons] at hn
    by_cases hq : q.var = v
    · rw [List.find?_cons_of_pos (by simpa using hq)]
      constructor
      · intro h
        obtain rfl := Option.some.inj h
        exact ⟨by simp, hq⟩
      · rintro ⟨hm, hv⟩
        rcases List.mem_cons.1 hm with rfl | hm
        · rfl
        · exact absurd (List.mem_map.2 ⟨p, hm, by rw [hv, hq]⟩) hn.1
    · rw [List.find?_cons_of_neg (by simpa using hq), ih hn.2]
      constructor
      · rintro ⟨hm, hv⟩; exact ⟨List.mem_cons_of_mem _ hm, hv⟩
      · rintro ⟨hm, hv⟩
        rcases List.mem_cons.1 hm with rfl | hm
        · exact absurd hv hq
        · exact ⟨hm, hv⟩

theorem find_perm {ps qs : List (Proposition S)} (h : ps.Perm qs) (hn : (qs.map Proposition.var).Nodup) (v : VarRef) :
    (ps.find? fun p => p.var == v) = qs.find? fun p => p.var == v := by
  have hn' : (ps.map Proposition.var).Nodup := (h.map _).nodup_iff.2 hn
  apply Option.ext
  intro p
  rw [find_var hn', find_var hn, h.mem_iff]

theorem split_codes (pre : Str) (hpre : pre = [] ∨ pre = cs! " ") (ts : List Str) (h0 : ts ≠ []) (h : ∀ t ∈ ts, t ≠ [] ∧ ' ' ∉ t) :
    Op.split (pre ++ ts.flatMap fun t => t ++ cs! " ") (cs! " ") true = ts := by
  have key : ∀ us : List Str, (∀ t ∈ us, t ≠ [] ∧ ' ' ∉ t) →
      (Op.split (us.flatMap fun t => t ++ cs! " ") [' '] false).filter (fun p => !p.isEmpty) = us := by
    intro us hu
    induction us with
    | nil => simp [Op.split]
    | cons t us ih =>
      obtain ⟨h1, h2⟩ := hu t (by simp)
      have e : ((t :: us).flatMap fun t => t ++ cs! " ") = t ++ ' ' :: us.flatMap fun t => t ++ cs! " " := by simp
      rw [e, Strict.split_append, Op.split_absent _ _ h2, List.filter_append, ih fun t ht => hu t (List.mem_cons_of_mem _ ht)]
      simp [h1]
  have hne : (ts.flatMap fun t => t ++ cs! " ") ≠ [] := by
    cases ts with
    | nil => exact absurd rfl h0
    | cons t ts => simp
  rcases hpre with rfl | rfl
  · rw [List.nil_append, Op.split_ignoreEmpty _ _ hne (by simp)]
    exact key ts h
  · have e : (cs! " " ++ ts.flatMap fun t => t ++ cs! " ") = [] ++ ' ' :: ts.flatMap fun t => t ++ cs! " " := rfl
    rw [Op.split_ignoreEmpty _ _ (by simp) (by simp), e, show (cs! " ") = [' '] from rfl, Strict.split_append, List.filter_append,
      show Op.split [] [' '] false = [[]] by simp [Op.split]]
    simpa using key ts h

theorem codes_words [Truncate S] {xs : List ((Str × List Str) × Option (Proposition S))} {ts : List Str}
    (h : List.Forall₂ (fun x t => Code x.1 x.2 t) xs ts) : ∀ t ∈ ts, t ≠ [] ∧ ∀ c ∈ cs! "'=:,[]#/\n() ", c ∉ t := by
  induction h with
  | nil => simp
  | cons h _ ih =>
    intro t ht
    rcases List.mem_cons.1 ht with rfl | ht
    · exact ⟨h.ne, h.marks⟩
    · exact ih t ht

theorem codes_free {ts : List Str} (h : ∀ t ∈ ts, t ≠ [] ∧ ∀ c ∈ cs! "'=:,[]#/\n() ", c ∉ t) {c : Char}
    (hc : c ∈ cs! "'=:,[]#/\n()") : c ∉ ts.flatMap fun t => t ++ cs! " " := by
  intro hm
  obtain ⟨t, ht, hm⟩ := List.mem_flatMap.1 hm
  rcases List.mem_append.1 hm with hm | hm
  · exact (h t ht).2 c (by clear * - hc; revert c; decide) hm
  · revert hm; clear * - hc; revert c; decide

theorem connect_join (b : Bool) (ps : List Str) :
    FisImporter.connect (if b then cs! "1" else cs! "2") ps = .ok (Op.join ps (if b then cs! " and " else cs! " or ")) := by
  unfold FisImporter.connect
  by_cases h : ps.length ≤ 1
  · rw [if_pos h]
    match ps, h with
    | [], _ => rfl
    | [p], _ => simp [Op.join]
  · rw [if_neg h]
    cases b <;> simp

/-- the line of a rule -/
def ruleLine (is os : List Str) (w : S) (b : Bool) : Str :=
  (is.flatMap fun t => t ++ cs! " ") ++ ',' ::
    ((cs! " " ++ (os ++ [cs! "(" ++ ScalarText.str w ++ cs! ")"]).flatMap fun t => t ++ cs! " ") ++ ':' ::
      (cs! " " ++ if b then cs! "1" else cs! "2"))

theorem ruleText_line [Truncate S] [CodeText S] {xs ys : List ((Str × List Str) × Option (Proposition S))} {is os : List Str}
    (hi : List.Forall₂ (fun x t => Code x.1 x.2 t) xs is) (ho : List.Forall₂ (fun x t => Code x.1 x.2 t) ys os) (hne : is ≠ [])
    (w : S) (b : Bool) :
    FisImporter.ruleText (S := S) ⟨xs.map Prod.fst, ys.map Prod.fst⟩ (ruleLine is os w b) =
      .ok (cs! "if " ++ Op.join ((xs.map fun x => x.2.map fun p => x.1.1 ++ cs! " is " ++ saying x.1.2 p).filterMap id)
          (if b then cs! " and " else cs! " or ")
        ++ cs! " then " ++ Op.join ((ys.map fun x => x.2.map fun p => x.1.1 ++ cs! " is " ++ saying x.1.2 p).filterMap id) (cs! " and ")
        ++ (if Op.isEq (reread w) (lit 1) then [] else cs! " with " ++ ScalarText.str w)) := by
  have wi := codes_words hi
  have wo := codes_words ho
  have ww : ∀ t ∈ os ++ [cs! "(" ++ ScalarText.str w ++ cs! ")"], t ≠ [] ∧ ∀ c ∈ cs! "'=:,[]#/\n ", c ∉ t := by
    intro t ht
    rcases List.mem_append.1 ht with ht | ht
    · exact ⟨(wo t ht).1, fun c hc => (wo t ht).2 c (by clear * - hc; revert c; decide)⟩
    · obtain rfl := List.mem_singleton.1 ht
      refine ⟨by simp, fun c hc => ?_⟩
      have h1 := str_mark w (c := c) (by clear * - hc; revert c; decide)
      have h2 : c ∉ cs! "()" := by clear * - hc; revert c; decide
      simp only [List.mem_cons, List.not_mem_nil, or_false, not_or] at h2
      simp [h1, h2]
  have fo : ∀ c ∈ cs! "'=:,[]#/\n", c ∉ cs! " " ++ (os ++ [cs! "(" ++ ScalarText.str w ++ cs! ")"]).flatMap fun t => t ++ cs! " " := by
    intro c hc hm
    rcases List.mem_append.1 hm with hm | hm
    · clear * - hm hc; revert c; decide
    · obtain ⟨t, ht, hm⟩ := List.mem_flatMap.1 hm
      rcases List.mem_append.1 hm with hm | hm
      · exact (ww t ht).2 c (by clear * - hc; revert c; decide) hm
      · clear * - hm hc; revert c; decide
  have hk : ∀ c ∈ cs! ",:", c ∉ cs! " " ++ if b then cs! "1" else cs! "2" := by cases b <;> decide
  have hne' : (is.flatMap fun t => t ++ cs! " ") ≠ [] := by
    cases is with
    | nil => exact absurd rfl hne
    | cons t ts => simp
  unfold FisImporter.ruleText ruleLine
  rw [show (cs! ",") = [','] from rfl, split_pair ',' _ _ hne' (by simp) (codes_free wi (by decide)) ?_]
  · simp only
    rw [show (cs! ":") = [':'] from rfl, split_pair ':' _ _ (by simp) (by simp) (fo _ (by decide)) (hk _ (by decide))]
    simp only
    rw [split_codes (cs! " ") (.inr rfl) _ (by simp) fun t ht => ⟨(ww t ht).1, (ww t ht).2 _ (by decide)⟩]
    rw [show (is.flatMap fun t => t ++ cs! " ") = [] ++ is.flatMap fun t => t ++ cs! " " from rfl,
      split_codes [] (.inl rfl) is hne fun t ht => ⟨(wi t ht).1, (wi t ht).2 _ (by decide)⟩]
    simp only [List.getLast?_concat, List.dropLast_concat, List.length_map]
    rw [if_neg (by simp [hi.length_eq]), if_neg (by simp [ho.length_eq]), codes_propositions hi, codes_propositions ho]
    simp only [Fll.ok_bind]
    rw [show Op.trim (cs! " " ++ if b then cs! "1" else cs! "2") = if b then cs! "1" else cs! "2" by cases b <;> decide,
      connect_join, Fll.ok_bind]
    have hf : ((cs! "(" ++ ScalarText.str w ++ cs! ")").filter fun c => !(c = '(' ∨ c = ')' ∨ c = ' ')) = ScalarText.str w := by
      rw [List.filter_append, List.filter_append]
      have : (ScalarText.str w).filter (fun c => !(c = '(' ∨ c = ')' ∨ c = ' ')) = ScalarText.str w := by
        rw [List.filter_eq_self]
        intro c hc
        have h1 := str_mark w (c := '(') (by decide)
        have h2 := str_mark w (c := ')') (by decide)
        have h3 := str_mark w (c := ' ') (by decide)
        simp only [Bool.not_eq_true', decide_eq_false_iff_not, not_or]
        exact ⟨by rintro rfl; exact h1 hc, by rintro rfl; exact h2 hc, by rintro rfl; exact h3 hc⟩
      rw [this]
      simp
    rw [hf]
    unfold toScalar
    rw [ofText_str]
    simp only [Fll.ok_bind, str_reread]
  · simp only [List.mem_append, List.mem_cons, not_or]
    have h1 := fo ',' (by decide)
    have h2 := hk ',' (by decide)
    simp only [List.mem_append, List.mem_cons, not_or] at h1 h2
    exact ⟨h1, by decide, h2⟩

theorem map_mapIdx {α β γ : Type} (f : Nat → α → β) (g : β → γ) (vs : List α) :
    (vs.mapIdx f).map g = vs.mapIdx fun i v => g (f i v) := by
  apply List.ext_getElem?
  intro i
  simp only [List.getElem?_map, List.getElem?_mapIdx, Option.map_map]
  rfl

theorem mapIdx_map {α β γ : Type} (g : α → β) (f : Nat → β → γ) (vs : List α) :
    (vs.map g).mapIdx f = vs.mapIdx fun i v => f i (g v) := by
  apply List.ext_getElem?
  intro i
  simp only [List.getElem?_map, List.getElem?_mapIdx, Option.map_map]
  rfl

theorem codes_refs (ref : Nat → VarRef) (vs : List (Variable S)) (ps : List (Proposition S)) :
    FisExporter.translate ps (vs.mapIdx fun i v => (ref i, v.terms.length)) =
      ((names vs).mapIdx fun i n => (n, ps.find? fun p => p.var == ref i)).flatMap fun x => FisExporter.code x.1.2.length x.2 := by
  unfold FisExporter.translate names
  rw [List.flatMap_def, List.flatMap_def, map_mapIdx, map_mapIdx, mapIdx_map]
  simp [Function.comp_def]

theorem spoken_refs (ref : Nat → VarRef) (vs : List (Str × List Str)) (ps : List (Proposition S)) :
    spoken ref vs ps = (((vs.mapIdx fun i n => (n, ps.find? fun p => p.var == ref i)).map fun x => x.2.map fun p =>
      x.1.1 ++ cs! " is " ++ saying x.1.2 p).filterMap id) := by
  unfold spoken
  rw [map_mapIdx]

theorem fst_refs {α β : Type} (f : Nat → α → β) (vs : List α) : (vs.mapIdx fun i n => (n, f i n)).map Prod.fst = vs := by
  rw [map_mapIdx]
  apply List.ext_getElem?
  intro i
  simp

theorem refs_codes [Truncate S] [CodeText S] (ref : Nat → VarRef) (hinj : ∀ i j, ref i = ref j → i = j) (vs : List (Variable S))
    (hv : ∀ v ∈ vs, v.terms.length < 2147483648) (ps : List (Proposition S))
    (h : ∀ p ∈ ps, ∃ i v, p.var = ref i ∧ vs[i]? = some v ∧ GoodProposition v.terms.length p) :
    ∃ ts : List Str, List.Forall₂ (fun x t => Code x.1 x.2 t)
      ((names vs).mapIdx fun i n => (n, ps.find? fun p => p.var == ref i)) ts := by
  refine codes_of _ fun x hx => ?_
  obtain ⟨i, hi, rfl⟩ := List.mem_mapIdx.1 hx
  simp only [names, List.length_map] at hi
  have hn : (names vs)[i]'(by simpa [names] using hi) =
      (Op.validName vs[i].name, vs[i].terms.map fun t => Op.validName t.name) := by simp [names]
  refine ⟨?_, fun p hp => ?_⟩
  · simp only [hn, List.length_map]
    exact hv _ (List.getElem_mem hi)
  · obtain ⟨j, v, hpv, hj, hg⟩ := h p (List.mem_of_find?_eq_some hp)
    have hq := List.find?_some hp
    simp only [beq_iff_eq] at hq
    obtain rfl := hinj j i (hpv.symm.trans hq)
    rw [List.getElem?_eq_getElem hi] at hj
    obtain rfl := Option.some.inj hj
    simp only [hn, List.length_map]
    exact hg

/-- C70: what a line of a rule says -/
theorem rule_read [Truncate S] [CodeText S] (e : Engine S) (hi : ∀ v ∈ e.inputs, v.terms.length < 2147483648)
    (ho : ∀ v ∈ e.outputs, v.terms.length < 2147483648) (r : Rule S) (a : Expr S) (h : GoodRule e r a) :
    ∃ is os : List Str, FisExporter.rule e r a = .ok (ruleLine is os r.weight (isConj a)) ∧ is ≠ [] ∧
      (∀ t ∈ is ++ os, t ≠ [] ∧ ∀ c ∈ cs! "'=:,[]#/\n() ", c ∉ t) ∧
      (∀ t ∈ is, ∀ c, t.head? = some c → c.isDigit = true ∨ c ∈ cs! "+-.ni") ∧
      FisImporter.ruleText (S := S) ⟨names e.inputs, names (e.outputs.map OutputVariable.toVariable)⟩
        (ruleLine is os r.weight (isConj a)) = .ok (ruleSaid e r a) := by
  obtain ⟨is, his⟩ := refs_codes .input (fun i j h => by cases h; rfl) e.inputs hi a.props h.about
  obtain ⟨os, hos⟩ := refs_codes .output (fun i j h => by cases h; rfl) (e.outputs.map OutputVariable.toVariable)
    (fun v hv => by obtain ⟨o, ho', rfl⟩ := List.mem_map.1 hv; exact ho o ho') r.conclusions
    (fun p hp => by
      obtain ⟨i, v, h1, h2, h3⟩ := h.concludes p hp
      exact ⟨i, v.toVariable, h1, by simp [h2], h3⟩)
  have hne : is ≠ [] := by
    rintro rfl
    have hl := his.length_eq
    obtain ⟨p, hp⟩ : ∃ p, p ∈ a.props := by
      clear * - 
      induction a with
      | prop p => exact ⟨p, by simp [Expr.props]⟩
      | conj l r ih _ => obtain ⟨p, hp⟩ := ih; exact ⟨p, by simp [Expr.props, hp]⟩
      | disj l r ih _ => obtain ⟨p, hp⟩ := ih; exact ⟨p, by simp [Expr.props, hp]⟩
    obtain ⟨i, v, -, hv, -⟩ := h.about p hp
    have := List.mem_of_getElem? hv
    simp [names] at hl
    simp [hl] at this
  obtain ⟨hperm, hops⟩ := traverse_spec a.size [a] (by simp)
  simp only [List.flatMap_cons, List.flatMap_nil, List.append_nil] at hperm hops
  have e1 : FisExporter.translate (FisExporter.traverse a.size [a]).1 (FisExporter.inputRefs e) = is.flatMap fun t => t ++ cs! " " := by
    have : FisExporter.translate (FisExporter.traverse a.size [a]).1 (FisExporter.inputRefs e) =
        FisExporter.translate a.props (FisExporter.inputRefs e) := by
      unfold FisExporter.translate
      simp only [find_perm hperm h.once]
    rw [this]
    unfold FisExporter.inputRefs
    rw [codes_refs, codes_text his]
  have e2 : FisExporter.translate r.conclusions (FisExporter.outputRefs e) = os.flatMap fun t => t ++ cs! " " := by
    have : FisExporter.outputRefs e = (e.outputs.map OutputVariable.toVariable).mapIdx fun i v => (.output i, v.terms.length) := by
      unfold FisExporter.outputRefs
      rw [mapIdx_map]
    rw [this, codes_refs, codes_text hos]
  refine ⟨is, os, ?_, hne, ?_, ?_, ?_⟩
  · unfold FisExporter.rule
    simp only
    rw [if_pos (equalOperators_of (isConj a) _ fun o ho' => h.same o (hops o ho')), e1, e2]
    unfold ruleLine
    rcases traverse_head a with ⟨h1, h2⟩ | ⟨os', h1⟩
    · simp [h1, h2]
    · rw [h1]
      cases isConj a <;> simp
  · intro t ht
    rcases List.mem_append.1 ht with ht | ht
    · exact codes_words his t ht
    · exact codes_words hos t ht
  · clear * - his
    revert his
    generalize ((names e.inputs).mapIdx fun i n => (n, a.props.find? fun p => p.var == .input i)) = xs
    intro his
    induction his with
    | nil => simp
    | cons h _ ih =>
      intro t ht
      rcases List.mem_cons.1 ht with rfl | ht
      · exact h.head
      · exact ih t ht
  · have := ruleText_line his hos hne r.weight (isConj a)
    rw [fst_refs, fst_refs, ← spoken_refs, ← spoken_refs] at this
    exact this

end Fis
end
end FL
