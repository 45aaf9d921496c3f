/-
C70: what the importer of the FIS format makes of exported engines.
-/
import Verif.Props.FisRules

namespace FL
open Scalar

section
variable {S : Type} [ScalarText S]

namespace Fis

/-- the input variables read where `vs` were written, one after the other, when there are variables
with the names and values `c` -/
def readInputs (F : ElementFactory S) : Ctx S → List (Variable S) → Except Err (List (Variable S))
  | _, [] => .ok []
  | c, v :: vs => do
    let w ← readInput F ⟨c.inputs ++ [(Op.validName v.name, nan)], c.outputs⟩ v
    let ws ← readInputs F ⟨c.inputs ++ [(Op.validName v.name, nan)], c.outputs⟩ vs
    .ok (w :: ws)

/-- the output variables read where `vs` were written -/
def readOutputs (F : ElementFactory S) : Ctx S → List (OutputVariable S) → Except Err (List (OutputVariable S))
  | _, [] => .ok []
  | c, v :: vs => do
    let w ← readOutput F ⟨c.inputs, c.outputs ++ [(Op.validName v.name, nan)]⟩ v
    let ws ← readOutputs F ⟨c.inputs, c.outputs ++ [(Op.validName v.name, nan)]⟩ vs
    .ok (w :: ws)

/-- the defuzzifier read where `d` was written: the resolution and the type are lost -/
def readDefuzzifier (x : FisImporter) : Defuzzifier → Defuzzifier
  | .integral k _ => .integral k x.resolution
  | .weighted k _ => .weighted k .automatic

/-- the names known to the rules that are read -/
def vocabulary (e : Engine S) : Vocabulary := ⟨names e.inputs, names (e.outputs.map OutputVariable.toVariable)⟩

/-- the texts of the rules read: those of the loaded rules of all blocks -/
def saidRules (e : Engine S) : List Str :=
  (e.blocks.flatMap RuleBlock.rules).filterMap fun r => if r.isLoaded then r.antecedent.map (ruleSaid e r) else none

/-- the engine read where `e` was written: all outputs get the first aggregation and the first
defuzzifier; the loaded rules of all blocks go to a single one, with the first operators found -/
def reading (x : FisImporter) (G : Registry S) (e : Engine S) : Except Err (Engine S) := do
  let is ← readInputs G.functions ⟨[], []⟩ e.inputs
  let os ← readOutputs G.functions ⟨e.inputs.map fun v => (Op.validName v.name, nan), []⟩ e.outputs
  .ok { name := Op.trim e.name, description := [], inputs := is,
        outputs := os.map fun o =>
          { o with
            defuzzifier := (e.outputs.findSome? OutputVariable.defuzzifier).map (readDefuzzifier x)
            fuzzy := { o.fuzzy with
              aggregation := some ((e.outputs.findSome? fun o => o.fuzzy.aggregation).getD (.builtin .maximum)) } }
        blocks :=
          [{ name := [], description := [], enabled := true
             conjunction := some ((e.blocks.findSome? RuleBlock.conjunction).getD (.builtin .minimum))
             disjunction := some ((e.blocks.findSome? RuleBlock.disjunction).getD (.builtin .maximum))
             implication := some ((e.blocks.findSome? RuleBlock.implication).getD (.builtin .minimum))
             activation := some .general
             rules := (saidRules e).map fun t => ((Rule.new t).reload G (vocabulary e)).1 }] }

/-- an engine that can be written and read again -/
structure Good (e : Engine S) : Prop where
  name : Core e.name
  quotes : ∀ c ∈ cs! "'=", c ∉ e.name
  inputs : ∀ v ∈ e.inputs, GoodVariable v
  outputs : ∀ v ∈ e.outputs, GoodVariable v.toVariable
  conjunction : ∀ k, e.blocks.findSome? RuleBlock.conjunction = some k → ∃ j, k = .builtin j
  disjunction : ∀ k, e.blocks.findSome? RuleBlock.disjunction = some k → ∃ j, k = .builtin j
  implication : ∀ k, e.blocks.findSome? RuleBlock.implication = some k → ∃ j, k = .builtin j
  aggregation : ∀ k, (e.outputs.findSome? fun o => o.fuzzy.aggregation) = some k → ∃ j, k = .builtin j
  titles : e.blocks.length > 1 → ∀ b ∈ e.blocks, '/' ∉ b.name ∧ '\n' ∉ b.name
  rules : ∀ b ∈ e.blocks, ∀ r ∈ b.rules, ∀ a, r.antecedent = some a → r.conclusions ≠ [] → GoodRule e r a

/-! ### the lines of the variables -/

theorem isTitle_of (l : Str) (h : l.head? ≠ some '[') : FisImporter.isTitle l = false := by
  cases l with
  | nil => decide
  | cons c l =>
    have : c ≠ '[' := by rintro rfl; simp at h
    have h' : ¬ '[' = c := fun h => this h.symm
    simp [FisImporter.isTitle, List.isPrefixOf, h']

theorem termLines_spec [PlainText S] (n : Nat) (ts : List (Term S)) (h : ∀ t ∈ ts, GoodTerm t) :
    ∀ l ∈ termLines n ts, l.head? ≠ some '[' ∧ l ≠ [] ∧ '\n' ∉ l := by
  induction ts generalizing n with
  | nil => simp [termLines]
  | cons t ts ih =>
    intro l hl
    rcases List.mem_cons.1 hl with rfl | hl
    · refine ⟨by simp, by simp, ?_⟩
      have h1 := digits_mark n (c := '\n') (by decide)
      have h2 := name_mark t.name (c := '\n') (by decide)
      have h3 := (cls_word t).2.2 '\n' (by decide)
      have h4 := (params_core t (h t (by simp))).feed
      simp [termValue, h1, h2, h3, h4]
    · exact ih _ (fun t ht => h t (List.mem_cons_of_mem _ ht)) l hl

theorem varBody_spec [PlainText S] (v : Variable S) (h : GoodVariable v) :
    ∀ l ∈ varBody v, l.head? ≠ some '[' ∧ l ≠ [] ∧ '\n' ∉ l := by
  intro l hl
  unfold varBody at hl
  rcases List.mem_append.1 hl with hl | hl
  · simp only [List.mem_cons, List.not_mem_nil, or_false] at hl
    rcases hl with rfl | rfl | rfl
    · have := name_mark v.name (c := '\n') (by decide)
      simp [this]
    · have := range_mark v.minimum v.maximum (c := '\n') (by decide)
      simp [this]
    · have := digits_mark v.terms.length (c := '\n') (by decide)
      simp [this]
  · exact termLines_spec 1 v.terms h.terms l hl

theorem title_free (title : Str) (ht : title ∈ [cs! "Input", cs! "Output"]) (n : Nat) :
    '\n' ∉ cs! "[" ++ title ++ Nat.toDigits 10 n ++ cs! "]" := by
  have h1 := digits_mark n (c := '\n') (by decide)
  have h2 : ∀ t ∈ [cs! "Input", cs! "Output"], '\n' ∉ t := by decide
  simp [h1, h2 title ht]

theorem varSections_spec [PlainText S] (title : Str) (ht : title ∈ [cs! "Input", cs! "Output"]) (n : Nat) (vs : List (Variable S))
    (h : ∀ v ∈ vs, GoodVariable v) :
    ∀ g ∈ varSections title n vs, FisImporter.isTitle g.1 = true ∧ ∀ l ∈ g.2, FisImporter.isTitle l = false := by
  induction vs generalizing n with
  | nil => simp [varSections]
  | cons v vs ih =>
    intro g hg
    rcases List.mem_cons.1 hg with rfl | hg
    · refine ⟨?_, fun l hl => isTitle_of l (varBody_spec v (h v (by simp)) l hl).1⟩
      simp only [List.mem_cons, List.not_mem_nil, or_false] at ht
      rcases ht with rfl | rfl <;> simp [FisImporter.isTitle]
    · exact ih _ (fun v hv => h v (List.mem_cons_of_mem _ hv)) g hg

theorem process_input [PlainText S] [Truncate S] (G : Registry S) (n : Nat) (v : Variable S) (h : GoodVariable v)
    (s : Engine S × FisImporter.Methods) :
    FisImporter.process G s (Op.join ((cs! "[" ++ cs! "Input" ++ Nat.toDigits 10 n ++ cs! "]") :: varBody v) (cs! "\n")) =
      (readInput G.functions ⟨(s.1.inputs.map fun v => (v.name, v.value)) ++ [(Op.validName v.name, nan)],
        s.1.outputs.map fun v => (v.name, v.value)⟩ v >>= fun w => .ok ({ s.1 with inputs := s.1.inputs ++ [w] }, s.2)) := by
  unfold FisImporter.process
  rw [if_neg (by rw [not_prefix_join _ _ _ (by rfl) (by decide)]; simp), if_pos (prefix_join _ _ _ (by simp)),
    body_join _ _ ⟨by simp, title_free _ (by decide) n⟩ fun l hl => (varBody_spec v h l hl).2, importInput_body _ _ _ h]
  cases readInput G.functions ⟨(s.1.inputs.map fun v => (v.name, v.value)) ++ [(Op.validName v.name, nan)],
        s.1.outputs.map fun v => (v.name, v.value)⟩ v <;> rfl

theorem process_output [PlainText S] [Truncate S] (G : Registry S) (n : Nat) (v : OutputVariable S) (h : GoodVariable v.toVariable)
    (s : Engine S × FisImporter.Methods) :
    FisImporter.process G s (Op.join ((cs! "[" ++ cs! "Output" ++ Nat.toDigits 10 n ++ cs! "]") :: varBody v.toVariable) (cs! "\n")) =
      (readOutput G.functions ⟨s.1.inputs.map fun v => (v.name, v.value),
        (s.1.outputs.map fun v => (v.name, v.value)) ++ [(Op.validName v.name, nan)]⟩ v >>= fun w =>
          .ok ({ s.1 with outputs := s.1.outputs ++ [w] }, s.2)) := by
  unfold FisImporter.process
  rw [if_neg (by rw [not_prefix_join _ _ _ (by rfl) (by decide)]; simp),
    if_neg (by rw [not_prefix_join _ _ _ (by rfl) (by decide)]; simp), if_pos (prefix_join _ _ _ (by simp)),
    body_join _ _ ⟨by simp, title_free _ (by decide) n⟩ fun l hl => (varBody_spec v.toVariable h l hl).2, importOutput_body _ _ _ h]
  cases readOutput G.functions ⟨s.1.inputs.map fun v => (v.name, v.value),
        (s.1.outputs.map fun v => (v.name, v.value)) ++ [(Op.validName v.name, nan)]⟩ v <;> rfl

theorem readTerm_name {F : ElementFactory S} {ctx : Ctx S} {t u : Term S} (h : readTerm F ctx t = .ok u) :
    u.name = Op.validName t.name := by
  unfold readTerm at h
  split at h
  any_goals (obtain rfl := Except.ok.inj h; rfl)
  split at h
  · obtain rfl := Except.ok.inj h; rfl
  · cases h

theorem readTerms_names {F : ElementFactory S} {ctx : Ctx S} {ts us : List (Term S)} (h : ts.mapM (readTerm F ctx) = .ok us) :
    us.map Term.name = ts.map fun t => Op.validName t.name := by
  induction ts generalizing us with
  | nil => obtain rfl := Except.ok.inj h; rfl
  | cons t ts ih =>
    rw [List.mapM_cons] at h
    cases h1 : readTerm F ctx t with
    | error err => rw [h1] at h; cases h
    | ok u =>
      rw [h1, Fll.ok_bind] at h
      cases h2 : ts.mapM (readTerm F ctx) with
      | error err => rw [h2] at h; cases h
      | ok us' =>
        rw [h2, Fll.ok_bind] at h
        obtain rfl := Except.ok.inj h
        rw [List.map_cons, List.map_cons, readTerm_name h1, ih h2]

theorem readInput_names {F : ElementFactory S} {ctx : Ctx S} {v w : Variable S} (h : readInput F ctx v = .ok w) :
    w.name = Op.validName v.name ∧ w.value = nan ∧ w.terms.map Term.name = v.terms.map fun t => Op.validName t.name := by
  unfold readInput at h
  cases h1 : v.terms.mapM (readTerm F ctx) with
  | error err => rw [h1] at h; cases h
  | ok us =>
    rw [h1, Fll.ok_bind] at h
    obtain rfl := Except.ok.inj h
    exact ⟨rfl, rfl, readTerms_names h1⟩

theorem readOutput_names {F : ElementFactory S} {ctx : Ctx S} {v w : OutputVariable S} (h : readOutput F ctx v = .ok w) :
    w.name = Op.validName v.name ∧ w.value = nan ∧ w.terms.map Term.name = v.terms.map fun t => Op.validName t.name := by
  unfold readOutput at h
  cases h1 : v.terms.mapM (readTerm F ctx) with
  | error err => rw [h1] at h; cases h
  | ok us =>
    rw [h1, Fll.ok_bind] at h
    obtain rfl := Except.ok.inj h
    exact ⟨rfl, rfl, readTerms_names h1⟩

theorem process_inputs [PlainText S] [Truncate S] (G : Registry S) (n : Nat) (vs : List (Variable S)) (h : ∀ v ∈ vs, GoodVariable v)
    (s : Engine S × FisImporter.Methods) :
    ((varSections (cs! "Input") n vs).map fun g => Op.join (g.1 :: g.2) (cs! "\n")).foldlM (FisImporter.process G) s =
      (readInputs G.functions ⟨s.1.inputs.map fun v => (v.name, v.value), s.1.outputs.map fun v => (v.name, v.value)⟩ vs >>= fun ws =>
        .ok ({ s.1 with inputs := s.1.inputs ++ ws }, s.2)) := by
  induction vs generalizing n s with
  | nil => simp [varSections, readInputs, bind, Except.bind, pure, Except.pure]
  | cons v vs ih =>
    rw [varSections, List.map_cons, List.foldlM_cons, process_input G n v (h v (by simp)) s, readInputs]
    simp only
    cases hr : readInput G.functions ⟨(s.1.inputs.map fun v => (v.name, v.value)) ++ [(Op.validName v.name, nan)],
        s.1.outputs.map fun v => (v.name, v.value)⟩ v with
    | error err => rfl
    | ok w =>
      obtain ⟨h1, h2, -⟩ := readInput_names hr
      rw [Fll.ok_bind, Fll.ok_bind, ih _ fun v hv => h v (List.mem_cons_of_mem _ hv)]
      simp only [List.map_append, List.map_cons, List.map_nil, h1, h2]
      rw [Fll.ok_bind]
      cases readInputs G.functions ⟨(s.1.inputs.map fun v => (v.name, v.value)) ++ [(Op.validName v.name, nan)],
        s.1.outputs.map fun v => (v.name, v.value)⟩ vs with
      | error err => rfl
      | ok ws =>
        rw [Fll.ok_bind, Fll.ok_bind, Fll.ok_bind]
        simp

theorem process_outputs [PlainText S] [Truncate S] (G : Registry S) (n : Nat) (vs : List (OutputVariable S))
    (h : ∀ v ∈ vs, GoodVariable v.toVariable) (s : Engine S × FisImporter.Methods) :
    ((varSections (cs! "Output") n (vs.map OutputVariable.toVariable)).map fun g => Op.join (g.1 :: g.2) (cs! "\n")).foldlM
        (FisImporter.process G) s =
      (readOutputs G.functions ⟨s.1.inputs.map fun v => (v.name, v.value), s.1.outputs.map fun v => (v.name, v.value)⟩ vs >>= fun ws =>
        .ok ({ s.1 with outputs := s.1.outputs ++ ws }, s.2)) := by
  induction vs generalizing n s with
  | nil => simp [varSections, readOutputs, bind, Except.bind, pure, Except.pure]
  | cons v vs ih =>
    rw [List.map_cons, varSections, List.map_cons, List.foldlM_cons, process_output G n v (h v (by simp)) s, readOutputs]
    simp only
    cases hr : readOutput G.functions ⟨s.1.inputs.map fun v => (v.name, v.value),
        (s.1.outputs.map fun v => (v.name, v.value)) ++ [(Op.validName v.name, nan)]⟩ v with
    | error err => rfl
    | ok w =>
      obtain ⟨h1, h2, -⟩ := readOutput_names hr
      rw [Fll.ok_bind, Fll.ok_bind, ih _ fun v hv => h v (List.mem_cons_of_mem _ hv)]
      simp only [List.map_append, List.map_cons, List.map_nil, h1, h2]
      rw [Fll.ok_bind]
      cases readOutputs G.functions ⟨s.1.inputs.map fun v => (v.name, v.value),
        (s.1.outputs.map fun v => (v.name, v.value)) ++ [(Op.validName v.name, nan)]⟩ vs with
      | error err => rfl
      | ok ws =>
        rw [Fll.ok_bind, Fll.ok_bind, Fll.ok_bind]
        simp

theorem readInputs_names {F : ElementFactory S} {c : Ctx S} {vs ws : List (Variable S)} (h : readInputs F c vs = .ok ws) :
    (ws.map fun v => (v.name, v.value)) = vs.map (fun v => (Op.validName v.name, (nan : S))) ∧
      (ws.map fun v => (v.name, v.terms.map Term.name)) = names vs := by
  induction vs generalizing c ws with
  | nil => obtain rfl := Except.ok.inj h; exact ⟨rfl, rfl⟩
  | cons v vs ih =>
    rw [readInputs] at h
    cases h1 : readInput F ⟨c.inputs ++ [(Op.validName v.name, nan)], c.outputs⟩ v with
    | error err => rw [h1] at h; cases h
    | ok w =>
      rw [h1, Fll.ok_bind] at h
      cases h2 : readInputs F ⟨c.inputs ++ [(Op.validName v.name, nan)], c.outputs⟩ vs with
      | error err => rw [h2] at h; cases h
      | ok ws' =>
        rw [h2, Fll.ok_bind] at h
        obtain rfl := Except.ok.inj h
        obtain ⟨e1, e2, e3⟩ := readInput_names h1
        obtain ⟨i1, i2⟩ := ih h2
        refine ⟨?_, ?_⟩
        · rw [List.map_cons, List.map_cons, i1, e1, e2]
        · rw [List.map_cons, i2, e1, e3]; rfl

theorem readOutputs_names {F : ElementFactory S} {c : Ctx S} {vs ws : List (OutputVariable S)} (h : readOutputs F c vs = .ok ws) :
    (ws.map fun v => (v.name, v.terms.map Term.name)) = names (vs.map OutputVariable.toVariable) := by
  induction vs generalizing c ws with
  | nil => obtain rfl := Except.ok.inj h; rfl
  | cons v vs ih =>
    rw [readOutputs] at h
    cases h1 : readOutput F ⟨c.inputs, c.outputs ++ [(Op.validName v.name, nan)]⟩ v with
    | error err => rw [h1] at h; cases h
    | ok w =>
      rw [h1, Fll.ok_bind] at h
      cases h2 : readOutputs F ⟨c.inputs, c.outputs ++ [(Op.validName v.name, nan)]⟩ vs with
      | error err => rw [h2] at h; cases h
      | ok ws' =>
        rw [h2, Fll.ok_bind] at h
        obtain rfl := Except.ok.inj h
        obtain ⟨e1, e2, e3⟩ := readOutput_names h1
        rw [List.map_cons, ih h2, e1, e3]; rfl

/-! ### the lines of the rules -/

/-- a line of a section that is read as it is written -/
structure Plain (l : Str) : Prop where
  shown : shown l = some l
  feed : '\n' ∉ l
  ne : l ≠ []
  title : FisImporter.isTitle l = false

theorem ruleLine_plain [PlainText S] (is os : List Str) (w : S) (b : Bool) (hne : is ≠ [])
    (h : ∀ t ∈ is ++ os, t ≠ [] ∧ ∀ c ∈ cs! "'=:,[]#/\n() ", c ∉ t)
    (hh : ∀ t ∈ is, ∀ c, t.head? = some c → c.isDigit = true ∨ c ∈ cs! "+-.ni") : Plain (ruleLine is os w b) := by
  have hfree : ∀ c ∈ cs! "'#/\n", c ∉ ruleLine is os w b := by
    intro c hc
    have h1 := codes_free (ts := is) (fun t ht => h t (by simp [ht])) (c := c) (by clear * - hc; revert c; decide)
    have h2 := codes_free (ts := os) (fun t ht => h t (by simp [ht])) (c := c) (by clear * - hc; revert c; decide)
    have h3 := str_mark w (c := c) (by clear * - hc; revert c; decide)
    have h4 : c ∉ cs! ",: ()12" := by clear * - hc; revert c; decide
    simp only [List.mem_cons, List.not_mem_nil, or_false, not_or] at h4
    unfold ruleLine
    cases b <;> simp [h1, h2, h3, h4, -List.mem_flatMap]
  obtain ⟨c, hc, hd⟩ : ∃ c, (ruleLine is os w b).head? = some c ∧ (c.isDigit = true ∨ c ∈ cs! "+-.ni") := by
    cases is with
    | nil => exact absurd rfl hne
    | cons t is =>
      cases t with
      | nil => exact absurd rfl (h [] (by simp)).1
      | cons c t => exact ⟨c, by simp [ruleLine], hh (c :: t) (by simp) c rfl⟩
  have hc' : isSpace c = false ∧ c ≠ '%' ∧ c ≠ '[' := by
    rcases hd with hd | hd
    · refine ⟨(Decimal.digit_char c hd).1, ?_, ?_⟩ <;> (rintro rfl; revert hd; decide)
    · clear * - hd; revert c; decide
  refine ⟨?_, hfree _ (by decide), ?_, ?_⟩
  · rw [shown_line, filter_free (hfree _ (by decide))]
    · exact core_of fun c hc => hfree c (by clear * - hc; revert c; decide)
    · exact ⟨c, hc, hc'.1, hc'.2.1⟩
    · unfold ruleLine
      refine last_of _ _ ?_
      rw [← List.singleton_append]
      refine last_of _ _ (last_of _ _ ?_)
      rw [← List.singleton_append]
      refine last_of _ _ (last_of _ _ ?_)
      cases b
      · exact ⟨'2', rfl, by decide⟩
      · exact ⟨'1', rfl, by decide⟩
  · rintro h0; rw [h0] at hc; cases hc
  · refine isTitle_of _ ?_
    rw [hc]
    intro h0
    exact hc'.2.2 (Option.some.inj h0)

theorem rules_lines [Truncate S] [CodeText S] (e : Engine S) (hi : ∀ v ∈ e.inputs, v.terms.length < 2147483648)
    (ho : ∀ v ∈ e.outputs, v.terms.length < 2147483648) (rs : List (Rule S))
    (h : ∀ r ∈ rs, ∀ a, r.antecedent = some a → r.conclusions ≠ [] → GoodRule e r a) :
    ∃ ls, FisExporter.rules e rs = .ok ls ∧ (∀ l ∈ ls, Plain l) ∧
      List.Forall₂ (fun l t => FisImporter.ruleText (S := S) (vocabulary e) l = .ok t) ls
        (rs.filterMap fun r => if r.isLoaded then r.antecedent.map (ruleSaid e r) else none) := by
  induction rs with
  | nil => exact ⟨[], rfl, by simp, .nil⟩
  | cons r rs ih =>
    obtain ⟨ls, h1, h2, h3⟩ := ih fun r hr => h r (List.mem_cons_of_mem _ hr)
    rw [FisExporter.rules]
    cases ha : r.antecedent with
    | none =>
      refine ⟨ls, h1, h2, ?_⟩
      rw [List.filterMap_cons_none (by simp [ha])]
      exact h3
    | some a =>
      by_cases hc : r.conclusions = []
      · refine ⟨ls, by simp [hc, h1], h2, ?_⟩
        rw [List.filterMap_cons_none (by simp [Rule.isLoaded, hc])]
        exact h3
      · obtain ⟨is, os, e1, e2, e3, e4, e5⟩ := rule_read e hi ho r a (h r (by simp) a ha hc)
        refine ⟨ruleLine is os r.weight (isConj a) :: ls, ?_, ?_, ?_⟩
        · simp only
          rw [if_neg (by simpa using hc), e1, Fll.ok_bind, h1, Fll.ok_bind]
        · intro l hl
          rcases List.mem_cons.1 hl with rfl | hl
          · exact ruleLine_plain is os r.weight (isConj a) e2 e3 e4
          · exact h2 l hl
        · rw [List.filterMap_cons_some (b := ruleSaid e r a) (by simp [Rule.isLoaded, ha, hc])]
          exact .cons e5 h3

theorem comment_none (n : Str) (h : '/' ∉ n) : shown (cs! "# RuleBlock " ++ n) = none := by
  refine shown_none _ ?_
  have := clean_comment (cs! " RuleBlock " ++ n) (by simp [h])
  exact this

theorem blocks_lines [Truncate S] [CodeText S] (e : Engine S) (hi : ∀ v ∈ e.inputs, v.terms.length < 2147483648)
    (ho : ∀ v ∈ e.outputs, v.terms.length < 2147483648) (bs : List (RuleBlock S))
    (ht : e.blocks.length > 1 → ∀ b ∈ bs, '/' ∉ b.name ∧ '\n' ∉ b.name)
    (h : ∀ b ∈ bs, ∀ r ∈ b.rules, ∀ a, r.antecedent = some a → r.conclusions ≠ [] → GoodRule e r a) :
    ∃ ls ks, FisExporter.blocks e bs = .ok ls ∧ (∀ l ∈ ls, '\n' ∉ l) ∧ ls.filterMap shown = ks ∧ (∀ l ∈ ks, Plain l) ∧
      List.Forall₂ (fun l t => FisImporter.ruleText (S := S) (vocabulary e) l = .ok t) ks
        ((bs.flatMap RuleBlock.rules).filterMap fun r => if r.isLoaded then r.antecedent.map (ruleSaid e r) else none) := by
  induction bs with
  | nil => exact ⟨[], [], rfl, by simp, rfl, by simp, .nil⟩
  | cons b bs ih =>
    obtain ⟨ls, ks, h1, h2, h3, h4, h5⟩ := ih (fun h b hb => ht h b (List.mem_cons_of_mem _ hb))
      fun b hb => h b (List.mem_cons_of_mem _ hb)
    obtain ⟨rs, e1, e2, e3⟩ := rules_lines e hi ho b.rules (h b (by simp))
    have es : rs.filterMap shown = rs := by
      clear * - e2
      induction rs with
      | nil => rfl
      | cons r rs ih =>
        rw [List.filterMap_cons_some (e2 r (by simp)).shown, ih fun l hl => e2 l (List.mem_cons_of_mem _ hl)]
    refine ⟨(if e.blocks.length > 1 then [cs! "# RuleBlock " ++ b.name] else []) ++ rs ++ ls, rs ++ ks, ?_, ?_, ?_, ?_, ?_⟩
    · rw [FisExporter.blocks, e1, Fll.ok_bind, h1, Fll.ok_bind]
    · intro l hl
      rcases List.mem_append.1 hl with hl | hl
      · rcases List.mem_append.1 hl with hl | hl
        · split at hl
          · next hg =>
            obtain rfl := List.mem_singleton.1 hl
            have := (ht hg b (by simp)).2
            simp [this]
          · simp at hl
        · exact (e2 l hl).feed
      · exact h2 l hl
    · rw [List.filterMap_append, List.filterMap_append, es, h3]
      split
      · next hg => rw [List.filterMap_cons_none (comment_none b.name (ht hg b (by simp)).1)]; rfl
      · rfl
    · intro l hl
      rcases List.mem_append.1 hl with hl | hl
      · exact e2 l hl
      · exact h4 l hl
    · rw [List.flatMap_cons, List.filterMap_append]
      exact List.rel_append e3 h5

theorem rules_fold [Truncate S] (G : Registry S) (V : Vocabulary) {ks ts : List Str}
    (h : List.Forall₂ (fun l t => FisImporter.ruleText (S := S) V l = .ok t) ks ts) (b : RuleBlock S) :
    ks.foldlM (FisImporter.rulesStep G V) b =
      .ok { b with rules := b.rules ++ ts.map fun t => ((Rule.new t).reload G V).1 } := by
  induction h generalizing b with
  | nil => simp [pure, Except.pure]
  | @cons l t ls ts h _ ih =>
    have e1 : FisImporter.rulesStep G V b l = .ok { b with rules := b.rules ++ [((Rule.new t).reload G V).1] } := by
      unfold FisImporter.rulesStep
      rw [h, Fll.ok_bind]
    rw [List.foldlM_cons, e1, Fll.ok_bind, ih]
    simp

/-! ### the lines of the system -/

theorem term_feed [PlainText S] (t : Term S) (h : GoodTerm t) : '\n' ∉ FisExporter.term t := by
  intro hm
  have h1 : '\n' ∈ (FisExporter.term t).filter fun c => c ≠ '\'' := by simp [hm]
  rw [term_text t h] at h1
  have h3 := (cls_word t).2.2 '\n' (by decide)
  have h4 := (params_core t h).feed
  simp [h3, h4] at h1

theorem terms_feed [PlainText S] (n : Nat) (ts : List (Term S)) (h : ∀ t ∈ ts, GoodTerm t) :
    ∀ l ∈ FisExporter.terms n ts, '\n' ∉ l := by
  induction ts generalizing n with
  | nil => simp [FisExporter.terms]
  | cons t ts ih =>
    intro l hl
    rcases List.mem_cons.1 hl with rfl | hl
    · have h1 := digits_mark n (c := '\n') (by decide)
      have h2 := name_mark t.name (c := '\n') (by decide)
      have h3 := term_feed t (h t (by simp))
      simp [h1, h2, h3]
    · exact ih _ (fun t ht => h t (List.mem_cons_of_mem _ ht)) l hl

theorem varLines_feed [PlainText S] (title : Str) (ht : title ∈ [cs! "Input", cs! "Output"]) (n : Nat) (v : Variable S)
    (h : GoodVariable v) : ∀ l ∈ FisExporter.varLines title n v, '\n' ∉ l := by
  intro l hl
  unfold FisExporter.varLines at hl
  rcases List.mem_append.1 hl with hl | hl
  · rcases List.mem_append.1 hl with hl | hl
    · simp only [List.mem_cons, List.not_mem_nil, or_false] at hl
      rcases hl with rfl | rfl | rfl | rfl
      · exact title_free title ht n
      · have := name_mark v.name (c := '\n') (by decide)
        simp [this]
      · have h1 := str_mark v.minimum (c := '\n') (by decide)
        have h2 := str_mark v.maximum (c := '\n') (by decide)
        simp [Op.join, h1, h2]
      · have := digits_mark v.terms.length (c := '\n') (by decide)
        simp [this]
    · exact terms_feed 1 v.terms h.terms l hl
  · obtain rfl := List.mem_singleton.1 hl
    simp

theorem allLines_feed [PlainText S] (title : Str) (ht : title ∈ [cs! "Input", cs! "Output"]) (n : Nat) (vs : List (Variable S))
    (h : ∀ v ∈ vs, GoodVariable v) : ∀ l ∈ FisExporter.allLines title n vs, '\n' ∉ l := by
  induction vs generalizing n with
  | nil => simp [FisExporter.allLines]
  | cons v vs ih =>
    intro l hl
    rw [FisExporter.allLines] at hl
    rcases List.mem_append.1 hl with hl | hl
    · exact varLines_feed title ht n v (h v (by simp)) l hl
    · exact ih _ (fun v hv => h v (List.mem_cons_of_mem _ hv)) l hl

/-- a value of a line of the system -/
structure Value (v : Str) : Prop extends Core v where
  quote : '\'' ∉ v
  equals : '=' ∉ v

instance (v : Str) : Decidable (Value v) :=
  decidable_of_iff (Core v ∧ '\'' ∉ v ∧ '=' ∉ v) ⟨fun h => ⟨h.1, h.2.1, h.2.2⟩, fun h => ⟨h.toCore, h.quote, h.equals⟩⟩

theorem digits_value (n : Nat) : Value (Nat.toDigits 10 n) :=
  ⟨core_of fun c hc => digits_mark n (by clear * - hc; revert c; decide), digits_mark n (by decide), digits_mark n (by decide)⟩

theorem tnorm_fis (k : TNormKind) : Value k.fis ∧ FisImporter.tnormClass (Op.trim k.fis) = k.className ∧
    k ∈ TNormKind.registered := by cases k <;> decide +kernel
theorem snorm_fis (k : SNormKind) : Value k.fis ∧ FisImporter.snormClass (Op.trim k.fis) = k.className ∧
    k ∈ SNormKind.registered := by cases k <;> decide +kernel
theorem type_fis (t : EngineType) : Value t.fis := by cases t <;> decide +kernel

theorem defuzzifier_fis (x : FisImporter) (d : Option Defuzzifier) : Value ((d.map Defuzzifier.fis).getD []) ∧
    ((FisImporter.defuzzifierClass (Op.trim ((d.map Defuzzifier.fis).getD [])) = [] ∧ d.map (readDefuzzifier x) = none) ∨
      ∃ k ∈ Defuzzifier.registered x.resolution,
        k.className = FisImporter.defuzzifierClass (Op.trim ((d.map Defuzzifier.fis).getD [])) ∧
        d.map (readDefuzzifier x) = some k) := by
  have hi : ∀ k, Value (Defuzzifier.fis (.integral k 0)) ∧
      FisImporter.defuzzifierClass (Op.trim (Defuzzifier.fis (.integral k 0))) = k.className := by
    intro k; cases k <;> decide +kernel
  have hw : ∀ k, Value (Defuzzifier.fis (.weighted k .automatic)) ∧
      FisImporter.defuzzifierClass (Op.trim (Defuzzifier.fis (.weighted k .automatic))) = k.className := by
    intro k; cases k <;> decide +kernel
  cases d with
  | none => exact ⟨by decide +kernel, .inl ⟨by decide +kernel, rfl⟩⟩
  | some d =>
    cases d with
    | integral k r =>
      have e : ((some (Defuzzifier.integral k r)).map Defuzzifier.fis).getD [] = Defuzzifier.fis (.integral k 0) := by cases k <;> rfl
      rw [e]
      refine ⟨(hi k).1, .inr ⟨.integral k x.resolution, ?_, (hi k).2.symm, rfl⟩⟩
      cases k <;> simp [Defuzzifier.registered]
    | weighted k r =>
      have e : ((some (Defuzzifier.weighted k r)).map Defuzzifier.fis).getD [] = Defuzzifier.fis (.weighted k .automatic) := by
        cases k <;> rfl
      rw [e]
      refine ⟨(hw k).1, .inr ⟨.weighted k .automatic, ?_, (hw k).2.symm, rfl⟩⟩
      cases k <;> simp [Defuzzifier.registered]

/-- the lines of the system after the first, without quotes, for the given names of operators -/
def systemBody (e : Engine S) (c d i a z : Str) : List Str :=
  [cs! "Name" ++ '=' :: e.name, cs! "Type" ++ '=' :: e.type.fis, cs! "Version" ++ '=' :: FisExporter.version,
   cs! "NumInputs" ++ '=' :: Nat.toDigits 10 e.inputs.length, cs! "NumOutputs" ++ '=' :: Nat.toDigits 10 e.outputs.length,
   cs! "NumRules" ++ '=' :: Nat.toDigits 10 (e.blocks.map fun b => b.rules.length).sum,
   cs! "AndMethod" ++ '=' :: c, cs! "OrMethod" ++ '=' :: d, cs! "ImpMethod" ++ '=' :: i, cs! "AggMethod" ++ '=' :: a,
   cs! "DefuzzMethod" ++ '=' :: z]

theorem systemStep_key (s : Str × FisImporter.Methods) (k v : Str) (hk : k ≠ []) (h1 : '=' ∉ k) (h2 : '=' ∉ v) (ht : Op.trim k = k) :
    FisImporter.systemStep s (k ++ '=' :: v) =
      if k = cs! "Name" then .ok (Op.trim v, s.2)
      else if k = cs! "AndMethod" then .ok (s.1, { s.2 with conjunction := Op.trim v })
      else if k = cs! "OrMethod" then .ok (s.1, { s.2 with disjunction := Op.trim v })
      else if k = cs! "ImpMethod" then .ok (s.1, { s.2 with implication := Op.trim v })
      else if k = cs! "AggMethod" then .ok (s.1, { s.2 with aggregation := Op.trim v })
      else if k = cs! "DefuzzMethod" then .ok (s.1, { s.2 with defuzzifier := Op.trim v })
      else if k = cs! "Type" ∨ k = cs! "Version" ∨ k = cs! "NumInputs" ∨ k = cs! "NumOutputs"
        ∨ k = cs! "NumRules" ∨ k = cs! "NumMFs" then .ok s
      else .error .importing := by
  obtain ⟨vs, hs, hv⟩ : ∃ vs, Op.split (k ++ '=' :: v) (cs! "=") true = k :: vs ∧ vs.flatten = v := by
    by_cases hv : v = []
    · subst hv
      exact ⟨[], split_tail '=' k hk h1, rfl⟩
    · exact ⟨[v], split_pair '=' k v hk hv h1 h2, by simp⟩
  unfold FisImporter.systemStep
  rw [hs]
  simp only [ht, hv]

theorem system_fold (e : Engine S) (c d i a z : Str) (hn : '=' ∉ e.name) (hc : Value c) (hd : Value d) (hi : Value i) (ha : Value a)
    (hz : Value z) :
    (systemBody e c d i a z).foldlM FisImporter.systemStep ([], {}) =
      .ok (Op.trim e.name, ⟨Op.trim c, Op.trim d, Op.trim i, Op.trim a, Op.trim z⟩) := by
  unfold systemBody
  simp only [List.foldlM_cons]
  rw [systemStep_key _ (cs! "Name") _ (by decide) (by decide) hn (by decide), if_pos rfl, Fll.ok_bind]
  rw [systemStep_key _ (cs! "Type") _ (by decide) (by decide) (type_fis _).equals (by decide)]
  iterate 6 rw [if_neg (by decide)]
  rw [if_pos (by decide), Fll.ok_bind]
  rw [systemStep_key _ (cs! "Version") _ (by decide) (by decide) (by decide) (by decide)]
  iterate 6 rw [if_neg (by decide)]
  rw [if_pos (by decide), Fll.ok_bind]
  rw [systemStep_key _ (cs! "NumInputs") _ (by decide) (by decide) (digits_value _).equals (by decide)]
  iterate 6 rw [if_neg (by decide)]
  rw [if_pos (by decide), Fll.ok_bind]
  rw [systemStep_key _ (cs! "NumOutputs") _ (by decide) (by decide) (digits_value _).equals (by decide)]
  iterate 6 rw [if_neg (by decide)]
  rw [if_pos (by decide), Fll.ok_bind]
  rw [systemStep_key _ (cs! "NumRules") _ (by decide) (by decide) (digits_value _).equals (by decide)]
  iterate 6 rw [if_neg (by decide)]
  rw [if_pos (by decide), Fll.ok_bind]
  rw [systemStep_key _ (cs! "AndMethod") _ (by decide) (by decide) hc.equals (by decide)]
  iterate 1 rw [if_neg (by decide)]
  rw [if_pos (by decide), Fll.ok_bind]
  rw [systemStep_key _ (cs! "OrMethod") _ (by decide) (by decide) hd.equals (by decide)]
  iterate 2 rw [if_neg (by decide)]
  rw [if_pos (by decide), Fll.ok_bind]
  rw [systemStep_key _ (cs! "ImpMethod") _ (by decide) (by decide) hi.equals (by decide)]
  iterate 3 rw [if_neg (by decide)]
  rw [if_pos (by decide), Fll.ok_bind]
  rw [systemStep_key _ (cs! "AggMethod") _ (by decide) (by decide) ha.equals (by decide)]
  iterate 4 rw [if_neg (by decide)]
  rw [if_pos (by decide), Fll.ok_bind]
  rw [systemStep_key _ (cs! "DefuzzMethod") _ (by decide) (by decide) hz.equals (by decide)]
  iterate 5 rw [if_neg (by decide)]
  rw [if_pos (by decide), Fll.ok_bind]
  rfl

theorem systemBody_spec (e : Engine S) (c d i a z : Str) (hn : '\n' ∉ e.name) (hc : Value c) (hd : Value d) (hi : Value i) (ha : Value a)
    (hz : Value z) : ∀ l ∈ systemBody e c d i a z, l.head? ≠ some '[' ∧ l ≠ [] ∧ '\n' ∉ l := by
  intro l hl
  have h1 := (type_fis e.type).feed
  have h2 := fun n => (digits_value n).feed
  have h3 : '\n' ∉ FisExporter.version := by decide
  simp only [systemBody, List.mem_cons, List.not_mem_nil, or_false] at hl
  rcases hl with rfl | rfl | rfl | rfl | rfl | rfl | rfl | rfl | rfl | rfl | rfl <;>
    simp [hn, h1, h2, h3, hc.feed, hd.feed, hi.feed, ha.feed, hz.feed]

/-- the lines of the system for the given names of operators -/
def systemLines (e : Engine S) (c d i a z : Str) : List Str :=
  [cs! "#Code automatically generated with " ++ FclExporter.library ++ cs! ".", [],
   cs! "[System]",
   cs! "Name='" ++ e.name ++ cs! "'",
   cs! "Type='" ++ e.type.fis ++ cs! "'",
   cs! "Version=" ++ FisExporter.version,
   cs! "NumInputs=" ++ Nat.toDigits 10 e.inputs.length,
   cs! "NumOutputs=" ++ Nat.toDigits 10 e.outputs.length,
   cs! "NumRules=" ++ Nat.toDigits 10 (e.blocks.map fun b => b.rules.length).sum,
   cs! "AndMethod='" ++ c ++ cs! "'",
   cs! "OrMethod='" ++ d ++ cs! "'",
   cs! "ImpMethod='" ++ i ++ cs! "'",
   cs! "AggMethod='" ++ a ++ cs! "'",
   cs! "DefuzzMethod='" ++ z ++ cs! "'"]

theorem systemLines_feed (e : Engine S) (c d i a z : Str) (hn : '\n' ∉ e.name) (hc : Value c) (hd : Value d) (hi : Value i) (ha : Value a)
    (hz : Value z) : ∀ l ∈ systemLines e c d i a z, '\n' ∉ l := by
  intro l hl
  have h1 := (type_fis e.type).feed
  have h2 := fun n => (digits_value n).feed
  have h3 : '\n' ∉ FisExporter.version := by decide
  have h4 : '\n' ∉ FclExporter.library := by decide
  simp only [systemLines, List.mem_cons, List.not_mem_nil, or_false] at hl
  rcases hl with rfl | rfl | rfl | rfl | rfl | rfl | rfl | rfl | rfl | rfl | rfl | rfl | rfl | rfl <;>
    simp [hn, h1, h2, h3, h4, hc.feed, hd.feed, hi.feed, ha.feed, hz.feed]

theorem keys_word : ∀ k ∈ [cs! "Name", cs! "Type", cs! "NumInputs", cs! "NumOutputs", cs! "NumRules", cs! "AndMethod", cs! "OrMethod",
    cs! "ImpMethod", cs! "AggMethod", cs! "DefuzzMethod"],
    k.head?.any (fun c => !isSpace c && !decide (c = '%')) = true ∧ ∀ c ∈ cs! "#/\n'", c ∉ k := by decide +kernel

theorem shown_key (k n : Str) (hk : k ∈ [cs! "Name", cs! "Type", cs! "NumInputs", cs! "NumOutputs", cs! "NumRules", cs! "AndMethod",
    cs! "OrMethod", cs! "ImpMethod", cs! "AggMethod", cs! "DefuzzMethod"]) (hn : Core n) (hq : '\'' ∉ n) (l : Str)
    (hl : l = k ++ cs! "='" ++ n ++ cs! "'") : shown l = some (k ++ '=' :: n) := by
  subst hl
  exact shown_quoted k n (keys_word k hk).1 (keys_word k hk).2 hn hq

theorem shown_count (k : Str) (hk : k ∈ [cs! "Name", cs! "Type", cs! "NumInputs", cs! "NumOutputs", cs! "NumRules", cs! "AndMethod",
    cs! "OrMethod", cs! "ImpMethod", cs! "AggMethod", cs! "DefuzzMethod"]) (n : Nat) (l : Str)
    (hl : l = k ++ cs! "=" ++ Nat.toDigits 10 n) : shown l = some (k ++ '=' :: Nat.toDigits 10 n) := by
  subst hl
  exact shown_digits k (keys_word k hk).1 (keys_word k hk).2 n

theorem shown_system (e : Engine S) (c d i a z : Str) (hn : Core e.name) (hq : '\'' ∉ e.name) (hc : Value c) (hd : Value d) (hi : Value i)
    (ha : Value a) (hz : Value z) :
    (systemLines e c d i a z).filterMap shown = cs! "[System]" :: systemBody e c d i a z := by
  have q0 : shown (cs! "#Code automatically generated with " ++ FclExporter.library ++ cs! ".") = none := by decide +kernel
  have q1 : shown [] = none := by decide +kernel
  have q2 : shown (cs! "[System]") = some (cs! "[System]") := by decide +kernel
  have q5 : shown (cs! "Version=" ++ FisExporter.version) = some (cs! "Version" ++ '=' :: FisExporter.version) := by decide +kernel
  unfold systemLines systemBody
  rw [List.filterMap_cons_none q0, List.filterMap_cons_none q1, List.filterMap_cons_some q2,
    List.filterMap_cons_some (shown_key (cs! "Name") e.name (by simp) hn hq _ (by simp)),
    List.filterMap_cons_some (shown_key (cs! "Type") e.type.fis (by simp) (type_fis _).toCore (type_fis _).quote _ (by simp)),
    List.filterMap_cons_some q5,
    List.filterMap_cons_some (shown_count (cs! "NumInputs") (by simp) e.inputs.length _ (by simp)),
    List.filterMap_cons_some (shown_count (cs! "NumOutputs") (by simp) e.outputs.length _ (by simp)),
    List.filterMap_cons_some (shown_count (cs! "NumRules") (by simp) (e.blocks.map fun b => b.rules.length).sum _ (by simp)),
    List.filterMap_cons_some (shown_key (cs! "AndMethod") c (by simp) hc.toCore hc.quote _ (by simp)),
    List.filterMap_cons_some (shown_key (cs! "OrMethod") d (by simp) hd.toCore hd.quote _ (by simp)),
    List.filterMap_cons_some (shown_key (cs! "ImpMethod") i (by simp) hi.toCore hi.quote _ (by simp)),
    List.filterMap_cons_some (shown_key (cs! "AggMethod") a (by simp) ha.toCore ha.quote _ (by simp)),
    List.filterMap_cons_some (shown_key (cs! "DefuzzMethod") z (by simp) hz.toCore hz.quote _ (by simp)), List.filterMap_nil]

/-! ### engines -/

theorem tnorm_getD {k : Option (TNorm S)} (h : ∀ x, k = some x → ∃ j, x = .builtin j) :
    ∃ j : TNormKind, k.getD (.builtin .minimum) = .builtin j ∧ (k.map TNorm.fis).getD (cs! "min") = j.fis := by
  cases k with
  | none => exact ⟨.minimum, rfl, rfl⟩
  | some x => obtain ⟨j, rfl⟩ := h x rfl; exact ⟨j, rfl, rfl⟩

theorem snorm_getD {k : Option (SNorm S)} (h : ∀ x, k = some x → ∃ j, x = .builtin j) :
    ∃ j : SNormKind, k.getD (.builtin .maximum) = .builtin j ∧ (k.map SNorm.fis).getD (cs! "max") = j.fis := by
  cases k with
  | none => exact ⟨.maximum, rfl, rfl⟩
  | some x => obtain ⟨j, rfl⟩ := h x rfl; exact ⟨j, rfl, rfl⟩

/-- **C70.**  A good engine is written, and reading the text again has the outcome described by
`reading`. -/
theorem fromString_toString [Truncate S] [CodeText S] (x : FisImporter) (G : Registry S) (e : Engine S) (h : Good e) :
    ∃ text, FisExporter.toString e = .ok text ∧ x.fromString G text = reading x G e := by
  have hi : ∀ v ∈ e.inputs, v.terms.length < 2147483648 := fun v hv => (h.inputs v hv).count
  have ho : ∀ v ∈ e.outputs, v.terms.length < 2147483648 := fun v hv => (h.outputs v hv).count
  have ho' : ∀ v ∈ e.outputs.map OutputVariable.toVariable, GoodVariable v := by
    intro v hv
    obtain ⟨o, ho, rfl⟩ := List.mem_map.1 hv
    exact h.outputs o ho
  obtain ⟨ls, ks, b1, b2, b3, b4, b5⟩ := blocks_lines e hi ho e.blocks h.titles h.rules
  obtain ⟨c, c1, c2⟩ := tnorm_getD h.conjunction
  obtain ⟨d, d1, d2⟩ := snorm_getD h.disjunction
  obtain ⟨i, i1, i2⟩ := tnorm_getD h.implication
  obtain ⟨a, a1, a2⟩ := snorm_getD h.aggregation
  obtain ⟨vz, hz⟩ := defuzzifier_fis x (e.outputs.findSome? OutputVariable.defuzzifier)
  generalize hzn : ((e.outputs.findSome? OutputVariable.defuzzifier).map Defuzzifier.fis).getD [] = zn at vz hz
  have hsys : FisExporter.system e = systemLines e c.fis d.fis i.fis a.fis zn := by
    unfold FisExporter.system systemLines FisExporter.firstOf
    rw [c2, d2, i2, a2, hzn]
  obtain ⟨vc, kc, rc⟩ := tnorm_fis c
  obtain ⟨vd, kd, rd⟩ := snorm_fis d
  obtain ⟨vi, ki, ri⟩ := tnorm_fis i
  obtain ⟨va, ka, ra⟩ := snorm_fis a
  have hq : '\'' ∉ e.name := h.quotes _ (by decide)
  have he : '=' ∉ e.name := h.quotes _ (by decide)
  refine ⟨_, by unfold FisExporter.toString; rw [b1, Fll.ok_bind], ?_⟩
  unfold FisImporter.fromString
  rw [hsys, Fcl.lines_text]
  · rw [fold_shown]
    let gs : List (Str × List Str) := (cs! "[System]", systemBody e c.fis d.fis i.fis a.fis zn) ::
      (varSections (cs! "Input") 1 e.inputs ++ (varSections (cs! "Output") 1 (e.outputs.map OutputVariable.toVariable) ++
        [(cs! "[Rules]", ks)]))
    have hgs : (systemLines e c.fis d.fis i.fis a.fis zn ++ [[]] ++ FisExporter.allLines (cs! "Input") 1 e.inputs
        ++ FisExporter.allLines (cs! "Output") 1 (e.outputs.map OutputVariable.toVariable) ++ [cs! "[Rules]"] ++ ls).filterMap shown =
        gs.flatMap fun g => g.1 :: g.2 := by
      simp only [List.filterMap_append, shown_system e _ _ _ _ _ h.name hq vc vd vi va vz,
        shown_all _ (by decide : cs! "Input" ∈ [cs! "Input", cs! "Output"]) 1 e.inputs h.inputs,
        shown_all _ (by decide : cs! "Output" ∈ [cs! "Input", cs! "Output"]) 1 _ ho', b3]
      rw [List.filterMap_cons_none (show shown [] = none by decide +kernel),
        List.filterMap_cons_some (show shown (cs! "[Rules]") = some (cs! "[Rules]") by decide +kernel)]
      simp [gs]
    rw [hgs, fold_sections gs ?_ []]
    · rw [List.nil_append, Fll.ok_bind]
      simp only [gs, List.map_cons, List.map_append, List.map_nil, List.foldlM_cons, List.foldlM_append, List.foldlM_nil]
      have p1 : FisImporter.process G (⟨[], [], [], [], []⟩, {})
          (Op.join (cs! "[System]" :: systemBody e c.fis d.fis i.fis a.fis zn) (cs! "\n")) =
          .ok (⟨Op.trim e.name, [], [], [], []⟩, ⟨Op.trim c.fis, Op.trim d.fis, Op.trim i.fis, Op.trim a.fis, Op.trim zn⟩) := by
        unfold FisImporter.process
        rw [if_pos (prefix_join _ _ _ (by decide)), body_join _ _ (by decide) fun l hl =>
          (systemBody_spec e _ _ _ _ _ h.name.feed vc vd vi va vz l hl).2, system_fold e _ _ _ _ _ he vc vd vi va vz]
        rfl
      rw [p1, Fll.ok_bind, process_inputs G 1 e.inputs h.inputs]
      unfold reading
      simp only [List.map_nil, List.nil_append]
      cases hr : readInputs G.functions ⟨[], []⟩ e.inputs with
      | error err => rfl
      | ok is =>
        obtain ⟨n1, n2⟩ := readInputs_names hr
        rw [Fll.ok_bind, Fll.ok_bind, Fll.ok_bind, process_outputs G 1 e.outputs h.outputs]
        simp only [List.map_nil, List.nil_append, n1]
        cases hs : readOutputs G.functions ⟨e.inputs.map fun v => (Op.validName v.name, nan), []⟩ e.outputs with
        | error err => rfl
        | ok os =>
          have n3 := readOutputs_names hs
          rw [Fll.ok_bind, Fll.ok_bind, Fll.ok_bind]
          have p2 : ∀ m, FisImporter.process G (⟨Op.trim e.name, [], is, os, []⟩, m) (Op.join (cs! "[Rules]" :: ks) (cs! "\n")) =
              .ok (⟨Op.trim e.name, [], is, os, [⟨[], [], true, none, none, none, none,
                (saidRules e).map fun t => ((Rule.new t).reload G (vocabulary e)).1⟩]⟩, m) := by
            intro m
            unfold FisImporter.process
            rw [if_neg (by rw [not_prefix_join _ _ _ (by decide) (by decide)]; simp),
              if_neg (by rw [not_prefix_join _ _ _ (by decide) (by decide)]; simp),
              if_neg (by rw [not_prefix_join _ _ _ (by decide) (by decide)]; simp), if_pos (prefix_join _ _ _ (by decide)),
              body_join _ _ (by decide) fun l hl => ⟨(b4 l hl).ne, (b4 l hl).feed⟩]
            unfold FisImporter.importRules
            have hV : (⟨Op.trim e.name, [], is, os, []⟩ : Engine S).world.vocabulary = vocabulary e := by
              unfold Engine.world World.vocabulary vocabulary
              rw [← n2, ← n3]
            rw [hV, rules_fold G _ b5, Fll.ok_bind, Fll.ok_bind]
            rfl
          rw [p2, Fll.ok_bind]
          simp only [pure, Except.pure, Fll.ok_bind]
          rw [Engine.configureNames_iff]
          refine ⟨some c, some d, some i, some a, _, some .general, ?_, .inr ⟨c, rc, kc.symm, rfl⟩, .inr ⟨d, rd, kd.symm, rfl⟩,
            .inr ⟨i, ri, ki.symm, rfl⟩, .inr ⟨a, ra, ka.symm, rfl⟩, hz, .inr ⟨.general, by simp [Activation.registered], rfl, rfl⟩⟩
          rw [c1, d1, i1, a1]
          rfl
    · intro g hg
      simp only [gs, List.mem_cons, List.mem_append, List.not_mem_nil, or_false] at hg
      rcases hg with rfl | hg | hg | rfl
      · exact ⟨by rfl, fun l hl => isTitle_of l (systemBody_spec e _ _ _ _ _ h.name.feed vc vd vi va vz l hl).1⟩
      · exact varSections_spec _ (by decide) 1 _ h.inputs g hg
      · exact varSections_spec _ (by decide) 1 _ ho' g hg
      · exact ⟨by rfl, fun l hl => (b4 l hl).title⟩
  · intro l hl
    simp only [List.mem_append, List.mem_singleton] at hl
    rcases hl with ((((hl | rfl) | hl) | hl) | rfl) | hl
    · exact systemLines_feed e _ _ _ _ _ h.name.feed vc vd vi va vz l hl
    · simp
    · exact allLines_feed _ (by decide) 1 _ h.inputs l hl
    · exact allLines_feed _ (by decide) 1 _ ho' l hl
    · decide
    · exact b2 l hl

end Fis
end
end FL
