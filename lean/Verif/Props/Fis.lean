/-
C70: what the importer of the FIS format makes of the exported text of an engine.
-/
import Verif.Lemmas.Fis

namespace FL
open Scalar

section
variable {S : Type} [ScalarText S]

namespace Fis

/-! ### terms -/

/-- the term read where `t` was written: its height is lost, and formulas lose their blanks -/
def readTerm (F : ElementFactory S) (ctx : Ctx S) (t : Term S) : Except Err (Term S) :=
  match t.kind with
  | .shape s => .ok ⟨Op.validName t.name, lit 1, .shape (s.each reread)⟩
  | .discrete xy => .ok ⟨Op.validName t.name, lit 1, .discrete (xy.map fun p => (reread p.1, reread p.2))⟩
  | .constant v => .ok ⟨Op.validName t.name, lit 1, .constant (reread v)⟩
  | .linear c _ => .ok ⟨Op.validName t.name, lit 1, .linear (c.map reread) true⟩
  | .function f =>
    match Fun.load F ⟨[], none, true, fun _ => none⟩ (f.formula.filter fun c => !isSpace c) true ctx with
    | (g, none) => .ok ⟨Op.validName t.name, lit 1, .function g⟩
    | (_, some e) => .error e

/-- a formula that can be written: without comments and without the characters that separate the parts
of a line; only ` ` separates its tokens -/
structure GoodFormula (s : Str) : Prop extends Core s where
  ne : s ≠ []
  marks : ∀ c ∈ cs! "'=:,[]", c ∉ s
  blanks : ∀ c ∈ s, isSpace c = true → c = ' '

/-- a term with a name that has a valid character and with parameters -/
structure GoodTerm (t : Term S) : Prop where
  name : Op.validName t.name ≠ []
  discrete : t.kind ≠ .discrete []
  linear : ∀ e, t.kind ≠ .linear [] e
  formula : ∀ f, t.kind = .function f → GoodFormula f.formula

/-- the class of a term as it is written -/
def cls (t : Term S) : Str :=
  match t.kind with
  | .shape s => (FisExporter.shape s).1.filter fun c => c ≠ '\''
  | .constant _ => cs! "constant"
  | .discrete _ => cs! "discretemf"
  | .function _ => cs! "function"
  | .linear _ _ => cs! "linear"

/-- the numbers of a term as they are written -/
def numbers (t : Term S) : List S :=
  match t.kind with
  | .shape s => (FisExporter.shape s).2
  | .constant v => [v]
  | .discrete xy => Discrete.toVector xy
  | .function _ => []
  | .linear c _ => c

/-- the parameters of a term as they are written -/
def params (t : Term S) : Str :=
  match t.kind with
  | .function f => f.formula
  | _ => Op.join ((numbers t).map ScalarText.str) (cs! " ")

theorem str_mark [PlainText S] (x : S) {c : Char} (hc : c ∈ cs! "'=:,[]#/\n() ") : c ∉ ScalarText.str x := by
  intro h
  have : ∀ c ∈ cs! "'=:,[]#/\n() ", ¬ (isAlnum c = true ∨ c = '.' ∨ c = '-' ∨ c = '+') := by decide
  exact this c hc (PlainText.str_plain x c h)

theorem strs_mark [PlainText S] (xs : List S) {c : Char} (hc : c ∈ cs! "'=:,[]#/\n()") :
    c ∉ Op.join (xs.map ScalarText.str) (cs! " ") := by
  intro h
  rcases Op.mem_join h with ⟨t, ht, h⟩ | h
  · obtain ⟨x, -, rfl⟩ := List.mem_map.1 ht
    exact str_mark x (by clear * - hc; revert c; decide) h
  · clear * - hc h; revert c; decide

theorem name_mark (n : Str) {c : Char} (hc : c ∈ cs! "'=:,[]#/\n()% ") : c ∉ Op.validName n := by
  intro h
  have : ∀ c ∈ cs! "'=:,[]#/\n()% ", ¬ (c = '_' ∨ c = '.' ∨ isAlnum c = true) := by decide
  exact this c hc ((Op.validName_partial n).1 c h)

theorem digits_mark (n : Nat) {c : Char} (hc : c ∈ cs! "'=:,[]#/\n()% ") : c ∉ Nat.toDigits 10 n := by
  intro h
  have : ∀ c ∈ cs! "'=:,[]#/\n()% ", c.isDigit = false := by decide
  have h1 := this c hc
  rw [Decimal.digits_isDigit n c h] at h1
  exact absurd h1 (by decide)

theorem filter_free {s : Str} (h : '\'' ∉ s) : (s.filter fun c => c ≠ '\'') = s := by
  rw [List.filter_eq_self]
  intro c hc
  simp only [ne_eq, decide_not, Bool.not_eq_true', decide_eq_false_iff_not]
  rintro rfl
  exact h hc

theorem params_mark [PlainText S] (t : Term S) (h : GoodTerm t) {c : Char} (hc : c ∈ cs! "'=:,[]") : c ∉ params t := by
  have : c ∉ Op.join ((numbers t).map ScalarText.str) (cs! " ") :=
    strs_mark (S := S) (numbers t) (by clear * - hc; revert c; decide)
  unfold params
  cases hk : t.kind with
  | function f => exact (h.formula f hk).marks c hc
  | _ => exact this

theorem numbers_ne (t : Term S) (h : GoodTerm t) (hf : ∀ f, t.kind ≠ .function f) : numbers t ≠ [] := by
  unfold numbers
  cases hk : t.kind with
  | shape s => cases s <;> simp [FisExporter.shape]
  | constant v => simp
  | discrete xy =>
    cases xy with
    | nil => exact absurd hk h.discrete
    | cons p xy => simp [Discrete.toVector]
  | linear c e =>
    cases c with
    | nil => exact absurd hk (h.linear e)
    | cons p xy => simp
  | function f => exact absurd hk (hf f)

theorem params_ne [LawfulText S] (t : Term S) (h : GoodTerm t) : params t ≠ [] := by
  have key : (∀ f, t.kind ≠ .function f) → Op.join ((numbers t).map ScalarText.str) (cs! " ") ≠ [] := by
    intro hf
    refine Op.join_ne_nil _ _ (by simpa using numbers_ne t h hf) ?_
    intro w hw
    exact (Term.words_strs (numbers t) w hw).1
  unfold params
  cases hk : t.kind with
  | function f => exact (h.formula f hk).ne
  | _ => exact key (by simp [hk])

theorem cls_word (t : Term S) : cls t ≠ [] ∧ Op.NoBlank (cls t) ∧ ∀ c ∈ cs! "'=:,[]#/\n", c ∉ cls t := by
  unfold cls
  cases t.kind with
  | shape s =>
    have h : ∀ w ∈ [cs! "'gbellmf'", cs! "'binarymf", cs! "'concavemf'", cs! "'cosinemf'", cs! "'gaussmf'", cs! "'gauss2mf'",
        cs! "'pimf'", cs! "'rampmf'", cs! "'rectmf'", cs! "'dsigmf'", cs! "'sigmf'", cs! "'psigmf'", cs! "'smf'", cs! "'spikemf'",
        cs! "'trapmf'", cs! "'trimf'", cs! "'zmf'"], (w.filter fun c => c ≠ '\'') ≠ [] ∧
        (∀ c ∈ w.filter fun c => c ≠ '\'', isSpace c = false) ∧ ∀ c ∈ cs! "'=:,[]#/\n", c ∉ w.filter fun c => c ≠ '\'' := by
      decide
    exact h _ (by cases s <;> simp [FisExporter.shape])
  | _ => simp only; decide

theorem term_text [PlainText S] (t : Term S) (h : GoodTerm t) :
    (FisExporter.term t).filter (fun c => c ≠ '\'') = cls t ++ cs! ",[" ++ params t ++ cs! "]" := by
  have hp := filter_free (params_mark t h (c := '\'') (by decide))
  have lit1 : (cs! ",[").filter (fun c => c ≠ '\'') = cs! ",[" := by decide
  have lit2 : (cs! "]").filter (fun c => c ≠ '\'') = cs! "]" := by decide
  have key : FisExporter.term t = (match t.kind with
      | .shape s => (FisExporter.shape s).1
      | .constant _ => cs! "'constant'"
      | .discrete _ => cs! "'discretemf'"
      | .function _ => cs! "'function'"
      | .linear _ _ => cs! "'linear'") ++ cs! ",[" ++ params t ++ cs! "]" := by
    unfold FisExporter.term params numbers
    cases t.kind <;> simp [Op.join]
  rw [key]
  simp only [List.filter_append, hp, lit1, lit2]
  congr 3
  unfold cls
  cases t.kind with
  | shape s => rfl
  | _ => simp only; decide

/-- the pieces of a formula without blanks -/
theorem formula_pieces (f : Str) (h0 : f ≠ []) (h : ∀ c ∈ f, isSpace c = true → c = ' ') :
    ((Op.split f (cs! " ") true).map Op.trim).flatten = f.filter fun c => !isSpace c := by
  have hj := Op.join_split f (cs! " ") (by simp)
  have hp : ∀ p ∈ Op.split f (cs! " ") false, Op.NoBlank p := by
    intro p hp c hc
    by_contra hs
    rw [Bool.not_eq_false] at hs
    have hm : c ∈ f := by
      rw [← hj]
      clear * - hp hc
      generalize Op.split f (cs! " ") false = ps at hp
      induction ps with
      | nil => cases hp
      | cons q ps ih =>
        cases ps with
        | nil =>
          obtain rfl : p = q := by simpa using hp
          simpa [Op.join] using hc
        | cons r ps =>
          rw [Op.join_cons _ _ _ (by simp)]
          rcases List.mem_cons.1 hp with rfl | hp
          · simp [hc]
          · have := ih hp
            simp [this]
    obtain rfl := h c hm hs
    exact Op.split_pieces_free f (cs! " ") (by simp) false p hp (by
      obtain ⟨a, b, rfl⟩ := List.append_of_mem hc
      exact ⟨a, b, by simp⟩)
  have e1 : (Op.split f (cs! " ") true).map Op.trim = Op.split f (cs! " ") true := by
    conv_rhs => rw [← List.map_id (Op.split f (cs! " ") true)]
    refine List.map_congr_left fun p hm => ?_
    rw [Op.split_ignoreEmpty _ _ h0 (by simp)] at hm
    exact Op.trim_noBlank p (hp p (List.mem_of_mem_filter hm))
  rw [e1, Op.split_ignoreEmpty _ _ h0 (by simp)]
  conv_rhs => rw [← hj]
  clear e1 hj
  generalize Op.split f (cs! " ") false = ps at hp
  induction ps with
  | nil => simp [Op.join]
  | cons q ps ih =>
    have hq := hp q (by simp)
    have fq : (q.filter fun c => !isSpace c) = q := by
      rw [List.filter_eq_self]; intro c hc; simp [hq c hc]
    have ih' := ih fun p hm => hp p (List.mem_cons_of_mem _ hm)
    have hl : ((q :: ps).filter fun p => !p.isEmpty).flatten = q ++ (ps.filter fun p => !p.isEmpty).flatten := by
      by_cases hq0 : q = []
      · simp [hq0]
      · rw [List.filter_cons_of_pos (by simpa using hq0)]; simp
    rw [hl, ih']
    cases ps with
    | nil => simp [Op.join, fq]
    | cons r ps =>
      rw [Op.join_cons q _ _ (by simp), List.filter_append, List.filter_append, fq]
      have : (cs! " ").filter (fun c => !isSpace c) = [] := by decide
      rw [this, List.append_nil]

theorem configure_shape [LawfulText S] (F : ElementFactory S) (ctx : Ctx S) (t : Term S) (s : Shape S)
    (hk : t.kind = .shape s.fresh) :
    t.configure F ctx (Op.join (s.written.map ScalarText.str) (cs! " ")) = (⟨t.name, t.height, .shape (s.each reread)⟩, none) := by
  have hw : s.written ≠ [] := by cases s <;> simp [Shape.written]
  have hreq : s.fresh.required = s.required := by cases s <;> rfl
  have hset : s.fresh.setFrom 0 (s.written.map ScalarText.str) = (s.each reread, none) := by
    cases s <;> simp [Shape.fresh, Shape.setFrom, Shape.written, Shape.setAt, ofText_str, Shape.each]
  have hl := Term.written_length s
  have hs := Term.words_strs s.written
  have hne : Op.join (s.written.map ScalarText.str) (cs! " ") ≠ [] :=
    Op.join_ne_nil _ _ (by simpa using hw) fun t ht => (hs t ht).1
  unfold Term.configure
  rw [hk]
  simp only [Op.split_words _ (by simpa using hw : s.written.map ScalarText.str ≠ []) hs, hreq, List.isEmpty_iff, hne, if_false]
  rw [if_neg (by simp [← hl]), List.take_of_length_le (by simp [hl]), hset]
  simp only
  rw [List.getElem?_eq_none (by simp [hl])]

theorem configure_discrete [LawfulText S] (F : ElementFactory S) (ctx : Ctx S) (t : Term S) (xy ps : List (S × S)) (h0 : xy ≠ [])
    (hk : t.kind = .discrete ps) :
    t.configure F ctx (Op.join ((Discrete.toVector xy).map ScalarText.str) (cs! " ")) =
      (⟨t.name, lit 1, .discrete (xy.map fun p => (reread p.1, reread p.2))⟩, none) := by
  have hv : Discrete.toVector xy ≠ [] := by
    cases xy with
    | nil => exact absurd rfl h0
    | cons p xy => simp [Discrete.toVector]
  have hs := Term.words_strs (Discrete.toVector xy)
  have hne : Op.join ((Discrete.toVector xy).map ScalarText.str) (cs! " ") ≠ [] :=
    Op.join_ne_nil _ _ (by simpa using hv) fun t ht => (hs t ht).1
  have hvec : (Discrete.toVector xy).map reread = Discrete.toVector (xy.map fun p => (reread p.1, reread p.2)) := by
    simp [Discrete.toVector, List.flatMap_map, List.map_flatMap]
  have hlen : (Discrete.toVector xy).length % 2 = 0 := by
    simp [Discrete.toVector, List.length_flatMap]
  unfold Term.configure
  rw [hk]
  simp only
  rw [if_neg (by simpa using hne), Op.split_words _ (by simpa using hv) hs, Term.toScalars_strs]
  simp only [List.length_map, hlen, if_true]
  rw [hvec, Discrete.toPairs_toVector]

theorem configure_constant [LawfulText S] (F : ElementFactory S) (ctx : Ctx S) (t : Term S) (v w : S) (hk : t.kind = .constant w) :
    t.configure F ctx (Op.join ([v].map ScalarText.str) (cs! " ")) = (⟨t.name, t.height, .constant (reread v)⟩, none) := by
  have hne : Op.join ([v].map ScalarText.str) (cs! " ") ≠ [] := LawfulText.str_ne v
  unfold Term.configure
  rw [hk]
  simp only
  rw [if_neg (by simpa using hne), Op.split_words _ (by simp) (Term.words_strs [v])]
  simp only [List.map_singleton, ofText_str]

theorem configure_linear [LawfulText S] (F : ElementFactory S) (ctx : Ctx S) (t : Term S) (c d : List S) (b : Bool) (h0 : c ≠ [])
    (hk : t.kind = .linear d b) :
    t.configure F ctx (Op.join (c.map ScalarText.str) (cs! " ")) = (⟨t.name, t.height, .linear (c.map reread) b⟩, none) := by
  have hs := Term.words_strs c
  have hne : Op.join (c.map ScalarText.str) (cs! " ") ≠ [] :=
    Op.join_ne_nil _ _ (by simpa using h0) fun t ht => (hs t ht).1
  unfold Term.configure
  rw [hk]
  simp only
  rw [if_neg (by simpa using hne), Op.split_words _ (by simpa using h0) hs, Term.toScalars_strs]

/-- the class and the order of the parameters are the ones of the library -/
theorem class_order (t : Term S) : FisImporter.termClass (cls t) = t.className ∧
    FisImporter.sortParameters (cls t) ((numbers t).map ScalarText.str) = (match t.kind with
      | .shape s => s.written.map ScalarText.str
      | _ => (numbers t).map ScalarText.str) := by
  unfold cls numbers Term.className
  cases t.kind with
  | shape s => cases s <;> exact ⟨rfl, rfl⟩
  | constant v => exact ⟨rfl, rfl⟩
  | discrete xy =>
    refine ⟨rfl, ?_⟩
    simp only
    generalize (Discrete.toVector xy).map ScalarText.str = ps
    unfold FisImporter.sortParameters
    split <;> simp
  | function f => exact ⟨rfl, rfl⟩
  | linear c e =>
    refine ⟨rfl, ?_⟩
    simp only
    generalize c.map ScalarText.str = ps
    unfold FisImporter.sortParameters
    split <;> simp

theorem createInstance_read [PlainText S] (F : ElementFactory S) (ctx : Ctx S) (t : Term S) (h : GoodTerm t) :
    FisImporter.createInstance F ctx (cls t) (Op.validName t.name) ((Op.split (params t) (cs! " ") true).map Op.trim) =
      readTerm F ctx t := by
  obtain ⟨h1, h2⟩ := class_order t
  have hcn : t.className ≠ [] := (Fll.className_word t).1
  have hn := (Op.validName_partial t.name).2.2 h.name
  have hps : (∀ f, t.kind ≠ .function f) →
      (Op.split (Op.join ((numbers t).map ScalarText.str) (cs! " ")) (cs! " ") true).map Op.trim = (numbers t).map ScalarText.str := by
    intro hf
    have hs := Term.words_strs (numbers t)
    rw [Op.split_words _ (by simpa using numbers_ne t h hf) hs]
    conv_rhs => rw [← List.map_id ((numbers t).map ScalarText.str)]
    exact List.map_congr_left fun w hw => Op.trim_noBlank w (hs w hw).2
  unfold FisImporter.createInstance
  rw [h1, if_neg hcn, Fll.registered_find]
  simp only [hn]
  unfold params readTerm
  cases hk : t.kind with
  | shape s =>
    have hu : Engine.updateTerm F ctx t.fresh = t.fresh := by unfold Engine.updateTerm Term.fresh; rw [hk]
    have hfk : t.fresh.kind = .shape s.fresh := by unfold Term.fresh; rw [hk]
    simp only
    rw [hps (by simp [hk]), h2, hk, hu]
    simp only [hfk]
    rw [configure_shape F ctx _ s (by simp [hfk])]
    rfl
  | discrete xy =>
    have hu : Engine.updateTerm F ctx t.fresh = t.fresh := by unfold Engine.updateTerm Term.fresh; rw [hk]
    have hfk : t.fresh.kind = .discrete [] := by unfold Term.fresh; rw [hk]
    have hnum : numbers t = Discrete.toVector xy := by unfold numbers; rw [hk]
    simp only
    rw [hps (by simp [hk]), h2, hk, hu]
    simp only [hfk, hnum]
    rw [configure_discrete F ctx _ xy [] (by rintro rfl; exact h.discrete hk) (by simp [hfk])]
  | constant v =>
    have hu : Engine.updateTerm F ctx t.fresh = t.fresh := by unfold Engine.updateTerm Term.fresh; rw [hk]
    have hfk : t.fresh.kind = .constant nan := by unfold Term.fresh; rw [hk]
    have hnum : numbers t = [v] := by unfold numbers; rw [hk]
    simp only
    rw [hps (by simp [hk]), h2, hk, hu]
    simp only [hfk, hnum]
    rw [configure_constant F ctx _ v nan (by simp [hfk])]
    rfl
  | linear c e =>
    have hu : Engine.updateTerm F ctx t.fresh = ⟨[], lit 1, .linear [] true⟩ := by
      unfold Engine.updateTerm Term.fresh; rw [hk]
    have hnum : numbers t = c := by unfold numbers; rw [hk]
    simp only
    rw [hps (by simp [hk]), h2, hk, hu]
    simp only [hnum]
    rw [configure_linear F ctx _ c [] true (by rintro rfl; exact h.linear e hk) rfl]
  | function f =>
    have hu : Engine.updateTerm F ctx t.fresh = ⟨[], lit 1, .function ⟨[], none, true, fun _ => none⟩⟩ := by
      unfold Engine.updateTerm Term.fresh; rw [hk]; rfl
    have hf := h.formula f hk
    have hsort : ∀ ps, FisImporter.sortParameters (cls t) ps = ps := by
      intro ps
      have : cls t = cs! "function" := by unfold cls; rw [hk]
      rw [this]
      unfold FisImporter.sortParameters
      split <;> simp
    rw [hu]
    simp only
    rw [hsort, Op.join_nil, formula_pieces _ hf.ne hf.blanks]
    simp only [Term.configure]
    cases Fun.load F ⟨[], none, true, fun _ => none⟩ (f.formula.filter fun c => !isSpace c) true ctx with
    | mk g err => cases err <;> rfl

/-- the value of the line of a term -/
def termValue (t : Term S) : Str := Op.validName t.name ++ cs! ":" ++ (cls t ++ cs! ",[" ++ params t ++ cs! "]")

/-- C70: a written term is read again, up to its height and the blanks of formulas -/
theorem parseTerm_line [PlainText S] (F : ElementFactory S) (ctx : Ctx S) (t : Term S) (h : GoodTerm t) :
    FisImporter.parseTerm F ctx (termValue t) = readTerm F ctx t := by
  obtain ⟨hc0, hcb, hcm⟩ := cls_word t
  have keep : ∀ s : Str, '[' ∉ s → ']' ∉ s → (s.filter fun c => !decide (c = '[' ∨ c = ']')) = s := by
    intro s h1 h2
    rw [List.filter_eq_self]
    intro c hc
    simp only [Bool.not_eq_true', decide_eq_false_iff_not]
    rintro (rfl | rfl)
    · exact h1 hc
    · exact h2 hc
  have e : (termValue t).filter (fun c => !decide (c = '[' ∨ c = ']')) =
      Op.validName t.name ++ ':' :: (cls t ++ ',' :: params t) := by
    unfold termValue
    simp only [List.filter_append]
    rw [keep _ (name_mark _ (by decide)) (name_mark _ (by decide)), keep _ (hcm _ (by decide)) (hcm _ (by decide)),
      keep _ (params_mark t h (by decide)) (params_mark t h (by decide))]
    have l1 : (cs! ":").filter (fun c => !decide (c = '[' ∨ c = ']')) = cs! ":" := by decide
    have l2 : (cs! ",[").filter (fun c => !decide (c = '[' ∨ c = ']')) = cs! "," := by decide
    have l3 : (cs! "]").filter (fun c => !decide (c = '[' ∨ c = ']')) = [] := by decide
    rw [l1, l2, l3]
    simp
  unfold FisImporter.parseTerm
  simp only [e]
  rw [split_pair ':' _ _ h.name (by simp) (name_mark _ (by decide))
    (by simp [hcm ':' (by decide), params_mark t h (c := ':') (by decide)])]
  simp only
  rw [split_pair ',' _ _ hc0 (params_ne t h) (hcm _ (by decide)) (params_mark t h (by decide))]
  simp only
  rw [Op.trim_noBlank _ hcb, Op.trim_noBlank _ (Fll.validName_word _).1]
  exact createInstance_read F ctx t h

/-! ### variables -/

/-- the variable read where `v` was written, among variables with the names and values `ctx` (its own
included): enabled, without locks -/
def readInput (F : ElementFactory S) (ctx : Ctx S) (v : Variable S) : Except Err (Variable S) := do
  let ts ← v.terms.mapM (readTerm F ctx)
  .ok { name := Op.validName v.name, description := [], terms := ts, value := nan,
        minimum := reread v.minimum, maximum := reread v.maximum, enabled := true, lockRange := false }

/-- the output variable read where `v` was written, before the engine is configured: the default value
and the locks are lost -/
def readOutput (F : ElementFactory S) (ctx : Ctx S) (v : OutputVariable S) : Except Err (OutputVariable S) := do
  let ts ← v.terms.mapM (readTerm F ctx)
  .ok { name := Op.validName v.name, description := [], terms := ts, value := nan,
        minimum := reread v.minimum, maximum := reread v.maximum, enabled := true, lockRange := false,
        fuzzy := ⟨Op.validName v.name, reread v.minimum, reread v.maximum, none, []⟩,
        defuzzifier := none, previous := nan, default := nan, lockPrevious := false }

/-- a variable whose codes are of type `int` -/
structure GoodVariable (v : Variable S) : Prop where
  name : Op.validName v.name ≠ []
  terms : ∀ t ∈ v.terms, GoodTerm t
  count : v.terms.length < 2147483648

theorem keyValue_of (k v : Str) (hk : k ≠ []) (hv : v ≠ []) (h1 : '=' ∉ k) (h2 : '=' ∉ v) (tk : Op.trim k = k)
    (tv : Op.trim v = v) : FisImporter.keyValue (k ++ '=' :: v) = .ok (k, v) := by
  unfold FisImporter.keyValue
  rw [split_pair '=' k v hk hv h1 h2]
  simp only [tk, tv]

/-- the text of a range -/
def range (a b : S) : Str := cs! "[" ++ Op.join [ScalarText.str a, ScalarText.str b] (cs! " ") ++ cs! "]"

theorem range_eq (a b : S) : range a b = ('[' :: ScalarText.str a) ++ ' ' :: (ScalarText.str b ++ cs! "]") := by
  simp [range, Op.join]

theorem range_mark [PlainText S] (a b : S) {c : Char} (hc : c ∈ cs! "'=#/\n") : c ∉ range a b := by
  have h1 := str_mark a (c := c) (by clear * - hc; revert c; decide)
  have h2 := str_mark b (c := c) (by clear * - hc; revert c; decide)
  have h3 : c ∉ cs! "[ ]" := by clear * - hc; revert c; decide
  simp only [List.mem_cons, List.not_mem_nil, or_false, not_or] at h3
  rw [range_eq]
  simp [h1, h2, h3]

theorem range_trim [PlainText S] (a b : S) : Op.trim (range a b) = range a b := by
  refine Op.trim_of_ends _ (fun c hc => ?_) (fun c hc => ?_)
  · obtain rfl : '[' = c := by simpa [range] using hc
    decide
  · rw [range, List.getLast?_append_of_ne_nil _ (by decide)] at hc
    obtain rfl : ']' = c := by simpa using hc
    decide

theorem parseRange_text [PlainText S] (a b : S) : FisImporter.parseRange (range a b) = .ok (reread a, reread b) := by
  unfold FisImporter.parseRange
  rw [range_eq, show (cs! " ") = [' '] from rfl, split_pair ' ' _ _ (by simp) (by simp) (by simp [str_mark a (c := ' ') (by decide)])
    (by simp [str_mark b (c := ' ') (by decide)])]
  simp only [List.head?_cons, List.getLast?_append_of_ne_nil _ (show cs! "]" ≠ [] by decide), List.getLast?_singleton, and_self,
    if_true, List.tail_cons, List.dropLast_concat]
  unfold toScalar
  rw [ofText_str, ofText_str]
  rfl

/-- the lines of the terms, without quotes -/
def termLines : Nat → List (Term S) → List Str
  | _, [] => []
  | n, t :: ts => ((cs! "MF" ++ Nat.toDigits 10 n) ++ '=' :: termValue t) :: termLines (n + 1) ts

/-- the lines of a variable after the first, without quotes -/
def varBody (v : Variable S) : List Str :=
  [cs! "Name" ++ '=' :: Op.validName v.name, cs! "Range" ++ '=' :: range v.minimum v.maximum,
   cs! "NumMFs" ++ '=' :: Nat.toDigits 10 v.terms.length] ++ termLines 1 v.terms

theorem termValue_free [PlainText S] (t : Term S) (h : GoodTerm t) {c : Char} (hc : c ∈ cs! "'=") : c ∉ termValue t := by
  have h1 := name_mark t.name (c := c) (by clear * - hc; revert c; decide)
  have h2 := (cls_word t).2.2 c (by clear * - hc; revert c; decide)
  have h3 := params_mark t h (c := c) (by clear * - hc; revert c; decide)
  have h4 : c ∉ cs! ":,[]" := by clear * - hc; revert c; decide
  simp only [List.mem_cons, List.not_mem_nil, or_false, not_or] at h4
  simp [termValue, h1, h2, h3, h4]

theorem params_core [PlainText S] (t : Term S) (h : GoodTerm t) : Core (params t) := by
  have : Core (Op.join ((numbers t).map ScalarText.str) (cs! " ")) :=
    core_of fun c hc => strs_mark (S := S) (numbers t) (by clear * - hc; revert c; decide)
  unfold params
  cases hk : t.kind with
  | function f => exact (h.formula f hk).toCore
  | _ => exact this

theorem termValue_ends [PlainText S] (t : Term S) (h : GoodTerm t) : Op.trim (termValue t) = termValue t := by
  refine Op.trim_of_ends _ (fun c hc => ?_) (fun c hc => ?_)
  · have : c ∈ Op.validName t.name := by
      cases hn : Op.validName t.name with
      | nil => exact absurd hn h.name
      | cons d s => simp [termValue, hn] at hc; simp [hc]
    exact (Fll.validName_word t.name).1 c this
  · have e : termValue t = (Op.validName t.name ++ cs! ":" ++ (cls t ++ cs! ",[" ++ params t)) ++ cs! "]" := by
      simp [termValue]
    rw [e, List.getLast?_append_of_ne_nil _ (by decide)] at hc
    obtain rfl : ']' = c := by simpa using hc
    decide

theorem keyValue_term [PlainText S] (n : Nat) (t : Term S) (h : GoodTerm t) :
    FisImporter.keyValue ((cs! "MF" ++ Nat.toDigits 10 n) ++ '=' :: termValue t) =
      .ok (cs! "MF" ++ Nat.toDigits 10 n, termValue t) := by
  refine keyValue_of _ _ (by simp) (by simp [termValue]) ?_ (termValue_free t h (by decide)) ?_ (termValue_ends t h)
  · simp [digits_mark n (c := '=') (by decide)]
  · refine Op.trim_noBlank _ fun c hc => ?_
    rcases List.mem_append.1 hc with hc | hc
    · clear * - hc; revert c; decide
    · exact (Decimal.digit_char c (Decimal.digits_isDigit n c hc)).1

theorem mf_key (n : Nat) : (cs! "MF" ++ Nat.toDigits 10 n) ∉ [cs! "Name", cs! "Enabled", cs! "Range", cs! "NumMFs", cs! "Default",
    cs! "LockPrevious", cs! "LockRange"] := by
  simp

theorem inputStep_terms [PlainText S] (F : ElementFactory S) (e : Engine S) (n : Nat) (ts : List (Term S))
    (h : ∀ t ∈ ts, GoodTerm t) (v : Variable S) :
    (termLines n ts).foldlM (FisImporter.inputStep F e) v =
      (ts.mapM (readTerm F ⟨(e.inputs.map fun v => (v.name, v.value)) ++ [(v.name, v.value)],
        e.outputs.map fun v => (v.name, v.value)⟩) >>= fun us => .ok { v with terms := v.terms ++ us }) := by
  induction ts generalizing v n with
  | nil => simp [pure, Except.pure, bind, Except.bind, termLines]
  | cons t ts ih =>
    have hx : ({ e with inputs := e.inputs ++ [v] } : Engine S).world.ctx =
        ⟨(e.inputs.map fun v => (v.name, v.value)) ++ [(v.name, v.value)], e.outputs.map fun v => (v.name, v.value)⟩ := by
      simp [Engine.world, World.ctx]
    have e1 : FisImporter.inputStep F e v ((cs! "MF" ++ Nat.toDigits 10 n) ++ '=' :: termValue t) =
        (readTerm F ⟨(e.inputs.map fun v => (v.name, v.value)) ++ [(v.name, v.value)],
          e.outputs.map fun v => (v.name, v.value)⟩ t >>= fun u => .ok (v.addTerm u)) := by
      unfold FisImporter.inputStep
      rw [keyValue_term n t (h t (by simp)), Fll.ok_bind]
      simp only
      rw [if_neg (by simp), if_neg (by simp), if_neg (by simp), if_pos (by simp), parseTerm_line F _ t (h t (by simp)), hx]
    rw [termLines, List.foldlM_cons, e1, List.mapM_cons]
    generalize hc : (⟨(e.inputs.map fun v => (v.name, v.value)) ++ [(v.name, v.value)],
      e.outputs.map fun v => (v.name, v.value)⟩ : Ctx S) = ctx
    cases readTerm F ctx t with
    | error err => rfl
    | ok u =>
      rw [Fll.ok_bind, Fll.ok_bind, ih _ (fun t ht => h t (List.mem_cons_of_mem _ ht)) (v.addTerm u), Fll.ok_bind]
      have hc' : (⟨(e.inputs.map fun v => (v.name, v.value)) ++ [((v.addTerm u).name, (v.addTerm u).value)],
        e.outputs.map fun v => (v.name, v.value)⟩ : Ctx S) = ctx := hc
      rw [hc']
      cases ts.mapM (readTerm F ctx) with
      | error err => rfl
      | ok us =>
        show Except.ok _ = Except.ok _
        simp [Variable.addTerm]

theorem outputStep_terms [PlainText S] (F : ElementFactory S) (e : Engine S) (n : Nat) (ts : List (Term S))
    (h : ∀ t ∈ ts, GoodTerm t) (v : OutputVariable S) :
    (termLines n ts).foldlM (FisImporter.outputStep F e) v =
      (ts.mapM (readTerm F ⟨e.inputs.map fun v => (v.name, v.value),
        (e.outputs.map fun v => (v.name, v.value)) ++ [(v.name, v.value)]⟩) >>= fun us => .ok { v with terms := v.terms ++ us }) := by
  induction ts generalizing v n with
  | nil => simp [pure, Except.pure, bind, Except.bind, termLines]
  | cons t ts ih =>
    have hx : ({ e with outputs := e.outputs ++ [v] } : Engine S).world.ctx =
        ⟨e.inputs.map fun v => (v.name, v.value), (e.outputs.map fun v => (v.name, v.value)) ++ [(v.name, v.value)]⟩ := by
      simp [Engine.world, World.ctx]
    have e1 : FisImporter.outputStep F e v ((cs! "MF" ++ Nat.toDigits 10 n) ++ '=' :: termValue t) =
        (readTerm F ⟨e.inputs.map fun v => (v.name, v.value),
          (e.outputs.map fun v => (v.name, v.value)) ++ [(v.name, v.value)]⟩ t >>= fun u => .ok { v with terms := v.terms ++ [u] }) := by
      unfold FisImporter.outputStep
      rw [keyValue_term n t (h t (by simp)), Fll.ok_bind]
      simp only
      rw [if_neg (by simp), if_neg (by simp), if_neg (by simp), if_pos (by simp), parseTerm_line F _ t (h t (by simp)), hx]
    rw [termLines, List.foldlM_cons, e1, List.mapM_cons]
    generalize hc : (⟨e.inputs.map fun v => (v.name, v.value),
        (e.outputs.map fun v => (v.name, v.value)) ++ [(v.name, v.value)]⟩ : Ctx S) = ctx
    cases readTerm F ctx t with
    | error err => rfl
    | ok u =>
      rw [Fll.ok_bind, Fll.ok_bind, ih _ (fun t ht => h t (List.mem_cons_of_mem _ ht)), Fll.ok_bind]
      simp only [hc]
      cases ts.mapM (readTerm F ctx) with
      | error err => rfl
      | ok us =>
        show Except.ok _ = Except.ok _
        simp

theorem keyValue_head [PlainText S] (v : Variable S) (h : GoodVariable v) :
    FisImporter.keyValue (cs! "Name" ++ '=' :: Op.validName v.name) = .ok (cs! "Name", Op.validName v.name) ∧
    FisImporter.keyValue (cs! "Range" ++ '=' :: range v.minimum v.maximum) = .ok (cs! "Range", range v.minimum v.maximum) ∧
    FisImporter.keyValue (cs! "NumMFs" ++ '=' :: Nat.toDigits 10 v.terms.length) =
      .ok (cs! "NumMFs", Nat.toDigits 10 v.terms.length) := by
  refine ⟨?_, ?_, ?_⟩
  · exact keyValue_of _ _ (by decide) h.name (by decide) (name_mark _ (by decide)) (by decide)
      (Op.trim_noBlank _ (Fll.validName_word _).1)
  · exact keyValue_of _ _ (by decide) (by simp [range]) (by decide) (range_mark _ _ (by decide)) (by decide) (range_trim _ _)
  · exact keyValue_of _ _ (by decide) (Decimal.digits_ne _) (by decide) (digits_mark _ (by decide)) (by decide)
      (Op.trim_noBlank _ fun c hc => (Decimal.digit_char c (Decimal.digits_isDigit _ c hc)).1)

/-- C70: the section of an input variable -/
theorem importInput_body [PlainText S] (F : ElementFactory S) (e : Engine S) (v : Variable S) (h : GoodVariable v) :
    FisImporter.importInput F (varBody v) e =
      (readInput F ⟨(e.inputs.map fun v => (v.name, v.value)) ++ [(Op.validName v.name, nan)],
        e.outputs.map fun v => (v.name, v.value)⟩ v >>= fun w => .ok { e with inputs := e.inputs ++ [w] }) := by
  obtain ⟨h1, h2, h3⟩ := keyValue_head v h
  have hn := (Op.validName_partial v.name).2.2 h.name
  unfold FisImporter.importInput varBody
  rw [List.foldlM_append]
  have e0 : [cs! "Name" ++ '=' :: Op.validName v.name, cs! "Range" ++ '=' :: range v.minimum v.maximum,
      cs! "NumMFs" ++ '=' :: Nat.toDigits 10 v.terms.length].foldlM (FisImporter.inputStep F e) (Variable.new [] ninf inf []) =
      .ok ⟨Op.validName v.name, [], [], nan, reread v.minimum, reread v.maximum, true, false⟩ := by
    have s1 : FisImporter.inputStep F e (Variable.new [] ninf inf []) (cs! "Name" ++ '=' :: Op.validName v.name) =
        .ok ⟨Op.validName v.name, [], [], nan, ninf, inf, true, false⟩ := by
      unfold FisImporter.inputStep
      rw [h1, Fll.ok_bind]
      simp only [if_true, hn]
      rfl
    have s2 : FisImporter.inputStep F e ⟨Op.validName v.name, [], [], nan, ninf, inf, true, false⟩
        (cs! "Range" ++ '=' :: range v.minimum v.maximum) =
        .ok ⟨Op.validName v.name, [], [], nan, reread v.minimum, reread v.maximum, true, false⟩ := by
      unfold FisImporter.inputStep
      rw [h2, Fll.ok_bind]
      simp only
      rw [if_neg (by decide), if_neg (by decide), if_pos trivial, parseRange_text]
      rfl
    have s3 : FisImporter.inputStep F e ⟨Op.validName v.name, [], [], nan, reread v.minimum, reread v.maximum, true, false⟩
        (cs! "NumMFs" ++ '=' :: Nat.toDigits 10 v.terms.length) =
        .ok ⟨Op.validName v.name, [], [], nan, reread v.minimum, reread v.maximum, true, false⟩ := by
      unfold FisImporter.inputStep
      rw [h3, Fll.ok_bind]
      simp only
      rw [if_neg (by decide), if_neg (by decide), if_neg (by decide), if_neg (by decide), if_pos trivial]
    rw [List.foldlM_cons, s1, Fll.ok_bind, List.foldlM_cons, s2, Fll.ok_bind, List.foldlM_cons, s3]
    rfl
  rw [e0, Fll.ok_bind, inputStep_terms F e 1 v.terms h.terms]
  unfold readInput
  cases v.terms.mapM (readTerm F ⟨(e.inputs.map fun v => (v.name, v.value)) ++ [(Op.validName v.name, nan)],
        e.outputs.map fun v => (v.name, v.value)⟩) with
  | error err => rfl
  | ok us => rfl

/-- C70: the section of an output variable -/
theorem importOutput_body [PlainText S] (F : ElementFactory S) (e : Engine S) (v : OutputVariable S) (h : GoodVariable v.toVariable) :
    FisImporter.importOutput F (varBody v.toVariable) e =
      (readOutput F ⟨e.inputs.map fun v => (v.name, v.value),
        (e.outputs.map fun v => (v.name, v.value)) ++ [(Op.validName v.name, nan)]⟩ v >>= fun w =>
          .ok { e with outputs := e.outputs ++ [w] }) := by
  obtain ⟨h1, h2, h3⟩ := keyValue_head v.toVariable h
  have hn := (Op.validName_partial v.name).2.2 h.name
  unfold FisImporter.importOutput varBody
  rw [List.foldlM_append]
  have e0 : [cs! "Name" ++ '=' :: Op.validName v.name, cs! "Range" ++ '=' :: range v.minimum v.maximum,
      cs! "NumMFs" ++ '=' :: Nat.toDigits 10 v.terms.length].foldlM (FisImporter.outputStep F e) (OutputVariable.new [] ninf inf []) =
      .ok ⟨⟨Op.validName v.name, [], [], nan, reread v.minimum, reread v.maximum, true, false⟩,
        ⟨Op.validName v.name, reread v.minimum, reread v.maximum, none, []⟩, none, nan, nan, false⟩ := by
    have s1 : FisImporter.outputStep F e (OutputVariable.new [] ninf inf []) (cs! "Name" ++ '=' :: Op.validName v.name) =
        .ok ⟨⟨Op.validName v.name, [], [], nan, ninf, inf, true, false⟩, ⟨Op.validName v.name, ninf, inf, none, []⟩, none, nan,
          nan, false⟩ := by
      unfold FisImporter.outputStep
      rw [h1, Fll.ok_bind]
      simp only [if_true, hn]
      rfl
    have s2 : FisImporter.outputStep F e ⟨⟨Op.validName v.name, [], [], nan, ninf, inf, true, false⟩,
        ⟨Op.validName v.name, ninf, inf, none, []⟩, none, nan, nan, false⟩ (cs! "Range" ++ '=' :: range v.minimum v.maximum) =
        .ok ⟨⟨Op.validName v.name, [], [], nan, reread v.minimum, reread v.maximum, true, false⟩,
        ⟨Op.validName v.name, reread v.minimum, reread v.maximum, none, []⟩, none, nan, nan, false⟩ := by
      unfold FisImporter.outputStep
      rw [h2, Fll.ok_bind]
      simp only
      rw [if_neg (by decide), if_neg (by decide), if_pos trivial, parseRange_text]
      rfl
    have s3 : FisImporter.outputStep F e ⟨⟨Op.validName v.name, [], [], nan, reread v.minimum, reread v.maximum, true, false⟩,
        ⟨Op.validName v.name, reread v.minimum, reread v.maximum, none, []⟩, none, nan, nan, false⟩
        (cs! "NumMFs" ++ '=' :: Nat.toDigits 10 v.terms.length) =
        .ok ⟨⟨Op.validName v.name, [], [], nan, reread v.minimum, reread v.maximum, true, false⟩,
        ⟨Op.validName v.name, reread v.minimum, reread v.maximum, none, []⟩, none, nan, nan, false⟩ := by
      unfold FisImporter.outputStep
      rw [h3, Fll.ok_bind]
      simp only
      rw [if_neg (by decide), if_neg (by decide), if_neg (by decide), if_neg (by decide), if_neg (by decide), if_neg (by decide),
        if_neg (by decide), if_pos trivial]
    rw [List.foldlM_cons, s1, Fll.ok_bind, List.foldlM_cons, s2, Fll.ok_bind, List.foldlM_cons, s3]
    rfl
  rw [e0, Fll.ok_bind, outputStep_terms F e 1 v.terms h.terms]
  unfold readOutput
  cases v.terms.mapM (readTerm F ⟨e.inputs.map fun v => (v.name, v.value),
        (e.outputs.map fun v => (v.name, v.value)) ++ [(Op.validName v.name, nan)]⟩) with
  | error err => rfl
  | ok us => rfl

/-! ### lines without quotes and comments -/

theorem last_of (a b : Str) (hb : ∃ c, b.getLast? = some c ∧ isSpace c = false) :
    ∃ c, (a ++ b).getLast? = some c ∧ isSpace c = false := by
  obtain ⟨c, hc, hs⟩ := hb
  exact ⟨c, by rw [List.getLast?_append_of_ne_nil _ (by rintro rfl; simp at hc), hc], hs⟩

theorem digits_last (n : Nat) : ∃ c, (Nat.toDigits 10 n).getLast? = some c ∧ isSpace c = false := by
  cases h : (Nat.toDigits 10 n).getLast? with
  | none => exact absurd (List.getLast?_eq_none_iff.1 h) (Decimal.digits_ne n)
  | some c => exact ⟨c, rfl, (Decimal.digit_char c (Decimal.digits_isDigit n c (List.mem_of_getLast? h))).1⟩

theorem shown_quoted (k n : Str) (hk : k.head?.any (fun c => !isSpace c && !decide (c = '%')) = true) (hk' : ∀ c ∈ cs! "#/\n'", c ∉ k)
    (hn : Core n) (hq : '\'' ∉ n) : shown (k ++ cs! "='" ++ n ++ cs! "'") = some (k ++ '=' :: n) := by
  rw [shown_line]
  · simp only [List.filter_append]
    rw [filter_free hq, filter_free (hk' _ (by decide))]
    have l1 : (cs! "='").filter (fun c => c ≠ '\'') = cs! "=" := by decide
    have l2 : (cs! "'").filter (fun c => c ≠ '\'') = [] := by decide
    rw [l1, l2]
    simp
  · refine Core.append (Core.append (Core.append (core_of ?_) (by decide) (.inr (by decide))) hn (.inl ?_)) (by decide) (.inr (by decide))
    · intro c hc
      exact hk' c (by clear * - hc; revert c; decide)
    · simp [hk' '/' (by decide)]
  · cases k with
    | nil => simp at hk
    | cons c k =>
      simp at hk
      exact ⟨c, by simp, hk.1, hk.2⟩
  · exact last_of _ _ ⟨'\'', rfl, by decide⟩

theorem shown_digits (k : Str) (hk : k.head?.any (fun c => !isSpace c && !decide (c = '%')) = true) (hk' : ∀ c ∈ cs! "#/\n'", c ∉ k)
    (n : Nat) : shown (k ++ cs! "=" ++ Nat.toDigits 10 n) = some (k ++ '=' :: Nat.toDigits 10 n) := by
  rw [shown_line]
  · rw [filter_free]
    · simp
    · simp [hk' '\'' (by decide), digits_mark n (c := '\'') (by decide)]
  · refine core_of fun c hc => ?_
    have h1 := hk' c (by clear * - hc; revert c; decide)
    have h2 := digits_mark n (c := c) (by clear * - hc; revert c; decide)
    have h3 : c ≠ '=' := by rintro rfl; revert hc; decide
    simp [h1, h2, h3]
  · cases k with
    | nil => simp at hk
    | cons c k =>
      simp at hk
      exact ⟨c, by simp, hk.1, hk.2⟩
  · exact last_of _ _ (digits_last n)

theorem shown_range [PlainText S] (a b : S) :
    shown (cs! "Range=[" ++ Op.join [ScalarText.str a, ScalarText.str b] (cs! " ") ++ cs! "]") =
      some (cs! "Range" ++ '=' :: range a b) := by
  have e : cs! "Range=[" ++ Op.join [ScalarText.str a, ScalarText.str b] (cs! " ") ++ cs! "]" = cs! "Range=" ++ range a b := by
    simp [range]
  rw [e, shown_line]
  · rw [filter_free]
    · rfl
    · have := range_mark a b (c := '\'') (by decide)
      simp [this]
  · refine core_of fun c hc => ?_
    have h1 := range_mark a b (c := c) (by clear * - hc; revert c; decide)
    have h3 : c ∉ cs! "Range=" := by clear * - hc; revert c; decide
    simp only [List.mem_append, not_or]
    exact ⟨h3, h1⟩
  · exact ⟨'R', rfl, by decide⟩
  · refine last_of _ _ ?_
    unfold range
    exact last_of _ _ ⟨']', rfl, by decide⟩

theorem shown_term [PlainText S] (n : Nat) (t : Term S) (h : GoodTerm t) :
    shown (cs! "MF" ++ Nat.toDigits 10 n ++ cs! "='" ++ Op.validName t.name ++ cs! "':" ++ FisExporter.term t) =
      some ((cs! "MF" ++ Nat.toDigits 10 n) ++ '=' :: termValue t) := by
  have hcls : ∃ a, (∀ c ∈ cs! "#/\n", c ∉ a) ∧ FisExporter.term t = a ++ params t ++ cs! "]" := by
    unfold FisExporter.term params numbers
    cases t.kind with
    | shape s => exact ⟨(FisExporter.shape s).1 ++ cs! ",[", by cases s <;> simp only [FisExporter.shape] <;> decide, by simp⟩
    | constant v => exact ⟨cs! "'constant',[", by decide, by simp [Op.join]⟩
    | discrete xy => exact ⟨cs! "'discretemf',[", by decide, by simp⟩
    | function f => exact ⟨cs! "'function',[", by decide, by simp⟩
    | linear c e => exact ⟨cs! "'linear',[", by decide, by simp⟩
  obtain ⟨a, ha, hterm⟩ := hcls
  rw [shown_line]
  · simp only [List.filter_append]
    rw [term_text t h, filter_free (name_mark t.name (c := '\'') (by decide)), filter_free (digits_mark n (c := '\'') (by decide))]
    have l1 : (cs! "='").filter (fun c => c ≠ '\'') = cs! "=" := by decide
    have l2 : (cs! "':").filter (fun c => c ≠ '\'') = cs! ":" := by decide
    have l3 : (cs! "MF").filter (fun c => c ≠ '\'') = cs! "MF" := by decide
    rw [l1, l2, l3]
    simp [termValue]
  · rw [hterm]
    have e : cs! "MF" ++ Nat.toDigits 10 n ++ cs! "='" ++ Op.validName t.name ++ cs! "':" ++ (a ++ params t ++ cs! "]") =
        (cs! "MF" ++ Nat.toDigits 10 n ++ cs! "='" ++ Op.validName t.name ++ cs! "':" ++ a) ++ params t ++ cs! "]" := by simp
    rw [e]
    have h0 : ∀ c ∈ cs! "#/\n", c ∉ cs! "MF" ++ Nat.toDigits 10 n ++ cs! "='" ++ Op.validName t.name ++ cs! "':" ++ a := by
      intro c hc
      have h1 := digits_mark n (c := c) (by clear * - hc; revert c; decide)
      have h2 := name_mark t.name (c := c) (by clear * - hc; revert c; decide)
      have h3 : c ∉ cs! "MF='':" := by clear * - hc; revert c; decide
      simp only [List.mem_cons, List.not_mem_nil, or_false, not_or] at h3
      simp [h1, h2, h3, ha c hc]
    exact Core.append (Core.append (core_of h0) (params_core t h) (.inl (h0 _ (by decide)))) (by decide) (.inr (by decide))
  · exact ⟨'M', by simp, by decide⟩
  · rw [hterm]
    exact last_of _ _ (last_of _ _ ⟨']', rfl, by decide⟩)

theorem shown_terms [PlainText S] (n : Nat) (ts : List (Term S)) (h : ∀ t ∈ ts, GoodTerm t) :
    (FisExporter.terms n ts).filterMap shown = termLines n ts := by
  induction ts generalizing n with
  | nil => rfl
  | cons t ts ih =>
    rw [FisExporter.terms, List.filterMap_cons, shown_term n t (h t (by simp)), ih _ fun t ht => h t (List.mem_cons_of_mem _ ht)]
    rfl

theorem shown_var [PlainText S] (title : Str) (ht : title ∈ [cs! "Input", cs! "Output"]) (n : Nat) (v : Variable S) (h : GoodVariable v) :
    (FisExporter.varLines title n v).filterMap shown = (cs! "[" ++ title ++ Nat.toDigits 10 n ++ cs! "]") :: varBody v := by
  have h1 : shown (cs! "[" ++ title ++ Nat.toDigits 10 n ++ cs! "]") = some (cs! "[" ++ title ++ Nat.toDigits 10 n ++ cs! "]") := by
    have hm : ∀ c ∈ cs! "#/\n'", c ∉ cs! "[" ++ title ++ Nat.toDigits 10 n ++ cs! "]" := by
      intro c hc
      have h1 := digits_mark n (c := c) (by clear * - hc; revert c; decide)
      have h2 : c ∉ title := by
        simp only [List.mem_cons, List.not_mem_nil, or_false] at ht
        rcases ht with rfl | rfl <;> clear * - hc <;> revert c <;> decide
      have h3 : c ∉ cs! "[]" := by clear * - hc; revert c; decide
      simp only [List.mem_cons, List.not_mem_nil, or_false, not_or] at h3
      simp [h1, h2, h3]
    rw [shown_line]
    · rw [filter_free (hm _ (by decide))]
    · exact core_of fun c hc => hm c (by clear * - hc; revert c; decide)
    · exact ⟨'[', by simp, by decide⟩
    · exact last_of _ _ ⟨']', rfl, by decide⟩
  have h2 := shown_quoted (cs! "Name") (Op.validName v.name) (by decide) (by decide)
    (core_of fun c hc => name_mark _ (by clear * - hc; revert c; decide)) (name_mark _ (by decide))
  have h3 := shown_range v.minimum v.maximum
  have h4 := shown_digits (cs! "NumMFs") (by decide) (by decide) v.terms.length
  have h5 : shown [] = none := by decide
  unfold FisExporter.varLines varBody
  simp only [List.filterMap_append, List.filterMap_cons, List.filterMap_nil, h1, h3, h5, shown_terms 1 v.terms h.terms]
  have h2' : shown (cs! "Name='" ++ Op.validName v.name ++ cs! "'") = some (cs! "Name" ++ '=' :: Op.validName v.name) := by
    rw [← h2]; congr 1
  have h4' : shown (cs! "NumMFs=" ++ Nat.toDigits 10 v.terms.length) = some (cs! "NumMFs" ++ '=' :: Nat.toDigits 10 v.terms.length) := by
    rw [← h4]; congr 1
  rw [h2', h4']
  simp

/-- the sections of variables -/
def varSections (title : Str) : Nat → List (Variable S) → List (Str × List Str)
  | _, [] => []
  | n, v :: vs => (cs! "[" ++ title ++ Nat.toDigits 10 n ++ cs! "]", varBody v) :: varSections title (n + 1) vs

theorem shown_all [PlainText S] (title : Str) (ht : title ∈ [cs! "Input", cs! "Output"]) (n : Nat) (vs : List (Variable S))
    (h : ∀ v ∈ vs, GoodVariable v) :
    (FisExporter.allLines title n vs).filterMap shown = (varSections title n vs).flatMap fun g => g.1 :: g.2 := by
  induction vs generalizing n with
  | nil => rfl
  | cons v vs ih =>
    rw [FisExporter.allLines, List.filterMap_append, shown_var title ht n v (h v (by simp)),
      ih _ fun v hv => h v (List.mem_cons_of_mem _ hv), varSections, List.flatMap_cons]

end Fis
end
end FL
