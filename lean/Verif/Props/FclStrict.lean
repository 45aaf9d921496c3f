/-
C69: which texts the importer of the Fuzzy Control Language accepts, and what it makes of them.
-/
import Verif.Props.Fcl
import Verif.Props.Strict

namespace FL
open Scalar

section
variable {S : Type} [ScalarText S]

namespace FclStrict
open FclImporter

/-! ### values of lines -/

/-- the line has two pieces that are not empty around the separator, and the value is the second -/
def Value (separator line value : Str) : Prop := ∃ key, Op.split line separator true = [key, value]

theorem value_iff (line separator v : Str) : FclImporter.value line separator = .ok v ↔ Value separator line v := by
  unfold FclImporter.value Value
  constructor
  · intro h
    split at h
    · rename_i k w hs
      cases h
      exact ⟨k, hs⟩
    · cases h
  · rintro ⟨k, hk⟩
    rw [hk]

theorem bind_value {α : Type} (line separator : Str) (f : Str → Except Err α) (a : α) :
    (FclImporter.value line separator >>= f) = .ok a ↔ ∃ v, Value separator line v ∧ f v = .ok a := by
  constructor
  · intro h
    cases hv : FclImporter.value line separator with
    | error e => rw [hv] at h; cases h
    | ok v => rw [hv] at h; exact ⟨v, (value_iff _ _ _).1 hv, h⟩
  · rintro ⟨v, hv, h⟩
    rw [(value_iff _ _ _).2 hv]
    exact h

/-! ### norms and defuzzifiers -/

/-- the names of the T-Norms: the short ones of the language, and the names of the classes -/
inductive NamesTNorm : Str → Option (TNorm S) → Prop
  | none : NamesTNorm (cs! "NONE") none
  | empty : NamesTNorm [] none
  | min : NamesTNorm (cs! "MIN") (some (.builtin .minimum))
  | prod : NamesTNorm (cs! "PROD") (some (.builtin .algebraicProduct))
  | bdif : NamesTNorm (cs! "BDIF") (some (.builtin .boundedDifference))
  | dprod : NamesTNorm (cs! "DPROD") (some (.builtin .drasticProduct))
  | eprod : NamesTNorm (cs! "EPROD") (some (.builtin .einsteinProduct))
  | hprod : NamesTNorm (cs! "HPROD") (some (.builtin .hamacherProduct))
  | nmin : NamesTNorm (cs! "NMIN") (some (.builtin .nilpotentMinimum))
  | algebraicProduct : NamesTNorm (cs! "AlgebraicProduct") (some (.builtin .algebraicProduct))
  | boundedDifference : NamesTNorm (cs! "BoundedDifference") (some (.builtin .boundedDifference))
  | drasticProduct : NamesTNorm (cs! "DrasticProduct") (some (.builtin .drasticProduct))
  | einsteinProduct : NamesTNorm (cs! "EinsteinProduct") (some (.builtin .einsteinProduct))
  | hamacherProduct : NamesTNorm (cs! "HamacherProduct") (some (.builtin .hamacherProduct))
  | minimum : NamesTNorm (cs! "Minimum") (some (.builtin .minimum))
  | nilpotentMinimum : NamesTNorm (cs! "NilpotentMinimum") (some (.builtin .nilpotentMinimum))

/-- the names of the S-Norms; `UnboundedSum` has no short one -/
inductive NamesSNorm : Str → Option (SNorm S) → Prop
  | none : NamesSNorm (cs! "NONE") none
  | empty : NamesSNorm [] none
  | max : NamesSNorm (cs! "MAX") (some (.builtin .maximum))
  | asum : NamesSNorm (cs! "ASUM") (some (.builtin .algebraicSum))
  | bsum : NamesSNorm (cs! "BSUM") (some (.builtin .boundedSum))
  | nsum : NamesSNorm (cs! "NSUM") (some (.builtin .normalizedSum))
  | dsum : NamesSNorm (cs! "DSUM") (some (.builtin .drasticSum))
  | esum : NamesSNorm (cs! "ESUM") (some (.builtin .einsteinSum))
  | hsum : NamesSNorm (cs! "HSUM") (some (.builtin .hamacherSum))
  | nmax : NamesSNorm (cs! "NMAX") (some (.builtin .nilpotentMaximum))
  | algebraicSum : NamesSNorm (cs! "AlgebraicSum") (some (.builtin .algebraicSum))
  | boundedSum : NamesSNorm (cs! "BoundedSum") (some (.builtin .boundedSum))
  | drasticSum : NamesSNorm (cs! "DrasticSum") (some (.builtin .drasticSum))
  | einsteinSum : NamesSNorm (cs! "EinsteinSum") (some (.builtin .einsteinSum))
  | hamacherSum : NamesSNorm (cs! "HamacherSum") (some (.builtin .hamacherSum))
  | maximum : NamesSNorm (cs! "Maximum") (some (.builtin .maximum))
  | nilpotentMaximum : NamesSNorm (cs! "NilpotentMaximum") (some (.builtin .nilpotentMaximum))
  | normalizedSum : NamesSNorm (cs! "NormalizedSum") (some (.builtin .normalizedSum))
  | unboundedSum : NamesSNorm (cs! "UnboundedSum") (some (.builtin .unboundedSum))

/-- the names of the defuzzifiers, which have the default resolution or the type `Automatic` -/
inductive NamesDefuzzifier (resolution : Int) : Str → Option Defuzzifier → Prop
  | none : NamesDefuzzifier resolution (cs! "NONE") none
  | empty : NamesDefuzzifier resolution [] none
  | cog : NamesDefuzzifier resolution (cs! "COG") (some (.integral .centroid resolution))
  | coa : NamesDefuzzifier resolution (cs! "COA") (some (.integral .bisector resolution))
  | lm : NamesDefuzzifier resolution (cs! "LM") (some (.integral .smallestOfMaximum resolution))
  | rm : NamesDefuzzifier resolution (cs! "RM") (some (.integral .largestOfMaximum resolution))
  | mm : NamesDefuzzifier resolution (cs! "MM") (some (.integral .meanOfMaximum resolution))
  | cogs : NamesDefuzzifier resolution (cs! "COGS") (some (.weighted .average .automatic))
  | cogss : NamesDefuzzifier resolution (cs! "COGSS") (some (.weighted .sum .automatic))
  | integral (name k) : Strict.NamesIntegral name k → NamesDefuzzifier resolution name (some (.integral k resolution))
  | weighted (name k) : Strict.NamesWeighted name k → NamesDefuzzifier resolution name (some (.weighted k .automatic))

theorem tnormClass_cases (w : Str) : (w, tnormClass w) ∈ [(cs! "NONE", []), (cs! "MIN", cs! "Minimum"),
    (cs! "PROD", cs! "AlgebraicProduct"), (cs! "BDIF", cs! "BoundedDifference"), (cs! "DPROD", cs! "DrasticProduct"),
    (cs! "EPROD", cs! "EinsteinProduct"), (cs! "HPROD", cs! "HamacherProduct"), (cs! "NMIN", cs! "NilpotentMinimum")] ∨
    tnormClass w = w := by
  by_cases h : w ∈ [cs! "NONE", cs! "MIN", cs! "PROD", cs! "BDIF", cs! "DPROD", cs! "EPROD", cs! "HPROD", cs! "NMIN"]
  · left
    revert w
    decide
  · right
    simp only [List.mem_cons, List.not_mem_nil, or_false, not_or] at h
    simp [tnormClass, h]

theorem snormClass_cases (w : Str) : (w, snormClass w) ∈ [(cs! "NONE", []), (cs! "MAX", cs! "Maximum"),
    (cs! "ASUM", cs! "AlgebraicSum"), (cs! "BSUM", cs! "BoundedSum"), (cs! "NSUM", cs! "NormalizedSum"),
    (cs! "DSUM", cs! "DrasticSum"), (cs! "ESUM", cs! "EinsteinSum"), (cs! "HSUM", cs! "HamacherSum"),
    (cs! "NMAX", cs! "NilpotentMaximum")] ∨ snormClass w = w := by
  by_cases h : w ∈ [cs! "NONE", cs! "MAX", cs! "ASUM", cs! "BSUM", cs! "NSUM", cs! "DSUM", cs! "ESUM", cs! "HSUM", cs! "NMAX"]
  · left
    revert w
    decide
  · right
    simp only [List.mem_cons, List.not_mem_nil, or_false, not_or] at h
    simp [snormClass, h]

theorem defuzzifierClass_cases (w : Str) : (w, defuzzifierClass w) ∈ [(cs! "NONE", []), (cs! "COG", cs! "Centroid"),
    (cs! "COA", cs! "Bisector"), (cs! "LM", cs! "SmallestOfMaximum"), (cs! "RM", cs! "LargestOfMaximum"),
    (cs! "MM", cs! "MeanOfMaximum"), (cs! "COGS", cs! "WeightedAverage"), (cs! "COGSS", cs! "WeightedSum")] ∨
    defuzzifierClass w = w := by
  by_cases h : w ∈ [cs! "NONE", cs! "COG", cs! "COA", cs! "LM", cs! "RM", cs! "MM", cs! "COGS", cs! "COGSS"]
  · left
    revert w
    decide
  · right
    simp only [List.mem_cons, List.not_mem_nil, or_false, not_or] at h
    simp [defuzzifierClass, h]

/-- C69: the lines of T-Norms. -/
theorem tnorm_iff (line : Str) (k : Option (TNorm S)) :
    FclImporter.parseTNorm line = .ok k ↔ ∃ v, Value (cs! ":") line v ∧ NamesTNorm (Op.trim v) k := by
  unfold FclImporter.parseTNorm
  rw [bind_value]
  refine exists_congr fun v => and_congr_right fun _ => ?_
  generalize Op.trim v = w
  constructor
  · intro h
    rcases tnormClass_cases w with hw | hw
    · simp only [List.mem_cons, List.not_mem_nil, or_false, Prod.mk.injEq] at hw
      rcases hw with ⟨rfl, hw⟩ | ⟨rfl, hw⟩ | ⟨rfl, hw⟩ | ⟨rfl, hw⟩ | ⟨rfl, hw⟩ | ⟨rfl, hw⟩ | ⟨rfl, hw⟩ | ⟨rfl, hw⟩ <;>
        (cases h; constructor)
    · rw [hw] at h
      dsimp only at h
      split_ifs at h with h1
      · cases h
        subst h1
        exact .empty
      · split at h
        · rename_i j hj
          cases h
          have hn : j.className = w := by simpa using List.find?_some hj
          subst hn
          cases j <;> constructor
        · cases h
  · intro h
    cases h <;> rfl

/-- C69: the lines of S-Norms. -/
theorem snorm_iff (line : Str) (k : Option (SNorm S)) :
    FclImporter.parseSNorm line = .ok k ↔ ∃ v, Value (cs! ":") line v ∧ NamesSNorm (Op.trim v) k := by
  unfold FclImporter.parseSNorm
  rw [bind_value]
  refine exists_congr fun v => and_congr_right fun _ => ?_
  generalize Op.trim v = w
  constructor
  · intro h
    rcases snormClass_cases w with hw | hw
    · simp only [List.mem_cons, List.not_mem_nil, or_false, Prod.mk.injEq] at hw
      rcases hw with ⟨rfl, hw⟩ | ⟨rfl, hw⟩ | ⟨rfl, hw⟩ | ⟨rfl, hw⟩ | ⟨rfl, hw⟩ | ⟨rfl, hw⟩ | ⟨rfl, hw⟩ | ⟨rfl, hw⟩ | ⟨rfl, hw⟩ <;>
        (cases h; constructor)
    · rw [hw] at h
      dsimp only at h
      split_ifs at h with h1
      · cases h
        subst h1
        exact .empty
      · split at h
        · rename_i j hj
          cases h
          have hn : j.className = w := by simpa using List.find?_some hj
          subst hn
          cases j <;> constructor
        · cases h
  · intro h
    cases h <;> rfl

/-- C69: the lines of defuzzifiers. -/
theorem defuzzifier_iff (y : FclImporter) (line : Str) (d : Option Defuzzifier) :
    y.parseDefuzzifier line = .ok d ↔ ∃ v, Value (cs! ":") line v ∧ NamesDefuzzifier y.resolution (Op.trim v) d := by
  unfold FclImporter.parseDefuzzifier
  rw [bind_value]
  refine exists_congr fun v => and_congr_right fun _ => ?_
  generalize Op.trim v = w
  constructor
  · intro h
    rcases defuzzifierClass_cases w with hw | hw
    · simp only [List.mem_cons, List.not_mem_nil, or_false, Prod.mk.injEq] at hw
      rcases hw with ⟨rfl, hw⟩ | ⟨rfl, hw⟩ | ⟨rfl, hw⟩ | ⟨rfl, hw⟩ | ⟨rfl, hw⟩ | ⟨rfl, hw⟩ | ⟨rfl, hw⟩ | ⟨rfl, hw⟩ <;>
        (cases h; constructor)
    · rw [hw] at h
      dsimp only at h
      split_ifs at h with h1
      · cases h
        subst h1
        exact .empty
      · split at h
        · rename_i j hj
          cases h
          rcases (Strict.defuzzifier_find _ _ _).1 hj with ⟨k, hk, rfl⟩ | ⟨k, hk, rfl⟩
          · exact .integral _ _ hk
          · exact .weighted _ _ hk
        · cases h
  · intro h
    cases h with
    | integral _ k hk => cases hk <;> rfl
    | weighted _ k hk => cases hk <;> rfl
    | _ => rfl

/-! ### other properties -/

inductive Flag : Str → Bool → Prop
  | yes : Flag (cs! "TRUE") true
  | no : Flag (cs! "FALSE") false

/-- C69: the lines that enable. -/
theorem enabled_iff (line : Str) (b : Bool) :
    FclImporter.parseEnabled line = .ok b ↔ ∃ v, Value (cs! ":") line v ∧ Flag (Op.trim v) b := by
  unfold FclImporter.parseEnabled
  rw [bind_value]
  refine exists_congr fun v => and_congr_right fun _ => ?_
  generalize Op.trim v = w
  constructor
  · intro h
    split_ifs at h with h1 h2
    · subst h1; cases h; constructor
    · subst h2; cases h; constructor
  · intro h
    cases h <;> rfl

/-- the signs that are left out of ranges -/
def compact (s : Str) : Str := s.filter fun c => !(c = '(' ∨ c = ')' ∨ c = ' ' ∨ c = ';')

/-- C69: the lines of ranges: two numbers around two points. -/
theorem range_iff (line : Str) (a b : S) : FclImporter.parseRange line = .ok (a, b) ↔
    ∃ v s t, Value (cs! ":=") line v ∧ Op.split (compact v) (cs! "..") true = [s, t] ∧ Strict.Number s a ∧ Strict.Number t b := by
  unfold FclImporter.parseRange
  rw [bind_value]
  constructor
  · rintro ⟨v, hv, h⟩
    dsimp only at h
    split at h
    · rename_i s t hs
      split at h
      · rename_i x y hx hy
        cases h
        exact ⟨v, s, t, hv, hs, hx, hy⟩
      · cases h
    · cases h
  · rintro ⟨v, s, t, hv, hs, ha, hb⟩
    refine ⟨v, hv, ?_⟩
    unfold compact at hs
    dsimp only
    rw [hs]
    dsimp only
    rw [ha, hb]

/-- the pieces of a default value: a number, and then nothing, the word `NC`, or blanks, or at least two more pieces -/
inductive DefaultPieces : List Str → S → Bool → Prop
  | alone (d a) : Strict.Number (Op.trim d) a → DefaultPieces [d] a false
  | lock (d n a) : Strict.Number (Op.trim d) a → Op.trim n = cs! "NC" → DefaultPieces [d, n] a true
  | blank (d n a) : Strict.Number (Op.trim d) a → Op.trim n = [] → DefaultPieces [d, n] a false
  | more (d n m ns a) : Strict.Number (Op.trim d) a → DefaultPieces (d :: n :: m :: ns) a false

/-- C69: the lines of default values. -/
theorem default_iff (line : Str) (a : S) (lock : Bool) : FclImporter.parseDefaultValue line = .ok (a, lock) ↔
    ∃ v, Value (cs! ":=") line v ∧ DefaultPieces (Op.split v (cs! "|") true) a lock := by
  unfold FclImporter.parseDefaultValue
  rw [bind_value]
  refine exists_congr fun v => and_congr_right fun _ => ?_
  generalize Op.split v (cs! "|") true = ps
  constructor
  · intro h
    rcases ps with _ | ⟨d, _ | ⟨n, _ | ⟨m, ns⟩⟩⟩
    · cases h
    · dsimp only at h
      split at h
      · cases h
      · rename_i x hx
        cases h
        exact .alone _ _ hx
    · dsimp only at h
      split at h
      · cases h
      · rename_i x hx
        split_ifs at h with h1
        cases h
        rcases h1 with h1 | h1
        · have h1 : Op.trim n = cs! "NC" := h1
          simp only [h1]; exact .lock _ _ _ hx h1
        · have h1 : Op.trim n = [] := h1
          simp only [h1]; exact .blank _ _ _ hx h1
    · dsimp only at h
      split at h
      · cases h
      · rename_i x hx
        cases h
        exact .more _ _ _ _ _ hx
  · intro h
    cases h with
    | alone d _ hd => dsimp only; rw [hd]; rfl
    | lock d n _ hd hn => dsimp only; rw [hd]; simp [hn]
    | blank d n _ hd hn => dsimp only; rw [hd]; simp [hn]
    | more d n m ns _ hd => dsimp only; rw [hd]; rfl

/-- C69: the only undefined behaviour of default values: nothing but separators after the sign -/
theorem default_ub (line : Str) : (FclImporter.parseDefaultValue line : Except Err (S × Bool)) = .error .ub ↔
    ∃ v, Value (cs! ":=") line v ∧ Op.split v (cs! "|") true = [] := by
  unfold FclImporter.parseDefaultValue
  cases hv : FclImporter.value line (cs! ":=") with
  | error e =>
    constructor
    · intro h
      cases h
      unfold FclImporter.value at hv
      split at hv <;> cases hv
    · rintro ⟨v, hv', -⟩
      rw [(value_iff _ _ _).2 hv'] at hv
      cases hv
  | ok v =>
    rw [Fll.ok_bind]
    have hu : ∀ w, Value (cs! ":=") line w → w = v := fun w hw => by
      rw [(value_iff _ _ _).2 hw] at hv
      cases hv
      rfl
    constructor
    · intro h
      refine ⟨v, (value_iff _ _ _).1 hv, ?_⟩
      split at h
      · rename_i hs
        exact hs
      · split at h
        all_goals
          dsimp only at h
          split at h
          · cases h
          · split_ifs at h <;> cases h
    · rintro ⟨w, hw, hs⟩
      rw [hu w hw] at hs
      rw [hs]

/-- the words of locks -/
inductive Locks : List Str → Bool → Bool → Prop
  | previous (f) : Op.trim f = cs! "PREVIOUS" → Locks [f] true false
  | range (f) : Op.trim f = cs! "RANGE" → Locks [f] false true
  | both (f g) : Op.trim f = cs! "PREVIOUS" → Op.trim g = cs! "RANGE" → Locks [f, g] true true
  | reverse (f g) : Op.trim f = cs! "RANGE" → Op.trim g = cs! "PREVIOUS" → Locks [f, g] true true

/-- C69: the lines of locks. -/
theorem locks_iff (line : Str) (p r : Bool) : FclImporter.parseLocks line = .ok (p, r) ↔
    ∃ k v, ':' ∉ k ∧ line = k ++ ':' :: v ∧ Locks (Op.split v (cs! "|") true) p r := by
  unfold FclImporter.parseLocks
  cases hc : FllImporter.cut ':' line with
  | none =>
    have := Strict.cut_none hc
    constructor
    · intro h; cases h
    · rintro ⟨k, v, -, rfl, -⟩
      exact absurd (by simp) this
  | some q =>
    obtain ⟨k, v⟩ := q
    have hk := Strict.cut_some hc
    dsimp only at hk ⊢
    have hu : ∀ k' v', ':' ∉ k' → line = k' ++ ':' :: v' → v' = v := by
      intro k' v' hk' hl
      rw [hl, FllImporter.cut_append _ _ _ hk'] at hc
      cases hc
      rfl
    have key : (match Op.split v (cs! "|") true with
      | [f] =>
        let output : Bool := Op.trim f = cs! "PREVIOUS"
        let range : Bool := Op.trim f = cs! "RANGE"
        if output || range then (.ok (output, range) : Except Err (Bool × Bool)) else .error .syntaxError
      | [f, g] =>
        let output : Bool := Op.trim f = cs! "PREVIOUS" || Op.trim g = cs! "PREVIOUS"
        let range : Bool := Op.trim f = cs! "RANGE" || Op.trim g = cs! "RANGE"
        if output && range then .ok (output, range) else .error .syntaxError
      | _ => .error .syntaxError) = .ok (p, r) ↔ Locks (Op.split v (cs! "|") true) p r := by
      generalize Op.split v (cs! "|") true = ps
      have ne : cs! "PREVIOUS" ≠ cs! "RANGE" := by decide
      constructor
      · intro h
        rcases ps with _ | ⟨f, _ | ⟨g, _ | ⟨m, ns⟩⟩⟩
        · cases h
        · by_cases h1 : Op.trim f = cs! "PREVIOUS"
          · simp [h1] at h; obtain ⟨rfl, rfl⟩ := h; exact .previous _ h1
          · by_cases h2 : Op.trim f = cs! "RANGE"
            · simp [h2] at h; obtain ⟨rfl, rfl⟩ := h; exact .range _ h2
            · simp [h1, h2] at h
        · by_cases h1 : Op.trim f = cs! "PREVIOUS"
          · by_cases h2 : Op.trim g = cs! "RANGE"
            · simp [h1, h2] at h; obtain ⟨rfl, rfl⟩ := h; exact .both _ _ h1 h2
            · simp [h1, h2] at h
          · by_cases h3 : Op.trim g = cs! "PREVIOUS"
            · by_cases h2 : Op.trim f = cs! "RANGE"
              · simp [h3, h2] at h; obtain ⟨rfl, rfl⟩ := h; exact .reverse _ _ h2 h3
              · simp [h3, h2] at h
            · simp [h1, h3] at h
        · cases h
      · intro h
        cases h with
        | previous f h => simp [h]
        | range f h => simp [h]
        | both f g h1 h2 => simp [h1, h2]
        | reverse f g h1 h2 => simp [h1, h2]
    refine key.trans ⟨fun h => ⟨k, v, hk.1, hk.2, h⟩, ?_⟩
    rintro ⟨k', v', h1, h2, h3⟩
    rw [← hu k' v' h1 h2]
    exact h3

/-! ### terms -/

/-- the tokens after the class up to a semicolon; parentheses and commas count in formulas only -/
def arguments (cls : Str) (tokens : List Str) : List Str :=
  (tokens.takeWhile fun t => t ≠ cs! ";").filter fun t => cls = cs! "Function" ∨ t ∉ [cs! "(", cs! ")", cs! ","]

/-- the class that a token announces, and the parameter that it is at the same time -/
inductive Announces (S : Type) [ScalarText S] : Str → Str → List Str → Prop
  | constant (c : Str) (a : S) : Strict.Number c a → Announces S c (cs! "Constant") [c]
  | discrete : (∀ a : S, ¬ Strict.Number (cs! "(") a) → Announces S (cs! "(") (cs! "Discrete") []
  | named (c) : (∀ a : S, ¬ Strict.Number c a) → c ≠ cs! "(" → Announces S c c []

/-- the tokens of a term: anything before `TERM`, the name, anything before `:=`, the class, the parameters -/
inductive TermTokens (S : Type) [ScalarText S] : List Str → Str → Str → List Str → Prop
  | mk (pre name mid c cls ps rest) : cs! "TERM" ∉ pre → cs! ":=" ∉ mid → Announces S c cls ps →
      TermTokens S (pre ++ cs! "TERM" :: name :: mid ++ cs! ":=" :: c :: rest) name cls (ps ++ arguments cls rest)

/-- a term: the parameters are joined without blanks for a formula, and configure a term of the class
that knows the engine -/
inductive TermText (F : ElementFactory S) (ctx : Ctx S) : Str → Term S → Prop
  | mk (line name cls : Str) (parameters : List Str) (k : TermKind S) (t : Term S) :
    TermTokens S (Op.words (FclImporter.spaced line)) name cls parameters → Strict.NamesTerm cls k →
    Term.configure F ctx { Engine.updateTerm F ctx ⟨[], lit 1, k⟩ with name := Op.validName name }
      (Op.join parameters (if cls = cs! "Function" then [] else cs! " ")) = (t, none) → TermText F ctx line t

theorem fold_stop (s : FclImporter.TermState) (h : s.stop = true) (ts : List Str) : ts.foldl (FclImporter.termStep S) s = s := by
  induction ts with
  | nil => rfl
  | cons t ts ih =>
    rw [List.foldl_cons]
    have : FclImporter.termStep S s t = s := by unfold FclImporter.termStep; rw [if_pos h]
    rw [this, ih]

theorem fold_arguments (name cls : Str) (acc ts : List Str) (h : ∀ t ∈ ts, Op.NoBlank t) :
    ∃ stop, ts.foldl (FclImporter.termStep S) ⟨.parameters, name, cls, acc, false⟩ =
      ⟨.parameters, name, cls, acc ++ arguments cls ts, stop⟩ := by
  induction ts generalizing acc with
  | nil => exact ⟨false, by simp [arguments]⟩
  | cons t ts ih =>
    rw [List.foldl_cons]
    by_cases h1 : cls ≠ cs! "Function" ∧ (t = cs! "(" ∨ t = cs! ")" ∨ t = cs! ",")
    · have hs : FclImporter.termStep S ⟨.parameters, name, cls, acc, false⟩ t = ⟨.parameters, name, cls, acc, false⟩ := by
        unfold FclImporter.termStep
        simp only [Bool.false_eq_true, if_false]
        rw [if_pos h1]
      rw [hs]
      obtain ⟨stop, he⟩ := ih acc fun u hu => h u (by simp [hu])
      refine ⟨stop, he.trans ?_⟩
      have ht : t ≠ cs! ";" := by rintro rfl; exact absurd h1.2 (by decide)
      have : arguments cls (t :: ts) = arguments cls ts := by
        unfold arguments
        rw [List.takeWhile_cons_of_pos (by simpa using ht), List.filter_cons_of_neg]
        simp only [decide_eq_true_eq, not_or, not_not, List.mem_cons, List.not_mem_nil, or_false]
        exact ⟨h1.1, fun hh => by rcases h1.2 with h | h | h <;> simp [h] at hh⟩
      rw [this]
    · by_cases h2 : t = cs! ";"
      · have hs : FclImporter.termStep S ⟨.parameters, name, cls, acc, false⟩ t = ⟨.parameters, name, cls, acc, true⟩ := by
          unfold FclImporter.termStep
          simp only [Bool.false_eq_true, if_false]
          rw [if_neg h1, if_pos h2]
        rw [hs, fold_stop _ rfl]
        refine ⟨true, ?_⟩
        have : arguments cls (t :: ts) = [] := by
          unfold arguments
          rw [List.takeWhile_cons_of_neg (by simpa using h2)]
          rfl
        rw [this, List.append_nil]
      · have hs : FclImporter.termStep S ⟨.parameters, name, cls, acc, false⟩ t =
            ⟨.parameters, name, cls, acc ++ [t], false⟩ := by
          unfold FclImporter.termStep
          simp only [Bool.false_eq_true, if_false]
          rw [if_neg h1, if_neg h2, Op.trim_noBlank t (h t (by simp))]
        rw [hs]
        obtain ⟨stop, he⟩ := ih (acc ++ [t]) fun u hu => h u (by simp [hu])
        refine ⟨stop, he.trans ?_⟩
        have : arguments cls (t :: ts) = t :: arguments cls ts := by
          unfold arguments
          rw [List.takeWhile_cons_of_pos (by simpa using h2), List.filter_cons_of_pos]
          simp only [decide_eq_true_eq, List.mem_cons, List.not_mem_nil, or_false]
          by_contra hc
          rw [not_or, not_not] at hc
          exact h1 hc
        rw [this]
        simp

theorem fold_announces (name c cls : Str) (ps rest : List Str) (hc : Announces S c cls ps) (h : ∀ t ∈ rest, Op.NoBlank t) :
    ∃ stop, (c :: rest).foldl (FclImporter.termStep S) ⟨.termClass, name, [], [], false⟩ =
      ⟨.parameters, name, cls, ps ++ arguments cls rest, stop⟩ := by
  rw [List.foldl_cons]
  have hs : FclImporter.termStep S ⟨.termClass, name, [], [], false⟩ c = ⟨.parameters, name, cls, ps, false⟩ := by
    unfold FclImporter.termStep
    simp only [Bool.false_eq_true, if_false]
    cases hc with
    | constant _ a ha =>
      rw [if_pos (by rw [show ScalarText.ofText c = some a from ha]; rfl)]
      rfl
    | discrete hn =>
      rw [if_neg (by rw [Option.isSome_iff_exists]; rintro ⟨a, ha⟩; exact hn a ha), if_pos rfl]
    | named _ hn h1 =>
      rw [if_neg (by rw [Option.isSome_iff_exists]; rintro ⟨a, ha⟩; exact hn a ha), if_neg h1]
  rw [hs]
  exact fold_arguments _ _ _ _ h

theorem announces_exists (c : Str) : ∃ cls ps, Announces S c cls ps := by
  by_cases h : ∃ a : S, Strict.Number c a
  · obtain ⟨a, ha⟩ := h
    exact ⟨_, _, .constant c a ha⟩
  · rw [not_exists] at h
    by_cases h1 : c = cs! "("
    · subst h1; exact ⟨_, _, .discrete h⟩
    · exact ⟨_, _, .named c h h1⟩

theorem fold_assign (name : Str) (mid : List Str) (h : cs! ":=" ∉ mid) :
    mid.foldl (FclImporter.termStep S) ⟨.assign, name, [], [], false⟩ = ⟨.assign, name, [], [], false⟩ := by
  induction mid with
  | nil => rfl
  | cons t ts ih =>
    simp only [List.mem_cons, not_or] at h
    rw [List.foldl_cons]
    have : FclImporter.termStep S ⟨.assign, name, [], [], false⟩ t = ⟨.assign, name, [], [], false⟩ := by
      unfold FclImporter.termStep
      simp only [Bool.false_eq_true, if_false]
      rw [if_neg fun hh => h.1 hh.symm]
    rw [this, ih h.2]

theorem fold_keyword (pre : List Str) (h : cs! "TERM" ∉ pre) :
    pre.foldl (FclImporter.termStep S) ⟨.kwTerm, [], [], [], false⟩ = ⟨.kwTerm, [], [], [], false⟩ := by
  induction pre with
  | nil => rfl
  | cons t ts ih =>
    simp only [List.mem_cons, not_or] at h
    rw [List.foldl_cons]
    have : FclImporter.termStep S ⟨.kwTerm, [], [], [], false⟩ t = ⟨.kwTerm, [], [], [], false⟩ := by
      unfold FclImporter.termStep
      simp only [Bool.false_eq_true, if_false]
      rw [if_neg fun hh => h.1 hh.symm]
    rw [this, ih h.2]

theorem fold_tokens (tokens : List Str) (name cls : Str) (ps : List Str) (hb : ∀ t ∈ tokens, Op.NoBlank t)
    (h : TermTokens S tokens name cls ps) : ∃ stop, tokens.foldl (FclImporter.termStep S) ⟨.kwTerm, [], [], [], false⟩ =
      ⟨.parameters, name, cls, ps, stop⟩ := by
  cases h with
  | mk pre _ mid c _ qs rest h1 h2 h3 =>
    rw [List.foldl_append, List.foldl_append, fold_keyword pre h1]
    have e1 : FclImporter.termStep S ⟨.kwTerm, [], [], [], false⟩ (cs! "TERM") = ⟨.name, [], [], [], false⟩ := rfl
    have e2 : FclImporter.termStep S ⟨.name, [], [], [], false⟩ name = ⟨.assign, name, [], [], false⟩ := rfl
    have e3 : FclImporter.termStep S ⟨.assign, name, [], [], false⟩ (cs! ":=") = ⟨.termClass, name, [], [], false⟩ := rfl
    have e4 : (cs! "TERM" :: name :: mid).foldl (FclImporter.termStep S) ⟨.kwTerm, [], [], [], false⟩ =
        ⟨.assign, name, [], [], false⟩ := by
      rw [List.foldl_cons, List.foldl_cons, e1, e2, fold_assign name mid h2]
    rw [e4, List.foldl_cons, e3]
    exact fold_announces name c cls qs rest h3 fun t ht => hb t (by simp [ht])

theorem mem_split {α : Type} [DecidableEq α] {x : α} {l : List α} (h : x ∈ l) : ∃ a b, x ∉ a ∧ l = a ++ x :: b := by
  induction l with
  | nil => cases h
  | cons c l ih =>
    by_cases hc : x = c
    · exact ⟨[], l, by simp, by simp [hc]⟩
    · obtain ⟨a, b, h1, h2⟩ := ih (by simpa [hc] using h)
      exact ⟨c :: a, b, by simp [hc, h1], by simp [h2]⟩

theorem tokens_cases (tokens : List Str) :
    (tokens.foldl (FclImporter.termStep S) ⟨.kwTerm, [], [], [], false⟩).state ≠ .parameters ∨
      ∃ name cls ps, TermTokens S tokens name cls ps := by
  by_cases h : cs! "TERM" ∈ tokens
  · obtain ⟨pre, r, hp, rfl⟩ := mem_split h
    have e1 : FclImporter.termStep S ⟨.kwTerm, [], [], [], false⟩ (cs! "TERM") = ⟨.name, [], [], [], false⟩ := rfl
    cases r with
    | nil =>
      left
      rw [List.foldl_append, fold_keyword pre hp, List.foldl_cons, e1]
      simp
    | cons name r =>
      have e2 : FclImporter.termStep S ⟨.name, [], [], [], false⟩ name = ⟨.assign, name, [], [], false⟩ := rfl
      by_cases h2 : cs! ":=" ∈ r
      · obtain ⟨mid, r, hm, rfl⟩ := mem_split h2
        cases r with
        | nil =>
          left
          rw [List.foldl_append, fold_keyword pre hp, List.foldl_cons, List.foldl_cons, e1, e2, List.foldl_append,
            fold_assign name mid hm]
          have : (FclImporter.termStep S ⟨.assign, name, [], [], false⟩ (cs! ":=")).state = .termClass := rfl
          rw [List.foldl_cons, List.foldl_nil, this]
          decide
        | cons c rest =>
          right
          obtain ⟨cls, ps, hc⟩ := announces_exists (S := S) c
          have := TermTokens.mk pre name mid c cls ps rest hp hm hc
          refine ⟨name, cls, ps ++ arguments cls rest, ?_⟩
          have e : pre ++ cs! "TERM" :: name :: (mid ++ cs! ":=" :: c :: rest) =
            pre ++ cs! "TERM" :: name :: mid ++ cs! ":=" :: c :: rest := by simp
          rw [e]
          exact this
      · left
        rw [List.foldl_append, fold_keyword pre hp, List.foldl_cons, List.foldl_cons, e1, e2, fold_assign name r h2]
        simp
  · left
    rw [fold_keyword tokens h]
    simp

/-- C69: the lines of terms. -/
theorem term_iff (F : ElementFactory S) (ctx : Ctx S) (line : Str) (t : Term S) :
    FclImporter.parseTerm F ctx line = .ok t ↔ TermText F ctx line t := by
  have hb : ∀ w ∈ Op.words (FclImporter.spaced line), Op.NoBlank w := fun w hw => (Op.words_mem _ w hw).2
  have hsep : ∀ cls (k : TermKind S) (n : Str), Strict.NamesTerm cls k →
      (match (Engine.updateTerm F ctx ⟨n, lit 1, k⟩).kind with
        | .function _ => []
        | _ => cs! " ") = if cls = cs! "Function" then [] else cs! " " := by
    intro cls k n hk
    cases hk <;> rfl
  unfold FclImporter.parseTerm
  constructor
  · intro h
    rcases tokens_cases (S := S) (Op.words (FclImporter.spaced line)) with hc | ⟨name, cls, ps, hc⟩
    · dsimp only at h
      rw [if_pos hc] at h
      cases h
    · obtain ⟨stop, hf⟩ := fold_tokens _ _ _ _ hb hc
      rw [hf] at h
      simp only [ne_eq, not_true_eq_false, if_false] at h
      split at h
      · cases h
      · rename_i u hu
        obtain ⟨h1, h2, h3⟩ := (Strict.registered_iff cls u).1 hu
        obtain ⟨un, uh, uk⟩ := u
        simp only at h1 h2 h3
        subst h1 h2
        have h : (match Term.configure F ctx { Engine.updateTerm F ctx ⟨[], lit 1, uk⟩ with name := Op.validName name }
            (Op.join ps (if cls = cs! "Function" then [] else cs! " ")) with
          | (t, none) => Except.ok t
          | (_, some e) => .error e) = .ok t := by
          rw [← hsep cls uk [] h3]
          exact h
        split at h
        · rename_i v hv
          cases h
          exact .mk line name cls ps uk _ hc h3 hv
        · cases h
  · intro h
    cases h with
    | mk name cls ps k _ hc hk hv =>
      obtain ⟨stop, hf⟩ := fold_tokens _ _ _ _ hb hc
      rw [hf]
      simp only [ne_eq, not_true_eq_false, if_false]
      rw [(Strict.registered_iff cls ⟨[], lit 1, k⟩).2 ⟨rfl, rfl, hk⟩]
      have h : (match Term.configure F ctx { Engine.updateTerm F ctx ⟨[], lit 1, k⟩ with name := Op.validName name }
            (Op.join ps (if cls = cs! "Function" then [] else cs! " ")) with
          | (t, none) => Except.ok t
          | (_, some e) => .error e) = .ok t := by rw [hv]
      rw [← hsep cls k [] hk] at h
      exact h

/-! ### lines of blocks -/

/-- a line of declarations: a name and a type, which may be anything -/
def Declares (line name : Str) : Prop := ∃ type, Op.split line (cs! ":") true = [name, type]

def RangeText (line : Str) (a b : S) : Prop :=
  ∃ v s t, Value (cs! ":=") line v ∧ Op.split (compact v) (cs! "..") true = [s, t] ∧ Strict.Number s a ∧ Strict.Number t b

def FlagText (line : Str) (b : Bool) : Prop := ∃ v, Value (cs! ":") line v ∧ Flag (Op.trim v) b

def TNormText (line : Str) (k : Option (TNorm S)) : Prop := ∃ v, Value (cs! ":") line v ∧ NamesTNorm (Op.trim v) k

def SNormText (line : Str) (k : Option (SNorm S)) : Prop := ∃ v, Value (cs! ":") line v ∧ NamesSNorm (Op.trim v) k

def DefuzzifierText (resolution : Int) (line : Str) (d : Option Defuzzifier) : Prop :=
  ∃ v, Value (cs! ":") line v ∧ NamesDefuzzifier resolution (Op.trim v) d

def DefaultText (line : Str) (a : S) (lock : Bool) : Prop :=
  ∃ v, Value (cs! ":=") line v ∧ DefaultPieces (Op.split v (cs! "|") true) a lock

def LocksText (line : Str) (previous range : Bool) : Prop :=
  ∃ k v, ':' ∉ k ∧ line = k ++ ':' :: v ∧ Locks (Op.split v (cs! "|") true) previous range

/-- the first word of a line -/
def Word (line w : Str) : Prop := ∃ ws, Op.words line = w :: ws

theorem first_iff (line w : Str) (h : w ≠ []) : FclImporter.first line = w ↔ Word line w := by
  unfold FclImporter.first Word
  cases hw : Op.words line with
  | nil => simp [h.symm]
  | cons a ws => simp

/-- what a line does to an input variable -/
inductive InputLine (F : ElementFactory S) (ctx : Ctx S) (v : Variable S) (line : Str) : Variable S → Prop
  | range (a b) : Word line (cs! "RANGE") → RangeText line a b → InputLine F ctx v line { v with minimum := a, maximum := b }
  | enabled (b) : Word line (cs! "ENABLED") → FlagText line b → InputLine F ctx v line { v with enabled := b }
  | term (t) : Word line (cs! "TERM") → TermText F ctx line t → InputLine F ctx v line { v with terms := v.terms ++ [t] }

/-- what a line does to an output variable -/
inductive OutputLine (resolution : Int) (F : ElementFactory S) (ctx : Ctx S) (v : OutputVariable S) (line : Str) :
    OutputVariable S → Prop
  | term (t) : Word line (cs! "TERM") → TermText F ctx line t →
      OutputLine resolution F ctx v line { v with terms := v.terms ++ [t] }
  | method (d) : Word line (cs! "METHOD") → DefuzzifierText resolution line d →
      OutputLine resolution F ctx v line { v with defuzzifier := d }
  | accu (k) : Word line (cs! "ACCU") → SNormText line k →
      OutputLine resolution F ctx v line { v with fuzzy := { v.fuzzy with aggregation := k } }
  | default (a) : Word line (cs! "DEFAULT") → DefaultText line a false → OutputLine resolution F ctx v line { v with default := a }
  | lock (a) : Word line (cs! "DEFAULT") → DefaultText line a true →
      OutputLine resolution F ctx v line { v with default := a, lockPrevious := true }
  | range (a b) : Word line (cs! "RANGE") → RangeText line a b →
      OutputLine resolution F ctx v line { v with minimum := a, maximum := b, fuzzy := { v.fuzzy with minimum := a, maximum := b } }
  | locks (p r) : Word line (cs! "LOCK") → LocksText line p r →
      OutputLine resolution F ctx v line { v with lockPrevious := p, lockRange := r }
  | enabled (b) : Word line (cs! "ENABLED") → FlagText line b → OutputLine resolution F ctx v line { v with enabled := b }

/-- the text of a line up to its first blank -/
def Key (line k : Str) : Prop := ' ' ∉ k ∧ (line = k ∨ ∃ r, line = k ++ ' ' :: r)

/-- what a line does to a rule block; without a colon, the first five characters are not of the rule -/
inductive BlockLine (G : Registry S) (V : Vocabulary) (b : RuleBlock S) (line : Str) : RuleBlock S → Prop
  | conjunction (k) : Key line (cs! "AND") → TNormText line k → BlockLine G V b line { b with conjunction := k }
  | disjunction (k) : Key line (cs! "OR") → SNormText line k → BlockLine G V b line { b with disjunction := k }
  | implication (k) : Key line (cs! "ACT") → TNormText line k → BlockLine G V b line { b with implication := k }
  | enabled (y) : Key line (cs! "ENABLED") → FlagText line y → BlockLine G V b line { b with enabled := y }
  | rule (n t) : Key line (cs! "RULE") → ':' ∉ n → line = n ++ ':' :: t →
      BlockLine G V b line { b with rules := b.rules ++ [((Rule.new (Op.trim t)).reload G V).1] }
  | short (t) : ':' ∉ t → line = cs! "RULE " ++ t →
      BlockLine G V b line { b with rules := b.rules ++ [((Rule.new (Op.trim t)).reload G V).1] }

/-- C69: the lines of input variables. -/
theorem input_iff (F : ElementFactory S) (ctx : Ctx S) (v w : Variable S) (line : Str) :
    FclImporter.inputStep F ctx v line = .ok w ↔ InputLine F ctx v line w := by
  have g : ∀ k, k ≠ [] → (Word line k ↔ FclImporter.first line = k) := fun k hk => (first_iff line k hk).symm
  have hR : ∀ p : S × S, FclImporter.parseRange line = .ok p ↔ RangeText line p.1 p.2 := fun p => range_iff line p.1 p.2
  unfold FclImporter.inputStep
  generalize hk : FclImporter.first line = k at g
  constructor
  · intro h
    split_ifs at h with h1 h2 h3
    · obtain ⟨p, hp, rfl⟩ := (Strict.bind_iff hR).1 h
      exact .range _ _ ((g _ (by decide)).2 h1) hp
    · obtain ⟨p, hp, rfl⟩ := (Strict.bind_iff (enabled_iff line)).1 h
      exact .enabled _ ((g _ (by decide)).2 h2) hp
    · obtain ⟨p, hp, rfl⟩ := (Strict.bind_iff (term_iff F ctx line)).1 h
      exact .term _ ((g _ (by decide)).2 h3) hp
  · intro h
    cases h with
    | range a b h1 hp =>
      rw [(g _ (by decide)).1 h1]
      exact (Strict.bind_iff hR).2 ⟨(a, b), hp, rfl⟩
    | enabled b h1 hp =>
      rw [(g _ (by decide)).1 h1]
      exact (Strict.bind_iff (enabled_iff line)).2 ⟨b, hp, rfl⟩
    | term t h1 hp =>
      rw [(g _ (by decide)).1 h1]
      exact (Strict.bind_iff (term_iff F ctx line)).2 ⟨t, hp, rfl⟩

/-- C69: the lines of output variables. -/
theorem output_iff (y : FclImporter) (F : ElementFactory S) (ctx : Ctx S) (v w : OutputVariable S) (line : Str) :
    y.outputStep F ctx v line = .ok w ↔ OutputLine y.resolution F ctx v (Op.trim line) w := by
  unfold FclImporter.outputStep
  generalize Op.trim line = line
  have g : ∀ k, k ≠ [] → (Word line k ↔ FclImporter.first line = k) := fun k hk => (first_iff line k hk).symm
  have hR : ∀ p : S × S, FclImporter.parseRange line = .ok p ↔ RangeText line p.1 p.2 := fun p => range_iff line p.1 p.2
  have hD : ∀ p : S × Bool, FclImporter.parseDefaultValue line = .ok p ↔ DefaultText line p.1 p.2 :=
    fun p => default_iff line p.1 p.2
  have hL : ∀ p : Bool × Bool, FclImporter.parseLocks line = .ok p ↔ LocksText line p.1 p.2 := fun p => locks_iff line p.1 p.2
  dsimp only
  generalize hk : FclImporter.first line = k at g
  constructor
  · intro h
    split_ifs at h with h1 h2 h3 h4 h5 h6 h7
    · obtain ⟨p, hp, rfl⟩ := (Strict.bind_iff (term_iff F ctx line)).1 h
      exact .term _ ((g _ (by decide)).2 h1) hp
    · obtain ⟨p, hp, rfl⟩ := (Strict.bind_iff (defuzzifier_iff y line)).1 h
      exact .method _ ((g _ (by decide)).2 h2) hp
    · obtain ⟨p, hp, rfl⟩ := (Strict.bind_iff (snorm_iff line)).1 h
      exact .accu _ ((g _ (by decide)).2 h3) hp
    · obtain ⟨⟨a, l⟩, hp, rfl⟩ := (Strict.bind_iff hD).1 h
      cases l with
      | false => exact .default _ ((g _ (by decide)).2 h4) hp
      | true => exact .lock _ ((g _ (by decide)).2 h4) hp
    · obtain ⟨p, hp, rfl⟩ := (Strict.bind_iff hR).1 h
      exact .range _ _ ((g _ (by decide)).2 h5) hp
    · obtain ⟨p, hp, rfl⟩ := (Strict.bind_iff hL).1 h
      exact .locks _ _ ((g _ (by decide)).2 h6) hp
    · obtain ⟨p, hp, rfl⟩ := (Strict.bind_iff (enabled_iff line)).1 h
      exact .enabled _ ((g _ (by decide)).2 h7) hp
  · intro h
    cases h with
    | term t h1 hp =>
      rw [(g _ (by decide)).1 h1]
      exact (Strict.bind_iff (term_iff F ctx line)).2 ⟨t, hp, rfl⟩
    | method d h1 hp =>
      rw [(g _ (by decide)).1 h1]
      exact (Strict.bind_iff (defuzzifier_iff y line)).2 ⟨d, hp, rfl⟩
    | accu k h1 hp =>
      rw [(g _ (by decide)).1 h1]
      exact (Strict.bind_iff (snorm_iff line)).2 ⟨k, hp, rfl⟩
    | default a h1 hp =>
      rw [(g _ (by decide)).1 h1]
      exact (Strict.bind_iff hD).2 ⟨(a, false), hp, rfl⟩
    | lock a h1 hp =>
      rw [(g _ (by decide)).1 h1]
      exact (Strict.bind_iff hD).2 ⟨(a, true), hp, rfl⟩
    | range a b h1 hp =>
      rw [(g _ (by decide)).1 h1]
      exact (Strict.bind_iff hR).2 ⟨(a, b), hp, rfl⟩
    | locks p r h1 hp =>
      rw [(g _ (by decide)).1 h1]
      exact (Strict.bind_iff hL).2 ⟨(p, r), hp, rfl⟩
    | enabled b h1 hp =>
      rw [(g _ (by decide)).1 h1]
      exact (Strict.bind_iff (enabled_iff line)).2 ⟨b, hp, rfl⟩

theorem key_iff (line k : Str) (hk : ' ' ∉ k) : (line.takeWhile fun c => decide (c ≠ ' ')) = k ↔ Key line k := by
  constructor
  · intro h
    refine ⟨hk, ?_⟩
    have e := List.takeWhile_append_dropWhile (p := fun c => decide (c ≠ ' ')) (l := line)
    rw [h] at e
    cases hd : line.dropWhile fun c => decide (c ≠ ' ') with
    | nil => left; rw [hd] at e; simpa using e.symm
    | cons c r =>
      right
      have := List.head?_dropWhile_not (fun c => decide (c ≠ ' ')) line
      rw [hd] at this
      have hc : c = ' ' := by simpa using this
      subst hc
      rw [hd] at e
      exact ⟨r, e.symm⟩
  · rintro ⟨-, rfl | ⟨r, rfl⟩⟩
    · induction line with
      | nil => rfl
      | cons c l ih =>
        simp only [List.mem_cons, not_or] at hk
        rw [List.takeWhile_cons_of_pos (by simpa using fun h => hk.1 h.symm), ih hk.2]
    · exact Fcl.takeWhile_key k r hk

theorem ruleText_iff (line t : Str) (hk : Key line (cs! "RULE")) : FclImporter.ruleText line = .ok t ↔
    (∃ n r, ':' ∉ n ∧ line = n ++ ':' :: r ∧ t = Op.trim r) ∨ (∃ r, ':' ∉ r ∧ line = cs! "RULE " ++ r ∧ t = Op.trim r) := by
  unfold FclImporter.ruleText
  cases hc : FllImporter.cut ':' line with
  | none =>
    have hn := Strict.cut_none hc
    constructor
    · intro h
      right
      dsimp only at h
      split_ifs at h with h1
      cases h
      obtain ⟨-, rfl | ⟨r, rfl⟩⟩ := hk
      · exact absurd (by decide) h1
      · exact ⟨r, fun hh => hn (by simp [hh]), by simp, rfl⟩
    · rintro (⟨n, r, -, rfl, -⟩ | ⟨r, -, rfl, rfl⟩)
      · exact absurd (by simp) hn
      · dsimp only
        rw [if_neg (by simp)]
        rfl
  | some q =>
    obtain ⟨n, r⟩ := q
    obtain ⟨h1, h2⟩ := Strict.cut_some hc
    dsimp only at h1 h2
    constructor
    · intro h
      cases h
      exact .inl ⟨n, r, h1, h2, rfl⟩
    · rintro (⟨n', r', h1', h2', rfl⟩ | ⟨r', h1', h2', -⟩)
      · rw [h2', FllImporter.cut_append _ _ _ h1'] at hc
        cases hc
        rfl
      · exfalso
        have : ':' ∈ line := by rw [h2]; simp
        rw [h2'] at this
        simp [h1'] at this

/-- C69: the lines of rule blocks. -/
theorem block_iff (G : Registry S) (V : Vocabulary) (b c : RuleBlock S) (line : Str) :
    FclImporter.blockStep G V b line = .ok c ↔ BlockLine G V b line c := by
  have g : ∀ k, ' ' ∉ k → (Key line k ↔ (line.takeWhile fun c => decide (c ≠ ' ')) = k) := fun k hk => (key_iff line k hk).symm
  unfold FclImporter.blockStep
  dsimp only
  have g' := g
  generalize hk : (line.takeWhile fun c => decide (c ≠ ' ')) = k at g
  constructor
  · intro h
    split_ifs at h with h1 h2 h3 h4 h5
    · obtain ⟨p, hp, rfl⟩ := (Strict.bind_iff (tnorm_iff line)).1 h
      exact .conjunction _ ((g _ (by decide)).2 h1) hp
    · obtain ⟨p, hp, rfl⟩ := (Strict.bind_iff (snorm_iff line)).1 h
      exact .disjunction _ ((g _ (by decide)).2 h2) hp
    · obtain ⟨p, hp, rfl⟩ := (Strict.bind_iff (tnorm_iff line)).1 h
      exact .implication _ ((g _ (by decide)).2 h3) hp
    · obtain ⟨p, hp, rfl⟩ := (Strict.bind_iff (enabled_iff line)).1 h
      exact .enabled _ ((g _ (by decide)).2 h4) hp
    · have hr : Key line (cs! "RULE") := (g _ (by decide)).2 h5
      obtain ⟨p, hp, rfl⟩ := (Strict.bind_iff fun t => ruleText_iff line t hr).1 h
      rcases hp with ⟨n, r, hn, hl, rfl⟩ | ⟨r, hn, hl, rfl⟩
      · exact .rule n r hr hn hl
      · exact .short r hn hl
  · intro h
    cases h with
    | conjunction k h1 hp =>
      rw [(g _ (by decide)).1 h1]
      exact (Strict.bind_iff (tnorm_iff line)).2 ⟨k, hp, rfl⟩
    | disjunction k h1 hp =>
      rw [(g _ (by decide)).1 h1]
      exact (Strict.bind_iff (snorm_iff line)).2 ⟨k, hp, rfl⟩
    | implication k h1 hp =>
      rw [(g _ (by decide)).1 h1]
      exact (Strict.bind_iff (tnorm_iff line)).2 ⟨k, hp, rfl⟩
    | enabled k h1 hp =>
      rw [(g _ (by decide)).1 h1]
      exact (Strict.bind_iff (enabled_iff line)).2 ⟨k, hp, rfl⟩
    | rule n t h1 hn hl =>
      rw [(g _ (by decide)).1 h1]
      exact (Strict.bind_iff fun t => ruleText_iff line t h1).2 ⟨Op.trim t, .inl ⟨n, t, hn, hl, rfl⟩, rfl⟩
    | short t hn hl =>
      have h1 : Key line (cs! "RULE") := ⟨by decide, .inr ⟨t, by rw [hl]; rfl⟩⟩
      rw [(g _ (by decide)).1 h1]
      exact (Strict.bind_iff fun t => ruleText_iff line t h1).2 ⟨Op.trim t, .inr ⟨t, hn, hl, rfl⟩, rfl⟩

/-! ### blocks -/

/-- the lines in order -/
inductive Lines {α : Type} (R : α → Str → α → Prop) : α → List Str → α → Prop
  | nil (a) : Lines R a [] a
  | cons (a l b ls c) : R a l b → Lines R b ls c → Lines R a (l :: ls) c

theorem lines_iff {α : Type} {R : α → Str → α → Prop} {f : α → Str → Except Err α} (h : ∀ a l b, f a l = .ok b ↔ R a l b)
    (a : α) (ls : List Str) (c : α) : ls.foldlM f a = .ok c ↔ Lines R a ls c := by
  induction ls generalizing a with
  | nil =>
    constructor
    · intro h; cases h; exact .nil _
    · intro h; cases h; rfl
  | cons l ls ih =>
    rw [List.foldlM_cons]
    constructor
    · intro hc
      cases hl : f a l with
      | error e => rw [hl] at hc; cases hc
      | ok b =>
        rw [hl, Fll.ok_bind] at hc
        exact .cons _ _ _ _ _ ((h _ _ _).1 hl) ((ih b).1 hc)
    · intro hc
      cases hc with
      | cons _ _ b _ _ h1 h2 =>
        rw [(h _ _ _).2 h1, Fll.ok_bind]
        exact (ih b).2 h2

/-- the keywords that open blocks, and those that close them -/
inductive Opens : Str → Str → Prop
  | input : Opens (cs! "VAR_INPUT") (cs! "END_VAR")
  | output : Opens (cs! "VAR_OUTPUT") (cs! "END_VAR")
  | fuzzify : Opens (cs! "FUZZIFY") (cs! "END_FUZZIFY")
  | defuzzify : Opens (cs! "DEFUZZIFY") (cs! "END_DEFUZZIFY")
  | ruleBlock : Opens (cs! "RULEBLOCK") (cs! "END_RULEBLOCK")

theorem closing_iff (tag c : Str) : FclImporter.closing tag = some c ↔ Opens tag c := by
  constructor
  · intro h
    unfold FclImporter.closing at h
    split_ifs at h with h1 h2 h3 h4 h5
    all_goals
      cases h
      first
        | (subst h1; constructor)
        | (subst h2; constructor)
        | (subst h3; constructor)
        | (subst h4; constructor)
        | (subst h5; constructor)
  · intro h
    cases h <;> rfl

/-- the text after the last blank -/
def LastWord (line n : Str) : Prop := (' ' ∉ line ∧ n = []) ∨ (∃ p, line = p ++ ' ' :: n ∧ ' ' ∉ n)

theorem lastWord_spec (line : Str) : LastWord line (FclImporter.lastWord line) := by
  unfold FclImporter.lastWord
  by_cases h : ' ' ∈ line
  · rw [if_pos h]
    right
    obtain ⟨a, b, ha, hl⟩ := mem_split (List.mem_reverse.2 h)
    rw [hl, Fcl.takeWhile_key a b ha]
    refine ⟨b.reverse, ?_, by simpa using ha⟩
    have := congrArg List.reverse hl
    simpa using this
  · rw [if_neg h]
    exact .inl ⟨h, rfl⟩

theorem lastWord_unique (line n m : Str) (h1 : LastWord line n) (h2 : LastWord line m) : n = m := by
  rcases h1 with ⟨h1, rfl⟩ | ⟨p, rfl, h1⟩
  · rcases h2 with ⟨-, rfl⟩ | ⟨q, rfl, -⟩
    · rfl
    · exact absurd (by simp) h1
  · rcases h2 with ⟨h2, -⟩ | ⟨q, h, h2⟩
    · exact absurd (by simp) h2
    · have e := congrArg List.reverse h
      simp only [List.reverse_append, List.reverse_cons, List.append_assoc, List.singleton_append] at e
      have e1 := Fcl.takeWhile_key n.reverse p.reverse (by simpa using h1)
      have e2 := Fcl.takeWhile_key m.reverse q.reverse (by simpa using h2)
      rw [e, e2] at e1
      simpa using e1.symm

theorem lastWord_iff (line n : Str) : FclImporter.lastWord line = n ↔ LastWord line n :=
  ⟨fun h => h ▸ lastWord_spec line, fun h => lastWord_unique _ _ _ (lastWord_spec line) h⟩

/-- what a block does to an engine: the lines between the first one and the last one -/
inductive Builds (resolution : Int) (G : Registry S) (e : Engine S) (head : Str) (body : List Str) : Str → Engine S → Prop
  | inputs (names) : List.Forall₂ Declares body names → Builds resolution G e head body (cs! "VAR_INPUT")
      { e with inputs := e.inputs ++ names.map fun n => Variable.new (Op.validName n) ninf inf [] }
  | outputs (names) : List.Forall₂ Declares body names → Builds resolution G e head body (cs! "VAR_OUTPUT")
      { e with outputs := e.outputs ++ names.map fun n => OutputVariable.new (Op.validName n) ninf inf [] }
  | fuzzify (k n l v r w) : ' ' ∉ k → head = k ++ ' ' :: n → e.inputs = l ++ v :: r → (∀ u ∈ l, u.name ≠ Op.validName n) →
      v.name = Op.validName n → Lines (InputLine G.functions e.world.ctx) v body w →
      Builds resolution G e head body (cs! "FUZZIFY") { e with inputs := l ++ w :: r }
  | defuzzify (k n l v r w) : ' ' ∉ k → head = k ++ ' ' :: n → e.outputs = l ++ v :: r → (∀ u ∈ l, u.name ≠ Op.validName n) →
      v.name = Op.validName n → Lines (fun v l w => OutputLine resolution G.functions e.world.ctx v (Op.trim l) w) v body w →
      Builds resolution G e head body (cs! "DEFUZZIFY") { e with outputs := l ++ w :: r }
  | ruleBlock (n b) : LastWord head n →
      Lines (BlockLine G e.world.vocabulary) { RuleBlock.new n with activation := some .general } body b →
      Builds resolution G e head body (cs! "RULEBLOCK") { e with blocks := e.blocks ++ [b] }

theorem findIdx_split {α : Type} (p : α → Bool) (xs : List α) (i : Nat) (h : xs.findIdx? p = some i) :
    ∃ l v r, xs = l ++ v :: r ∧ l.length = i ∧ p v = true ∧ ∀ u ∈ l, p u = false := by
  rw [List.findIdx?_eq_some_iff_getElem] at h
  obtain ⟨hi, hp, hn⟩ := h
  refine ⟨xs.take i, xs[i], xs.drop (i + 1), ?_, by simp; omega, hp, ?_⟩
  · rw [← List.drop_eq_getElem_cons hi, List.take_append_drop]
  · intro u hu
    rw [List.mem_take_iff_getElem] at hu
    obtain ⟨j, hj, rfl⟩ := hu
    simpa using hn j (by omega)

theorem set_split {α : Type} (l : List α) (v w : α) (r : List α) : (l ++ v :: r).set l.length w = l ++ w :: r := by
  simp

theorem get_split {α : Type} (l : List α) (v : α) (r : List α) : (l ++ v :: r)[l.length]? = some v := by simp

theorem declares_inputs (e f : Engine S) (body : List Str) : body.foldlM (FclImporter.varStep (cs! "VAR_INPUT")) e = .ok f ↔
    ∃ names, List.Forall₂ Declares body names ∧
      f = { e with inputs := e.inputs ++ names.map fun n => Variable.new (Op.validName n) ninf inf [] } := by
  induction body generalizing e with
  | nil =>
    constructor
    · intro h; cases h; exact ⟨[], .nil, by simp⟩
    · rintro ⟨_, ⟨⟩, rfl⟩; simp; rfl
  | cons l ls ih =>
    rw [List.foldlM_cons]
    constructor
    · intro h
      unfold FclImporter.varStep at h
      split at h
      · rename_i n t hs
        rw [if_pos rfl, Fll.ok_bind] at h
        obtain ⟨names, hn, rfl⟩ := (ih _).1 h
        exact ⟨n :: names, .cons ⟨t, hs⟩ hn, by simp⟩
      · cases h
    · rintro ⟨_, h, rfl⟩
      cases h with
      | cons h1 h2 =>
        rename_i n names
        obtain ⟨t, hs⟩ := h1
        have : FclImporter.varStep (cs! "VAR_INPUT") e l =
            .ok { e with inputs := e.inputs ++ [Variable.new (Op.validName n) ninf inf []] } := by
          unfold FclImporter.varStep
          rw [hs]
          rfl
        rw [this, Fll.ok_bind]
        exact (ih _).2 ⟨names, h2, by simp⟩

theorem declares_outputs (e f : Engine S) (body : List Str) : body.foldlM (FclImporter.varStep (cs! "VAR_OUTPUT")) e = .ok f ↔
    ∃ names, List.Forall₂ Declares body names ∧
      f = { e with outputs := e.outputs ++ names.map fun n => OutputVariable.new (Op.validName n) ninf inf [] } := by
  induction body generalizing e with
  | nil =>
    constructor
    · intro h; cases h; exact ⟨[], .nil, by simp⟩
    · rintro ⟨_, ⟨⟩, rfl⟩; simp; rfl
  | cons l ls ih =>
    rw [List.foldlM_cons]
    constructor
    · intro h
      unfold FclImporter.varStep at h
      split at h
      · rename_i n t hs
        rw [if_neg (by decide), if_pos rfl, Fll.ok_bind] at h
        obtain ⟨names, hn, rfl⟩ := (ih _).1 h
        exact ⟨n :: names, .cons ⟨t, hs⟩ hn, by simp⟩
      · cases h
    · rintro ⟨_, h, rfl⟩
      cases h with
      | cons h1 h2 =>
        rename_i n names
        obtain ⟨t, hs⟩ := h1
        have : FclImporter.varStep (cs! "VAR_OUTPUT") e l =
            .ok { e with outputs := e.outputs ++ [OutputVariable.new (Op.validName n) ninf inf []] } := by
          unfold FclImporter.varStep
          rw [hs]
          rfl
        rw [this, Fll.ok_bind]
        exact (ih _).2 ⟨names, h2, by simp⟩

theorem fuzzify_iff (G : Registry S) (e f : Engine S) (head : Str) (body : List Str) :
    FclImporter.processFuzzify G.functions e head body = .ok f ↔ ∃ k n l v r w, ' ' ∉ k ∧ head = k ++ ' ' :: n ∧
      e.inputs = l ++ v :: r ∧ (∀ u ∈ l, u.name ≠ Op.validName n) ∧ v.name = Op.validName n ∧
      Lines (InputLine G.functions e.world.ctx) v body w ∧ f = { e with inputs := l ++ w :: r } := by
  unfold FclImporter.processFuzzify
  constructor
  · intro h
    split at h
    · cases h
    · rename_i k n hc
      obtain ⟨h1, h2⟩ := Strict.cut_some hc
      split at h
      · cases h
      · rename_i i hi
        obtain ⟨l, v, r, he, rfl, hv, hl⟩ := findIdx_split _ _ _ hi
        rw [he, get_split] at h
        dsimp only at h
        obtain ⟨w, hw, rfl⟩ := (Strict.bind_iff (fun w => lines_iff (fun a l b => input_iff G.functions e.world.ctx a b l) v body w)).1 h
        refine ⟨k, n, l, v, r, w, h1, h2, he, fun u hu => by simpa using hl u hu, by simpa using hv, hw, ?_⟩
        rw [set_split]
  · rintro ⟨k, n, l, v, r, w, h1, rfl, he, hl, hv, hw, rfl⟩
    rw [FllImporter.cut_append _ _ _ h1]
    dsimp only
    rw [he, Fcl.findIdx_name (fun v : Variable S => v.name) l r v (Op.validName n) hl hv]
    dsimp only
    rw [get_split]
    dsimp only
    refine (Strict.bind_iff (fun w => lines_iff (fun a l b => input_iff G.functions e.world.ctx a b l) v body w)).2 ⟨w, hw, ?_⟩
    rw [set_split]

theorem defuzzify_iff (y : FclImporter) (G : Registry S) (e f : Engine S) (head : Str) (body : List Str) :
    y.processDefuzzify G.functions e head body = .ok f ↔ ∃ k n l v r w, ' ' ∉ k ∧ head = k ++ ' ' :: n ∧
      e.outputs = l ++ v :: r ∧ (∀ u ∈ l, u.name ≠ Op.validName n) ∧ v.name = Op.validName n ∧
      Lines (fun v l w => OutputLine y.resolution G.functions e.world.ctx v (Op.trim l) w) v body w ∧
      f = { e with outputs := l ++ w :: r } := by
  unfold FclImporter.processDefuzzify
  constructor
  · intro h
    split at h
    · cases h
    · rename_i k n hc
      obtain ⟨h1, h2⟩ := Strict.cut_some hc
      split at h
      · cases h
      · rename_i i hi
        obtain ⟨l, v, r, he, rfl, hv, hl⟩ := findIdx_split _ _ _ hi
        rw [he, get_split] at h
        dsimp only at h
        obtain ⟨w, hw, rfl⟩ := (Strict.bind_iff (fun w => lines_iff (fun a l b => output_iff y G.functions e.world.ctx a b l) v body w)).1 h
        refine ⟨k, n, l, v, r, w, h1, h2, he, fun u hu => by simpa using hl u hu, by simpa using hv, hw, ?_⟩
        rw [set_split]
  · rintro ⟨k, n, l, v, r, w, h1, rfl, he, hl, hv, hw, rfl⟩
    rw [FllImporter.cut_append _ _ _ h1]
    dsimp only
    rw [he, Fcl.findIdx_name (fun v : OutputVariable S => v.name) l r v (Op.validName n) hl hv]
    dsimp only
    rw [get_split]
    dsimp only
    refine (Strict.bind_iff (fun w => lines_iff (fun a l b => output_iff y G.functions e.world.ctx a b l) v body w)).2 ⟨w, hw, ?_⟩
    rw [set_split]

/-- C69: the blocks. -/
theorem builds_iff (y : FclImporter) (G : Registry S) (tag head : Str) (body : List Str) (e f : Engine S) :
    y.processBlock G tag (head :: body) e = .ok f ↔ Builds y.resolution G e head body tag f := by
  unfold FclImporter.processBlock
  simp only [List.headD_cons, List.tail_cons]
  constructor
  · intro h
    split_ifs at h with h1 h2 h3 h4
    · rcases h1 with rfl | rfl
      · obtain ⟨names, hn, rfl⟩ := (declares_inputs _ _ _).1 h
        exact .inputs names hn
      · obtain ⟨names, hn, rfl⟩ := (declares_outputs _ _ _).1 h
        exact .outputs names hn
    · subst h2
      obtain ⟨k, n, l, v, r, w, h1, h2, h3, h4, h5, h6, rfl⟩ := (fuzzify_iff _ _ _ _ _).1 h
      exact .fuzzify k n l v r w h1 h2 h3 h4 h5 h6
    · subst h3
      obtain ⟨k, n, l, v, r, w, h1, h2, h3, h4, h5, h6, rfl⟩ := (defuzzify_iff _ _ _ _ _ _).1 h
      exact .defuzzify k n l v r w h1 h2 h3 h4 h5 h6
    · subst h4
      unfold FclImporter.processRuleBlock at h
      obtain ⟨b, hb, rfl⟩ := (Strict.bind_iff (fun b => lines_iff (fun a l b => block_iff G e.world.vocabulary a b l) _ body b)).1 h
      exact .ruleBlock _ b (lastWord_spec head) hb
  · intro h
    cases h with
    | inputs names hn =>
      rw [if_pos (.inl rfl)]
      exact (declares_inputs _ _ _).2 ⟨names, hn, rfl⟩
    | outputs names hn =>
      rw [if_pos (.inr rfl)]
      exact (declares_outputs _ _ _).2 ⟨names, hn, rfl⟩
    | fuzzify k n l v r w h1 h2 h3 h4 h5 h6 =>
      rw [if_neg (by decide), if_pos rfl]
      exact (fuzzify_iff _ _ _ _ _).2 ⟨k, n, l, v, r, w, h1, h2, h3, h4, h5, h6, rfl⟩
    | defuzzify k n l v r w h1 h2 h3 h4 h5 h6 =>
      rw [if_neg (by decide), if_neg (by decide), if_pos rfl]
      exact (defuzzify_iff _ _ _ _ _ _).2 ⟨k, n, l, v, r, w, h1, h2, h3, h4, h5, h6, rfl⟩
    | ruleBlock n b hn hb =>
      rw [if_neg (by decide), if_neg (by decide), if_neg (by decide), if_pos rfl]
      unfold FclImporter.processRuleBlock
      rw [(lastWord_iff head n).2 hn]
      exact (Strict.bind_iff (fun b => lines_iff (fun a l b => block_iff G e.world.vocabulary a b l) _ body b)).2 ⟨b, hb, rfl⟩

/-! ### texts -/

/-- the text before the first comment -/
def upto : Str → Str
  | [] => []
  | '#' :: _ => []
  | '/' :: '/' :: _ => []
  | c :: s => c :: upto s

/-- the line without comment, semicolons and surrounding blanks -/
def content (raw : Str) : Str := Op.trim ((upto raw).filter fun c => c ≠ ';')

/-- lines that are left out -/
def Silent (l : Str) : Prop := l = [] ∨ ∃ r, l = '%' :: r

/-- a line that names the engine, or does not -/
inductive Title (e : Engine S) (l : Str) : Engine S → Prop
  | unnamed : Op.words l = [cs! "FUNCTION_BLOCK"] → Title e l e
  | named (w ws) : Op.words l = cs! "FUNCTION_BLOCK" :: w :: ws → Title e l { e with name := Op.join (w :: ws) (cs! " ") }

/-- the lines inside a block, those that count, and the engine that they name -/
inductive Body (close : Str) : Engine S → List Str → List Str → Engine S → Prop
  | nil (e) : Body close e [] [] e
  | silent (e l ls cs f) : Silent l → Body close e ls cs f → Body close e (l :: ls) cs f
  | title (e l e' ls cs f) : ¬ Silent l → Title e l e' → Body close e' ls cs f → Body close e (l :: ls) cs f
  | line (e l ls cs f) : ¬ Silent l → ¬ Word l (cs! "FUNCTION_BLOCK") → ¬ Word l (cs! "END_FUNCTION_BLOCK") → ¬ Word l close →
      (∀ t c, Opens t c → ¬ Word l t) → Body close e ls cs f → Body close e (l :: ls) (l :: cs) f

/-- the layout of a text: what follows `END_FUNCTION_BLOCK` does not matter -/
inductive Layout (resolution : Int) (G : Registry S) : Engine S → List Str → Engine S → Prop
  | nil (e) : Layout resolution G e [] e
  | done (e l ls) : ¬ Silent l → Word l (cs! "END_FUNCTION_BLOCK") → Layout resolution G e (l :: ls) e
  | silent (e l ls f) : Silent l → Layout resolution G e ls f → Layout resolution G e (l :: ls) f
  | title (e l e' ls f) : ¬ Silent l → Title e l e' → Layout resolution G e' ls f → Layout resolution G e (l :: ls) f
  | block (e tag close head body cs e1 last e2 ls f) : Opens tag close → ¬ Silent head → Word head tag → Body close e body cs e1 →
      ¬ Silent last → Word last close → Builds resolution G e1 head cs tag e2 → Layout resolution G e2 ls f →
      Layout resolution G e (head :: body ++ last :: ls) f

theorem silent_iff (l : Str) : (l = [] ∨ l.head? = some '%') ↔ Silent l := by
  unfold Silent
  cases l with
  | nil => simp
  | cons c l => simp

theorem head_split (d s : Str) (hd : d ≠ []) : (Op.split s d false).headD [] =
    match Op.search d s with
    | none => s
    | some (p, _) => p := by
  unfold Op.split
  cases s with
  | nil =>
    cases d with
    | nil => exact absurd rfl hd
    | cons c d => rfl
  | cons a s =>
    have : ((a :: s).isEmpty || d.isEmpty) = false := by
      cases d with
      | nil => exact absurd rfl hd
      | cons c d => rfl
    rw [this]
    simp only [Bool.false_eq_true, if_false, List.length_cons]
    unfold Op.splitLoop
    cases Op.search d (a :: s) with
    | none => simp
    | some q => simp

theorem before_slashes (s : Str) : (Op.split s (cs! "//") false).headD [] =
    match s with
    | [] => []
    | c :: r => if (cs! "//").isPrefixOf (c :: r) then [] else c :: (Op.split r (cs! "//") false).headD [] := by
  cases s with
  | nil => rfl
  | cons c r =>
    dsimp only
    rw [head_split _ _ (by decide), head_split _ _ (by decide)]
    conv_lhs => unfold Op.search
    split_ifs with h
    · rfl
    · cases Op.search (cs! "//") r <;> rfl

theorem before_hash (s : Str) : (Op.split s (cs! "#") false).headD [] =
    match s with
    | [] => []
    | c :: r => if c = '#' then [] else c :: (Op.split r (cs! "#") false).headD [] := by
  cases s with
  | nil => rfl
  | cons c r =>
    dsimp only
    rw [head_split _ _ (by decide), head_split _ _ (by decide)]
    conv_lhs => unfold Op.search
    by_cases h : c = '#'
    · subst h
      rw [if_pos (by simp), if_pos rfl]
    · rw [if_neg (by simpa using fun hh => h hh.symm), if_neg h]
      cases Op.search (cs! "#") r <;> rfl

theorem before_comment (s : Str) : (Op.split ((Op.split s (cs! "//") false).headD []) (cs! "#") false).headD [] = upto s := by
  induction s using upto.induct with
  | case1 => rfl
  | case2 r =>
    rw [before_slashes, before_hash]
    rfl
  | case3 r =>
    rw [before_slashes]
    rfl
  | case4 c r h1 h2 ih =>
    have hc : c ≠ '#' := fun h => h1 h
    have hs : (cs! "//").isPrefixOf (c :: r) = false := by
      by_contra hn
      rw [Bool.not_eq_false, List.isPrefixOf_iff_prefix] at hn
      obtain ⟨t, ht⟩ := hn
      cases ht
      exact h2 t rfl rfl
    rw [before_slashes]
    simp only [hs, Bool.false_eq_true, if_false]
    rw [before_hash]
    simp only [hc, if_false]
    rw [ih]
    rw [upto.eq_4 c r h1 h2]

/-- C69: what is read of a line. -/
theorem clean_eq (raw : Str) : FclImporter.clean raw = content raw := by
  unfold FclImporter.clean content
  dsimp only
  rw [before_comment, show (cs! ";") = [';'] from rfl, Op.replace_char]
  simp only [Option.getD_some]
  congr 1
  generalize upto raw = s
  induction s with
  | nil => rfl
  | cons c s ih =>
    rw [List.flatMap_cons, ih]
    by_cases hc : c = ';' <;> simp [hc]

theorem title_iff (e f : Engine S) (l : Str) : Title e l f ↔ FclImporter.first l = cs! "FUNCTION_BLOCK" ∧
    f = (if (Op.words l).tail = [] then e else { e with name := Op.join (Op.words l).tail (cs! " ") }) := by
  constructor
  · intro h
    cases h with
    | unnamed h => unfold FclImporter.first; rw [h]; exact ⟨rfl, rfl⟩
    | named w ws h => unfold FclImporter.first; rw [h]; exact ⟨rfl, rfl⟩
  · rintro ⟨h1, rfl⟩
    unfold FclImporter.first at h1
    rcases hw : Op.words l with _ | ⟨a, _ | ⟨w, ws⟩⟩
    · rw [hw] at h1; cases h1
    · rw [hw] at h1
      have : a = cs! "FUNCTION_BLOCK" := h1
      subst this
      exact .unnamed hw
    · rw [hw] at h1
      have : a = cs! "FUNCTION_BLOCK" := h1
      subst this
      exact .named w ws hw

theorem opens_ne {t c : Str} (h : Opens t c) : t ≠ [] ∧ c ≠ [] := by cases h <;> decide

theorem opens_other {t c : Str} (h : Opens t c) : (t ≠ cs! "FUNCTION_BLOCK" ∧ t ≠ cs! "END_FUNCTION_BLOCK") ∧
    c ≠ cs! "FUNCTION_BLOCK" ∧ c ≠ cs! "END_FUNCTION_BLOCK" := by cases h <;> decide

theorem opens_unique {t c d : Str} (h : Opens t c) (h' : Opens t d) : c = d := by
  have := (closing_iff _ _).2 h
  rw [(closing_iff _ _).2 h'] at this
  cases this
  rfl

theorem closing_none (w : Str) : FclImporter.closing w = none ↔ ∀ c, ¬ Opens w c := by
  constructor
  · intro h c hc
    rw [(closing_iff _ _).2 hc] at h
    cases h
  · intro h
    cases hc : FclImporter.closing w with
    | none => rfl
    | some c => exact absurd ((closing_iff _ _).1 hc) (h c)

section
variable (y : FclImporter) (G : Registry S)

theorem step_silent (s : FclImporter.State S) (raw : Str) (ls : List Str) (h : Silent (content raw)) :
    y.readLines G s (raw :: ls) = y.readLines G s ls := by
  conv_lhs => unfold FclImporter.readLines
  dsimp only
  rw [clean_eq, if_pos ((silent_iff _).2 h)]

theorem step_title (e f : Engine S) (tag : Str) (b : List Str) (raw : Str) (ls : List Str) (h : ¬ Silent (content raw))
    (ht : Title e (content raw) f) : y.readLines G ⟨e, tag, b⟩ (raw :: ls) = y.readLines G ⟨f, tag, b⟩ ls := by
  conv_lhs => unfold FclImporter.readLines
  dsimp only
  obtain ⟨h1, h2⟩ := (title_iff _ _ _).1 ht
  rw [clean_eq, if_neg (mt (silent_iff _).1 h), if_pos h1]
  congr 1
  rw [h2]
  split_ifs <;> rfl

theorem step_end (s : FclImporter.State S) (raw : Str) (ls : List Str) (h : ¬ Silent (content raw))
    (hw : Word (content raw) (cs! "END_FUNCTION_BLOCK")) : y.readLines G s (raw :: ls) = .ok s := by
  unfold FclImporter.readLines
  dsimp only
  have h1 := (first_iff _ _ (by decide)).2 hw
  rw [clean_eq, if_neg (mt (silent_iff _).1 h), h1, if_neg (by decide), if_pos rfl]

theorem step_open (e : Engine S) (b : List Str) (raw : Str) (ls : List Str) (tag close : Str) (h : ¬ Silent (content raw))
    (ho : Opens tag close) (hw : Word (content raw) tag) :
    y.readLines G ⟨e, [], b⟩ (raw :: ls) = y.readLines G ⟨e, tag, [content raw]⟩ ls := by
  conv_lhs => unfold FclImporter.readLines
  dsimp only
  have h1 := (first_iff _ _ (opens_ne ho).1).2 hw
  rw [clean_eq, if_neg (mt (silent_iff _).1 h), h1, if_neg (opens_other ho).1.1, if_neg (opens_other ho).1.2, if_pos rfl,
    (closing_iff _ _).2 ho]

theorem step_unknown (e : Engine S) (b : List Str) (raw : Str) (ls : List Str) (h : ¬ Silent (content raw))
    (h1 : ¬ Word (content raw) (cs! "FUNCTION_BLOCK")) (h2 : ¬ Word (content raw) (cs! "END_FUNCTION_BLOCK"))
    (h3 : ∀ t c, Opens t c → ¬ Word (content raw) t) : y.readLines G ⟨e, [], b⟩ (raw :: ls) = .error .syntaxError := by
  unfold FclImporter.readLines
  dsimp only
  rw [clean_eq, if_neg (mt (silent_iff _).1 h), if_neg (mt (first_iff _ _ (by decide)).1 h1),
    if_neg (mt (first_iff _ _ (by decide)).1 h2), if_pos rfl,
    (closing_none _).2 fun c hc => h3 _ c hc ((first_iff _ _ (opens_ne hc).1).1 rfl)]

theorem step_close (e : Engine S) (b : List Str) (raw : Str) (ls : List Str) (tag close : Str) (h : ¬ Silent (content raw))
    (ho : Opens tag close) (hw : Word (content raw) close) : y.readLines G ⟨e, tag, b⟩ (raw :: ls) =
      match y.processBlock G tag b e with
      | .error x => .error x
      | .ok f => y.readLines G ⟨f, [], b⟩ ls := by
  conv_lhs => unfold FclImporter.readLines
  dsimp only
  have h1 := (first_iff _ _ (opens_ne ho).2).2 hw
  rw [clean_eq, if_neg (mt (silent_iff _).1 h), h1, if_neg (opens_other ho).2.1, if_neg (opens_other ho).2.2,
    if_neg (opens_ne ho).1, if_pos ((closing_iff _ _).2 ho)]
  cases y.processBlock G tag b e <;> rfl

theorem step_nested (e : Engine S) (b : List Str) (raw : Str) (ls : List Str) (tag close t c : Str) (h : ¬ Silent (content raw))
    (ho : Opens tag close) (hn : Opens t c) (hw : Word (content raw) t) :
    y.readLines G ⟨e, tag, b⟩ (raw :: ls) = .error .syntaxError := by
  unfold FclImporter.readLines
  dsimp only
  have h1 := (first_iff _ _ (opens_ne hn).1).2 hw
  have h2 : ¬ FclImporter.closing tag = some t := by
    rw [closing_iff]
    intro h
    cases h <;> cases hn
  rw [clean_eq, if_neg (mt (silent_iff _).1 h), h1, if_neg (opens_other hn).1.1, if_neg (opens_other hn).1.2,
    if_neg (opens_ne ho).1, if_neg h2, if_pos (by rw [(closing_iff _ _).2 hn]; rfl)]

theorem step_line (e : Engine S) (b : List Str) (raw : Str) (ls : List Str) (tag close : Str) (h : ¬ Silent (content raw))
    (ho : Opens tag close) (h1 : ¬ Word (content raw) (cs! "FUNCTION_BLOCK"))
    (h2 : ¬ Word (content raw) (cs! "END_FUNCTION_BLOCK")) (hw : ¬ Word (content raw) close)
    (h3 : ∀ t c, Opens t c → ¬ Word (content raw) t) :
    y.readLines G ⟨e, tag, b⟩ (raw :: ls) = y.readLines G ⟨e, tag, b ++ [content raw]⟩ ls := by
  conv_lhs => unfold FclImporter.readLines
  dsimp only
  have h4 : ¬ FclImporter.closing tag = some (FclImporter.first (content raw)) := by
    rw [(closing_iff _ _).2 ho]
    intro hh
    exact hw ((first_iff _ _ (opens_ne ho).2).1 (Option.some.inj hh).symm)
  have h5 : ¬ (FclImporter.closing (FclImporter.first (content raw))).isSome = true := by
    rw [(closing_none _).2 fun c hc => h3 _ c hc ((first_iff _ _ (opens_ne hc).1).1 rfl)]
    decide
  rw [clean_eq, if_neg (mt (silent_iff _).1 h), if_neg (mt (first_iff _ _ (by decide)).1 h1),
    if_neg (mt (first_iff _ _ (by decide)).1 h2), if_neg (opens_ne ho).1, if_neg h4, if_neg h5]

theorem title_exists (e : Engine S) (l : Str) (h : Word l (cs! "FUNCTION_BLOCK")) : ∃ f, Title e l f :=
  ⟨_, (title_iff _ _ _).2 ⟨(first_iff _ _ (by decide)).2 h, rfl⟩⟩

/-- inside a block, forwards -/
theorem body_reads (tag close : Str) (ho : Opens tag close) (e e1 : Engine S) (b : List Str) (raws : List Str) (ls : List Str)
    (cs : List Str) (h : Body close e (raws.map content) cs e1) :
    y.readLines G ⟨e, tag, b⟩ (raws ++ ls) = y.readLines G ⟨e1, tag, b ++ cs⟩ ls := by
  induction raws generalizing e b cs with
  | nil =>
    cases h
    simp
  | cons raw raws ih =>
    rw [List.map_cons] at h
    rw [List.cons_append]
    cases h with
    | silent _ _ _ _ _ h1 h2 => rw [step_silent y G _ _ _ h1]; exact ih _ _ _ h2
    | title _ _ _ _ _ _ h1 h2 h3 => rw [step_title y G _ _ _ _ _ _ h1 h2]; exact ih _ _ _ h3
    | line _ _ _ cs _ h1 h2 h3 h4 h5 h6 =>
      rw [step_line y G _ _ _ _ _ _ h1 ho h2 h3 h4 h5, ih _ _ _ h6]
      simp

/-- inside a block, backwards: the block is closed before the text ends -/
theorem body_of (tag close : Str) (ho : Opens tag close) (e : Engine S) (b : List Str) (raws : List Str) (s : FclImporter.State S)
    (h : y.readLines G ⟨e, tag, b⟩ raws = .ok s) (hs : s.tag = []) :
    ∃ body last ls cs e1, raws = body ++ last :: ls ∧ Body close e (body.map content) cs e1 ∧ ¬ Silent (content last) ∧
      Word (content last) close := by
  induction raws generalizing e b with
  | nil =>
    cases h
    exact absurd hs (opens_ne ho).1
  | cons raw raws ih =>
    by_cases h1 : Silent (content raw)
    · rw [step_silent y G _ _ _ h1] at h
      obtain ⟨body, last, ls, cs, e1, rfl, h2, h3⟩ := ih e b h
      exact ⟨raw :: body, last, ls, cs, e1, rfl, .silent _ _ _ _ _ h1 h2, h3⟩
    · by_cases h2 : Word (content raw) (cs! "FUNCTION_BLOCK")
      · obtain ⟨f, hf⟩ := title_exists e _ h2
        rw [step_title y G _ _ _ _ _ _ h1 hf] at h
        obtain ⟨body, last, ls, cs, e1, rfl, h2, h3⟩ := ih f b h
        exact ⟨raw :: body, last, ls, cs, e1, rfl, .title _ _ _ _ _ _ h1 hf h2, h3⟩
      · by_cases h3 : Word (content raw) (cs! "END_FUNCTION_BLOCK")
        · rw [step_end y G _ _ _ h1 h3] at h
          cases h
          exact absurd hs (opens_ne ho).1
        · by_cases h4 : Word (content raw) close
          · exact ⟨[], raw, raws, [], e, rfl, .nil _, h1, h4⟩
          · by_cases h5 : ∃ t c, Opens t c ∧ Word (content raw) t
            · obtain ⟨t, c, ht, hw⟩ := h5
              rw [step_nested y G _ _ _ _ _ _ _ _ h1 ho ht hw] at h
              cases h
            · have h5 : ∀ t c, Opens t c → ¬ Word (content raw) t := fun t c ht hw => h5 ⟨t, c, ht, hw⟩
              rw [step_line y G _ _ _ _ _ _ h1 ho h2 h3 h4 h5] at h
              obtain ⟨body, last, ls, cs, e1, rfl, h6, h7⟩ := ih e _ h
              exact ⟨raw :: body, last, ls, content raw :: cs, e1, rfl, .line _ _ _ _ _ h1 h2 h3 h4 h5 h6, h7⟩

theorem readLines_iff (raws : List Str) (e f : Engine S) (b : List Str) :
    (∃ s, y.readLines G ⟨e, [], b⟩ raws = .ok s ∧ s.tag = [] ∧ s.engine = f) ↔
      Layout y.resolution G e (raws.map content) f := by
  constructor
  · rintro ⟨s, h, hs, rfl⟩
    induction hn : raws.length using Nat.strong_induction_on generalizing raws e b with
    | _ n ih =>
    subst hn
    cases raws with
    | nil => cases h; exact .nil _
    | cons raw raws =>
      rw [List.map_cons]
      by_cases h1 : Silent (content raw)
      · rw [step_silent y G _ _ _ h1] at h
        exact .silent _ _ _ _ h1 (ih raws.length (by simp) _ _ _ h rfl)
      · by_cases h2 : Word (content raw) (cs! "FUNCTION_BLOCK")
        · obtain ⟨f, hf⟩ := title_exists e _ h2
          rw [step_title y G _ _ _ _ _ _ h1 hf] at h
          exact .title _ _ _ _ _ h1 hf (ih raws.length (by simp) _ _ _ h rfl)
        · by_cases h3 : Word (content raw) (cs! "END_FUNCTION_BLOCK")
          · rw [step_end y G _ _ _ h1 h3] at h
            cases h
            exact .done _ _ _ h1 h3
          · by_cases h5 : ∃ t c, Opens t c ∧ Word (content raw) t
            · obtain ⟨tag, close, ho, hw⟩ := h5
              rw [step_open y G _ _ _ _ _ _ h1 ho hw] at h
              obtain ⟨body, last, ls, cs, e1, rfl, hb, hl, hc⟩ := body_of y G tag close ho _ _ _ _ h hs
              rw [body_reads y G tag close ho _ _ _ _ _ _ hb, step_close y G _ _ _ _ _ _ hl ho hc] at h
              cases hp : y.processBlock G tag ([content raw] ++ cs) e1 with
              | error x => rw [hp] at h; cases h
              | ok e2 =>
                rw [hp] at h
                have hB := (builds_iff y G tag (content raw) cs e1 e2).1 hp
                rw [List.map_append, List.map_cons]
                exact .block e tag close _ _ cs e1 _ e2 _ _ ho h1 hw hb hl hc hB
                  (ih ls.length (by simp; omega) _ _ _ h rfl)
            · have h5 : ∀ t c, Opens t c → ¬ Word (content raw) t := fun t c ht hw => h5 ⟨t, c, ht, hw⟩
              rw [step_unknown y G _ _ _ _ h1 h2 h3 h5] at h
              cases h
  · intro h
    generalize hm : raws.map content = ms at h
    induction h generalizing raws b with
    | nil e =>
      rw [List.map_eq_nil_iff] at hm
      subst hm
      exact ⟨_, rfl, rfl, rfl⟩
    | done e l ls h1 h2 =>
      obtain ⟨raw, raws', rfl, rfl, rfl⟩ := List.map_eq_cons_iff.1 hm
      exact ⟨_, step_end y G _ _ _ h1 h2, rfl, rfl⟩
    | silent e l ls f h1 _ ih =>
      obtain ⟨raw, raws', rfl, rfl, rfl⟩ := List.map_eq_cons_iff.1 hm
      rw [step_silent y G _ _ _ h1]
      exact ih _ _ rfl
    | title e l e' ls f h1 h2 _ ih =>
      obtain ⟨raw, raws', rfl, rfl, rfl⟩ := List.map_eq_cons_iff.1 hm
      rw [step_title y G _ _ _ _ _ _ h1 h2]
      exact ih _ _ rfl
    | block e tag close head body cs e1 last e2 ls f ho h1 hw hb hl hc hB _ ih =>
      rw [List.cons_append] at hm
      obtain ⟨raw, raws', rfl, rfl, hm1⟩ := List.map_eq_cons_iff.1 hm
      obtain ⟨bodies, rest, rfl, rfl, hm2⟩ := List.map_eq_append_iff.1 hm1
      obtain ⟨lastRaw, ls', rfl, rfl, rfl⟩ := List.map_eq_cons_iff.1 hm2
      rw [step_open y G _ _ _ _ _ _ h1 ho hw, body_reads y G tag close ho _ _ _ _ _ _ hb, step_close y G _ _ _ _ _ _ hl ho hc]
      have hp : y.processBlock G tag ([content raw] ++ cs) e1 = .ok e2 := (builds_iff y G tag (content raw) cs e1 e2).2 hB
      rw [hp]
      exact ih _ _ rfl

/-- C69: the texts that are accepted, and the engines that they describe. -/
theorem fromString_iff (text : Str) (e : Engine S) : y.fromString G text = .ok e ↔
    Layout y.resolution G ⟨[], [], [], [], []⟩ ((FllImporter.lines text).map content) e := by
  rw [← readLines_iff y G _ _ _ []]
  unfold FclImporter.fromString
  constructor
  · intro h
    cases hr : y.readLines G ⟨⟨[], [], [], [], []⟩, [], []⟩ (FllImporter.lines text) with
    | error x => rw [hr] at h; cases h
    | ok s =>
      rw [hr, Fll.ok_bind] at h
      split_ifs at h with h1
      cases h
      exact ⟨s, rfl, h1, rfl⟩
  · rintro ⟨s, hr, hs, rfl⟩
    rw [hr, Fll.ok_bind, if_pos hs]

/-- C69: what follows the end of the function block does not matter, unless a block is still open. -/
theorem layout_tail (r : Int) (e f : Engine S) (ls : List Str) (l : Str) (hl : ¬ Silent l)
    (hw : Word l (cs! "END_FUNCTION_BLOCK")) (t t' : List Str) (h : Layout r G e (ls ++ l :: t) f) :
    Layout r G e (ls ++ l :: t') f := by
  generalize hm : ls ++ l :: t = ms at h
  have word_unique : ∀ {l w w' : Str}, Word l w → Word l w' → w = w' := by
    rintro l w w' ⟨ws, h⟩ ⟨ws', h'⟩
    rw [h] at h'
    cases h'
    rfl
  induction h generalizing ls with
  | nil e => simp at hm
  | done e l' ls' h1 h2 =>
    cases ls with
    | nil => exact .done _ _ _ hl hw
    | cons a as => cases hm; exact .done _ _ _ h1 h2
  | silent e l' ls' f h1 _ ih =>
    cases ls with
    | nil => cases hm; exact absurd h1 hl
    | cons a as => cases hm; exact .silent _ _ _ _ h1 (ih _ rfl)
  | title e l' e' ls' f h1 h2 _ ih =>
    cases ls with
    | nil =>
      cases hm
      have := (first_iff _ _ (by decide)).1 ((title_iff _ _ _).1 h2).1
      exact absurd (word_unique this hw) (by decide)
    | cons a as => cases hm; exact .title _ _ _ _ _ h1 h2 (ih _ rfl)
  | block e tag close head body cs e1 last e2 ls' f ho h1 hwh hb hla hc hB _ ih =>
    rw [List.cons_append] at hm
    cases ls with
    | nil => cases hm; exact absurd (word_unique hwh hw) (opens_other ho).1.2
    | cons a as =>
      obtain ⟨rfl, hm1⟩ := List.cons.inj hm
      have hm1 : as ++ l :: t = body ++ last :: ls' := hm1
      have hnb : ∀ (e : Engine S) body cs e1, Body close e body cs e1 → l ∉ body := by
        intro e body cs e1 hb
        induction hb with
        | nil => simp
        | silent _ l' _ _ _ h1 _ ih =>
          simp only [List.mem_cons, not_or]
          exact ⟨fun h => hl (h ▸ h1), ih⟩
        | title _ l' _ _ _ _ h1 h2 _ ih =>
          simp only [List.mem_cons, not_or]
          refine ⟨fun h => ?_, ih⟩
          subst h
          have := (first_iff _ _ (by decide)).1 ((title_iff _ _ _).1 h2).1
          exact absurd (word_unique this hw) (by decide)
        | line _ l' _ _ _ _ _ h3 _ _ _ ih =>
          simp only [List.mem_cons, not_or]
          refine ⟨fun h => ?_, ih⟩
          subst h
          exact h3 hw
      have hlast : l ≠ last := by
        rintro rfl
        exact absurd (word_unique hc hw) (opens_other ho).2.2
      rw [List.append_eq_append_iff] at hm1
      rcases hm1 with ⟨as', rfl, h⟩ | ⟨bs, rfl, h⟩
      · cases as' with
        | nil =>
          rw [List.nil_append] at h
          exact absurd (List.cons.inj h).1 hlast
        | cons b as' =>
          rw [List.cons_append] at h
          have := (List.cons.inj h).1
          subst this
          exact absurd (by simp) (hnb _ _ _ _ hb)
      · cases bs with
        | nil =>
          rw [List.nil_append] at h
          exact absurd (List.cons.inj h).1.symm hlast
        | cons b bs =>
          rw [List.cons_append] at h
          obtain ⟨rfl, h'⟩ := List.cons.inj h
          have := Layout.block e tag close a body cs e1 last e2 _ f ho h1 hwh hb hla hc hB (ih bs h'.symm)
          simpa using this

end

/-- C69: a word outside of blocks that is no keyword is an error, wherever it is. -/
theorem unknown_word (y : FclImporter) (G : Registry S) (e : Engine S) (b : List Str) (raw : Str) (ls : List Str)
    (w : Str) (h : ¬ Silent (content raw)) (hw : Word (content raw) w)
    (hk : w ∉ [cs! "FUNCTION_BLOCK", cs! "END_FUNCTION_BLOCK", cs! "VAR_INPUT", cs! "VAR_OUTPUT", cs! "FUZZIFY", cs! "DEFUZZIFY",
      cs! "RULEBLOCK"]) : y.readLines G ⟨e, [], b⟩ (raw :: ls) = .error .syntaxError := by
  have hu : ∀ v, Word (content raw) v → w = v := by
    rintro v ⟨vs, hv⟩
    obtain ⟨ws, hws⟩ := hw
    rw [hv] at hws
    cases hws
    rfl
  refine step_unknown y G e b raw ls h (fun h1 => ?_) (fun h1 => ?_) (fun t c ho h1 => ?_)
  · exact hk (by rw [hu _ h1]; simp)
  · exact hk (by rw [hu _ h1]; simp)
  · have := hu _ h1
    subst this
    cases ho <;> simp at hk

end FclStrict
end

/-! ### examples -/

namespace FclStrictExamples
open FclStrict FclExamples

def text (ls : List Str) : Str := FclExporter.text ls

/-- what a text makes -/
def built {α : Type} (ls : List Str) (f : Engine (Ext ℚ) → α) : Except Err α := (y.fromString G (text ls)).map f

/-- a text by hand: comments, semicolons where there is none, a rule without number, text after the end -/
def hand : List Str := [cs! "# comment", cs! "% comment", cs! "FUNCTION_BLOCK a;b", cs! "VAR_INPUT  // in", cs! " x : REAL;", cs! "END_VAR",
  cs! "VAR_OUTPUT", cs! "y : WHATEVER", cs! "END_VAR", cs! "FUZZIFY x", cs! "RANGE := (0.000 .. 1.000)", cs! "TERM low := Ramp (1.000, 0.000);",
  cs! "TERM high := (0.000, 0.000) (1.000, 1.000);", cs! "END_FUZZIFY", cs! "DEFUZZIFY y", cs! "TERM c := 0.500;", cs! "METHOD : COGS",
  cs! "DEFAULT := nan | NC", cs! "LOCK : RANGE | PREVIOUS", cs! "FUNCTION_BLOCK two words", cs! "END_DEFUZZIFY", cs! "RULEBLOCK first",
  cs! "AND :: MIN:", cs! "RULE if x is low then y is c", cs! "END_RULEBLOCK", cs! "END_FUNCTION_BLOCK", cs! "anything"]

example : built hand (fun e => (e.name, e.inputs.map fun v => v.terms.map fun t => (t.className, t.parameters))) =
    .ok (cs! "two words", [[(cs! "Ramp", cs! "1.000 0.000"), (cs! "Discrete", cs! "0.000 0.000 1.000 1.000")]]) := by decide +kernel

example : built hand (fun e => e.outputs.map fun v => (v.terms.map fun t => t.className, v.lockPrevious, v.lockRange)) =
    .ok [([cs! "Constant"], true, true)] := by decide +kernel

example : built hand (fun e => e.outputs.map fun v => v.defuzzifier.map Defuzzifier.className) =
    .ok [some (cs! "WeightedAverage")] := by decide +kernel

example : built hand (fun e => e.blocks.map fun b => (b.name, b.conjunction.map TNorm.fcl)) =
    .ok [(cs! "first", some (cs! "MIN"))] := by decide +kernel

example : built hand (fun e => e.blocks.map fun b => b.rules.map fun r => (r.text, r.isLoaded)) =
    .ok [[(cs! "if x is low then y is c", true)]] := by decide +kernel

/-- an open block, a block in a block, an unknown word, an end without a block, an undeclared variable -/
example : built [cs! "VAR_INPUT", cs! "x : REAL"] Engine.name = .error .syntaxError := by decide +kernel
example : built [cs! "VAR_INPUT", cs! "x : REAL", cs! "END_FUNCTION_BLOCK"] Engine.name = .error .syntaxError := by decide +kernel
example : built [cs! "VAR_INPUT", cs! "RULEBLOCK", cs! "END_RULEBLOCK", cs! "END_VAR"] Engine.name = .error .syntaxError := by decide +kernel
example : built [cs! "VAR_LOCAL"] Engine.name = .error .syntaxError := by decide +kernel
example : built [cs! "END_VAR"] Engine.name = .error .syntaxError := by decide +kernel
example : built [cs! "FUZZIFY x", cs! "END_FUZZIFY"] Engine.name = .error .syntaxError := by decide +kernel
example : built [] Engine.name = .ok [] := by decide +kernel

/-- the keyword that ends another block is a name like any other -/
example : built [cs! "VAR_INPUT", cs! "END_FUZZIFY: REAL", cs! "END_VAR"] (fun e => e.inputs.map Variable.name) =
    .ok [cs! "END_FUZZIFY"] := by decide +kernel

/-- the relations at work -/
example : NamesTNorm (S := Ext ℚ) (cs! "HPROD") (some (.builtin .hamacherProduct)) := .hprod
example : (FclImporter.parseTNorm (cs! "AND : none") : Except Err (Option (TNorm (Ext ℚ)))) = .error .outOfRange := by
  rw [FclImporter.parseTNorm]; rfl
example : ∃ v, Value (cs! ":") (cs! "AND : MIN") v ∧ Op.trim v = cs! "MIN" := ⟨cs! " MIN", ⟨cs! "AND ", by decide⟩, by decide⟩
example : TermTokens (Ext ℚ) [cs! "TERM", cs! "low", cs! ":=", cs! "Ramp", cs! "(", cs! "1", cs! ",", cs! "0", cs! ")"] (cs! "low")
    (cs! "Ramp") [cs! "1", cs! "0"] :=
  .mk [] (cs! "low") [] (cs! "Ramp") (cs! "Ramp") [] [cs! "(", cs! "1", cs! ",", cs! "0", cs! ")"] (by simp) (by simp)
    (.named _ (fun a h => by
      have : (ScalarText.ofText (cs! "Ramp") : Option (Ext ℚ)) = none := by decide +kernel
      rw [Strict.Number, this] at h
      cases h) (by decide))

/-- C69: the type of a variable is not read: anything but nothing after the colon will do. -/
theorem type_unchecked : built [cs! "VAR_INPUT", cs! "x : STRING", cs! "END_VAR"] (fun e => e.inputs.map Variable.name) =
    .ok [cs! "x"] ∧ built [cs! "VAR_INPUT", cs! "x :", cs! "END_VAR"] (fun e => e.inputs.map Variable.name) =
    .error .syntaxError := by decide +kernel

/-- C69: after two separators, the lock of a default value is left out without a word. -/
theorem lock_dropped : (FclImporter.parseDefaultValue (cs! "DEFAULT := 1.000 | NC") : Except Err (Ext ℚ × Bool)) =
      .ok (.fin 1, true) ∧
    (FclImporter.parseDefaultValue (cs! "DEFAULT := 1.000 | NC | NC") : Except Err (Ext ℚ × Bool)) = .ok (.fin 1, false) ∧
    (FclImporter.parseDefaultValue (cs! "DEFAULT := 1.000 | XY") : Except Err (Ext ℚ × Bool)) = .error .syntaxError := by
  decide +kernel

/-- C69: the undefined behaviour is within reach of a text. -/
theorem undefined_reached : built [cs! "VAR_OUTPUT", cs! "y : REAL", cs! "END_VAR", cs! "DEFUZZIFY y", cs! "DEFAULT :=|", cs! "END_DEFUZZIFY"]
    Engine.name = .error .ub := by decide +kernel

/-- C69: an engine may be named inside a block, and more than once. -/
theorem title_inside : built [cs! "FUNCTION_BLOCK one", cs! "VAR_INPUT", cs! "FUNCTION_BLOCK two", cs! "END_VAR", cs! "FUNCTION_BLOCK"]
    Engine.name = .ok (cs! "two") := by decide +kernel

end FclStrictExamples
end FL
