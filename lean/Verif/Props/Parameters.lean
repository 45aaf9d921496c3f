/-
C53: the parameters of terms survive being written and read.
-/
import Verif.Model.Parameters
import Verif.Lemmas.Text
import Verif.Lemmas.Decimal
import Verif.Props.Discrete

namespace FL
open Scalar

namespace Op

/-- words written with one blank between them are split into the same words -/
theorem split_words (ts : List Str) (h0 : ts ≠ []) (h : ∀ t ∈ ts, t ≠ [] ∧ NoBlank t) :
    split (join ts (cs! " ")) (cs! " ") true = ts := by
  have hj : join ts (cs! " ") ≠ [] := by
    intro hc
    have := words_join ts h
    rw [hc] at this
    exact h0 this.symm
  rw [split_ignoreEmpty _ _ hj (by simp), split_join ts (cs! " ") (by simp) h0]
  · rw [List.filter_eq_self]
    intro t ht
    have := (h t ht).1
    cases t with
    | nil => exact absurd rfl this
    | cons => rfl
  · intro t ht hi
    have hb := (h t ht).2
    have : ' ' ∈ t := by
      have hs := hi.subset (a := ' ') (by simp)
      simpa using hs
    exact absurd (hb ' ' this) (by decide)

theorem join_snoc (ts : List Str) (h0 : ts ≠ []) (t sep : Str) : join (ts ++ [t]) sep = join ts sep ++ sep ++ t := by
  induction ts with
  | nil => exact absurd rfl h0
  | cons u us ih =>
    cases us with
    | nil => simp [join]
    | cons v vs =>
      rw [List.cons_append, join_cons _ _ _ (by simp), ih (by simp), join_cons u _ _ (by simp)]
      simp

theorem split_nil_of_blanks (n : Nat) : split (List.replicate (n + 1) ' ') (cs! " ") true = [] := by
  have : ∀ k m, m < k → splitLoop (cs! " ") true k (List.replicate m ' ') = [] := by
    intro k
    induction k with
    | zero => intro m h; omega
    | succ k ih =>
      intro m h
      cases m with
      | zero => simp [splitLoop, search]
      | succ m =>
        have : search (cs! " ") (List.replicate (m + 1) ' ') = some ([], List.replicate m ' ') := by
          simp [List.replicate_succ, search]
        rw [splitLoop, this]
        simpa using ih m (by omega)
  have h1 : (List.replicate (n + 1) ' ').isEmpty = false := by simp [List.replicate_succ]
  unfold split
  rw [if_neg (by simp [h1])]
  exact this _ _ (by simp)

end Op

section
variable {S : Type} [ScalarText S]

/-- the number that is read where `x` was written -/
def reread (x : S) : S := (ScalarText.ofText (ScalarText.str x)).getD nan

theorem ofText_str [LawfulText S] (x : S) : ScalarText.ofText (ScalarText.str x) = some (reread x) := by
  obtain ⟨y, h, -⟩ := LawfulText.reads x
  simp [reread, h]

theorem str_reread [LawfulText S] (x : S) : ScalarText.str (reread x) = ScalarText.str x := by
  obtain ⟨y, h, h'⟩ := LawfulText.reads x
  simp [reread, h, h']

/-- reading twice what was written is the same as reading it once -/
theorem reread_reread [LawfulText S] (x : S) : reread (reread x) = reread x := by
  have : ∀ y : S, reread y = (ScalarText.ofText (ScalarText.str y)).getD nan := fun _ => rfl
  rw [this (reread x), str_reread, ← this]

/-- every parameter replaced -/
def Shape.each (f : S → S) : Shape S → Shape S
  | .bell c w s => .bell (f c) (f w) (f s)
  | .binary s d => .binary (f s) (f d)
  | .concave i e => .concave (f i) (f e)
  | .cosine c w => .cosine (f c) (f w)
  | .gaussian m s => .gaussian (f m) (f s)
  | .gaussianProduct ma sa mb sb => .gaussianProduct (f ma) (f sa) (f mb) (f sb)
  | .piShape bl tl tr br => .piShape (f bl) (f tl) (f tr) (f br)
  | .ramp s e => .ramp (f s) (f e)
  | .rectangle s e => .rectangle (f s) (f e)
  | .sigmoid i s => .sigmoid (f i) (f s)
  | .sigmoidDifference l r fa t => .sigmoidDifference (f l) (f r) (f fa) (f t)
  | .sigmoidProduct l r fa t => .sigmoidProduct (f l) (f r) (f fa) (f t)
  | .spike c w => .spike (f c) (f w)
  | .sShape s e => .sShape (f s) (f e)
  | .trapezoid a b c d => .trapezoid (f a) (f b) (f c) (f d)
  | .triangle a b c => .triangle (f a) (f b) (f c)
  | .zShape s e => .zShape (f s) (f e)

namespace Term

/-- every parameter of the term, as read where it was written -/
def rereadKind : TermKind S → TermKind S
  | .shape s => .shape (s.each reread)
  | .discrete xy => .discrete (xy.map fun p => (reread p.1, reread p.2))
  | .constant v => .constant (reread v)
  | .linear c e => .linear (c.map reread) e
  | .function f => .function f

theorem words_strs [LawfulText S] (xs : List S) : ∀ t ∈ xs.map ScalarText.str, t ≠ [] ∧ Op.NoBlank t := by
  intro t ht
  obtain ⟨x, -, rfl⟩ := List.mem_map.1 ht
  exact ⟨LawfulText.str_ne x, fun c hc => (LawfulText.str_char x c hc).1⟩

theorem toScalars_strs [LawfulText S] (xs : List S) : toScalars (xs.map ScalarText.str) = .ok (xs.map reread) := by
  unfold toScalars
  induction xs with
  | nil => rfl
  | cons x xs ih =>
    rw [List.map_cons, List.mapM_cons, ih, ofText_str]
    rfl

theorem heightText_eq (h : S) : heightText h = if Op.isEq h (lit 1) then [] else [h].map ScalarText.str := by
  unfold heightText; split_ifs <;> rfl

/-- the values written for a parametric shape -/
theorem shape_text [LawfulText S] (t : Term S) (s : Shape S) (hk : t.kind = .shape s) :
    t.parameters ≠ [] ∧
    Op.split t.parameters (cs! " ") true =
      (s.written ++ if Op.isEq t.height (lit 1) then [] else [t.height]).map ScalarText.str := by
  have hw : s.written ≠ [] := by cases s <;> simp [Shape.written]
  have e : t.parameters = Op.join ((s.written ++ if Op.isEq t.height (lit 1) then [] else [t.height]).map ScalarText.str) (cs! " ") := by
    unfold parameters
    rw [hk]
    simp only
    split_ifs with h
    · simp
    · rw [List.map_append, List.map_singleton, Op.join_snoc _ (by simpa using hw)]
      simp
  have hs := words_strs (s.written ++ if Op.isEq t.height (lit 1) then [] else [t.height])
  rw [e]
  refine ⟨?_, Op.split_words _ (by simp [hw]) hs⟩
  intro hc
  have := Op.words_join _ hs
  rw [hc] at this
  simp [Op.words, Op.wordsAux, hw] at this

theorem written_length (s : Shape S) : s.written.length = s.required := by cases s <;> rfl

/-- C53 for the parametric shapes: configuring a new term of the class from the parameters of a term
restores every parameter, and the height, as they were printed. -/
theorem configure_shape [LawfulText S] (F : ElementFactory S) (ctx : Ctx S) (t : Term S) (s : Shape S)
    (hk : t.kind = .shape s) :
    t.fresh.configure F ctx t.parameters =
      (⟨[], if Op.isEq t.height (lit 1) then lit 1 else reread t.height, .shape (s.each reread)⟩, none) := by
  obtain ⟨hne, hsp⟩ := shape_text t s hk
  have hfk : t.fresh.kind = .shape s.fresh := by unfold fresh; rw [hk]
  have hreq : s.fresh.required = s.required := by cases s <;> rfl
  have hset : s.fresh.setFrom 0 (s.written.map ScalarText.str) = (s.each reread, none) := by
    cases s <;> simp [Shape.fresh, Shape.setFrom, Shape.written, Shape.setAt, ofText_str, Shape.each]
  have hl := written_length s
  unfold configure
  rw [hfk]
  simp only [hsp, hreq, List.isEmpty_iff, hne, if_false]
  rw [if_neg (by simp [← hl])]
  have htake : (List.map ScalarText.str (s.written ++ if Op.isEq t.height (lit 1) then [] else [t.height])).take s.required
      = s.written.map ScalarText.str := by
    rw [List.map_append, List.take_left' (by rw [List.length_map, hl])]
  rw [htake, hset]
  have hget : (List.map ScalarText.str (s.written ++ if Op.isEq t.height (lit 1) then [] else [t.height]))[s.required]?
      = if Op.isEq t.height (lit 1) then none else some (ScalarText.str t.height) := by
    rw [← hl]
    split_ifs <;> simp
  simp only [hget]
  split_ifs with h
  · rfl
  · simp only [ofText_str]; rfl

/-- C53 for `Discrete`. -/
theorem configure_discrete [LawfulText S] (F : ElementFactory S) (ctx : Ctx S) (t : Term S) (xy : List (S × S))
    (hk : t.kind = .discrete xy) :
    t.fresh.configure F ctx t.parameters =
      (⟨[], if Op.isEq t.height (lit 1) then lit 1 else reread t.height,
        .discrete (xy.map fun p => (reread p.1, reread p.2))⟩, none) := by
  have hfk : t.fresh.kind = .discrete [] := by unfold fresh; rw [hk]
  have e : t.parameters = Op.join ((Discrete.toVector xy ++ if Op.isEq t.height (lit 1) then [] else [t.height]).map
      ScalarText.str) (cs! " ") := by
    unfold parameters
    rw [hk]
    simp only
    rw [heightText_eq]
    split_ifs <;> simp
  have hvec : ∀ ps : List (S × S), (Discrete.toVector ps).map reread
      = Discrete.toVector (ps.map fun p => (reread p.1, reread p.2)) := by
    intro ps; simp [Discrete.toVector, List.flatMap_map, List.map_flatMap]
  have hlen : (Discrete.toVector xy).length % 2 = 0 := by
    simp [Discrete.toVector, List.length_flatMap]
  unfold configure
  rw [hfk]
  simp only
  by_cases hv : Discrete.toVector xy ++ (if Op.isEq t.height (lit 1) then [] else [t.height]) = []
  · obtain ⟨hv1, hv2⟩ := List.append_eq_nil_iff.1 hv
    have hxy : xy = [] := by
      cases xy with
      | nil => rfl
      | cons p ps => simp [Discrete.toVector] at hv1
    have hh : Op.isEq t.height (lit 1) = true := by
      by_contra hc
      simp [hc] at hv2
    subst hxy
    rw [e, hv]
    simp only [hh, if_true]
    simp only [List.map_nil, Op.join, List.isEmpty_nil, if_true, fresh, hk]
  · have hs := words_strs (Discrete.toVector xy ++ if Op.isEq t.height (lit 1) then [] else [t.height])
    have hne : t.parameters ≠ [] := by
      intro hc
      have := Op.words_join _ hs
      rw [← e, hc] at this
      simp only [Op.words, Op.wordsAux, List.isEmpty_nil, if_true] at this
      exact hv (List.map_eq_nil_iff.1 this.symm)
    rw [if_neg (by simpa using hne), e, Op.split_words _ (by simpa using hv) hs, toScalars_strs]
    simp only [List.length_map, List.length_append]
    by_cases hh : Op.isEq t.height (lit 1) = true
    · simp only [hh, if_true, List.length_nil, Nat.add_zero, hlen, List.append_nil]
      rw [hvec, Discrete.toPairs_toVector]
      simp [fresh]
    · have hodd : ¬ ((Discrete.toVector xy).length + 1) % 2 = 0 := by omega
      simp only [hh, if_false, List.length_singleton, hodd, Bool.false_eq_true, List.map_append, List.map_singleton,
        List.dropLast_concat, List.getLast?_concat, Option.getD_some]
      rw [hvec, Discrete.toPairs_toVector]
      simp [fresh]

/-- C53 for `Constant`. -/
theorem configure_constant [LawfulText S] (F : ElementFactory S) (ctx : Ctx S) (t : Term S) (v : S)
    (hk : t.kind = .constant v) :
    t.fresh.configure F ctx t.parameters = (⟨[], lit 1, .constant (reread v)⟩, none) := by
  have e : t.parameters = Op.join ([v].map ScalarText.str) (cs! " ") := by unfold parameters; rw [hk]; rfl
  have hne : t.parameters ≠ [] := by unfold parameters; rw [hk]; exact LawfulText.str_ne v
  have hfk : t.fresh.kind = .constant nan := by unfold fresh; rw [hk]
  unfold configure
  rw [hfk]
  simp only
  rw [if_neg (by simpa using hne), e, Op.split_words _ (by simp) (words_strs [v])]
  simp only [List.map_singleton, ofText_str]
  rfl

/-- C53 for `Linear`. -/
theorem configure_linear [LawfulText S] (F : ElementFactory S) (ctx : Ctx S) (t : Term S) (c : List S) (b : Bool)
    (hk : t.kind = .linear c b) :
    t.fresh.configure F ctx t.parameters = (⟨[], lit 1, .linear (c.map reread) false⟩, none) := by
  have e : t.parameters = Op.join (c.map ScalarText.str) (cs! " ") := by unfold parameters; rw [hk]
  have hfk : t.fresh.kind = .linear [] false := by unfold fresh; rw [hk]
  unfold configure
  rw [hfk]
  simp only
  cases c with
  | nil => rw [e]; simp [Op.join, fresh, hk]
  | cons x xs =>
    have hne : t.parameters ≠ [] := by
      intro hc
      have := Op.words_join _ (words_strs (x :: xs))
      rw [← e, hc] at this
      simp [Op.words, Op.wordsAux] at this
    rw [if_neg (by simpa using hne), e, Op.split_words _ (by simp) (words_strs _), toScalars_strs]
    rfl

/-- C53 for `Function`: the formula is restored, and the tree is the one of the formula, whenever
loading the formula does not raise. -/
theorem configure_function (F : ElementFactory S) (ctx : Ctx S) (t : Term S) (f : Fun S) (n : Node S) (y : S)
    (hk : t.kind = .function f) (hp : Formula.parse F f.formula = .ok n)
    (hv : n.evaluate (Env.set (fun _ => none) (cs! "x") (lit 0)) = .ok y) :
    ∃ vars, t.fresh.configure F ctx t.parameters = (⟨[], lit 1, .function ⟨f.formula, some n, false, vars⟩⟩, none) := by
  have hfk : t.fresh.kind = .function ⟨[], none, false, fun _ => none⟩ := by unfold fresh; rw [hk]
  have e : t.parameters = f.formula := by unfold parameters; rw [hk]
  refine ⟨Env.set (fun _ => none) (cs! "x") (lit 0), ?_⟩
  have hb : (⟨f.formula, some n, false, fun _ => none⟩ : Fun S).bind ctx (ofRat 0)
      = Env.set (fun _ => none) (cs! "x") (lit 0) := rfl
  have hl : Fun.load F (⟨[], none, false, fun _ => none⟩ : Fun S) f.formula false ctx
      = (⟨f.formula, some n, false, Env.set (fun _ => none) (cs! "x") (lit 0)⟩, none) := by
    unfold Fun.load
    simp only [hp, Fun.membershipS, hb, hv]
  unfold configure
  rw [hfk]
  simp only [e, hl]
  rfl

/-- C53.  Fewer values than parameters: an exception, and the term is unchanged. -/
theorem configure_tooFew (F : ElementFactory S) (ctx : Ctx S) (t : Term S) (s : Shape S) (hk : t.kind = .shape s)
    (vs : List Str) (hvs : ∀ v ∈ vs, v ≠ [] ∧ Op.NoBlank v) (h0 : vs ≠ []) (hlt : vs.length < s.written.length) :
    t.configure F ctx (Op.join vs (cs! " ")) = (t, some .syntaxError) := by
  have hne : Op.join vs (cs! " ") ≠ [] := by
    intro hc
    have := Op.words_join _ hvs
    rw [hc] at this
    exact h0 this.symm
  rw [written_length] at hlt
  unfold configure
  rw [hk]
  simp only
  rw [if_neg (by simpa using hne), Op.split_words _ h0 hvs, if_pos hlt]

/-- C53.  Only blanks: an exception for the shapes, and the term is unchanged. -/
theorem configure_blank (F : ElementFactory S) (ctx : Ctx S) (t : Term S) (s : Shape S) (hk : t.kind = .shape s)
    (n : Nat) : t.configure F ctx (List.replicate (n + 1) ' ') = (t, some .syntaxError) := by
  unfold configure
  rw [hk]
  simp only [Op.split_nil_of_blanks]
  rw [if_neg (by simp [List.replicate_succ]), if_pos (by cases s <;> simp [Shape.required])]

/-- C53.  An empty string changes nothing, except for `Function` terms. -/
theorem configure_empty_partial (F : ElementFactory S) (ctx : Ctx S) (t : Term S)
    (hk : ∀ f, t.kind ≠ .function f) : t.configure F ctx [] = (t, none) := by
  unfold configure
  cases h : t.kind with
  | function f => exact absurd h (hk f)
  | shape s => simp
  | discrete xy => simp
  | constant v => simp
  | linear c e => simp

/-- C53 fails for `Function` terms: configuring one with an empty string raises an exception and the
formula is lost. -/
theorem configure_empty_violated (F : ElementFactory S) (ctx : Ctx S) (t : Term S) (f : Fun S)
    (hk : t.kind = .function f) :
    t.configure F ctx [] = ({ t with kind := .function { f with formula := [] } }, some .syntaxError) := by
  unfold configure
  rw [hk]
  have : Formula.parse F [] = .error .syntaxError := rfl
  simp only [Fun.load, this]

/-- C53 fails for the height of `Constant` and `Linear` terms, which is not written. -/
theorem configure_height_violated [LawfulText S] (F : ElementFactory S) (ctx : Ctx S) (n : Str) (v h : S) :
    (fresh ⟨n, h, .constant v⟩).configure F ctx (parameters ⟨n, h, .constant v⟩)
      = (⟨[], lit 1, .constant (reread v)⟩, none) ∧
    (parameters ⟨n, h, .constant v⟩) = parameters ⟨n, lit 1, .constant v⟩ :=
  ⟨configure_constant F ctx _ v rfl, rfl⟩

/-- A `Constant` configured with a string of blanks: undefined behaviour (`front()` of an empty
vector). -/
theorem configure_constant_violated (F : ElementFactory S) (ctx : Ctx S) (nm : Str) (h v : S) (n : Nat) :
    (⟨nm, h, .constant v⟩ : Term S).configure F ctx (List.replicate (n + 1) ' ') =
      (⟨nm, h, .constant v⟩, some .ub) := by
  unfold configure
  simp only [Op.split_nil_of_blanks]
  rw [if_neg (by simp [List.replicate_succ])]

/-- A value that is not a number raises, but the parameters before it have been overwritten. -/
theorem configure_halfway (F : ElementFactory S) (ctx : Ctx S) (nm : Str) (h a b c x : S) (u v w : Str)
    (hu : u ≠ [] ∧ Op.NoBlank u) (hv : v ≠ [] ∧ Op.NoBlank v) (hw : w ≠ [] ∧ Op.NoBlank w)
    (h1 : ScalarText.ofText u = some x) (h2 : (ScalarText.ofText v : Option S) = none) :
    (⟨nm, h, .shape (.triangle a b c)⟩ : Term S).configure F ctx (Op.join [u, v, w] (cs! " ")) =
      (⟨nm, h, .shape (.triangle x b c)⟩, some .conversion) := by
  have hvs : ∀ t ∈ [u, v, w], t ≠ [] ∧ Op.NoBlank t := by
    intro t ht
    simp only [List.mem_cons, List.not_mem_nil, or_false] at ht
    rcases ht with rfl | rfl | rfl
    exacts [hu, hv, hw]
  have hne : Op.join [u, v, w] (cs! " ") ≠ [] := by simp [Op.join]
  unfold configure
  simp only
  rw [if_neg (by simpa using hne), Op.split_words _ (by simp) hvs]
  simp [Shape.required, Shape.setFrom, h1, h2, Shape.setAt]

theorem toScalars_wrong (vs : List Str) (w : Str) (hw : w ∈ vs) (h : (ScalarText.ofText w : Option S) = none) :
    (toScalars vs : Except Err (List S)) = .error .conversion := by
  induction vs with
  | nil => simp at hw
  | cons v vs ih =>
    unfold toScalars at ih ⊢
    rw [List.mapM_cons]
    cases hv : (ScalarText.ofText v : Option S) with
    | none => rfl
    | some x =>
      have hne : w ≠ v := by rintro rfl; rw [hv] at h; cases h
      have := ih (by rcases List.mem_cons.1 hw with hw | hw; exact absurd hw hne; exact hw)
      rw [this]
      rfl

/-- A word that is not a number raises from `Linear`, whose coefficients are gone by then. -/
theorem configure_linear_wrong (F : ElementFactory S) (ctx : Ctx S) (nm : Str) (h : S) (c : List S) (e : Bool)
    (ws : List Str) (hs : ∀ w ∈ ws, w ≠ [] ∧ Op.NoBlank w) (w : Str) (hw : w ∈ ws)
    (hn : (ScalarText.ofText w : Option S) = none) :
    (⟨nm, h, .linear c e⟩ : Term S).configure F ctx (Op.join ws (cs! " ")) =
      (⟨nm, h, .linear [] e⟩, some .conversion) := by
  have h0 : ws ≠ [] := List.ne_nil_of_mem hw
  have hne : Op.join ws (cs! " ") ≠ [] := by
    intro hc
    have := Op.words_join ws hs
    rw [hc] at this
    exact h0 this.symm
  unfold configure
  simp only
  rw [if_neg (by simpa using hne), Op.split_words _ h0 hs, toScalars_wrong ws w hw hn]

/-- A word that is not a number raises from `Discrete`, which keeps its pairs and its height. -/
theorem configure_discrete_wrong (F : ElementFactory S) (ctx : Ctx S) (nm : Str) (h : S) (xy : List (S × S))
    (ws : List Str) (hs : ∀ w ∈ ws, w ≠ [] ∧ Op.NoBlank w) (w : Str) (hw : w ∈ ws)
    (hn : (ScalarText.ofText w : Option S) = none) :
    (⟨nm, h, .discrete xy⟩ : Term S).configure F ctx (Op.join ws (cs! " ")) =
      (⟨nm, h, .discrete xy⟩, some .conversion) := by
  have h0 : ws ≠ [] := List.ne_nil_of_mem hw
  have hne : Op.join ws (cs! " ") ≠ [] := by
    intro hc
    have := Op.words_join ws hs
    rw [hc] at this
    exact h0 this.symm
  unfold configure
  simp only
  rw [if_neg (by simpa using hne), Op.split_words _ h0 hs, toScalars_wrong ws w hw hn]

/-- `Constant` reads the first word only: its value is replaced exactly when that word is a number,
and the words after it make no difference. -/
theorem configure_constant_words (F : ElementFactory S) (ctx : Ctx S) (nm : Str) (h v : S) (w : Str)
    (ws : List Str) (hs : ∀ u ∈ w :: ws, u ≠ [] ∧ Op.NoBlank u) :
    (⟨nm, h, .constant v⟩ : Term S).configure F ctx (Op.join (w :: ws) (cs! " ")) =
      match ScalarText.ofText w with
      | some x => (⟨nm, h, .constant x⟩, none)
      | none => (⟨nm, h, .constant v⟩, some .conversion) := by
  have hne : Op.join (w :: ws) (cs! " ") ≠ [] := by
    intro hc
    have := Op.words_join (w :: ws) hs
    rw [hc] at this
    cases this
  unfold configure
  simp only
  rw [if_neg (by simpa using hne), Op.split_words _ (by simp) hs]
  simp only
  cases (ScalarText.ofText w : Option S) <;> rfl

end Term
end

/-! ### Rational scalars -/

/-- C53, the printed precision: a finite parameter is restored up to half a thousandth, unless it is
nearer to zero than a thousandth and becomes zero; infinities and NaN are restored. -/
theorem reread_close (q : ℚ) : ∃ r : ℚ, reread (Ext.fin q) = .fin r ∧
    (|r - q| ≤ 1/2000 ∨ (r = 0 ∧ |q| < 1/1000)) := by
  obtain ⟨r, h1, -, h3⟩ := Decimal.reads_fin q
  exact ⟨r, by show (Decimal.ofText (Decimal.str (.fin q))).getD _ = _; rw [h1]; rfl, h3⟩

theorem reread_special : reread (Ext.nan : Ext ℚ) = .nan ∧ reread (Ext.pinf : Ext ℚ) = .pinf ∧
    reread (Ext.ninf : Ext ℚ) = .ninf := ⟨rfl, rfl, rfl⟩

namespace ParametersExamples

def F : ElementFactory (Ext ℚ) := defaultFactory
def t : Term (Ext ℚ) := ⟨cs! "low", .fin (1/2), .shape (.triangle (.fin (-1/3)) (.fin (7/2)) .pinf)⟩

/-- a word in the middle is not a number -/
example : ((⟨cs! "l", .fin 1, .linear [.fin 7] true⟩ : Term (Ext ℚ)).configure F ⟨[], []⟩ (cs! "1 two 3")) =
    (⟨cs! "l", .fin 1, .linear [] true⟩, some .conversion) :=
  Term.configure_linear_wrong F _ _ _ _ _ [cs! "1", cs! "two", cs! "3"] (by unfold Op.NoBlank; decide) (cs! "two") (by decide) (by decide +kernel)

example : ((⟨cs! "c", .fin 1, .constant (.fin 7)⟩ : Term (Ext ℚ)).configure F ⟨[], []⟩ (cs! "1 two 3")) =
    (⟨cs! "c", .fin 1, .constant (.fin 1)⟩, none) := by
  rw [show (cs! "1 two 3") = Op.join [cs! "1", cs! "two", cs! "3"] (cs! " ") by decide,
    Term.configure_constant_words F _ _ _ _ _ _ (by unfold Op.NoBlank; decide)]
  have : (ScalarText.ofText (cs! "1") : Option (Ext ℚ)) = some (.fin 1) := by decide +kernel
  rw [this]

/-- Non-vacuity of C53. -/
example : t.parameters = cs! "-0.333 3.500 inf 0.500" := by decide +kernel

example : t.fresh.configure F ⟨[], []⟩ t.parameters =
    (⟨[], .fin (1/2), .shape (.triangle (.fin (-333/1000)) (.fin (7/2)) .pinf)⟩, none) := by
  rw [Term.configure_shape F _ t _ rfl]
  have h : (Op.isEq t.height (lit 1)) = false := by decide +kernel
  rw [h]
  simp only [Bool.false_eq_true, if_false, Prod.mk.injEq, and_true, Term.mk.injEq, true_and]
  exact ⟨by decide +kernel, by simp only [t, Shape.each]; congr 2 <;> decide +kernel⟩

/-- the last value is not a number: two parameters are overwritten -/
example : (t.configure F ⟨[], []⟩ (cs! "1 2 x")).2 = some .conversion := by decide +kernel

end ParametersExamples
end FL
