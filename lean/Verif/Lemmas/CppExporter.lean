/-
The statements that `CppExporter` writes.
-/
import Verif.Lemmas.Cpp
import Verif.Lemmas.Fcl
import Verif.Props.Fll

namespace FL
open Scalar

namespace Op

theorem commas_join (ws : List Str) (h : ∀ w ∈ ws, NoBlank w) :
    (findReplace (join ws (cs! " ")) (cs! " ") (cs! ", ") true).getD [] = join ws (cs! ", ") := by
  rw [show (cs! " ") = [' '] from rfl, replace_char, Option.getD_some]
  have word : ∀ w : Str, NoBlank w → (w.flatMap fun c => if c = ' ' then (cs! ", ") else [c]) = w := by
    intro w hw
    induction w with
    | nil => rfl
    | cons c w ih =>
      rw [List.flatMap_cons, ih fun d hd => hw d (by simp [hd]), if_neg]
      · rfl
      · rintro rfl
        exact absurd (hw ' ' (by simp)) (by decide)
  induction ws with
  | nil => rfl
  | cons w ws ih =>
    cases ws with
    | nil => simpa [join] using word w (h w (by simp))
    | cons v ws =>
      rw [show join (w :: v :: ws) [' '] = w ++ [' '] ++ join (v :: ws) [' '] from rfl,
        show join (w :: v :: ws) (cs! ", ") = w ++ (cs! ", ") ++ join (v :: ws) (cs! ", ") from rfl,
        List.flatMap_append, List.flatMap_append, word w (h w (by simp)), ih fun u hu => h u (by simp [hu])]
      rfl

end Op

namespace Cpp
variable {S : Type} [ScalarText S]

/-- What is assumed of the text of scalars in addition to `PlainText`: numbers are written as floating
literals of C++ (there are decimals), and the number after a minus sign is the opposite of the number
read without it. -/
class CppText (S : Type) [ScalarText S] : Prop extends PlainText S where
  nan : ∀ x : S, Op.isNaN x = true → ScalarText.str x = cs! "nan" ∧ reread x = Scalar.nan
  inf : ∀ x : S, Op.isNaN x = false → Op.isInf x = true →
    ScalarText.str x = (if gt x (lit 0) then cs! "inf" else cs! "-inf") ∧ reread x = if gt x (lit 0) then Scalar.inf else -Scalar.inf
  finite : ∀ x : S, Op.isNaN x = false → Op.isInf x = false → ∃ (n : Bool) (t : Str) (y : S),
    ScalarText.str x = (if n then '-' :: t else t) ∧ isFloating t = true ∧ ScalarText.ofText t = some y ∧
    reread x = if n then -y else y
  number : ∀ x : S, Op.isNaN (reread x) = Op.isNaN x
  int : ∀ n : Int, -2147483648 ≤ n → n ≤ 2147483647 → ∃ y : S, ScalarText.ofText (intText n) = some y

/-! ### scalars -/

theorem isFloating_number {t : Str} (h : isFloating t = true) : IsNumber t := by
  unfold isFloating at h
  simp only [Bool.and_eq_true, Bool.not_eq_true', beq_iff_eq] at h
  obtain ⟨⟨h1, h2⟩, h3⟩ := h
  have e : t = t.takeWhile isDigit ++ t.dropWhile isDigit := List.takeWhile_append_dropWhile.symm
  have hw : ∀ c ∈ t.takeWhile isDigit, isDigit c = true := fun c hc => List.all_eq_true.1 List.all_takeWhile c hc
  cases ht : t.takeWhile isDigit with
  | nil => rw [ht] at h1; simp at h1
  | cons d p =>
    cases hd : t.dropWhile isDigit with
    | nil => rw [hd] at h2; simp at h2
    | cons c r =>
      rw [ht, hd] at e
      rw [hd] at h2 h3
      obtain rfl : c = '.' := by simpa using h2
      refine ⟨⟨d, by rw [e]; rfl, hw d (by rw [ht]; simp)⟩, ?_⟩
      intro b hb
      rw [e] at hb
      rcases List.mem_append.1 hb with hb | hb
      · exact .inl (hw b (by rw [ht]; exact hb))
      · rcases List.mem_cons.1 hb with rfl | hb
        · exact .inr rfl
        · exact .inl (by simpa using (List.all_eq_true.1 h3) b hb)

/-- the literal for a finite number -/
def numberAtom (v : S) : Atom :=
  match ScalarText.str v with
  | '-' :: t => .number true t
  | t => .number false t

/-- the atom that `toString(scalar)` writes -/
def scalarAtom (v : S) : Atom :=
  if Op.isNaN v then .name false true (cs! "nan")
  else if Op.isInf v then .name (!gt v (lit 0)) true (cs! "inf")
  else numberAtom v

/-- the atom that `Op::str` writes -/
def plainAtom (v : S) : Atom :=
  if Op.isNaN v then .name false false (cs! "nan")
  else if Op.isInf v then .name (!gt v (lit 0)) false (cs! "inf")
  else numberAtom v

theorem numberAtom_cases [CppText S] (v : S) (h1 : Op.isNaN v = false) (h2 : Op.isInf v = false) :
    ∃ (n : Bool) (t : Str) (y : S), numberAtom v = .number n t ∧ ScalarText.str v = (if n then '-' :: t else t) ∧ IsNumber t ∧
      isFloating t = true ∧ ScalarText.ofText t = some y ∧ reread v = if n then -y else y := by
  obtain ⟨n, t, y, e1, e2, e3, e4⟩ := CppText.finite v h1 h2
  have hn := isFloating_number e2
  refine ⟨n, t, y, ?_, e1, hn, e2, e3, e4⟩
  unfold numberAtom
  rw [e1]
  cases n with
  | true => rfl
  | false =>
    simp only [Bool.false_eq_true, if_false]
    obtain ⟨⟨c, hc, hd⟩, -⟩ := hn
    split
    · simp only [List.head?_cons, Option.some.injEq] at hc
      subst hc
      exact absurd hd (by decide)
    · rfl

theorem tokens_numberAtom [CppText S] (v : S) (h1 : Op.isNaN v = false) (h2 : Op.isInf v = false) :
    Tokens (ScalarText.str v) (numberAtom v).tokens := by
  obtain ⟨n, t, y, e1, e2, e3, -⟩ := numberAtom_cases v h1 h2
  rw [e1, e2]
  have ht := tokens_number e3
  cases n with
  | false => exact ht
  | true =>
    obtain ⟨⟨c, hc, hd⟩, -⟩ := e3
    refine tokens_minus ht hc ?_ ?_ <;> (rintro rfl; exact absurd hd (by decide))

theorem tokens_fl (c : Str) (h : IsIdent c) : Tokens (cs! "fl::" ++ c) (pathTokens true c) := by
  have h1 : Whole (cs! "fl::") [.ident (cs! "fl"), .sign (cs! "::")] := rfl
  exact h1.tokens_append (tokens_ident h)

theorem tokens_path (x : CppExporter) (c : Str) (h : IsIdent c) : Tokens (x.fl c) (pathTokens x.usingNamespace c) := by
  unfold CppExporter.fl
  cases x.usingNamespace with
  | true => exact tokens_fl c h
  | false => exact tokens_ident h

theorem tokens_scalar [CppText S] (v : S) : Tokens (CppExporter.scalar v) (scalarAtom v).tokens := by
  unfold CppExporter.scalar scalarAtom
  cases h1 : Op.isNaN v with
  | true => exact tokens_fl _ (by decide)
  | false =>
    simp only [Bool.false_eq_true, if_false]
    cases h2 : Op.isInf v with
    | true =>
      simp only [if_true]
      have hf := tokens_fl (cs! "inf") (by decide)
      cases gt v (lit 0) with
      | true => exact hf
      | false => exact tokens_minus hf (c := 'f') rfl (by decide) (by decide)
    | false => exact tokens_numberAtom v h1 h2

theorem tokens_str [CppText S] (v : S) : Tokens (ScalarText.str v) (plainAtom v).tokens := by
  unfold plainAtom
  cases h1 : Op.isNaN v with
  | true =>
    rw [(CppText.nan v h1).1]
    exact tokens_ident (by decide)
  | false =>
    simp only [Bool.false_eq_true, if_false]
    cases h2 : Op.isInf v with
    | true =>
      simp only [if_true]
      rw [(CppText.inf v h1 h2).1]
      have hf := tokens_ident (w := cs! "inf") (by decide)
      cases gt v (lit 0) with
      | true => exact hf
      | false => exact tokens_minus hf (c := 'i') rfl (by decide) (by decide)
    | false => exact tokens_numberAtom v h1 h2

theorem scalarOf_number [CppText S] (s : Scope S) (v : S) (h1 : Op.isNaN v = false) (h2 : Op.isInf v = false) :
    scalarOf s (numberAtom v) = some (reread v) := by
  obtain ⟨n, t, y, e1, e2, e3, e4, e5, e6⟩ := numberAtom_cases v h1 h2
  rw [e1, e6]
  simp [scalarOf, e4, e5]

theorem scalarOf_scalarAtom [CppText S] (s : Scope S) (v : S) : scalarOf s (scalarAtom v) = some (reread v) := by
  unfold scalarAtom
  cases h1 : Op.isNaN v with
  | true =>
    rw [(CppText.nan v h1).2]
    simp [scalarOf]
  | false =>
    simp only [Bool.false_eq_true, if_false]
    cases h2 : Op.isInf v with
    | true =>
      rw [(CppText.inf v h1 h2).2]
      cases hg : gt v (lit 0) <;> simp [scalarOf, Scope.finds]
    | false => exact scalarOf_number s v h1 h2

theorem scalarOf_plainAtom [CppText S] (s : Scope S) (v : S) (h1 : Op.isNaN v = false)
    (hi : Op.isInf v = true → s.opened = true ∧ s.declared (cs! "inf") = false) : scalarOf s (plainAtom v) = some (reread v) := by
  unfold plainAtom
  simp only [h1, Bool.false_eq_true, if_false]
  cases h2 : Op.isInf v with
  | true =>
    rw [(CppText.inf v h1 h2).2]
    obtain ⟨ho, hs⟩ := hi h2
    cases hg : gt v (lit 0) <;> simp [scalarOf, Scope.finds, ho, hs]
  | false => exact scalarOf_number s v h1 h2

theorem isScalar_plainAtom [CppText S] (v : S) : isScalar (plainAtom v) = true := by
  unfold plainAtom
  cases h1 : Op.isNaN v with
  | true => rfl
  | false =>
    simp only [Bool.false_eq_true, if_false]
    cases h2 : Op.isInf v with
    | true => rfl
    | false =>
      obtain ⟨n, t, y, e1, e2, e3, e4, -⟩ := numberAtom_cases v h1 h2
      simp only [Bool.false_eq_true, if_false, e1]
      exact e4

/-! ### integers -/

/-- the literal for an integer -/
def intAtom : Int → Atom
  | .ofNat n => .number false (Nat.toDigits 10 n)
  | .negSucc n => .number true (Nat.toDigits 10 (n + 1))

theorem isDigit_eq (c : Char) : isDigit c = c.isDigit := by
  unfold isDigit Char.isDigit
  congr 1

theorem digits_number (n : Nat) : IsNumber (Nat.toDigits 10 n) := by
  have hd : ∀ c ∈ Nat.toDigits 10 n, isDigit c = true := fun c hc => by
    rw [isDigit_eq]; exact Decimal.digits_isDigit n c hc
  cases h : Nat.toDigits 10 n with
  | nil => exact absurd h Nat.toDigits_ne_nil
  | cons c r => exact ⟨⟨c, rfl, hd c (by rw [h]; simp)⟩, fun d hm => .inl (hd d (by rw [h]; exact hm))⟩

theorem tokens_int (n : Int) : Tokens (intText n) (intAtom n).tokens := by
  cases n with
  | ofNat n => exact tokens_number (digits_number n)
  | negSucc n =>
    have h := digits_number (n + 1)
    obtain ⟨⟨c, hc, hd⟩, -⟩ := h
    refine tokens_minus (tokens_number (digits_number (n + 1))) hc ?_ ?_ <;> (rintro rfl; exact absurd hd (by decide))

theorem digits_first (n : Nat) (h : n ≠ 0) : (Nat.toDigits 10 n).head? ≠ some '0' := by
  induction n using Nat.strong_induction_on with
  | _ n ih =>
    rcases Nat.lt_or_ge n 10 with hn | hn
    · rw [Nat.toDigits_of_lt_base hn]
      have : ∀ n < 10, n ≠ 0 → [n.digitChar].head? ≠ some '0' := by decide
      exact this n hn h
    · rw [Nat.toDigits_of_base_le (by norm_num) hn]
      have h1 := ih (n / 10) (by omega) (by omega)
      cases hd : Nat.toDigits 10 (n / 10) with
      | nil => exact absurd hd Nat.toDigits_ne_nil
      | cons c r => rw [hd] at h1; simpa using h1

theorem whole_digits (n : Nat) : whole (Nat.toDigits 10 n) = some n := by
  unfold whole
  have h1 : (Nat.toDigits 10 n).all isDigit = true := List.all_eq_true.2 fun c hc => by
    rw [isDigit_eq]; exact Decimal.digits_isDigit n c hc
  have h2 : ((Nat.toDigits 10 n).length == 1 || (Nat.toDigits 10 n).head? != some '0') = true := by
    rcases Nat.eq_zero_or_pos n with rfl | hn
    · rfl
    · simp [digits_first n (by omega)]
  have h3 : (Nat.toDigits 10 n).isEmpty = false := by
    cases h : Nat.toDigits 10 n with
    | nil => exact absurd h Nat.toDigits_ne_nil
    | cons => rfl
  rw [h1, h2, h3]
  simp only [Bool.and_self, Bool.not_false, if_true]
  have := Decimal.readNat_digits n
  unfold Decimal.readNat Decimal.digits at this
  rw [← this]
  congr 2
  · funext a c
    unfold Decimal.digit
    ring
  · rw [this]

theorem intOf_number (n : Bool) (s : Str) (k : Nat) (hs : whole s = some k) (i : Int) (hi : (if n then -(k : Int) else k) = i)
    (h : Fll.IsInt i) : intOf (.number n s) = some i := by
  subst hi
  have : intOf (.number n s) = (whole s).bind fun k =>
      if -2147483648 ≤ (if n then -(k : Int) else k) ∧ (if n then -(k : Int) else k) ≤ 2147483647 then
        some (if n then -(k : Int) else k) else none := rfl
  rw [this, hs]
  exact if_pos h

theorem intOf_intAtom (n : Int) (h : Fll.IsInt n) : intOf (intAtom n) = some n := by
  cases n with
  | ofNat n => exact intOf_number false _ n (whole_digits n) _ rfl h
  | negSucc n => exact intOf_number true _ (n + 1) (whole_digits (n + 1)) _ rfl h

/-! ### arguments -/

theorem tokens_join (ss : List Str) (as : List Atom) (h : List.Forall₂ (fun s a => Tokens s a.tokens) ss as) (hn : ss ≠ []) :
    Tokens (Op.join ss (cs! ", ")) (commaTokens as) := by
  induction h with
  | nil => exact absurd rfl hn
  | cons h1 h2 ih =>
    cases h2 with
    | nil => simpa [Op.join, commaTokens] using h1
    | cons h3 h4 =>
      have hw : Whole (cs! ", ") [.sign (cs! ",")] := rfl
      have := h1.append (c := ',') rfl (hw.tokens_append (ih (by simp)))
      rw [commaTokens]
      · simpa [Op.join] using this
      · simp

theorem args_new (x : CppExporter) (c : Str) (hc : IsIdent c) : IsArgs (cs! "new " ++ x.fl c) (.new x.usingNamespace c []) := by
  refine ⟨?_, trivial⟩
  have h1 : Whole (cs! "new ") [.ident (cs! "new")] := rfl
  have := h1.tokens_append (tokens_path x c hc)
  simpa [Args.tokens] using this

theorem args_newOf (q : Bool) (c path s : Str) (hp : Tokens path (pathTokens q c)) (as : List Atom) (h0 : as ≠ [])
    (h : Tokens s (commaTokens as)) : IsArgs (cs! "new " ++ path ++ cs! "(" ++ s ++ cs! ")") (.new q c as) := by
  refine ⟨?_, trivial⟩
  have h1 : Whole (cs! "new ") [.ident (cs! "new")] := rfl
  have h2 : Whole (cs! ")") [.sign (cs! ")")] := rfl
  have h3 : Whole (cs! "(") [.sign (cs! "(")] := rfl
  have := h1.append (hp.whole (c := '(') rfl (h3.append (h.whole (c := ')') rfl h2)))
  simp only [Args.tokens, h0, if_false]
  simpa [List.append_assoc] using this.tokens

theorem args_call (x : CppExporter) (c f s : Str) (hc : IsIdent c) (hf : IsIdent f) (as : List Atom)
    (hn : c ≠ cs! "fl" ∧ c ≠ cs! "new") (h : Tokens s (commaTokens as)) :
    IsArgs (x.fl c ++ cs! "::" ++ f ++ cs! "(" ++ s ++ cs! ")") (.call x.usingNamespace c f as) := by
  refine ⟨?_, hn⟩
  have h2 : Whole (cs! ")") [.sign (cs! ")")] := rfl
  have h3 : Whole (cs! "(") [.sign (cs! "(")] := rfl
  have h4 : Whole (cs! "::") [.sign (cs! "::")] := rfl
  have := (tokens_path x c hc).whole (c := ':') rfl
    (h4.append ((tokens_ident hf).whole (c := '(') rfl (h3.append (h.whole (c := ')') rfl h2))))
  simpa [Args.tokens, List.append_assoc] using this.tokens

theorem args_atom (s : Str) (a : Atom) (h : Tokens s a.tokens) (hn : ∀ q t, a = .name false q t → t ≠ cs! "new") :
    IsArgs s (.atoms [a]) :=
  ⟨h, fun q t ht => hn q t (by simpa using ht)⟩

/-! ### components of engines -/

/-- the numbers that a parametric shape with a height is written with -/
def shapeValues (h : S) (sh : Shape S) : List S := sh.written ++ if Op.isEq h (lit 1) then [] else [h]

/-- the argument written for a term -/
def termArgs (x : CppExporter) (t : Term S) : Args :=
  match t.kind with
  | .discrete xy => .call x.usingNamespace (cs! "Discrete") (cs! "create")
      (.text t.name :: intAtom (xy.length * 2 : Nat) :: (Discrete.toVector xy).map plainAtom)
  | .function f => .call x.usingNamespace (cs! "Function") (cs! "create") [.text t.name, .text f.formula, .name false false (cs! "engine")]
  | .linear c _ => .call x.usingNamespace (cs! "Linear") (cs! "create") (.text t.name :: .name false false (cs! "engine") :: c.map plainAtom)
  | .constant v => .new x.usingNamespace (cs! "Constant") [.text t.name, plainAtom v]
  | .shape sh => .new x.usingNamespace sh.className (.text t.name :: (shapeValues t.height sh).map plainAtom)

/-- a term whose text can be parsed -/
structure TermText (t : Term S) : Prop where
  name : Plain t.name
  formula : ∀ f, t.kind = .function f → Plain f.formula
  discrete : t.kind ≠ .discrete []
  linear : ∀ b, t.kind ≠ .linear [] b

theorem tokens_text {s : Str} (h : Plain s) : Tokens (CppExporter.quoted s) (Atom.text s).tokens := (whole_quoted h).tokens

theorem forall₂_str [CppText S] (xs : List S) :
    List.Forall₂ (fun s a => Tokens s (Atom.tokens a)) (xs.map ScalarText.str) (xs.map plainAtom) := by
  induction xs with
  | nil => exact .nil
  | cons x xs ih => exact .cons (tokens_str x) ih

theorem join_cons (w : Str) (ws : List Str) (h : ws ≠ []) (sep : Str) : Op.join (w :: ws) sep = w ++ sep ++ Op.join ws sep := by
  cases ws with
  | nil => exact absurd rfl h
  | cons v ws => rfl

theorem join_snoc (ws : List Str) (h : ws ≠ []) (w sep : Str) : Op.join (ws ++ [w]) sep = Op.join ws sep ++ (sep ++ w) := by
  induction ws with
  | nil => exact absurd rfl h
  | cons v ws ih =>
    cases ws with
    | nil => simp [Op.join]
    | cons u ws =>
      rw [List.cons_append, join_cons v ((u :: ws) ++ [w]) (by simp), ih (by simp), join_cons v (u :: ws) (by simp)]
      simp [List.append_assoc]

theorem shape_parameters (t : Term S) (sh : Shape S) (hk : t.kind = .shape sh) :
    t.parameters = Op.join ((shapeValues t.height sh).map ScalarText.str) (cs! " ") := by
  have hw : sh.written.map ScalarText.str ≠ [] := by cases sh <;> simp [Shape.written]
  unfold Term.parameters shapeValues
  rw [hk]
  simp only
  split_ifs
  · simp
  · rw [List.map_append, List.map_singleton, join_snoc _ hw]

theorem shape_ident (sh : Shape S) : IsIdent sh.className := by
  cases sh <;> (simp only [Shape.className]; decide)

theorem shapeValues_ne (h : S) (sh : Shape S) : shapeValues h sh ≠ [] := by
  cases sh <;> simp [shapeValues, Shape.written]

theorem args_term [CppText S] (x : CppExporter) (t : Term S) (h : TermText t) : IsArgs (x.term t) (termArgs x t) := by
  have hq := tokens_text h.name
  have word : ∀ v : S, Op.NoBlank (ScalarText.str v) := fun v => (Fll.str_word v).2.1
  have he : Tokens (cs! "engine") (Atom.name false false (cs! "engine")).tokens := tokens_ident (by decide)
  unfold CppExporter.term termArgs
  cases hk : t.kind with
  | discrete xy =>
    simp only [Term.className, hk]
    have hv : (Discrete.toVector xy).map ScalarText.str ≠ [] := by
      have : xy ≠ [] := by rintro rfl; exact h.discrete hk
      cases xy with
      | nil => exact absurd rfl this
      | cons p xy => simp [Discrete.toVector]
    have := args_call x (cs! "Discrete") (cs! "create") _ (by decide) (by decide) _ (by decide)
      (tokens_join _ _ (.cons hq (.cons (tokens_int (xy.length * 2 : Nat)) (forall₂_str (Discrete.toVector xy)))) (by simp))
    rw [join_cons _ _ (by simp), join_cons _ _ hv] at this
    simpa [List.append_assoc] using this
  | function f =>
    simp only [Term.className, hk]
    have := args_call x (cs! "Function") (cs! "create") _ (by decide) (by decide) _ (by decide)
      (tokens_join _ _ (.cons hq (.cons (tokens_text (h.formula f hk)) (.cons he .nil))) (by simp))
    simpa [List.append_assoc, Op.join] using this
  | linear c b =>
    simp only [Term.className, hk]
    have hv : c.map ScalarText.str ≠ [] := by
      cases c with
      | nil => exact absurd hk (h.linear b)
      | cons => simp
    have := args_call x (cs! "Linear") (cs! "create") _ (by decide) (by decide) _ (by decide)
      (tokens_join _ _ (.cons hq (.cons he (forall₂_str c))) (by simp))
    rw [join_cons _ _ (by simp), join_cons _ _ hv] at this
    simpa [List.append_assoc] using this
  | constant v =>
    have hp : CppExporter.commas t.parameters = Op.join [ScalarText.str v] (cs! ", ") := by
      have := Op.commas_join [ScalarText.str v] (by simpa using word v)
      rw [← this]
      simp [CppExporter.commas, Term.parameters, hk, Op.join]
    simp only [Term.className, hk, hp]
    have := args_newOf _ (cs! "Constant") _ _ (tokens_path x _ (by decide)) _ (by simp)
      (tokens_join _ _ (.cons hq (.cons (tokens_str v) .nil)) (by simp))
    simpa [List.append_assoc, Op.join] using this
  | shape sh =>
    have hv : (shapeValues t.height sh).map ScalarText.str ≠ [] := by simpa using shapeValues_ne t.height sh
    have hp : CppExporter.commas t.parameters = Op.join ((shapeValues t.height sh).map ScalarText.str) (cs! ", ") := by
      rw [← Op.commas_join _ (by intro w hw; obtain ⟨v, -, rfl⟩ := List.mem_map.1 hw; exact word v), shape_parameters t sh hk]
      rfl
    simp only [Term.className, hk, hp]
    have := args_newOf _ sh.className _ _ (tokens_path x _ (shape_ident sh)) _ (by simp)
      (tokens_join _ _ (.cons hq (forall₂_str (shapeValues t.height sh))) (by simp))
    rw [join_cons _ _ hv] at this
    simpa [List.append_assoc] using this

def nullArgs : Args := .atoms [.name false true (cs! "null")]

theorem args_null : IsArgs (cs! "fl::null") nullArgs :=
  args_atom _ _ (tokens_fl (cs! "null") (by decide)) (by rintro q t ⟨⟩; decide)

def tnormArgs (x : CppExporter) : Option (TNorm S) → Args
  | none => nullArgs
  | some k => .new x.usingNamespace k.className []

theorem args_tnorm (x : CppExporter) (k : Option (TNorm S)) : IsArgs (x.tnorm k) (tnormArgs x k) := by
  cases k with
  | none => exact args_null
  | some k =>
    refine args_new x _ ?_
    cases k with
    | builtin k => simp only [TNorm.className]; cases k <;> decide
    | function f => simp only [TNorm.className]; decide

def snormArgs (x : CppExporter) : Option (SNorm S) → Args
  | none => nullArgs
  | some k => .new x.usingNamespace k.className []

theorem args_snorm (x : CppExporter) (k : Option (SNorm S)) : IsArgs (x.snorm k) (snormArgs x k) := by
  cases k with
  | none => exact args_null
  | some k =>
    refine args_new x _ ?_
    cases k with
    | builtin k => simp only [SNorm.className]; cases k <;> decide
    | function f => simp only [SNorm.className]; decide

def defuzzifierArgs (x : CppExporter) : Option Defuzzifier → Args
  | none => nullArgs
  | some (.integral k r) => .new x.usingNamespace k.className [intAtom r]
  | some (.weighted k t) => .new false k.className [.text t.typeName]

theorem args_defuzzifier (x : CppExporter) (d : Option Defuzzifier) : IsArgs (x.defuzzifier d) (defuzzifierArgs x d) := by
  cases d with
  | none => exact args_null
  | some d =>
    cases d with
    | integral k r => exact args_newOf _ _ _ _ (tokens_path x _ (by cases k <;> decide)) [_] (by simp) (tokens_int r)
    | weighted k t =>
      exact args_newOf false _ _ _ (tokens_ident (by cases k <;> decide)) [.text _] (by simp)
        (tokens_text (by cases t <;> decide))

/-- the atoms written for the parameters of an activation method -/
def activationAtoms : Activation S → List Atom
  | .general => []
  | .proportional => []
  | .first n t => [intAtom n, plainAtom t]
  | .last n t => [intAtom n, plainAtom t]
  | .highest n => [intAtom n]
  | .lowest n => [intAtom n]
  | .threshold c v => [.text c.operator, plainAtom v]

def activationArgs (x : CppExporter) : Option (Activation S) → Args
  | none => nullArgs
  | some a => .new x.usingNamespace a.className (activationAtoms a)

/-- the number of rules of an activation method is of type `int` -/
def IntActivation (a : Option (Activation S)) : Prop :=
  ∀ n t, a = some (.first n t) ∨ a = some (.last n t) ∨ a = some (.highest n) ∨ a = some (.lowest n) → Fll.IsInt n

theorem operator_quoted [CppText S] (c : Comparison) : (ScalarText.ofText c.operator : Option S) = none := by
  by_contra h
  cases c <;> exact absurd (PlainText.head (S := S) _ _ h) (by decide)

theorem activation_ident (a : Activation S) : IsIdent a.className := by
  cases a <;> (simp only [Activation.className]; decide)

theorem args_activation [CppText S] (x : CppExporter) (a : Option (Activation S)) (h : IntActivation a) :
    IsArgs (x.activation a) (activationArgs x a) := by
  cases a with
  | none => exact args_null
  | some a =>
    have key : ∀ (ws : List Str) (as : List Atom), ws ≠ [] → a.parameters = Op.join ws (cs! " ") →
        (∀ w ∈ ws, w ≠ [] ∧ Op.NoBlank w) → as = activationAtoms a →
        List.Forall₂ (fun s a => Tokens s (Atom.tokens a))
          (ws.map fun v => if (ScalarText.ofText v : Option S).isSome then v else CppExporter.quoted v) as →
        IsArgs (x.activation (some a)) (activationArgs x (some a)) := by
      intro ws as h0 hp hw ha hf
      subst ha
      have ht : Op.trim a.parameters = Op.join ws (cs! " ") := by rw [hp]; exact Op.trim_words ws hw
      have hne : Op.join ws (cs! " ") ≠ [] := Op.join_ne_nil _ _ h0 fun w hm => (hw w hm).1
      have hne' : activationAtoms a ≠ [] := by
        rintro e
        rw [e] at hf
        cases ws with
        | nil => exact h0 rfl
        | cons => cases hf
      unfold CppExporter.activation
      simp only [ht]
      rw [if_neg (by simpa using hne), Op.split_words _ h0 hw]
      exact args_newOf _ _ _ _ (tokens_path x _ (activation_ident a)) _ hne' (tokens_join _ _ hf (by simpa using h0))
    have num : ∀ v : S, (if (ScalarText.ofText (ScalarText.str v) : Option S).isSome then ScalarText.str v
        else CppExporter.quoted (ScalarText.str v)) = ScalarText.str v := fun v => by rw [ofText_str]; rfl
    have int : ∀ n, Fll.IsInt n → (if (ScalarText.ofText (intText n) : Option S).isSome then intText n
        else CppExporter.quoted (intText n)) = intText n := fun n hn => by
      obtain ⟨y, hy⟩ := CppText.int (S := S) n hn.1 hn.2
      rw [hy]; rfl
    have wi : ∀ n, intText n ≠ [] ∧ Op.NoBlank (intText n) := fun n => ⟨(Fll.intText_word n).1, (Fll.intText_word n).2.1⟩
    have ws : ∀ v : S, ScalarText.str v ≠ [] ∧ Op.NoBlank (ScalarText.str v) := fun v => ⟨(Fll.str_word v).1, (Fll.str_word v).2.1⟩
    cases a with
    | general => exact args_new x _ (activation_ident _)
    | proportional => exact args_new x _ (activation_ident _)
    | first n t =>
      refine key [intText n, ScalarText.str t] _ (by simp) (by simp [Activation.parameters, Op.join]) (by simp [wi, ws]) rfl ?_
      simp only [List.map_cons, List.map_nil, num, int n (h n t (by simp))]
      exact .cons (tokens_int n) (.cons (tokens_str t) .nil)
    | last n t =>
      refine key [intText n, ScalarText.str t] _ (by simp) (by simp [Activation.parameters, Op.join]) (by simp [wi, ws]) rfl ?_
      simp only [List.map_cons, List.map_nil, num, int n (h n t (by simp))]
      exact .cons (tokens_int n) (.cons (tokens_str t) .nil)
    | highest n =>
      refine key [intText n] _ (by simp) (by simp [Activation.parameters, Op.join]) (by simp [wi]) rfl ?_
      simp only [List.map_cons, List.map_nil, int n (h n (lit 0) (by simp))]
      exact .cons (tokens_int n) .nil
    | lowest n =>
      refine key [intText n] _ (by simp) (by simp [Activation.parameters, Op.join]) (by simp [wi]) rfl ?_
      simp only [List.map_cons, List.map_nil, int n (h n (lit 0) (by simp))]
      exact .cons (tokens_int n) .nil
    | threshold c v =>
      have ho := Fll.operator_word c
      refine key [c.operator, ScalarText.str v] _ (by simp) (by simp [Activation.parameters, Op.join]) (by simp [ho, ws]) rfl ?_
      simp only [List.map_cons, List.map_nil, num, operator_quoted (S := S) c, Option.isSome_none, Bool.false_eq_true, if_false]
      exact .cons (tokens_text (by cases c <;> decide)) (.cons (tokens_str v) .nil)

/-! ### the statements -/

theorem lines_declaration (x : CppExporter) (c n : Str) (hc : IsIdent c) (hn : IsIdent n) :
    Lines (x.declaration c n) [.declare x.usingNamespace c n x.usingNamespace c] := by
  refine ⟨?_, fun st hst => by rw [List.mem_singleton.1 hst]; trivial⟩
  have hp := tokens_path x c hc
  have h1 : Whole (cs! ";\n") [semicolon] := rfl
  have h2 : Whole (cs! " = new ") [.sign (cs! "="), .ident (cs! "new")] := rfl
  have h3 : Whole (cs! "* ") [.sign (cs! "*")] := rfl
  have := hp.whole (c := '*') rfl (h3.append ((tokens_ident hn).whole (c := ' ') rfl (h2.append (hp.whole (c := ';') rfl h1))))
  have e : ∀ r, x.fl (c ++ r) = x.fl c ++ r := by intro r; unfold CppExporter.fl; split_ifs <;> simp
  unfold CppExporter.declaration
  rw [e, e]
  simpa [Stmt.tokens, List.append_assoc] using this

theorem args_text {s : Str} (h : Plain s) : IsArgs (CppExporter.quoted s) (.atoms [.text s]) :=
  args_atom _ _ (whole_quoted h).tokens (by simp)

/-- the arguments for a truth value -/
def boolArgs (b : Bool) : Args := .atoms [.name false false (FllExporter.bool b)]

theorem args_bool (b : Bool) : IsArgs (FllExporter.bool b) (boolArgs b) := by
  cases b <;> exact args_atom _ _ (tokens_ident (by decide)) (by rintro q t ⟨⟩; decide)

theorem args_name {n : Str} (h : IsIdent n) (hk : n ∉ keywords) : IsArgs n (.atoms [.name false false n]) :=
  args_atom _ _ (tokens_ident h) (by rintro q t ⟨⟩ rfl; exact hk (by decide))

theorem scalarAtom_name (v : S) (q : Bool) (t : Str) (h : scalarAtom v = .name false q t) : t ≠ cs! "new" := by
  unfold scalarAtom numberAtom at h
  split_ifs at h
  · obtain ⟨-, -, rfl⟩ := Atom.name.inj h; decide
  · obtain ⟨-, -, rfl⟩ := Atom.name.inj h; decide
  · split at h <;> simp at h

theorem args_scalar [CppText S] (v : S) : IsArgs (CppExporter.scalar v) (.atoms [scalarAtom v]) :=
  args_atom _ _ (tokens_scalar v) (scalarAtom_name v)

theorem args_range [CppText S] (a b : S) :
    IsArgs (CppExporter.scalar a ++ cs! ", " ++ CppExporter.scalar b) (.atoms [scalarAtom a, scalarAtom b]) := by
  refine ⟨?_, fun q t ht => scalarAtom_name a q t (by simpa using ht)⟩
  have := tokens_join _ _ (.cons (tokens_scalar a) (.cons (tokens_scalar b) .nil)) (by simp)
  simpa [Op.join, Args.tokens] using this

/-- the statements for an input variable -/
def inputStmts (x : CppExporter) (n : Str) (v : Variable S) : List Stmt :=
  [.declare x.usingNamespace (cs! "InputVariable") n x.usingNamespace (cs! "InputVariable"),
   .call n (cs! "setName") (.atoms [.text v.name]),
   .call n (cs! "setDescription") (.atoms [.text v.description]),
   .call n (cs! "setEnabled") (boolArgs v.enabled),
   .call n (cs! "setRange") (.atoms [scalarAtom v.minimum, scalarAtom v.maximum]),
   .call n (cs! "setLockValueInRange") (boolArgs v.lockRange)]
  ++ v.terms.map (fun t => .call n (cs! "addTerm") (termArgs x t))
  ++ [.call (cs! "engine") (cs! "addInputVariable") (.atoms [.name false false n])]

/-- the statements for an output variable, with the arguments `d` for its defuzzifier -/
def outputStmtsOf (x : CppExporter) (d : Args) (n : Str) (v : OutputVariable S) : List Stmt :=
  [.declare x.usingNamespace (cs! "OutputVariable") n x.usingNamespace (cs! "OutputVariable"),
   .call n (cs! "setName") (.atoms [.text v.name]),
   .call n (cs! "setDescription") (.atoms [.text v.description]),
   .call n (cs! "setEnabled") (boolArgs v.enabled),
   .call n (cs! "setRange") (.atoms [scalarAtom v.minimum, scalarAtom v.maximum]),
   .call n (cs! "setLockValueInRange") (boolArgs v.lockRange),
   .call n (cs! "setAggregation") (snormArgs x v.fuzzy.aggregation),
   .call n (cs! "setDefuzzifier") d,
   .call n (cs! "setDefaultValue") (.atoms [scalarAtom v.default]),
   .call n (cs! "setLockPreviousValue") (boolArgs v.lockPrevious)]
  ++ v.terms.map (fun t => .call n (cs! "addTerm") (termArgs x t))
  ++ [.call (cs! "engine") (cs! "addOutputVariable") (.atoms [.name false false n])]

/-- the statements for an output variable -/
def outputStmts (x : CppExporter) (n : Str) (v : OutputVariable S) : List Stmt :=
  outputStmtsOf x (defuzzifierArgs x v.defuzzifier) n v

/-- the argument for a rule -/
def ruleArgs (x : CppExporter) (r : Rule S) : Args :=
  .call x.usingNamespace (cs! "Rule") (cs! "parse") [.text r.text, .name false false (cs! "engine")]

/-- the statements for a rule block -/
def blockStmts (x : CppExporter) (n : Str) (b : RuleBlock S) : List Stmt :=
  [.declare x.usingNamespace (cs! "RuleBlock") n x.usingNamespace (cs! "RuleBlock"),
   .call n (cs! "setName") (.atoms [.text b.name]),
   .call n (cs! "setDescription") (.atoms [.text b.description]),
   .call n (cs! "setEnabled") (boolArgs b.enabled),
   .call n (cs! "setConjunction") (tnormArgs x b.conjunction),
   .call n (cs! "setDisjunction") (snormArgs x b.disjunction),
   .call n (cs! "setImplication") (tnormArgs x b.implication),
   .call n (cs! "setActivation") (activationArgs x b.activation)]
  ++ b.rules.map (fun r => .call n (cs! "addRule") (ruleArgs x r))
  ++ [.call (cs! "engine") (cs! "addRuleBlock") (.atoms [.name false false n])]

theorem lines_terms [CppText S] (x : CppExporter) (n : Str) (hn : IsIdent n) (ts : List (Term S)) (h : ∀ t ∈ ts, TermText t) :
    Lines (ts.flatMap fun t => CppExporter.call n (cs! "addTerm") (x.term t)) (ts.map fun t => .call n (cs! "addTerm") (termArgs x t)) := by
  rw [List.map_eq_flatMap]
  exact lines_flatMap _ _ ts fun t ht => line_call hn (by decide) (args_term x t (h t ht))

theorem lines_input [CppText S] (x : CppExporter) (n : Str) (v : Variable S) (hn : IsIdent n) (hk : n ∉ keywords) (h1 : Plain v.name)
    (h2 : Plain v.description) (h3 : ∀ t ∈ v.terms, TermText t) : Lines (x.inputVariable n v) (inputStmts x n v) := by
  have := (((((((lines_declaration x (cs! "InputVariable") n (by decide) hn).append
    (line_call hn (m := cs! "setName") (by decide) (args_text h1))).append
    (line_call hn (m := cs! "setDescription") (by decide) (args_text h2))).append
    (line_call hn (m := cs! "setEnabled") (by decide) (args_bool v.enabled))).append
    (line_call hn (m := cs! "setRange") (by decide) (args_range v.minimum v.maximum))).append
    (line_call hn (m := cs! "setLockValueInRange") (by decide) (args_bool v.lockRange))).append
    (lines_terms x n hn v.terms h3)).append
    (line_call (x := cs! "engine") (m := cs! "addInputVariable") (by decide) (by decide) (args_name hn hk))
  exact this

theorem lines_output [CppText S] (x : CppExporter) (n : Str) (v : OutputVariable S) (hn : IsIdent n) (hk : n ∉ keywords) (h1 : Plain v.name)
    (h2 : Plain v.description) (h3 : ∀ t ∈ v.terms, TermText t) : Lines (x.outputVariable n v) (outputStmts x n v) := by
  have := (((((((((((lines_declaration x (cs! "OutputVariable") n (by decide) hn).append
    (line_call hn (m := cs! "setName") (by decide) (args_text h1))).append
    (line_call hn (m := cs! "setDescription") (by decide) (args_text h2))).append
    (line_call hn (m := cs! "setEnabled") (by decide) (args_bool v.enabled))).append
    (line_call hn (m := cs! "setRange") (by decide) (args_range v.minimum v.maximum))).append
    (line_call hn (m := cs! "setLockValueInRange") (by decide) (args_bool v.lockRange))).append
    (line_call hn (m := cs! "setAggregation") (by decide) (args_snorm x v.fuzzy.aggregation))).append
    (line_call hn (m := cs! "setDefuzzifier") (by decide) (args_defuzzifier x v.defuzzifier))).append
    (line_call hn (m := cs! "setDefaultValue") (by decide) (args_scalar v.default))).append
    (line_call hn (m := cs! "setLockPreviousValue") (by decide) (args_bool v.lockPrevious))).append
    (lines_terms x n hn v.terms h3)).append
    (line_call (x := cs! "engine") (m := cs! "addOutputVariable") (by decide) (by decide) (args_name hn hk))
  exact this

theorem args_rule (x : CppExporter) (r : Rule S) (h : Plain r.text) :
    IsArgs (x.fl (cs! "Rule") ++ cs! "::parse(" ++ CppExporter.quoted r.text ++ cs! ", engine)") (ruleArgs x r) := by
  have he : Tokens (cs! "engine") (Atom.name false false (cs! "engine")).tokens := tokens_ident (by decide)
  have := args_call x (cs! "Rule") (cs! "parse") _ (by decide) (by decide) _ (by decide)
    (tokens_join _ _ (.cons (tokens_text h) (.cons he .nil)) (by simp))
  simpa [List.append_assoc, Op.join, ruleArgs] using this

theorem lines_block [CppText S] (x : CppExporter) (n : Str) (b : RuleBlock S) (hn : IsIdent n) (hk : n ∉ keywords) (h1 : Plain b.name)
    (h2 : Plain b.description) (h3 : ∀ r ∈ b.rules, Plain r.text) (h4 : IntActivation b.activation) :
    Lines (x.ruleBlock n b) (blockStmts x n b) := by
  have hr : Lines (b.rules.flatMap fun r => CppExporter.call n (cs! "addRule")
      (x.fl (cs! "Rule") ++ cs! "::parse(" ++ CppExporter.quoted r.text ++ cs! ", engine)")) (b.rules.map fun r => .call n (cs! "addRule") (ruleArgs x r)) := by
    rw [List.map_eq_flatMap]
    exact lines_flatMap _ _ b.rules fun r hr => line_call hn (by decide) (args_rule x r (h3 r hr))
  have := (((((((((lines_declaration x (cs! "RuleBlock") n (by decide) hn).append
    (line_call hn (m := cs! "setName") (by decide) (args_text h1))).append
    (line_call hn (m := cs! "setDescription") (by decide) (args_text h2))).append
    (line_call hn (m := cs! "setEnabled") (by decide) (args_bool b.enabled))).append
    (line_call hn (m := cs! "setConjunction") (by decide) (args_tnorm x b.conjunction))).append
    (line_call hn (m := cs! "setDisjunction") (by decide) (args_snorm x b.disjunction))).append
    (line_call hn (m := cs! "setImplication") (by decide) (args_tnorm x b.implication))).append
    (line_call hn (m := cs! "setActivation") (by decide) (args_activation x b.activation h4))).append hr).append
    (line_call (x := cs! "engine") (m := cs! "addRuleBlock") (by decide) (by decide) (args_name hn hk))
  exact this

/-- the statements of components, with their positions -/
def indexed {α : Type} (f : Nat → α → List Stmt) : Nat → List α → List Stmt
  | _, [] => []
  | i, a :: as => f i a ++ indexed f (i + 1) as

theorem lines_components {α : Type} (f : Nat → α → Str) (g : Nat → α → List Stmt) (as : List α) (i : Nat)
    (h : ∀ (j : Nat) (a : α), as[j]? = some a → Lines (f (i + j) a) (g (i + j) a)) :
    Lines (CppExporter.components f i as) (indexed g i as) := by
  induction as generalizing i with
  | nil => exact lines_nil
  | cons a as ih =>
    have h0 := h 0 a rfl
    have h1 := ih (i + 1) fun j b hb => by
      have := h (j + 1) b (by simpa using hb)
      rwa [show i + (j + 1) = i + 1 + j by omega] at this
    have := (h0.append lines_newline).append h1
    simpa [CppExporter.components, indexed] using this

/-- the first statements -/
def engineStmts (x : CppExporter) (e : Engine S) : List Stmt :=
  (if x.usingNamespace then [] else [.usingNamespace])
  ++ [.declare x.usingNamespace (cs! "Engine") (cs! "engine") x.usingNamespace (cs! "Engine"),
      .call (cs! "engine") (cs! "setName") (.atoms [.text e.name]),
      .call (cs! "engine") (cs! "setDescription") (.atoms [.text e.description])]

theorem run_comment (s r : Str) (h : '\n' ∉ s) : run .comment (s ++ cs! "\n" ++ r) = run .blank r := by
  induction s with
  | nil =>
    rw [List.nil_append, List.cons_append, List.nil_append, run]
    show (Option.bind (run .blank r) fun q => some ([] ++ q.1, q.2)) = _
    simp
  | cons c s ih =>
    have hc : c ≠ '\n' := by rintro rfl; simp at h
    rw [List.cons_append, List.cons_append, run]
    have : step .comment c = some ([], .comment) := by simp [step, hc]
    rw [this]
    show (Option.bind (run .comment (s ++ cs! "\n" ++ r)) fun q => some ([] ++ q.1, q.2)) = _
    rw [ih (by simp at h; exact h.2)]
    simp

theorem lines_engine (x : CppExporter) (e : Engine S) (hl : '\n' ∉ x.library) (h1 : Plain e.name) (h2 : Plain e.description) :
    Lines (cs! "//Code automatically generated with " ++ x.library ++ cs! ".\n\n"
      ++ (if x.usingNamespace then [] else cs! "using namespace fuzzylite;\n\n")
      ++ x.fl (cs! "Engine* ") ++ cs! "engine = new " ++ x.fl (cs! "Engine;\n")
      ++ CppExporter.call (cs! "engine") (cs! "setName") (CppExporter.quoted e.name)
      ++ CppExporter.call (cs! "engine") (cs! "setDescription") (CppExporter.quoted e.description) ++ cs! "\n") (engineStmts x e) := by
  have hc : Lines (cs! "//Code automatically generated with " ++ x.library ++ cs! ".\n\n") [] := by
    refine ⟨?_, by simp⟩
    have e1 : cs! "//Code automatically generated with " ++ x.library ++ cs! ".\n\n" =
        cs! "//" ++ ((cs! "Code automatically generated with " ++ x.library ++ cs! ".") ++ cs! "\n" ++ cs! "\n") := by
      simp [List.append_assoc]
    unfold Whole
    rw [e1, run_append]
    show ((some ([], Mode.comment) : Option (List Token × Mode)).bind fun p => _) = _
    rw [Option.bind_some]
    simp only
    rw [run_comment]
    · rfl
    · simp only [List.mem_append, not_or]
      exact ⟨⟨by decide, hl⟩, by decide⟩
  have hu : Lines (if x.usingNamespace then [] else cs! "using namespace fuzzylite;\n\n")
      (if x.usingNamespace then [] else [.usingNamespace]) := by
    cases x.usingNamespace with
    | true => exact lines_nil
    | false => exact ⟨rfl, by simp [Stmt.Fair]⟩
  have := (((hc.append hu).append ((lines_declaration x (cs! "Engine") (cs! "engine") (by decide) (by decide)).append
    ((line_call (x := cs! "engine") (by decide) (m := cs! "setName") (by decide) (args_text h1)).append
    (line_call (x := cs! "engine") (by decide) (m := cs! "setDescription") (by decide) (args_text h2))))).append lines_newline)
  simpa [engineStmts, CppExporter.declaration, List.append_assoc] using this

end Cpp
end FL
