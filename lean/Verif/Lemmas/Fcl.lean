/-
Lines, words and numbers of the Fuzzy Control Language.
-/
import Verif.Model.Fcl
import Verif.Lemmas.Fll
import Verif.Lemmas.Decimal
import Verif.Props.Fll

namespace FL

/-- What is assumed, besides `LawfulText`, of the text of numbers in the theorems about the Fuzzy Control
Language: numbers are written with letters, digits, signs and points, no point is beside another one or at
an end, and what is read as a number begins with a digit, a sign, a point, or the first letter of `nan` or
`inf`.  `Ext ℚ` satisfies this (`instPlainTextRat`). -/
class PlainText (S : Type) [ScalarText S] : Prop extends LawfulText S where
  str_plain : ∀ x : S, ∀ c ∈ ScalarText.str x, isAlnum c = true ∨ c = '.' ∨ c = '-' ∨ c = '+'
  str_dots : ∀ x : S, ¬ cs! ".." <:+: cs! "." ++ ScalarText.str x ++ cs! "."
  head : ∀ (c : Char) (s : Str), (ScalarText.ofText (c :: s) : Option S) ≠ none →
    c.isDigit = true ∨ c ∈ cs! "+-.ni"

/-! ### two equal characters side by side -/

namespace Op

theorem twice_mem {c : Char} {s : Str} (h : [c, c] <:+: s) : c ∈ s := h.subset (by simp)

theorem twice_append (c : Char) (a b : Str) (ha : ¬ [c, c] <:+: a) (hb : ¬ [c, c] <:+: b)
    (h : a.getLast? ≠ some c ∨ b.head? ≠ some c) : ¬ [c, c] <:+: a ++ b := by
  induction a with
  | nil => simpa using hb
  | cons x a ih =>
    rw [List.cons_append, List.infix_cons_iff]
    rintro (hp | hi)
    · rw [List.cons_prefix_cons] at hp
      obtain ⟨rfl, hp⟩ := hp
      cases a with
      | nil =>
        cases b with
        | nil => simp at hp
        | cons y b =>
          rw [List.nil_append, List.cons_prefix_cons] at hp
          obtain ⟨rfl, -⟩ := hp
          simp at h
      | cons y a =>
        rw [List.cons_append, List.cons_prefix_cons] at hp
        obtain ⟨rfl, -⟩ := hp
        exact ha (List.infix_cons_iff.2 (.inl (by simp)))
    · refine ih (fun hi => ha (List.infix_cons_iff.2 (.inr hi))) ?_ hi
      rcases h with h | h
      · cases a with
        | nil => simp
        | cons y a => left; simpa using h
      · exact .inr h

theorem twice_free {c : Char} {s : Str} (h : c ∉ s) : ¬ [c, c] <:+: s := fun hi => h (twice_mem hi)

theorem twice_pad (c : Char) (a b d : Str) (ha : c ∉ a) (hb : ¬ [c, c] <:+: b) (hd : c ∉ d) :
    ¬ [c, c] <:+: a ++ b ++ d := by
  refine twice_append c _ _ (twice_append c _ _ (twice_free ha) hb (.inl fun h => ha (List.mem_of_getLast? h)))
    (twice_free hd) (.inr fun h => hd (List.mem_of_mem_head? h))

/-- a text without the delimiter is not split -/
theorem split_twice (c : Char) (s : Str) (h : ¬ [c, c] <:+: s) : split s [c, c] false = [s] := by
  unfold split
  split_ifs
  · rfl
  · have : search [c, c] s = none := by
      cases hs : search [c, c] s with
      | none => rfl
      | some pr => exact absurd ⟨pr.1, pr.2, (search_some _ (by simp) s pr.1 pr.2 hs).1.symm⟩ h
    rw [splitLoop, this]; simp

/-! ### blanks around -/

theorem words_pad (l m r : Str) (hl : l.all isSpace = true) (hr : r.all isSpace = true) : words (l ++ m ++ r) = words m := by
  have h1 : ∀ m, words (l ++ m) = words m := by
    intro m
    induction l with
    | nil => rfl
    | cons c l ih =>
      simp only [List.all_cons, Bool.and_eq_true] at hl
      rw [List.cons_append]
      have := ih hl.2
      unfold words at this ⊢
      simp [wordsAux, hl.1, this]
  rw [List.append_assoc, h1]
  cases r with
  | nil => simp
  | cons c r =>
    simp only [List.all_cons, Bool.and_eq_true] at hr
    rw [words_blank _ _ _ hr.1, words_blanks r hr.2, List.append_nil]

theorem words_trim (s : Str) : words (trim s) = words s := by
  obtain ⟨l, r, h, hl, hr⟩ := trim_spec s
  conv => rhs; rw [h]
  rw [words_pad _ _ _ hl hr]

theorem trim_blanks (l s : Str) (hl : l.all isSpace = true) : trim (l ++ s) = trim s := by
  rw [trim_def, trim_def, dropWhile_blanks l s hl]

/-- the first word stays at the beginning -/
theorem trim_word (k r : Str) (h0 : k ≠ []) (hk : NoBlank k) : ∃ s, trim (k ++ r) = k ++ s := by
  rw [trim_def]
  have h1 : (k ++ r).dropWhile isSpace = k ++ r := by
    cases k with
    | nil => exact absurd rfl h0
    | cons c k => simp [hk c (by simp)]
  have h2 : k.reverse.dropWhile isSpace = k.reverse := by
    cases h : k.reverse with
    | nil => rfl
    | cons c k' =>
      have : c ∈ k := by rw [← List.mem_reverse, h]; simp
      simp [hk c this]
  rw [h1, List.reverse_append, List.dropWhile_append]
  split_ifs with h
  · exact ⟨[], by rw [h2]; simp⟩
  · exact ⟨(r.reverse.dropWhile isSpace).reverse, by simp⟩

/-- the characters of the words, in order, are the characters that are not blank -/
theorem words_flatten (s : Str) : (words s).flatten = s.filter fun c => !isSpace c := by
  have : ∀ (s acc : Str), (wordsAux acc s).flatten = acc.reverse ++ s.filter fun c => !isSpace c := by
    intro s
    induction s with
    | nil =>
      intro acc
      unfold wordsAux
      split_ifs with h
      · have : acc = [] := by simpa using h
        simp [this]
      · simp
    | cons c s ih =>
      intro acc
      unfold wordsAux
      split_ifs with h1 h2
      · have : acc = [] := by simpa using h2
        simp [ih, this, h1]
      · simp [ih, h1]
      · simp [ih, h1]
  have h := this s []
  simpa [words] using h

theorem join_nil (ts : List Str) : join ts [] = ts.flatten := by
  induction ts with
  | nil => rfl
  | cons t ts ih =>
    cases ts with
    | nil => simp [join]
    | cons u us => rw [join_cons _ _ _ (by simp), ih]; simp

end Op

/-! ### lines -/

namespace Fcl

theorem lines_text (ls : List Str) (h : ∀ l ∈ ls, '\n' ∉ l) : FllImporter.lines (FclExporter.text ls) = ls := by
  induction ls with
  | nil => rfl
  | cons l ls ih =>
    have e : FclExporter.text (l :: ls) = l ++ '\n' :: FclExporter.text ls := by simp [FclExporter.text]
    rw [e, FllImporter.lines, FllImporter.linesAux_piece _ _ _ (h l (by simp))]
    have := ih fun z hz => h z (List.mem_cons_of_mem _ hz)
    rw [FllImporter.lines] at this
    rw [this]; rfl

/-- a text that a line can hold: without comments, semicolons and line feeds -/
structure Core (s : Str) : Prop where
  semicolon : ';' ∉ s
  hash : '#' ∉ s
  slashes : ¬ cs! "//" <:+: s
  feed : '\n' ∉ s

instance (s : Str) : Decidable (Core s) :=
  decidable_of_iff (';' ∉ s ∧ '#' ∉ s ∧ ¬ cs! "//" <:+: s ∧ '\n' ∉ s)
    ⟨fun h => ⟨h.1, h.2.1, h.2.2.1, h.2.2.2⟩, fun h => ⟨h.semicolon, h.hash, h.slashes, h.feed⟩⟩

theorem Core.append {a b : Str} (ha : Core a) (hb : Core b) (h : '/' ∉ a ∨ '/' ∉ b) : Core (a ++ b) := by
  refine ⟨?_, ?_, ?_, ?_⟩
  · simp [ha.semicolon, hb.semicolon]
  · simp [ha.hash, hb.hash]
  · refine Op.twice_append '/' a b ha.slashes hb.slashes ?_
    rcases h with h | h
    · exact .inl fun hl => h (List.mem_of_getLast? hl)
    · exact .inr fun hl => h (List.mem_of_mem_head? hl)
  · simp [ha.feed, hb.feed]

theorem blanks_free {l : Str} (hl : l.all isSpace = true) {c : Char} (hc : isSpace c = false) : c ∉ l := by
  intro h
  have := List.all_eq_true.1 hl c h
  rw [hc] at this
  exact absurd this (by decide)

theorem clean_of (s : Str) (h1 : ¬ cs! "//" <:+: s) (h2 : '#' ∉ s) :
    FclImporter.clean s = Op.trim (s.filter fun c => decide (c ≠ ';')) := by
  unfold FclImporter.clean
  have e1 : (Op.split s (cs! "//") false).headD [] = s := by
    have := Op.split_twice '/' s h1
    rw [show (cs! "//") = ['/', '/'] from rfl, this]; rfl
  simp only [e1]
  have e2 : (Op.split s (cs! "#") false).headD [] = s := by
    have := Op.split_absent s '#' h2
    rw [show (cs! "#") = ['#'] from rfl, this]; rfl
  simp only [e2]
  rw [show (cs! ";") = [';'] from rfl, Op.replace_char]
  simp only [Option.getD_some]
  congr 1
  clear h1 h2 e1 e2
  induction s with
  | nil => rfl
  | cons c s ih =>
    rw [List.flatMap_cons, ih]
    by_cases hc : c = ';' <;> simp [hc]

/-- the line that is read where a line is written -/
theorem clean_core (ind s : Str) (hi : ind.all isSpace = true) (h : Core s) : FclImporter.clean (ind ++ s) = Op.trim s := by
  have hs := Op.twice_pad '/' ind s [] (blanks_free hi (by decide)) h.slashes (by simp)
  rw [List.append_nil] at hs
  rw [clean_of _ hs (by simp [h.hash, blanks_free hi (show isSpace '#' = false by decide)])]
  rw [List.filter_eq_self.2]
  · exact Op.trim_blanks _ _ hi
  · intro c hc
    simp only [decide_eq_true_eq]
    rintro rfl
    rcases List.mem_append.1 hc with hc | hc
    · exact blanks_free hi (by decide) hc
    · exact h.semicolon hc

theorem clean_semicolon (ind s : Str) (hi : ind.all isSpace = true) (h : Core s) :
    FclImporter.clean (ind ++ s ++ cs! ";") = Op.trim s := by
  have hs := Op.twice_pad '/' ind s (cs! ";") (blanks_free hi (by decide)) h.slashes (by decide)
  rw [clean_of _ hs (by simp [h.hash, blanks_free hi (show isSpace '#' = false by decide)])]
  rw [List.filter_append, List.filter_eq_self.2]
  · have : (cs! ";").filter (fun c => decide (c ≠ ';')) = [] := by decide
    rw [this, List.append_nil]
    exact Op.trim_blanks _ _ hi
  · intro c hc
    simp only [decide_eq_true_eq]
    rintro rfl
    rcases List.mem_append.1 hc with hc | hc
    · exact blanks_free hi (by decide) hc
    · exact h.semicolon hc

/-! ### the spacing of terms -/

theorem spaced_append (a b : Str) : FclImporter.spaced (a ++ b) = FclImporter.spaced a ++ FclImporter.spaced b := by
  simp [FclImporter.spaced]

theorem spaced_same (s : Str) (h : ∀ c ∈ s, c ∉ cs! "(),:=") : FclImporter.spaced s = s := by
  induction s with
  | nil => rfl
  | cons c s ih =>
    have hc := h c (by simp)
    simp only [List.mem_cons, List.not_mem_nil, not_or, or_false] at hc
    have := ih fun x hx => h x (List.mem_cons_of_mem _ hx)
    unfold FclImporter.spaced at this ⊢
    rw [List.flatMap_cons, this]
    simp [hc]

theorem spaced_filter (s : Str) : (FclImporter.spaced s).filter (fun c => !isSpace c) = s.filter fun c => !isSpace c := by
  induction s with
  | nil => rfl
  | cons c s ih =>
    have e : FclImporter.spaced (c :: s) = FclImporter.spaced [c] ++ FclImporter.spaced s := spaced_append [c] s
    rw [e, List.filter_append, ih]
    have : (FclImporter.spaced [c]).filter (fun c => !isSpace c) = [c].filter fun c => !isSpace c := by
      by_cases h : c ∈ cs! "(),:="
      · simp only [List.mem_cons, List.not_mem_nil, or_false] at h
        rcases h with rfl | rfl | rfl | rfl | rfl <;> decide
      · rw [spaced_same [c] (by simpa using h)]
    rw [this]
    by_cases hc : isSpace c = true <;> simp [hc]

theorem words_spaced_trim (s : Str) : Op.words (FclImporter.spaced (Op.trim s)) = Op.words (FclImporter.spaced s) := by
  obtain ⟨l, r, h, hl, hr⟩ := Op.trim_spec s
  have hb : ∀ l : Str, l.all isSpace = true → FclImporter.spaced l = l := fun l hl =>
    spaced_same l fun c hc hm => by
      have := List.all_eq_true.1 hl c hc
      simp only [List.mem_cons, List.not_mem_nil, or_false] at hm
      rcases hm with rfl | rfl | rfl | rfl | rfl <;> exact absurd this (by decide)
  conv => rhs; rw [h]
  rw [spaced_append, spaced_append, hb l hl, hb r hr, Op.words_pad _ _ _ hl hr]

end Fcl

/-! ### decimal numbers are plain -/

namespace Decimal

theorem isDigit_alnum {c : Char} (h : c.isDigit = true) : isAlnum c = true := by
  simp only [Char.isDigit, Bool.and_eq_true, decide_eq_true_eq] at h
  unfold isAlnum
  simp only [Bool.or_eq_true, Bool.and_eq_true, decide_eq_true_eq]
  exact .inl (.inl ⟨h.1, h.2⟩)

theorem digits_free {s : Str} (h : ∀ c ∈ s, c.isDigit = true) : '.' ∉ s := fun hc => absurd (h _ hc) (by decide)

theorem dots_of (a b : Str) (ha : '.' ∉ a) (hb : '.' ∉ b) (ha0 : a ≠ []) (hb0 : b ≠ []) :
    ¬ cs! ".." <:+: cs! "." ++ (a ++ '.' :: b) ++ cs! "." := by
  have e : cs! "." ++ (a ++ '.' :: b) ++ cs! "." = ((cs! "." ++ a) ++ cs! ".") ++ (b ++ cs! ".") := by simp
  rw [e]
  have head : ∀ x : Str, x ≠ [] → '.' ∉ x → ∀ y, (x ++ y).head? ≠ some '.' := by
    intro x hx0 hx y
    cases x with
    | nil => exact absurd rfl hx0
    | cons c x => simp at hx ⊢; exact fun h => hx.1 h.symm
  have last : ∀ x : Str, x ≠ [] → '.' ∉ x → ∀ y, (y ++ x).getLast? ≠ some '.' := by
    intro x hx0 hx y h
    rw [List.getLast?_append_of_ne_nil _ hx0] at h
    exact hx (List.mem_of_getLast? h)
  refine Op.twice_append '.' _ _ (Op.twice_append '.' _ _ (Op.twice_append '.' _ _ (by decide) (Op.twice_free ha) ?_) (by decide) ?_)
    (Op.twice_append '.' _ _ (Op.twice_free hb) (by decide) ?_) ?_
  · exact .inr (by simpa using head a ha0 ha [])
  · exact .inl (last a ha0 ha _)
  · exact .inl (by simpa using last b hb0 hb [])
  · exact .inr (head b hb0 hb _)

theorem str_cases (x : Ext ℚ) : str x ∈ [cs! "nan", cs! "inf", cs! "-inf", cs! "0.000"] ∨
    ∃ n, str x = thousandths n ∨ str x = '-' :: thousandths n := by
  cases x with
  | nan => exact .inl (by decide)
  | pinf => exact .inl (by decide)
  | ninf => exact .inl (by decide)
  | fin q =>
    simp only [str]
    split_ifs
    · exact .inl (by decide)
    · exact .inr ⟨_, .inr rfl⟩
    · exact .inr ⟨_, .inl rfl⟩

theorem readUnsigned_head (c : Char) (s : Str) (h1 : c.isDigit = false) (h2 : c ≠ '.') : readUnsigned (c :: s) = none := by
  unfold readUnsigned
  simp only [List.takeWhile_cons, List.dropWhile_cons, h1, Bool.false_eq_true, if_false]
  rw [if_pos]
  simp only [List.isEmpty_nil, Bool.true_and]
  split
  · rename_i heq; exact absurd (List.cons.inj heq).1 h2
  · rfl

end Decimal

instance instPlainTextRat : PlainText (Ext ℚ) where
  str_plain x c hc := by
    change c ∈ Decimal.str x at hc
    have digits : ∀ n, c ∈ Decimal.thousandths n → isAlnum c = true ∨ c = '.' := by
      intro n hc
      rw [Decimal.thousandths_eq, List.mem_append, List.mem_cons] at hc
      rcases hc with hc | rfl | hc
      · exact .inl (Decimal.isDigit_alnum (Decimal.digits_isDigit _ c hc))
      · exact .inr rfl
      · exact .inl (Decimal.isDigit_alnum (Decimal.frac_isDigit _ c hc))
    rcases Decimal.str_cases x with h | ⟨n, h | h⟩
    · have : ∀ s ∈ [cs! "nan", cs! "inf", cs! "-inf", cs! "0.000"], ∀ c ∈ s,
          isAlnum c = true ∨ c = '.' ∨ c = '-' ∨ c = '+' := by decide
      exact this _ h c hc
    · rw [h] at hc
      rcases digits n hc with h | h
      · exact .inl h
      · exact .inr (.inl h)
    · rw [h] at hc
      rcases List.mem_cons.1 hc with rfl | hc
      · decide
      rcases digits n hc with h | h
      · exact .inl h
      · exact .inr (.inl h)
  str_dots x := by
    change ¬ cs! ".." <:+: cs! "." ++ Decimal.str x ++ cs! "."
    have fr : ∀ n, Decimal.frac n ≠ [] := fun n h => by have := Decimal.frac_length n; rw [h] at this; simp at this
    rcases Decimal.str_cases x with h | ⟨n, h | h⟩
    · have : ∀ s ∈ [cs! "nan", cs! "inf", cs! "-inf", cs! "0.000"], ¬ cs! ".." <:+: cs! "." ++ s ++ cs! "." := by decide
      exact this _ h
    · rw [h, Decimal.thousandths_eq]
      exact Decimal.dots_of _ _ (Decimal.digits_free (Decimal.digits_isDigit _)) (Decimal.digits_free (Decimal.frac_isDigit _))
        (Decimal.digits_ne _) (fr n)
    · rw [h, Decimal.thousandths_eq, ← List.cons_append]
      refine Decimal.dots_of _ _ ?_ (Decimal.digits_free (Decimal.frac_isDigit _)) (by simp) (fr n)
      simp [Decimal.digits_free (Decimal.digits_isDigit _)]
  head c s h := by
    change Decimal.ofText (c :: s) ≠ none at h
    by_contra hn
    simp only [List.mem_cons, List.not_mem_nil, not_or, or_false, Bool.not_eq_true] at hn
    obtain ⟨h0, h1, h2, h3, h4, h5⟩ := hn
    apply h
    unfold Decimal.ofText
    rw [if_neg (by simp [h4]), if_neg (by simp [h5]), if_neg (by simp [h2])]
    split
    · rename_i heq; exact absurd (List.cons.inj heq).1 h2
    · rename_i heq; exact absurd (List.cons.inj heq).1 h1
    · rw [Decimal.readUnsigned_head c s h0 h3]; rfl

end FL
