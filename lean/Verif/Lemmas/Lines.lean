/-
Lines of text: joining, trimming, and reading them again.
-/
import Verif.Model.Fll
import Verif.Props.Text
import Verif.Lemmas.Text

namespace FL
namespace Op

theorem join_append (xs ys : List Str) (sep : Str) (hx : xs ≠ []) (hy : ys ≠ []) :
    join (xs ++ ys) sep = join xs sep ++ sep ++ join ys sep := by
  induction xs with
  | nil => exact absurd rfl hx
  | cons x xs ih =>
    cases xs with
    | nil => rw [List.singleton_append, join_cons _ _ _ hy]; rfl
    | cons y zs =>
      rw [List.cons_append, join_cons _ _ _ (by simp), ih (by simp), join_cons x _ _ (by simp)]
      simp

/-- a join of joins is the join of all pieces -/
theorem join_joins (xss : List (List Str)) (sep : Str) (h : ∀ xs ∈ xss, xs ≠ []) :
    join (xss.map fun xs => join xs sep) sep = join xss.flatten sep := by
  induction xss with
  | nil => rfl
  | cons xs xss ih =>
    cases xss with
    | nil => simp [join]
    | cons ys yss =>
      have e : (xs :: ys :: yss).flatten = xs ++ (ys :: yss).flatten := rfl
      rw [List.map_cons, join_cons _ _ _ (by simp), ih (fun z hz => h z (List.mem_cons_of_mem _ hz)), e,
        join_append xs _ sep (h xs (by simp))]
      have := h ys (by simp)
      intro hc
      rw [List.flatten_cons, List.append_eq_nil_iff] at hc
      exact this hc.1

theorem trim_def (s : Str) : trim s = (((s.dropWhile isSpace).reverse).dropWhile isSpace).reverse := by
  unfold trim
  cases s with
  | nil => rfl
  | cons c cs =>
    simp only
    split_ifs with h
    · simp only [Bool.not_or, Bool.and_eq_true, Bool.not_eq_true'] at h
      have h1 : (c :: cs).dropWhile isSpace = c :: cs := by rw [List.dropWhile_cons, h.1]; rfl
      rw [h1]
      have h2 : (c :: cs).reverse.dropWhile isSpace = (c :: cs).reverse := by
        cases hr : (c :: cs).reverse with
        | nil => rfl
        | cons d ds =>
          have : (c :: cs).getLast (by simp) = d := by
            have e : c :: cs = (d :: ds).reverse := by rw [← hr, List.reverse_reverse]
            simp [e]
          rw [this] at h
          rw [List.dropWhile_cons, h.2]; rfl
      rw [h2, List.reverse_reverse]
    · rfl

theorem dropWhile_blanks (l s : Str) (h : l.all isSpace = true) : (l ++ s).dropWhile isSpace = s.dropWhile isSpace := by
  induction l with
  | nil => rfl
  | cons c l ih =>
    simp only [List.all_cons, Bool.and_eq_true] at h
    rw [List.cons_append, List.dropWhile_cons, if_pos h.1, ih h.2]

/-- blanks around a trimmed text are removed -/
theorem trim_pad (l m r : Str) (hl : l.all isSpace = true) (hr : r.all isSpace = true) (hm : trim m = m) :
    trim (l ++ m ++ r) = m := by
  by_cases h0 : m = []
  · subst h0
    rw [trim_empty_iff]
    simp [hl, hr]
  · have hd : ∀ c, m.head? = some c → isSpace c = false := fun c hc => by
      have := (trim_ends m c).1; rw [hm] at this; exact this hc
    have hg : ∀ c, m.getLast? = some c → isSpace c = false := fun c hc => by
      have := (trim_ends m c).2; rw [hm] at this; exact this hc
    have key : ∀ (a b : Str), a ≠ [] → (∀ c, a.head? = some c → isSpace c = false) → (a ++ b).dropWhile isSpace = a ++ b := by
      intro a b ha hh
      cases a with
      | nil => exact absurd rfl ha
      | cons c a => rw [List.cons_append, List.dropWhile_cons, hh c rfl]; rfl
    rw [trim_def, List.append_assoc, dropWhile_blanks _ _ hl, key m r h0 hd, List.reverse_append,
      dropWhile_blanks _ _ (by simpa using hr)]
    have := key m.reverse [] (by simpa using h0) (fun c hc => hg c (by rwa [List.head?_reverse] at hc))
    rw [List.append_nil] at this
    rw [this, List.reverse_reverse]

theorem trim_noBlank (s : Str) (h : NoBlank s) : trim s = s :=
  trim_of_ends s (fun c hc => h c (List.mem_of_mem_head? hc)) (fun c hc => h c (List.mem_of_mem_getLast? hc))

/-- words with one blank between them are trimmed -/
theorem trim_words (ts : List Str) (h : ∀ t ∈ ts, t ≠ [] ∧ NoBlank t) : trim (join ts (cs! " ")) = join ts (cs! " ") := by
  have hd : ∀ c, (join ts (cs! " ")).head? = some c → isSpace c = false := by
    intro c hc
    cases ts with
    | nil => simp [join] at hc
    | cons t ts =>
      obtain ⟨h0, hb⟩ := h t (by simp)
      cases t with
      | nil => exact absurd rfl h0
      | cons d t =>
        have : (join ((d :: t) :: ts) (cs! " ")).head? = some d := by
          cases ts with
          | nil => rfl
          | cons => rw [join_cons _ _ _ (by simp)]; rfl
        rw [this] at hc
        obtain rfl : d = c := by simpa using hc
        exact hb d (by simp)
  have hg : ∀ c, (join ts (cs! " ")).getLast? = some c → isSpace c = false := by
    induction ts with
    | nil => intro c hc; simp [join] at hc
    | cons t ts ih =>
      intro c hc
      cases ts with
      | nil => exact (h t (by simp)).2 c (List.mem_of_mem_getLast? hc)
      | cons u us =>
        rw [join_cons _ _ _ (by simp), List.getLast?_append] at hc
        cases hj : (join (u :: us) (cs! " ")).getLast? with
        | none =>
          have := words_join (u :: us) (fun z hz => h z (List.mem_cons_of_mem _ hz))
          rw [List.getLast?_eq_none_iff.1 hj] at this
          exact absurd this (by simp [words, wordsAux])
        | some d =>
          rw [hj] at hc
          simp only [Option.some_or] at hc
          have hd' : d = c := by simpa using hc
          subst hd'
          refine ih (fun z hz => h z (List.mem_cons_of_mem _ hz)) ?_ d hj
          intro c' hc'
          cases u with
          | nil => exact absurd rfl (h [] (by simp)).1
          | cons a u =>
            have : (join ((a :: u) :: us) (cs! " ")).head? = some a := by
              cases us with
              | nil => rfl
              | cons => rw [join_cons _ _ _ (by simp)]; rfl
            rw [this] at hc'
            obtain rfl : a = c' := by simpa using hc'
            exact (h (a :: u) (by simp)).2 a (by simp)
  exact trim_of_ends _ hd hg

theorem join_ne_nil (ts : List Str) (sep : Str) (h0 : ts ≠ []) (h : ∀ t ∈ ts, t ≠ []) : join ts sep ≠ [] := by
  cases ts with
  | nil => exact absurd rfl h0
  | cons t ts =>
    have := h t (by simp)
    cases ts with
    | nil => exact this
    | cons u us =>
      rw [join_cons _ _ _ (by simp)]
      simp [this]

theorem mem_join {ts : List Str} {sep : Str} {c : Char} (h : c ∈ join ts sep) : (∃ t ∈ ts, c ∈ t) ∨ c ∈ sep := by
  induction ts with
  | nil => simp [join] at h
  | cons t ts ih =>
    cases ts with
    | nil => exact .inl ⟨t, by simp, h⟩
    | cons u us =>
      rw [join_cons _ _ _ (by simp), List.mem_append, List.mem_append] at h
      rcases h with (h | h) | h
      · exact .inl ⟨t, by simp, h⟩
      · exact .inr h
      · rcases ih h with ⟨w, hw, hc⟩ | hc
        · exact .inl ⟨w, List.mem_cons_of_mem _ hw, hc⟩
        · exact .inr hc

theorem split_absent (s : Str) (c : Char) (h : c ∉ s) : split s [c] false = [s] := by
  unfold split
  split_ifs
  · rfl
  · rw [splitLoop, search_char c s h]; simp

end Op

namespace FllImporter

theorem linesAux_piece (acc l r : Str) (h : '\n' ∉ l) : linesAux acc (l ++ '\n' :: r) = (acc.reverse ++ l) :: linesAux [] r := by
  induction l generalizing acc with
  | nil => simp [linesAux]
  | cons c l ih =>
    simp only [List.mem_cons, not_or] at h
    rw [List.cons_append, linesAux, if_neg (Ne.symm h.1), ih _ h.2]
    simp

theorem linesAux_last (acc l : Str) (h : '\n' ∉ l) (h0 : acc.reverse ++ l ≠ []) : linesAux acc l = [acc.reverse ++ l] := by
  induction l generalizing acc with
  | nil =>
    simp only [List.append_nil] at h0 ⊢
    rw [linesAux, if_neg (by simpa using h0)]
  | cons c l ih =>
    simp only [List.mem_cons, not_or] at h
    rw [linesAux, if_neg (Ne.symm h.1), ih _ h.2 (by simp)]
    simp

/-- lines written with line feeds between them are read again -/
theorem lines_join (ls : List Str) (h : ∀ l ∈ ls, l ≠ [] ∧ '\n' ∉ l) : lines (Op.join ls (cs! "\n")) = ls := by
  induction ls with
  | nil => rfl
  | cons l ls ih =>
    obtain ⟨h0, hn⟩ := h l (by simp)
    cases ls with
    | nil => exact linesAux_last [] l hn (by simpa using h0)
    | cons m ms =>
      rw [Op.join_cons _ _ _ (by simp)]
      have e : l ++ cs! "\n" ++ Op.join (m :: ms) (cs! "\n") = l ++ '\n' :: Op.join (m :: ms) (cs! "\n") := by simp
      rw [e, lines, linesAux_piece _ _ _ hn]
      have := ih (fun z hz => h z (List.mem_cons_of_mem _ hz))
      rw [lines] at this
      rw [this]; rfl

theorem cut_append (c : Char) (a b : Str) (h : c ∉ a) : cut c (a ++ c :: b) = some (a, b) := by
  induction a with
  | nil => simp [cut]
  | cons d a ih =>
    simp only [List.mem_cons, not_or] at h
    rw [List.cons_append, cut, if_neg (Ne.symm h.1), ih h.2]
    rfl

end FllImporter
end FL
