/-
Lemmas about tokenisation and replacement.
-/
import Verif.Props.Text

namespace FL
namespace Op

/-- no blank inside -/
def NoBlank (t : Str) : Prop := ∀ c ∈ t, isSpace c = false

theorem wordsAux_append (acc t s : Str) (ht : NoBlank t) :
    wordsAux acc (t ++ s) = wordsAux (t.reverse ++ acc) s := by
  induction t generalizing acc with
  | nil => rfl
  | cons c t ih =>
    have hc : isSpace c = false := ht c (by simp)
    have ht' : NoBlank t := fun x hx => ht x (List.mem_cons_of_mem _ hx)
    simp only [List.cons_append, wordsAux, hc, Bool.false_eq_true, if_false]
    rw [ih _ ht']; simp

/-- a blank separates -/
theorem wordsAux_blank (acc a b : Str) (c : Char) (hc : isSpace c = true) :
    wordsAux acc (a ++ c :: b) = wordsAux acc a ++ wordsAux [] b := by
  induction a generalizing acc with
  | nil =>
    simp only [List.nil_append, wordsAux, hc, if_true]
    split_ifs <;> simp
  | cons x a ih =>
    simp only [List.cons_append, wordsAux]
    split_ifs with h1 h2
    · exact ih []
    · simp [ih []]
    · exact ih _

theorem words_blank (a b : Str) (c : Char) (hc : isSpace c = true) :
    words (a ++ c :: b) = words a ++ words b := wordsAux_blank [] a b c hc

theorem words_single (t : Str) (h0 : t ≠ []) (ht : NoBlank t) : words t = [t] := by
  have := wordsAux_append [] t [] ht
  simp only [List.append_nil] at this
  have hr : t.reverse.isEmpty = false := by simpa using h0
  simp [words, this, wordsAux, hr]

theorem words_blanks (s : Str) (h : s.all isSpace = true) : words s = [] := by
  unfold words
  induction s with
  | nil => rfl
  | cons c s ih =>
    simp only [List.all_cons, Bool.and_eq_true] at h
    simp [wordsAux, h.1, ih h.2]

theorem words_mem (s : Str) : ∀ t ∈ words s, t ≠ [] ∧ NoBlank t := by
  have : ∀ (s acc : Str), NoBlank acc → ∀ t ∈ wordsAux acc s, t ≠ [] ∧ NoBlank t := by
    intro s
    induction s with
    | nil =>
      intro acc hacc t ht
      unfold wordsAux at ht
      split_ifs at ht with h
      · simp at ht
      · obtain rfl : t = acc.reverse := by simpa using ht
        exact ⟨by simpa using h, fun c hc => hacc c (by simpa using hc)⟩
    | cons c s ih =>
      intro acc hacc t ht
      unfold wordsAux at ht
      split_ifs at ht with h1 h2
      · exact ih [] (by simp [NoBlank]) t ht
      · rcases List.mem_cons.mp ht with rfl | ht
        · exact ⟨by simpa using h2, fun c hc => hacc c (by simpa using hc)⟩
        · exact ih [] (by simp [NoBlank]) t ht
      · refine ih _ ?_ t ht
        intro x hx
        rcases List.mem_cons.mp hx with rfl | hx
        · simpa using h1
        · exact hacc x hx
  exact this s [] (by simp [NoBlank])

/-- writing tokens separated by one blank and reading them back -/
theorem words_join (ts : List Str) (h : ∀ t ∈ ts, t ≠ [] ∧ NoBlank t) : words (join ts (cs! " ")) = ts := by
  induction ts with
  | nil => rfl
  | cons t ts ih =>
    have ht := h t (by simp)
    have hts := ih (fun x hx => h x (List.mem_cons_of_mem _ hx))
    cases ts with
    | nil => simp [join, words_single t ht.1 ht.2]
    | cons u us =>
      rw [join_cons _ _ _ (by simp)]
      have : t ++ cs! " " ++ join (u :: us) (cs! " ") = t ++ ' ' :: join (u :: us) (cs! " ") := by simp
      rw [this, words_blank _ _ _ (by decide), words_single t ht.1 ht.2, hts]; rfl

/-- `for t in ts: oss << t << " "`, as read back -/
theorem words_spaced (ts : List Str) (h : ∀ t ∈ ts, t ≠ [] ∧ NoBlank t) :
    words (ts.flatMap fun t => t ++ cs! " ") = ts := by
  induction ts with
  | nil => rfl
  | cons t ts ih =>
    have ht := h t (by simp)
    rw [List.flatMap_cons]
    have : t ++ cs! " " ++ ts.flatMap (fun t => t ++ cs! " ") = t ++ ' ' :: ts.flatMap (fun t => t ++ cs! " ") := by
      simp
    rw [this, words_blank _ _ _ (by decide), words_single t ht.1 ht.2, ih (fun x hx => h x (List.mem_cons_of_mem _ hx))]
    rfl

/-! replacing one character -/

theorem search_char (c : Char) (s : Str) (h : c ∉ s) : search [c] s = none := by
  cases hs : search [c] s with
  | none => rfl
  | some pr =>
    have := (search_some [c] (by simp) s pr.1 pr.2 hs).1
    exact absurd (by rw [this]; simp) h

theorem replace_char (s rep : Str) (c : Char) :
    findReplace s [c] rep true = some (s.flatMap fun x => if x = c then rep else [x]) := by
  have loop : ∀ n s, s.length < n →
      findReplaceLoop [c] rep true n s = some (s.flatMap fun x => if x = c then rep else [x]) := by
    intro n
    induction n with
    | zero => intro s h; omega
    | succ n ih =>
      intro s hn
      unfold findReplaceLoop
      cases hs : search [c] s with
      | none =>
        have hf := search_none [c] (by simp) s hs
        have : c ∉ s := by
          intro hc
          obtain ⟨a, b, rfl⟩ := List.append_of_mem hc
          exact hf ⟨a, b, by simp⟩
        simp only [Option.some.injEq]
        symm
        clear hs hf hn
        induction s with
        | nil => rfl
        | cons x s ihs =>
          simp only [List.mem_cons, not_or] at this
          rw [List.flatMap_cons, ihs this.2, if_neg (Ne.symm this.1)]; rfl
      | some pr =>
        obtain ⟨p, r⟩ := pr
        have hl := search_length [c] (by simp) s p r hs
        obtain ⟨e1, e2⟩ := search_some [c] (by simp) s p r hs
        have hp : c ∉ p := by
          intro hc
          obtain ⟨a, b, rfl⟩ := List.append_of_mem hc
          exact e2 ⟨a, b, by simp⟩
        have hpp : ∀ p : Str, c ∉ p → (p.flatMap fun x => if x = c then rep else [x]) = p := by
          intro p
          induction p with
          | nil => simp
          | cons x s ihs =>
            intro this
            simp only [List.mem_cons, not_or] at this
            rw [List.flatMap_cons, ihs this.2, if_neg (Ne.symm this.1)]; rfl
        simp only [if_true, ih r (by omega), Option.map_some, Option.some.injEq]
        rw [e1]
        simp only [List.flatMap_append, List.flatMap_cons, List.flatMap_nil, hpp p hp, if_true, List.append_nil]
  exact loop _ s (by omega)

end Op
end FL
