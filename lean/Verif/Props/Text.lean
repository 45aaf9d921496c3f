/-
C04, C05, C56: text operations.
-/
import Verif.Model.Text
import Mathlib.Data.List.Lex
import Mathlib.Data.List.Infix
import Mathlib.Tactic.Push

namespace FL
namespace Op

/-! ### search -/

/-- `search` finds the first occurrence: the text is `prefix ++ d ++ rest`, and `d` occurs
nowhere before. -/
theorem search_some (d : Str) (hd : d ≠ []) (s p r : Str) (h : search d s = some (p, r)) :
    s = p ++ d ++ r ∧ ¬ d <:+: p ++ d.dropLast := by
  induction s generalizing p with
  | nil =>
    have : d.isEmpty = false := by simpa using hd
    simp [search, this] at h
  | cons c cs ih =>
    unfold search at h
    split_ifs at h with hp
    · obtain ⟨rfl, rfl⟩ : [] = p ∧ (c :: cs).drop d.length = r := by simpa using h
      have hpre : d <+: c :: cs := List.isPrefixOf_iff_prefix.mp hp
      obtain ⟨t, ht⟩ := hpre
      refine ⟨by rw [← ht]; simp, ?_⟩
      intro hi
      have := hi.length_le
      have hdl : 0 < d.length := List.length_pos_of_ne_nil hd
      simp at this; omega
    · cases hs : search d cs with
      | none => rw [hs] at h; simp at h
      | some pr =>
        obtain ⟨p', r'⟩ := pr
        rw [hs] at h
        simp only [Option.some.injEq, Prod.mk.injEq] at h
        obtain ⟨rfl, rfl⟩ := h
        obtain ⟨e1, e2⟩ := ih p' hs
        refine ⟨by rw [e1]; simp, ?_⟩
        intro hi
        have hi' : d <:+: c :: (p' ++ d.dropLast) := by simpa using hi
        rcases List.infix_cons_iff.mp hi' with h1 | h1
        · apply hp
          rw [List.isPrefixOf_iff_prefix]
          refine h1.trans ?_
          rw [e1]
          have : p' ++ d.dropLast <+: p' ++ d ++ r' := by
            rw [List.append_assoc]
            exact (List.prefix_append_right_inj p').mpr ((List.dropLast_prefix d).trans (List.prefix_append _ _))
          exact List.cons_prefix_cons.mpr ⟨rfl, this⟩
        · exact e2 h1

theorem search_none (d : Str) (hd : d ≠ []) (s : Str) (h : search d s = none) : ¬ d <:+: s := by
  induction s with
  | nil => simpa using hd
  | cons c cs ih =>
    unfold search at h
    split_ifs at h with hp
    cases hs : search d cs with
    | some pr => rw [hs] at h; simp at h
    | none =>
      intro hi
      rcases List.infix_cons_iff.mp hi with h1 | h1
      · exact hp (List.isPrefixOf_iff_prefix.mpr h1)
      · exact ih hs h1

/-- `search` on `p ++ d ++ r` when `d` does not occur earlier -/
theorem search_append (d : Str) (hd : d ≠ []) (p r : Str) (hf : ¬ d <:+: p ++ d.dropLast) :
    search d (p ++ d ++ r) = some (p, r) := by
  induction p with
  | nil =>
    cases hdr : d ++ r with
    | nil => simp at hdr; exact absurd hdr.1 hd
    | cons c cs =>
      have : d.isPrefixOf (c :: cs) = true := by
        rw [List.isPrefixOf_iff_prefix, ← hdr]; exact List.prefix_append _ _
      simp only [List.nil_append, hdr, search, this, if_true]
      rw [← hdr]; simp
  | cons c p ih =>
    have hnp : ¬ (d.isPrefixOf (c :: (p ++ d ++ r)) = true) := by
      intro hp
      apply hf
      rw [List.isPrefixOf_iff_prefix] at hp
      have h2 : c :: (p ++ d.dropLast) <+: c :: (p ++ d ++ r) := by
        rw [List.append_assoc]
        exact List.cons_prefix_cons.mpr ⟨rfl,
          (List.prefix_append_right_inj p).mpr ((List.dropLast_prefix d).trans (List.prefix_append _ _))⟩
      have hdl : 0 < d.length := List.length_pos_of_ne_nil hd
      have := List.prefix_of_prefix_length_le hp h2 (by simp; omega)
      exact (by simpa using this.isInfix)
    have hf' : ¬ d <:+: p ++ d.dropLast := fun h => hf (by simpa using List.infix_cons_iff.mpr (Or.inr h))
    have e : (c :: p) ++ d ++ r = c :: (p ++ d ++ r) := by simp
    rw [e, search, if_neg hnp, ih hf']

theorem search_length (d : Str) (hd : d ≠ []) (s p r : Str) (h : search d s = some (p, r)) :
    r.length < s.length := by
  have := (search_some d hd s p r h).1
  have hdl : 0 < d.length := List.length_pos_of_ne_nil hd
  rw [this]; simp; omega

/-! ### split and join -/

theorem splitLoop_ne_nil (d : Str) (n : Nat) (s : Str) : splitLoop d false (n + 1) s ≠ [] := by
  unfold splitLoop
  cases search d s with
  | none => simp
  | some pr => simp

theorem join_cons (x : Str) (xs : List Str) (sep : Str) (h : xs ≠ []) :
    join (x :: xs) sep = x ++ sep ++ join xs sep := by
  cases xs with
  | nil => exact absurd rfl h
  | cons y ys => rfl

theorem join_splitLoop (d : Str) (hd : d ≠ []) (n : Nat) (s : Str) (hn : s.length < n) :
    join (splitLoop d false n s) d = s := by
  induction n generalizing s with
  | zero => omega
  | succ n ih =>
    unfold splitLoop
    cases hs : search d s with
    | none => simp [join]
    | some pr =>
      obtain ⟨p, r⟩ := pr
      have hl := search_length d hd s p r hs
      simp only [Bool.and_false, Bool.false_eq_true, if_false, List.singleton_append]
      have hne : splitLoop d false n r ≠ [] := by
        cases n with
        | zero => omega
        | succ n => exact splitLoop_ne_nil d n r
      rw [join_cons _ _ _ hne, ih r (by omega)]
      exact (search_some d hd s p r hs).1.symm

/-- C04: joining the pieces of a split with the same non-empty delimiter gives back the text. -/
theorem join_split (s d : Str) (hd : d ≠ []) : join (split s d false) d = s := by
  have hde : d.isEmpty = false := by simpa using hd
  unfold split
  split_ifs with h
  · rfl
  · exact join_splitLoop d hd _ s (by omega)

/-- C04: no piece contains the delimiter (of any length). -/
theorem split_pieces_free (s d : Str) (hd : d ≠ []) (ig : Bool) : ∀ p ∈ split s d ig, ¬ d <:+: p := by
  have hde : d.isEmpty = false := by simpa using hd
  have loop : ∀ n s, ∀ p ∈ splitLoop d ig n s, ¬ d <:+: p := by
    intro n
    induction n with
    | zero => simp [splitLoop]
    | succ n ih =>
      intro s p hp
      unfold splitLoop at hp
      cases hs : search d s with
      | none =>
        rw [hs] at hp
        simp only at hp
        split_ifs at hp
        · simp at hp
        · obtain rfl : p = s := by simpa using hp
          exact search_none d hd p hs
      | some pr =>
        obtain ⟨q, r⟩ := pr
        rw [hs] at hp
        simp only [List.mem_append] at hp
        rcases hp with hp | hp
        · split_ifs at hp
          · simp at hp
          · obtain rfl : p = q := by simpa using hp
            intro hi
            exact (search_some d hd s p r hs).2 (hi.trans (List.infix_append' [] p _))
        · exact ih r p hp
  intro p hp
  unfold split at hp
  split_ifs at hp with h
  · obtain rfl : p = s := by simpa using hp
    have : p = [] := by simpa [hde] using h
    subst this; simpa using hd
  · exact loop _ _ p hp

/-- C04: for non-empty text, `ignoreEmpty` returns exactly the non-empty pieces, in order. -/
theorem split_ignoreEmpty (s d : Str) (hs : s ≠ []) (hd : d ≠ []) :
    split s d true = (split s d false).filter (fun p => !p.isEmpty) := by
  have hse : s.isEmpty = false := by simpa using hs
  have hde : d.isEmpty = false := by simpa using hd
  have loop : ∀ n s, splitLoop d true n s = (splitLoop d false n s).filter (fun p => !p.isEmpty) := by
    intro n
    induction n with
    | zero => simp [splitLoop]
    | succ n ih =>
      intro s
      unfold splitLoop
      cases search d s with
      | none => cases s <;> simp
      | some pr =>
        obtain ⟨q, r⟩ := pr
        cases q <;> simp [ih]
  simp [split, hse, hde, loop]

/-- C04: splitting a join returns the pieces, when no piece creates an earlier occurrence of the
delimiter (for a one-character delimiter: when no piece contains it). -/
theorem split_join (ps : List Str) (d : Str) (hd : d ≠ []) (hps : ps ≠ [])
    (hf : ∀ p ∈ ps, ¬ d <:+: p ++ d.dropLast) : split (join ps d) d false = ps := by
  have hde : d.isEmpty = false := by simpa using hd
  have hdl : 0 < d.length := List.length_pos_of_ne_nil hd
  have nonePiece : ∀ p : Str, ¬ d <:+: p ++ d.dropLast → search d p = none := by
    intro p hp
    cases hs : search d p with
    | none => rfl
    | some pr =>
      exfalso
      apply hp
      rw [(search_some d hd p pr.1 pr.2 hs).1]
      exact ⟨pr.1, pr.2 ++ d.dropLast, by simp⟩
  have loop : ∀ (ps : List Str) (n : Nat), ps ≠ [] → (∀ p ∈ ps, ¬ d <:+: p ++ d.dropLast) →
      (join ps d).length < n → splitLoop d false n (join ps d) = ps := by
    intro ps
    induction ps with
    | nil => intro n h; exact absurd rfl h
    | cons p qs ih =>
      intro n _ hf hn
      cases n with
      | zero => omega
      | succ n =>
        cases qs with
        | nil =>
          simp only [join] at hn ⊢
          unfold splitLoop
          rw [nonePiece p (hf p (by simp))]; simp
        | cons q qs =>
          rw [join_cons _ _ _ (by simp)] at hn ⊢
          unfold splitLoop
          rw [search_append d hd p _ (hf p (by simp))]
          simp only [Bool.and_false, Bool.false_eq_true, if_false, List.singleton_append]
          rw [ih n (by simp) (fun x hx => hf x (List.mem_cons_of_mem _ hx)) (by simp at hn; omega)]
  unfold split
  split_ifs with h
  · have hj : join ps d = [] := by simpa [hde] using h
    cases ps with
    | nil => exact absurd rfl hps
    | cons p qs =>
      cases qs with
      | nil => simp [join]
      | cons q qs =>
        rw [join_cons _ _ _ (by simp)] at hj
        have : d = [] := by
          have := congrArg List.length hj
          simp at this; exact this.2.1
        exact absurd this hd
  · exact loop ps _ hps hf (by omega)

/-- Non-vacuity of C04. -/
example : split (cs! "a, b,,c") (cs! ",") false = [cs! "a", cs! " b", [], cs! "c"] ∧
    split (cs! "a, b,,c") (cs! ",") true = [cs! "a", cs! " b", cs! "c"] ∧
    join [cs! "a", cs! "b"] (cs! "::") = cs! "a::b" ∧
    (∀ p ∈ [cs! "a", cs! "b"], ¬ (cs! "::") <:+: p ++ (cs! "::").dropLast) := by decide

/-! ### trim -/

theorem dropWhile_split (f : Char → Bool) (s : Str) :
    ∃ l, s = l ++ s.dropWhile f ∧ l.all f = true := by
  refine ⟨s.takeWhile f, (List.takeWhile_append_dropWhile).symm, ?_⟩
  exact List.all_takeWhile

/-- C04: `trim` removes only blanks, at the two ends. -/
theorem trim_spec (s : Str) : ∃ l r : Str, s = l ++ trim s ++ r ∧ l.all isSpace = true ∧ r.all isSpace = true := by
  unfold trim
  cases s with
  | nil => exact ⟨[], [], by simp⟩
  | cons c cs =>
    simp only
    split_ifs with h
    · exact ⟨[], [], by simp⟩
    · obtain ⟨l, hl, hl'⟩ := dropWhile_split isSpace (c :: cs)
      obtain ⟨r, hr, hr'⟩ := dropWhile_split isSpace ((c :: cs).dropWhile isSpace).reverse
      refine ⟨l, r.reverse, ?_, hl', by simpa using hr'⟩
      have := congrArg List.reverse hr
      rw [List.reverse_reverse, List.reverse_append] at this
      rw [List.append_assoc, ← this]; exact hl

theorem dropWhile_head (f : Char → Bool) (s : Str) (c : Char) (h : (s.dropWhile f).head? = some c) : f c = false := by
  have := List.head?_dropWhile_not f s
  rw [h] at this
  simpa using this

/-- C04: the trimmed text neither starts nor ends with a blank. -/
theorem trim_ends (s : Str) (c : Char) :
    ((trim s).head? = some c → isSpace c = false) ∧ ((trim s).getLast? = some c → isSpace c = false) := by
  unfold trim
  cases s with
  | nil => simp
  | cons a cs =>
    simp only
    split_ifs with h
    · simp only [Bool.not_eq_true', Bool.or_eq_false_iff] at h
      constructor
      · intro hc
        obtain rfl : a = c := by simpa using hc
        exact h.1
      · intro hc
        rw [List.getLast?_eq_getLast_of_ne_nil (by simp)] at hc
        obtain rfl := Option.some.inj hc
        exact h.2
    · constructor
      · intro hc
        -- the head of the result is the head of the left-trimmed text
        rw [List.head?_reverse] at hc
        obtain ⟨l, hl, _⟩ := dropWhile_split isSpace ((a :: cs).dropWhile isSpace).reverse
        have hx : ((a :: cs).dropWhile isSpace).reverse.getLast? = some c := by
          rw [hl, List.getLast?_append, hc]; rfl
        rw [List.getLast?_reverse] at hx
        exact dropWhile_head _ _ _ hx
      · intro hc
        rw [List.getLast?_reverse] at hc
        exact dropWhile_head _ _ _ hc

theorem trim_of_ends (s : Str) (h1 : ∀ c, s.head? = some c → isSpace c = false)
    (h2 : ∀ c, s.getLast? = some c → isSpace c = false) : trim s = s := by
  unfold trim
  cases s with
  | nil => rfl
  | cons c cs =>
    simp only
    rw [if_pos]
    simp only [Bool.not_eq_true', Bool.or_eq_false_iff]
    exact ⟨h1 c rfl, h2 _ (List.getLast?_eq_getLast_of_ne_nil (by simp))⟩

/-- C04: `trim` is idempotent. -/
theorem trim_idempotent (s : Str) : trim (trim s) = trim s :=
  trim_of_ends _ (fun c => (trim_ends s c).1) (fun c => (trim_ends s c).2)

/-- C04: the result is empty exactly for texts made of blanks. -/
theorem trim_empty_iff (s : Str) : trim s = [] ↔ s.all isSpace = true := by
  constructor
  · intro h
    obtain ⟨l, r, hs, hl, hr⟩ := trim_spec s
    rw [h] at hs
    rw [hs]; simp only [List.append_nil, List.all_append, hl, hr, Bool.and_self]
  · intro h
    cases ht : trim s with
    | nil => rfl
    | cons c cs =>
      have hc := (trim_ends s c).1 (by rw [ht]; rfl)
      obtain ⟨l, r, hs, _, _⟩ := trim_spec s
      rw [List.all_eq_true] at h
      have := h c (by rw [hs, ht]; simp)
      rw [hc] at this; exact Bool.noConfusion this

example : trim (cs! "  a b\t") = cs! "a b" ∧ trim (cs! " \n ") = [] := by decide

/-! ### validName -/

/-- C05: the result is made only of letters, digits, underscores and dots; it is non-empty and
unchanged by a second application whenever the name is blank or has at least one such character.
Missing: names that are neither, for which the result is empty (`validName_empty_violated`). -/
theorem validName_partial (name : Str) :
    (∀ c ∈ validName name, c = '_' ∨ c = '.' ∨ isAlnum c = true) ∧
    (name.all isSpace = true ∨ name.any isNameChar = true ↔ validName name ≠ []) ∧
    (validName name ≠ [] → validName (validName name) = validName name) := by
  have nsp : ∀ c, isNameChar c = true → isSpace c = false := by
    intro c hc
    by_contra hsp
    rw [Bool.not_eq_false] at hsp
    unfold isSpace at hsp
    simp only [Bool.or_eq_true, beq_iff_eq] at hsp
    rcases hsp with ((((h | h) | h) | h) | h) | h <;> subst h <;> exact absurd hc (by decide)
  have mem : ∀ c ∈ validName name, isNameChar c = true := by
    intro c hc
    unfold validName at hc
    split_ifs at hc
    · obtain rfl : c = '_' := by simpa using hc
      decide
    · exact (List.mem_filter.mp hc).2
  have hfilter : validName name ≠ [] → validName (validName name) = validName name := by
    intro hne
    have ht : trim (validName name) ≠ [] := by
      intro h0
      rw [trim_empty_iff, List.all_eq_true] at h0
      obtain ⟨c, hc⟩ := List.exists_mem_of_ne_nil _ hne
      have := h0 c hc
      rw [nsp c (mem c hc)] at this; exact Bool.noConfusion this
    have ht' : (trim (validName name)).isEmpty = false := by simpa using ht
    generalize validName name = v at *
    rw [validName, ht']
    simp only [Bool.false_eq_true, if_false]
    exact List.filter_eq_self.mpr mem
  refine ⟨?_, ?_, hfilter⟩
  · intro c hc
    have := mem c hc
    simpa [isNameChar, or_assoc] using this
  · unfold validName
    by_cases h : trim name = []
    · have h1 : (trim name).isEmpty = true := by simp [h]
      rw [if_pos h1]
      simp [(trim_empty_iff name).mp h]
    · have h1 : (trim name).isEmpty = false := by simpa using h
      have h2 : ¬ (name.all isSpace = true) := fun hh => h ((trim_empty_iff name).mpr hh)
      rw [h1]
      simp only [h2, false_or, Bool.false_eq_true, if_false, ne_eq, List.filter_eq_nil_iff, not_forall]
      rw [List.any_eq_true]
      constructor
      · rintro ⟨c, hc, hc'⟩; exact ⟨c, hc, by simpa using hc'⟩
      · rintro ⟨c, hc, hc'⟩; exact ⟨c, hc, by simpa using hc'⟩

/-- C05 fails as stated: a name without letters, digits, underscores or dots, yet not blank,
becomes the empty string; and a second application changes it again. -/
theorem validName_empty_violated : validName (cs! "!?") = [] ∧ validName (validName (cs! "!?")) ≠ validName (cs! "!?") := by
  decide

example : validName (cs! " my var-1 ") = cs! "myvar1" := by decide

/-! ### findReplace -/

/-- C56: `replaceAll` with a non-empty pattern terminates and replaces every occurrence found by
`split`: it is the join of the pieces with the replacement. -/
theorem replaceAll_eq (s find rep : Str) (hd : find ≠ []) (hs : s ≠ []) :
    findReplace s find rep true = some (join (split s find false) rep) := by
  have hse : s.isEmpty = false := by simpa using hs
  have hde : find.isEmpty = false := by simpa using hd
  have loop : ∀ n s, s.length < n →
      findReplaceLoop find rep true n s = some (join (splitLoop find false n s) rep) := by
    intro n
    induction n with
    | zero => intro s h; omega
    | succ n ih =>
      intro s hn
      unfold findReplaceLoop splitLoop
      cases hs : search find s with
      | none => simp [join]
      | some pr =>
        obtain ⟨p, r⟩ := pr
        have hl := search_length find hd s p r hs
        have hne : splitLoop find false n r ≠ [] := by
          cases n with
          | zero => omega
          | succ n => exact splitLoop_ne_nil find n r
        simp only [if_true, Bool.and_false, Bool.false_eq_true, if_false, List.singleton_append,
          join_cons _ _ _ hne, ih r (by omega), Option.map_some]
  unfold findReplace split
  simp only [hse, hde, Bool.or_self, Bool.false_eq_true, if_false]
  exact loop _ s (by omega)

/-- C56 fails as stated for `replaceFirst`: the text after the first occurrence is dropped,
for every text that contains the pattern. -/
theorem replaceFirst_drops_rest_violated (s find rep p r : Str) (h : search find s = some (p, r)) :
    findReplace s find rep false = some (p ++ rep) := by
  simp [findReplace, findReplaceLoop, h]

/-- ... for instance `replaceFirst("abcd", "b", "X")` is `"aX"`, not `"aXcd"`. -/
example : findReplace (cs! "abcd") (cs! "b") (cs! "X") false = some (cs! "aX") := by decide

/-- C56: with an empty pattern `replaceAll` exhausts every bound on the number of iterations:
the loop does not terminate. -/
theorem findReplace_diverges (s rep : Str) (n : Nat) : findReplaceLoop [] rep true n s = none := by
  induction n generalizing s with
  | zero => rfl
  | succ n ih =>
    unfold findReplaceLoop
    cases s <;> simp [search, ih]

end Op
end FL
