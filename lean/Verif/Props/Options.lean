/-
The options of the console and the conversion of files (C76).
-/
import Verif.Model.Options
import Verif.Props.Console
import Verif.Props.Data
import Verif.Props.Grid
import Verif.Props.Fll
import Verif.Props.Fcl
import Verif.Props.Java
import Verif.Lemmas.Fis

namespace FL
open Scalar

namespace Console

/-! ### lines -/

theorem linesAux_free (acc t : Str) (h : '\n' ∉ acc) : ∀ l ∈ FllImporter.linesAux acc t, '\n' ∉ l := by
  induction t generalizing acc with
  | nil =>
    intro l hl
    unfold FllImporter.linesAux at hl
    split at hl
    · cases hl
    · rw [List.mem_singleton.1 hl]; simpa using h
  | cons c t ih =>
    intro l hl
    unfold FllImporter.linesAux at hl
    split at hl
    · rcases List.mem_cons.1 hl with rfl | hl
      · simpa using h
      · exact ih [] (by simp) l hl
    · rename_i hc
      exact ih (c :: acc) (by simp only [List.mem_cons, not_or]; exact ⟨fun e => hc e.symm, h⟩) l hl

theorem lines_endLines (t : Str) : FllImporter.lines (endLines t) = FllImporter.lines t :=
  lines_terminated _ (linesAux_free [] t (by simp))

theorem endAux (acc t : Str) : (FllImporter.linesAux acc t).flatMap (fun l => l ++ ['\n']) = acc.reverse ++ t ∨
    (FllImporter.linesAux acc t).flatMap (fun l => l ++ ['\n']) = acc.reverse ++ t ++ ['\n'] := by
  induction t generalizing acc with
  | nil =>
    unfold FllImporter.linesAux
    cases acc <;> simp
  | cons c t ih =>
    unfold FllImporter.linesAux
    split
    · rename_i hc
      rw [List.flatMap_cons, hc]
      rcases ih [] with h | h <;> rw [h] <;> simp
    · rcases ih (c :: acc) with h | h <;> rw [h] <;> simp

/-- a line feed is added after the last line if it has none -/
theorem endLines_eq (t : Str) : endLines t = t ∨ endLines t = t ++ ['\n'] := endAux [] t

theorem pieces_endLines (t : Str) : Op.join (Op.split (endLines t) (cs! "\n") true) (cs! "\n") =
    Op.join (Op.split t (cs! "\n") true) (cs! "\n") := by
  rcases endLines_eq t with h | h
  · rw [h]
  · rw [h]
    by_cases h0 : t = []
    · subst h0; rfl
    · have h1 : (t ++ ['\n'] : Str) ≠ [] := by simp
      have e : Op.split (t ++ ['\n']) ['\n'] false = Op.split t ['\n'] false ++ Op.split [] ['\n'] false :=
        Strict.split_append t [] '\n'
      have h2 : Op.split [] ['\n'] false = [[]] := by simp [Op.split]
      show Op.join (Op.split (t ++ ['\n']) ['\n'] true) _ = Op.join (Op.split t ['\n'] true) _
      rw [Op.split_ignoreEmpty _ _ h1 (by simp), Op.split_ignoreEmpty _ _ h0 (by simp), e, h2]
      simp

section General
variable {S : Type} [ScalarText S] [Truncate S]

/-- reading the lines of a file does not change what is imported -/
theorem importText_endLines (G : Registry S) (f t : Str) : importText G f (endLines t) = importText G f t := by
  unfold importText
  split_ifs
  · unfold FllImporter.fromString
    have := pieces_endLines t
    show (do
      let s ← (FllImporter.lines (Op.join (Op.split (endLines t) (cs! "\n") true) (cs! "\n"))).foldlM
        (({} : FllImporter).step G) ⟨⟨[], [], [], [], []⟩, [], []⟩
      ({} : FllImporter).process G s.tag (Op.join s.block (cs! "\n")) s.engine) = _
    rw [this]
  · unfold FclImporter.fromString
    rw [lines_endLines]
  · unfold FisImporter.fromString
    rw [lines_endLines]
  · rfl

end General

/-! ### options -/

theorem find_set (o : Options) (k v k' : Str) : (o.set k v).find k' = if k' = k then some v else o.find k' := by
  induction o with
  | nil =>
    unfold Options.set Options.find
    rw [List.lookup_cons]
    by_cases h : k' = k
    · simp [h]
    · have : (k' == k) = false := by simpa using h
      rw [this, if_neg h]
  | cons p o ih =>
    obtain ⟨a, b⟩ := p
    unfold Options.set Options.find
    split
    · rename_i hk
      subst hk
      rw [List.lookup_cons, List.lookup_cons]
      by_cases h : k' = k
      · simp [h]
      · have : (k' == k) = false := by simpa using h
        simp [this, h]
    · rename_i hk
      rw [List.lookup_cons, List.lookup_cons]
      by_cases h : k' = a
      · have hne : ¬ k' = k := fun e => hk (e ▸ h)
        have : (k' == a) = true := by simpa using h
        rw [this, if_neg hne]
      · have : (k' == a) = false := by simpa using h
        rw [this]
        exact ih

/-- the arguments of options -/
def arguments (kvs : List (Str × Str)) : List Str := kvs.flatMap fun p => [p.1, p.2]

/-- the value of an option: the last one given -/
def valueOf (kvs : List (Str × Str)) (k : Str) : Option Str := List.lookup k kvs.reverse

theorem lookup_append (xs ys : List (Str × Str)) (k : Str) :
    List.lookup k (xs ++ ys) = (List.lookup k xs).or (List.lookup k ys) := by
  induction xs with
  | nil => rfl
  | cons p xs ih =>
    rw [List.cons_append, List.lookup_cons, List.lookup_cons]
    cases k == p.1 <;> simp [ih]

theorem valueOf_cons (p : Str × Str) (kvs : List (Str × Str)) (k : Str) :
    valueOf (p :: kvs) k = (valueOf kvs k).or (if k = p.1 then some p.2 else none) := by
  unfold valueOf
  rw [List.reverse_cons, lookup_append, List.lookup_cons]
  by_cases h : k = p.1
  · simp [h]
  · have : (k == p.1) = false := by simpa using h
    simp [this, h]

theorem find_pairs (kvs : List (Str × Str)) (o : Options) (k : Str) :
    (pairs o (arguments kvs)).find k = (valueOf kvs k).or (o.find k) := by
  induction kvs generalizing o with
  | nil => simp [arguments, pairs, valueOf]
  | cons p kvs ih =>
    show (pairs (o.set p.1 p.2) (arguments kvs)).find k = _
    rw [ih, find_set, valueOf_cons]
    by_cases h : k = p.1
    · simp only [h, if_true]; cases valueOf kvs p.1 <;> rfl
    · simp only [h, if_false]; cases valueOf kvs k <;> rfl

theorem arguments_even (kvs : List (Str × Str)) : (arguments kvs).length % 2 = 0 := by
  induction kvs with
  | nil => rfl
  | cons p kvs ih =>
    show ((arguments kvs).length + 1 + 1) % 2 = 0
    omega

theorem mem_set {o : Options} {k v : Str} {p : Str × Str} (h : p ∈ o.set k v) : p ∈ o ∨ p.1 = k := by
  induction o with
  | nil =>
    rw [Options.set, List.mem_singleton] at h
    exact .inr (by rw [h])
  | cons q o ih =>
    unfold Options.set at h
    split at h
    · rcases List.mem_cons.1 h with h | h
      · exact .inr (by rw [h])
      · exact .inl (List.mem_cons_of_mem _ h)
    · rcases List.mem_cons.1 h with h | h
      · exact .inl (h ▸ List.mem_cons_self)
      · exact (ih h).imp_left (List.mem_cons_of_mem _)

theorem mem_pairs {kvs : List (Str × Str)} {o : Options} {p : Str × Str} (h : p ∈ pairs o (arguments kvs)) :
    p ∈ o ∨ ∃ q ∈ kvs, q.1 = p.1 := by
  induction kvs generalizing o with
  | nil => exact .inl h
  | cons q kvs ih =>
    have h : p ∈ pairs (o.set q.1 q.2) (arguments kvs) := h
    rcases ih h with h | ⟨r, hr, e⟩
    · rcases mem_set h with h | h
      · exact .inl h
      · exact .inr ⟨q, List.mem_cons_self, h.symm⟩
    · exact .inr ⟨r, List.mem_cons_of_mem _ hr, e⟩

theorem mem_of_find {o : Options} {k v : Str} (h : o.find k = some v) : (k, v) ∈ o := by
  induction o with
  | nil => cases h
  | cons q o ih =>
    unfold Options.find at h
    rw [List.lookup_cons] at h
    cases hq : k == q.1 with
    | true =>
      rw [hq] at h
      have : k = q.1 := by simpa using hq
      simp only [Option.some.injEq] at h
      rw [this, ← h]; exact List.mem_cons_self
    | false => rw [hq] at h; exact List.mem_cons_of_mem _ (ih h)

theorem valueOf_ne_none {kvs : List (Str × Str)} {p : Str × Str} (h : p ∈ kvs) : valueOf kvs p.1 ≠ none := by
  induction kvs with
  | nil => cases h
  | cons q kvs ih =>
    rw [valueOf_cons]
    rcases List.mem_cons.1 h with h | h
    · subst h; simp
    · have := ih h
      cases hv : valueOf kvs p.1 with
      | none => exact absurd hv this
      | some v => simp

/-- the options of the program -/
def known : List Str :=
  [cs! "-i", cs! "-if", cs! "-o", cs! "-of", cs! "-example", cs! "-decimals", cs! "-d", cs! "-values", cs! "-scope",
   cs! "-dheader", cs! "-dinputs"]

theorem available_iff (k : Str) : (availableOptions.any fun q => q.1 == k) = true ↔ k ∈ known := by
  have : known = availableOptions.map Prod.fst := rfl
  rw [this, List.any_eq_true, List.mem_map]
  simp only [beq_iff_eq]

theorem known_dash {k : Str} (h : k ∈ known) : ∃ s, k = '-' :: s := by
  unfold known at h
  simp only [List.mem_cons, List.not_mem_nil, or_false] at h
  rcases h with rfl | rfl | rfl | rfl | rfl | rfl | rfl | rfl | rfl | rfl | rfl <;> exact ⟨_, rfl⟩

/-- **C76.**  Options of the program are accepted, and each has the last value given for it. -/
theorem parse_known (kvs : List (Str × Str)) (h : ∀ p ∈ kvs, p.1 ∈ known) :
    ∃ o, parse (arguments kvs) = .ok o ∧ ∀ k, o.find k = valueOf kvs k := by
  refine ⟨pairs [] (arguments kvs), ?_, fun k => by rw [find_pairs]; cases valueOf kvs k <;> rfl⟩
  have hk : ∀ p ∈ pairs [] (arguments kvs), p.1 ∈ known := by
    intro p hp
    rcases mem_pairs hp with hp | ⟨q, hq, e⟩
    · cases hp
    · exact e ▸ h q hq
  unfold parse
  rw [if_neg (by simp [arguments_even])]
  generalize pairs [] (arguments kvs) = o at hk ⊢
  have hall : (o.all fun p => availableOptions.any fun q => q.1 == p.1) = true :=
    List.all_eq_true.2 fun p hp => (available_iff p.1).2 (hk p hp)
  match o, hk, hall with
  | [], _, _ => rfl
  | [(k, v)], hk, _ =>
    obtain ⟨s, rfl⟩ := known_dash (hk (k, v) (by simp))
    simp
  | a :: b :: o, _, hall => simp only; rw [if_pos hall]

theorem set_other {o : Options} {k v a b : Str} (h : (a, b) ∈ o) (hk : a ≠ k) : (a, b) ∈ o.set k v := by
  induction o with
  | nil => cases h
  | cons q o ih =>
    unfold Options.set
    split
    · rename_i e
      rcases List.mem_cons.1 h with h | h
      · exact absurd (e ▸ congrArg Prod.fst h) hk
      · exact List.mem_cons_of_mem _ h
    · rcases List.mem_cons.1 h with h | h
      · rw [← h]; exact List.mem_cons_self
      · exact List.mem_cons_of_mem _ (ih h)

/-- **C76.**  Two arguments, of which the first does not begin with a dash, are the input and the output file. -/
theorem parse_files (i o : Str) (h0 : i ≠ []) (h : i.head? ≠ some '-') :
    ∃ p, parse [i, o] = .ok p ∧ p.find (cs! "-i") = some i ∧ p.find (cs! "-o") = some o ∧
      ∀ k, k ∈ known → k ≠ cs! "-i" → k ≠ cs! "-o" → p.find k = none := by
  cases i with
  | nil => exact absurd rfl h0
  | cons c i =>
    have hc : c ≠ '-' := fun e => h (by rw [e]; rfl)
    refine ⟨Options.set (Options.set [(c :: i, o)] (cs! "-i") (c :: i)) (cs! "-o") o, ?_, ?_, ?_, ?_⟩
    · show (if ([c :: i, o] : List Str).length % 2 ≠ 0 then Except.error Err.unsupported else
        (if c ≠ '-' then _ else _)) = _
      rw [if_neg (by simp), if_pos hc]
    · rw [find_set, find_set, if_neg (by decide), if_pos rfl]
    · rw [find_set, if_pos rfl]
    · intro k hk h1 h2
      rw [find_set, find_set, if_neg h2, if_neg h1]
      obtain ⟨s, rfl⟩ := known_dash hk
      have hne : ¬ ('-' :: s : Str) = c :: i := fun e => hc (by injection e with e; exact e.symm)
      have : (('-' :: s : Str) == c :: i) = false := by simpa using hne
      rw [Options.find, List.lookup_cons, this]
      rfl

/-- **C76.**  An odd number of arguments is rejected. -/
theorem parse_odd (args : List Str) (h : args.length % 2 = 1) : parse args = .error .unsupported := by
  unfold parse
  rw [if_pos (by omega)]

/-- **C76.**  An unknown option is rejected if there is any other. -/
theorem parse_unknown (kvs : List (Str × Str)) (p q : Str × Str) (hp : p ∈ kvs) (hq : q ∈ kvs) (hu : p.1 ∉ known)
    (hne : p.1 ≠ q.1) : parse (arguments kvs) = .error .unsupported := by
  have find : ∀ r ∈ kvs, ∃ v, (r.1, v) ∈ pairs [] (arguments kvs) := by
    intro r hr
    cases hv : valueOf kvs r.1 with
    | none => exact absurd hv (valueOf_ne_none hr)
    | some v => exact ⟨v, mem_of_find (by rw [find_pairs, hv]; rfl)⟩
  obtain ⟨v, hv⟩ := find p hp
  obtain ⟨u, hu'⟩ := find q hq
  unfold parse
  rw [if_neg (by simp [arguments_even])]
  generalize pairs [] (arguments kvs) = o at hv hu' ⊢
  match o, hv, hu' with
  | [(k, w)], hv, hu' =>
    simp only [List.mem_singleton, Prod.mk.injEq] at hv hu'
    exact absurd (hv.1.trans hu'.1.symm) hne
  | a :: b :: o, hv, _ =>
    have hall : ((a :: b :: o).all fun p => availableOptions.any fun q => q.1 == p.1) = false := by
      by_contra hc
      have hc : ((a :: b :: o).all fun p => availableOptions.any fun q => q.1 == p.1) = true := by simpa using hc
      exact hu ((available_iff p.1).1 (List.all_eq_true.1 hc (p.1, v) hv))
    simp only
    rw [hall]
    rfl

/-- a text in a column -/
def column (n : Nat) (s : Str) : Str := s ++ List.replicate (n - s.length) ' '

/-- **C76.**  The text of the usage is complete: it says how to call the program, lists all options, and explains each in a line, where no key and
no value is longer than its column. -/
theorem usage_ok : usage = .ok (cs! "========================================
fuzzylite: a fuzzy logic control library
version: 7.0.0
author: Juan Rada-Vilela, Ph.D.
license: FuzzyLite License
========================================

usage: fuzzylite inputfile outputfile
   or: fuzzylite benchmark engine.fll input.fld runs [output.tsv]
   or: fuzzylite benchmarks fllFiles.txt fldFiles.txt runs [output.tsv]
   or: fuzzylite [-i inputfile] [-if format] [-o outputfile] [-of format] [-example letter] [-decimals number] [-d file] [-values number] [-scope scope] [-dheader boolean] [-dinputs boolean] \n
where:
" ++ (availableOptions.flatMap fun o => column 12 o.1 ++ column 13 o.2.1 ++ o.2.2 ++ cs! "\n") ++ cs! "
Visit http://www.fuzzylite.com/ for more information.

Copyright (C) 2010-2017 by FuzzyLite Limited.
All rights reserved.") := by
  decide +kernel


/-! ### the program -/

theorem extension_stem (stem f : Str) (h : '.' ∉ f) : extension (stem ++ '.' :: f) = some f := by
  unfold extension
  rw [if_pos (by simp)]
  have e : (stem ++ '.' :: f).reverse = f.reverse ++ '.' :: stem.reverse := by simp
  rw [e]
  have : (f.reverse ++ '.' :: stem.reverse).takeWhile (fun c => decide (c ≠ '.')) = f.reverse := by
    rw [List.takeWhile_append_of_pos (by
      intro c hc
      have : c ∈ f := by simpa using hc
      simpa using fun e : c = '.' => h (e ▸ this))]
    simp
  rw [this, List.reverse_reverse]

theorem extension_none (f : Str) (h : '.' ∉ f) : extension f = none := by
  unfold extension
  rw [if_neg h]

section General
variable {S : Type} [ScalarText S] [Truncate S] [Heap S]

theorem processWith_congr (w : World S) (G : Registry S) (o o' : Options) (h : ∀ k, o.find k = o'.find k) :
    processWith w G o = processWith w G o' := by
  simp only [processWith, source, convert, writeData, dataExporter, scope, h]

theorem process_congr (w : World S) (G : Registry S) (o o' : Options) (h : ∀ k, o.find k = o'.find k) :
    process w G o = process w G o' := by
  unfold process
  rw [h, processWith_congr w G o o' h]
  cases o'.find (cs! "-decimals") with
  | none => rfl
  | some d =>
    simp only
    cases toInt S d with
    | error err => rfl
    | ok n => exact @processWith_congr S (printing (w.printed n)) _ _ w G o o' h

/-- **C76.**  Given options of the program, it processes the last value of each. -/
theorem main_known (w : World S) (G : Registry S) (kvs : List (Str × Str)) (h : ∀ p ∈ kvs, p.1 ∈ known) (h0 : kvs ≠ [])
    (o : Options) (ho : ∀ k, o.find k = valueOf kvs k) : main w G (arguments kvs) = some (process w G o) := by
  obtain ⟨o', h1, h2⟩ := parse_known kvs h
  cases kvs with
  | nil => exact absurd rfl h0
  | cons p kvs =>
    obtain ⟨s, hs⟩ := known_dash (h p List.mem_cons_self)
    show (if p.1 = cs! "export-examples" ∨ p.1 = cs! "benchmark" ∨ p.1 = cs! "benchmarks" then none
      else match parse (arguments (p :: kvs)) with
      | .error err => some ⟨none, [], some err⟩
      | .ok o => some (process w G o)) = _
    rw [if_neg (by
      rw [hs]
      rintro (e | e | e) <;> · injection e with e _; exact absurd e (by decide)), h1]
    exact congrArg some (process_congr w G o' o fun k => (h2 k).trans (ho k).symm)

/-- **C76.**  The order of different options does not matter. -/
theorem main_order (w : World S) (G : Registry S) (kvs kvs' : List (Str × Str)) (h : ∀ p ∈ kvs, p.1 ∈ known)
    (hp : kvs.Perm kvs') (hn : (kvs.map Prod.fst).Nodup) : main w G (arguments kvs) = main w G (arguments kvs') := by
  by_cases h0 : kvs = []
  · subst h0
    rw [List.nil_perm.1 hp]
  · have h' : ∀ p ∈ kvs', p.1 ∈ known := fun p hq => h p (hp.mem_iff.2 hq)
    have h0' : kvs' ≠ [] := fun e => h0 (by rw [e] at hp; exact List.perm_nil.1 hp)
    obtain ⟨o, -, ho⟩ := parse_known kvs h
    rw [main_known w G kvs h h0 o ho, main_known w G kvs' h' h0' o]
    intro k
    rw [ho]
    have key : ∀ (l : List (Str × Str)), (l.map Prod.fst).Nodup → ∀ k v, List.lookup k l = some v ↔ (k, v) ∈ l := by
      intro l hl k v
      constructor
      · exact mem_of_find
      · intro hm
        induction l with
        | nil => cases hm
        | cons q l ih =>
          rw [List.map_cons, List.nodup_cons] at hl
          rw [List.lookup_cons]
          rcases List.mem_cons.1 hm with e | hm
          · rw [← e]; simp
          · have : k ≠ q.1 := fun e => hl.1 (e ▸ List.mem_map_of_mem (f := Prod.fst) hm)
            have : (k == q.1) = false := by simpa using this
            rw [this]
            exact ih hl.2 hm
    have hn' : (kvs'.map Prod.fst).Nodup := (hp.map Prod.fst).nodup_iff.1 hn
    unfold valueOf
    apply Option.ext
    intro v
    rw [key _ (by rw [List.map_reverse]; exact List.nodup_reverse.2 hn), key _ (by rw [List.map_reverse]; exact List.nodup_reverse.2 hn'),
      List.mem_reverse, List.mem_reverse]
    exact hp.mem_iff

/-- **C76.**  Unknown options make the program fail, and it touches no file; except for two arguments, repeated or not, of
which the first does not begin with a dash. -/
theorem main_unknown (w : World S) (G : Registry S) (kvs : List (Str × Str)) (p : Str × Str) (hp : p ∈ kvs) (hu : p.1 ∉ known)
    (hs : p.1.head? = some '-' ∨ ∃ q ∈ kvs, q.1 ≠ p.1)
    (hc : ∀ q ∈ kvs.head?, q.1 ≠ cs! "export-examples" ∧ q.1 ≠ cs! "benchmark" ∧ q.1 ≠ cs! "benchmarks") :
    ∃ err, main w G (arguments kvs) = some ⟨none, [], some err⟩ := by
  have hm : main w G (arguments kvs) = match parse (arguments kvs) with
      | .error err => some ⟨none, [], some err⟩
      | .ok o => some (process w G o) := by
    cases kvs with
    | nil => cases hp
    | cons q kvs =>
      obtain ⟨c1, c2, c3⟩ := hc q rfl
      show (if q.1 = cs! "export-examples" ∨ q.1 = cs! "benchmark" ∨ q.1 = cs! "benchmarks" then none else _) = _
      rw [if_neg (by rintro (e | e | e); exacts [c1 e, c2 e, c3 e])]
      rfl
  rw [hm]
  by_cases hall : ∃ q ∈ kvs, q.1 ≠ p.1
  · obtain ⟨q, hq, hne⟩ := hall
    rw [parse_unknown kvs p q hp hq hu (Ne.symm hne)]
    exact ⟨_, rfl⟩
  · push Not at hall
    have hd : p.1.head? = some '-' := by
      rcases hs with h | ⟨q, hq, hne⟩
      · exact h
      · exact absurd (hall q hq) hne
    cases hpa : parse (arguments kvs) with
    | error err => exact ⟨err, rfl⟩
    | ok o =>
      have hfind : ∀ k, k ≠ p.1 → (pairs [] (arguments kvs)).find k = none := by
        intro k hk
        cases hf : (pairs [] (arguments kvs)).find k with
        | none => rfl
        | some v =>
          rcases mem_pairs (mem_of_find hf) with h | ⟨q, hq, e⟩
          · cases h
          · exact absurd ((hall q hq).symm.trans e).symm hk
      have ho : o = pairs [] (arguments kvs) := by
        unfold parse at hpa
        rw [if_neg (by simp [arguments_even])] at hpa
        have hmem : ∀ r ∈ pairs [] (arguments kvs), r.1 = p.1 := by
          intro r hr
          rcases mem_pairs hr with h | ⟨q, hq, e⟩
          · cases h
          · exact e.symm.trans (hall q hq)
        generalize pairs [] (arguments kvs) = x at hpa hmem ⊢
        match x, hpa, hmem with
        | [], hpa, _ => simpa using hpa.symm
        | [(k, v)], hpa, hmem =>
          have hk : k = p.1 := hmem (k, v) (by simp)
          rw [← hk] at hd
          cases k with
          | nil => cases hd
          | cons c k =>
            simp only [List.head?_cons, Option.some.injEq] at hd
            subst hd
            simpa using hpa.symm
        | a :: b :: x, hpa, _ =>
          simp only at hpa
          split at hpa
          · simpa using hpa.symm
          · cases hpa
      have hne : ∀ k ∈ known, k ≠ p.1 := fun k hk e => hu (e ▸ hk)
      refine ⟨.unsupported, ?_⟩
      subst ho
      simp only [process, processWith, source, hfind _ (hne (cs! "-decimals") (by decide)),
        hfind _ (hne (cs! "-example") (by decide)), hfind _ (hne (cs! "-i") (by decide))]

/-- **C76.**  With fewer than two arguments, and with an odd number of them, no file is touched. -/
theorem main_few (w : World S) (G : Registry S) (args : List Str) (h : args.length < 2) :
    main w G args = some ⟨none, [], none⟩ := by
  match args, h with
  | [], _ => rfl
  | [_], _ => rfl
  | _ :: _ :: _, h => simp at h

theorem main_odd (w : World S) (G : Registry S) (a : Str) (args : List Str) (h : (a :: args).length % 2 = 1) (h2 : args ≠ [])
    (hc : a ≠ cs! "export-examples" ∧ a ≠ cs! "benchmark" ∧ a ≠ cs! "benchmarks") :
    main w G (a :: args) = some ⟨none, [], some .unsupported⟩ := by
  cases args with
  | nil => exact absurd rfl h2
  | cons b args =>
    show (if a = cs! "export-examples" ∨ a = cs! "benchmark" ∨ a = cs! "benchmarks" then none
      else match parse (a :: b :: args) with
      | .error err => some ⟨none, [], some err⟩
      | .ok o => some (process w G o)) = _
    rw [if_neg (by rintro (e | e | e); exacts [hc.1 e, hc.2.1 e, hc.2.2 e]), parse_odd _ h]

/-! ### conversions -/

/-- the text in a format denotes the engine -/
inductive Imports (G : Registry S) : Str → Str → Engine S → Prop
  | fll {text : Str} {e : Engine S} (h : ({} : FllImporter).fromString G text = .ok e) : Imports G (cs! "fll") text e
  | fcl {text : Str} {e : Engine S} (h : ({} : FclImporter).fromString G text = .ok e) : Imports G (cs! "fcl") text e
  | fis {text : Str} {e : Engine S} (h : ({} : FisImporter).fromString G text = .ok e) : Imports G (cs! "fis") text e

/-- the engine is written in a format as the text -/
inductive Exports : Str → Engine S → Str → Prop
  | fll (e : Engine S) : Exports (cs! "fll") e (({} : FllExporter).toString e)
  | fcl (e : Engine S) : Exports (cs! "fcl") e (({} : FclExporter).toString e)
  | fis {e : Engine S} {text : Str} (h : FisExporter.toString e = .ok text) : Exports (cs! "fis") e text
  | cpp (e : Engine S) : Exports (cs! "cpp") e (({} : CppExporter).toString e)
  | java (e : Engine S) : Exports (cs! "java") e (({} : JavaExporter).toString e)

theorem Imports.eq {G : Registry S} {f t : Str} {e : Engine S} (h : Imports G f t e) : importText G f t = .ok e := by
  cases h with
  | fll h => exact h
  | fcl h => exact h
  | fis h => exact h

theorem Exports.eq {f t : Str} {e : Engine S} (h : Exports f e t) : exportText f e = .ok t ∧ f ≠ cs! "fld" := by
  cases h with
  | fll => exact ⟨rfl, by decide⟩
  | fcl => exact ⟨rfl, by decide⟩
  | fis h => exact ⟨h, by decide⟩
  | cpp => exact ⟨rfl, by decide⟩
  | java => exact ⟨rfl, by decide⟩

/-- The options name an input: a file that can be read, in a format given or named by the extension of the file. -/
structure Reads (w : World S) (o : Options) (format text : Str) : Prop where
  plain : o.find (cs! "-example") = none
  file : ∃ i, o.find (cs! "-i") = some i ∧ w.files i = some text ∧ (o.find (cs! "-if")).or (extension i) = some format

/-- The options name an output: a file that can be created, in a format given or named by the extension of the file. -/
structure Writes (w : World S) (o : Options) (file format : Str) : Prop where
  name : o.find (cs! "-o") = some file
  nonempty : file ≠ []
  created : w.creates file = true
  format : (o.find (cs! "-of")).or (extension file) = some format

/-- The options name no output file, but a format: the output is printed. -/
structure Prints (o : Options) (format : Str) : Prop where
  name : o.find (cs! "-o") = none ∨ o.find (cs! "-o") = some []
  format : o.find (cs! "-of") = some format

theorem Reads.source {w : World S} {o : Options} {f t : Str} (h : Reads w o f t) (G : Registry S) :
    source w G o = .ok (endLines t, f) := by
  obtain ⟨h1, i, h2, h3, h4⟩ := h
  unfold Console.source
  rw [h1]
  simp only [h2, h3]
  cases hf : o.find (cs! "-if") with
  | some g =>
    rw [hf] at h4
    simp only [Option.some_or, Option.some.injEq] at h4
    rw [h4]
  | none =>
    rw [hf] at h4
    simp only [Option.none_or] at h4
    simp only [h4]

theorem processWith_writes {w : World S} {G : Registry S} {o : Options} {input fi out fo : Str}
    (hs : source w G o = .ok (input, fi)) (hw : Writes w o out fo) :
    processWith w G o =
      let r := convert { w with files := fun f => if f = out then some [] else w.files f } G input fi fo o
      ⟨some r.1, r.2.1, r.2.2⟩ := by
  obtain ⟨h1, h2, h3, h4⟩ := hw
  unfold processWith
  rw [hs]
  simp only [h1, Option.getD_some, h4]
  rw [if_neg h2, if_pos h3]

theorem processWith_prints {w : World S} {G : Registry S} {o : Options} {input fi fo : Str}
    (hs : source w G o = .ok (input, fi)) (hw : Prints o fo) :
    processWith w G o = let r := convert w G input fi fo o; ⟨none, r.1, r.2.2⟩ := by
  obtain ⟨h1, h2⟩ := hw
  have : (o.find (cs! "-o")).getD [] = [] := by rcases h1 with h | h <;> rw [h] <;> rfl
  unfold processWith
  rw [hs]
  simp only [this, h2]
  rfl

theorem convert_text {w : World S} {G : Registry S} {o : Options} {input fi fo text : Str} {e : Engine S}
    (hi : Imports G fi input e) (ho : Exports fo e text) : convert w G (endLines input) fi fo o = (text, [], none) := by
  unfold convert
  rw [importText_endLines, hi.eq]
  simp only
  rw [if_neg ho.eq.2, ho.eq.1]

/-- **C76.**  An engine that can be imported and exported is written to the output file, and nothing else is. -/
theorem writes_text {w : World S} {G : Registry S} {o : Options} {input fi out fo text : Str} {e : Engine S}
    (hr : Reads w o fi input) (hw : Writes w o out fo) (hi : Imports G fi input e) (ho : Exports fo e text) :
    processWith w G o = ⟨some text, [], none⟩ := by
  rw [processWith_writes (hr.source G) hw]
  simp only [convert_text hi ho]

/-- **C76.**  Without an output file, it is printed. -/
theorem prints_text {w : World S} {G : Registry S} {o : Options} {input fi fo text : Str} {e : Engine S}
    (hr : Reads w o fi input) (hw : Prints o fo) (hi : Imports G fi input e) (ho : Exports fo e text) :
    processWith w G o = ⟨none, text, none⟩ := by
  rw [processWith_prints (hr.source G) hw]
  simp only [convert_text hi ho]

/-- **C76.**  The examples have these names. -/
theorem example_iff (x code : Str) : exampleCode x = some code ↔
    (x ∈ [cs! "m", cs! "mamdani"] ∧ code = mamdaniCode) ∨ (x ∈ [cs! "t", cs! "ts", cs! "takagi-sugeno"] ∧ code = takagiSugenoCode) := by
  have n1 : ∀ y ∈ [cs! "t", cs! "ts", cs! "takagi-sugeno"], ¬(y = cs! "m" ∨ y = cs! "mamdani") := by decide
  unfold exampleCode
  by_cases h1 : x = cs! "m" ∨ x = cs! "mamdani"
  · rw [if_pos h1, Option.some_inj]
    refine ⟨fun h => .inl ⟨by simpa using h1, h.symm⟩, fun h => ?_⟩
    rcases h with h | h
    · exact h.2.symm
    · exact absurd h1 (n1 x h.1)
  · rw [if_neg h1]
    by_cases h2 : x = cs! "t" ∨ x = cs! "ts" ∨ x = cs! "takagi-sugeno"
    · rw [if_pos h2, Option.some_inj]
      refine ⟨fun h => .inr ⟨by simpa using h2, h.symm⟩, fun h => ?_⟩
      rcases h with h | h
      · exact absurd (by simpa using h.1) h1
      · exact h.2.symm
    · rw [if_neg h2]
      refine ⟨fun h => (by cases h), fun h => ?_⟩
      rcases h with h | h
      · exact absurd (by simpa using h.1) h1
      · exact absurd (by simpa using h.1) h2

/-- **C76.**  The examples are exported like the files with their text in FLL. -/
theorem writes_example {w : World S} {G : Registry S} {o : Options} {x code out fo text : Str} {e e' : Engine S}
    (hx : o.find (cs! "-example") = some x) (hc : exampleCode x = some code) (hb : Cpp.execute G code = .ok e)
    (hw : Writes w o out fo) (hi : ({} : FllImporter).fromString G (({} : FllExporter).toString e) = .ok e') (ho : Exports fo e' text) :
    processWith w G o = ⟨some text, [], none⟩ := by
  have hs : source w G o = .ok (({} : FllExporter).toString e, cs! "fll") := by
    unfold source
    rw [hx]
    simp only [hc, build, hb]
    rfl
  rw [processWith_writes hs hw]
  have : convert { w with files := fun f => if f = out then some [] else w.files f } G (({} : FllExporter).toString e)
      (cs! "fll") fo o = (text, [], none) := by
    unfold convert
    rw [(Imports.fll hi).eq]
    simp only
    rw [if_neg ho.eq.2, ho.eq.1]
  simp only [this]

/-- **C76.**  The number of decimals changes how scalars are printed, and nothing else. -/
theorem process_decimals (w : World S) (G : Registry S) (o : Options) :
    (o.find (cs! "-decimals") = none → process w G o = processWith w G o) ∧
    (∀ d n, o.find (cs! "-decimals") = some d → toInt S d = .ok n →
      process w G o = @processWith S (printing (w.printed n)) _ _ w G o) ∧
    (∀ d err, o.find (cs! "-decimals") = some d → toInt S d = .error err → process w G o = ⟨none, [], some err⟩) := by
  refine ⟨fun h => by unfold process; rw [h], fun d n h hn => by unfold process; rw [h]; simp only [hn],
    fun d err h hn => by unfold process; rw [h]; simp only [hn]⟩

theorem two_files (w : World S) (G : Registry S) (stem stem' fi fo : Str) (hd : stem.head? ≠ some '-') (h1 : '.' ∉ fi) (h2 : '.' ∉ fo)
    {input : Str} (hr : w.files (stem ++ '.' :: fi) = some input) (hw : w.creates (stem' ++ '.' :: fo) = true) :
    ∃ o, main w G [stem ++ '.' :: fi, stem' ++ '.' :: fo] = some (processWith w G o) ∧ Reads w o fi input ∧
      Writes w o (stem' ++ '.' :: fo) fo ∧ ∀ k, k ∈ known → k ≠ cs! "-i" → k ≠ cs! "-o" → o.find k = none := by
  have hh : (stem ++ '.' :: fi).head? ≠ some '-' := by
    cases stem with
    | nil => simp
    | cons c s => simpa using hd
  obtain ⟨o, k1, k2, k3, k4⟩ := parse_files (stem ++ '.' :: fi) (stem' ++ '.' :: fo) (by simp) hh
  refine ⟨o, ?_, ⟨k4 _ (by decide) (by decide) (by decide), _, k2, hr, ?_⟩, ⟨k3, by simp, hw, ?_⟩, k4⟩
  · have hn : ∀ s : Str, '.' ∉ s → stem ++ '.' :: fi ≠ s := fun s hs e => hs (e ▸ by simp)
    show (if stem ++ '.' :: fi = cs! "export-examples" ∨ stem ++ '.' :: fi = cs! "benchmark" ∨ stem ++ '.' :: fi = cs! "benchmarks" then none
      else match parse [stem ++ '.' :: fi, stem' ++ '.' :: fo] with
      | .error err => some ⟨none, [], some err⟩
      | .ok o => some (process w G o)) = _
    rw [if_neg (by rintro (e | e | e) <;> exact hn _ (by decide) e), k1]
    exact congrArg some ((process_decimals w G o).1 (k4 _ (by decide) (by decide) (by decide)))
  · rw [k4 _ (by decide) (by decide) (by decide), extension_stem _ _ h1]; rfl
  · rw [k4 _ (by decide) (by decide) (by decide), extension_stem _ _ h2]; rfl

/-- **C76.**  `fuzzylite name.fi name'.fo` writes to the second file what the engine of the first is in the other format,
and nothing else. -/
theorem converts (w : World S) (G : Registry S) (stem stem' fi fo : Str) (hd : stem.head? ≠ some '-') {input text : Str} {e : Engine S}
    (hr : w.files (stem ++ '.' :: fi) = some input) (hw : w.creates (stem' ++ '.' :: fo) = true)
    (hi : Imports G fi input e) (ho : Exports fo e text) :
    main w G [stem ++ '.' :: fi, stem' ++ '.' :: fo] = some ⟨some text, [], none⟩ := by
  have h1 : '.' ∉ fi := by cases hi <;> decide
  have h2 : '.' ∉ fo := by cases ho <;> decide
  obtain ⟨o, k1, k2, k3, -⟩ := two_files w G stem stem' fi fo hd h1 h2 hr hw
  rw [k1, writes_text k2 k3 hi ho]

/-- **C76.**  Copying the FLL text of a good engine changes nothing.  Partial: as C51. -/
theorem copies_fll_partial [LawfulText S] [LawfulInt S] (h1 : Op.isEq (lit 1 : S) (lit 1) = true) (w : World S) (G : Registry S)
    (stem stem' : Str) (hd : stem.head? ≠ some '-') (e : Engine S) (hg : Fll.Good e) (hs : Fll.Steadfast e) (hl : Fll.Loads G.functions e)
    (hr : w.files (stem ++ cs! ".fll") = some (({} : FllExporter).toString e)) (hw : w.creates (stem' ++ cs! ".fll") = true) :
    main w G [stem ++ cs! ".fll", stem' ++ cs! ".fll"] = some ⟨some (({} : FllExporter).toString e), [], none⟩ := by
  obtain ⟨e', k1, k2⟩ := Fll.roundTrip_partial h1 {} {} rfl rfl rfl (by decide) (by decide) G e hg hs hl
  have := converts w G stem stem' (cs! "fll") (cs! "fll") hd hr hw (.fll k1) (.fll e')
  rw [k2] at this
  exact this

/-- **C76.**  Copying the FCL text of a good engine changes nothing.  Partial: as C68. -/
theorem copies_fcl_partial [PlainText S] (h1 : Op.isEq (lit 1 : S) (lit 1) = true) (w : World S) (G : Registry S)
    (stem stem' : Str) (hd : stem.head? ≠ some '-') (e : Engine S) (hg : Fcl.Good e)
    (hs1 : ∀ v ∈ e.inputs, ∀ t ∈ v.terms, Fcl.SteadyTerm t) (hs2 : ∀ v ∈ e.outputs, ∀ t ∈ v.terms, Fcl.SteadyTerm t)
    (hl : Fcl.Loads G.functions e)
    (hr : w.files (stem ++ cs! ".fcl") = some (({} : FclExporter).toString e)) (hw : w.creates (stem' ++ cs! ".fcl") = true) :
    main w G [stem ++ cs! ".fcl", stem' ++ cs! ".fcl"] = some ⟨some (({} : FclExporter).toString e), [], none⟩ := by
  obtain ⟨e', k1, k2⟩ := Fcl.roundTrip_partial h1 {} (by decide) (by decide) {} G e hg hs1 hs2 hl
  have := converts w G stem stem' (cs! "fcl") (cs! "fcl") hd hr hw (.fcl k1) (.fcl e')
  rw [k2] at this
  exact this

/-- **C76.**  The C++ that a file is converted to builds an engine with the same FLL text.  Partial: as C74. -/
theorem converts_cpp_partial [Cpp.CppText S] (h1 : Op.isEq (lit 1 : S) (lit 1) = true) (w : World S) (G : Registry S)
    (stem stem' fi : Str) (hd : stem.head? ≠ some '-') {input : Str} {e : Engine S} (hi : Imports G fi input e)
    (hg : Cpp.Good {} e) (hs : Cpp.Faithful e) (hb : Cpp.Builds G e)
    (hr : w.files (stem ++ '.' :: fi) = some input) (hw : w.creates (stem' ++ cs! ".cpp") = true) :
    ∃ code e', main w G [stem ++ '.' :: fi, stem' ++ cs! ".cpp"] = some ⟨some code, [], none⟩ ∧
      Cpp.execute G code = .ok e' ∧ ({} : FllExporter).toString e' = ({} : FllExporter).toString e := by
  obtain ⟨e', k1, k2⟩ := Cpp.roundTrip_partial h1 {} {} G e hg hs hb
  exact ⟨_, e', converts w G stem stem' fi (cs! "cpp") hd hr hw hi (.cpp e), k1, k2⟩

/-- **C76.**  The Java that a file is converted to builds an engine with the same FLL text.  Partial: as C77. -/
theorem converts_java_partial [Cpp.CppText S] (h1 : Op.isEq (lit 1 : S) (lit 1) = true) (w : World S) (G : Registry S)
    (stem stem' fi : Str) (hd : stem.head? ≠ some '-') {input : Str} {e : Engine S} (hi : Imports G fi input e)
    (hg : Java.Good {} e) (hs : Cpp.Faithful e) (hb : Cpp.Builds G e)
    (hr : w.files (stem ++ '.' :: fi) = some input) (hw : w.creates (stem' ++ cs! ".java") = true) :
    ∃ code e', main w G [stem ++ '.' :: fi, stem' ++ cs! ".java"] = some ⟨some code, [], none⟩ ∧
      Java.execute G code = .ok e' ∧ ({} : FllExporter).toString e' = ({} : FllExporter).toString e := by
  obtain ⟨e', k1, k2⟩ := Java.roundTrip_partial h1 {} {} G e hg hs hb
  exact ⟨_, e', converts w G stem stem' fi (cs! "java") hd hr hw hi (.java e), k1, k2⟩

/-! ### data -/

/-- the exporter of data that the options ask for -/
def Configures (o : Options) (x : FldExporter) : Prop :=
  x.separator = cs! " " ∧ x.outputValues = true ∧
  (x.headers = true ↔ ∀ v, o.find (cs! "-dheader") = some v → v = cs! "true") ∧
  (x.inputValues = true ↔ ∀ v, o.find (cs! "-dinputs") = some v → v = cs! "true")

theorem dataExporter_eq {o : Options} {x : FldExporter} (h : Configures o x) : dataExporter o = x := by
  obtain ⟨h1, h2, h3, h4⟩ := h
  have key : ∀ (a : Option Str) (b : Bool), (b = true ↔ ∀ v, a = some v → v = cs! "true") → a.all (· == cs! "true") = b := by
    intro a b hb
    rw [Bool.eq_iff_iff, hb]
    cases a <;> simp
  cases x with
  | mk sep hd iv ov =>
    simp only at h1 h2 h3 h4
    subst h1; subst h2
    unfold dataExporter
    rw [key _ _ h3, key _ _ h4]

theorem convert_data {w : World S} {G : Registry S} {o : Options} {input fi : Str} {e : Engine S}
    (hi : Imports G fi input e) : convert w G (endLines input) fi (cs! "fld") o = writeData w e o := by
  unfold convert
  rw [importText_endLines, hi.eq]
  rfl

/-- **C76.**  The lines of a data file, other than the output file, are processed one after another (C59). -/
theorem writes_data {w : World S} {G : Registry S} {o : Options} {input fi out d data : Str} {e : Engine S} {x : FldExporter}
    (hr : Reads w o fi input) (hw : Writes w o out (cs! "fld")) (hi : Imports G fi input e) (hx : Configures o x)
    (hd : o.find (cs! "-d") = some d) (hne : d ≠ out) (hf : w.files d = some data) :
    processWith w G o = ⟨some (x.text e (x.writeReader e data).2.1), [], (x.writeReader e data).2.2⟩ := by
  rw [processWith_writes (hr.source G) hw]
  simp only [convert_data hi, writeData, hd, if_neg hne, hf, dataExporter_eq hx]

/-- the scope that the options ask for -/
inductive Scoped (o : Options) : Scope → Prop
  | default (h : o.find (cs! "-scope") = none) : Scoped o .eachVariable
  | each (h : o.find (cs! "-scope") = some (cs! "EachVariable")) : Scoped o .eachVariable
  | all (h : o.find (cs! "-scope") = some (cs! "AllVariables")) : Scoped o .allVariables

theorem Scoped.eq {o : Options} {s : Scope} (h : Scoped o s) : scope o = some s := by
  unfold scope
  cases h with
  | default h => rw [h]
  | each h => rw [h]; rfl
  | all h => rw [h]; rfl

theorem stable_all (vs : List (Variable S)) : Stable (vs.map fun _ => true) vs := by
  induction vs with
  | nil => trivial
  | cons v vs ih => exact ⟨fun h => by simp at h, ih⟩

/-- **C76.**  Without a data file, a number of values is written: the engine is processed at each point of the grid (C52).
Partial: as C52, the engine has input variables and the resolution is not negative. -/
theorem writes_values_partial {w : World S} {G : Registry S} {o : Options} {input fi out n : Str} {e : Engine S} {x : FldExporter}
    (hr : Reads w o fi input) (hw : Writes w o out (cs! "fld")) (hi : Imports G fi input e) (hx : Configures o x)
    (hd : o.find (cs! "-d") = none) (hn : o.find (cs! "-values") = some n) {values : Int} (hv : toInt S n = .ok values)
    {s : Scope} (hs : Scoped o s) {r : Int} (hres : s.resolution (S := S) e.inputs.length values = some r) (h0 : 0 ≤ r)
    (hne : e.inputs ≠ []) :
    let rows := sweep x e (gridPoints r e.inputs (e.inputs.map fun _ => true))
    processWith w G o = ⟨some (x.text e rows.2.1), [], rows.2.2⟩ := by
  intro rows
  have k1 := (x.write_spec e values s (e.inputs.map fun _ => true)).2 (by simp) r hres
  have k2 := (x.writeGrid_partial e r h0 (e.inputs.map fun _ => true) (by simp) hne (stable_all e.inputs)).1
  rw [processWith_writes (hr.source G) hw]
  simp only [convert_data hi, writeData, hd, hn, hv, hs.eq, dataExporter_eq hx, k1, k2]
  rfl

/-- **C76.**  Otherwise the interactive console is started; its text is written to the file, and shown. -/
theorem writes_interactive {w : World S} {G : Registry S} {o : Options} {input fi out : Str} {e : Engine S} {x : FldExporter}
    (hr : Reads w o fi input) (hw : Writes w o out (cs! "fld")) (hi : Imports G fi input e) (hx : Configures o x)
    (hd : o.find (cs! "-d") = none) (hn : o.find (cs! "-values") = none) {e' : Engine S} {text : Str}
    (ht : interactive w.message e w.keys = .ok (e', text ++ cs! "\n")) :
    let head := cs! "#FuzzyLite Interactive Console (press H for help)\n" ++ x.header e ++ cs! "\n"
    processWith w G o = ⟨some (head ++ text ++ cs! "\n"), head ++ text, none⟩ := by
  intro head
  rw [processWith_writes (hr.source G) hw]
  simp only [convert_data hi, writeData, hd, hn, dataExporter_eq hx, ht, List.dropLast_concat]
  simp only [head, List.append_assoc]

/-- **C76.**  Rows of numbers typed in the console of a memoryless engine are answered in the file, one line each.
Partial: as C75. -/
theorem writes_session_partial {w : World S} {G : Registry S} {o : Options} {input fi out : Str} {e : Engine S} {x : FldExporter}
    (hr : Reads w o fi input) (hw : Writes w o out (cs! "fld")) (hi : Imports G fi input e) (hx : Configures o x)
    (hd : o.find (cs! "-d") = none) (hn : o.find (cs! "-values") = none) (h : e.Memoryless) (h0 : e.inputs ≠ [])
    (rows : List (List (Str × Char) × List S))
    (hrows : ∀ r ∈ rows, Numbers r.1 r.2 ∧ r.1.length = e.inputs.length ∧ e.answer r.2 ≠ .error .ub)
    (hk : w.keys = (rows.flatMap fun r => rowKeys r.1) ++ cs! "Q") :
    let text := cs! "#FuzzyLite Interactive Console (press H for help)\n" ++ x.header e ++ cs! "\n" ++ cs! ">" ++
      rows.flatMap fun r => lineText w.message r.1 (e.answer r.2)
    processWith w G o = ⟨some (text ++ cs! "\n"), text, none⟩ := by
  intro text
  obtain ⟨e', -, k⟩ := session_partial w.message e h rows hrows h0 (cs! "Q") (.inr ⟨'Q', by simp, [], rfl⟩)
  rw [← hk] at k
  have := writes_interactive hr hw hi hx hd hn k
  simp only at this
  rw [this]
  simp only [text, List.append_assoc]

/-! ### failures -/

/-- **C76.**  A file is touched only if the input can be read, and the output has a format and can be created. -/
theorem touched (w : World S) (G : Registry S) (o : Options) (h : (process w G o).file ≠ none) :
    ∃ out fo, Writes w o out fo := by
  have key : ∀ T : ScalarText S, (@processWith S T _ _ w G o).file ≠ none → ∃ out fo, Writes w o out fo := by
    intro T h
    unfold processWith at h
    split at h
    · exact absurd rfl h
    · simp only at h
      split at h
      · exact absurd rfl h
      · rename_i fo hfo
        split at h
        · exact absurd rfl h
        · rename_i hne
          split at h
          · rename_i hc
            cases ho : o.find (cs! "-o") with
            | none => rw [ho] at hne; exact absurd rfl hne
            | some out =>
              rw [ho] at hne hc hfo
              exact ⟨out, fo, ho, hne, hc, hfo⟩
          · exact absurd rfl h
  unfold process at h
  split at h
  · exact key _ h
  · split at h
    · exact absurd rfl h
    · exact key _ h

/-- **C76 is violated** by every input that cannot be imported: the output file has been emptied by then. -/
theorem import_violated {w : World S} {G : Registry S} {o : Options} {input fi out fo : Str} {err : Err}
    (hr : Reads w o fi input) (hw : Writes w o out fo) (hi : importText G fi input = .error err) :
    processWith w G o = ⟨some [], [], some err⟩ := by
  rw [processWith_writes (hr.source G) hw]
  simp only [convert, importText_endLines, hi]

/-- **C76 is violated** by unknown formats of the output: the output file has been emptied by then. -/
theorem format_violated {w : World S} {G : Registry S} {o : Options} {input fi out fo : Str} {e : Engine S}
    (hr : Reads w o fi input) (hw : Writes w o out fo) (hi : Imports G fi input e)
    (hf : fo ∉ [cs! "fll", cs! "fcl", cs! "fis", cs! "cpp", cs! "java", cs! "fld"]) :
    processWith w G o = ⟨some [], [], some .unsupported⟩ := by
  rw [processWith_writes (hr.source G) hw]
  simp only [List.mem_cons, List.not_mem_nil, or_false, not_or] at hf
  obtain ⟨f1, f2, f3, f4, f5, f6⟩ := hf
  simp only [convert, importText_endLines, hi.eq, if_neg f6, exportText, if_neg f1, if_neg f2, if_neg f3, if_neg f4, if_neg f5]

/-- **C76 is violated** if the data file is the output file: it has been emptied before it is read. -/
theorem data_violated {w : World S} {G : Registry S} {o : Options} {input fi out : Str} {e : Engine S} {x : FldExporter}
    (hr : Reads w o fi input) (hw : Writes w o out (cs! "fld")) (hi : Imports G fi input e) (hx : Configures o x)
    (hd : o.find (cs! "-d") = some out) : processWith w G o = ⟨some (x.text e []), [], none⟩ := by
  rw [processWith_writes (hr.source G) hw]
  simp only [convert_data hi, writeData, hd, if_true, dataExporter_eq hx]
  rfl

end General

namespace Demo
local instance : Heap (Ext Rat) := RuleBlock.stableHeap _

def registry : Registry (Ext Rat) := .default

/-- an engine whose output is its input -/
def fll : Str := cs! "Engine: e\nInputVariable: a\n  range: 0 2\nOutputVariable: z\n  range: 0 2\n" ++
  cs! "  defuzzifier: WeightedAverage\n  term: t Linear 1\nRuleBlock:\n  rule: if a is any then z is t"

/-- a file with the engine, one with data, one with a mistake; two files that can be created -/
def world : World (Ext Rat) where
  files := fun f =>
    if f = cs! "e.fll" then some fll
    else if f = cs! "d.fld" then some (cs! "a\n1\n2")
    else if f = cs! "bad.fll" then some (cs! "Engine e")
    else none
  creates := fun f => f == cs! "o.fll" || f == cs! "o.fld" || f == cs! "bad.fll" || f == cs! "d.fld"
  keys := cs! "1 Q"
  message := fun _ => []
  printed := fun n x => if n = 0 then (Decimal.str x).takeWhile (· ≠ (Char.ofNat 46)) else Decimal.str x

/-- the program leaves this file and prints this text -/
def leaves (args : List Str) (file : Option Str) (out : Str) (error : Option Err) : Bool :=
  (main world registry args).any fun r => decide (r.file = file ∧ r.out = out ∧ r.error = error)

/-- Non-vacuity of C76: files are converted; options come in any order, the last value counts; data of a file and of a
grid; the console, whose text is also shown; without an output file, everything is printed. -/
example :
    leaves [cs! "e.fll", cs! "o.fll"] (some (cs! "Engine: e\nInputVariable: a\n  enabled: true\n  range: 0.000 2.000\n" ++
      cs! "  lock-range: false\nOutputVariable: z\n  enabled: true\n  range: 0.000 2.000\n  lock-range: false\n" ++
      cs! "  aggregation: none\n  defuzzifier: WeightedAverage\n  default: nan\n  lock-previous: false\n  term: t Linear 1.000\n" ++
      cs! "RuleBlock: \n  enabled: true\n  conjunction: none\n  disjunction: none\n  implication: none\n  activation: General\n" ++
      cs! "  rule: if a is any then z is t")) [] none ∧
    leaves [cs! "-i", cs! "e.fll", cs! "-o", cs! "o.fld", cs! "-d", cs! "d.fld"] (some (cs! "a z\n1.000 1.000\n2.000 2.000\n")) [] none ∧
    leaves [cs! "-d", cs! "d.fld", cs! "-o", cs! "?", cs! "-dheader", cs! "no", cs! "-o", cs! "o.fld", cs! "-i", cs! "e.fll"] (some (cs! "1.000 1.000\n2.000 2.000\n")) [] none ∧
    leaves [cs! "-values", cs! "3", cs! "-of", cs! "fld", cs! "-dinputs", cs! "false", cs! "-i", cs! "e.fll", cs! "-decimals", cs! "0"] none (cs! "z\n0\n1\n2\n") none ∧
    leaves [cs! "e.fll", cs! "o.fld"] (some
      (cs! "#FuzzyLite Interactive Console (press H for help)\na z\n>1\t=\t1.000\n>\n"))
      (cs! "#FuzzyLite Interactive Console (press H for help)\na z\n>1\t=\t1.000\n>") none := by decide +kernel

/-- the hypotheses of C76 hold of the options -/
example : let o : Options := [(cs! "-i", cs! "e.fll"), (cs! "-o", cs! "o.fld"), (cs! "-values", cs! "3")]
    Reads world o (cs! "fll") fll ∧ Writes world o (cs! "o.fld") (cs! "fld") ∧ Configures o {} ∧ Scoped o .eachVariable ∧
    ∃ e, Imports registry (cs! "fll") fll e ∧ e.inputs ≠ [] := by
  refine ⟨⟨by decide, cs! "e.fll", by decide, by decide, by decide⟩, ⟨by decide, by decide, by decide, by decide⟩,
    ⟨by decide, by decide, ?_, ?_⟩, .default (by decide), ?_⟩
  · exact ⟨fun _ v h => (by cases h), fun _ => rfl⟩
  · exact ⟨fun _ v h => (by cases h), fun _ => rfl⟩
  · have : (({} : FllImporter).fromString registry fll).toOption.any (fun e => decide (e.inputs.length = 1)) = true := by decide +kernel
    cases h : ({} : FllImporter).fromString registry fll with
    | error err => rw [h] at this; cases this
    | ok e =>
      rw [h] at this
      refine ⟨e, .fll h, fun h0 => ?_⟩
      simp [Except.toOption, h0] at this

/-- The statements of both examples are accepted: a dimmer, and an approximation of a function. -/
theorem accepted : ((Cpp.execute registry mamdaniCode).toOption.map fun e => (e.name, e.inputs.length, e.outputs.length)) =
      some (cs! "simple-dimmer", 1, 1) ∧
    ((Cpp.execute registry takagiSugenoCode).toOption.map fun e => (e.name, e.inputs.length, e.outputs.length)) =
      some (cs! "approximation", 1, 3) := by
  decide +kernel

/-- the file examples/hybrid/tipper.fll -/
def tipper : Str :=
  cs! "Engine: tipper\n" ++
  cs! "description: (service and food) -> (tip)\n" ++
  cs! "InputVariable: service\n" ++
  cs! "  description: quality of service\n" ++
  cs! "  enabled: true\n" ++
  cs! "  range: 0.000 10.000\n" ++
  cs! "  lock-range: true\n" ++
  cs! "  term: poor Trapezoid 0.000 0.000 2.500 5.000\n" ++
  cs! "  term: good Triangle 2.500 5.000 7.500\n" ++
  cs! "  term: excellent Trapezoid 5.000 7.500 10.000 10.000\n" ++
  cs! "InputVariable: food\n" ++
  cs! "  description: quality of food\n" ++
  cs! "  enabled: true\n" ++
  cs! "  range: 0.000 10.000\n" ++
  cs! "  lock-range: true\n" ++
  cs! "  term: rancid Trapezoid 0.000 0.000 2.500 7.500\n" ++
  cs! "  term: delicious Trapezoid 2.500 7.500 10.000 10.000\n" ++
  cs! "OutputVariable: mTip\n" ++
  cs! "  description: tip based on Mamdani inference\n" ++
  cs! "  enabled: true\n" ++
  cs! "  range: 0.000 30.000\n" ++
  cs! "  lock-range: false\n" ++
  cs! "  aggregation: Maximum\n" ++
  cs! "  defuzzifier: Centroid 100\n" ++
  cs! "  default: nan\n" ++
  cs! "  lock-previous: false\n" ++
  cs! "  term: cheap Triangle 0.000 5.000 10.000\n" ++
  cs! "  term: average Triangle 10.000 15.000 20.000\n" ++
  cs! "  term: generous Triangle 20.000 25.000 30.000\n" ++
  cs! "OutputVariable: tsTip\n" ++
  cs! "  description: tip based on Takagi-Sugeno inference\n" ++
  cs! "  enabled: true\n" ++
  cs! "  range: 0.000 30.000\n" ++
  cs! "  lock-range: false\n" ++
  cs! "  aggregation: none\n" ++
  cs! "  defuzzifier: WeightedAverage TakagiSugeno\n" ++
  cs! "  default: nan\n" ++
  cs! "  lock-previous: false\n" ++
  cs! "  term: cheap Constant 5.000\n" ++
  cs! "  term: average Constant 15.000\n" ++
  cs! "  term: generous Constant 25.000\n" ++
  cs! "RuleBlock: mamdani\n" ++
  cs! "  description: Mamdani inference\n" ++
  cs! "  enabled: true\n" ++
  cs! "  conjunction: AlgebraicProduct\n" ++
  cs! "  disjunction: AlgebraicSum\n" ++
  cs! "  implication: Minimum\n" ++
  cs! "  activation: General\n" ++
  cs! "  rule: if service is poor or food is rancid then mTip is cheap\n" ++
  cs! "  rule: if service is good then mTip is average\n" ++
  cs! "  rule: if service is excellent or food is delicious then mTip is generous with 0.5\n" ++
  cs! "  rule: if service is excellent and food is delicious then mTip is generous with 1.0\n" ++
  cs! "RuleBlock: takagiSugeno\n" ++
  cs! "  description: Takagi-Sugeno inference\n" ++
  cs! "  enabled: true\n" ++
  cs! "  conjunction: AlgebraicProduct\n" ++
  cs! "  disjunction: AlgebraicSum\n" ++
  cs! "  implication: none\n" ++
  cs! "  activation: General\n" ++
  cs! "  rule: if service is poor or food is rancid then tsTip is cheap\n" ++
  cs! "  rule: if service is good then tsTip is average\n" ++
  cs! "  rule: if service is excellent or food is delicious then tsTip is generous with 0.5\n" ++
  cs! "  rule: if service is excellent and food is delicious then tsTip is generous with 1.0"

/-- the engine in FLL -/
def shown (e : Engine (Ext Rat)) : Str := ({} : FllExporter).toString e

/-- **C76.**  The engine that `Console::hybrid` builds is the one of the file examples/hybrid/tipper.fll, text by text. -/
theorem hybrid_file : (Cpp.execute registry hybridCode).toOption.map shown = some tipper ∧
    (({} : FllImporter).fromString registry tipper).toOption.map shown = some tipper := by
  decide +kernel

/-- A dark room needs much power, a bright one little; the approximation is 0.84 at 1. -/
example :
    leaves [cs! "-example", cs! "mamdani", cs! "-of", cs! "fld", cs! "-values", cs! "5"] none
      (cs! "ambient power\n0.000 nan\n0.250 1.500\n0.500 1.000\n0.750 0.500\n1.000 nan\n") none ∧
    leaves [cs! "-example", cs! "ts", cs! "-of", cs! "fld", cs! "-values", cs! "1"] none
      (cs! "inputX outputFx trueValue difference\n0.000 nan nan nan\n") none := by decide +kernel

/-- **C76 is violated.**  A file that cannot be imported is emptied by its conversion to the same file, data are lost if
they are written to their own file, and a text that is not a number has undefined behaviour as number of decimals. -/
theorem violated :
    leaves [cs! "bad.fll", cs! "bad.fll"] (some []) [] (some .importing) ∧
    leaves [cs! "-i", cs! "e.fll", cs! "-o", cs! "d.fld", cs! "-d", cs! "d.fld"] (some (cs! "a z\n")) [] none ∧
    leaves [cs! "-i", cs! "e.fll", cs! "-o", cs! "o.fll", cs! "-decimals", cs! "nan"] none [] (some .ub) ∧
    leaves [[], cs! "o.fll"] none [] (some .outOfRange) ∧
    (parse [cs! "-foo", cs! "bar"]).isOk = true := by decide +kernel

end Demo

end Console
end FL
