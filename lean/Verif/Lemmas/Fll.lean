/-
The loop of the FLL importer on the lines of an exported text.
-/
import Verif.Lemmas.Lines

namespace FL
variable {S : Type}

namespace Fll

/-- a key: not empty, without blanks, colons and number signs -/
def Key (k : Str) : Prop := k ≠ [] ∧ ∀ c ∈ k, isSpace c = false ∧ c ≠ ':' ∧ c ≠ '#'

instance (k : Str) : Decidable (Key k) := by unfold Key; infer_instance

/-- a text that survives on a line: trimmed, without line feeds and without comments -/
def Clean (v : Str) : Prop := Op.trim v = v ∧ '#' ∉ v ∧ '\n' ∉ v

instance (v : Str) : Decidable (Clean v) := by unfold Clean; infer_instance

theorem step_line [ScalarText S] [Truncate S] (x : FllImporter) (G : Registry S) (s : FllImporter.State S)
    (ind k v : Str) (hi : ind.all isSpace = true) (hk : Key k) (hv : Clean v) :
    x.step G s (ind ++ (k ++ (cs! ": " ++ v))) = x.keyStep G s k v := by
  obtain ⟨hk0, hkc⟩ := hk
  obtain ⟨ht, hh, hn⟩ := hv
  have hkb : Op.NoBlank k := fun c hc => (hkc c hc).1
  have hhash : '#' ∉ ind ++ (k ++ (cs! ": " ++ v)) := by
    rw [List.all_eq_true] at hi
    simp only [List.mem_append, not_or]
    refine ⟨fun hc => absurd (hi _ hc) (by decide), fun hc => (hkc _ hc).2.2 rfl, by decide, hh⟩
  have hcol : ':' ∉ k := fun hc => (hkc _ hc).2.1 rfl
  have hhead : ∀ c, k.head? = some c → isSpace c = false := fun c hc => hkb c (List.mem_of_mem_head? hc)
  have key : ∃ r, Op.trim (ind ++ (k ++ (cs! ": " ++ v))) = k ++ ':' :: r ∧ Op.trim r = v := by
    by_cases h0 : v = []
    · refine ⟨[], ?_, ?_⟩
      · have hm : Op.trim (k ++ [':']) = k ++ [':'] := by
          apply Op.trim_of_ends
          · intro c hc
            rw [List.head?_append_of_ne_nil _ hk0] at hc
            exact hhead c hc
          · intro c hc
            simp only [List.getLast?_append, List.getLast?_singleton, Option.some_or, Option.some.injEq] at hc
            subst hc; decide
        have := Op.trim_pad ind (k ++ [':']) (cs! " ") hi (by decide) hm
        rw [h0]
        rw [← this]
        simp
      · rw [h0]; rfl
    · refine ⟨' ' :: v, ?_, ?_⟩
      · have hm : Op.trim (k ++ ':' :: ' ' :: v) = k ++ ':' :: ' ' :: v := by
          apply Op.trim_of_ends
          · intro c hc
            rw [List.head?_append_of_ne_nil _ hk0] at hc
            exact hhead c hc
          · intro c hc
            rw [show k ++ ':' :: ' ' :: v = (k ++ [':', ' ']) ++ v by simp, List.getLast?_append] at hc
            cases hg : v.getLast? with
            | none => exact absurd (List.getLast?_eq_none_iff.1 hg) h0
            | some d =>
              rw [hg] at hc
              obtain rfl : d = c := by simpa using hc
              have := (Op.trim_ends v d).2
              rw [ht] at this
              exact this hg
        have := Op.trim_pad ind (k ++ ':' :: ' ' :: v) [] hi (by decide) hm
        rw [List.append_nil] at this
        rw [← this]
        simp
      · have := Op.trim_pad [' '] v [] (by decide) (by decide) ht
        simpa using this
  obtain ⟨r, h1, h2⟩ := key
  unfold FllImporter.step
  simp only
  rw [Op.split_absent _ _ hhash]
  simp only [List.headD_cons, h1]
  rw [if_neg (by simp), FllImporter.cut_append ':' k r hcol]
  simp only
  rw [h2, Op.trim_noBlank k hkb]

/-- a component as written: the tag, the name and the lines below it -/
structure Component where
  tag : Str
  name : Str
  body : List (Str × Str)

namespace Component

def tags : List Str := [cs! "InputVariable", cs! "OutputVariable", cs! "RuleBlock"]

/-- the lines of a component in the exported text -/
def lines (ind : Str) (c : Component) : List Str :=
  (c.tag ++ (cs! ": " ++ c.name)) :: c.body.map fun p => ind ++ (p.1 ++ (cs! ": " ++ p.2))

/-- the lines of a component as kept by the importer -/
def block (c : Component) : List Str := ((c.tag, c.name) :: c.body).map fun p => p.1 ++ cs! ":" ++ p.2

structure Good (c : Component) : Prop where
  tag : c.tag ∈ tags
  name : Clean c.name
  key : ∀ p ∈ c.body, Key p.1 ∧ p.1 ∉ cs! "Engine" :: tags
  value : ∀ p ∈ c.body, Clean p.2

theorem Good.tagKey {c : Component} (h : c.Good) : Key c.tag := by
  have := h.tag
  simp only [tags, List.mem_cons, List.not_mem_nil, or_false] at this
  rcases this with e | e | e <;> rw [e] <;> decide

theorem block_lines (c : Component) (h : c.Good) : FllImporter.lines (Op.join c.block (cs! "\n")) = c.block := by
  apply FllImporter.lines_join
  intro l hl
  obtain ⟨p, hp, rfl⟩ := List.mem_map.1 hl
  have : Key p.1 ∧ Clean p.2 := by
    rcases List.mem_cons.1 hp with rfl | hp
    · exact ⟨h.tagKey, h.name⟩
    · exact ⟨(h.key p hp).1, h.value p hp⟩
  refine ⟨by simp, ?_⟩
  simp only [List.mem_append, not_or]
  exact ⟨⟨fun hc => absurd (this.1.2 _ hc).1 (by decide), by decide⟩, this.2.2.2⟩

variable [ScalarText S] [Truncate S] (x : FllImporter) (G : Registry S)

theorem step_body (ind : Str) (hi : ind.all isSpace = true) (body : List (Str × Str))
    (hk : ∀ p ∈ body, Key p.1 ∧ p.1 ∉ cs! "Engine" :: tags) (hv : ∀ p ∈ body, Clean p.2)
    (s : FllImporter.State S) (ht : s.tag ≠ []) (hb : s.block ≠ []) :
    (body.map fun p => ind ++ (p.1 ++ (cs! ": " ++ p.2))).foldlM (x.step G) s
      = .ok { s with block := s.block ++ body.map fun p => p.1 ++ cs! ":" ++ p.2 } := by
  induction body generalizing s with
  | nil => simp [pure, Except.pure]
  | cons p body ih =>
    obtain ⟨hkp, hne⟩ := hk p (by simp)
    simp only [tags, List.mem_cons, List.not_mem_nil, or_false, not_or] at hne
    rw [List.map_cons, List.foldlM_cons, step_line x G s ind p.1 p.2 hi hkp (hv p (by simp))]
    have : x.keyStep G s p.1 p.2 = .ok { s with block := s.block ++ [p.1 ++ cs! ":" ++ p.2] } := by
      unfold FllImporter.keyStep
      rw [if_neg hne.1, if_neg (fun h => hb h.2), if_neg (by simp [hne]), if_neg ht]
    rw [this]
    show (body.map _).foldlM (x.step G) { s with block := s.block ++ [p.1 ++ cs! ":" ++ p.2] } = _
    rw [ih (fun q hq => hk q (List.mem_cons_of_mem _ hq)) (fun q hq => hv q (List.mem_cons_of_mem _ hq))
      { s with block := s.block ++ [p.1 ++ cs! ":" ++ p.2] } ht (by simp)]
    simp

theorem step_lines (ind : Str) (hi : ind.all isSpace = true) (c : Component) (hc : c.Good) (s : FllImporter.State S) :
    (c.lines ind).foldlM (x.step G) s =
      (do let e ← x.process G s.tag (Op.join s.block (cs! "\n")) s.engine
          .ok ⟨e, c.tag, c.block⟩) := by
  have h0 := step_line x G s [] c.tag c.name (by decide) hc.tagKey hc.name
  rw [List.nil_append] at h0
  rw [lines, List.foldlM_cons, h0]
  have ht := hc.tag
  have : x.keyStep G s c.tag c.name = (do
      let e ← x.process G s.tag (Op.join s.block (cs! "\n")) s.engine
      .ok ⟨e, c.tag, [c.tag ++ cs! ":" ++ c.name]⟩) := by
    unfold FllImporter.keyStep
    simp only [tags, List.mem_cons, List.not_mem_nil, or_false] at ht
    have e1 : ¬ c.tag = cs! "Engine" := by rcases ht with e | e | e <;> rw [e] <;> decide
    have e2 : ¬ (c.tag = cs! "description" ∧ s.block = []) := by
      intro h; rcases ht with e | e | e <;> rw [e] at h <;> exact absurd h.1 (by decide)
    rw [if_neg e1, if_neg e2, if_pos ht]
  rw [this]
  cases hp : x.process G s.tag (Op.join s.block (cs! "\n")) s.engine with
  | error err => rfl
  | ok e =>
    show (c.body.map _).foldlM (x.step G) ⟨e, c.tag, [c.tag ++ cs! ":" ++ c.name]⟩ = .ok ⟨e, c.tag, c.block⟩
    rw [step_body x G ind hi c.body hc.key hc.value _ hc.tagKey.1 (by simp)]
    simp [block]

/-- the importer processes the components one after the other -/
theorem step_components (ind : Str) (hi : ind.all isSpace = true) (cs : List Component) (hc : ∀ c ∈ cs, c.Good)
    (s : FllImporter.State S) :
    (do let s ← (cs.flatMap (Component.lines ind)).foldlM (x.step G) s
        x.process G s.tag (Op.join s.block (cs! "\n")) s.engine) =
    (do let e ← x.process G s.tag (Op.join s.block (cs! "\n")) s.engine
        cs.foldlM (fun e (c : Component) => x.process G c.tag (Op.join c.block (cs! "\n")) e) e) := by
  induction cs generalizing s with
  | nil =>
    simp only [List.flatMap_nil, List.foldlM_nil]
    show x.process G s.tag (Op.join s.block (cs! "\n")) s.engine = _
    cases x.process G s.tag (Op.join s.block (cs! "\n")) s.engine <;> rfl
  | cons c cs ih =>
    rw [List.flatMap_cons, List.foldlM_append, step_lines x G ind hi c (hc c (by simp)) s]
    cases hp : x.process G s.tag (Op.join s.block (cs! "\n")) s.engine with
    | error err => rfl
    | ok e =>
      have := ih (fun d hd => hc d (List.mem_cons_of_mem _ hd)) ⟨e, c.tag, c.block⟩
      simp only [List.foldlM_cons]
      exact this

end Component

/-- importing the lines of an engine -/
theorem fromString_lines [ScalarText S] [Truncate S] (x : FllImporter) (G : Registry S) (hs : x.separator = cs! "\n")
    (ind name desc : Str) (hi : ind.all isSpace = true) (hin : '\n' ∉ ind) (hn : Clean name) (hd : Clean desc)
    (cs : List Component) (hc : ∀ c ∈ cs, c.Good) :
    x.fromString G (Op.join ((cs! "Engine: " ++ name) :: ((if desc.isEmpty then [] else [cs! "description: " ++ desc])
      ++ cs.flatMap (Component.lines ind))) (cs! "\n")) =
    cs.foldlM (fun e (c : Component) => x.process G c.tag (Op.join c.block (cs! "\n")) e) ⟨name, desc, [], [], []⟩ := by
  have hlines : ∀ l ∈ (cs! "Engine: " ++ name) :: ((if desc.isEmpty then [] else [cs! "description: " ++ desc])
      ++ cs.flatMap (Component.lines ind)), l ≠ [] ∧ '\n' ∉ l := by
    intro l hl
    simp only [List.mem_cons, List.mem_append] at hl
    rcases hl with rfl | hl | hl
    · refine ⟨by simp, ?_⟩
      simp only [List.mem_append, not_or]
      exact ⟨by decide, hn.2.2⟩
    · split_ifs at hl
      · simp at hl
      · obtain rfl : l = cs! "description: " ++ desc := by simpa using hl
        refine ⟨by simp, ?_⟩
        simp only [List.mem_append, not_or]
        exact ⟨by decide, hd.2.2⟩
    · obtain ⟨c, hcm, hl⟩ := List.mem_flatMap.1 hl
      have hg := hc c hcm
      rcases List.mem_cons.1 hl with rfl | hl
      · refine ⟨by simp, ?_⟩
        simp only [List.mem_append, not_or]
        exact ⟨fun h => absurd (hg.tagKey.2 _ h).1 (by decide), by decide, hg.name.2.2⟩
      · obtain ⟨p, hp, rfl⟩ := List.mem_map.1 hl
        refine ⟨by simp, ?_⟩
        simp only [List.mem_append, not_or]
        exact ⟨hin, fun h => absurd ((hg.key p hp).1.2 _ h).1 (by decide), by decide, (hg.value p hp).2.2⟩
  have hsplit : Op.split (Op.join ((cs! "Engine: " ++ name) :: ((if desc.isEmpty then [] else [cs! "description: " ++ desc])
      ++ cs.flatMap (Component.lines ind))) (cs! "\n")) (cs! "\n") true = (cs! "Engine: " ++ name) ::
        ((if desc.isEmpty then [] else [cs! "description: " ++ desc]) ++ cs.flatMap (Component.lines ind)) := by
    rw [Op.split_ignoreEmpty _ _ (Op.join_ne_nil _ _ (by simp) fun l hl => (hlines l hl).1) (by simp),
      Op.split_join _ (cs! "\n") (by simp) (by simp), List.filter_eq_self.2]
    · intro l hl
      have := (hlines l hl).1
      cases l with
      | nil => exact absurd rfl this
      | cons => rfl
    · intro l hl hi
      have hs := hi.subset (a := '\n') (by simp)
      exact (hlines l hl).2 (by simpa using hs)
  unfold FllImporter.fromString
  simp only [hs, hsplit]
  rw [FllImporter.lines_join _ hlines, List.foldlM_cons]
  have e1 : x.step G ⟨⟨[], [], [], [], []⟩, [], []⟩ (cs! "Engine: " ++ name)
      = .ok (⟨⟨name, [], [], [], []⟩, [], []⟩ : FllImporter.State S) := by
    have := step_line x G ⟨⟨[], [], [], [], []⟩, [], []⟩ [] (cs! "Engine") name (by decide) (by decide) hn
    simp only [List.nil_append] at this
    refine this.trans ?_
    unfold FllImporter.keyStep
    rw [if_pos rfl]
  rw [e1]
  have e2 : (if desc.isEmpty then [] else [cs! "description: " ++ desc]).foldlM (x.step G)
      (⟨⟨name, [], [], [], []⟩, [], []⟩ : FllImporter.State S) = .ok ⟨⟨name, desc, [], [], []⟩, [], []⟩ := by
    by_cases h0 : desc = []
    · subst h0; rfl
    · rw [if_neg (by simpa using h0), List.foldlM_cons]
      have := step_line x G (⟨⟨name, [], [], [], []⟩, [], []⟩ : FllImporter.State S) [] (cs! "description") desc (by decide)
        (by decide) hd
      simp only [List.nil_append] at this
      have e : x.step G (⟨⟨name, [], [], [], []⟩, [], []⟩ : FllImporter.State S) (cs! "description: " ++ desc)
          = .ok ⟨⟨name, desc, [], [], []⟩, [], []⟩ := by
        refine this.trans ?_
        unfold FllImporter.keyStep
        rw [if_neg (by decide), if_pos ⟨rfl, rfl⟩]
      rw [e]
      rfl
  have e3 := Component.step_components x G ind hi cs hc ⟨⟨name, desc, [], [], []⟩, [], []⟩
  have e4 : x.process G [] (Op.join [] (cs! "\n")) (⟨name, desc, [], [], []⟩ : Engine S) = .ok ⟨name, desc, [], [], []⟩ := by
    unfold FllImporter.process
    rw [if_pos rfl]
  simp only [e4] at e3
  refine Eq.trans ?_ (e3.trans rfl)
  show (List.foldlM (x.step G) _ (_ ++ _) >>= _) = _
  rw [List.foldlM_append, e2]
  rfl

end Fll
end FL
