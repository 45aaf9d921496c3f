/-
C78: running a script of `RScriptExporter` in R gives back the table and plots every output variable.
-/
import Verif.Lemmas.RScript
import Verif.Props.Grid
import Verif.Props.Data
import Verif.Props.Run

namespace FL.R
open Scalar
variable {S : Type} [ScalarText S]

/-! ### what is expected -/

def gradient (x : RScriptExporter) (f : Str) : Layer := ⟨f, [], [(cs! "low", .text x.minimumColor), (cs! "high", .text x.maximumColor)]⟩

def title (t : Str) : Layer := ⟨cs! "ggtitle", [], [(cs! "label", .text t)]⟩

/-- `z` as colour over `a` and `b` -/
def surfacePlot (x : RScriptExporter) (f : Frame) (a b z : Str) : Plot :=
  ⟨f, a, b, [⟨cs! "geom_tile", [(cs! "fill", z)], []⟩, gradient x (cs! "scale_fill_gradient"),
    ⟨cs! "stat_contour", [(cs! "x", a), (cs! "y", b), (cs! "z", z)], [(cs! "color", .text x.contourColor)]⟩,
    title (cs! "(" ++ a ++ cs! ", " ++ b ++ cs! ") = " ++ z)]⟩

/-- `z` over `a`, with the axes flipped or not -/
def curvePlot (x : RScriptExporter) (f : Frame) (a z : Str) (flip : Bool) (t : Str) : Plot :=
  ⟨f, a, z, [⟨cs! "geom_line", [(cs! "color", z)], [(cs! "size", .number ['3']), (cs! "lineend", .text (cs! "round")),
      (cs! "linejoin", .text (cs! "mitre"))]⟩, gradient x (cs! "scale_color_gradient")] ++
    (if flip then [⟨cs! "coord_flip", [], []⟩] else []) ++ [title t]⟩

/-- the two plots of an output variable -/
def twoPlots (x : RScriptExporter) (f : Frame) (same : Bool) (a b z : Str) : Plot × Plot :=
  if same then (curvePlot x f a z false (a ++ cs! " vs " ++ z), curvePlot x f a z true (z ++ cs! " vs " ++ a))
  else (surfacePlot x f a b z, surfacePlot x f b a z)

/-- the plots of all output variables, with the names that they have in the script -/
def bindings (x : RScriptExporter) (f : Frame) (same : Bool) (a b : Str) (i : Nat) : List Str → List (Str × Plot)
  | [] => []
  | z :: zs => ((RScriptExporter.plotNames same i).1, (twoPlots x f same a b z).1) ::
      ((RScriptExporter.plotNames same i).2, (twoPlots x f same a b z).2) :: bindings x f same a b (i + 1) zs

/-! ### execution -/

def State.bind (s : State) (x : Str) (v : Value) : State := { s with env := (x, v) :: s.env }

theorem exec_assign {installed : List Str} {s : State} {x : Str} {sum : List Expr} {v : Value} (hb : s.blocks.all id = true)
    (h : value installed s sum = some v) : exec installed s (.assign x sum) = some (s.bind x v) := by
  simp only [exec]
  rw [if_pos hb, h]
  rfl

theorem exec_skipped {installed : List Str} {s : State} {x : Str} {sum : List Expr} (hb : s.blocks.all id = false) :
    exec installed s (.assign x sum) = some s := by
  simp only [exec]
  rw [if_neg (by simp [hb])]

theorem value_text (installed : List Str) (s : State) (t : Str) : value installed s [.atom (.text t)] = some (.text t) := rfl

theorem value_ggplot {installed : List Str} {s : State} {f : Frame} {a b : Str} {ls : List Expr} {ps : List Layer} (hp : cs! "ggplot2" ∈ s.packages)
    (hf : s.get (cs! "engine.df") = some (.frame f)) (h : ls.mapM layer = some ps) :
    value installed s (ggplotExpr a b :: ls) = some (.plot ⟨f, a, b, ps⟩) := by
  simp only [ggplotExpr, value]
  rw [if_neg (by decide), if_neg (by simp), if_neg (by decide), if_pos ⟨trivial, hp⟩]
  simp only [hf]
  show (if _ then _ else _) = _
  rw [if_pos ⟨rfl, rfl⟩, h]
  rfl

theorem value_surface {installed : List Str} {x : RScriptExporter} {s : State} {f : Frame} {a b z : Str} (hp : cs! "ggplot2" ∈ s.packages)
    (hf : s.get (cs! "engine.df") = some (.frame f)) :
    value installed s [ggplotExpr a b, tileExpr z, gradientExpr (cs! "scale_fill_gradient") x.minimumColor x.maximumColor,
      contourExpr a b z x.contourColor, titleExpr (cs! "(" ++ a ++ cs! ", " ++ b ++ cs! ") = " ++ z)] =
      some (.plot (surfacePlot x f a b z)) :=
  value_ggplot hp hf rfl

theorem value_curve {installed : List Str} {x : RScriptExporter} {s : State} {f : Frame} {a z t : Str} {flip : Bool} (hp : cs! "ggplot2" ∈ s.packages)
    (hf : s.get (cs! "engine.df") = some (.frame f)) :
    value installed s ([ggplotExpr a z, lineExpr z, gradientExpr (cs! "scale_color_gradient") x.minimumColor x.maximumColor] ++
    (if flip then [flipExpr] else []) ++ [titleExpr t]) = some (.plot (curvePlot x f a z flip t)) := by
  cases flip <;> exact value_ggplot hp hf rfl

theorem get_bind_ne {s : State} {x y : Str} {v : Value} (h : y ≠ x) : (s.bind x v).get y = s.get y := by
  unfold State.bind State.get
  rw [List.lookup_cons]
  have : (y == x) = false := by simpa using h
  simp [this]

theorem get_bind {s : State} {x : Str} {v : Value} : (s.bind x v).get x = some v := by
  unfold State.bind State.get
  simp

/-- several plots -/
def State.bindAll (s : State) (l : List (Str × Plot)) : State := l.foldl (fun s p => s.bind p.1 (.plot p.2)) s

theorem bindAll_get {l : List (Str × Plot)} {s : State} {y : Str} (h : y ∉ l.map Prod.fst) : (s.bindAll l).get y = s.get y := by
  induction l generalizing s with
  | nil => rfl
  | cons p l ih =>
    simp only [List.map_cons, List.mem_cons, not_or] at h
    show ((s.bind p.1 (.plot p.2)).bindAll l).get y = _
    rw [ih h.2, get_bind_ne h.1]

theorem bindAll_mem {l : List (Str × Plot)} (hl : (l.map Prod.fst).Nodup) {s : State} {p : Str × Plot} (h : p ∈ l) :
    (s.bindAll l).get p.1 = some (.plot p.2) := by
  induction l generalizing s with
  | nil => simp at h
  | cons q l ih =>
    rw [List.map_cons, List.nodup_cons] at hl
    show ((s.bind q.1 (.plot q.2)).bindAll l).get p.1 = _
    rcases List.mem_cons.1 h with rfl | h
    · rw [bindAll_get hl.1, get_bind]
    · exact ih hl.2 h

theorem bindAll_fields (l : List (Str × Plot)) (s : State) : (s.bindAll l).packages = s.packages ∧ (s.bindAll l).files = s.files ∧
    (s.bindAll l).drawn = s.drawn ∧ (s.bindAll l).page = s.page ∧ (s.bindAll l).blocks = s.blocks := by
  induction l generalizing s with
  | nil => exact ⟨rfl, rfl, rfl, rfl, rfl⟩
  | cons p l ih => exact ih (s.bind p.1 (.plot p.2))

theorem bindings_names (x : RScriptExporter) (f : Frame) (same : Bool) (a b : Str) (zs : List Str) (i : Nat) :
    (bindings x f same a b i zs).map Prod.fst = names same i zs.length := by
  induction zs generalizing i with
  | nil => rfl
  | cons z zs ih => rw [bindings, List.map_cons, List.map_cons, ih]; rfl

theorem plotName_ne {same : Bool} {n i : Nat} {p : Str} (h : p ∈ names same i n) : cs! "engine.plot." <+: p := by
  obtain ⟨j, -, h | h⟩ := names_mem n i h <;> subst h <;> cases same
  · exact ⟨cs! "i1i2_o" ++ intText (j + 1 : Nat), rfl⟩
  · exact ⟨cs! "i1_o" ++ intText (j + 1 : Nat), rfl⟩
  · exact ⟨cs! "i2i1_o" ++ intText (j + 1 : Nat), rfl⟩
  · exact ⟨cs! "o" ++ intText (j + 1 : Nat) ++ cs! "_i1", rfl⟩

theorem foldlM_append' {α β : Type} (g : β → α → Option β) (s : β) (l l' : List α) :
    (l ++ l').foldlM g s = (l.foldlM g s).bind fun s => l'.foldlM g s := List.foldlM_append

theorem exec_plots {installed : List Str} {x : RScriptExporter} {f : Frame} {same : Bool} {a b : Str} (zs : List Str) (i : Nat) (s : State)
    (hb : s.blocks = []) (hp : cs! "ggplot2" ∈ s.packages) (hf : s.get (cs! "engine.df") = some (.frame f)) :
    (allLines x same a b i zs).foldlM (exec installed) s = some (s.bindAll (bindings x f same a b i zs)) := by
  induction zs generalizing i s with
  | nil => rfl
  | cons z zs ih =>
    rw [allLines, foldlM_append']
    have hn : ∀ p, cs! "engine.plot." <+: p → cs! "engine.df" ≠ p := by
      rintro p hp rfl
      exact absurd hp (by decide)
    have h1 : cs! "engine.plot." <+: (RScriptExporter.plotNames same i).1 := plotName_ne (same := same) (i := i) (n := 1) (by simp [names])
    have h2 : cs! "engine.plot." <+: (RScriptExporter.plotNames same i).2 := plotName_ne (same := same) (i := i) (n := 1) (by simp [names])
    have hf1 : ∀ v, (s.bind (RScriptExporter.plotNames same i).1 v).get (cs! "engine.df") = some (.frame f) := fun v => by
      rw [get_bind_ne (hn _ h1), hf]
    have hf2 : ∀ v w, ((s.bind (RScriptExporter.plotNames same i).1 v).bind (RScriptExporter.plotNames same i).2 w).get (cs! "engine.df") =
        some (.frame f) := fun v w => by rw [get_bind_ne (hn _ h2), hf1]
    have : (plotLines x same a b i z).foldlM (exec installed) s =
        some ((s.bind (RScriptExporter.plotNames same i).1 (.plot (twoPlots x f same a b z).1)).bind (RScriptExporter.plotNames same i).2
          (.plot (twoPlots x f same a b z).2)) := by
      cases same
      · show (exec installed s (surfaceLine x _ a b z)).bind (fun s => (exec installed s (surfaceLine x _ b a z)).bind some) = _
        unfold surfaceLine
        rw [exec_assign (by simp [hb]) (value_surface hp hf), Option.bind_some,
          exec_assign (s := s.bind _ _) (by simp [hb, State.bind]) (value_surface (s := s.bind _ _) hp (hf1 _))]
        rfl
      · show (exec installed s (curveLine x _ a z false _)).bind (fun s => (exec installed s (curveLine x _ a z true _)).bind some) = _
        unfold curveLine
        rw [exec_assign (by simp [hb]) (value_curve hp hf), Option.bind_some,
          exec_assign (s := s.bind _ _) (by simp [hb, State.bind]) (value_curve (s := s.bind _ _) hp (hf1 _))]
        rfl
    rw [this, Option.bind_some, ih (i + 1) ((s.bind _ _).bind _ _) hb hp (hf2 _ _)]
    rfl

theorem grob_names {s : State} {top : Str} (ht : s.get (cs! "engine.name") = some (.text top)) (l : List (Str × Plot))
    (h : ∀ p ∈ l, s.get p.1 = some (.plot p.2) ∧ ∀ c ∈ p.2.shown, c ∈ p.2.frame.columns) :
    grob s (grobArgs (l.map Prod.fst)) = some ⟨l.map Prod.snd, ['2'], top⟩ := by
  induction l with
  | nil =>
    show (if _ then _ else _) = _
    rw [if_pos ⟨rfl, rfl⟩, ht]
    rfl
  | cons p l ih =>
    have e : grobArgs ((p :: l).map Prod.fst) = (none, .atom (.name p.1)) :: grobArgs (l.map Prod.fst) := rfl
    obtain ⟨h1, h2⟩ := h p (by simp)
    have ih := ih fun p hp => h p (by simp [hp])
    rw [e]
    have : grob s ((none, .atom (.name p.1)) :: grobArgs (l.map Prod.fst)) = (match s.get p.1 with
      | some (.plot p) =>
        if p.shown.all (fun c => c ∈ p.frame.columns) then
          (grob s (grobArgs (l.map Prod.fst))).bind fun f => some { f with plots := p :: f.plots }
        else none
      | _ => none) := by
      cases l <;> rfl
    rw [this, h1]
    simp only
    rw [if_pos (by simpa using h2), ih]
    rfl

theorem value_grob {installed : List Str} {s : State} {g : Figure} {as : Arguments Item} (hp : cs! "gridExtra" ∈ s.packages) (h : grob s as = some g) :
    value installed s [.call (cs! "arrangeGrob") as] = some (.figure g) := by
  simp only [value]
  rw [if_neg (by decide), if_neg (by simp), if_neg (by decide), if_neg (by simp), if_pos ⟨trivial, hp, trivial⟩, h]
  rfl

/-- what is left after the last lines of a script -/
structure Shown (installed : List Str) (s t : State) (name : Str) (g : Figure) : Prop where
  blocks : t.blocks = []
  get : ∀ y, y ≠ cs! "engine.plots" → t.get y = s.get y
  files : t.files = if cs! "gridExtra" ∈ installed then s.files ++ [(name ++ cs! ".pdf", g)] else s.files
  drawn : t.drawn = if cs! "gridExtra" ∈ installed ∧ cs! "grid" ∈ installed then s.drawn ++ [g] else s.drawn

theorem foldlM_cons' {α β : Type} (g : β → α → Option β) (s : β) (a : α) (l : List α) :
    (a :: l).foldlM g s = (g s a).bind fun s => l.foldlM g s := rfl

theorem exec_tail {installed : List Str} {s : State} {name : Str} {l : List (Str × Plot)} (hb : s.blocks = [])
    (hp : cs! "ggplot2" ∈ s.packages) (hn : s.get (cs! "engine.name") = some (.text name))
    (h : ∀ p ∈ l, s.get p.1 = some (.plot p.2) ∧ ∀ c ∈ p.2.shown, c ∈ p.2.frame.columns) :
    ∃ t, (.whenRequired (cs! "gridExtra") :: grobLine (l.map Prod.fst) :: tailLines).foldlM (exec installed) s = some t ∧
      Shown installed s t name ⟨l.map Prod.snd, ['2'], name⟩ := by
  by_cases hx : cs! "gridExtra" ∈ installed
  · have e1 : exec installed s (.whenRequired (cs! "gridExtra")) =
        some { s with blocks := [true], packages := cs! "gridExtra" :: s.packages } := by
      simp [exec, hb, hx]
    set s1 : State := { s with blocks := [true], packages := cs! "gridExtra" :: s.packages } with hs1
    set g : Figure := ⟨l.map Prod.snd, ['2'], name⟩ with hg
    have e2 : exec installed s1 (grobLine (l.map Prod.fst)) = some (s1.bind (cs! "engine.plots") (.figure g)) :=
      exec_assign rfl (value_grob (s := s1) (by simp [hs1]) (grob_names (s := s1) hn l h))
    have g1 : (s1.bind (cs! "engine.plots") (.figure g)).get (cs! "engine.name") = some (.text name) := by
      rw [get_bind_ne (by decide)]; exact hn
    have g2 : (s1.bind (cs! "engine.plots") (.figure g)).get (cs! "engine.plots") = some (.figure g) := get_bind
    set s2 := s1.bind (cs! "engine.plots") (.figure g) with hs2
    have e3 : exec installed s2 (.expr (.call (cs! "ggsave") [(none, .call (cs! "paste0") [(none, .name (cs! "engine.name")), (none, .text (cs! ".pdf"))]),
      (none, .atom (.name (cs! "engine.plots")))])) = some { s2 with files := s2.files ++ [(name ++ cs! ".pdf", g)] } := by
      have hb2 : s2.blocks.all id = true := rfl
      have hp2 : cs! "ggplot2" ∈ s2.packages := by simp [hs2, hs1, State.bind, hp]
      simp only [exec]
      rw [if_pos hb2]
      simp only [effect]
      rw [if_neg (by decide), if_pos ⟨trivial, hp2⟩]
      simp only [g1, g2]
      rw [if_pos trivial]
    have hget : ∀ y, y ≠ cs! "engine.plots" → s2.get y = s.get y := fun y hy => by
      rw [hs2, get_bind_ne hy]
      rfl
    by_cases hy : cs! "grid" ∈ installed
    · refine ⟨{ s2 with files := s2.files ++ [(name ++ cs! ".pdf", g)], drawn := s2.drawn ++ [g], page := false, blocks := [], packages := cs! "grid" :: s2.packages }, ?_, ⟨rfl, hget, ?_, ?_⟩⟩
      · rw [foldlM_cons', e1, Option.bind_some, foldlM_cons', e2, Option.bind_some, tailLines, foldlM_cons', e3, Option.bind_some]
        have e4 : exec installed { s2 with files := s2.files ++ [(name ++ cs! ".pdf", g)] } (.whenRequired (cs! "grid")) =
          some { s2 with files := s2.files ++ [(name ++ cs! ".pdf", g)], blocks := [true, true], packages := cs! "grid" :: s2.packages } := by
          simp [exec, hy, hs2, hs1, State.bind]
        have e5 : exec installed { s2 with files := s2.files ++ [(name ++ cs! ".pdf", g)], blocks := [true, true], packages := cs! "grid" :: s2.packages } (.expr (.call (cs! "grid.newpage") [])) =
          some { s2 with files := s2.files ++ [(name ++ cs! ".pdf", g)], blocks := [true, true], packages := cs! "grid" :: s2.packages, page := true } := by
          simp [exec, effect]
        have e6 : exec installed { s2 with files := s2.files ++ [(name ++ cs! ".pdf", g)], blocks := [true, true], packages := cs! "grid" :: s2.packages, page := true } (.expr (.call (cs! "grid.draw") [(none, .atom (.name (cs! "engine.plots")))])) =
          some { s2 with files := s2.files ++ [(name ++ cs! ".pdf", g)], blocks := [true, true], packages := cs! "grid" :: s2.packages, drawn := s2.drawn ++ [g], page := false } := by
          have g3 : State.get { s2 with files := s2.files ++ [(name ++ cs! ".pdf", g)], blocks := [true, true], packages := cs! "grid" :: s2.packages, page := true } (cs! "engine.plots") = some (.figure g) := g2
          simp [exec, effect, g3]
        rw [foldlM_cons', e4, Option.bind_some, foldlM_cons', e5, Option.bind_some, foldlM_cons', e6, Option.bind_some]
        rfl
      · rw [if_pos hx]; rfl
      · rw [if_pos ⟨hx, hy⟩]; rfl
    · refine ⟨{ s2 with files := s2.files ++ [(name ++ cs! ".pdf", g)], blocks := [] }, ?_, ⟨rfl, hget, ?_, ?_⟩⟩
      · rw [foldlM_cons', e1, Option.bind_some, foldlM_cons', e2, Option.bind_some, tailLines, foldlM_cons', e3, Option.bind_some]
        have e4 : exec installed { s2 with files := s2.files ++ [(name ++ cs! ".pdf", g)] } (.whenRequired (cs! "grid")) =
          some { s2 with files := s2.files ++ [(name ++ cs! ".pdf", g)], blocks := [false, true] } := by
          simp [exec, hy, hs2, hs1, State.bind]
        rw [foldlM_cons', e4, Option.bind_some]
        rfl
      · rw [if_pos hx]; rfl
      · rw [if_neg (by simp [hy])]; rfl
  · refine ⟨{ s with blocks := [] }, ?_, ⟨rfl, fun _ _ => rfl, ?_, ?_⟩⟩
    · have e1 : exec installed s (.whenRequired (cs! "gridExtra")) = some { s with blocks := [false] } := by
        simp [exec, hb, hx]
      rw [foldlM_cons', e1, Option.bind_some, foldlM_cons']
      show (Option.bind (exec installed _ (.assign _ _)) _) = _
      rw [exec_skipped rfl, Option.bind_some]
      rfl
    · rw [if_neg hx]
    · rw [if_neg (by simp [hx])]

/-! ### the table -/

theorem cells_word {w : Str} (h : ' ' ∉ w) : cells w = [w] := by
  induction w with
  | nil => rfl
  | cons c w ih =>
    rw [cells, if_neg (by rintro rfl; simp at h), ih fun hc => h (by simp [hc])]

theorem cells_append {w r : Str} (h : ' ' ∉ w) : cells (w ++ ' ' :: r) = w :: cells r := by
  induction w with
  | nil => rfl
  | cons c w ih =>
    rw [List.cons_append, cells, if_neg (by rintro rfl; simp at h), ih fun hc => h (by simp [hc])]

theorem cells_join (ws : List Str) (h0 : ws ≠ []) (h : ∀ w ∈ ws, ' ' ∉ w) : cells (Op.join ws (cs! " ")) = ws := by
  match ws, h0 with
  | [w], _ => exact cells_word (h w (by simp))
  | w :: v :: ws, _ =>
    have ih := cells_join (v :: ws) (by simp) fun u hu => h u (by simp [List.mem_cons.1 hu])
    show cells (w ++ cs! " " ++ Op.join (v :: ws) (cs! " ")) = _
    rw [List.append_assoc]
    show cells (w ++ ' ' :: Op.join (v :: ws) (cs! " ")) = _
    rw [cells_append (h w (by simp)), ih]

theorem join_ne {ws : List Str} (h0 : ws ≠ []) (h : ∀ w ∈ ws, w ≠ []) : Op.join ws (cs! " ") ≠ [] := by
  match ws, h0 with
  | [w], _ => exact h w (by simp)
  | w :: v :: ws, _ =>
    show w ++ cs! " " ++ Op.join (v :: ws) (cs! " ") ≠ []
    simp

theorem Column.isColumn {s : Str} (h : Column s) : isColumn s = true := by
  unfold R.isColumn
  simp only [Bool.and_eq_true, List.all_eq_true, Bool.not_eq_true', decide_eq_false_iff_not]
  exact ⟨⟨h.name.1, h.name.2⟩, h.free⟩

theorem nameChar_space {s : Str} (h : IsName s) {c : Char} (hc : isNameChar c = false) : c ∉ s := fun hm => by
  rw [h.2 c hm] at hc
  cases hc

/-- the names of the variables, in the order of the columns -/
def columnsOf (e : Engine S) : List Str := e.inputs.map (fun v => v.name) ++ e.outputs.map fun o => o.name

/-- the table of the rows: the texts of the numbers; empty lines are skipped -/
def tableOf (e : Engine S) (rows : List (List S)) : Frame :=
  ⟨columnsOf e, (rows.filter fun r => !r.isEmpty).map fun r => r.map ScalarText.str⟩

/-- `read.delim` reads what `FldExporter` has written -/
theorem readDelim_text [LawfulText S] (e : Engine S) (rows : List (List S)) (hne : columnsOf e ≠ []) (hc : ∀ c ∈ columnsOf e, Column c)
    (hd : (columnsOf e).Nodup) (hr : ∀ r ∈ rows, r = [] ∨ r.length = (columnsOf e).length) :
    readDelim (({} : FldExporter).text e rows) = some (tableOf e rows) := by
  have hx : ({} : FldExporter).text e rows =
      ((({} : FldExporter).header e) :: rows.map ({} : FldExporter).rowText).flatMap fun l => l ++ ['\n'] := by
    simp [FldExporter.text, List.flatMap_map]
  have hh : ({} : FldExporter).header e = Op.join (columnsOf e) (cs! " ") := rfl
  have hl : textLines (({} : FldExporter).text e rows) =
      Op.join (columnsOf e) (cs! " ") :: (rows.filter fun r => !r.isEmpty).map ({} : FldExporter).rowText := by
    unfold textLines
    rw [hx, lines_terminated]
    · rw [hh, List.filter_cons_of_pos]
      · congr 1
        rw [List.filter_map]
        congr 1
        apply List.filter_congr
        intro r _
        cases r with
        | nil => rfl
        | cons v r =>
          have : ({} : FldExporter).rowText (v :: r) ≠ [] := join_ne (by simp) fun w hw => by
            obtain ⟨u, -, rfl⟩ := List.mem_map.1 hw
            exact LawfulText.str_ne u
          simpa using this
      · have := join_ne hne fun w hw => by
          have := (hc w hw).name.1
          rintro rfl
          cases this
        simpa using this
    · intro l hl
      rcases List.mem_cons.1 hl with rfl | hl
      · rw [hh]
        intro hm
        rcases Op.mem_join hm with ⟨t, ht, hm⟩ | hm
        · exact nameChar_space (hc t ht).name (by decide) hm
        · exact absurd hm (by decide)
      · obtain ⟨r, -, rfl⟩ := List.mem_map.1 hl
        exact FldExporter.rowText_line _ (by decide) r
  have hcell : cells (Op.join (columnsOf e) (cs! " ")) = columnsOf e := cells_join _ hne fun w hw => nameChar_space (hc w hw).name (by decide)
  have hrow : ∀ r ∈ rows.filter (fun r => !r.isEmpty), cells (({} : FldExporter).rowText r) = r.map ScalarText.str := fun r h => by
    have hr0 : r ≠ [] := by simpa using (List.mem_filter.1 h).2
    refine cells_join _ (by simpa using hr0) fun w hw => ?_
    obtain ⟨u, -, rfl⟩ := List.mem_map.1 hw
    intro hm
    have := (LawfulText.str_char u ' ' hm).1
    revert this; decide
  unfold readDelim
  rw [hl]
  simp only [hcell]
  rw [if_pos]
  · rw [List.map_map, tableOf]
    congr 2
    exact List.map_congr_left hrow
  · simp only [Bool.and_eq_true, List.all_eq_true, decide_eq_true_eq]
    refine ⟨⟨fun c h => (hc c h).isColumn, hd⟩, ?_⟩
    intro l hl
    obtain ⟨r, h, rfl⟩ := List.mem_map.1 hl
    rw [hrow r h, List.length_map]
    obtain ⟨h1, h2⟩ := List.mem_filter.1 h
    rcases hr r h1 with rfl | h3
    · simp at h2
    · simp [h3]

/-! ### the sizes of the rows -/

theorem process_sizes [Heap S] (e : Engine S) : e.process.1.inputs.length = e.inputs.length ∧ e.process.1.outputs.length = e.outputs.length := by
  have h1 := congrArg (fun d : Engine S => d.outputs.length) e.process_forget
  simp only [Engine.forget, Engine.fresh, List.length_map] at h1
  exact ⟨by rw [process_inputs], h1⟩

theorem given_length (vs : List (Variable S)) (as : List Bool) (xs : List S) (ha : as.length = vs.length) (hx : vs.length ≤ xs.length) :
    (FldExporter.given vs as xs).length = vs.length := by
  induction vs generalizing as xs with
  | nil => cases as <;> cases xs <;> rfl
  | cons v vs ih =>
    match as, xs with
    | a :: as, y :: xs =>
      simp only [FldExporter.given, List.length_cons] at ha hx ⊢
      rw [ih as xs (by omega) (by omega)]
    | [], _ => simp at ha
    | _ :: _, [] => simp at hx

/-- the engine has as many variables as before, and the row is empty or has a value for each of them -/
structure Sized (e e' : Engine S) : Prop where
  inputs : e'.inputs.length = e.inputs.length
  outputs : e'.outputs.length = e.outputs.length

theorem Sized.trans {e e' e'' : Engine S} (h : Sized e e') (h' : Sized e' e'') : Sized e e'' :=
  ⟨h'.inputs.trans h.inputs, h'.outputs.trans h.outputs⟩

/-- rows without a value, or with one for each variable -/
def Full (e : Engine S) (r : List S) : Prop := r = [] ∨ r.length = e.inputs.length + e.outputs.length

theorem Full.sized {e e' : Engine S} {r : List S} (h : Sized e e') (hr : Full e' r) : Full e r := by
  unfold Full at hr ⊢
  rwa [h.inputs, h.outputs] at hr

theorem writeRow_size [Heap S] {e e' : Engine S} {values r : List S} {active : List Bool}
    (h : ({} : FldExporter).writeRow e values active = (e', .ok r)) : Sized e e' ∧ Full e r := by
  unfold FldExporter.writeRow at h
  by_cases h1 : values.isEmpty = true
  · rw [if_pos h1] at h
    cases h
    exact ⟨⟨rfl, rfl⟩, .inl rfl⟩
  by_cases h2 : values.length < e.inputs.length
  · rw [if_neg h1, if_pos h2] at h
    cases h
  by_cases h3 : active.length ≠ e.inputs.length
  · rw [if_neg h1, if_neg h2, if_pos h3] at h
    cases h
  rw [if_neg h1, if_neg h2, if_neg h3] at h
  have hg := given_length e.inputs active values (by omega) (by omega)
  have hs := process_sizes (e.setInputs (FldExporter.given e.inputs active values))
  have hi : (e.setInputs (FldExporter.given e.inputs active values)).inputs.length = e.inputs.length := by
    simp [Engine.setInputs, hg]
  have ho : (e.setInputs (FldExporter.given e.inputs active values)).outputs = e.outputs := rfl
  rw [hi, ho] at hs
  simp only at h
  revert h hs
  generalize (e.setInputs (FldExporter.given e.inputs active values)).process = q
  obtain ⟨q, err⟩ := q
  cases err with
  | some err => intro _ h; cases h
  | none =>
    intro hs h
    cases h
    refine ⟨⟨hs.1, hs.2⟩, .inr ?_⟩
    simp [hg, Engine.outputValues, hs.2]

theorem writeRows_size [Heap S] (k : Int) (active : List Bool) (ss : List (List Int)) (e : Engine S) :
    Sized e (({} : FldExporter).writeRows k active e ss).1 ∨ (({} : FldExporter).writeRows k active e ss).2.2 ≠ none := by
  induction ss generalizing e with
  | nil => exact .inl ⟨rfl, rfl⟩
  | cons s ss ih =>
    unfold FldExporter.writeRows
    cases h : ({} : FldExporter).writeRow e (gridInput k e.inputs active s) active with
    | mk e1 r =>
      cases r with
      | error err => exact .inr (by simp)
      | ok r =>
        simp only
        rcases ih e1 with h1 | h1
        · exact .inl ((writeRow_size h).1.trans h1)
        · exact .inr h1

theorem writeRows_full [Heap S] (k : Int) (active : List Bool) (ss : List (List Int)) (e : Engine S) :
    ∀ r ∈ (({} : FldExporter).writeRows k active e ss).2.1, Full e r := by
  induction ss generalizing e with
  | nil => simp [FldExporter.writeRows]
  | cons s ss ih =>
    unfold FldExporter.writeRows
    cases h : ({} : FldExporter).writeRow e (gridInput k e.inputs active s) active with
    | mk e1 r =>
      cases r with
      | error err => simp
      | ok r =>
        intro r' hr
        simp only [List.mem_cons] at hr
        obtain ⟨h1, h2⟩ := writeRow_size h
        rcases hr with rfl | hr
        · exact h2
        · exact (ih e1 r' hr).sized h1

theorem writeLines_full [Heap S] (ls : List Str) (first : Bool) (e : Engine S) :
    ∀ r ∈ (({} : FldExporter).writeLines first e ls).2.1, Full e r := by
  induction ls generalizing first e with
  | nil => simp [FldExporter.writeLines]
  | cons l ls ih =>
    unfold FldExporter.writeLines
    by_cases hc : isComment (Op.trim l) = true
    · simp only [if_pos hc]
      exact ih false e
    · simp only [if_neg hc]
      cases hp : (FldExporter.parse (Op.trim l) : Except Err (List S)) with
      | error err => cases first <;> simp only [if_true, Bool.false_eq_true, if_false] <;> [simp; exact ih false e]
      | ok values =>
        simp only
        cases h : ({} : FldExporter).writeRow e values (e.inputs.map fun _ => true) with
        | mk e1 r =>
          cases r with
          | error err => simp
          | ok r =>
            intro r' hr
            simp only [List.mem_cons] at hr
            obtain ⟨h1, h2⟩ := writeRow_size h
            rcases hr with rfl | hr
            · exact h2
            · exact (ih false e1 r' hr).sized h1

theorem write_full [Heap S] [Truncate S] (e : Engine S) (values : Int) (scope : Scope) (active : List Bool) :
    ∀ r ∈ (({} : FldExporter).write e values scope active).2.1, Full e r := by
  unfold FldExporter.write FldExporter.writeGrid
  by_cases h : active.length ≠ e.inputs.length
  · rw [if_pos h]; simp
  rw [if_neg h]
  cases scope.resolution (S := S) e.inputs.length values with
  | none => simp
  | some k =>
    simp only
    rw [if_neg h]
    split
    · simp
    · exact writeRows_full k active _ e

end FL.R

namespace FL
open Scalar R
variable {S : Type} [ScalarText S]

/-- Engines whose script is in the fragment: texts need no escape sequences, and the names of the variables are distinct names of R
that are not reserved. -/
structure RScriptExporter.Good (x : RScriptExporter) (e : Engine S) : Prop where
  library : '\n' ∉ x.library
  colors : Colors x
  name : Quotable e.name
  description : Quotable e.description
  fll : Quotable (({} : FllExporter).toString e)
  columns : ∀ c ∈ columnsOf e, Column c
  distinct : (columnsOf e).Nodup

/-- What is expected of the script that plots a table for the input variables named `p` and `q`, which may be the `same` one, and the
output variables named `os`, when the packages in the list are installed. -/
structure RScriptExporter.Result (x : RScriptExporter) (e : Engine S) (f : Frame) (same : Bool) (p q : Str) (os : List Str)
    (installed : List Str) (s : State) : Prop where
  name : s.get (cs! "engine.name") = some (.text e.name)
  description : e.description ≠ [] → s.get (cs! "engine.description") = some (.text e.description)
  fll : s.get (cs! "engine.fll") = some (.text (({} : FllExporter).toString e))
  frame : s.get (cs! "engine.df") = some (.frame f)
  plots : ∀ i z, os[i]? = some z →
    s.get (plotNames same i).1 = some (.plot (twoPlots x f same p q z).1) ∧
    s.get (plotNames same i).2 = some (.plot (twoPlots x f same p q z).2)
  files : s.files = if cs! "gridExtra" ∈ installed then
    [(e.name ++ cs! ".pdf", ⟨os.flatMap fun z => [(twoPlots x f same p q z).1, (twoPlots x f same p q z).2], ['2'], e.name⟩)] else []
  drawn : s.drawn = if cs! "gridExtra" ∈ installed ∧ cs! "grid" ∈ installed then
    [⟨os.flatMap fun z => [(twoPlots x f same p q z).1, (twoPlots x f same p q z).2], ['2'], e.name⟩] else []

namespace R

theorem bindings_mem {x : RScriptExporter} {f : Frame} {same : Bool} {a b : Str} (zs : List Str) (i j : Nat) (z : Str) (h : zs[j]? = some z) :
    ((RScriptExporter.plotNames same (i + j)).1, (twoPlots x f same a b z).1) ∈ bindings x f same a b i zs ∧
    ((RScriptExporter.plotNames same (i + j)).2, (twoPlots x f same a b z).2) ∈ bindings x f same a b i zs := by
  induction zs generalizing i j with
  | nil => simp at h
  | cons y zs ih =>
    cases j with
    | zero =>
      simp only [List.getElem?_cons_zero, Option.some.injEq] at h
      subst h
      exact ⟨by simp [bindings], by simp [bindings]⟩
    | succ j =>
      simp only [List.getElem?_cons_succ] at h
      obtain ⟨h1, h2⟩ := ih (i + 1) j h
      rw [show i + 1 + j = i + (j + 1) by omega] at h1 h2
      exact ⟨by simp [bindings, h1], by simp [bindings, h2]⟩

theorem bindings_plots (x : RScriptExporter) (f : Frame) (same : Bool) (a b : Str) (zs : List Str) (i : Nat) :
    (bindings x f same a b i zs).map Prod.snd = zs.flatMap fun z => [(twoPlots x f same a b z).1, (twoPlots x f same a b z).2] := by
  induction zs generalizing i with
  | nil => rfl
  | cons z zs ih => rw [bindings, List.map_cons, List.map_cons, ih]; rfl

theorem bindings_shown {x : RScriptExporter} {f : Frame} {same : Bool} {a b : Str} (ha : a ∈ f.columns) (hb : b ∈ f.columns) (zs : List Str)
    (hz : ∀ z ∈ zs, z ∈ f.columns) (i : Nat) : ∀ p ∈ bindings x f same a b i zs, ∀ c ∈ p.2.shown, c ∈ p.2.frame.columns := by
  induction zs generalizing i with
  | nil => simp [bindings]
  | cons z zs ih =>
    intro p hp
    rw [bindings, List.mem_cons, List.mem_cons] at hp
    have hz0 := hz z (by simp)
    rcases hp with rfl | rfl | hp
    · cases same <;> simp [twoPlots, surfacePlot, curvePlot, Plot.shown, gradient, title, ha, hb, hz0]
    · cases same <;> simp [twoPlots, surfacePlot, curvePlot, Plot.shown, gradient, title, ha, hb, hz0]
    · exact ih (fun z h => hz z (by simp [h])) (i + 1) p hp

theorem quotable_text [PlainText S] (e : Engine S) (rows : List (List S)) (hc : ∀ c ∈ columnsOf e, Column c) :
    Quotable (({} : FldExporter).text e rows) := by
  have hj : ∀ ws : List Str, (∀ w ∈ ws, Quotable w) → Quotable (Op.join ws (cs! " ")) := fun ws h c hm => by
    rcases Op.mem_join hm with ⟨t, ht, hm⟩ | hm
    · exact h t ht c hm
    · exact (show Quotable (cs! " ") by decide) c hm
  have hn : Quotable ['\n'] := by decide
  have hs : ∀ v : S, Quotable (ScalarText.str v) := fun v c hc => by
    have k : ∀ d ∈ cs! "\"\\\x00", isAlnum d = false := by decide
    rcases PlainText.str_plain v c hc with h | h | h | h
    · refine ⟨?_, ?_, ?_⟩ <;> (rintro rfl; rw [k _ (by simp)] at h; cases h)
    · subst h; decide
    · subst h; decide
    · subst h; decide
  intro c hm
  rcases List.mem_append.1 hm with hm | hm
  · exact ((hj (columnsOf e) fun w hw => (hc w hw).name.quotable).append hn) c hm
  · obtain ⟨r, -, hm⟩ := List.mem_flatMap.1 hm
    refine ((hj (r.map ScalarText.str) fun w hw => ?_).append hn) c hm
    obtain ⟨v, -, rfl⟩ := List.mem_map.1 hw
    exact hs v

/-- lines that read a table: what else is left -/
structure Read (s t : State) (f : Frame) : Prop where
  frame : t.get (cs! "engine.df") = some (.frame f)
  get : ∀ y ∈ [cs! "engine.name", cs! "engine.description", cs! "engine.fll"], t.get y = s.get y
  packages : ∀ y ∈ s.packages, y ∈ t.packages
  files : t.files = s.files
  drawn : t.drawn = s.drawn
  blocks : t.blocks = []

theorem reads_frame [LawfulText S] {e : Engine S} {rows : List (List S)} (h : readDelim (({} : FldExporter).text e rows) = some (tableOf e rows))
    (installed : List Str) (s : State) (hb : s.blocks = []) :
    ∃ t, (frameLines (({} : FldExporter).text e rows)).foldlM (exec installed) s = some t ∧ Read s t (tableOf e rows) := by
  set text := ({} : FldExporter).text e rows
  have hv : ∀ s : State, s.get (cs! "engine.fld") = some (.text text) →
      value installed s [.call (cs! "read.delim") [(none, .call (cs! "textConnection") [(none, .name (cs! "engine.fld"))]),
      (some (cs! "header"), .atom (.logical true)), (some (cs! "sep"), .atom (.text [' '])), (some (cs! "strip.white"), .atom (.logical true))]] =
      some (.frame (tableOf e rows)) := by
    intro s hs
    simp only [value]
    rw [if_pos trivial, if_pos ⟨trivial, trivial, trivial, trivial⟩]
    simp only [hs]
    rw [h]
    rfl
  refine ⟨(s.bind (cs! "engine.fld") (.text text)).bind (cs! "engine.df") (.frame (tableOf e rows)), ?_, get_bind, ?_, fun y hy => hy, rfl, rfl, hb⟩
  · unfold frameLines readLine
    rw [foldlM_cons', exec_assign (by simp [hb]) (value_text _ _ _), Option.bind_some, foldlM_cons',
      exec_assign (s := s.bind _ _) (by simp [State.bind, hb]) (hv _ get_bind)]
    rfl
  · intro y hy
    rw [get_bind_ne (by rintro rfl; revert hy; decide), get_bind_ne (by rintro rfl; revert hy; decide)]

theorem reads_import {path : Str} {content : Str} {f : Frame} (h : readDelim content = some f) (installed : List Str) (s : State)
    (hb : s.blocks = []) (hd : s.data.lookup path = some content) :
    ∃ t, (importLines path).foldlM (exec installed) s = some t ∧ Read s t f := by
  set s1 := s.bind (cs! "engine.fldFile") (.text path) with hs1
  have hst : ∀ t : State, t.get (cs! "engine.fldFile") = some (.text path) → t.data = s.data →
      stored t (cs! "engine.fldFile") = some (.frame f) := by
    intro t h1 h2
    unfold stored
    rw [h1]
    simp only
    rw [h2, hd, Option.bind_some, h]
    rfl
  have e1 : exec installed s (.assign (cs! "engine.fldFile") [.atom (.text path)]) = some s1 := exec_assign (by simp [hb]) (value_text _ _ _)
  have hb1 : s1.blocks = [] := hb
  have g1 : s1.get (cs! "engine.fldFile") = some (.text path) := get_bind
  unfold importLines
  rw [foldlM_cons', e1, Option.bind_some]
  by_cases hi : cs! "data.table" ∈ installed
  · set s2 : State := { s1 with blocks := [true], packages := cs! "data.table" :: s1.packages } with hs2
    have e2 : exec installed s1 (.whenRequired (cs! "data.table")) = some s2 := by
      simp [exec, hb1, hi, hs2]
    have e3 : exec installed s2 (.assign (cs! "engine.df") [.call (cs! "data.table::fread") [(none, .atom (.name (cs! "engine.fldFile"))),
        (some (cs! "sep"), .atom (.text (cs! "auto"))), (some (cs! "header"), .atom (.text (cs! "auto")))]]) =
        some (s2.bind (cs! "engine.df") (.frame f)) := by
      refine exec_assign rfl ?_
      simp only [value]
      rw [if_neg (by decide), if_pos ⟨trivial, hi⟩, if_pos ⟨trivial, trivial, trivial, trivial⟩, hst s2 g1 rfl]
    refine ⟨{ s2.bind (cs! "engine.df") (.frame f) with blocks := [] }, ?_, get_bind, ?_, fun y hy => by simp [State.bind, hs2, hs1, hy], rfl, rfl, rfl⟩
    · rw [foldlM_cons', e2, Option.bind_some, foldlM_cons', e3, Option.bind_some]
      rfl
    · intro y hy
      show (s2.bind (cs! "engine.df") (.frame f)).get y = _
      rw [get_bind_ne (by rintro rfl; revert hy; decide)]
      show s1.get y = _
      rw [hs1, get_bind_ne (by rintro rfl; revert hy; decide)]
  · set s2 : State := { s1 with blocks := [false] } with hs2
    have e2 : exec installed s1 (.whenRequired (cs! "data.table")) = some s2 := by
      simp [exec, hb1, hi, hs2]
    set s3 : State := { s1 with blocks := [true] } with hs3
    have e3 : exec installed s3 (.assign (cs! "engine.df") [.call (cs! "read.table") [(none, .atom (.name (cs! "engine.fldFile"))),
        (some (cs! "header"), .atom (.logical true))]]) = some (s3.bind (cs! "engine.df") (.frame f)) := by
      refine exec_assign rfl ?_
      simp only [value]
      rw [if_neg (by decide), if_neg (by simp), if_pos trivial, if_pos trivial, hst s3 g1 rfl]
    refine ⟨{ s3.bind (cs! "engine.df") (.frame f) with blocks := [] }, ?_, get_bind, ?_, fun y hy => hy, rfl, rfl, rfl⟩
    · rw [foldlM_cons', e2, Option.bind_some, foldlM_cons', exec_skipped rfl, Option.bind_some, foldlM_cons']
      show (some s3).bind _ = _
      rw [Option.bind_some, foldlM_cons', e3, Option.bind_some]
      rfl
    · intro y hy
      show (s3.bind (cs! "engine.df") (.frame f)).get y = _
      rw [get_bind_ne (by rintro rfl; revert hy; decide)]
      show s1.get y = _
      rw [hs1, get_bind_ne (by rintro rfl; revert hy; decide)]

/-- a script whose middle part reads the table runs -/
theorem runs {x : RScriptExporter} {e : Engine S} (hx : x.Good e) {same : Bool} {p q : Str} {os : List Str} (hp : p ∈ columnsOf e)
    (hq : q ∈ columnsOf e) (ho : ∀ o ∈ os, o ∈ columnsOf e) {f : Frame} (hf : f.columns = columnsOf e) {middle : Str} {ml : List Line}
    (hm : Lines middle ml) {installed : List Str} {data : List (Str × Str)} (hi : cs! "ggplot2" ∈ installed)
    (hr : ∀ s : State, s.blocks = [] → s.data = data → ∃ t, ml.foldlM (exec installed) s = some t ∧ Read s t f) :
    ∃ s, execute installed data (x.scriptHeader e ++ middle ++ x.scriptPlots same p q os) = some s ∧ x.Result e f same p q os installed s := by
  have hcol := hx.columns
  -- the lines
  have hl := ((lines_header hx.library hx.name hx.description hx.fll).append hm).append
    (lines_scriptPlots same hx.colors (hcol p hp) (hcol q hq) os fun z hz => hcol z (ho z hz))
  -- the first lines
  set env0 : List (Str × Value) := [(cs! "engine.fll", .text (({} : FllExporter).toString e))] ++
    (if e.description.isEmpty then [] else [(cs! "engine.description", .text e.description)]) ++ [(cs! "engine.name", .text e.name)] with henv
  set sh : State := { data := data, env := env0, packages := [cs! "ggplot2"] } with hsh
  have hh : (headerLines e).foldlM (exec installed) { data := data } = some sh := by
    have hlib : exec installed { data := data } (.expr (.call (cs! "library") [(none, .atom (.name (cs! "ggplot2")))])) =
        some { data := data, packages := [cs! "ggplot2"] } := by
      simp [exec, effect, hi]
    unfold headerLines
    by_cases hd : e.description.isEmpty = true
    · rw [if_pos hd]
      simp only [List.cons_append, List.nil_append]
      rw [foldlM_cons', hlib, Option.bind_some, foldlM_cons', exec_assign rfl (value_text _ _ _), Option.bind_some, foldlM_cons',
        exec_assign rfl (value_text _ _ _)]
      simp [hsh, henv, hd, State.bind]
    · rw [if_neg hd]
      simp only [List.cons_append, List.nil_append]
      rw [foldlM_cons', hlib, Option.bind_some, foldlM_cons', exec_assign rfl (value_text _ _ _), Option.bind_some, foldlM_cons',
        exec_assign rfl (value_text _ _ _), Option.bind_some, foldlM_cons', exec_assign rfl (value_text _ _ _)]
      simp [hsh, henv, hd, State.bind]
  obtain ⟨s0, h0, hr⟩ := hr sh rfl rfl
  have g1 := hr.frame
  have g2 : s0.get (cs! "engine.fll") = some (.text (({} : FllExporter).toString e)) := by rw [hr.get _ (by simp)]; rfl
  have g3 : s0.get (cs! "engine.name") = some (.text e.name) := by
    rw [hr.get _ (by simp)]
    by_cases hd : e.description.isEmpty = true <;> simp [hsh, henv, hd, State.get, List.lookup]
  have g4 : e.description ≠ [] → s0.get (cs! "engine.description") = some (.text e.description) := fun hd => by
    have hd : e.description.isEmpty = false := by simpa using hd
    rw [hr.get _ (by simp)]
    simp [hsh, henv, hd, State.get, List.lookup]
  have g5 : cs! "ggplot2" ∈ s0.packages := hr.packages _ (by simp [hsh])
  -- the plots
  set l := bindings x f same p q 0 os with hl'
  have h1 : (allLines x same p q 0 os).foldlM (exec installed) s0 = some (s0.bindAll l) := exec_plots os 0 s0 hr.blocks g5 g1
  obtain ⟨k1, k2, k3, k4, k5⟩ := bindAll_fields l s0
  have hfree : ∀ y, ¬ cs! "engine.plot." <+: y → (s0.bindAll l).get y = s0.get y := fun y hy => bindAll_get (by
    rw [hl', bindings_names]
    exact fun h => hy (plotName_ne h))
  have hnd : (l.map Prod.fst).Nodup := by rw [hl', bindings_names]; exact names_nodup _ _ _
  have hb : ∀ y ∈ l, (s0.bindAll l).get y.1 = some (.plot y.2) := fun y hy => bindAll_mem hnd hy
  obtain ⟨t, ht, hs⟩ := exec_tail (installed := installed) (s := s0.bindAll l) (name := e.name) (l := l) (by rw [k5, hr.blocks]) (by rw [k1]; exact g5)
    (by rw [hfree _ (by decide), g3]) fun y hy => ⟨hb y hy, bindings_shown (f := f) (hf ▸ hp) (hf ▸ hq) os (fun z hz => hf ▸ ho z hz) 0 y hy⟩
  refine ⟨t, ?_, ?_⟩
  · unfold execute
    rw [parse_lines hl]
    show ((headerLines e ++ ml ++ _).foldlM (exec installed) { data := data }).bind _ = _
    rw [foldlM_append', foldlM_append', hh, Option.bind_some, h0, Option.bind_some, foldlM_append', h1, Option.bind_some]
    have hnames : names same 0 os.length = l.map Prod.fst := (bindings_names ..).symm
    rw [hnames, ht, Option.bind_some, if_pos hs.blocks]
  · have hfig : l.map Prod.snd = os.flatMap fun z => [(twoPlots x f same p q z).1, (twoPlots x f same p q z).2] := bindings_plots ..
    refine ⟨?_, fun hd => ?_, ?_, ?_, fun i z hz => ?_, ?_, ?_⟩
    · rw [hs.get _ (by decide), hfree _ (by decide), g3]
    · rw [hs.get _ (by decide), hfree _ (by decide), g4 hd]
    · rw [hs.get _ (by decide), hfree _ (by decide), g2]
    · rw [hs.get _ (by decide), hfree _ (by decide), g1]
    · obtain ⟨m1, m2⟩ := bindings_mem (x := x) (f := f) (same := same) (a := p) (b := q) os 0 i z hz
      rw [Nat.zero_add] at m1 m2
      have hne : ∀ y ∈ l, y.1 ≠ cs! "engine.plots" := fun y hy h => by
        have : y.1 ∈ names same 0 os.length := by
          rw [← bindings_names x f same p q os 0]
          exact List.mem_map.2 ⟨y, hy, rfl⟩
        have := plotName_ne this
        rw [h] at this
        exact absurd this (by decide)
      exact ⟨by rw [hs.get _ (hne _ m1), hb _ m1], by rw [hs.get _ (hne _ m2), hb _ m2]⟩
    · rw [hs.files, hfig, k2, hr.files]; rfl
    · rw [hs.drawn, hfig, k3, hr.drawn]; rfl

theorem named_columns {e : Engine S} {a b : Nat} {zs : List Nat} {p q : Str} {os : List Str}
    (hn : RScriptExporter.named e a b zs = .ok (p, q, os)) : p ∈ columnsOf e ∧ q ∈ columnsOf e ∧ ∀ o ∈ os, o ∈ columnsOf e := by
  unfold RScriptExporter.named at hn
  split at hn
  · rename_i u v ws h1 h2 h3
    cases hn
    refine ⟨?_, ?_, ?_⟩
    · exact List.mem_append_left _ (List.mem_map.2 ⟨u, List.mem_of_getElem? h1, rfl⟩)
    · exact List.mem_append_left _ (List.mem_map.2 ⟨v, List.mem_of_getElem? h2, rfl⟩)
    · intro o ho
      obtain ⟨w, hw, rfl⟩ := List.mem_map.1 ho
      refine List.mem_append_right _ (List.mem_map.2 ⟨w, ?_, rfl⟩)
      have : ∀ (zs : List Nat) (ws : List (OutputVariable S)), zs.mapM (fun i => e.outputs[i]?) = some ws → ∀ w ∈ ws, w ∈ e.outputs := by
        intro zs
        induction zs with
        | nil => intro ws h w hw; cases h; simp at hw
        | cons i zs ih =>
          intro ws h w hw
          rw [List.mapM_cons] at h
          cases h1 : e.outputs[i]? with
          | none => rw [h1] at h; cases h
          | some o =>
            rw [h1] at h
            cases h2 : zs.mapM (fun i => e.outputs[i]?) with
            | none => rw [h2] at h; cases h
            | some os =>
              rw [h2] at h
              cases h
              rcases List.mem_cons.1 hw with rfl | hw
              · exact List.mem_of_getElem? h1
              · exact ih os h2 w hw
      exact this zs ws h3 w hw
  · cases hn

end R

/-- C78, for given rows: the script of a good engine runs in R. -/
theorem RScriptExporter.script_runs [PlainText S] {x : RScriptExporter} {e : Engine S} (hx : x.Good e) {a b : Nat} {zs : List Nat}
    {rows : List (List S)} (hr : ∀ r ∈ rows, Full e r) {p q : Str} {os : List Str} (hn : named e a b zs = .ok (p, q, os))
    {installed : List Str} (hi : cs! "ggplot2" ∈ installed) (data : List (Str × Str)) :
    ∃ text s, x.script e a b zs rows none = .ok text ∧ execute installed data text = some s ∧
      x.Result e (tableOf e rows) (a == b) p q os installed s := by
  obtain ⟨hp, hq, ho⟩ := named_columns hn
  have hread := readDelim_text e rows (List.ne_nil_of_mem hp) hx.columns hx.distinct fun r h => (hr r h).imp id fun h => by simp [columnsOf, h]
  obtain ⟨s, h1, h2⟩ := runs hx (same := a == b) hp hq ho (f := tableOf e rows) rfl (lines_frame (quotable_text e rows hx.columns)) (data := data) hi
    fun s hb _ => reads_frame hread installed s hb
  refine ⟨_, s, ?_, h1, h2⟩
  unfold script
  simp only [hn]

theorem RScriptExporter.named_ok {e : Engine S} {a b : Nat} {zs : List Nat} {u v : Variable S} {os : List (OutputVariable S)}
    (ha : e.inputs[a]? = some u) (hb : e.inputs[b]? = some v) (hz : List.Forall₂ (fun i o => e.outputs[i]? = some o) zs os) :
    named e a b zs = .ok (u.name, v.name, os.map fun o => o.name) := by
  have : zs.mapM (fun i => e.outputs[i]?) = some os := by
    induction hz with
    | nil => rfl
    | cons h1 _ ih => rw [List.mapM_cons, h1, ih]; rfl
  unfold named
  rw [ha, hb, this]

/-- C78: The script that tabulates the engine over the input variables at the positions `a` and `b`: it is written unless the engine raises
an exception, and then running it in R gives the table of the rows and two plots for each output variable asked for. -/
theorem RScriptExporter.exporting_runs_partial [PlainText S] [Truncate S] [Heap S] {x : RScriptExporter} {e : Engine S} (hx : x.Good e)
    {a b : Nat} {zs : List Nat} {u v : Variable S} {os : List (OutputVariable S)} (ha : e.inputs[a]? = some u) (hb : e.inputs[b]? = some v)
    (hz : List.Forall₂ (fun i o => e.outputs[i]? = some o) zs os) (values : Int) (scope : Scope) {installed : List Str}
    (hi : cs! "ggplot2" ∈ installed) (data : List (Str × Str)) :
    let w := ({} : FldExporter).write e values scope (e.inputs.mapIdx fun i _ => i == a || i == b)
    (x.exporting e a b values scope zs).1 = w.1 ∧
    (∀ err, w.2.2 = some err → (x.exporting e a b values scope zs).2 = .error err) ∧
    (w.2.2 = none → ∃ text s, (x.exporting e a b values scope zs).2 = .ok text ∧ execute installed data text = some s ∧
      x.Result e (tableOf e w.2.1) (a == b) u.name v.name (os.map fun o => o.name) installed s) := by
  intro w
  have hw := write_full e values scope (e.inputs.mapIdx fun i _ => i == a || i == b)
  have e1 : x.exporting e a b values scope zs = (w.1, x.script e a b zs w.2.1 w.2.2) := rfl
  rw [e1]
  refine ⟨rfl, fun err h => ?_, fun h => ?_⟩
  · simp only [h, script]
  · simp only [h]
    exact script_runs hx hw (named_ok ha hb hz) hi data

/-- C78: the same for the rows that a reader gives -/
theorem RScriptExporter.exportingReader_runs_partial [PlainText S] [Heap S] {x : RScriptExporter} {e : Engine S} (hx : x.Good e)
    {a b : Nat} {zs : List Nat} {u v : Variable S} {os : List (OutputVariable S)} (ha : e.inputs[a]? = some u) (hb : e.inputs[b]? = some v)
    (hz : List.Forall₂ (fun i o => e.outputs[i]? = some o) zs os) (text : Str) {installed : List Str} (hi : cs! "ggplot2" ∈ installed) (data : List (Str × Str)) :
    let w := ({} : FldExporter).writeReader e text
    (x.exportingReader e a b text zs).1 = w.1 ∧
    (∀ err, w.2.2 = some err → (x.exportingReader e a b text zs).2 = .error err) ∧
    (w.2.2 = none → ∃ code s, (x.exportingReader e a b text zs).2 = .ok code ∧ execute installed data code = some s ∧
      x.Result e (tableOf e w.2.1) (a == b) u.name v.name (os.map fun o => o.name) installed s) := by
  intro w
  have hw := writeLines_full (FllImporter.lines text) true e
  have e1 : x.exportingReader e a b text zs = (w.1, x.script e a b zs w.2.1 w.2.2) := rfl
  rw [e1]
  refine ⟨rfl, fun err h => ?_, fun h => ?_⟩
  · simp only [h, script]
  · simp only [h]
    exact script_runs hx hw (named_ok ha hb hz) hi data

/-- C78: the script that reads the table from a file runs in a directory in which the file has been written by `FldExporter`; it is the only
script that the console writes (src/Console.cpp:851-858). -/
theorem RScriptExporter.importing_runs_partial [PlainText S] {x : RScriptExporter} {e : Engine S} (hx : x.Good e)
    {a b : Nat} {zs : List Nat} {u v : Variable S} {os : List (OutputVariable S)} (ha : e.inputs[a]? = some u) (hb : e.inputs[b]? = some v)
    (hz : List.Forall₂ (fun i o => e.outputs[i]? = some o) zs os) {path : Str} (hpath : Quotable path) {rows : List (List S)}
    (hr : ∀ r ∈ rows, Full e r) {installed : List Str} (hi : cs! "ggplot2" ∈ installed) {data : List (Str × Str)}
    (hd : data.lookup path = some (({} : FldExporter).text e rows)) :
    ∃ text s, x.importing e a b path zs = .ok text ∧ execute installed data text = some s ∧
      x.Result e (tableOf e rows) (a == b) u.name v.name (os.map fun o => o.name) installed s := by
  have hn := named_ok ha hb hz
  obtain ⟨hp, hq, ho⟩ := named_columns hn
  have hread := readDelim_text e rows (List.ne_nil_of_mem hp) hx.columns hx.distinct fun r h => (hr r h).imp id fun h => by simp [columnsOf, h]
  obtain ⟨s, h1, h2⟩ := runs hx (same := a == b) hp hq ho (f := tableOf e rows) rfl (lines_import hpath) (data := data) hi
    fun s hb hs => reads_import hread installed s hb (by rw [hs]; exact hd)
  refine ⟨_, s, ?_, h1, h2⟩
  unfold importing
  simp only [hn]

theorem forall₂_range {α : Type} (l : List α) : List.Forall₂ (fun i o => l[i]? = some o) (List.range l.length) l := by
  rw [List.forall₂_iff_get]
  refine ⟨by simp, fun i h1 h2 => ?_⟩
  simp only [List.get_eq_getElem, List.getElem_range]
  exact List.getElem?_eq_getElem h2

/-- C78: The script of an engine shows all its output variables over the first two of its input variables, or over the only one. -/
theorem RScriptExporter.toString_runs_partial [PlainText S] [Truncate S] [Heap S] {x : RScriptExporter} {e : Engine S} (hx : x.Good e)
    {u : Variable S} {us : List (Variable S)} (hu : e.inputs = u :: us) (ho : e.outputs ≠ []) {installed : List Str}
    (hi : cs! "ggplot2" ∈ installed) (data : List (Str × Str)) :
    let w := ({} : FldExporter).write e 1024 .allVariables (e.inputs.mapIdx fun i _ => decide (i < 2))
    (x.toString e).1 = w.1 ∧
    (∀ err, w.2.2 = some err → (x.toString e).2 = .error err) ∧
    (w.2.2 = none → ∃ text s, (x.toString e).2 = .ok text ∧ execute installed data text = some s ∧
      x.Result e (tableOf e w.2.1) us.isEmpty u.name (us.headD u).name (e.outputs.map fun o => o.name) installed s) := by
  have e1 : x.toString e = x.exporting e 0 (1 % e.inputs.length) 1024 .allVariables (List.range e.outputs.length) := by
    unfold RScriptExporter.toString
    rw [if_neg (by simp [hu, ho])]
  rw [e1]
  cases us with
  | nil =>
    have h1 : 1 % e.inputs.length = 0 := by rw [hu]; exact Nat.mod_one 1
    rw [h1]
    have ha : e.inputs[0]? = some u := by rw [hu]; rfl
    have hact : (e.inputs.mapIdx fun i _ => i == 0 || i == 0) = e.inputs.mapIdx fun i _ => decide (i < 2) := by rw [hu]; rfl
    have := exporting_runs_partial hx ha ha (forall₂_range e.outputs) 1024 .allVariables hi data
    rw [hact] at this
    exact this
  | cons v us =>
    have h1 : 1 % e.inputs.length = 1 := by
      rw [hu]
      exact Nat.mod_eq_of_lt (by simp)
    rw [h1]
    have ha : e.inputs[0]? = some u := by rw [hu]; rfl
    have hb : e.inputs[1]? = some v := by rw [hu]; rfl
    have hact : (e.inputs.mapIdx fun i _ => i == 0 || i == 1) = e.inputs.mapIdx fun i _ => decide (i < 2) := by
      congr 1
      funext i _
      rcases i with _ | _ | i <;> simp
    have := exporting_runs_partial hx ha hb (forall₂_range e.outputs) 1024 .allVariables hi data
    rw [hact] at this
    exact this

/-- C78: what the rows are: the engine processed at every point of the grid over the variables shown, in order, while the other
input variables keep their values -/
theorem RScriptExporter.rows_partial [Truncate S] [Heap S] (e : Engine S) (active : List Bool) (hlen : active.length = e.inputs.length)
    (hne : e.inputs ≠ []) (hs : Stable active e.inputs) (values : Int) (scope : Scope) (r : Int) (hr : 0 ≤ r)
    (hres : scope.resolution (S := S) e.inputs.length values = some r) :
    ({} : FldExporter).write e values scope active = sweep {} e (gridPoints r e.inputs active) := by
  rw [(FldExporter.write_spec {} e values scope active).2 hlen r hres]
  exact (FldExporter.writeGrid_partial {} e r hr active hlen hne hs).1

/-- C78: an engine without input or without output variables has no script -/
theorem RScriptExporter.toString_empty [Truncate S] [Heap S] (x : RScriptExporter) (e : Engine S) (h : e.inputs = [] ∨ e.outputs = []) :
    x.toString e = (e, .error .exporting) := by
  unfold RScriptExporter.toString
  rw [if_pos]
  rcases h with h | h <;> simp [h]

namespace RScriptDemo
local instance : Heap (Ext Rat) := RuleBlock.stableHeap _

def x : RScriptExporter := {}

/-- an engine with two input variables and an output variable that has its default value -/
def engine (description a b z : Str) : Engine (Ext Rat) :=
  ⟨cs! "E", description, [Variable.new a (.fin 0) (.fin 4) [], Variable.new b (.fin 1) (.fin 2) []],
    [{ OutputVariable.new z (.fin 0) (.fin 1) [] with default := .fin 7, defuzzifier := some (.integral .centroid 100) }], []⟩

def packages : List Str := [cs! "ggplot2", cs! "gridExtra", cs! "grid"]

/-- the state after the script for two values of each variable -/
def after (e : Engine (Ext Rat)) (b : Nat) : Option State :=
  match (x.exporting e 0 b 2 .eachVariable [0]).2 with
  | .ok text => execute packages [] text
  | .error _ => none

def e0 : Engine (Ext Rat) := engine (cs! "two") (cs! "a") (cs! "b") (cs! "y")

theorem good : x.Good e0 :=
  ⟨by decide, ⟨by decide, by decide, by decide⟩, by decide, by decide, by decide +kernel, by decide +kernel, by decide +kernel⟩

/-- Non-vacuity of C78: the conditions hold for an engine, and the table has a row for every point -/
example : ∃ text s, (x.exporting e0 0 1 2 .eachVariable [0]).2 = .ok text ∧ execute packages [] text = some s ∧
    s.get (cs! "engine.df") = some (.frame ⟨[cs! "a", cs! "b", cs! "y"], [[cs! "0.000", cs! "1.000", cs! "7.000"],
      [cs! "0.000", cs! "2.000", cs! "7.000"], [cs! "4.000", cs! "1.000", cs! "7.000"], [cs! "4.000", cs! "2.000", cs! "7.000"]]⟩) := by
  obtain ⟨text, s, h1, h2, h3⟩ := (RScriptExporter.exporting_runs_partial good (a := 0) (b := 1) (zs := [0]) rfl rfl (.cons rfl .nil) 2 .eachVariable
    (installed := packages) (by decide) []).2.2 (by decide +kernel)
  refine ⟨text, s, h1, h2, ?_⟩
  rw [h3.frame]
  decide +kernel

/-- the same by evaluation, and the plots that are saved and drawn: the columns that they show, and their layers -/
example : ((after e0 1).map fun s => s.files.map fun f => f.1 :: f.2.plots.flatMap fun p => p.shown.eraseDups) =
    some [[cs! "E.pdf", cs! "a", cs! "b", cs! "y", cs! "b", cs! "a", cs! "y"]] := by
  decide +kernel

example : ((after e0 0).map fun s => s.drawn.map fun f => f.top :: f.plots.flatMap fun p => p.x :: p.y :: p.layers.map fun l => l.function) =
    some [[cs! "E", cs! "a", cs! "y", cs! "geom_line", cs! "scale_color_gradient", cs! "ggtitle",
      cs! "a", cs! "y", cs! "geom_line", cs! "scale_color_gradient", cs! "coord_flip", cs! "ggtitle"]] := by
  decide +kernel

/-- the script that reads a file, with and without the package `data.table` -/
example : ∀ ps ∈ [packages, cs! "data.table" :: packages], ∃ text s, x.importing e0 0 1 (cs! "E.fld") [0] = .ok text ∧
    execute ps [(cs! "E.fld", ({} : FldExporter).text e0 [[.fin 0, .fin 1, .fin 7], [.fin 4, .fin 2, .nan]])] text = some s ∧
    s.get (cs! "engine.df") = some (.frame ⟨[cs! "a", cs! "b", cs! "y"], [[cs! "0.000", cs! "1.000", cs! "7.000"],
      [cs! "4.000", cs! "2.000", cs! "nan"]]⟩) := by
  intro ps hps
  obtain ⟨text, s, h1, h2, h3⟩ := RScriptExporter.importing_runs_partial good (a := 0) (b := 1) (zs := [0]) rfl rfl (.cons rfl .nil)
    (path := cs! "E.fld") (by decide) (rows := [[.fin 0, .fin 1, .fin 7], [.fin 4, .fin 2, .nan]])
    (by intro r hr; simp only [List.mem_cons, List.not_mem_nil, or_false] at hr; rcases hr with rfl | rfl <;> exact .inr rfl) (installed := ps)
    (by simp only [List.mem_cons, List.not_mem_nil, or_false] at hps; rcases hps with rfl | rfl <;> decide)
    (data := [(cs! "E.fld", ({} : FldExporter).text e0 [[.fin 0, .fin 1, .fin 7], [.fin 4, .fin 2, .nan]])]) rfl
  refine ⟨text, s, h1, h2, ?_⟩
  rw [h3.frame]
  decide +kernel

/-- C78 is violated by texts with quotes, which end the text in R: the script does not run; and by texts with backslashes, which R reads
as escape sequences. -/
theorem texts_violated :
    (after (engine (cs! "the \"best\"") (cs! "a") (cs! "b") (cs! "y")) 1).isNone = true ∧
    ((after (engine (cs! "C:\\temp") (cs! "a") (cs! "b") (cs! "y")) 1).bind fun s => s.get (cs! "engine.description")) =
      some (.text (cs! "C:\temp")) := by
  decide +kernel

/-- The words that R reserves. -/
theorem reserved_listed (w : Str) : w ∈ reserved ↔ w ∈ (cs! "if else repeat while function for in next break TRUE FALSE NULL Inf NaN NA NA_integer_ NA_real_ NA_complex_ NA_character_").splitOn ' ' := by
  have h : reserved.Perm ((cs! "if else repeat while function for in next break TRUE FALSE NULL Inf NaN NA NA_integer_ NA_real_ NA_complex_ NA_character_").splitOn ' ') := by decide +kernel
  exact h.mem_iff

/-- C78 is violated by names that fuzzylite accepts and R does not. -/
theorem names_violated :
    [cs! "2nd", cs! "_x", cs! "if", cs! "TRUE", cs! "NA"].all (fun n => Op.validName n == n &&
      (after (engine [] n (cs! "b") (cs! "y")) 1).isNone) = true := by
  decide +kernel

/-- Exporting an engine changes it, also in `toString(const Engine*)`, which casts the constness away and calls the same function
(`toString_runs_partial`): the input variables are left at the last point of the grid. -/
theorem const_violated :
    e0.inputs.map (fun v => v.value) = [.nan, .nan] ∧
    (x.exporting e0 0 1 2 .eachVariable [0]).1.inputs.map (fun v => v.value) = [.fin 4, .fin 2] := by
  decide +kernel

end RScriptDemo
end FL
