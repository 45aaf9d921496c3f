/-
Benchmarks over engines without memory.
-/
import Verif.Props.Grid
import Verif.Props.Benchmark

namespace FL
open Scalar
section General
variable {S : Type} [Scalar S]

/-- the engine computes its outputs from its inputs alone: output variables are enabled and do not
lock their previous values, and no formula mentions an output variable -/
structure Engine.Memoryless (e : Engine S) : Prop where
  enabled : ∀ o ∈ e.outputs, o.enabled = true
  unlocked : ∀ o ∈ e.outputs, o.lockPrevious = false
  inputs : ∀ v ∈ e.inputs, ∀ t ∈ v.terms, t.ReadsNone (e.outputs.map fun o => o.name)
  outputs : ∀ o ∈ e.outputs, ∀ t ∈ o.terms, t.ReadsNone (e.outputs.map fun o => o.name)

/-- The values of the output variables after setting the inputs and processing, or the exception. -/
def Engine.answer [Heap S] (e : Engine S) (xs : List S) : Except Err (List S) :=
  match (e.setInputs xs).process with
  | (_, some err) => .error err
  | (e', none) => .ok e'.outputValues

theorem Engine.process_enabled [Heap S] (e : Engine S) (h : ∀ o ∈ e.outputs, o.enabled = true) :
    ∀ o ∈ e.process.1.outputs, o.enabled = true := by
  have h1 : e.process.1.forget.outputs = e.forget.outputs := by rw [e.process_forget]
  have h2 := congrArg (List.map fun o : OutputVariable S => o.enabled) h1
  have a1 : ∀ d : Engine S, (d.forget.outputs.map fun o => o.enabled) = d.outputs.map fun o => o.enabled := by
    intro d; simp only [forget, fresh, List.map_map]; rfl
  rw [a1, a1] at h2
  intro o ho
  have : o.enabled ∈ e.process.1.outputs.map fun o => o.enabled := List.mem_map_of_mem ho
  rw [h2] at this
  obtain ⟨o', ho', heq⟩ := List.mem_map.1 this
  rw [← heq]; exact h o' ho'

/-- engines of the same configuration give the same answers -/
theorem Engine.Memoryless.answer_congr [Heap S] {e e' : Engine S} (h : e.Memoryless) (hc : e.config = e'.config)
    (xs : List S) (hlen : e.inputs.length ≤ xs.length) : e.answer xs = e'.answer xs := by
  obtain ⟨h1, h2⟩ := memoryless_partial _ _ (setInputs_forget hc xs hlen) (fun o ho _ => h.unlocked o ho)
    (fun v hv t ht => by
      obtain ⟨u, hu, huv⟩ := e.setInputs_terms xs hv
      exact h.inputs u hu t (huv ▸ ht)) h.outputs
  have h3 := (e.setInputs xs).process_enabled h.enabled
  unfold answer
  generalize (e.setInputs xs).process = p at h1 h2 h3 ⊢
  generalize (e'.setInputs xs).process = p' at h1 h2 h3 ⊢
  obtain ⟨q, err⟩ := p
  obtain ⟨q', err'⟩ := p'
  simp only at h1 h2 h3
  subst h1
  cases err with
  | some err => rfl
  | none =>
    simp only [outputValues]
    have := h2 rfl
    revert this h3
    generalize q.outputs = l
    generalize q'.outputs = l'
    intro h3 h
    congr 1
    induction h with
    | nil => rfl
    | cons hd _ ih =>
      rw [List.map_cons, List.map_cons, hd (h3 _ (by simp)), ih fun o ho => h3 o (by simp [ho])]

theorem Engine.setInputs_config [Heap S] (e : Engine S) (xs : List S) : (e.setInputs xs).config = e.config := by
  have : ((e.setInputs xs).inputs.map fun v => { v with value := nan }) = e.inputs.map fun v => { v with value := nan } := by
    unfold setInputs
    simp only [List.map_append]
    generalize e.inputs = l
    induction l generalizing xs with
    | nil => simp
    | cons v l ih =>
      cases xs with
      | nil => simp
      | cons x xs =>
        simp only [List.zipWith_cons_cons, List.map_cons, List.length_cons, List.drop_succ_cons, List.cons_append]
        rw [ih]
        rfl
  show Engine.mk _ _ _ _ _ = Engine.mk _ _ _ _ _
  rw [this]
  rfl

theorem Engine.process_config [Heap S] (e : Engine S) : e.process.1.config = e.config :=
  config_of_forget e.process_forget

theorem Engine.config_length {e e' : Engine S} (h : e.config = e'.config) : e.inputs.length = e'.inputs.length := by
  simpa [config] using congrArg (fun d : Engine S => d.inputs.length) h

namespace Benchmark

/-- Reference semantics of a run: every row is answered by the engine on its own, and the first
row that is too short or raises ends the run. -/
def rows [Heap S] (e : Engine S) : List (List S) → List (List S) × Option Err
  | [] => ([], none)
  | r :: rs =>
    if r.length < e.inputs.length then ([], some .exporting)
    else match e.answer (r.take e.inputs.length) with
      | .error err => ([], some err)
      | .ok ys => ((r.take e.inputs.length ++ ys) :: (rows e rs).1, (rows e rs).2)

theorem runRows_rows [Heap S] (e : Engine S) (h : e.Memoryless) (rs : List (List S)) (e' : Engine S)
    (hc : e.config = e'.config) :
    (runRows e' rs).2 = rows e rs ∧ (runRows e' rs).1.config = e.config := by
  induction rs generalizing e' with
  | nil => exact ⟨rfl, hc.symm⟩
  | cons r rs ih =>
    have hl := Engine.config_length hc
    unfold runRows rows
    rw [hl]
    split
    · exact ⟨rfl, hc.symm⟩
    · rename_i hlen
      have hans := h.answer_congr hc (r.take e'.inputs.length) (by rw [List.length_take]; omega)
      have hcp : (e'.setInputs (r.take e'.inputs.length)).process.1.config = e.config := by
        rw [Engine.process_config, Engine.setInputs_config, hc]
      rw [hans]
      unfold Engine.answer
      generalize (e'.setInputs (r.take e'.inputs.length)).process = p at hcp ⊢
      obtain ⟨q, err⟩ := p
      cases err with
      | some err => exact ⟨rfl, hcp⟩
      | none =>
        obtain ⟨i1, i2⟩ := ih q hcp.symm
        simp only
        have hq := Engine.config_length hcp
        generalize runRows q rs = z at i1 i2 ⊢
        obtain ⟨z1, z2, z3⟩ := z
        simp only at i1 i2 ⊢
        rw [← i1]
        exact ⟨by rw [hq, hl], i2⟩

/-- C57.  Running a benchmark: every row is answered as by the engine on its own, whatever rows come
before, up to the first row that is too short or raises; the obtained row consists of the inputs of
the expected row and the answer. -/
theorem run_partial [Heap S] (b : Benchmark S) (e : Engine S) (he : b.engine = some e) (h : e.Memoryless) :
    b.runOnce.1.obtained = (rows e b.expected).1 ∧ b.runOnce.2 = (rows e b.expected).2 ∧
    b.runOnce.1.expected = b.expected ∧ ∃ e', b.runOnce.1.engine = some e' ∧ e'.config = e.config := by
  obtain ⟨h1, h2⟩ := runRows_rows e h b.expected e.restart (e.act_config .restart).symm
  unfold runOnce
  rw [he]
  simp only
  generalize runRows e.restart b.expected = z at h1 h2 ⊢
  obtain ⟨z1, z2, z3⟩ := z
  simp only at h1 h2
  rw [← h1]
  exact ⟨rfl, rfl, trivial, z1, rfl, h2⟩

theorem rows_ok [Heap S] (e : Engine S) (f : List S → List S) (rs : List (List S))
    (h : ∀ r ∈ rs, e.inputs.length ≤ r.length ∧ e.answer (r.take e.inputs.length) = .ok (f r)) :
    rows e rs = (rs.map fun r => r.take e.inputs.length ++ f r, none) := by
  induction rs with
  | nil => rfl
  | cons r rs ih =>
    obtain ⟨h1, h2⟩ := h r (by simp)
    unfold rows
    rw [if_neg (by omega), h2, ih fun r hr => h r (by simp [hr])]
    rfl

/-- C57.  When every row is long enough and no row raises, the run completes, with one obtained row
for each expected row. -/
theorem run_complete_partial [Heap S] (b : Benchmark S) (e : Engine S) (he : b.engine = some e) (h : e.Memoryless)
    (f : List S → List S)
    (hf : ∀ r ∈ b.expected, e.inputs.length ≤ r.length ∧ e.answer (r.take e.inputs.length) = .ok (f r)) :
    b.runOnce.2 = none ∧ b.runOnce.1.obtained = b.expected.map fun r => r.take e.inputs.length ++ f r := by
  obtain ⟨h1, h2, -, -⟩ := run_partial b e he h
  rw [h1, h2, rows_ok e f _ hf]
  exact ⟨rfl, rfl⟩

/-- C57.  The order of the rows does not matter. -/
theorem run_perm_partial [Heap S] (b c : Benchmark S) (e : Engine S) (he : b.engine = some e) (hce : c.engine = some e)
    (h : e.Memoryless) (hp : b.expected.Perm c.expected) (hb : b.runOnce.2 = none) :
    c.runOnce.2 = none ∧ b.runOnce.1.obtained.Perm c.runOnce.1.obtained := by
  have key : ∀ rs : List (List S), (rows e rs).2 = none →
      ∀ r ∈ rs, e.inputs.length ≤ r.length ∧ ∃ ys, e.answer (r.take e.inputs.length) = .ok ys := by
    intro rs
    induction rs with
    | nil => simp
    | cons r rs ih =>
      unfold rows
      split
      · simp
      · rename_i hlen
        cases ha : e.answer (r.take e.inputs.length) with
        | error err => simp
        | ok ys =>
          intro hn
          simp only at hn
          simp only [List.mem_cons, forall_eq_or_imp]
          exact ⟨⟨by omega, ys, ha⟩, ih hn⟩
  have k := key b.expected (by rw [← (run_partial b e he h).2.1]; exact hb)
  let f : List S → List S := fun r => match e.answer (r.take e.inputs.length) with | .ok ys => ys | .error _ => []
  have hf : ∀ r ∈ b.expected, e.inputs.length ≤ r.length ∧ e.answer (r.take e.inputs.length) = .ok (f r) := by
    intro r hr
    obtain ⟨k1, ys, k2⟩ := k r hr
    exact ⟨k1, by simp only [f, k2]⟩
  obtain ⟨-, hb2⟩ := run_complete_partial b e he h f hf
  obtain ⟨hc1, hc2⟩ := run_complete_partial c e hce h f fun r hr => hf r (hp.mem_iff.2 hr)
  exact ⟨hc1, by rw [hb2, hc2]; exact hp.map _⟩

/-- C57.  Running again gives the same results, whatever was obtained before. -/
theorem run_again_partial [Heap S] (b : Benchmark S) (e : Engine S) (he : b.engine = some e) (h : e.Memoryless) :
    b.runOnce.1.runOnce.1.obtained = b.runOnce.1.obtained ∧ b.runOnce.1.runOnce.2 = b.runOnce.2 := by
  obtain ⟨h1, h2, h3, e', he', hc⟩ := run_partial b e he h
  obtain ⟨k1, k2⟩ := runRows_rows e h b.expected e'.restart (by rw [show e'.restart.config = e'.config from e'.act_config .restart, hc])
  have : b.runOnce.1.runOnce.1.obtained = (runRows e'.restart b.expected).2.1 ∧
      b.runOnce.1.runOnce.2 = (runRows e'.restart b.expected).2.2 := by
    generalize b.runOnce = z at *
    unfold runOnce
    rw [he', h3]
    exact ⟨rfl, rfl⟩
  rw [this.1, this.2, k1, h1, h2]
  exact ⟨rfl, rfl⟩

/-- C57.  A benchmark without an engine raises and changes nothing. -/
theorem run_no_engine [Heap S] (b : Benchmark S) (h : b.engine = none) : b.runOnce = (b, some .exporting) := by
  unfold runOnce; rw [h]

/-- C57.  A row with fewer values than input variables raises; the rows before it are kept. -/
theorem run_short_partial [Heap S] (b : Benchmark S) (e : Engine S) (he : b.engine = some e) (h : e.Memoryless)
    (f : List S → List S) (rs ss : List (List S)) (r : List S) (hb : b.expected = rs ++ r :: ss)
    (hf : ∀ r ∈ rs, e.inputs.length ≤ r.length ∧ e.answer (r.take e.inputs.length) = .ok (f r))
    (hr : r.length < e.inputs.length) :
    b.runOnce.2 = some .exporting ∧ b.runOnce.1.obtained = rs.map fun r => r.take e.inputs.length ++ f r := by
  obtain ⟨h1, h2, -, -⟩ := run_partial b e he h
  rw [h1, h2, hb]
  clear h1 h2 hb
  induction rs with
  | nil => rw [List.nil_append]; unfold rows; rw [if_pos hr]; exact ⟨rfl, rfl⟩
  | cons q rs ih =>
    obtain ⟨k1, k2⟩ := hf q (by simp)
    obtain ⟨i1, i2⟩ := ih fun r hr => hf r (by simp [hr])
    rw [List.cons_append]
    unfold rows
    rw [if_neg (by omega), k2, i1, i2]
    exact ⟨rfl, rfl⟩

end Benchmark

/-! ### one row of exported data -/

/-- C52: one line of data.  Nothing happens for an empty row; too few values, or a list of active
variables of another length, raise without processing; otherwise the value of an active variable is
the one given and an inactive variable is set to its own value; surplus values are ignored; the
engine is processed once, and the line shows the values given and the values of the outputs. -/
theorem FldExporter.writeRow_spec [Heap S] (x : FldExporter) (e : Engine S) (values : List S) (active : List Bool)
    (hne : values ≠ []) :
    (values.length < e.inputs.length → x.writeRow e values active = (e, .error .exporting)) ∧
    (e.inputs.length ≤ values.length → active.length ≠ e.inputs.length →
      x.writeRow e values active = (e, .error .exporting)) ∧
    (e.inputs.length ≤ values.length → active.length = e.inputs.length →
      ∃ g : List S, g.length = e.inputs.length ∧
        (∀ (i : Nat) (v : Variable S) (a : Bool) (y : S), e.inputs[i]? = some v → active[i]? = some a → values[i]? = some y →
          g[i]? = some (if a then y else v.value)) ∧
        (x.writeRow e values active).1 = (e.setInputs g).process.1 ∧
        (x.writeRow e values active).2 = match e.answer g with
          | .error err => .error err
          | .ok ys => .ok ((if x.inputValues then g else []) ++ (if x.outputValues then ys else []))) := by
  have hgi : ∀ (vs : List (Variable S)) (as : List Bool) (ys : List S), vs.length ≤ ys.length → as.length = vs.length →
      (given vs as ys).length = vs.length ∧ ∀ (i : Nat) (v : Variable S) (a : Bool) (y : S), vs[i]? = some v → as[i]? = some a → ys[i]? = some y →
        (given vs as ys)[i]? = some (if a then y else v.value) := by
    intro vs
    induction vs with
    | nil => intro as ys _ _; exact ⟨by simp [given], by simp⟩
    | cons v vs ih =>
      intro as ys h1 h2
      match as, ys with
      | a :: as, y :: ys =>
        obtain ⟨i1, i2⟩ := ih as ys (by simpa using h1) (by simpa using h2)
        refine ⟨by simp [given, i1], fun i => ?_⟩
        cases i with
        | zero => simp only [given, List.getElem?_cons_zero, Option.some.injEq]; rintro _ _ _ rfl rfl rfl; rfl
        | succ i => simpa only [given, List.getElem?_cons_succ] using i2 i
  have he : values.isEmpty = false := by simpa using hne
  unfold writeRow
  simp only [he, Bool.false_eq_true, if_false]
  refine ⟨fun h => by rw [if_pos h], fun h1 h2 => by rw [if_neg (by omega), if_pos h2], fun h1 h2 => ?_⟩
  rw [if_neg (by omega), if_neg (by omega)]
  obtain ⟨k1, k2⟩ := hgi e.inputs active values h1 h2
  refine ⟨given e.inputs active values, k1, k2, ?_⟩
  unfold Engine.answer
  cases (e.setInputs (given e.inputs active values)).process with
  | mk e' err => cases err <;> exact ⟨rfl, rfl⟩

theorem FldExporter.writeRow_empty [Heap S] (x : FldExporter) (e : Engine S) (active : List Bool) :
    x.writeRow e [] active = (e, .ok []) := rfl

/-! ### a benchmark of an engine against its own data -/

theorem sweep_answers [Heap S] (x : FldExporter) (e : Engine S) (h : e.Memoryless) (ps : List (List S))
    (hps : ∀ p ∈ ps, p.length = e.inputs.length) (e' : Engine S) (hc : e.config = e'.config)
    (hn : (sweep x e' ps).2.2 = none) :
    ∃ f : List S → List S, (∀ p ∈ ps, e.answer p = .ok (f p)) ∧
      (sweep x e' ps).2.1 = ps.map fun p => (if x.inputValues then p else []) ++ (if x.outputValues then f p else []) := by
  suffices hs : ∀ f : List S → List S, (∀ p ys, e.answer p = .ok ys → f p = ys) → (∀ p ∈ ps, e.answer p = .ok (f p)) ∧
      (sweep x e' ps).2.1 = ps.map fun p => (if x.inputValues then p else []) ++ (if x.outputValues then f p else []) by
    exact ⟨fun p => match e.answer p with | .ok ys => ys | .error _ => [], hs _ fun p ys hp => by simp only [hp]⟩
  intro f hf
  induction ps generalizing e' with
  | nil => exact ⟨by simp, rfl⟩
  | cons p ps ih =>
    have hans := h.answer_congr hc p (by rw [hps p (by simp)])
    have hcp : (e'.setInputs p).process.1.config = e.config := by
      rw [Engine.process_config, Engine.setInputs_config, hc]
    unfold Engine.answer at hans
    unfold sweep at hn ⊢
    rw [List.map_cons]
    have hfp := hf p
    generalize (e'.setInputs p).process = z at hans hcp hn ⊢
    obtain ⟨q, err⟩ := z
    cases err with
    | some err => simp at hn
    | none =>
      simp only at hn ⊢
      obtain ⟨i1, i2⟩ := ih (fun p hp => hps p (by simp [hp])) q hcp.symm (by
        revert hn; generalize sweep x q ps = w; obtain ⟨_, _, _⟩ := w; exact id)
      have ha : e.answer p = .ok q.outputValues := hans
      have := hfp _ ha
      refine ⟨?_, ?_⟩
      · simp only [List.mem_cons, forall_eq_or_imp]
        exact ⟨by rw [this]; exact ha, i1⟩
      · rw [this, ← i2]

theorem mem_gridPoints_length (r : Int) (hr : 0 ≤ r) (vs : List (Variable S)) (active : List Bool)
    (hlen : active.length = vs.length) : ∀ p ∈ gridPoints r vs active, p.length = vs.length := by
  intro p hp
  obtain ⟨s, hs, rfl⟩ := List.mem_map.1 hp
  have := box_lengths active r hr s hs
  exact gridInput_length r vs active s hlen (by omega)

/-- C58.  Data exported by an engine, with inputs and outputs, is what a benchmark of the same
engine against that data obtains. -/
theorem FldExporter.benchmark_partial [Heap S] (x : FldExporter) (hi : x.inputValues = true) (ho : x.outputValues = true)
    (e : Engine S) (hm : e.Memoryless) (r : Int) (hr : 0 ≤ r) (active : List Bool)
    (hlen : active.length = e.inputs.length) (hne : e.inputs ≠ []) (hs : Stable active e.inputs)
    (hn : (x.writeGrid e r active).2.2 = none) (b : Benchmark S) (he : b.engine = some e)
    (hb : b.expected = (x.writeGrid e r active).2.1) :
    b.runOnce.2 = none ∧ b.runOnce.1.obtained = b.expected := by
  rw [(writeGrid_partial x e r hr active hlen hne hs).1] at hn hb
  obtain ⟨f, h1, h2⟩ := sweep_answers x e hm _ (mem_gridPoints_length r hr e.inputs active hlen) e rfl hn
  rw [h2] at hb
  simp only [hi, ho, if_true] at hb
  have htake : ∀ p ∈ gridPoints r e.inputs active, (p ++ f p).take e.inputs.length = p := by
    intro p hp
    rw [List.take_append_of_le_length (by rw [mem_gridPoints_length r hr e.inputs active hlen p hp])]
    exact List.take_of_length_le (by rw [mem_gridPoints_length r hr e.inputs active hlen p hp])
  obtain ⟨k1, k2⟩ := Benchmark.run_complete_partial b e he hm (fun r => f (r.take e.inputs.length)) (by
    rw [hb]
    intro q hq
    obtain ⟨p, hp, rfl⟩ := List.mem_map.1 hq
    have hl := mem_gridPoints_length r hr e.inputs active hlen p hp
    refine ⟨by simp [hl], ?_⟩
    rw [htake p hp]
    exact h1 p hp)
  refine ⟨k1, ?_⟩
  rw [k2, hb, List.map_map]
  apply List.map_congr_left
  intro p hp
  simp only [Function.comp_apply]
  rw [htake p hp]

theorem Engine.answer_length [Heap S] (e : Engine S) (xs ys : List S) (h : e.answer xs = .ok ys) :
    ys.length = e.outputs.length := by
  have h1 := congrArg (fun d : Engine S => d.outputs.length) (e.setInputs xs).process_forget
  simp only [forget, fresh, List.length_map] at h1
  unfold answer at h
  revert h h1
  generalize (e.setInputs xs).process = z
  obtain ⟨q, err⟩ := z
  cases err with
  | some err => intro h _; cases h
  | none => intro h h1; cases h; simpa [outputValues, setInputs] using h1

theorem FldExporter.grid_rows_length [Heap S] (x : FldExporter) (hi : x.inputValues = true) (ho : x.outputValues = true)
    (e : Engine S) (hm : e.Memoryless) (r : Int) (hr : 0 ≤ r) (active : List Bool)
    (hlen : active.length = e.inputs.length) (hne : e.inputs ≠ []) (hs : Stable active e.inputs)
    (hn : (x.writeGrid e r active).2.2 = none) :
    (x.writeGrid e r active).2.1 ≠ [] ∧
    ∀ row ∈ (x.writeGrid e r active).2.1, row.length = e.inputs.length + e.outputs.length := by
  have hl := (lines_partial x e r hr active hlen hne hs).2 hn
  rw [(writeGrid_partial x e r hr active hlen hne hs).1] at hn hl ⊢
  obtain ⟨f, h1, h2⟩ := sweep_answers x e hm _ (mem_gridPoints_length r hr e.inputs active hlen) e rfl hn
  constructor
  · rw [← List.length_pos_iff, hl]
    have : 0 < (r + 1).toNat := by omega
    positivity
  · rw [h2]
    intro row hrow
    obtain ⟨p, hp, rfl⟩ := List.mem_map.1 hrow
    simp only [hi, ho, if_true, List.length_append]
    rw [mem_gridPoints_length r hr e.inputs active hlen p hp, e.answer_length p _ (h1 p hp)]

/-- no error is counted when the values obtained are the values expected -/
theorem Benchmark.same_no_errors (b : Benchmark S) (en : Engine S) (hen : b.engine = some en) (hs : b.obtained = b.expected)
    (hne : b.expected ≠ []) (hrows : ∀ r ∈ b.expected, r.length = en.inputs.length + en.outputs.length)
    (hrefl : ∀ x : S, Op.isEqT b.tolerance x x = true) (ty : ErrorType) (out : Option Nat) :
    b.canComputeErrors = true ∧ b.numberOfErrors ty out = .ok 0 := by
  have hc : b.canComputeErrors = true := by
    unfold canComputeErrors
    rw [hen, hs]
    cases hx : b.expected with
    | nil => exact absurd hx hne
    | cons x xs => simp [hrows x (by rw [hx]; simp)]
  have hp : ∀ p ∈ b.pairs, p.1 = p.2 ∧ p.1 ∈ b.expected := by
    unfold pairs
    rw [hs]
    intro p hp
    obtain ⟨i, hi, rfl⟩ := List.mem_iff_getElem.1 hp
    rw [List.getElem_zip]
    exact ⟨rfl, List.getElem_mem _⟩
  refine ⟨hc, ?_⟩
  rw [numberOfErrors_eq b ty out en hen hc, if_pos]
  · congr 1
    rw [Int.natCast_eq_zero, List.countP_eq_zero]
    intro c hcell
    obtain ⟨p, hp1, hp2⟩ := List.mem_flatMap.1 hcell
    unfold rowCells at hp2
    obtain ⟨y, -, rfl⟩ := List.mem_map.1 hp2
    rw [(hp p hp1).1]
    unfold counts
    simp [hrefl]
  · intro p hp1 y hy _
    obtain ⟨h1, h2⟩ := hp p hp1
    have := hrows p.1 h2
    rw [← h1]
    omega

/-- C58.  A benchmark of an engine against the data that it exported reports no errors of any type,
for any output variable, for every tolerance with which values equal themselves. -/
theorem FldExporter.benchmark_errors_partial [Heap S] (x : FldExporter) (hi : x.inputValues = true)
    (ho : x.outputValues = true) (e : Engine S) (hm : e.Memoryless) (r : Int) (hr : 0 ≤ r) (active : List Bool)
    (hlen : active.length = e.inputs.length) (hne : e.inputs ≠ []) (hs : Stable active e.inputs)
    (hn : (x.writeGrid e r active).2.2 = none) (b : Benchmark S) (he : b.engine = some e)
    (hb : b.expected = (x.writeGrid e r active).2.1) (hrefl : ∀ x : S, Op.isEqT b.tolerance x x = true)
    (ty : Benchmark.ErrorType) (out : Option Nat) :
    b.runOnce.1.canComputeErrors = true ∧ b.runOnce.1.numberOfErrors ty out = .ok 0 := by
  obtain ⟨-, h1⟩ := benchmark_partial x hi ho e hm r hr active hlen hne hs hn b he hb
  obtain ⟨-, -, h2, e', he', hc⟩ := Benchmark.run_partial b e he hm
  obtain ⟨h3, h4⟩ := grid_rows_length x hi ho e hm r hr active hlen hne hs hn
  have ht : b.runOnce.1.tolerance = b.tolerance := by unfold Benchmark.runOnce; rw [he]
  have hol : e'.outputs.length = e.outputs.length := by
    simpa [Engine.config, Engine.forget, Engine.fresh] using congrArg (fun d : Engine S => d.outputs.length) hc
  refine Benchmark.same_no_errors _ e' he' (by rw [h1, h2]) (by rw [h2, hb]; exact h3) ?_ (by rw [ht]; exact hrefl) ty out
  rw [h2, hb, hol, Engine.config_length hc]
  exact h4

end General

/-- C58 at a positive tolerance, over the reals: also the mean squared error is zero. -/
theorem FldExporter.benchmark_mean_partial [Tol ℝ] [Heap (Ext ℝ)] (x : FldExporter) (hi : x.inputValues = true)
    (ho : x.outputValues = true) (e : Engine (Ext ℝ)) (hm : e.Memoryless) (r : Int) (hr : 0 ≤ r) (active : List Bool)
    (hlen : active.length = e.inputs.length) (hne : e.inputs ≠ []) (hs : Stable active e.inputs)
    (hn : (x.writeGrid e r active).2.2 = none) (b : Benchmark (Ext ℝ)) (he : b.engine = some e)
    (hb : b.expected = (x.writeGrid e r active).2.1) (t : ℝ) (ht : 0 < t) (hbt : b.tolerance = .fin t) (out : Option Nat) :
    b.runOnce.1.allErrors out = .ok 0 ∧ b.runOnce.1.meanSquaredError out = .ok (.fin 0) := by
  have hrefl : ∀ x : Ext ℝ, Op.isEqT b.tolerance x x = true := by
    intro x; rw [hbt]; exact (compare_laws t ht x x).2.2.2.2.2
  have k := fun ty => benchmark_errors_partial x hi ho e hm r hr active hlen hne hs hn b he hb hrefl ty out
  refine ⟨(k .all).2, ?_⟩
  rcases Benchmark.meanSquaredError_partial b.runOnce.1 out (k .all).1 with ⟨n, q, h1, h2, h3, h4, -⟩ | ⟨h1, -⟩
  · have := (k .accuracy).2
    rw [show b.runOnce.1.numberOfErrors .accuracy out = b.runOnce.1.accuracyErrors out from rfl, h1] at this
    have hn0 : n = 0 := by simpa using this
    rw [h2, h4.2 hn0]
  · have := (k .accuracy).2
    rw [show b.runOnce.1.numberOfErrors .accuracy out = b.runOnce.1.accuracyErrors out from rfl, h1] at this
    cases this

namespace RunDemo
local instance : Heap (Ext Rat) := RuleBlock.stableHeap _

/-- Non-vacuity of C57 and C58. -/
example : (MemoryDemo.engine (cs! "a") (.fin 1)).Memoryless := by
  have hn : ∀ (ns : List Str), cs! "a" ∉ ns → ∀ f : Fun (Ext Rat), f.root = some (.var (cs! "a")) →
      ∀ root, f.root = some root → ∀ n ∈ root.vars, n = cs! "x" ∨ n ∉ ns := by
    intro ns hns f hf root hr n hnr
    rw [hf] at hr
    cases hr
    obtain rfl : n = cs! "a" := by simpa [Node.vars] using hnr
    exact .inr hns
  refine ⟨?_, ?_, ?_, ?_⟩
  · decide
  · decide
  · intro v hv t ht f hf
    simp only [MemoryDemo.engine, Variable.new, List.mem_cons, List.not_mem_nil, or_false] at hv
    subst hv
    simp only [List.mem_cons, List.not_mem_nil, or_false] at ht
    subst ht
    cases hf
  · intro o ho t ht f hf _
    simp only [MemoryDemo.engine, List.mem_cons, List.not_mem_nil, or_false] at ho
    rcases ho with rfl | rfl <;>
    · simp only [OutputVariable.new, Variable.new, List.mem_cons, List.not_mem_nil, or_false] at ht
      subst ht
      simp only [TermKind.function.injEq] at hf
      subst hf
      exact hn _ (by decide) _ rfl

example :
    let b : Benchmark (Ext Rat) := ⟨some (MemoryDemo.engine (cs! "a") (.fin 1)), [[.fin 1, .fin 7], [.fin 2], [.fin 1], [], [.fin 3]], [], .fin 1⟩
    b.runOnce.1.obtained = [[.fin 1, .fin 1, .fin 1], [.fin 2, .fin 2, .fin 2], [.fin 1, .fin 1, .fin 1]] ∧
    b.runOnce.2 = some .exporting := by decide +kernel

/-- C57 fails for an engine with a formula that mentions an output variable defuzzified later: what
is obtained for a row depends on the rows before it. -/
theorem run_memory_violated :
    let b (rows : List (List (Ext Rat))) : Benchmark (Ext Rat) := ⟨some (MemoryDemo.engine (cs! "z") (.fin 1)), rows, [], .fin 1⟩
    (b [[.fin 1], [.fin 2]]).runOnce.1.obtained = [[.fin 1, .nan, .fin 1], [.fin 2, .fin 1, .fin 2]] ∧
    (b [[.fin 2], [.fin 1]]).runOnce.1.obtained = [[.fin 2, .nan, .fin 2], [.fin 1, .fin 2, .fin 1]] := by
  decide +kernel

/-- C58 fails for the same engine: the benchmark restarts the engine, and the first row of the
exported data is not obtained. -/
theorem own_data_violated :
    let e := (MemoryDemo.engine (cs! "z") (.fin 1)).process.1
    let rows := (FldExporter.writeGrid {} e 1 [true]).2.1
    rows = [[.fin 0, .fin 1, .fin 0], [.fin 10, .fin 0, .fin 10]] ∧
    (Benchmark.runOnce ⟨some e, rows, [], .fin (1/10)⟩).1.obtained = [[.fin 0, .nan, .fin 0], [.fin 10, .fin 0, .fin 10]] ∧
    (Benchmark.runOnce ⟨some e, rows, [], .fin (1/10)⟩).1.allErrors none = .ok 1 := by decide +kernel

end RunDemo
end FL
