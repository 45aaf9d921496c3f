/-
C40, C41, C47: variables.
-/
import Verif.Model.Variable
import Verif.Props.Aggregated
import Verif.Props.Compare

namespace FL
open Scalar

/-! ### C47: fuzzification -/
namespace Variable
section general
variable {S : Type} [Scalar S]

/-- C47: `activations(x)` has one entry per term, in order, with the membership of `x` in that
term, NaN when the term raises an exception (unless the behaviour of a term is undefined). -/
theorem activations_spec (ctx : Ctx S) (v : Variable S) (x : S)
    (hub : ∀ t ∈ v.terms, t.membership ctx x ≠ .error .ub) :
    ∃ l : List (Activated S), v.activations ctx x = .ok l ∧ l.length = v.terms.length ∧
      ∀ (i : Nat) (t : Term S), v.terms[i]? = some t → ∃ a : Activated S, l[i]? = some a ∧ a.id = i ∧ a.term = t ∧ a.implication = none ∧
        (∀ y, t.membership ctx x = .ok y → a.degree = y) ∧
        (∀ e, t.membership ctx x = .error e → a.degree = nan) := by
  let f : Nat × Term S → Activated S := fun p => ⟨p.1, p.2, (match p.2.membership ctx x with
    | .ok y => y
    | .error _ => nan), none⟩
  have key : ∀ l : List (Nat × Term S), (∀ p ∈ l, p.2.membership ctx x ≠ .error .ub) →
      l.mapM (fun (p : Nat × Term S) => (match p.2.membership ctx x with
        | .ok y => .ok ⟨p.1, p.2, y, none⟩
        | .error .ub => .error .ub
        | .error _ => .ok ⟨p.1, p.2, nan, none⟩ : Except Err (Activated S))) = .ok (l.map f) := by
    intro l
    induction l with
    | nil => intro _; rfl
    | cons p l ih =>
      intro h
      rw [List.mapM_cons, ih fun q hq => h q (List.mem_cons_of_mem _ hq)]
      have hp := h p List.mem_cons_self
      cases hm : p.2.membership ctx x with
      | ok y => simp only [List.map_cons, f, hm]; rfl
      | error e =>
        cases e <;> first | exact absurd hm hp | (simp only [List.map_cons, f, hm]; rfl)
  refine ⟨((List.range v.terms.length).zip v.terms).map f, ?_, by simp, ?_⟩
  · unfold activations
    apply key
    intro p hp
    exact hub p.2 (List.of_mem_zip hp).2
  · intro i t ht
    have hi : i < v.terms.length := (List.getElem?_eq_some_iff.1 ht).1
    refine ⟨f (i, t), ?_, rfl, rfl, rfl, ?_, ?_⟩
    · have : ((List.range v.terms.length).zip v.terms)[i]? = some (i, t) :=
        List.getElem?_zip_eq_some.2 ⟨List.getElem?_range hi, ht⟩
      rw [List.getElem?_map, this]; rfl
    · intro y hy; simp only [f, hy]
    · intro e he; simp only [f, he]

/-- the calls that change the value, the range or the lock of a variable -/
inductive Call (S : Type)
  | setValue (x : S)
  | setMinimum (x : S)
  | setMaximum (x : S)
  | setRange (mn mx : S)
  | setLock (b : Bool)

/-- the effect of a call -/
def Call.run : Variable S → Call S → Variable S
  | v, .setValue x => v.setValue x
  | v, .setMinimum x => v.setMinimum x
  | v, .setMaximum x => v.setMaximum x
  | v, .setRange mn mx => v.setRange mn mx
  | v, .setLock b => v.setLockRange b

end general

section order
variable {S : Type} [ScalarOrd S]
open ScalarOrd

/-- C47: `highestMembership` returns the first term attaining the greatest positive membership,
with its degree; no term (and NaN) if none has positive membership. -/
theorem highestMembership_spec (ctx : Ctx S) (v : Variable S) (x : S) (l : List (Activated S))
    (hl : v.activations ctx x = .ok l) :
    ((∀ a ∈ l, lt (lit 0) a.degree = false) → v.highestMembership ctx x = .ok (none, nan)) ∧
    ((∃ a ∈ l, lt (lit 0) a.degree = true) → ∃ pre a post, l = pre ++ a :: post ∧
      v.highestMembership ctx x = .ok (some a, a.degree) ∧ lt (lit 0) a.degree = true ∧
      (∀ b ∈ pre, b.degree ≠ nan → lt b.degree a.degree = true) ∧
      ∀ b ∈ post, b.degree ≠ nan → le b.degree a.degree = true) := by
  have hs := Aggregated.maximallyActivatedTerms_spec (⟨[], nan, nan, none, l⟩ : Aggregated S)
  have hh : v.highestMembership ctx x = .ok (match Aggregated.maximallyActivatedTerms (⟨[], nan, nan, none, l⟩ : Aggregated S) with
    | [] => (none, nan)
    | a :: _ => (some a, a.degree)) := by
    simp only [highestMembership, maxActivations, hl, bind, Except.bind]
    rfl
  rw [hh, hs]
  simp only
  constructor
  · intro h
    have : (l.filter fun a => lt (lit 0) a.degree && l.all fun b => !lt a.degree b.degree) = [] := by
      rw [List.filter_eq_nil_iff]; intro a ha; simp [h a ha]
    rw [this]
  · rintro ⟨c, hc, hc0⟩
    -- a maximal element exists
    have hmax : ∀ m : List (Activated S), (∃ a ∈ m, lt (lit 0) a.degree = true) →
        ∃ a ∈ m, lt (lit 0) a.degree = true ∧ ∀ b ∈ m, lt a.degree b.degree = false := by
      intro m
      induction m with
      | nil => simp
      | cons a m ih =>
        intro hex
        by_cases hm : ∃ b ∈ m, lt (lit 0) b.degree = true
        · obtain ⟨b, hb, hb0, hbm⟩ := ih hm
          by_cases hab : lt b.degree a.degree = true
          · refine ⟨a, by simp, ScalarOrd.lt_trans _ _ _ hb0 hab, ?_⟩
            intro d hd
            rcases List.mem_cons.1 hd with rfl | hd
            · exact ScalarOrd.lt_irrefl _
            · rw [← Bool.not_eq_true]; intro hlt
              have := ScalarOrd.lt_trans _ _ _ hab hlt
              rw [hbm d hd] at this; exact Bool.noConfusion this
          · refine ⟨b, by simp [hb], hb0, ?_⟩
            intro d hd
            rcases List.mem_cons.1 hd with rfl | hd
            · simpa using hab
            · exact hbm d hd
        · have ha0 : lt (lit 0) a.degree = true := by
            obtain ⟨b, hb, hb0⟩ := hex
            rcases List.mem_cons.1 hb with rfl | hb
            · exact hb0
            · exact absurd ⟨b, hb, hb0⟩ hm
          refine ⟨a, by simp, ha0, ?_⟩
          intro d hd
          rcases List.mem_cons.1 hd with rfl | hd
          · exact ScalarOrd.lt_irrefl _
          · rw [← Bool.not_eq_true]; intro hlt
            exact hm ⟨d, hd, ScalarOrd.lt_trans _ _ _ ha0 hlt⟩
    obtain ⟨m, hm, hm0, hmm⟩ := hmax l ⟨c, hc, hc0⟩
    generalize hp : (fun a : Activated S => lt (lit 0) a.degree && l.all fun b => !lt a.degree b.degree) = p
    have hpm : p m = true := by
      rw [← hp]; simp only [Bool.and_eq_true, hm0, true_and, List.all_eq_true, Bool.not_eq_true']
      exact hmm
    cases hf : l.filter p with
    | nil => rw [List.filter_eq_nil_iff] at hf; exact absurd hpm (hf m hm)
    | cons a as =>
      obtain ⟨pre, post, hlp, hpre, hpa, -⟩ := List.filter_eq_cons_iff.1 hf
      have hpa' := hpa
      rw [← hp] at hpa'
      simp only [Bool.and_eq_true, List.all_eq_true, Bool.not_eq_true'] at hpa'
      have hle : ∀ b ∈ l, b.degree ≠ nan → le b.degree a.degree = true := fun b hb hn =>
        le_of_not_lt (ne_nan_of_lt hpa'.1).2 hn (hpa'.2 b hb)
      refine ⟨pre, a, post, hlp, rfl, hpa'.1, ?_, ?_⟩
      · intro b hb hn
        have hbl : b ∈ l := by rw [hlp]; simp [hb]
        rcases lt_total b.degree a.degree hn (ne_nan_of_lt hpa'.1).2 with h | h | h
        · exact h
        · exfalso
          apply hpre b hb
          rw [← hp]
          simp only [Bool.and_eq_true, List.all_eq_true, Bool.not_eq_true']
          rw [h]; exact hpa'
        · rw [hpa'.2 b hbl] at h; exact Bool.noConfusion h
      · intro b hb hn
        exact hle b (by rw [hlp]; simp [hb]) hn

/-! ### C40: range lock -/

/-- the reported value is NaN or lies within the range -/
def InRange (v : Variable S) : Prop :=
  v.value = nan ∨ (le v.minimum v.value = true ∧ le v.value v.maximum = true)

/-- setting the value of a variable that is locked to a non-empty range -/
theorem setValue_inRange (v : Variable S) (x : S) (hl : v.lockRange = true) (hr : le v.minimum v.maximum = true) :
    (v.setValue x).InRange := by
  unfold InRange setValue
  simp only [hl, if_true]
  have hs := bound_spec x v.minimum v.maximum hr
  by_cases hx : x = nan
  · left; exact hs.2.2.2.2.1 hx
  · right; exact hs.1 hx

/-- C40 (partial: after the value was last set, neither the range has changed nor has it been set
while unlocked; and the range must not be empty).  After any sequence of calls whose last `setValue`
happened under the lock with a non-empty range and is followed by locking and unlocking only, the
reported value is NaN or lies within the range. -/
theorem calls_inRange_partial (v : Variable S) (pre post : List (Call S)) (x : S)
    (hl : (pre.foldl Call.run v).lockRange = true)
    (hr : le (pre.foldl Call.run v).minimum (pre.foldl Call.run v).maximum = true)
    (hpost : ∀ c ∈ post, ∃ b, c = .setLock b) :
    ((pre ++ .setValue x :: post).foldl Call.run v).InRange := by
  rw [List.foldl_append, List.foldl_cons]
  have h0 := setValue_inRange (pre.foldl Call.run v) x hl hr
  have : ∀ (l : List (Call S)), (∀ c ∈ l, ∃ b, c = .setLock b) → ∀ w : Variable S, w.InRange →
      (l.foldl Call.run w).InRange := by
    intro l
    induction l with
    | nil => intro _ w h; exact h
    | cons c l ih =>
      intro hc w h
      obtain ⟨b, rfl⟩ := hc c List.mem_cons_self
      exact ih (fun d hd => hc d (List.mem_cons_of_mem _ hd)) _ h
  exact this post hpost _ h0

end order

/-- two triangles sharing a side and a constant 0 -/
def demoTerms : List (Term (Ext ℚ)) :=
  [⟨cs! "none", .fin 1, .constant (.fin 0)⟩,
   ⟨cs! "low", .fin 1, .shape (.triangle (.fin 0) (.fin 2) (.fin 4))⟩,
   ⟨cs! "high", .fin 1, .shape (.triangle (.fin 2) (.fin 4) (.fin 6))⟩]

/-- at 3 both triangles have membership 1/2 and the first wins; at 5 only the second is positive; at
9 none -/
example :
    let v : Variable (Ext ℚ) := .new (cs! "x") (.fin 0) (.fin 10) demoTerms
    let show' := fun (x : ℚ) => (v.highestMembership ⟨[], []⟩ (.fin x)).toOption.map fun p =>
      (p.1.map fun a => a.term.name, p.2)
    show' 3 = some (some (cs! "low"), .fin (1/2)) ∧ show' (7/2) = some (some (cs! "high"), .fin (3/4)) ∧
    show' 9 = some (none, .nan) ∧
    ((v.activations ⟨[], []⟩ (.fin 3)).toOption.map fun l => l.map fun a => a.degree) =
      some [.fin 0, .fin (1/2), .fin (1/2)] := by decide +kernel

/-- a variable on the exact numbers with range `[0, 10]` -/
def demo : Variable (Ext ℚ) := .new (cs! "x") (.fin 0) (.fin 10) []

example : ([Call.setLock true, .setValue (.fin 12), .setLock false, .setLock true].foldl Call.run demo).value = .fin 10 ∧
    ([Call.setLock true, .setRange (.fin (-5)) (.fin 5), .setValue (.fin (-7))].foldl Call.run demo).value = .fin (-5) := by
  decide +kernel

/-- C40 is violated: shrinking the range, or locking a variable that holds a value outside, leaves
the value where it is. -/
theorem calls_inRange_violated :
    (let v := [Call.setLock true, .setValue (.fin 8), .setRange (.fin 0) (.fin 5)].foldl Call.run demo
     v.lockRange = true ∧ v.maximum = .fin 5 ∧ v.value = .fin 8) ∧
    (let v := [Call.setValue (.fin 12), .setLock true].foldl Call.run demo
     v.lockRange = true ∧ v.maximum = .fin 10 ∧ v.value = .fin 12) := by
  decide +kernel

end Variable

/-! ### C41: the value of an output variable -/
namespace OutputVariable
section general
variable {S : Type} [Scalar S]

/-- the value reported for a defuzzified number: clamped if locked to the range -/
def reported (v : OutputVariable S) (z : S) : S := if v.lockRange then Op.bound z v.minimum v.maximum else z

/-- C41: the exact behaviour of `defuzzify`.  A disabled variable is unchanged.  An enabled one
needs a defuzzifier and fails as that does, and otherwise: `previousValue` becomes the value before
the call; a number `z` becomes the value; for NaN the value is the default, except with
lock-previous, if *the previous value of the previous call* is a number. -/
theorem defuzzify_spec (ctx : Ctx S) (v : OutputVariable S) :
    (v.enabled = false → v.defuzzify ctx = .ok v) ∧
    (v.enabled = true → v.defuzzifier = none → v.defuzzify ctx = .error .missingDefuzzifier) ∧
    (v.enabled = true → ∀ d, v.defuzzifier = some d →
      (∀ e, d.defuzzify ctx v.fuzzy v.minimum v.maximum = .error e → v.defuzzify ctx = .error e) ∧
      ∀ z, d.defuzzify ctx v.fuzzy v.minimum v.maximum = .ok z → ∃ v', v.defuzzify ctx = .ok v' ∧
        v' = { v with value := v'.value, previous := v.value } ∧
        (Op.isNaN z = false → v'.value = v.reported z) ∧
        (Op.isNaN z = true → v.lockPrevious = true → Op.isNaN v.previous = false → v'.value = v.reported v.previous) ∧
        (Op.isNaN z = true → v.lockPrevious = false ∨ Op.isNaN v.previous = true → v'.value = v.reported v.default)) := by
  refine ⟨?_, ?_, ?_⟩
  · intro h; simp [defuzzify, h]
  · intro h h'; simp [defuzzify, h, h']
  · intro h d hd
    constructor
    · intro e he; simp [defuzzify, h, hd, he, bind, Except.bind]
    · intro z hz
      refine ⟨({ v with previous := v.value } : OutputVariable S).setValue
        (if Op.isNaN (if v.lockPrevious && Op.isNaN z then v.previous else z) then v.default
          else (if v.lockPrevious && Op.isNaN z then v.previous else z)), ?_, rfl, ?_, ?_, ?_⟩
      · simp only [defuzzify, h, hd, hz, bind, Except.bind, Bool.not_true, Bool.false_eq_true, if_false]
      · intro h1; simp [h1, setValue, Variable.setValue, reported]
      · intro h1 h2 h3; simp [h1, h2, h3, setValue, Variable.setValue, reported]
      · rintro h1 (h2 | h2)
        · simp [h1, h2, setValue, Variable.setValue, reported]
        · by_cases hl : v.lockPrevious = true
          · simp [h1, h2, hl, setValue, Variable.setValue, reported]
          · simp [h1, hl, setValue, Variable.setValue, reported]

/-- C41 (partial: with lock-previous on and NaN, the previous value must be the reported value).
The value after `defuzzify` is the defuzzified number; for NaN it is the last value reported before
the call if lock-previous is on and that is a number, and the default otherwise; clamped if locked
to the range. -/
theorem defuzzify_partial (ctx : Ctx S) (v v' : OutputVariable S) (d : Defuzzifier) (z : S)
    (he : v.enabled = true) (hd : v.defuzzifier = some d)
    (hz : d.defuzzify ctx v.fuzzy v.minimum v.maximum = .ok z) (hv : v.defuzzify ctx = .ok v')
    (hprev : v.lockPrevious = true → Op.isNaN z = true → v.previous = v.value) :
    v'.previous = v.value ∧
    v'.value = v.reported (if Op.isNaN z = false then z
      else if v.lockPrevious = true ∧ Op.isNaN v.value = false then v.value else v.default) := by
  obtain ⟨v'', h1, h2, h3, h4, h5⟩ := ((defuzzify_spec ctx v).2.2 he d hd).2 z hz
  rw [hv] at h1
  cases h1
  refine ⟨by rw [h2], ?_⟩
  cases hn : Op.isNaN z with
  | false => simp [h3 hn]
  | true =>
    simp only [Bool.true_eq_false, if_false]
    by_cases hl : v.lockPrevious = true
    · have hp := hprev hl hn
      by_cases hv : Op.isNaN v.value = false
      · rw [if_pos ⟨hl, hv⟩, ← hp]; exact h4 hn hl (by rw [hp]; exact hv)
      · rw [if_neg (by simp [hv])]
        exact h5 hn (Or.inr (by rw [hp]; simpa using hv))
    · rw [if_neg (by simp [hl])]
      exact h5 hn (Or.inl (by simpa using hl))

/-- `defuzzify_v6`: the value before the call is kept as the previous value if it is finite, and a
fuzzy output that is empty or cannot be defuzzified yields the previous value, if that is locked and
a number, and the default otherwise. -/
theorem defuzzifyV6_spec (ctx : Ctx S) (v : OutputVariable S) :
    (v.enabled = false → v.defuzzifyV6 ctx = (v, none)) ∧
    (v.enabled = true → ∃ p : S, (p = if Op.isFinite v.value then v.value else v.previous) ∧
      ∀ r, (r = if v.lockPrevious = true ∧ Op.isNaN p = false then p else v.default) →
      (v.fuzzy.terms = [] → v.defuzzifyV6 ctx = ({ v with value := v.reported r, previous := p }, none)) ∧
      (v.fuzzy.terms ≠ [] → v.defuzzifier = none →
        v.defuzzifyV6 ctx = ({ v with value := v.reported r, previous := p }, some .missingDefuzzifier)) ∧
      (v.fuzzy.terms ≠ [] → ∀ d, v.defuzzifier = some d →
        (∀ z, d.defuzzify ctx v.fuzzy v.minimum v.maximum = .ok z →
          v.defuzzifyV6 ctx = ({ v with value := v.reported z, previous := p }, none)) ∧
        (∀ e, e ≠ .ub → d.defuzzify ctx v.fuzzy v.minimum v.maximum = .error e →
          v.defuzzifyV6 ctx = ({ v with value := v.reported r, previous := p }, some e)))) := by
  refine ⟨fun h => by simp [defuzzifyV6, h], ?_⟩
  intro h
  refine ⟨_, rfl, ?_⟩
  intro r hr
  have e1 : (if Op.isFinite v.value = true then { v with previous := v.value } else v : OutputVariable S) =
      { v with previous := if Op.isFinite v.value = true then v.value else v.previous } := by split <;> rfl
  generalize (if Op.isFinite v.value = true then v.value else v.previous) = p at hr e1 ⊢
  have e2 : (if (v.lockPrevious && !Op.isNaN p) = true then p else v.default) = r := by
    rw [hr]
    by_cases hl : v.lockPrevious = true ∧ Op.isNaN p = false
    · simp [hl.1, hl.2]
    · rw [if_neg hl, if_neg]
      simpa using hl
  have e3 : v.defuzzifyV6 ctx =
      (if v.fuzzy.terms.isEmpty then (({ v with previous := p } : OutputVariable S).setValue r, none)
      else match v.defuzzifier with
      | none => (({ v with previous := p } : OutputVariable S).setValue r, some .missingDefuzzifier)
      | some d =>
        match d.defuzzify ctx v.fuzzy v.minimum v.maximum with
        | .ok z => (({ v with previous := p } : OutputVariable S).setValue z, none)
        | .error .ub => ({ v with previous := p }, some .ub)
        | .error e => (({ v with previous := p } : OutputVariable S).setValue r, some e)) := by
    unfold defuzzifyV6
    rw [h, e1]
    simp only [Bool.not_true, Bool.false_eq_true, if_false, e2]
    rfl
  have e4 : ∀ z, ({ v with previous := p } : OutputVariable S).setValue z =
      { v with value := v.reported z, previous := p } := fun z => rfl
  rw [e3]
  simp only [e4]
  refine ⟨?_, ?_, ?_⟩
  · intro hf
    rw [if_pos (by simp [hf])]
  · intro hf hd
    rw [if_neg (by simpa using hf)]
    split
    · rfl
    · rename_i d hd'; rw [hd] at hd'; cases hd'
  · intro hf d hd
    rw [if_neg (by simpa using hf)]
    split
    · rename_i hd'; rw [hd] at hd'; cases hd'
    · rename_i d' hd'
      rw [hd] at hd'; cases hd'
      constructor
      · intro z hz; rw [hz]
      · intro e he hz
        rw [hz]
        cases e <;> first | exact absurd rfl he | rfl

end general

/-- an output variable on the exact numbers that locks its previous value and defuzzifies to 5 -/
def demo : OutputVariable (Ext ℚ) :=
  { OutputVariable.new (cs! "y") (.fin 0) (.fin 10) [⟨cs! "t", .fin 1, .constant (.fin 5)⟩] with
    fuzzy := ⟨cs! "y", .fin 0, .fin 10, none, [⟨0, ⟨cs! "t", .fin 1, .constant (.fin 5)⟩, .fin 1, none⟩]⟩
    defuzzifier := some (.weighted .average .takagiSugeno)
    default := .fin 9
    lockPrevious := true }

def demoCtx : Ctx (Ext ℚ) := ⟨[], []⟩

/-- the values after defuzzifying `demo` once, and after each of `n` further times with an empty
fuzzy output -/
def demoRun : Nat → OutputVariable (Ext ℚ) → List (Ext ℚ)
  | 0, _ => []
  | n + 1, v => match v.defuzzify demoCtx with
    | .ok v => v.value :: demoRun n { v with fuzzy := v.fuzzy.clear }
    | .error _ => []

/-- C41 is violated (off by one): after reporting 5, an empty fuzzy output makes the variable fall
back to the default although its previous value is locked; one call later the 5 comes back, and so
on alternating. -/
theorem defuzzify_previous_violated :
    demo.lockPrevious = true ∧ demoRun 5 demo = [.fin 5, .fin 9, .fin 5, .fin 9, .fin 5] := by decide +kernel

example : ((demo.defuzzify demoCtx).toOption.map fun v => (v.value, v.previous)) = some (.fin 5, .nan) := by decide +kernel

end OutputVariable
end FL
