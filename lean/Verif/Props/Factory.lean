/-
C49: factories are maps from names to constructors.
-/
import Verif.Model.Factory
import Mathlib.Tactic.Push
import Mathlib.Data.List.Nodup
import Mathlib.Data.List.Induction

namespace FL
namespace SMap
variable {V : Type}

theorem before_irrefl (a : Str) : before a a = false := by
  induction a with
  | nil => rfl
  | cons c a ih => simp [before, ih]

theorem before_trans {a b c : Str} (h : before a b = true) (h' : before b c = true) : before a c = true := by
  induction a generalizing b c with
  | nil =>
    cases b with
    | nil => simp [before] at h
    | cons y b =>
      cases c with
      | nil => simp [before] at h'
      | cons z c => rfl
  | cons x a ih =>
    cases b with
    | nil => simp [before] at h
    | cons y b =>
      cases c with
      | nil => simp [before] at h'
      | cons z c =>
        simp only [before, Bool.or_eq_true, Bool.and_eq_true, decide_eq_true_eq, beq_iff_eq] at h h' ⊢
        rcases h with h | ⟨rfl, h⟩ <;> rcases h' with h' | ⟨rfl, h'⟩
        · exact .inl (by omega)
        · exact .inl h
        · exact .inl h'
        · exact .inr ⟨rfl, ih h h'⟩

theorem char_toNat_inj {a b : Char} (h : a.toNat = b.toNat) : a = b := by
  have : a.val = b.val := UInt32.toNat_inj.mp h
  exact Char.ext this

theorem before_total {a b : Str} (h : before a b = false) (h' : before b a = false) : a = b := by
  induction a generalizing b with
  | nil =>
    cases b with
    | nil => rfl
    | cons y b => simp [before] at h
  | cons x a ih =>
    cases b with
    | nil => simp [before] at h'
    | cons y b =>
      simp only [before, Bool.or_eq_false_iff, Bool.and_eq_false_iff, decide_eq_false_iff_not, beq_eq_false_iff_ne] at h h'
      have : x = y := char_toNat_inj (by omega)
      subst this
      rw [ih (h.2.resolve_left (by simp)) (h'.2.resolve_left (by simp))]

/-- the keys are in strictly increasing order -/
def Sorted (m : List (Str × V)) : Prop := (m.map Prod.fst).Pairwise fun a b => before a b = true

theorem assign_keys (k : Str) (v : V) (m : List (Str × V)) (x : Str) :
    x ∈ (assign k v m).map Prod.fst ↔ x = k ∨ x ∈ m.map Prod.fst := by
  induction m with
  | nil => simp [assign]
  | cons a m ih =>
    obtain ⟨k', v'⟩ := a
    unfold assign
    by_cases h1 : before k k' = true
    · simp [h1]
    · by_cases h2 : before k' k = true
      · simp only [h1, h2, if_true, if_false, Bool.false_eq_true, List.map_cons, List.mem_cons, ih]
        tauto
      · have := before_total (by simpa using h1) (by simpa using h2)
        subst this
        simp [h1]

theorem assign_sorted (k : Str) (v : V) {m : List (Str × V)} (h : Sorted m) : Sorted (assign k v m) := by
  induction m with
  | nil => simp [assign, Sorted]
  | cons a m ih =>
    obtain ⟨k', v'⟩ := a
    unfold Sorted at h ih ⊢
    rw [List.map_cons, List.pairwise_cons] at h
    unfold assign
    by_cases h1 : before k k' = true
    · simp only [h1, if_true, List.map_cons, List.pairwise_cons]
      refine ⟨?_, h⟩
      intro x hx
      rcases List.mem_cons.1 hx with rfl | hx
      · exact h1
      · exact before_trans h1 (h.1 x hx)
    · by_cases h2 : before k' k = true
      · simp only [h1, h2, if_true, if_false, Bool.false_eq_true, List.map_cons, List.pairwise_cons]
        refine ⟨?_, ih h.2⟩
        intro x hx
        rcases (assign_keys k v m x).1 hx with rfl | hx
        · exact h2
        · exact h.1 x hx
      · have := before_total (by simpa using h1) (by simpa using h2)
        subst this
        simp only [h1, if_false, Bool.false_eq_true, List.map_cons, List.pairwise_cons]
        exact h

theorem find_none {k : Str} {m : List (Str × V)} : find k m = none ↔ k ∉ m.map Prod.fst := by
  induction m with
  | nil => simp [find]
  | cons a m ih =>
    obtain ⟨k', v'⟩ := a
    unfold find
    by_cases h : k' = k
    · simp [h]
    · simp only [h, if_false, ih, List.map_cons, List.mem_cons, not_or]
      exact ⟨fun h' => ⟨Ne.symm h, h'⟩, fun h' => h'.2⟩

theorem find_isSome {k : Str} {m : List (Str × V)} : (find k m).isSome = true ↔ k ∈ m.map Prod.fst := by
  rw [Option.isSome_iff_ne_none, Ne, find_none, not_not]

/-- `map[key] = value`, then `find` -/
theorem find_assign (k : Str) (v : V) {m : List (Str × V)} (h : Sorted m) (x : Str) :
    find x (assign k v m) = if x = k then some v else find x m := by
  induction m with
  | nil => by_cases hx : k = x <;> simp [assign, find, hx, eq_comm]
  | cons a m ih =>
    obtain ⟨k', v'⟩ := a
    unfold Sorted at h
    rw [List.map_cons, List.pairwise_cons] at h
    unfold assign
    by_cases h1 : before k k' = true
    · simp only [h1, if_true]
      by_cases hx : x = k
      · subst hx; simp [find]
      · simp [find, hx, Ne.symm hx]
    · by_cases h2 : before k' k = true
      · simp only [h1, h2, if_true, if_false, Bool.false_eq_true]
        have hne : k' ≠ k := by rintro rfl; rw [before_irrefl] at h2; cases h2
        by_cases hx : k' = x
        · subst hx; simp [find, hne]
        · simp only [find, hx, if_false]
          exact ih h.2
      · have := before_total (by simpa using h1) (by simpa using h2)
        subst this
        simp only [h1, if_false, Bool.false_eq_true]
        by_cases hx : x = k
        · subst hx; simp [find]
        · simp [find, hx, Ne.symm hx]

theorem erase_sublist (k : Str) (m : List (Str × V)) : (erase k m).Sublist m := by
  induction m with
  | nil => exact .slnil
  | cons a m ih =>
    obtain ⟨k', v'⟩ := a
    unfold erase
    split
    · exact List.sublist_cons_self _ _
    · exact ih.cons_cons _

theorem erase_sorted (k : Str) {m : List (Str × V)} (h : Sorted m) : Sorted (erase k m) :=
  List.Pairwise.sublist ((erase_sublist k m).map Prod.fst) h

theorem Sorted.nodup {m : List (Str × V)} (h : Sorted m) : (m.map Prod.fst).Nodup := by
  refine List.Pairwise.imp ?_ h
  rintro a b hab rfl
  rw [before_irrefl] at hab
  cases hab

/-- `erase`, then `find` -/
theorem find_erase (k : Str) {m : List (Str × V)} (h : Sorted m) (x : Str) :
    find x (erase k m) = if x = k then none else find x m := by
  induction m with
  | nil => simp [erase, find]
  | cons a m ih =>
    obtain ⟨k', v'⟩ := a
    have hn := h.nodup
    rw [List.map_cons, List.nodup_cons] at hn
    have hs : Sorted m := by unfold Sorted at h; rw [List.map_cons, List.pairwise_cons] at h; exact h.2
    unfold erase
    by_cases hk : k' = k
    · subst hk
      simp only [if_true]
      by_cases hx : x = k'
      · subst hx; simp only [if_true]; exact find_none.2 hn.1
      · simp [find, hx, Ne.symm hx]
    · simp only [hk, if_false]
      by_cases hx : k' = x
      · subst hx; simp [find, hk]
      · simp only [find, hx, if_false]; exact ih hs

end SMap

/-! ### histories of a construction factory -/
namespace ConstructionFactory
variable {C : Type}

/-- calls that change a factory -/
inductive Call (C : Type)
  | register (key : Str) (c : Option C)
  | deregister (key : Str)

def Call.key : Call C → Str
  | .register k _ => k
  | .deregister k => k

def call (f : ConstructionFactory C) : Call C → ConstructionFactory C
  | .register k c => f.register k c
  | .deregister k => f.deregister k

/-- The last call about `key` registered `c`. -/
def LastRegistered (key : Str) (c : Option C) (calls : List (Call C)) : Prop :=
  ∃ pre post, calls = pre ++ .register key c :: post ∧ ∀ x ∈ post, x.key ≠ key

theorem call_sorted (f : ConstructionFactory C) (x : Call C) (h : SMap.Sorted f.constructors) :
    SMap.Sorted (f.call x).constructors := by
  cases x with
  | register k c => exact SMap.assign_sorted k c h
  | deregister k =>
    simp only [call, deregister]
    split
    · exact SMap.erase_sorted k h
    · exact h

theorem calls_sorted (calls : List (Call C)) (f : ConstructionFactory C) (h : SMap.Sorted f.constructors) :
    SMap.Sorted (calls.foldl call f).constructors := by
  induction calls generalizing f with
  | nil => exact h
  | cons x calls ih => exact ih _ (call_sorted f x h)

theorem call_find (f : ConstructionFactory C) (x : Call C) (h : SMap.Sorted f.constructors) (key : Str) :
    SMap.find key (f.call x).constructors =
      if key = x.key then (match x with | .register _ c => some c | .deregister _ => none)
      else SMap.find key f.constructors := by
  cases x with
  | register k c => simp only [call, register, Call.key]; exact SMap.find_assign k c h key
  | deregister k =>
    simp only [call, deregister, Call.key]
    cases hf : SMap.find k f.constructors with
    | some c => simp only; exact SMap.find_erase k h key
    | none =>
      simp only
      by_cases hk : key = k
      · subst hk; simp [hf]
      · simp [hk]

/-- The entry of a name after a history of calls: registered by the last call about the name, or
left from before when no call is about the name. -/
theorem calls_find (calls : List (Call C)) (f : ConstructionFactory C) (h : SMap.Sorted f.constructors) (key : Str)
    (c : Option C) :
    SMap.find key (calls.foldl call f).constructors = some c ↔
      LastRegistered key c calls ∨ ((∀ x ∈ calls, x.key ≠ key) ∧ SMap.find key f.constructors = some c) := by
  induction calls using List.reverseRecOn with
  | nil => simp [LastRegistered]
  | append_singleton calls x ih =>
    rw [List.foldl_append]
    simp only [List.foldl_cons, List.foldl_nil]
    rw [call_find _ _ (calls_sorted calls f h)]
    by_cases hk : key = x.key
    · rw [if_pos hk]
      have hlast : LastRegistered key c (calls ++ [x]) ↔ x = .register key c := by
        constructor
        · rintro ⟨pre, post, hp, hpost⟩
          rcases List.eq_nil_or_concat post with rfl | ⟨post', y, rfl⟩
          · have := List.append_inj' hp rfl
            simpa using this.2
          · have hp' : calls ++ [x] = (pre ++ Call.register key c :: post') ++ [y] := by simpa using hp
            have := (List.append_inj' hp' rfl).2
            simp only [List.cons.injEq, and_true] at this
            subst this
            exact absurd hk.symm (hpost x (by simp))
        · rintro rfl
          exact ⟨calls, [], rfl, by simp⟩
      rw [hlast]
      have h2 : ¬ ∀ y ∈ calls ++ [x], y.key ≠ key := fun hall => hall x (by simp) hk.symm
      cases x with
      | register k c' =>
        simp only [Call.key] at hk
        subst hk
        simp only [h2, false_and, or_false, Option.some.injEq, Call.register.injEq, true_and]
      | deregister k => simp only [h2, false_and, or_false, reduceCtorEq]
    · rw [if_neg hk, ih]
      have h1 : LastRegistered key c (calls ++ [x]) ↔ LastRegistered key c calls := by
        constructor
        · rintro ⟨pre, post, hp, hpost⟩
          rcases List.eq_nil_or_concat post with rfl | ⟨post', y, rfl⟩
          · have := (List.append_inj' hp rfl).2
            simp only [List.cons.injEq, and_true] at this
            exact absurd (by rw [this]; rfl) hk
          · have hp' : calls ++ [x] = (pre ++ Call.register key c :: post') ++ [y] := by simpa using hp
            exact ⟨pre, post', (List.append_inj' hp' rfl).1, fun z hz => hpost z (by simp [hz])⟩
        · rintro ⟨pre, post, rfl, hpost⟩
          refine ⟨pre, post ++ [x], by simp, ?_⟩
          intro y hy
          rcases List.mem_append.1 hy with hy | hy
          · exact hpost y hy
          · simp only [List.mem_singleton] at hy
            subst hy
            exact Ne.symm hk
      rw [h1]
      have h3 : (∀ y ∈ calls ++ [x], y.key ≠ key) ↔ ∀ y ∈ calls, y.key ≠ key := by
        constructor
        · intro hall y hy; exact hall y (by simp [hy])
        · intro hall y hy
          rcases List.mem_append.1 hy with hy | hy
          · exact hall y hy
          · simp only [List.mem_singleton] at hy
            subst hy
            exact Ne.symm hk
      rw [h3]

/-- C49: after any calls on a new factory: a name is there exactly when it was registered and not
deregistered since; an object is made by the constructor registered last (and is null for a null
constructor), and construction raises exactly for names that are not there; the available names
are the names that are there, once each and sorted. -/
theorem history (name : Str) (calls : List (Call C)) :
    let f := calls.foldl call (new name)
    (∀ key, f.has key = true ↔ ∃ c, LastRegistered key c calls) ∧
    (∀ key c, f.construct key = .ok c ↔ LastRegistered key c calls) ∧
    (∀ key, (∃ err, f.construct key = .error err) ↔ f.has key = false) ∧
    (∀ key c, f.get key = some c ↔ LastRegistered key (some c) calls) ∧
    (∀ key, key ∈ f.available ↔ ∃ c, LastRegistered key c calls) ∧
    f.available.Pairwise (fun a b => SMap.before a b = true) ∧ f.available.Nodup ∧ f.name = name := by
  intro f
  have hs0 : SMap.Sorted (new name : ConstructionFactory C).constructors := List.Pairwise.nil
  have hs : SMap.Sorted f.constructors := calls_sorted calls _ hs0
  have hf : ∀ key c, SMap.find key f.constructors = some c ↔ LastRegistered key c calls := by
    intro key c
    have := calls_find calls (new name) hs0 key c
    rw [show SMap.find key (new name : ConstructionFactory C).constructors = none from rfl] at this
    simpa using this
  have hsome : ∀ key, (SMap.find key f.constructors).isSome = true ↔ ∃ c, LastRegistered key c calls := by
    intro key
    rw [Option.isSome_iff_exists]
    exact exists_congr (hf key)
  refine ⟨hsome, ?_, ?_, ?_, ?_, hs, hs.nodup, ?_⟩
  · intro key c
    rw [← hf]
    unfold construct
    cases h : SMap.find key f.constructors with
    | none => simp
    | some o => cases o <;> simp
  · intro key
    unfold construct has
    cases h : SMap.find key f.constructors with
    | none => simp
    | some o => cases o <;> simp
  · intro key c
    rw [← hf]
    unfold get
    cases h : SMap.find key f.constructors with
    | none => simp
    | some o => simp
  · intro key
    rw [← hsome, SMap.find_isSome]
    rfl
  · have : ∀ (cs : List (Call C)) (g : ConstructionFactory C), (cs.foldl call g).name = g.name := by
      intro cs
      induction cs with
      | nil => intro g; rfl
      | cons x cs ih =>
        intro g
        rw [List.foldl_cons, ih]
        cases x with
        | register k c => rfl
        | deregister k => simp only [call, deregister]; split <;> rfl
    exact this calls _

/-- C49: the same calls on a copy of a factory do not depend on what is done with the original, as
the copy is a value: histories with a common beginning. -/
theorem history_from (f : ConstructionFactory C) (h : SMap.Sorted f.constructors) (calls : List (Call C)) (key : Str) :
    (∀ x ∈ calls, x.key ≠ key) →
      (calls.foldl call f).construct key = f.construct key ∧ (calls.foldl call f).has key = f.has key := by
  intro hall
  have : SMap.find key (calls.foldl call f).constructors = SMap.find key f.constructors := by
    cases hf : SMap.find key f.constructors with
    | some c => rw [calls_find calls f h]; exact .inr ⟨hall, hf⟩
    | none =>
      by_contra hne
      obtain ⟨c, hc⟩ := Option.ne_none_iff_exists'.1 hne
      rcases (calls_find calls f h key c).1 hc with ⟨pre, post, rfl, _⟩ | ⟨_, h'⟩
      · exact hall (.register key c) (by simp) rfl
      · rw [hf] at h'; cases h'
  unfold construct has
  rw [this]
  exact ⟨rfl, rfl⟩

/-- Non-vacuity of C49. -/
example :
    let f := [Call.register (cs! "Triangle") (some 1), .register (cs! "") none, .register (cs! "Bell") (some 2),
      .register (cs! "Triangle") (some 3), .deregister (cs! "Bell"), .deregister (cs! "Ramp")].foldl call
      (new (cs! "Term") : ConstructionFactory Nat)
    f.available = [cs! "", cs! "Triangle"] ∧ f.construct (cs! "Triangle") = .ok (some 3) ∧
    f.construct (cs! "Bell") = .error .outOfRange ∧ f.construct (cs! "") = .ok none ∧ f.has (cs! "") = true := by
  decide +kernel

end ConstructionFactory

/-! ### histories of a cloning factory -/
namespace CloningFactory
variable {T : Type}

/-- the addresses of the objects of a factory -/
def owned (f : CloningFactory) : List Nat := f.objects.filterMap Prod.snd

/-- The objects of a factory are allocated, and no object is there twice. -/
structure Sound (m : Memory T) (f : CloningFactory) : Prop where
  sorted : SMap.Sorted f.objects
  live : ∀ p ∈ f.owned, (m.cells p).isSome = true
  nodup : f.owned.Nodup

/-- nothing is allocated at addresses not handed out yet -/
def Memory.Fresh (m : Memory T) : Prop := ∀ p, m.next ≤ p → m.cells p = none

/-- calls that change a factory; a registered object has just been made -/
inductive Call (T : Type)
  | register (key : Str) (x : Option T)
  | deregister (key : Str)
  | clear

def call (s : Memory T × CloningFactory) : Call T → Option (Memory T × CloningFactory)
  | .register k (some x) =>
    let r := s.1.alloc x
    some (r.1, s.2.register k (some r.2))
  | .register k none => some (s.1, s.2.register k none)
  | .deregister k => deregister s.1 s.2 k
  | .clear => clear s.1 s.2

/-- a history of calls; `none` is undefined behaviour -/
def run (s : Memory T × CloningFactory) (calls : List (Call T)) : Option (Memory T × CloningFactory) :=
  calls.foldlM call s

/-- the object that cloning by a name copies -/
def value (m : Memory T) (f : CloningFactory) (key : Str) : Option (Option T) :=
  (SMap.find key f.objects).map fun p => p.bind m.cells

theorem owned_cons (k : Str) (p : Option Nat) (l : List (Str × Option Nat)) (n : Str) :
    owned ⟨n, (k, p) :: l⟩ = p.toList ++ owned ⟨n, l⟩ := by
  cases p <;> simp [owned]

theorem assign_owned (k : Str) (p : Option Nat) (m : List (Str × Option Nat)) :
    ∀ q ∈ (SMap.assign k p m).filterMap Prod.snd, q ∈ m.filterMap Prod.snd ∨ some q = p := by
  induction m with
  | nil => intro q hq; cases p <;> simp_all [SMap.assign]
  | cons a m ih =>
    obtain ⟨k', v'⟩ := a
    intro q hq
    unfold SMap.assign at hq
    split at hq
    · rw [List.mem_filterMap] at hq
      obtain ⟨⟨a, b⟩, hm, hb⟩ := hq
      simp only at hb
      rcases List.mem_cons.1 hm with hm | hm
      · injection hm with _ hm; right; rw [← hb, hm]
      · left; exact List.mem_filterMap.2 ⟨(a, b), hm, hb⟩
    · split at hq
      · rw [List.filterMap_cons] at hq
        cases v' with
        | none =>
          simp only at hq
          rcases ih q hq with h | h
          · left; simpa using h
          · exact .inr h
        | some w =>
          simp only [List.mem_cons] at hq
          rcases hq with rfl | hq
          · left; simp
          · rcases ih q hq with h | h
            · left; simp [h]
            · exact .inr h
      · rw [List.mem_filterMap] at hq
        obtain ⟨⟨a, b⟩, hm, hb⟩ := hq
        simp only at hb
        rcases List.mem_cons.1 hm with hm | hm
        · injection hm with _ hm; right; rw [← hb, hm]
        · left; exact List.mem_filterMap.2 ⟨(a, b), by simp [hm], hb⟩

theorem assign_nodup (k : Str) (p : Option Nat) (m : List (Str × Option Nat)) (h : (m.filterMap Prod.snd).Nodup)
    (hp : ∀ q, p = some q → q ∉ m.filterMap Prod.snd) : ((SMap.assign k p m).filterMap Prod.snd).Nodup := by
  induction m with
  | nil => cases p <;> simp [SMap.assign]
  | cons a m ih =>
    obtain ⟨k', v'⟩ := a
    unfold SMap.assign
    split
    · cases p with
      | none => simpa using h
      | some q =>
        rw [List.filterMap_cons]
        simp only [List.nodup_cons]
        exact ⟨hp q rfl, h⟩
    · split
      · cases v' with
        | none =>
          rw [List.filterMap_cons] at h ⊢
          exact ih h (fun q hq hm => hp q hq (by rw [List.filterMap_cons]; exact hm))
        | some w =>
          rw [List.filterMap_cons] at h ⊢
          simp only [List.nodup_cons] at h ⊢
          refine ⟨?_, ih h.2 (fun q hq hm => hp q hq (by rw [List.filterMap_cons]; simp [hm]))⟩
          intro hw
          rcases assign_owned k p m w hw with h' | h'
          · exact h.1 h'
          · exact hp w h'.symm (by rw [List.filterMap_cons]; simp)
      · have hm : (m.filterMap Prod.snd).Nodup := by
          rw [List.filterMap_cons] at h
          cases v' with
          | none => exact h
          | some w => exact (List.nodup_cons.1 h).2
        cases p with
        | none => rw [List.filterMap_cons]; exact hm
        | some q =>
          rw [List.filterMap_cons]
          simp only [List.nodup_cons]
          refine ⟨fun hq => hp q rfl ?_, hm⟩
          rw [List.filterMap_cons]
          cases v' with
          | none => exact hq
          | some w => simp [hq]

theorem find_mem {V : Type} {k : Str} {v : V} {m : List (Str × V)} (h : SMap.find k m = some v) : (k, v) ∈ m := by
  induction m with
  | nil => cases h
  | cons a m ih =>
    obtain ⟨k', v'⟩ := a
    unfold SMap.find at h
    split at h
    · rename_i hk; injection h with h; subst hk; subst h; simp
    · simp [ih h]

theorem find_owned {f : CloningFactory} {k : Str} {p : Nat} (h : SMap.find k f.objects = some (some p)) : p ∈ f.owned :=
  List.mem_filterMap.2 ⟨(k, some p), find_mem h, rfl⟩

theorem erase_owned (k : Str) (m : List (Str × Option Nat)) :
    ((SMap.erase k m).filterMap Prod.snd).Sublist (m.filterMap Prod.snd) := (SMap.erase_sublist k m).filterMap _

/-- the erased object is not there any more -/
theorem erase_gone {k : Str} {p : Nat} {m : List (Str × Option Nat)} (h : SMap.find k m = some (some p))
    (hn : (m.filterMap Prod.snd).Nodup) : p ∉ (SMap.erase k m).filterMap Prod.snd := by
  induction m with
  | nil => cases h
  | cons a m ih =>
    obtain ⟨k', v'⟩ := a
    unfold SMap.find at h
    unfold SMap.erase
    split
    · rename_i hk
      rw [if_pos hk] at h
      injection h with h
      subst h
      rw [List.filterMap_cons] at hn
      exact (List.nodup_cons.1 hn).1
    · rename_i hk
      rw [if_neg hk] at h
      rw [List.filterMap_cons] at hn ⊢
      cases v' with
      | none => exact ih h hn
      | some w =>
        simp only [List.nodup_cons, List.mem_cons, not_or] at hn ⊢
        refine ⟨?_, ih h hn.2⟩
        rintro rfl
        exact hn.1 (List.mem_filterMap.2 ⟨(k, some p), find_mem h, rfl⟩)

theorem delete_some {m : Memory T} {p : Nat} (h : (m.cells p).isSome = true) :
    m.delete p = some ⟨m.next, fun q => if q = p then none else m.cells q⟩ := by
  unfold Memory.delete
  cases hc : m.cells p with
  | none => rw [hc] at h; cases h
  | some x => rfl

/-- what a call on a factory does to memory: objects of others stay, and addresses are not reused -/
structure Step (m : Memory T) (f : CloningFactory) (m' : Memory T) (f' : CloningFactory) : Prop where
  sound : Sound m' f'
  fresh : Memory.Fresh m'
  grows : m.next ≤ m'.next
  others : ∀ p, p < m.next → p ∉ f.owned → m'.cells p = m.cells p
  mine : ∀ p ∈ f'.owned, p ∈ f.owned ∨ m.next ≤ p

theorem deregister_step (m : Memory T) (f : CloningFactory) (hs : Sound m f) (hf : Memory.Fresh m) (k : Str) :
    ∃ m', deregister m f k = some (m', ⟨f.name, SMap.erase k f.objects⟩) ∧
      Step m f m' ⟨f.name, SMap.erase k f.objects⟩ := by
  unfold deregister
  have hsub : (owned ⟨f.name, SMap.erase k f.objects⟩).Sublist f.owned := erase_owned k f.objects
  cases hk : SMap.find k f.objects with
  | none =>
    have : SMap.erase k f.objects = f.objects := by
      have := SMap.find_none.1 hk
      clear hsub hk
      revert this
      generalize f.objects = l
      intro this
      induction l with
      | nil => rfl
      | cons a l ih =>
        obtain ⟨k', v'⟩ := a
        simp only [List.map_cons, List.mem_cons, not_or] at this
        unfold SMap.erase
        rw [if_neg (Ne.symm this.1), ih this.2]
    rw [this]
    exact ⟨m, rfl, ⟨hs.sorted, hs.live, hs.nodup⟩, hf, le_refl _, fun _ _ _ => rfl, fun p hp => .inl hp⟩
  | some o =>
    cases o with
    | none =>
      exact ⟨m, rfl, ⟨SMap.erase_sorted k hs.sorted, fun p hp => hs.live p (hsub.subset hp), hs.nodup.sublist hsub⟩, hf,
        le_refl _, fun _ _ _ => rfl, fun p hp => .inl (hsub.subset hp)⟩
    | some p =>
      have hp := find_owned hk
      dsimp only
      rw [delete_some (hs.live p hp)]
      refine ⟨_, rfl, ⟨SMap.erase_sorted k hs.sorted, ?_, hs.nodup.sublist hsub⟩, ?_, le_refl _, ?_,
        fun p hp => .inl (hsub.subset hp)⟩
      · intro q hq
        have hne : q ≠ p := by
          rintro rfl
          exact erase_gone hk hs.nodup hq
        simp only [hne, if_false]
        exact hs.live q (hsub.subset hq)
      · intro q hq
        simp only
        split
        · rfl
        · exact hf q hq
      · intro q _ hnq
        have hne : q ≠ p := by rintro rfl; exact hnq hp
        simp [hne]

theorem alloc_step (m : Memory T) (f : CloningFactory) (hs : Sound m f) (hf : Memory.Fresh m) (k : Str) (x : T) :
    Step m f (m.alloc x).1 (f.register k (some (m.alloc x).2)) := by
  have hlt : ∀ p ∈ f.owned, p < m.next := by
    intro p hp
    by_contra h
    have := hs.live p hp
    rw [hf p (by omega)] at this
    cases this
  refine ⟨⟨SMap.assign_sorted _ _ hs.sorted, ?_, ?_⟩, ?_, Nat.le_succ _, ?_, ?_⟩
  · intro p hp
    rcases assign_owned k _ f.objects p hp with h | h
    · have := hlt p h
      have hne : p ≠ m.next := by omega
      simp only [Memory.alloc, hne, if_false]
      exact hs.live p h
    · injection h with h
      subst h
      simp [Memory.alloc]
  · refine assign_nodup k _ f.objects hs.nodup ?_
    intro q hq hm
    injection hq with hq
    have := hlt q hm
    have h2 : q = m.next := hq.symm
    omega
  · intro p hp
    have hp' : m.next + 1 ≤ p := hp
    have hne : p ≠ m.next := by omega
    simp only [Memory.alloc, hne, if_false]
    exact hf p (by omega)
  · intro p hp _
    have hne : p ≠ m.next := by omega
    simp [Memory.alloc, hne]
  · intro p hp
    rcases assign_owned k _ f.objects p hp with h | h
    · exact .inl h
    · injection h with h
      subst h
      exact .inr (le_refl _)

theorem null_step (m : Memory T) (f : CloningFactory) (hs : Sound m f) (hf : Memory.Fresh m) (k : Str) :
    Step m f m (f.register k none) := by
  have hsub : ∀ p ∈ (f.register k none).owned, p ∈ f.owned := by
    intro p hp
    rcases assign_owned k _ f.objects p hp with h | h
    · exact h
    · cases h
  exact ⟨⟨SMap.assign_sorted _ _ hs.sorted, fun p hp => hs.live p (hsub p hp),
    assign_nodup k none f.objects hs.nodup (fun q hq => by cases hq)⟩, hf, le_refl _, fun _ _ _ => rfl,
    fun p hp => .inl (hsub p hp)⟩

theorem deleteAll_step (l : List (Str × Option Nat)) (m : Memory T) (hf : Memory.Fresh m)
    (hl : ∀ p ∈ l.filterMap Prod.snd, (m.cells p).isSome = true) (hn : (l.filterMap Prod.snd).Nodup) :
    ∃ m', deleteAll m l = some m' ∧ Memory.Fresh m' ∧ m'.next = m.next ∧
      (∀ p, p ∉ l.filterMap Prod.snd → m'.cells p = m.cells p) ∧ ∀ p ∈ l.filterMap Prod.snd, m'.cells p = none := by
  induction l generalizing m with
  | nil => exact ⟨m, rfl, hf, rfl, fun _ _ => rfl, by simp⟩
  | cons a l ih =>
    obtain ⟨k, v⟩ := a
    cases v with
    | none =>
      rw [List.filterMap_cons] at hl hn ⊢
      exact ih m hf hl hn
    | some p =>
      rw [List.filterMap_cons] at hl hn ⊢
      simp only [List.nodup_cons] at hn
      unfold deleteAll
      rw [delete_some (hl p (by simp))]
      have hf' : Memory.Fresh (⟨m.next, fun q => if q = p then none else m.cells q⟩ : Memory T) := by
        intro q hq
        simp only
        split
        · rfl
        · exact hf q hq
      obtain ⟨m', h1, h2, h3, h4, h5⟩ := ih _ hf' (by
        intro q hq
        have hne : q ≠ p := by rintro rfl; exact hn.1 hq
        simp only [hne, if_false]
        exact hl q (by simp [hq])) hn.2
      refine ⟨m', h1, h2, h3, ?_, ?_⟩
      · intro q hq
        simp only [List.mem_cons, not_or] at hq
        rw [h4 q hq.2]
        simp [hq.1]
      · intro q hq
        rcases List.mem_cons.1 hq with rfl | hq
        · rw [h4 q hn.1]; simp
        · exact h5 q hq

theorem call_step (m : Memory T) (f : CloningFactory) (hs : Sound m f) (hf : Memory.Fresh m) (c : Call T) :
    ∃ m' f', call (m, f) c = some (m', f') ∧ Step m f m' f' := by
  cases c with
  | register k x =>
    cases x with
    | none => exact ⟨m, _, rfl, null_step m f hs hf k⟩
    | some x => exact ⟨_, _, rfl, alloc_step m f hs hf k x⟩
  | deregister k =>
    obtain ⟨m', h1, h2⟩ := deregister_step m f hs hf k
    exact ⟨m', _, h1, h2⟩
  | clear =>
    obtain ⟨m', h1, h2, h3, h4, _⟩ := deleteAll_step f.objects m hf hs.live hs.nodup
    refine ⟨m', ⟨f.name, []⟩, ?_, ⟨List.Pairwise.nil, ?_, List.nodup_nil⟩, h2, h3.ge, fun p _ hp => h4 p hp, ?_⟩
    · simp [call, clear, h1]
    · intro p hp; simp [owned] at hp
    · intro p hp; simp [owned] at hp

theorem Step.trans {m m' m'' : Memory T} {f f' f'' : CloningFactory} (h : Step m f m' f') (h' : Step m' f' m'' f'') :
    Step m f m'' f'' := by
  refine ⟨h'.sound, h'.fresh, h.grows.trans h'.grows, ?_, ?_⟩
  · intro p hp hnp
    have hnp' : p ∉ f'.owned := by
      intro hp'
      rcases h.mine p hp' with h1 | h1
      · exact hnp h1
      · omega
    rw [h'.others p (lt_of_lt_of_le hp h.grows) hnp', h.others p hp hnp]
  · intro p hp
    rcases h'.mine p hp with h1 | h1
    · exact h.mine p h1
    · exact .inr (h.grows.trans h1)

/-- C49: no history of calls on a cloning factory deletes an object twice or uses a deleted object. -/
theorem run_step (calls : List (Call T)) (m : Memory T) (f : CloningFactory) (hs : Sound m f) (hf : Memory.Fresh m) :
    ∃ m' f', run (m, f) calls = some (m', f') ∧ Step m f m' f' := by
  induction calls generalizing m f with
  | nil => exact ⟨m, f, rfl, hs, hf, le_refl _, fun _ _ _ => rfl, fun p hp => .inl hp⟩
  | cons c calls ih =>
    obtain ⟨m1, f1, h1, h2⟩ := call_step m f hs hf c
    obtain ⟨m2, f2, h3, h4⟩ := ih m1 f1 h2.sound h2.fresh
    refine ⟨m2, f2, ?_, h2.trans h4⟩
    unfold run at h3 ⊢
    rw [List.foldlM_cons, h1]
    exact h3

theorem Sound.lt {m : Memory T} {f : CloningFactory} (hs : Sound m f) (hf : Memory.Fresh m) {p : Nat} (hp : p ∈ f.owned) :
    p < m.next := by
  by_contra h
  have := hs.live p hp
  rw [hf p (by omega)] at this
  cases this

theorem value_congr {m m' : Memory T} {f : CloningFactory} (h : ∀ p ∈ f.owned, m'.cells p = m.cells p) (k : Str) :
    value m' f k = value m f k := by
  unfold value
  cases hk : SMap.find k f.objects with
  | none => rfl
  | some o =>
    cases o with
    | none => rfl
    | some p => simp [h p (find_owned hk)]

/-- What a factory offers under each name, before and after a call. -/
def effect (v : Str → Option (Option T)) : Call T → Str → Option (Option T)
  | .register k x, key => if key = k then some x else v key
  | .deregister k, key => if key = k then none else v key
  | .clear, _ => none

theorem register_value (m m' : Memory T) (f : CloningFactory) (hs : Sound m f) (k : Str) (p : Option Nat)
    (hm : ∀ p ∈ f.owned, m'.cells p = m.cells p) (key : Str) :
    value m' (f.register k p) key = if key = k then some (p.bind m'.cells) else value m f key := by
  unfold value register
  rw [SMap.find_assign k p hs.sorted]
  by_cases h : key = k
  · simp [h]
  · simp only [h, if_false]
    exact value_congr hm key

theorem erase_value (m m' : Memory T) (f : CloningFactory) (hs : Sound m f) (k : Str)
    (hm : ∀ p ∈ (SMap.erase k f.objects).filterMap Prod.snd, m'.cells p = m.cells p) (key : Str) :
    value m' ⟨f.name, SMap.erase k f.objects⟩ key = if key = k then none else value m f key := by
  by_cases h : key = k
  · subst h; simp [value, SMap.find_erase key hs.sorted]
  · rw [value_congr (m := m) (f := ⟨f.name, SMap.erase k f.objects⟩) hm]
    simp [value, SMap.find_erase k hs.sorted, h]

theorem call_value (m m' : Memory T) (f f' : CloningFactory) (hs : Sound m f) (hf : Memory.Fresh m) (c : Call T)
    (h : call (m, f) c = some (m', f')) (key : Str) : value m' f' key = effect (value m f) c key := by
  cases c with
  | register k x =>
    cases x with
    | none =>
      simp only [call, Option.some.injEq, Prod.mk.injEq] at h
      obtain ⟨rfl, rfl⟩ := h
      rw [register_value m m f hs k none (fun _ _ => rfl)]
      rfl
    | some x =>
      simp only [call, Option.some.injEq, Prod.mk.injEq] at h
      obtain ⟨rfl, rfl⟩ := h
      rw [register_value m _ f hs k _ (fun p hp => by
        have := hs.lt hf hp
        have hne : p ≠ m.next := by omega
        simp [Memory.alloc, hne])]
      simp [effect, Memory.alloc]
  | deregister k =>
    simp only [call] at h
    unfold deregister at h
    cases hk : SMap.find k f.objects with
    | none =>
      rw [hk] at h
      simp only [Option.some.injEq, Prod.mk.injEq] at h
      obtain ⟨rfl, rfl⟩ := h
      simp only [effect]
      split
      · rename_i hkey; subst hkey; simp [value, hk]
      · rfl
    | some o =>
      rw [hk] at h
      cases o with
      | none =>
        simp only [Option.some.injEq, Prod.mk.injEq] at h
        obtain ⟨rfl, rfl⟩ := h
        exact erase_value m m f hs k (fun _ _ => rfl) key
      | some p =>
        dsimp only at h
        rw [delete_some (hs.live p (find_owned hk))] at h
        simp only [Option.map_some, Option.some.injEq, Prod.mk.injEq] at h
        obtain ⟨rfl, rfl⟩ := h
        refine erase_value m _ f hs k (fun q hq => ?_) key
        have hne : q ≠ p := by rintro rfl; exact erase_gone hk hs.nodup hq
        simp [hne]
  | clear =>
    simp only [call, clear, Option.map_eq_some_iff, Prod.mk.injEq] at h
    obtain ⟨m1, _, rfl, rfl⟩ := h
    rfl

/-- Other factories do not notice a call: their objects stay allocated and unchanged. -/
theorem Step.foreign {m m' : Memory T} {f f' g : CloningFactory} (h : Step m f m' f') (hf : Memory.Fresh m)
    (hg : Sound m g) (hd : ∀ p ∈ g.owned, p ∉ f.owned) :
    Sound m' g ∧ (∀ p ∈ g.owned, p ∉ f'.owned) ∧ ∀ key, value m' g key = value m g key := by
  have hc : ∀ p ∈ g.owned, m'.cells p = m.cells p := fun p hp => h.others p (hg.lt hf hp) (hd p hp)
  refine ⟨⟨hg.sorted, fun p hp => by rw [hc p hp]; exact hg.live p hp, hg.nodup⟩, ?_, value_congr hc⟩
  intro p hp hp'
  rcases h.mine p hp' with h1 | h1
  · exact hd p hp h1
  · have := hg.lt hf hp; omega

/-- The last call about `key` registered `x`; clearing is about every name. -/
def LastRegistered (key : Str) (x : Option T) (calls : List (Call T)) : Prop :=
  ∃ pre post, calls = pre ++ .register key x :: post ∧
    ∀ c ∈ post, (∀ x, c ≠ .register key x) ∧ c ≠ .deregister key ∧ c ≠ .clear

theorem effects_last (calls : List (Call T)) (key : Str) (x : Option T) :
    calls.foldl effect (fun _ => none) key = some x ↔ LastRegistered key x calls := by
  induction calls using List.reverseRecOn with
  | nil => simp [LastRegistered]
  | append_singleton calls c ih =>
    rw [List.foldl_append]
    simp only [List.foldl_cons, List.foldl_nil]
    have hsplit : LastRegistered key x (calls ++ [c]) ↔
        c = .register key x ∨
          ((∀ x, c ≠ .register key x) ∧ c ≠ .deregister key ∧ c ≠ .clear) ∧ LastRegistered key x calls := by
      constructor
      · rintro ⟨pre, post, hp, hpost⟩
        rcases List.eq_nil_or_concat post with rfl | ⟨post', y, rfl⟩
        · have := (List.append_inj' hp rfl).2
          simp only [List.cons.injEq, and_true] at this
          exact .inl this
        · have hp' : calls ++ [c] = (pre ++ Call.register key x :: post') ++ [y] := by simpa using hp
          have h1 := (List.append_inj' hp' rfl).2
          simp only [List.cons.injEq, and_true] at h1
          subst h1
          exact .inr ⟨hpost c (by simp), pre, post', (List.append_inj' hp' rfl).1, fun z hz => hpost z (by simp [hz])⟩
      · rintro (rfl | ⟨hc, pre, post, rfl, hpost⟩)
        · exact ⟨calls, [], rfl, by simp⟩
        · refine ⟨pre, post ++ [c], by simp, ?_⟩
          intro y hy
          rcases List.mem_append.1 hy with hy | hy
          · exact hpost y hy
          · simp only [List.mem_singleton] at hy
            subst hy
            exact hc
    rw [hsplit, ← ih]
    cases c with
    | register k y =>
      simp only [effect]
      by_cases hk : key = k
      · subst hk
        simp
      · have h1 : ∀ x, Call.register k y ≠ .register key x := by
          intro x h; injection h with h; exact hk h.symm
        simp [hk, h1]
    | deregister k =>
      simp only [effect]
      by_cases hk : key = k
      · subst hk; simp
      · simp [hk, Ne.symm hk]
    | clear => simp [effect]

/-- calls on two factories, in any order -/
def interleave : Memory T × CloningFactory × CloningFactory → List (Bool × Call T) →
    Option (Memory T × CloningFactory × CloningFactory)
  | s, [] => some s
  | (m, f, g), (true, c) :: l => (call (m, f) c).bind fun r => interleave (r.1, r.2, g) l
  | (m, f, g), (false, c) :: l => (call (m, g) c).bind fun r => interleave (r.1, f, r.2) l

/-- the calls on one of the two factories -/
def only (b : Bool) (l : List (Bool × Call T)) : List (Call T) := (l.filter fun c => c.1 == b).map Prod.snd

/-- Two factories without common objects: whatever the order of the calls on them, nothing is
deleted twice and what each offers depends on the calls on it only. -/
theorem interleave_spec (l : List (Bool × Call T)) (m : Memory T) (f g : CloningFactory) (hm : Memory.Fresh m)
    (hf : Sound m f) (hg : Sound m g) (hd : ∀ p ∈ g.owned, p ∉ f.owned) :
    ∃ m' f' g', interleave (m, f, g) l = some (m', f', g') ∧ Memory.Fresh m' ∧ Sound m' f' ∧ Sound m' g' ∧
      (∀ p ∈ g'.owned, p ∉ f'.owned) ∧ value m' f' = (only true l).foldl effect (value m f) ∧
      value m' g' = (only false l).foldl effect (value m g) := by
  induction l generalizing m f g with
  | nil => exact ⟨m, f, g, rfl, hm, hf, hg, hd, rfl, rfl⟩
  | cons a l ih =>
    obtain ⟨b, c⟩ := a
    cases b with
    | true =>
      obtain ⟨m1, f1, h1, h2⟩ := call_step m f hf hm c
      obtain ⟨hg1, hd1, hv1⟩ := h2.foreign hm hg hd
      obtain ⟨m2, f2, g2, h3, h4, h5, h6, h7, h8, h9⟩ := ih m1 f1 g h2.fresh h2.sound hg1 hd1
      refine ⟨m2, f2, g2, ?_, h4, h5, h6, h7, ?_, ?_⟩
      · simp only [interleave, h1, Option.bind_some]; exact h3
      · rw [h8, show value m1 f1 = effect (value m f) c from funext (call_value m m1 f f1 hf hm c h1)]
        rfl
      · rw [h9, show value m1 g = value m g from funext hv1]
        rfl
    | false =>
      obtain ⟨m1, g1, h1, h2⟩ := call_step m g hg hm c
      obtain ⟨hf1, hd1, hv1⟩ := h2.foreign hm hf (fun p hp hp' => hd p hp' hp)
      obtain ⟨m2, f2, g2, h3, h4, h5, h6, h7, h8, h9⟩ := ih m1 f g1 h2.fresh hf1 h2.sound (fun p hp hp' => hd1 p hp' hp)
      refine ⟨m2, f2, g2, ?_, h4, h5, h6, h7, ?_, ?_⟩
      · simp only [interleave, h1, Option.bind_some]; exact h3
      · rw [h8, show value m1 f = value m f from funext hv1]
        rfl
      · rw [h9, show value m1 g1 = effect (value m g) c from funext (call_value m m1 g g1 hg hm c h1)]
        rfl

/-- the entries of a copy -/
theorem copyLoop_step (l : List (Str × Option Nat)) (m : Memory T) (g : CloningFactory) (hg : Sound m g)
    (hf : Memory.Fresh m) (hl : ∀ p ∈ l.filterMap Prod.snd, (m.cells p).isSome = true)
    (hkeys : (l.map Prod.fst).Nodup) (hnew : ∀ k ∈ l.map Prod.fst, SMap.find k g.objects = none) :
    ∃ m' g', copyLoop m g l = some (m', g') ∧ Sound m' g' ∧ Memory.Fresh m' ∧ m.next ≤ m'.next ∧
      (∀ p, p < m.next → m'.cells p = m.cells p) ∧ (∀ p ∈ g'.owned, p ∈ g.owned ∨ m.next ≤ p) ∧ g'.name = g.name ∧
      ∀ k, value m' g' k = (match SMap.find k l with
        | some p => some (p.bind m.cells)
        | none => value m g k) := by
  induction l generalizing m g with
  | nil => exact ⟨m, g, rfl, hg, hf, le_refl _, fun _ _ => rfl, fun p hp => .inl hp, rfl, fun k => rfl⟩
  | cons a l ih =>
    obtain ⟨k, v⟩ := a
    simp only [List.map_cons, List.nodup_cons] at hkeys
    have hk : SMap.find k g.objects = none := hnew k (by simp)
    have hdereg : ∀ m : Memory T, deregister m g k = some (m, g) := by intro m; simp [deregister, hk]
    have hnew' : ∀ p : Option Nat, ∀ k' ∈ l.map Prod.fst, SMap.find k' (g.register k p).objects = none := by
      intro p k' hk'
      have hne : k' ≠ k := by rintro rfl; exact hkeys.1 hk'
      simp only [register]
      rw [SMap.find_assign k p hg.sorted, if_neg hne]
      exact hnew k' (by simp [hk'])
    have hkl : SMap.find k l = none := SMap.find_none.2 hkeys.1
    cases v with
    | none =>
      have hst := null_step m g hg hf k
      obtain ⟨m', g', h1, h2, h3, h4, h5, h6, h7, h8⟩ := ih m (g.register k none) hst.sound hf
        (fun p hp => hl p (by rw [List.filterMap_cons]; exact hp)) hkeys.2 (hnew' none)
      refine ⟨m', g', ?_, h2, h3, h4, h5, ?_, h7, ?_⟩
      · simp only [copyLoop, hdereg, Option.bind_some]; exact h1
      · intro p hp
        rcases h6 p hp with h | h
        · exact hst.mine p h
        · exact .inr h
      · intro k'
        rw [h8 k', register_value m m g hg k none (fun _ _ => rfl)]
        by_cases hkk : k = k'
        · subst hkk; simp [SMap.find, hkl]
        · simp [SMap.find, hkk, Ne.symm hkk]
    | some p =>
      obtain ⟨x, hx⟩ := Option.isSome_iff_exists.1 (hl p (by simp))
      have hst := alloc_step m g hg hf k x
      have hpres : ∀ q, q < m.next → (m.alloc x).1.cells q = m.cells q := by
        intro q hq
        have hne : q ≠ m.next := by omega
        simp [Memory.alloc, hne]
      have hlt : ∀ q, (m.cells q).isSome = true → q < m.next := by
        intro q hq
        by_contra h
        rw [hf q (by omega)] at hq
        cases hq
      have hl' : ∀ q ∈ l.filterMap Prod.snd, (m.cells q).isSome = true := fun q hq => hl q (by simp [hq])
      obtain ⟨m', g', h1, h2, h3, h4, h5, h6, h7, h8⟩ := ih (m.alloc x).1 (g.register k (some (m.alloc x).2)) hst.sound
        hst.fresh (fun q hq => by rw [hpres q (hlt q (hl' q hq))]; exact hl' q hq) hkeys.2 (hnew' _)
      refine ⟨m', g', ?_, h2, h3, hst.grows.trans h4, ?_, ?_, h7, ?_⟩
      · simp only [copyLoop, Memory.clone, hx, hdereg, Option.bind_some]; exact h1
      · intro q hq
        rw [h5 q (lt_of_lt_of_le hq hst.grows), hpres q hq]
      · intro q hq
        rcases h6 q hq with h | h
        · exact hst.mine q h
        · exact .inr (hst.grows.trans h)
      · intro k'
        rw [h8 k', register_value m _ g hg k _ (fun q hq => hpres q (hg.lt hf hq))]
        by_cases hkk : k = k'
        · subst hkk; simp [SMap.find, hkl, hx, Memory.alloc]
        · simp only [SMap.find, hkk, if_false, Ne.symm hkk]
          cases hfl : SMap.find k' l with
          | none => rfl
          | some o =>
            cases o with
            | none => rfl
            | some q =>
              have hq := hl' q (List.mem_filterMap.2 ⟨(k', some q), find_mem hfl, rfl⟩)
              simp [hpres q (hlt q hq)]

theorem mem_available (m : Memory T) (f : CloningFactory) (key : Str) :
    key ∈ f.available ↔ (value m f key).isSome = true := by
  unfold available value
  rw [← SMap.find_isSome, Option.isSome_map]

theorem available_eq {m m' : Memory T} {f g : CloningFactory} (hf : SMap.Sorted f.objects) (hg : SMap.Sorted g.objects)
    (h : ∀ key, value m' g key = value m f key) : g.available = f.available := by
  have hp : g.available.Perm f.available := by
    refine (List.perm_ext_iff_of_nodup hg.nodup hf.nodup).2 ?_
    intro key
    show key ∈ g.available ↔ key ∈ f.available
    rw [mem_available m' g, mem_available m f, h]
  refine hp.eq_of_pairwise ?_ hg hf
  intro a b _ _ hab hba
  have := SMap.before_trans hab hba
  rw [SMap.before_irrefl] at this
  cases this

/-- C49: a copy offers the same objects under the same names, has objects of its own, and leaves
the objects of the original as they are. -/
theorem copy_spec (m : Memory T) (f : CloningFactory) (hs : Sound m f) (hf : Memory.Fresh m) :
    ∃ m' g, copy m f = some (m', g) ∧ Memory.Fresh m' ∧ Sound m' f ∧ Sound m' g ∧ (∀ p ∈ g.owned, p ∉ f.owned) ∧
      g.name = f.name ∧ g.available = f.available ∧
      ∀ key, value m' g key = value m f key ∧ value m' f key = value m f key := by
  obtain ⟨m', g, h1, h2, h3, h4, h5, h6, h7, h8⟩ := copyLoop_step f.objects m ⟨f.name, []⟩
    ⟨List.Pairwise.nil, fun p hp => by simp [owned] at hp, List.nodup_nil⟩ hf hs.live hs.sorted.nodup (fun _ _ => rfl)
  have hc : ∀ p ∈ f.owned, m'.cells p = m.cells p := fun p hp => h5 p (hs.lt hf hp)
  have hv : ∀ key, value m' g key = value m f key := by
    intro key
    rw [h8 key]
    unfold value
    cases SMap.find key f.objects <;> rfl
  refine ⟨m', g, h1, h3, ⟨hs.sorted, fun p hp => by rw [hc p hp]; exact hs.live p hp, hs.nodup⟩, h2, ?_, h7,
    available_eq hs.sorted h2.sorted hv, fun key => ⟨hv key, value_congr hc key⟩⟩
  intro p hp hp'
  rcases h6 p hp with h | h
  · simp [owned] at h
  · have := hs.lt hf hp'; omega

/-- C49: assignment between factories without common objects deletes the objects of the target and
makes it offer copies of the objects of the source, which is left as it is. -/
theorem assignFrom_spec (m : Memory T) (f other : CloningFactory) (hm : Memory.Fresh m) (hs : Sound m f)
    (ho : Sound m other) (hd : ∀ p ∈ other.owned, p ∉ f.owned) :
    ∃ m' g, assignFrom m f other = some (m', g) ∧ Memory.Fresh m' ∧ Sound m' other ∧ Sound m' g ∧
      (∀ p ∈ g.owned, p ∉ other.owned) ∧ (∀ p ∈ f.owned, m'.cells p = none) ∧ g.name = other.name ∧
      g.available = other.available ∧
      ∀ key, value m' g key = value m other key ∧ value m' other key = value m other key := by
  obtain ⟨m1, d1, d2, d3, d4, d5⟩ := deleteAll_step f.objects m hm hs.live hs.nodup
  have ho1 : ∀ p ∈ other.owned, m1.cells p = m.cells p := fun p hp => d4 p (hd p hp)
  have hso : Sound m1 other := ⟨ho.sorted, fun p hp => by rw [ho1 p hp]; exact ho.live p hp, ho.nodup⟩
  obtain ⟨m', g, h1, h2, h3, h4, h5, h6, h7, h8⟩ := copy_spec m1 other hso d2
  obtain ⟨m2, g2, e1, e2, e3, e4, e5, _⟩ := copyLoop_step other.objects m1 ⟨other.name, []⟩
    ⟨List.Pairwise.nil, fun p hp => by simp [owned] at hp, List.nodup_nil⟩ d2 hso.live ho.sorted.nodup (fun _ _ => rfl)
  have heq : (m2, g2) = (m', g) := by
    have : copy m1 other = some (m2, g2) := e1
    rw [h1] at this
    injection this with this
    exact this.symm
  injection heq with hm2 _
  subst hm2
  have hv : ∀ key, value m1 other key = value m other key := value_congr ho1
  refine ⟨m2, g, ?_, h2, h3, h4, h5, ?_, h6, h7, fun key => ⟨by rw [(h8 key).1, hv], by rw [(h8 key).2, hv]⟩⟩
  · simp only [assignFrom, clear, d1, Option.map_some, Option.bind_some]
    exact h1
  · intro p hp
    rw [e5 p (by rw [d3]; exact hs.lt hm hp)]
    exact d5 p hp

/-- C49: what the operations of a cloning factory return. Cloning makes a new object, equal to the
registered one, at an address that is nobody's, and raises exactly for names that are not there. -/
theorem lookup_spec (m : Memory T) (f : CloningFactory) (hs : Sound m f) (hf : Memory.Fresh m) (key : Str) :
    (f.has key = true ↔ ∃ x, value m f key = some x) ∧ (key ∈ f.available ↔ ∃ x, value m f key = some x) ∧
    (f.get key).bind m.cells = (value m f key).bind id ∧
    (value m f key = none → cloneObject m f key = some (.error .outOfRange)) ∧
    (value m f key = some none → cloneObject m f key = some (.ok (m, none))) ∧
    (∀ x, value m f key = some (some x) → ∃ m' p, cloneObject m f key = some (.ok (m', some p)) ∧
      m.cells p = none ∧ p ∉ f.owned ∧ m'.cells p = some x ∧ (∀ q, q ≠ p → m'.cells q = m.cells q) ∧
      Memory.Fresh m') := by
  have hav : ∀ o : Option (Option T), o.isSome = true ↔ ∃ x, o = some x := fun o => Option.isSome_iff_exists
  refine ⟨?_, by rw [mem_available m, hav], ?_, ?_, ?_, ?_⟩
  · rw [← hav]; simp [has, value]
  · unfold get value
    cases SMap.find key f.objects with
    | none => rfl
    | some o => rfl
  all_goals unfold value cloneObject
  · intro h
    cases hk : SMap.find key f.objects with
    | none => rfl
    | some o => rw [hk] at h; cases h
  · intro h
    cases hk : SMap.find key f.objects with
    | none => rw [hk] at h; cases h
    | some o =>
      cases o with
      | none => rfl
      | some p =>
        rw [hk] at h
        have := hs.live p (find_owned hk)
        simp only [Option.map_some, Option.bind_some, Option.some.injEq] at h
        rw [h] at this
        cases this
  · intro x h
    cases hk : SMap.find key f.objects with
    | none => rw [hk] at h; cases h
    | some o =>
      cases o with
      | none => rw [hk] at h; simp at h
      | some p =>
        rw [hk] at h
        simp only [Option.map_some, Option.bind_some, Option.some.injEq] at h
        refine ⟨(m.alloc x).1, m.next, ?_, hf _ (le_refl _), ?_, by simp [Memory.alloc], ?_, ?_⟩
        · simp [Memory.clone, h, Memory.alloc]
        · intro hm; exact absurd (hs.lt hf hm) (lt_irrefl _)
        · intro q hq; simp [Memory.alloc, hq]
        · intro q hq
          have hq' : m.next + 1 ≤ q := hq
          have hne : q ≠ m.next := by omega
          simp only [Memory.alloc, hne, if_false]
          exact hf q (by omega)

/-- C49: a factory is made, used, copied, and then the original and the copy are used in any order:
nothing is deleted twice, and each factory offers what its own calls registered last. -/
theorem history (name : Str) (before : List (Call T)) (after : List (Bool × Call T)) :
    ∃ m f m' g m'' f' g', run (Memory.empty, new name) before = some (m, f) ∧ copy m f = some (m', g) ∧
      interleave (m', f, g) after = some (m'', f', g') ∧ Sound m'' f' ∧ Sound m'' g' ∧ Memory.Fresh m'' ∧
      (∀ p ∈ g'.owned, p ∉ f'.owned) ∧
      (∀ key x, value m'' f' key = some x ↔ LastRegistered key x (before ++ only true after)) ∧
      (∀ key x, value m'' g' key = some x ↔ LastRegistered key x (before ++ only false after)) := by
  have h0 : Sound (Memory.empty : Memory T) (new name) :=
    ⟨List.Pairwise.nil, fun p hp => by simp [owned, new] at hp, List.nodup_nil⟩
  have hf0 : Memory.Fresh (Memory.empty : Memory T) := fun _ _ => rfl
  obtain ⟨m, f, h1, h2⟩ := run_step before _ _ h0 hf0
  obtain ⟨m', g, c1, c2, c3, c4, c5, _, _, c8⟩ := copy_spec m f h2.sound h2.fresh
  obtain ⟨m'', f', g', i1, i2, i3, i4, i5, i6, i7⟩ := interleave_spec after m' f g c2 c3 c4 c5
  have hrun : ∀ (calls : List (Call T)) (s : Memory T × CloningFactory) (s' : Memory T × CloningFactory),
      Sound s.1 s.2 → Memory.Fresh s.1 → run s calls = some s' → value s'.1 s'.2 = calls.foldl effect (value s.1 s.2) := by
    intro calls
    induction calls with
    | nil => intro s s' _ _ h; injection h with h; subst h; rfl
    | cons c calls ih =>
      rintro ⟨m, f⟩ s' hs hf h
      obtain ⟨m1, f1, k1, k2⟩ := call_step m f hs hf c
      unfold run at h
      rw [List.foldlM_cons, k1] at h
      have := ih (m1, f1) s' k2.sound k2.fresh h
      rw [this]
      simp only [List.foldl_cons]
      rw [show value m1 f1 = effect (value m f) c from funext (call_value m m1 f f1 hs hf c k1)]
  have hv := hrun before _ _ h0 hf0 h1
  have hv0 : value (Memory.empty : Memory T) (new name) = fun _ => none := rfl
  simp only [hv0] at hv
  refine ⟨m, f, m', g, m'', f', g', h1, c1, i1, i3, i4, i2, i5, ?_, ?_⟩
  · intro key x
    rw [← effects_last, List.foldl_append, ← hv, i6, show value m' f = value m f from funext fun k => (c8 k).2]
  · intro key x
    rw [← effects_last, List.foldl_append, ← hv, i7, show value m' g = value m f from funext fun k => (c8 k).1]

/-! What goes wrong outside the discipline of registering new objects only. -/

/-- Registering again under the same name loses the previous object: it stays allocated and no
factory owns it. -/
theorem register_leak :
    ∃ m f, run (Memory.empty, new (cs! "f")) [Call.register (cs! "a") (some 1), .register (cs! "a") (some 2)] = some (m, f) ∧
      m.cells 0 = some 1 ∧ f.owned = [1] ∧ (clear m f).map (fun s => s.1.cells 0) = some (some 1) :=
  ⟨_, _, rfl, rfl, by decide +kernel, by decide +kernel⟩

/-- Registering one object under two names deletes it twice. -/
theorem shared_object_violated (x : T) :
    let r := (Memory.empty : Memory T).alloc x
    let f := ((new (cs! "f")).register (cs! "a") (some r.2)).register (cs! "b") (some r.2)
    f.available = [cs! "a", cs! "b"] ∧ (clear r.1 f).isNone = true := by
  exact ⟨rfl, rfl⟩

/-- Non-vacuity of C49. -/
example :
    let r := (run (Memory.empty, new (cs! "f")) [Call.register (cs! "b") (some 1), .register (cs! "a") none,
      .register (cs! "c") (some 3), .deregister (cs! "c")]).bind fun s => (copy s.1 s.2).bind fun t =>
        interleave (t.1, s.2, t.2) [(true, .clear), (false, .register (cs! "d") (some 4)), (true, .register (cs! "b") (some 9))]
    r.map (fun s => (s.2.1.available, s.2.2.available)) = some ([cs! "b"], [cs! "a", cs! "b", cs! "d"]) ∧
    r.map (fun s => (value s.1 s.2.1 (cs! "b"), value s.1 s.2.2 (cs! "b"))) = some (some (some 9), some (some 1)) := by
  decide +kernel

end CloningFactory
end FL
