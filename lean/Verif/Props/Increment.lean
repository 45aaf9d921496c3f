/-
C03: the grid odometer `Op::increment`.
-/
import Verif.Model.Text
import Mathlib.Data.List.Lex
import Mathlib.Data.List.Infix
import Mathlib.Data.List.Forall2
import Mathlib.Data.List.Chain
import Mathlib.Tactic.Push

namespace FL
namespace Op

/-! ### increment -/

/-- Specification: all integer vectors between `mn` and `mx`, the last position fastest. -/
def box : List Int → List Int → List (List Int)
  | [], _ => [[]]
  | _ :: _, [] => []
  | a :: as, b :: bs =>
    (List.range (b + 1 - a).toNat).flatMap fun (k : Nat) => (box as bs).map fun v => (a + (k : Int)) :: v

/-- componentwise `mn <= mx`, same length -/
def Bounds (mn mx : List Int) : Prop := List.Forall₂ (· ≤ ·) mn mx

theorem mem_box (mn mx v : List Int) (h : Bounds mn mx) :
    v ∈ box mn mx ↔ List.Forall₂ (· ≤ ·) mn v ∧ List.Forall₂ (· ≤ ·) v mx := by
  induction h generalizing v with
  | nil =>
    cases v with
    | nil => simp [box]
    | cons x w => simp [box]
  | @cons a b as bs hab h ih =>
    simp only [box, List.mem_flatMap, List.mem_range, List.mem_map]
    constructor
    · rintro ⟨k, hk, w, hw, rfl⟩
      have := (ih w).mp hw
      exact ⟨List.Forall₂.cons (by omega) this.1, List.Forall₂.cons (by omega) this.2⟩
    · rintro ⟨h1, h2⟩
      cases v with
      | nil => cases h1
      | cons x w =>
        cases h1 with
        | cons h1a h1b =>
          cases h2 with
          | cons h2a h2b =>
            exact ⟨(x - a).toNat, by omega, w, (ih w).mpr ⟨h1b, h2b⟩, by congr 1; omega⟩

theorem box_sorted (mn mx : List Int) (h : Bounds mn mx) : (box mn mx).Pairwise (List.Lex (· < ·)) := by
  induction h with
  | nil => simp [box]
  | @cons a b as bs hab h ih =>
    simp only [box]
    rw [List.pairwise_flatMap]
    constructor
    · intro k _
      rw [List.pairwise_map]
      exact ih.imp (fun h => List.Lex.cons h)
    · refine List.pairwise_lt_range.imp ?_
      intro k l hkl v hv w hw
      simp only [List.mem_map] at hv hw
      obtain ⟨v', _, rfl⟩ := hv
      obtain ⟨w', _, rfl⟩ := hw
      exact List.Lex.rel (by omega)

/-- one step of the odometer, from the last position -/
def incr : List Int → List Int → List Int → List Int × Bool
  | x :: xs, m :: ms, M :: Ms =>
    let r := incr xs ms Ms
    if r.2 then (x :: r.1, true)
    else if x < M then ((x + 1) :: r.1, true)
    else (m :: r.1, false)
  | _, _, _ => ([], false)

theorem incr_snoc (x mn mx : List Int) (a m M : Int) (h1 : x.length = mn.length) (h2 : x.length = mx.length) :
    incr (x ++ [a]) (mn ++ [m]) (mx ++ [M]) =
      if a < M then (x ++ [a + 1], true) else ((incr x mn mx).1 ++ [m], (incr x mn mx).2) := by
  induction x generalizing mn mx with
  | nil =>
    cases mn <;> cases mx <;> simp at h1 h2
    simp [incr]
  | cons y ys ih =>
    cases mn with
    | nil => simp at h1
    | cons n ns =>
      cases mx with
      | nil => simp at h2
      | cons p ps =>
        simp only [List.length_cons, Nat.add_right_cancel_iff] at h1 h2
        simp only [List.cons_append, incr, ih ns ps h1 h2]
        by_cases haM : a < M
        · simp [haM]
        · simp only [haM, if_false]
          by_cases hb : (incr ys ns ps).2 = true
          · simp [hb]
          · simp only [hb]
            by_cases hy : y < p <;> simp [hy]

theorem incrementAt_eq (pre mn mx : List Int) (suf smn smx : List Int) (a m M : Int)
    (h1 : pre.length = mn.length) (h2 : pre.length = mx.length) :
    incrementAt (mn ++ m :: smn) (mx ++ M :: smx) (pre ++ a :: suf) pre.length =
      some ((incr (pre ++ [a]) (mn ++ [m]) (mx ++ [M])).1 ++ suf, (incr (pre ++ [a]) (mn ++ [m]) (mx ++ [M])).2) := by
  induction pre using List.reverseRecOn generalizing mn mx suf smn smx a m M with
  | nil =>
    cases mn <;> cases mx <;> simp at h1 h2
    unfold incrementAt
    by_cases h : a < M <;> simp [incr, h]
  | append_singleton q b ih =>
    rcases List.eq_nil_or_concat mn with rfl | ⟨mn', m', rfl⟩
    · simp at h1
    rcases List.eq_nil_or_concat mx with rfl | ⟨mx', M', rfl⟩
    · simp at h2
    rw [incr_snoc _ _ _ _ _ _ h1 h2]
    simp only [List.concat_eq_append, List.length_append, List.length_cons, List.length_nil, zero_add,
      Nat.add_right_cancel_iff] at h1 h2 ⊢
    unfold incrementAt
    have g1 : (q ++ [b] ++ a :: suf)[q.length + 1]? = some a := by
      rw [List.getElem?_append_right (by simp)]; simp
    have g2 : (mx' ++ [M'] ++ M :: smx)[q.length + 1]? = some M := by
      rw [List.getElem?_append_right (by simp; omega)]; simp [h2]
    have g3 : (mn' ++ [m'] ++ m :: smn)[q.length + 1]? = some m := by
      rw [List.getElem?_append_right (by simp; omega)]; simp [h1]
    simp only [g1, g2, g3]
    by_cases h : a < M
    · have s1 : (q ++ [b] ++ a :: suf).set (q.length + 1) (a + 1) = q ++ [b] ++ (a + 1) :: suf := by
        rw [List.set_append_right _ _ (by simp)]; simp
      simp only [h, if_true, s1]; simp
    · have s1 : (q ++ [b] ++ a :: suf).set (q.length + 1) m = q ++ b :: (m :: suf) := by
        rw [List.set_append_right _ _ (by simp)]; simp
      simp only [h, if_false, s1]
      have := ih mn' mx' (m :: suf) (m :: smn) (M :: smx) b m' M' h1 h2
      simp only [List.append_assoc, List.singleton_append] at this ⊢
      rw [this]

theorem increment_eq_incr (x mn mx : List Int) (h1 : x.length = mn.length) (h2 : x.length = mx.length) :
    increment x mn mx = some (incr x mn mx) := by
  rcases List.eq_nil_or_concat x with rfl | ⟨x', a, rfl⟩
  · cases mn <;> cases mx <;> simp at h1 h2
    simp [increment, incr]
  rcases List.eq_nil_or_concat mn with rfl | ⟨mn', m', rfl⟩
  · simp at h1
  rcases List.eq_nil_or_concat mx with rfl | ⟨mx', M', rfl⟩
  · simp at h2
  simp only [List.concat_eq_append, List.length_append, List.length_cons, List.length_nil, zero_add,
      Nat.add_right_cancel_iff] at h1 h2 ⊢
  simp only [increment, List.length_append, List.length_cons, List.length_nil, zero_add]
  have := incrementAt_eq x' mn' mx' [] [] [] a m' M' h1 h2
  rw [this]; simp

theorem box_chain (mn mx : List Int) (h : Bounds mn mx) :
    (box mn mx).head? = some mn ∧ (box mn mx).getLast? = some mx ∧
    List.IsChain (fun x y => incr x mn mx = (y, true)) (box mn mx) ∧
    incr mx mn mx = (mn, false) := by
  induction h with
  | nil => simp [box, incr]
  | @cons a b as bs hab h ih =>
    obtain ⟨ih1, ih2, ih3, ih4⟩ := ih
    have key : ∀ n : Nat, (n : Int) ≤ b - a →
        ((List.range (n + 1)).flatMap fun (k : Nat) => (box as bs).map fun v => (a + (k : Int)) :: v).head?
          = some (a :: as) ∧
        ((List.range (n + 1)).flatMap fun (k : Nat) => (box as bs).map fun v => (a + (k : Int)) :: v).getLast?
          = some ((a + n) :: bs) ∧
        List.IsChain (fun x y => incr x (a :: as) (b :: bs) = (y, true))
          ((List.range (n + 1)).flatMap fun (k : Nat) => (box as bs).map fun v => (a + (k : Int)) :: v) := by
      have blk : ∀ k : Nat, List.IsChain (fun x y => incr x (a :: as) (b :: bs) = (y, true))
          ((box as bs).map fun v => (a + (k : Int)) :: v) := by
        intro k
        rw [List.isChain_map]
        refine ih3.imp ?_
        intro x y hxy
        simp [incr, hxy]
      intro n
      induction n with
      | zero =>
        intro _
        have := blk 0
        simp at this
        simp [ih1, ih2, this]
      | succ n ihn =>
        intro hn
        obtain ⟨h1, h2, h3⟩ := ihn (by omega)
        rw [List.range_succ, List.flatMap_append]
        refine ⟨by rw [List.head?_append, h1]; rfl, ?_, ?_⟩
        · rw [List.getLast?_append]; simp [ih2]
        · rw [List.isChain_append]
          refine ⟨h3, by simpa using blk (n + 1), ?_⟩
          intro x hx y hy
          rw [h2] at hx
          obtain rfl : (a + (n : Int)) :: bs = x := by simpa using hx
          obtain rfl : (a + ((n + 1 : Nat) : Int)) :: as = y := by simpa [ih1] using hy
          have : a + (n : Int) < b := by omega
          simp [incr, ih4, this]; omega
    have e : (b + 1 - a).toNat = (b - a).toNat + 1 := by omega
    have := key (b - a).toNat (by omega)
    rw [← e] at this
    refine ⟨this.1, ?_, this.2.2, ?_⟩
    · rw [show box (a :: as) (b :: bs) = _ from rfl]
      simp only [box]
      rw [this.2.1]; congr 2; omega
    · simp [incr, ih4]

/-- C03: starting from the minima, the calls of `increment` visit the elements of `box` one after
the other, each call but the last returning true; the last call returns false and resets the
vector to the minima. -/
theorem increment_enumerates (mn mx : List Int) (h : Bounds mn mx) :
    (box mn mx).head? = some mn ∧
    List.IsChain (fun x y => increment x mn mx = some (y, true)) (box mn mx) ∧
    ∀ l, (box mn mx).getLast? = some l → increment l mn mx = some (mn, false) := by
  have hl : mn.length = mx.length := List.Forall₂.length_eq h
  obtain ⟨h1, h2, h3, h4⟩ := box_chain mn mx h
  have hlen : ∀ v ∈ box mn mx, v.length = mn.length := fun v hv =>
    (List.Forall₂.length_eq ((mem_box mn mx v h).mp hv).1).symm
  refine ⟨h1, ?_, ?_⟩
  · refine h3.imp_of_mem_imp ?_
    intro x y hx hy hxy
    rw [increment_eq_incr x mn mx (hlen x hx) (by rw [hlen x hx, hl]), hxy]
  · intro l hlast
    rw [h2] at hlast
    obtain rfl := Option.some.inj hlast
    rw [increment_eq_incr _ _ _ hl.symm rfl, h4]

/-- C03: the vectors visited are exactly those within the bounds, each once, in increasing
lexicographic order (first position most significant). -/
theorem box_exact (mn mx : List Int) (h : Bounds mn mx) :
    (∀ v, v ∈ box mn mx ↔ List.Forall₂ (· ≤ ·) mn v ∧ List.Forall₂ (· ≤ ·) v mx) ∧
    (box mn mx).Nodup ∧ (box mn mx).Pairwise (List.Lex (· < ·)) := by
  refine ⟨fun v => mem_box mn mx v h, ?_, box_sorted mn mx h⟩
  refine (box_sorted mn mx h).imp ?_
  intro a b hab heq
  subst heq
  exact absurd hab (irrefl_of (List.Lex (· < ·)) a)

/-- The number of vectors visited is the product of the sizes of the ranges. -/
theorem box_length (mn mx : List Int) (h : Bounds mn mx) :
    (box mn mx).length = ((mn.zip mx).map fun p => (p.2 + 1 - p.1).toNat).prod := by
  induction h with
  | nil => rfl
  | @cons a b as bs hab h ih => simp [box, List.length_flatMap, ih]

/-- Outside the precondition: an inverted bound still terminates the enumeration at once, after
the start vector, which is then not within the bounds. -/
theorem increment_inverted (a b : Int) (h : b < a) : increment [a] [a] [b] = some ([a], false) := by
  have : ¬ a < b := by omega
  simp [increment, incrementAt, this]

/-- Non-vacuity of C03. -/
example : Bounds [0, -1] [1, 1] ∧
    box [0, -1] [1, 1] = [[0, -1], [0, 0], [0, 1], [1, -1], [1, 0], [1, 1]] ∧
    increment [0, 1] [0, -1] [1, 1] = some ([1, -1], true) := by
  refine ⟨.cons (by decide) (.cons (by decide) .nil), by decide, by decide⟩

end Op
end FL
