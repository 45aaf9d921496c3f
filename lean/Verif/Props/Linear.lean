/-
Linear terms.
-/
import Verif.Model.Term
import Verif.Lemmas.Ext

namespace FL
open Scalar
section General
variable {S : Type} [Scalar S]

/-- C60.  A Linear term with a reference to the engine is the combination of the values of the input
variables with the coefficients, added from the first, plus the last coefficient when there are more
coefficients than input variables; input variables without coefficients do not count. -/
theorem linearMembership_eq (c xs : List S) :
    linearMembership c true xs = .ok
      (match (if xs.length < c.length then c.getLast? else none) with
        | some k => (List.zipWith (· * ·) c xs).foldl (· + ·) (lit 0) + k
        | none => (List.zipWith (· * ·) c xs).foldl (· + ·) (lit 0)) := by
  have h1 : ((List.range xs.length).filter fun i => decide (i < c.length)) = List.range (min xs.length c.length) := by
    generalize c.length = m
    generalize xs.length = n
    induction n with
    | zero => simp
    | succ n ih =>
      rw [List.range_succ, List.filter_append, ih]
      by_cases h : n < m
      · rw [Nat.min_eq_left (by omega), Nat.min_eq_left (by omega), List.range_succ]
        simp [h]
      · rw [Nat.min_eq_right (by omega), Nat.min_eq_right (by omega)]
        simp [h]
  have h2 : List.zipWith (· * ·) c xs =
      (List.range (min xs.length c.length)).map fun i => c.getD i (lit 0) * xs.getD i (lit 0) := by
    apply List.ext_getElem
    · simp [Nat.min_comm]
    · intro i hi hi'
      simp only [List.length_zipWith] at hi
      rw [List.getElem_zipWith, List.getElem_map, List.getElem_range, List.getD_eq_getElem?_getD, List.getD_eq_getElem?_getD,
        List.getElem?_eq_getElem (by omega), List.getElem?_eq_getElem (by omega)]
      rfl
  unfold linearMembership
  simp only [Bool.not_true, Bool.false_eq_true, if_false]
  rw [h1, h2, List.foldl_map]
  by_cases h : xs.length < c.length
  · rw [if_pos h, if_pos h]
    cases hc : c.getLast? with
    | none => rw [List.getLast?_eq_none_iff] at hc; subst hc; simp at h
    | some k => rfl
  · rw [if_neg h, if_neg h]

/-- C60.  Without a reference to the engine, membership raises. -/
theorem linearMembership_noEngine (c xs : List S) : linearMembership c false xs = .error .evaluation := rfl

/-- C60.  The membership of Constant and Linear terms does not depend on the argument nor on the
height; that of a Constant term is its value. -/
theorem membership_argument (ctx : Ctx S) (t : Term S) (x : S) :
    (∀ v, t.kind = .constant v → t.membership ctx x = .ok v) ∧
    (∀ c e, t.kind = .linear c e → t.membership ctx x = linearMembership c e (ctx.inputs.map Prod.snd)) := by
  unfold Term.membership
  constructor
  · intro v h; rw [h]
  · intro c e h; rw [h]

end General

section Real
variable [Tol ℝ]
open Ext

theorem foldl_fin (l : List ℝ) (a : ℝ) : (l.map Ext.fin).foldl (· + ·) (.fin a) = .fin (a + l.sum) := by
  induction l generalizing a with
  | nil => simp
  | cons x l ih => rw [List.map_cons, List.foldl_cons, add_fin, ih, List.sum_cons, add_assoc]

/-- C60, over the reals: for `n` input variables and finite coefficients, the sum of `cᵢ xᵢ` over the
input variables that have a coefficient, plus the last coefficient if there is one more. -/
theorem linearMembership_fin (c xs : List ℝ) :
    linearMembership (c.map Ext.fin) true (xs.map Ext.fin) = .ok (.fin
      ((List.zipWith (· * ·) c xs).sum + (if xs.length < c.length then c.getLast?.getD 0 else 0))) := by
  rw [linearMembership_eq]
  have hz : List.zipWith (· * ·) (c.map Ext.fin) (xs.map Ext.fin) = (List.zipWith (· * ·) c xs).map Ext.fin := by
    rw [List.zipWith_map, List.map_zipWith]
    rfl
  rw [hz, show (lit 0 : Ext ℝ) = .fin 0 by simp, foldl_fin]
  simp only [List.length_map, zero_add]
  by_cases h : xs.length < c.length
  · rw [if_pos h, if_pos h, List.getLast?_map]
    cases hc : c.getLast? with
    | none => rw [List.getLast?_eq_none_iff] at hc; subst hc; simp at h
    | some k => simp
  · rw [if_neg h, if_neg h, add_zero]

/-- C60: with one coefficient for each input variable and a constant. -/
theorem linearMembership_affine (c : List ℝ) (k : ℝ) (xs : List ℝ) (h : c.length = xs.length) :
    linearMembership ((c ++ [k]).map Ext.fin) true (xs.map Ext.fin) =
      .ok (.fin ((List.zipWith (· * ·) c xs).sum + k)) := by
  rw [linearMembership_fin]
  have : List.zipWith (· * ·) (c ++ [k]) xs = List.zipWith (· * ·) c xs := by
    have := List.zipWith_append (f := (· * ·)) (l₁ := c) (l₁' := [k]) (l₂ := xs) (l₂' := []) h
    simpa using this
  rw [this, if_pos (by simp; omega)]
  simp

/-- C60: without constant, a Linear term is linear. -/
theorem linearMembership_linear (c xs ys : List ℝ) (a b : ℝ) (h1 : c.length ≤ xs.length) (h2 : xs.length = ys.length) :
    ∃ x y, linearMembership (c.map Ext.fin) true (xs.map Ext.fin) = .ok (.fin x) ∧
      linearMembership (c.map Ext.fin) true (ys.map Ext.fin) = .ok (.fin y) ∧
      linearMembership (c.map Ext.fin) true ((List.zipWith (fun x y => a * x + b * y) xs ys).map Ext.fin) =
        .ok (.fin (a * x + b * y)) := by
  refine ⟨_, _, linearMembership_fin c xs, linearMembership_fin c ys, ?_⟩
  rw [linearMembership_fin]
  have e1 : ¬ xs.length < c.length := by omega
  have e2 : ¬ ys.length < c.length := by omega
  have e3 : ¬ (List.zipWith (fun x y => a * x + b * y) xs ys).length < c.length := by
    rw [List.length_zipWith]; omega
  rw [if_neg e1, if_neg e2, if_neg e3, add_zero, add_zero, add_zero]
  congr 2
  clear e1 e2 e3 h1
  induction c generalizing xs ys with
  | nil => simp
  | cons k c ih =>
    match xs, ys with
    | [], [] => simp
    | x :: xs, y :: ys =>
      simp only [List.zipWith_cons_cons, List.sum_cons]
      rw [ih xs ys (by simpa using h2)]
      ring

end Real

/-- Non-vacuity of C60: two inputs with one, two, three and four coefficients. -/
example : linearMembership [(.fin 2 : Ext Rat)] true [.fin 5, .fin 7] = .ok (.fin 10) ∧
    linearMembership [(.fin 2 : Ext Rat), .fin 3] true [.fin 5, .fin 7] = .ok (.fin 31) ∧
    linearMembership [(.fin 2 : Ext Rat), .fin 3, .fin 1] true [.fin 5, .fin 7] = .ok (.fin 32) ∧
    linearMembership [(.fin 2 : Ext Rat), .fin 3, .fin 1, .fin 4] true [.fin 5, .fin 7] = .ok (.fin 35) := by
  decide +kernel

end FL
