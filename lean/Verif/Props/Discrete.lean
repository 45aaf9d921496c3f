/-
C19: Discrete terms interpolate their points.
-/
import Verif.Model.Term
import Verif.Props.Statistics
import Mathlib.Data.List.Sort

namespace FL
open Scalar Ext
namespace Discrete

/-- a list of real points as stored by the term -/
def points (ps : List (ℝ × ℝ)) : List (Ext ℝ × Ext ℝ) := ps.map fun p => (fin p.1, fin p.2)

/-- strictly increasing abscissae -/
def Increasing (ps : List (ℝ × ℝ)) : Prop := ps.Pairwise fun p q => p.1 < q.1

/-- every abscissa between the first and the last is above one point and at most the next -/
theorem bracket (ps : List (ℝ × ℝ)) (first : ℝ × ℝ) (x : ℝ)
    (hf : first.1 < x) (hl : ∃ p ∈ ps, x ≤ p.1) :
    ∃ pre a b post, first :: ps = pre ++ a :: b :: post ∧ a.1 < x ∧ x ≤ b.1 := by
  induction ps generalizing first with
  | nil => simp at hl
  | cons p ps ih =>
    by_cases hp : x ≤ p.1
    · exact ⟨[], first, p, ps, rfl, hf, hp⟩
    · obtain ⟨pre, a, b, post, h1, h2, h3⟩ := ih p (not_le.mp hp) (by
        obtain ⟨q, hq, hxq⟩ := hl
        rcases List.mem_cons.mp hq with rfl | hq
        · exact absurd hxq hp
        · exact ⟨q, hq, hxq⟩)
      exact ⟨first :: pre, a, b, post, by simp [h1], h2, h3⟩

theorem takeWhile_dropWhile_split {α : Type} (p : α → Bool) (pre post : List α) (a b : α)
    (h1 : ∀ c ∈ pre, p c = true) (ha : p a = true) (hb : p b = false) (h2 : ∀ c ∈ post, p c = false) :
    (pre ++ a :: b :: post).takeWhile p = pre ++ [a] ∧ (pre ++ a :: b :: post).dropWhile p = b :: post ∧
    partitioned p (pre ++ a :: b :: post) = true := by
  have t : (pre ++ a :: b :: post).takeWhile p = pre ++ [a] := by
    rw [List.takeWhile_append_of_pos h1]
    simp [List.takeWhile_cons, ha, hb]
  have d : (pre ++ a :: b :: post).dropWhile p = b :: post := by
    rw [List.dropWhile_append_of_pos h1]
    simp [List.dropWhile_cons, ha, hb]
  refine ⟨t, d, ?_⟩
  unfold partitioned
  rw [d]
  simp only [List.all_cons, hb, Bool.not_false, Bool.true_and, List.all_eq_true]
  intro c hc
  simp [h2 c hc]

variable [Tol ℝ]

/-- C19.  The membership function between two consecutive points `a` and `b` of a strictly
increasing list, away from the first and the last point: linear interpolation, except within the
tolerance below `b`, where it is the degree of `b`. -/
theorem membership_between (pre post : List (ℝ × ℝ)) (a b first last : ℝ × ℝ) (h x : ℝ)
    (hs : Increasing (pre ++ a :: b :: post))
    (hf : (pre ++ a :: b :: post).head? = some first) (hl : (pre ++ a :: b :: post).getLast? = some last)
    (hxf : first.1 + tol ≤ x) (hxl : x + tol ≤ last.1) (hax : a.1 < x) (hxb : x ≤ b.1) :
    membership (fin h) (points (pre ++ a :: b :: post)) (fin x) =
      .ok (fin (if b.1 - x < tol then h * b.2 else h * (a.2 + (b.2 - a.2) * ((x - a.1) / (b.1 - a.1))))) := by
  have ht := tol_pos
  have hpre : ∀ c ∈ pre, c.1 < a.1 := by
    intro c hc
    have := (List.pairwise_append.mp hs).2.2 c hc a (by simp)
    exact this
  have hpost : ∀ c ∈ post, b.1 < c.1 := by
    intro c hc
    have h1 := (List.pairwise_append.mp hs).2.1
    have h2 := (List.pairwise_cons.mp h1).2
    exact (List.pairwise_cons.mp h2).1 c hc
  have hab : a.1 < b.1 := by linarith
  have e : points (pre ++ a :: b :: post) = points pre ++ (fin a.1, fin a.2) :: (fin b.1, fin b.2) :: points post := by
    simp [points]
  have hhead : (points (pre ++ a :: b :: post)).head? = some (fin first.1, fin first.2) := by
    simp only [points, List.head?_map, hf, Option.map_some]
  have hlast : (points (pre ++ a :: b :: post)).getLast? = some (fin last.1, fin last.2) := by
    simp only [points, List.getLast?_map, hl, Option.map_some]
  unfold membership
  rw [hhead, hlast]
  have c1 : ¬ x < first.1 + tol := by linarith
  have c2 : ¬ last.1 < x + tol := by linarith
  simp only [isNaN_fin, Bool.false_eq_true, if_false, isLE_fin, isGE_fin, decide_eq_true_eq, c1, c2]
  rw [e]
  obtain ⟨t1, d1, p1⟩ := takeWhile_dropWhile_split (fun p : Ext ℝ × Ext ℝ => Scalar.lt p.1 (fin x))
    (points pre) (points post) (fin a.1, fin a.2) (fin b.1, fin b.2)
    (by
      intro c hc
      obtain ⟨q, hq, rfl⟩ := List.mem_map.mp hc
      have := hpre q hq
      simp; linarith) (by simpa using hax) (by simpa using hxb)
    (by
      intro c hc
      obtain ⟨q, hq, rfl⟩ := List.mem_map.mp hc
      have := hpost q hq
      simp; linarith)
  have habs : |x - b.1| = b.1 - x := by rw [abs_sub_comm, abs_of_nonneg (by linarith)]
  simp only [t1, d1, p1, Bool.not_true, Bool.false_eq_true, if_false, List.head?_cons, isEq_fin, habs, decide_eq_true_eq,
    List.getLast?_append, List.getLast?_singleton, Option.some_or]
  by_cases hsnap : b.1 - x < tol
  · simp only [hsnap, if_true, mul_fin]
  · have hxb' : x < b.1 := by
      rcases lt_or_eq_of_le hxb with h | h
      · exact h
      · exfalso; apply hsnap; rw [h]; simpa using ht
    obtain ⟨t2, d2, p2⟩ := takeWhile_dropWhile_split (fun p : Ext ℝ × Ext ℝ => !Scalar.lt (fin x) p.1)
      (points pre) (points post) (fin a.1, fin a.2) (fin b.1, fin b.2)
      (by
        intro c hc
        obtain ⟨q, hq, rfl⟩ := List.mem_map.mp hc
        have := hpre q hq
        simp; linarith) (by simp; linarith) (by simpa using hxb')
      (by
        intro c hc
        obtain ⟨q, hq, rfl⟩ := List.mem_map.mp hc
        have := hpost q hq
        simp; linarith)
    simp only [hsnap, if_false, d2, p2, Bool.not_true, Bool.false_eq_true, List.head?_cons]
    rw [Op.scale_fin _ _ _ _ _ (ne_of_lt hab), mul_fin]
    congr 2
    have : b.1 - a.1 ≠ 0 := by linarith
    field_simp
    ring

/-- C19.  Outside the range of the points (and within the tolerance of its ends) the membership is
that of the first or last point. -/
theorem membership_outside (ps : List (ℝ × ℝ)) (first last : ℝ × ℝ) (h x : ℝ)
    (hf : ps.head? = some first) (hl : ps.getLast? = some last) :
    (x < first.1 + tol → membership (fin h) (points ps) (fin x) = .ok (fin (h * first.2))) ∧
    (first.1 + tol ≤ x → last.1 < x + tol → membership (fin h) (points ps) (fin x) = .ok (fin (h * last.2))) ∧
    membership (fin h) (points ps) Ext.ninf = .ok (fin (h * first.2)) ∧
    membership (fin h) (points ps) pinf = .ok (fin (h * last.2)) := by
  have ht := tol_pos
  have hhead : (points ps).head? = some (fin first.1, fin first.2) := by
    simp only [points, List.head?_map, hf, Option.map_some]
  have hlast : (points ps).getLast? = some (fin last.1, fin last.2) := by
    simp only [points, List.getLast?_map, hl, Option.map_some]
  refine ⟨?_, ?_, ?_, ?_⟩
  · intro hx
    unfold membership
    rw [hhead, hlast]
    simp [hx]
  · intro hx hx'
    unfold membership
    rw [hhead, hlast]
    have : ¬ x < first.1 + tol := by linarith
    simp [hx', this]
  · unfold membership
    rw [hhead, hlast]
    simp
  · unfold membership
    rw [hhead, hlast]
    simp

/-- C19.  At a listed point at least the tolerance away from both ends, and at both ends, the
membership is the height times the listed degree. -/
theorem membership_at_partial (ps : List (ℝ × ℝ)) (first last p : ℝ × ℝ) (h : ℝ) (hs : Increasing ps)
    (hf : ps.head? = some first) (hl : ps.getLast? = some last) (hp : p ∈ ps)
    (hgap : p = first ∨ (first.1 + tol ≤ p.1 ∧ (p = last ∨ p.1 + tol ≤ last.1))) :
    membership (fin h) (points ps) (fin p.1) = .ok (fin (h * p.2)) := by
  have ht := tol_pos
  rcases hgap with rfl | ⟨h1, rfl | h2⟩
  · exact (membership_outside ps p last h p.1 hf hl).1 (by linarith)
  · exact (membership_outside ps first p h p.1 hf hl).2.1 h1 (by linarith)
  · obtain ⟨rest, rfl⟩ : ∃ rest, ps = first :: rest := by
      cases ps with
      | nil => simp at hf
      | cons q rest => exact ⟨rest, by simpa using hf⟩
    have hpr : p ∈ rest := by
      rcases List.mem_cons.mp hp with rfl | h
      · linarith
      · exact h
    obtain ⟨pre, a, b, post, e, ha, hb⟩ := bracket rest first p.1 (by linarith) ⟨p, hpr, le_refl _⟩
    rw [e] at hs hf hl hp ⊢
    have hbp : b = p := by
      have hsa := (List.pairwise_append.mp hs)
      have hcons := List.pairwise_cons.mp hsa.2.1
      have hcons2 := List.pairwise_cons.mp hcons.2
      rcases List.mem_append.mp hp with hp | hp
      · have := hsa.2.2 p hp a (by simp); linarith
      · rcases List.mem_cons.mp hp with rfl | hp
        · linarith
        · rcases List.mem_cons.mp hp with rfl | hp
          · rfl
          · have := hcons2.1 p hp; linarith
    rw [membership_between pre post a b first last h p.1 hs hf hl h1 h2 ha hb, hbp]
    simp [ht]

/-- C19 is violated for points closer than the tolerance to the first point: the listed degree is
not returned (witness for every tolerance). -/
theorem membership_at_violated :
    ∃ (ps : List (ℝ × ℝ)) (p : ℝ × ℝ), Increasing ps ∧ p ∈ ps ∧
      membership (fin 1) (points ps) (fin p.1) = .ok (fin 0) ∧ p.2 = 1 := by
  have ht := tol_pos
  refine ⟨[(0, 0), (tol / 2, 1), (1 + tol, 0)], (tol / 2, 1), ?_, by simp, ?_, rfl⟩
  · simp [Increasing]
    refine ⟨⟨?_, ?_⟩, ?_⟩ <;> linarith
  · have := (membership_outside [(0, 0), (tol / 2, 1), (1 + tol, 0)] (0, 0) (1 + tol, 0) 1 (tol / 2) rfl rfl).1
      (by simp; linarith)
    simpa using this

/-- C19.  For every `x` that is not NaN the membership lies between the least and the greatest
degree of the points, times the height. -/
theorem membership_bounded (ps : List (ℝ × ℝ)) (h lo hi : ℝ) (x : Ext ℝ) (hs : Increasing ps) (h0 : ps ≠ [])
    (hh : 0 ≤ h) (hlo : ∀ p ∈ ps, lo ≤ p.2) (hhi : ∀ p ∈ ps, p.2 ≤ hi) (hx : x ≠ Ext.nan) :
    ∃ r : ℝ, membership (fin h) (points ps) x = .ok (fin r) ∧ h * lo ≤ r ∧ r ≤ h * hi := by
  have ht := tol_pos
  obtain ⟨first, hf⟩ : ∃ f, ps.head? = some f := ⟨ps.head h0, List.head?_eq_some_head h0⟩
  obtain ⟨last, hl⟩ : ∃ f, ps.getLast? = some f := ⟨ps.getLast h0, List.getLast?_eq_some_getLast h0⟩
  have hfm : first ∈ ps := List.mem_of_mem_head? hf
  have hlm : last ∈ ps := List.mem_of_getLast? hl
  have bd : ∀ p ∈ ps, h * lo ≤ h * p.2 ∧ h * p.2 ≤ h * hi := fun p hp =>
    ⟨mul_le_mul_of_nonneg_left (hlo p hp) hh, mul_le_mul_of_nonneg_left (hhi p hp) hh⟩
  have out := fun y => membership_outside ps first last h y hf hl
  cases x with
  | nan => exact absurd rfl hx
  | ninf => exact ⟨_, (out 0).2.2.1, bd first hfm⟩
  | pinf => exact ⟨_, (out 0).2.2.2, bd last hlm⟩
  | fin x =>
    by_cases c1 : x < first.1 + tol
    · exact ⟨_, (out x).1 c1, bd first hfm⟩
    by_cases c2 : last.1 < x + tol
    · exact ⟨_, (out x).2.1 (not_lt.mp c1) c2, bd last hlm⟩
    obtain ⟨rest, rfl⟩ : ∃ rest, ps = first :: rest := by
      cases ps with
      | nil => simp at hf
      | cons q rest => exact ⟨rest, by simpa using hf⟩
    have hlr : last ∈ rest := by
      rcases List.mem_cons.mp hlm with rfl | h
      · linarith
      · exact h
    obtain ⟨pre, a, b, post, e, ha, hb⟩ := bracket rest first x (by linarith) ⟨last, hlr, by linarith⟩
    rw [e] at hs hf hl bd hlo hhi ⊢
    refine ⟨_, membership_between pre post a b first last h x hs hf hl (not_lt.mp c1) (not_lt.mp c2) ha hb, ?_⟩
    split_ifs with hsnap
    · exact bd b (by simp)
    · have la := hlo a (by simp)
      have lb := hlo b (by simp)
      have ua := hhi a (by simp)
      have ub := hhi b (by simp)
      have hw : 0 < b.1 - a.1 := by linarith
      have r0 : 0 ≤ (x - a.1) / (b.1 - a.1) := div_nonneg (by linarith) hw.le
      have r1 : (x - a.1) / (b.1 - a.1) ≤ 1 := by rw [div_le_one hw]; linarith
      generalize (x - a.1) / (b.1 - a.1) = r at r0 r1
      constructor <;> apply mul_le_mul_of_nonneg_left _ hh <;> nlinarith

/-- Searching points that are not in order is undefined behaviour. -/
theorem membership_unsorted : ∃ (ps : List (ℝ × ℝ)) (x : ℝ), letI := Tol.default
    membership (fin 1) (points ps) (fin x) = .error .ub := by
  refine ⟨[(0, 0), (3, 1), (1, 0), (4, 0)], 2, ?_⟩
  let _ := Tol.default
  have ht : (tol : ℝ) = 1 / 1000000 := rfl
  simp [membership, points, ht, partitioned]
  norm_num

omit [Tol ℝ] in
/-- C19.  `toPairs` and `toVector` are inverse to each other. -/
theorem toPairs_toVector {S : Type} (ps : List (S × S)) : toPairs (toVector ps) = .ok ps := by
  induction ps with
  | nil => rfl
  | cons p ps ih =>
    simp only [toVector, List.flatMap_cons, List.cons_append, List.nil_append, toPairs] at ih ⊢
    rw [ih]; rfl

omit [Tol ℝ] in
/-- C19.  Lists of even length convert to pairs and back; lists of odd length are rejected. -/
theorem toVector_toPairs {S : Type} (v : List S) :
    (v.length % 2 = 0 → ∃ ps, toPairs v = .ok ps ∧ toVector ps = v) ∧
    (v.length % 2 = 1 → toPairs v = .error .syntaxError) := by
  induction v using toPairs.induct with
  | case1 => exact ⟨fun _ => ⟨[], rfl, rfl⟩, fun h => by simp at h⟩
  | case2 x => exact ⟨fun h => by simp at h, fun _ => rfl⟩
  | case3 x y rest ih =>
    have hlen : (x :: y :: rest).length % 2 = rest.length % 2 := by simp; omega
    rw [hlen]
    refine ⟨fun h => ?_, fun h => ?_⟩
    · obtain ⟨ps, h1, h2⟩ := ih.1 h
      exact ⟨(x, y) :: ps, by simp [toPairs, h1, bind, Except.bind], by
        simp only [toVector, List.flatMap_cons] at h2 ⊢; rw [h2]; rfl⟩
    · simp [toPairs, ih.2 h, bind, Except.bind]

omit [Tol ℝ] in
/-- C19.  Completing a list of odd length with a value. -/
theorem toPairsFill_spec {S : Type} (v : List S) (m : S) :
    ∃ ps, toPairsFill v m = .ok ps ∧ toVector ps = if v.length % 2 = 0 then v else v ++ [m] := by
  unfold toPairsFill
  split_ifs with h
  · exact (toVector_toPairs v).1 h
  · exact (toVector_toPairs (v ++ [m])).1 (by simp; omega)

end Discrete
end FL

namespace FL
open Scalar Ext
/-- A triangle given by its points, evaluated half way up. -/
example : letI := Tol.default
    Discrete.membership (fin 1) (Discrete.points [(0, 0), (1, 1), (2, 0)]) (fin (1/2 : ℝ)) = .ok (fin (1/2)) := by
  let _ := Tol.default
  have ht : (tol : ℝ) = 1 / 1000000 := rfl
  have := Discrete.membership_between [] [(2, 0)] (0, 0) (1, 1) (0, 0) (2, 0) 1 (1/2) (by
    simp [Discrete.Increasing]) rfl rfl (by rw [ht]; norm_num) (by rw [ht]; norm_num) (by norm_num) (by norm_num)
  simp only [List.nil_append] at this
  rw [this, ht]
  norm_num
end FL
