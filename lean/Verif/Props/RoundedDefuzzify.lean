/-
C72: defuzzification with rounded arithmetic, as that of `double`.
-/
import Verif.Lemmas.Errors
import Verif.Props.Rounded
import Verif.Props.Weighted
import Verif.Props.Configure

namespace FL
open Scalar

namespace Integral
section general
variable {S : Type} [Scalar S]

/-- the `i`-th sampled point -/
def sample (mn mx : S) (n i : ℕ) : S := mn + (lit (i : ℚ) + lit (1 / 2)) * ((mx - mn) / lit (n : ℚ))

theorem samples_mem {mu : S → Except Err S} {mn mx : S} {n : ℕ} {l : List (S × S)} (h : samples mu mn mx (n : ℤ) = .ok l) :
    l.length = n ∧ ∀ p ∈ l, ∃ i < n, p.1 = sample mn mx n i ∧ mu p.1 = .ok p.2 := by
  have h := Variable.mapM_forall₂.1 h
  constructor
  · rw [← h.length_eq]
    simp
  · have key : ∀ (is : List ℕ) (l : List (S × S)), (∀ i ∈ is, i < n) → List.Forall₂ (fun i y => (do
        let x := sample mn mx n i
        let y ← mu x
        .ok (x, y)) = Except.ok y) is l → ∀ p ∈ l, ∃ i < n, p.1 = sample mn mx n i ∧ mu p.1 = .ok p.2 := by
      intro is l hi hf
      induction hf with
      | nil => intro p hp; cases hp
      | @cons i y is l h1 _ ih =>
        intro p hp
        rcases List.mem_cons.1 hp with rfl | hp
        · refine ⟨i, hi i List.mem_cons_self, ?_⟩
          cases hy : mu (sample mn mx n i) with
          | error e => simp only [hy] at h1; cases h1
          | ok y => simp only [hy] at h1; cases h1; exact ⟨rfl, hy⟩
        · exact ih (fun i h => hi i (List.mem_cons_of_mem _ h)) p hp
    refine key (List.range n) l (fun i hi => List.mem_range.1 hi) ?_
    exact h

/-- the least and greatest maxima are sampled points -/
theorem extreme_mem (l : List (S × S)) :
    (smallest l = nan ∨ ∃ p ∈ l, smallest l = p.1) ∧ (largest l = nan ∨ ∃ p ∈ l, largest l = p.1) := by
  have key : ∀ (f : S × S → S × S → Bool) (l : List (S × S)) (s : S × S),
      l.foldl (fun s p => if f p s then p else s) s = s ∨ l.foldl (fun s p => if f p s then p else s) s ∈ l := by
    intro f l
    induction l with
    | nil => intro s; exact Or.inl rfl
    | cons p l ih =>
      intro s
      rw [List.foldl_cons]
      rcases ih (if f p s then p else s) with h | h
      · rw [h]
        by_cases hf : f p s = true
        · rw [if_pos hf]; exact Or.inr List.mem_cons_self
        · rw [if_neg hf]; exact Or.inl rfl
      · exact Or.inr (List.mem_cons_of_mem _ h)
  constructor
  · rcases key (fun p s => gt p.2 s.2) l (nan, ninf) with h | h
    · left; unfold smallest; rw [h]
    · exact Or.inr ⟨_, h, rfl⟩
  · rcases key (fun p s => ge p.2 s.2) l (nan, ninf) with h | h
    · left; unfold largest; rw [h]
    · exact Or.inr ⟨_, h, rfl⟩

/-- the maxima are sampled points, each taken once -/
theorem maxima_mem (l : List (S × S)) : (maxima l).length ≤ l.length ∧ ∀ x ∈ maxima l, ∃ p ∈ l, x = p.1 := by
  have key : ∀ (l : List (S × S)) (s : List S × S),
      (l.foldl (fun (s : List S × S) p =>
        if gt p.2 s.2 then ([p.1], p.2)
        else if Scalar.eq p.2 s.2 then (s.1 ++ [p.1], s.2)
        else s) s).1.length ≤ s.1.length + l.length ∧
      ∀ x ∈ (l.foldl (fun (s : List S × S) p =>
        if gt p.2 s.2 then ([p.1], p.2)
        else if Scalar.eq p.2 s.2 then (s.1 ++ [p.1], s.2)
        else s) s).1, x ∈ s.1 ∨ ∃ p ∈ l, x = p.1 := by
    intro l
    induction l with
    | nil => intro s; exact ⟨le_refl _, fun x hx => Or.inl hx⟩
    | cons p l ih =>
      intro s
      rw [List.foldl_cons]
      have tail : ∀ x, (∃ q ∈ l, x = q.1) → x ∈ s.1 ∨ ∃ q ∈ p :: l, x = q.1 :=
        fun x ⟨q, hq, e⟩ => Or.inr ⟨q, List.mem_cons_of_mem _ hq, e⟩
      by_cases h1 : gt p.2 s.2 = true
      · rw [if_pos h1]
        obtain ⟨i1, i2⟩ := ih ([p.1], p.2)
        refine ⟨i1.trans (by simp only [List.length_cons, List.length_nil]; omega), fun x hx => ?_⟩
        rcases i2 x hx with h | h
        · exact Or.inr ⟨p, List.mem_cons_self, by simpa using h⟩
        · exact tail x h
      · rw [if_neg h1]
        by_cases h2 : Scalar.eq p.2 s.2 = true
        · rw [if_pos h2]
          obtain ⟨i1, i2⟩ := ih (s.1 ++ [p.1], s.2)
          refine ⟨i1.trans (by simp only [List.length_append, List.length_cons, List.length_nil]; omega), fun x hx => ?_⟩
          rcases i2 x hx with h | h
          · rcases List.mem_append.1 h with h | h
            · exact Or.inl h
            · exact Or.inr ⟨p, List.mem_cons_self, by simpa using h⟩
          · exact tail x h
        · rw [if_neg h2]
          obtain ⟨i1, i2⟩ := ih s
          refine ⟨i1.trans (by simp only [List.length_cons]; omega), fun x hx => ?_⟩
          rcases i2 x hx with h | h
          · exact Or.inl h
          · exact tail x h
  obtain ⟨k1, k2⟩ := key l ([], ninf)
  rw [List.length_nil, Nat.zero_add] at k1
  exact ⟨k1, fun x hx => (k2 x hx).resolve_left List.not_mem_nil⟩

/-- the result of `Bisector` is the mean of sampled points, each taken once -/
theorem bisector_mem (l : List (S × S)) :
    ∃ xs : List S, bisector l = Op.mean xs ∧ xs.length ≤ l.length ∧ ∀ x ∈ xs, ∃ p ∈ l, x = p.1 := by
  refine ⟨_, rfl, ?_, ?_⟩
  · refine (List.length_filterMap_le _ _).trans ?_
    rw [List.length_zip, List.length_map]
    exact min_le_left _ _
  · intro x hx
    obtain ⟨⟨q, y⟩, hq, e⟩ := List.mem_filterMap.1 hx
    obtain ⟨p, hp, rfl⟩ := List.mem_map.1 (List.of_mem_zip hq).1
    refine ⟨p, hp, ?_⟩
    by_cases h : Scalar.eq (((partialSums (lit 0) l).map fun y => abs (y / (partialSums (lit 0) l).getLast?.getD (lit 0) - lit (1/2))).foldl
        (fun m y => if lt y m then y else m) inf) y = true
    · rw [if_pos h] at e
      exact (Option.some.inj e).symm
    · rw [if_neg h] at e
      cases e

end general
end Integral

namespace Rounded
open Format Flt Integral
variable {ρ : Format} {u ν Ω : ℚ}

/-- A range and a number of samples that rounding can cope with: the range is not so narrow that the distance
between samples underflows. -/
structure Sampled (ρ : Format) (u ν Ω : ℚ) (a b : ℚ) (n : ℕ) : Prop where
  lower : ρ.Rep a
  upper : ρ.Rep b
  ordered : a < b
  some : 1 ≤ n
  many : n ≤ 2147483648
  fine : 32 * n * u ≤ 1
  finer : 64 * n * ν ≤ 1
  width : 32 * n ^ 2 * ν ≤ b - a
  size : 4 * n * (|a| + |b| + 1) ≤ Ω

/-- A range that is wide compared with the errors of rounding of its bounds. -/
def Wide (u ν : ℚ) (a b : ℚ) (n : ℕ) : Prop := 256 * n ^ 2 * (u * (|a| + |b|) + ν) ≤ b - a

/-- sampled points are in the range -/
theorem sample_range (F : ρ.Fine u ν Ω) {a b : ℚ} {n : ℕ} (H : Sampled ρ u ν Ω a b n) {i : ℕ} (hi : i < n) :
    Between a b (sample (of a H.lower) (of b H.upper) n i) := by
  obtain ⟨p, h1, h2, h3, e⟩ := point_between F H.lower H.upper H.ordered hi H.many H.fine H.finer H.width H.size
  unfold sample
  rw [e]
  have hn : (1 : ℚ) ≤ n := by exact_mod_cast H.some
  have hD : 0 < (b - a) / (8 * n) := div_pos (by linarith [H.ordered]) (by linarith)
  have hΩ : |a| + |b| ≤ Ω := by
    have := H.size
    have h1 : 1 * (|a| + |b| + 1) ≤ n * (|a| + |b| + 1) := mul_le_mul_of_nonneg_right hn (by positivity)
    have := abs_nonneg a
    have := abs_nonneg b
    linarith
  exact ⟨_, _, rfl, F.le_r (by linarith [abs_nonneg b]) h3 H.lower (by linarith), F.r_le h3 (by linarith [abs_nonneg a]) H.upper (by linarith)⟩

/-- in a wide range, sampled points keep a distance to the bounds -/
theorem sample_inner (F : ρ.Fine u ν Ω) {a b : ℚ} {n : ℕ} (H : Sampled ρ u ν Ω a b n) (hw : Wide u ν a b n) {i : ℕ} (hi : i < n) :
    Between (a + (b - a) / (8 * n) - (u * (|a| + |b|) + ν)) (b - (b - a) / (8 * n) + (u * (|a| + |b|) + ν))
      (sample (of a H.lower) (of b H.upper) n i) := by
  obtain ⟨p, h1, h2, h3, e⟩ := point_between F H.lower H.upper H.ordered hi H.many H.fine H.finer H.width H.size
  unfold sample
  rw [e]
  have hn : (1 : ℚ) ≤ n := by exact_mod_cast H.some
  have hD : 0 < (b - a) / (8 * n) := div_pos (by linarith [H.ordered]) (by linarith)
  have hM : |a + p| ≤ |a| + |b| := by
    have := abs_nonneg a
    have := abs_nonneg b
    have := neg_abs_le a
    have := le_abs_self b
    rw [abs_le]
    constructor <;> linarith
  have := mul_le_mul_of_nonneg_right hM F.u0
  have := F.upper h3
  have := F.lower h3
  exact ⟨_, _, rfl, by linarith, by linarith⟩

theorem mean_nil : Op.mean ([] : List (Flt ρ)) = nan := by
  unfold Op.mean Op.sum
  show (lit 0 : Flt ρ) / lit ((0 : ℕ) : ℚ) = nan
  rw [Nat.cast_zero, lit_rep rep_zero]
  rfl

/-- the mean of points of a wide range is in the range -/
theorem mean_range (F : ρ.Fine u ν Ω) {a b : ℚ} {n : ℕ} (H : Sampled ρ u ν Ω a b n) (hw : Wide u ν a b n)
    (xs : List (Flt ρ)) (hlen : xs.length ≤ n) (hx : ∀ x ∈ xs, ∃ i < n, x = sample (of a H.lower) (of b H.upper) n i) :
    Op.mean xs = nan ∨ Near ((xs.map toRat).sum / xs.length) ((2 * n + 2) * (u * (|a| + |b|) + ν)) (Op.mean xs) ∧ Between a b (Op.mean xs) := by
  rcases eq_or_ne xs [] with rfl | hne
  · exact Or.inl mean_nil
  right
  have u0 := F.u0
  have ν0 := F.ν0
  have A0 := abs_nonneg a
  have B0 := abs_nonneg b
  have M0 : 0 ≤ |a| + |b| := by linarith
  have near := mean_near F M0 H.many H.fine H.finer H.size xs hne hlen (fun x h => by
    obtain ⟨i, hi, rfl⟩ := hx x h
    exact (sample_range F H hi).bounded (by linarith) (by linarith))
  refine ⟨near, ?_⟩
  have hn : (1 : ℚ) ≤ n := by exact_mod_cast H.some
  have L0 : (0 : ℚ) < xs.length := by exact_mod_cast List.length_pos_iff.2 hne
  -- the exact mean keeps the distance
  obtain ⟨δ, hδ⟩ : ∃ δ, δ = (b - a) / (8 * n) - (u * (|a| + |b|) + ν) := ⟨_, rfl⟩
  have hb : ∀ xs : List (Flt ρ), (∀ x ∈ xs, ∃ i < n, x = sample (of a H.lower) (of b H.upper) n i) →
      (a + δ) * xs.length ≤ (xs.map toRat).sum ∧ (xs.map toRat).sum ≤ (b - δ) * xs.length := by
    intro xs
    induction xs with
    | nil => intro _; simp
    | cons x xs ih =>
      intro h
      obtain ⟨i1, i2⟩ := ih fun y hy => h y (List.mem_cons_of_mem _ hy)
      obtain ⟨i, hi, rfl⟩ := h x List.mem_cons_self
      obtain ⟨j1, j2⟩ := (sample_inner F H hw hi).toRat
      rw [List.map_cons, List.sum_cons, List.length_cons]
      push_cast
      constructor <;> linarith
  obtain ⟨b1, b2⟩ := hb xs hx
  rw [← le_div_iff₀ L0] at b1
  rw [← div_le_iff₀ L0] at b2
  refine (near.between b1 b2).mono ?_ ?_
  all_goals
    have hw' : 256 * (n : ℚ) ^ 2 * (u * (|a| + |b|) + ν) ≤ b - a := hw
    have key : (2 * n + 3) * (u * (|a| + |b|) + ν) ≤ (b - a) / (8 * n) := by
      rw [le_div_iff₀ (by linarith)]
      have c0 : 0 ≤ u * (|a| + |b|) + ν := by positivity
      generalize u * (|a| + |b|) + ν = c at *
      have h1 : 1 * n * c ≤ n * n * c := mul_le_mul_of_nonneg_right (mul_le_mul_of_nonneg_right hn (by linarith)) c0
      have h2 : 0 ≤ n * n * c := by positivity
      nlinarith
    rw [hδ]
    linarith

/-- the result of an integral defuzzifier is not a number or the value computed from the samples -/
theorem defuzzify_samples {k : IntegralKind} {mu : Flt ρ → Except Err (Flt ρ)} {mn mx r : Flt ρ} {n : ℕ}
    (h : defuzzify k (n : ℤ) mu mn mx = .ok r) : r = nan ∨ ∃ l, samples mu mn mx (n : ℤ) = .ok l ∧ r = (match (generalizing := false) k with
      | .bisector => bisector l
      | .centroid => centroid l
      | .largestOfMaximum => largest l
      | .smallestOfMaximum => smallest l
      | .meanOfMaximum => meanOfMaxima l) := by
  unfold defuzzify at h
  split at h
  · cases h; exact Or.inl rfl
  · split at h
    · cases h
    · cases hs : samples mu mn mx (n : ℤ) with
      | error e => rw [hs] at h; cases h
      | ok l => rw [hs] at h; cases k <;> cases h <;> exact Or.inr ⟨l, rfl, rfl⟩

/-- **C72.**  The results of SmallestOfMaximum and LargestOfMaximum are in the range of the variable, whatever the
membership function is. -/
theorem extreme_range (F : ρ.Fine u ν Ω) {a b : ℚ} {n : ℕ} (H : Sampled ρ u ν Ω a b n) (k : IntegralKind)
    (hk : k = .smallestOfMaximum ∨ k = .largestOfMaximum) (mu : Flt ρ → Except Err (Flt ρ)) (r : Flt ρ)
    (h : defuzzify k (n : ℤ) mu (of a H.lower) (of b H.upper) = .ok r) : r = nan ∨ Between a b r := by
  rcases defuzzify_samples h with h | ⟨l, hl, e⟩
  · exact Or.inl h
  obtain ⟨_, hm⟩ := samples_mem hl
  have fin : ∀ p ∈ l, Between a b p.1 := by
    intro p hp
    obtain ⟨i, hi, e, _⟩ := hm p hp
    rw [e]
    exact sample_range F H hi
  rcases hk with rfl | rfl
  · rcases (extreme_mem l).1 with h | ⟨p, hp, h⟩
    · exact Or.inl (e.trans h)
    · exact Or.inr (by rw [show r = p.1 from e.trans h]; exact fin p hp)
  · rcases (extreme_mem l).2 with h | ⟨p, hp, h⟩
    · exact Or.inl (e.trans h)
    · exact Or.inr (by rw [show r = p.1 from e.trans h]; exact fin p hp)

/-- **C72 (partial: the range must be wide).**  The results of MeanOfMaximum and Bisector are in the range of the
variable, whatever the membership function is.  The mean is as close to the exact mean as rounding permits. -/
theorem mean_range_partial (F : ρ.Fine u ν Ω) {a b : ℚ} {n : ℕ} (H : Sampled ρ u ν Ω a b n) (hw : Wide u ν a b n) (k : IntegralKind)
    (hk : k = .meanOfMaximum ∨ k = .bisector) (mu : Flt ρ → Except Err (Flt ρ)) (r : Flt ρ)
    (h : defuzzify k (n : ℤ) mu (of a H.lower) (of b H.upper) = .ok r) :
    r = nan ∨ Between a b r ∧ ∃ xs : List (Flt ρ), xs ≠ [] ∧ (∀ x ∈ xs, ∃ i < n, x = sample (of a H.lower) (of b H.upper) n i) ∧
      Near ((xs.map toRat).sum / xs.length) ((2 * n + 2) * (u * (|a| + |b|) + ν)) r := by
  rcases defuzzify_samples h with h | ⟨l, hl, e⟩
  · exact Or.inl h
  obtain ⟨hlen, hm⟩ := samples_mem hl
  have key : ∀ xs : List (Flt ρ), r = Op.mean xs → xs.length ≤ l.length → (∀ x ∈ xs, ∃ p ∈ l, x = p.1) →
      r = nan ∨ Between a b r ∧ ∃ xs : List (Flt ρ), xs ≠ [] ∧ (∀ x ∈ xs, ∃ i < n, x = sample (of a H.lower) (of b H.upper) n i) ∧
      Near ((xs.map toRat).sum / xs.length) ((2 * n + 2) * (u * (|a| + |b|) + ν)) r := by
    intro xs e h1 h2
    have h2 : ∀ x ∈ xs, ∃ i < n, x = sample (of a H.lower) (of b H.upper) n i := by
      intro x hx
      obtain ⟨p, hp, rfl⟩ := h2 x hx
      obtain ⟨i, hi, e, _⟩ := hm p hp
      exact ⟨i, hi, e⟩
    rcases mean_range F H hw xs (h1.trans hlen.le) h2 with h | ⟨h3, h4⟩
    · exact Or.inl (e.trans h)
    · refine Or.inr ⟨e ▸ h4, xs, ?_, h2, e ▸ h3⟩
      rintro rfl
      rw [mean_nil] at h4
      obtain ⟨q, hq, e, _⟩ := h4
      have := congrArg Flt.val e
      cases this
  rcases hk with rfl | rfl
  · exact key _ e (maxima_mem l).1 (maxima_mem l).2
  · obtain ⟨xs, e', h1, h2⟩ := bisector_mem l
    exact key xs (e.trans e') h1 h2

/-- **C72 (partial: the range must be wide and the degrees must not underflow).**  The result of Centroid is in the
range of the variable, and as close to the exact centroid of the sampled points as rounding permits. -/
theorem centroid_range_partial (F : ρ.Fine u ν Ω) {a b Y : ℚ} {n : ℕ} (H : Sampled ρ u ν Ω a b n) (hw : Wide u ν a b n) (Y0 : 0 ≤ Y)
    (hY : 4 * n * (|a| + |b| + 1) * (Y + 1) ≤ Ω) (mu : Flt ρ → Except Err (Flt ρ)) (l : List (Flt ρ × Flt ρ))
    (hl : samples mu (of a H.lower) (of b H.upper) (n : ℤ) = .ok l) (hy : ∀ p ∈ l, Between 0 Y p.2)
    (hT0 : 0 < weights l) (hT1 : 8 * n * ν ≤ weights l) (hT2 : (|a| + |b| + 2) * ν ≤ (u * (|a| + |b|) + ν) * weights l) :
    ∃ r, defuzzify .centroid (n : ℤ) mu (of a H.lower) (of b H.upper) = .ok r ∧ Between a b r ∧
      Near (products l / weights l) (18 * n * (u * (|a| + |b|) + ν)) r := by
  have u0 := F.u0
  have ν0 := F.ν0
  have A0 := abs_nonneg a
  have B0 := abs_nonneg b
  have hn : (1 : ℚ) ≤ n := by exact_mod_cast H.some
  obtain ⟨hlen, hm⟩ := samples_mem hl
  have hΩ : |a| + |b| ≤ Ω := by
    have := H.size
    have h1 : 1 * (|a| + |b| + 1) ≤ n * (|a| + |b| + 1) := mul_le_mul_of_nonneg_right hn (by positivity)
    linarith
  have hfin : Op.isFinite (of a H.lower + of b H.upper) = true := by
    rw [F.add H.lower H.upper ((abs_add_le a b).trans hΩ)]
    rw [Op.isFinite, eq_of, decide_eq_true rfl]
    rfl
  have hd : defuzzify .centroid (n : ℤ) mu (of a H.lower) (of b H.upper) = .ok (centroid l) := by
    unfold defuzzify
    rw [hfin, hl]
    rfl
  obtain ⟨s, t, e, _, near⟩ := ratio_near F (by linarith : 0 ≤ |a| + |b|) Y0 H.fine H.finer hY l hlen.le (fun p hp => by
    obtain ⟨i, hi, e, _⟩ := hm p hp
    refine ⟨?_, hy p hp⟩
    rw [e]
    exact (sample_range F H hi).bounded (by linarith) (by linarith)) hT0 hT1 hT2
  have hc : centroid l = s / t := by
    unfold centroid
    rw [e]
  refine ⟨_, hd, ?_, hc ▸ near⟩
  rw [hc]
  obtain ⟨δ, hδ⟩ : ∃ δ, δ = (b - a) / (8 * n) - (u * (|a| + |b|) + ν) := ⟨_, rfl⟩
  have hb : ∀ l : List (Flt ρ × Flt ρ), (∀ p ∈ l, (∃ i < n, p.1 = sample (of a H.lower) (of b H.upper) n i) ∧ Between 0 Y p.2) →
      (a + δ) * weights l ≤ products l ∧ products l ≤ (b - δ) * weights l := by
    intro l
    induction l with
    | nil => intro _; simp [weights, products]
    | cons p l ih =>
      intro h
      obtain ⟨i1, i2⟩ := ih fun y hy => h y (List.mem_cons_of_mem _ hy)
      obtain ⟨⟨i, hi, e⟩, hy⟩ := h p List.mem_cons_self
      obtain ⟨j1, j2⟩ := (sample_inner F H hw hi).toRat
      rw [← e] at j1 j2
      have y0 := hy.toRat.1
      have k1 := mul_le_mul_of_nonneg_left j1 y0
      have k2 := mul_le_mul_of_nonneg_left j2 y0
      unfold weights products at *
      rw [List.map_cons, List.sum_cons, List.map_cons, List.sum_cons]
      constructor
      · rw [hδ] at *; linarith
      · rw [hδ] at *; linarith
  obtain ⟨b1, b2⟩ := hb l fun p hp => by
    obtain ⟨i, hi, e, _⟩ := hm p hp
    exact ⟨⟨i, hi, e⟩, hy p hp⟩
  rw [← le_div_iff₀ hT0] at b1
  rw [← div_le_iff₀ hT0] at b2
  refine (near.between b1 b2).mono ?_ ?_
  all_goals
    have hw' : 256 * (n : ℚ) ^ 2 * (u * (|a| + |b|) + ν) ≤ b - a := hw
    have key : (18 * n + 1) * (u * (|a| + |b|) + ν) ≤ (b - a) / (8 * n) := by
      rw [le_div_iff₀ (by linarith)]
      have c0 : 0 ≤ u * (|a| + |b|) + ν := by positivity
      generalize u * (|a| + |b|) + ν = c at *
      have h1 : 1 * n * c ≤ n * n * c := mul_le_mul_of_nonneg_right (mul_le_mul_of_nonneg_right hn (by linarith)) c0
      have h2 : 0 ≤ n * n * c := by positivity
      nlinarith
    rw [hδ]
    linarith

/-- the sums that weighted defuzzifiers compute, as a fold over values and degrees -/
theorem sums_fold {S : Type} [Scalar S] (z : Activated S → Except Err S) (v : Activated S → S) (l : List (Activated S))
    (h : ∀ a ∈ l, z a = .ok (v a)) :
    Weighted.sums z l = .ok ((l.map fun a => (v a, a.degree)).foldl (fun (s : S × S) p => (s.1 + p.2 * p.1, s.2 + p.2)) (lit 0, lit 0)) := by
  unfold Weighted.sums
  generalize ((lit 0, lit 0) : S × S) = s
  induction l generalizing s with
  | nil => rfl
  | cons a l ih =>
    rw [List.foldlM_cons, h a List.mem_cons_self, List.map_cons, List.foldl_cons]
    exact ih (fun b hb => h b (List.mem_cons_of_mem _ hb)) _

/-- **C72.**  Let `g'` be the grouped fuzzy output, whose groups have degrees from 0 to `Y` that do not underflow
and values up to `M`.  The results of WeightedAverage and WeightedSum are as close to the exact weighted average and
the exact weighted sum as rounding permits. -/
theorem weighted_near (F : ρ.Fine u ν Ω) {M Y : ℚ} (M0 : 0 ≤ M) (Y0 : 0 ≤ Y) (ctx : Ctx (Flt ρ)) (type : WeightedType) (ht : type ≠ .automatic)
    (g g' : Aggregated (Flt ρ)) (hne : g.terms ≠ []) (hg : g.grouped = .ok g') (v : Activated (Flt ρ) → Flt ρ)
    (hv : ∀ a ∈ g'.terms, Weighted.value ctx type a = .ok (v a) ∧ Bounded M (v a) ∧ Between 0 Y a.degree)
    (hu : 32 * g'.terms.length * u ≤ 1) (hν : 64 * g'.terms.length * ν ≤ 1) (hΩ : 4 * g'.terms.length * (M + 1) * (Y + 1) ≤ Ω)
    {P T : ℚ} (hP : P = (g'.terms.map fun a => toRat a.degree * toRat (v a)).sum) (hT : T = (g'.terms.map fun a => toRat a.degree).sum)
    (hT0 : 0 < T) (hT1 : 8 * g'.terms.length * ν ≤ T) (hT2 : (M + 2) * ν ≤ (u * M + ν) * T) :
    (∃ r, Weighted.defuzzify ctx .average type g = .ok r ∧ Near (P / T) (18 * g'.terms.length * (u * M + ν)) r) ∧
    ∃ r, Weighted.defuzzify ctx .sum type g = .ok r ∧ Near P (4 * g'.terms.length * (u * (M * T) + ν)) r := by
  have hs := sums_fold (Weighted.value ctx type) v g'.terms fun a ha => (hv a ha).1
  have eP : products (g'.terms.map fun a => (v a, a.degree)) = P := by
    unfold products
    rw [List.map_map, hP]
    rfl
  have eT : weights (g'.terms.map fun a => (v a, a.degree)) = T := by
    unfold weights
    rw [List.map_map, hT]
    rfl
  obtain ⟨s, t, e, h1, h2⟩ := ratio_near F M0 Y0 hu hν hΩ (g'.terms.map fun a => (v a, a.degree)) (by rw [List.length_map]) (fun p hp => by
    obtain ⟨a, ha, rfl⟩ := List.mem_map.1 hp
    exact (hv a ha).2) (by rw [eT]; exact hT0) (by rw [eT]; exact hT1) (by rw [eT]; exact hT2)
  rw [eP, eT] at *
  rw [e] at hs
  constructor
  · rw [Weighted.defuzzify_explicit ctx _ type ht g g' hne hg, hs]
    exact ⟨_, rfl, h2⟩
  · rw [Weighted.defuzzify_explicit ctx _ type ht g g' hne hg, hs]
    exact ⟨_, rfl, h1⟩

/-! ### `double` -/

section double
variable {lib1 : Fn1 → Ext ℚ → Ext ℚ} {lib2 : Fn2 → Ext ℚ → Ext ℚ → Ext ℚ}

theorem size_bound {A B N z : ℚ} (A0 : 0 ≤ A) (B0 : 0 ≤ B) (hA : A ≤ z) (hB : B ≤ z) (hz : 1 ≤ z) (N0 : 0 ≤ N) (hN : N ≤ 2147483648) :
    4 * N * (A + B + 1) * (1073741824 + 1) ≤ 1267650600228229401496703205376 * z := by
  have : 4 * N * (A + B + 1) ≤ 4 * 2147483648 * (3 * z) := mul_le_mul (by linarith) (by linarith) (by linarith) (by norm_num)
  linarith

theorem pow_split : (2 : ℚ) ^ (1000 : ℤ) = 1267650600228229401496703205376 * 2 ^ (900 : ℤ) := by
  rw [show (1267650600228229401496703205376 : ℚ) = 2 ^ (100 : ℤ) by norm_num, ← zpow_add₀ (by norm_num)]
  norm_num

theorem pow_size {a b : ℚ} {n : ℕ} (ha : |a| ≤ 2 ^ (900 : ℤ)) (hb : |b| ≤ 2 ^ (900 : ℤ)) (h2 : n ≤ 2147483648) :
    4 * n * (|a| + |b| + 1) * (1073741824 + 1) ≤ (2 : ℚ) ^ (1000 : ℤ) := by
  rw [pow_split]
  have h1 : (1 : ℚ) ≤ 2 ^ (900 : ℤ) := one_le_zpow₀ (by norm_num) (by norm_num)
  have h3 : (n : ℚ) ≤ 2147483648 := by exact_mod_cast h2
  have h0 : (0 : ℚ) ≤ n := n.cast_nonneg
  generalize (2 : ℚ) ^ (900 : ℤ) = z at *
  exact size_bound (abs_nonneg a) (abs_nonneg b) ha hb h1 h0 h3

theorem degree_bound {T z N : ℚ} (z0 : 0 < z) (hT : z ≤ T) (hN : N ≤ 2147483648) : 8 * N * (1 / 37778931862957161709568 * z) ≤ T := by
  have : 8 * N * z ≤ 8 * 2147483648 * z := mul_le_mul_of_nonneg_right (by linarith) z0.le
  linarith

theorem product_bound {M T z : ℚ} (z0 : 0 < z) (hT : z ≤ T) (hM : 1 / 1048576 ≤ M) :
    (M + 2) * (1 / 37778931862957161709568 * z) ≤ (1 / 9007199254740992 * M + 1 / 37778931862957161709568 * z) * T := by
  have h1 : 1 / 1048576 * z ≤ M * z := mul_le_mul_of_nonneg_right hM z0.le
  have h2 : M * z ≤ M * T := mul_le_mul_of_nonneg_left hT (by linarith)
  have h3 : 0 ≤ z * T := mul_nonneg z0.le (by linarith)
  nlinarith

/-- ranges of `double` up to 2^900 that are wider than a few thousand times the least positive number -/
theorem double_sampled {a b : ℚ} {n : ℕ} (ra : (binary64 lib1 lib2).Rep a) (rb : (binary64 lib1 lib2).Rep b) (hab : a < b)
    (ha : |a| ≤ 2 ^ (900 : ℤ)) (hb : |b| ≤ 2 ^ (900 : ℤ)) (h1 : 1 ≤ n) (h2 : n ≤ 2147483648) (hw : 32 * n ^ 2 * 2 ^ (-1075 : ℤ) ≤ b - a) :
    Sampled (binary64 lib1 lib2) (2 ^ (-53 : ℤ)) (2 ^ (-1075 : ℤ)) (2 ^ (1000 : ℤ)) a b n := by
  have hn : (n : ℚ) ≤ 2147483648 := by exact_mod_cast h2
  refine ⟨ra, rb, hab, h1, h2, ?_, ?_, hw, ?_⟩
  · have : (32 * n * 2 ^ (-53 : ℤ) : ℚ) ≤ 32 * 2147483648 * 2 ^ (-53 : ℤ) :=
      mul_le_mul_of_nonneg_right (by linarith) (by positivity)
    refine this.trans ?_
    norm_num
  · have h : (2 : ℚ) ^ (-1075 : ℤ) ≤ 2 ^ (-53 : ℤ) := zpow_le_zpow_right₀ (by norm_num) (by norm_num)
    have : (64 * n * 2 ^ (-1075 : ℤ) : ℚ) ≤ 64 * 2147483648 * 2 ^ (-53 : ℤ) := mul_le_mul (by linarith) h (by positivity) (by norm_num)
    refine this.trans ?_
    norm_num
  · refine le_trans ?_ (pow_size ha hb h2)
    have h0 : 0 ≤ 4 * n * (|a| + |b| + 1) := by positivity
    generalize 4 * n * (|a| + |b| + 1) = x at h0 ⊢
    linarith

/-- **C72 (partial: see the hypotheses), for `double`.**  The integral defuzzifiers with any resolution, any range that
is wide compared with the errors of rounding of its bounds and any membership function of degrees up to 2^30: the result
is in the range or not a number.  For Centroid the range must not be narrower than 2^-20, and a degree of at least
2^-1000 is sampled or none but zero. -/
theorem double_inside_partial {a b : ℚ} {n : ℕ} (ra : (binary64 lib1 lib2).Rep a) (rb : (binary64 lib1 lib2).Rep b) (hab : a < b)
    (ha : |a| ≤ 2 ^ (900 : ℤ)) (hb : |b| ≤ 2 ^ (900 : ℤ)) (h1 : 1 ≤ n) (h2 : n ≤ 2147483648)
    (hw : 256 * n ^ 2 * (2 ^ (-53 : ℤ) * (|a| + |b|) + 2 ^ (-1075 : ℤ)) ≤ b - a) (k : IntegralKind)
    (mu : Flt (binary64 lib1 lib2) → Except Err (Flt (binary64 lib1 lib2)))
    (hk : k = .centroid → 2 ^ (-20 : ℤ) ≤ b - a ∧
      (∀ i < n, ∀ y, mu (sample (of a ra) (of b rb) n i) = .ok y → Between 0 (2 ^ (30 : ℤ)) y) ∧
      ((∃ i < n, ∃ y, mu (sample (of a ra) (of b rb) n i) = .ok y ∧ Between (2 ^ (-1000 : ℤ)) (2 ^ (30 : ℤ)) y) ∨
        ∀ i < n, mu (sample (of a ra) (of b rb) n i) = .ok (lit 0)))
    (r : Flt (binary64 lib1 lib2)) (h : defuzzify k (n : ℤ) mu (of a ra) (of b rb) = .ok r) : r = nan ∨ Between a b r := by
  have F := Binary64.fine lib1 lib2
  have A0 := abs_nonneg a
  have B0 := abs_nonneg b
  have n1 : (1 : ℚ) ≤ n := by exact_mod_cast h1
  have n2 : (n : ℚ) ≤ 2147483648 := by exact_mod_cast h2
  have H := double_sampled ra rb hab ha hb h1 h2 (by
    refine le_trans ?_ hw
    have : (0 : ℚ) ≤ 2 ^ (-53 : ℤ) * (|a| + |b|) := by positivity
    have h3 : (0 : ℚ) ≤ 2 ^ (-1075 : ℤ) := by positivity
    exact mul_le_mul (by nlinarith) (by linarith) h3 (by positivity))
  cases hkk : k with
  | smallestOfMaximum => exact extreme_range F H k (Or.inl hkk) mu r h
  | largestOfMaximum => exact extreme_range F H k (Or.inr hkk) mu r h
  | meanOfMaximum => exact (mean_range_partial F H hw k (Or.inl hkk) mu r h).imp_right And.left
  | bisector => exact (mean_range_partial F H hw k (Or.inr hkk) mu r h).imp_right And.left
  | centroid =>
    obtain ⟨hD, hy, hs⟩ := hk hkk
    subst hkk
    rcases defuzzify_samples h with h' | ⟨l, hl, e⟩
    · exact Or.inl h'
    obtain ⟨hlen, hm⟩ := samples_mem hl
    rcases hs with ⟨i, hi, y, hmu, hy1⟩ | hz
    · right
      -- the degree is sampled
      have hmem : ∃ p ∈ l, p.2 = y := by
        have hl' := Variable.mapM_forall₂.1 hl
        have : ∀ (is : List ℕ) (l : List (Flt (binary64 lib1 lib2) × Flt (binary64 lib1 lib2))), i ∈ is → List.Forall₂ (fun i y => (do
            let x := sample (of a ra) (of b rb) n i
            let y ← mu x
            .ok (x, y)) = Except.ok y) is l → ∃ p ∈ l, p.2 = y := by
          intro is l hi hf
          induction hf with
          | nil => cases hi
          | @cons j q is l g1 _ ih =>
            rcases List.mem_cons.1 hi with rfl | hi
            · simp only [hmu] at g1
              cases g1
              exact ⟨_, List.mem_cons_self, rfl⟩
            · obtain ⟨p, hp, e⟩ := ih hi
              exact ⟨p, List.mem_cons_of_mem _ hp, e⟩
        exact this (List.range n) l (List.mem_range.2 hi) hl'
      have hyl : ∀ p ∈ l, Between 0 (2 ^ (30 : ℤ)) p.2 := by
        intro p hp
        obtain ⟨j, hj, e, hmu⟩ := hm p hp
        rw [e] at hmu
        exact hy j hj _ hmu
      have hT : (2 : ℚ) ^ (-1000 : ℤ) ≤ weights l := by
        obtain ⟨p, hp, rfl⟩ := hmem
        refine hy1.toRat.1.trans ?_
        exact List.single_le_sum (fun x hx => by
          obtain ⟨q, hq, rfl⟩ := List.mem_map.1 hx
          exact (hyl q hq).toRat.1) _ (List.mem_map_of_mem hp)
      have p1000 : (0 : ℚ) < 2 ^ (-1000 : ℤ) := by positivity
      have hν : (2 : ℚ) ^ (-1075 : ℤ) = 1 / 37778931862957161709568 * 2 ^ (-1000 : ℤ) := by
        rw [show (1 / 37778931862957161709568 : ℚ) = 2 ^ (-75 : ℤ) by norm_num, ← zpow_add₀ (by norm_num)]; norm_num
      have h53 : (2 : ℚ) ^ (-53 : ℤ) = 1 / 9007199254740992 := by norm_num
      have hM : (1 / 1048576 : ℚ) ≤ |a| + |b| := by
        rw [show (2 : ℚ) ^ (-20 : ℤ) = 1 / 1048576 by norm_num] at hD
        have h1 := neg_abs_le a
        have h2 := le_abs_self b
        clear hT hy1 hw hk hy hyl hν ha hb
        linarith
      obtain ⟨r', hr, hb, _⟩ := centroid_range_partial F (Y := 2 ^ (30 : ℤ)) H hw (by positivity)
        (by rw [show (2 : ℚ) ^ (30 : ℤ) = 1073741824 by norm_num]; exact pow_size ha hb h2) mu l hl hyl (lt_of_lt_of_le p1000 hT)
        (by rw [hν]; exact degree_bound p1000 hT n2) (by rw [hν, h53]; exact product_bound p1000 hT hM)
      rw [hr] at h
      cases h
      exact hb
    · left
      have hz' : ∀ p ∈ l, p.2 = lit 0 ∧ ∃ q, ∃ h, p.1 = of q h := by
        intro p hp
        obtain ⟨j, hj, e, hmu⟩ := hm p hp
        have := hz j hj
        rw [← e, hmu] at this
        obtain ⟨q, hq, e', _⟩ := sample_range F H hj
        exact ⟨by simpa using this, q, hq, e.trans e'⟩
      rw [e]
      show centroid l = nan
      unfold centroid
      have key : ∀ l : List (Flt (binary64 lib1 lib2) × Flt (binary64 lib1 lib2)), (∀ p ∈ l, p.2 = lit 0 ∧ ∃ q, ∃ h, p.1 = of q h) →
          l.foldl (fun (s : Flt (binary64 lib1 lib2) × Flt (binary64 lib1 lib2)) p => (s.1 + p.2 * p.1, s.2 + p.2)) (lit 0, lit 0) = (lit 0, lit 0) := by
        intro l
        induction l with
        | nil => intro _; rfl
        | cons p l ih =>
          intro h
          obtain ⟨e1, q, hq, e2⟩ := h p List.mem_cons_self
          have z1 : (lit 0 : Flt (binary64 lib1 lib2)) * of q hq = lit 0 := by
            rw [lit_rep rep_zero, mul_of _ _ (by rw [zero_mul]; exact small_of (by norm_num) (by norm_num)), of_inj, zero_mul]
            exact r_of_rep rep_zero
          have z2 : (lit 0 : Flt (binary64 lib1 lib2)) + lit 0 = lit 0 := by
            rw [lit_rep rep_zero, add_of _ _ (by rw [add_zero]; exact small_of (by norm_num) (by norm_num)), of_inj, add_zero]
            exact r_of_rep rep_zero
          rw [List.foldl_cons, e1, e2]
          dsimp only
          rw [z1, z2]
          exact ih fun p hp => h p (List.mem_cons_of_mem _ hp)
      rw [key l hz']
      dsimp only
      rw [lit_rep rep_zero]
      rfl

end double

/-- a result -/
def result (r : Except Err (Flt dbl)) : Flt dbl := match r with
  | .ok x => x
  | .error _ => nan

/-- constant membership -/
def flat (y : ℚ) (_ : Flt dbl) : Except Err (Flt dbl) := .ok (lit y)

/-- **C72, violated.**  In `double`, a range of three times the least positive number is sampled beyond its maximum. -/
theorem sample_violated : ∃ mx : Flt dbl, lt (lit 0) mx = true ∧
    lt mx (result (Integral.defuzzify .largestOfMaximum 4 (flat 1) (lit 0) mx)) = true :=
  ⟨lit (3 * (1 / 2 ^ 1074)), by decide +kernel⟩

/-- **C72, violated.**  In `double`, the means computed by MeanOfMaximum and Centroid leave a range between consecutive
numbers. -/
theorem mean_range_violated : ∃ mn mx : Flt dbl, lt mn mx = true ∧
    lt (result (Integral.defuzzify .meanOfMaximum 7 (flat 1) mn mx)) mn = true ∧
    lt (result (Integral.defuzzify .centroid 1 (flat (7 / 10)) mn mx)) mn = true :=
  ⟨lit (1 / 10), lit (10000000000000002 / 100000000000000000), by decide +kernel⟩

/-- **C72, violated.**  In `double`, Centroid of the range from 3/8 to 5/8 is 0 when the membership is the least positive
number: the product with the point underflows. -/
theorem centroid_violated : Integral.defuzzify .centroid 1 (flat (1 / 2 ^ 1074)) (lit (3 / 8)) (lit (5 / 8) : Flt dbl) = .ok (lit 0) := by
  decide +kernel

/-- a fuzzy output of constant terms, each with a name, a degree and a value -/
def constants (l : List (Str × ℚ × ℚ)) : Aggregated (Flt dbl) :=
  ⟨[], lit 0, lit 1, none, l.map fun p => ⟨0, ⟨p.1, lit 1, .constant (lit p.2.2)⟩, lit p.2.1, none⟩⟩

/-- **C72, violated.**  In `double`, the weighted average of equal values differs from them, and the weighted average and
the weighted sum depend on the order of the terms. -/
theorem weighted_violated :
    lt (lit (1 / 10)) (result (Weighted.defuzzify ⟨[], []⟩ .average .takagiSugeno
      (constants [(cs! "a", 1, 1 / 10), (cs! "b", 1, 1 / 10), (cs! "c", 1, 1 / 10)]))) = true ∧
    (∀ k, Weighted.defuzzify ⟨[], []⟩ k .takagiSugeno (constants [(cs! "a", 1, 1 / 10), (cs! "b", 1, 2 / 10), (cs! "c", 1, 3 / 10)]) ≠
      Weighted.defuzzify ⟨[], []⟩ k .takagiSugeno (constants [(cs! "c", 1, 3 / 10), (cs! "b", 1, 2 / 10), (cs! "a", 1, 1 / 10)])) := by
  refine ⟨by decide +kernel, ?_⟩
  intro k
  cases k <;> decide +kernel

/-- the default resolution on the range from 0 to 1 -/
example (k : IntegralKind) (hk : k ≠ .centroid) (mu : Flt dbl → Except Err (Flt dbl)) (r : Flt dbl)
    (h : Integral.defuzzify k 1000 mu (of 0 rep_zero) (of 1 rep_one) = .ok r) : r = nan ∨ Between 0 1 r :=
  double_inside_partial (n := 1000) rep_zero rep_one (by norm_num) (by simp) (by
      rw [abs_one]; exact one_le_zpow₀ (by norm_num) (by norm_num)) (by norm_num) (by norm_num) (by
    have h : (2 : ℚ) ^ (-1075 : ℤ) ≤ 2 ^ (-53 : ℤ) := zpow_le_zpow_right₀ (by norm_num) (by norm_num)
    rw [show (2 : ℚ) ^ (-53 : ℤ) = 1 / 9007199254740992 by norm_num] at *
    generalize (2 : ℚ) ^ (-1075 : ℤ) = z at *
    rw [abs_zero, abs_one]
    push_cast
    linarith) k mu (fun e => absurd e hk) r h

/-- a triangle from 0 to 1 is sampled four times in `double` -/
example : Integral.defuzzify .centroid 4 (fun x : Flt dbl => .ok ((Shape.triangle (lit 0) (lit (3 / 10)) (lit 1)).membership (lit 1) x)) (lit 0) (lit 1) =
      .ok (lit (4338235294117647 / 10 ^ 16)) ∧
    Integral.defuzzify .largestOfMaximum 4 (flat 1) (lit (1 / 10)) (lit (3 / 10)) = .ok (lit (275 / 1000)) ∧
    Integral.defuzzify .bisector 4 (flat 1) (lit (1 / 10)) (lit (3 / 10)) = .ok (lit (175 / 1000)) := by decide +kernel

end Rounded
end FL
