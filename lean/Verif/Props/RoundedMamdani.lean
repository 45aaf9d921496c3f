/-
Rounding in whole engines: the output of a Mamdani controller compared with exact arithmetic.
-/
import Verif.Props.RoundedEngine

namespace FL
open Scalar

namespace Integral

theorem samples_ok {S : Type} [Scalar S] {mu : S → Except Err S} {mn mx : S} {n : ℕ} (y : ℕ → S)
    (h : ∀ i < n, mu (sample mn mx n i) = .ok (y i)) :
    samples mu mn mx (n : ℤ) = .ok ((List.range n).map fun i => (sample mn mx n i, y i)) := by
  unfold samples
  rw [Variable.mapM_forall₂, List.forall₂_map_right_iff, Int.toNat_natCast, List.forall₂_same]
  intro i hi
  have e := h i (List.mem_range.1 hi)
  unfold sample at e
  rw [Int.cast_natCast]
  simp only [e, bind, Except.bind]
  rfl

end Integral

namespace Rounded
open Flt Scalar Format Integral
variable {ρ : Format} {u ν Ω : ℚ}

theorem tnorm_zero {k : TNormKind} {f : ℚ → ℚ → ℚ} (h : k.exact? = some f) {a : ℚ} (a1 : a ≤ 1) (a0 : 0 ≤ a) : f a 0 = 0 := by
  cases k <;> simp only [TNormKind.exact?, Option.some.injEq, reduceCtorEq] at h <;> subst h
  · simp
  · simp [a1]
  · simp
  · simp
  · simp [a0]

theorem snorm_zero {k : SNormKind} {f : ℚ → ℚ → ℚ} (h : k.exact? = some f) {a : ℚ} (a1 : a ≤ 1) (a0 : 0 ≤ a) : f a 0 = a := by
  cases k <;> simp only [SNormKind.exact?, Option.some.injEq, reduceCtorEq] at h <;> subst h
  · simp
  · simp [a1]
  · simp
  · simp [a0]
  · simp [a1]

/-- the index of the term that a rule concludes -/
def ruleTerm {S : Type} (o : OutputVariable S) (r : Rule S) : ℕ := ((r.concluded o).map Prod.fst).getD 0

/-- the fuzzy output of mathematics at a point: the terms that the rules conclude, with the degrees `τ` at the point,
modified by the degrees `ω` of the rules, and aggregated -/
def outputExact {S : Type} (f g : ℚ → ℚ → ℚ) (o : OutputVariable S) (τ : ℕ → ℚ) (ω : Rule S → ℚ) (l : List (Rule S)) : ℚ :=
  l.foldl (fun s r => g s (f (τ (ruleTerm o r)) (ω r))) 0

/-- what a rule adds to the fuzzy output -/
theorem Precise.fired {b : RuleBlock (Flt ρ)} {w : World (Flt ρ)} {μ : VarRef → Option Nat → ℚ} {n m : ℕ} {δ ω E : ℚ}
    {i : ℕ} {o : OutputVariable (Flt ρ)} {r : Rule (Flt ρ)} (h : Precise w μ n m δ i o r)
    (hω : Close ω E (r.activateWith w b.conjunction b.disjunction).1.degree) :
    ∃ t, o.terms[ruleTerm o r]? = some t ∧ ((b.fired w o r = none ∧ ω ≤ E + ρ.eps) ∨
      b.fired w o r = some ⟨ruleTerm o r, t, (r.activateWith w b.conjunction b.disjunction).1.degree, b.implication⟩) := by
  obtain ⟨j, t, hcl, ht⟩ := h.conclusion
  have hcon := concluded_eq hcl ht
  have ej : ruleTerm o r = j := by
    unfold ruleTerm
    rw [hcon]
    rfl
  have hf : b.fired w o r = if Op.isGt (r.activateWith w b.conjunction b.disjunction).1.degree (lit 0) then
      some ⟨j, t, (r.activateWith w b.conjunction b.disjunction).1.degree, b.implication⟩ else none := by
    unfold RuleBlock.fired
    rw [hcon]
    rfl
  obtain ⟨q, hq, eq, q0, q1, hE⟩ := hω.cases
  have ε0 := ρ.eps_pos
  rw [ej]
  refine ⟨t, ht, ?_⟩
  rw [hf]
  split_ifs with hg
  · exact Or.inr rfl
  · refine Or.inl ⟨rfl, ?_⟩
    have hz : (lit 0 : Flt ρ) = of 0 rep_zero := lit_rep rep_zero
    rw [eq, hz, isGt_of hq rep_zero (small_of (by linarith) (by linarith))] at hg
    have hlt : q < ρ.eps := by
      by_contra hge
      apply hg
      have : 0 < q := by linarith
      refine ⟨this, ?_⟩
      have e : ρ.r (q - 0) = q := by
        rw [sub_zero]
        exact Format.r_of_rep hq
      rw [e, abs_of_pos this]
      linarith
    rw [abs_le] at hE
    linarith

section
variable (A : Accurate ρ u ν Ω)
include A

theorem Precise.exact_le {c : TNormKind} {d : SNormKind} {f g : ℚ → ℚ → ℚ} (hc : c.exact? = some f) (hd : d.exact? = some g)
    {w : World (Flt ρ)} {μ : VarRef → Option Nat → ℚ} {n m : ℕ} {δ : ℚ} (d0 : 0 ≤ δ) {i : ℕ} {o : OutputVariable (Flt ρ)} {r : Rule (Flt ρ)}
    (h : Precise w μ n m δ i o r) : ruleExact w μ f g r ≤ 1 := by
  obtain ⟨e, he, hin, hm, hp⟩ := h.antecedent
  obtain ⟨v, hv, ev, v0, v1⟩ := degree_iff.1 h.weight
  obtain ⟨⟨e0, e1⟩, -⟩ := antecedent_near_partial A hc hd d0 e hp
  unfold ruleExact
  rw [he, ev]
  exact mul_le_one₀ v1 e0 e1

omit A in
theorem slack_nonneg (u0 : 0 ≤ u) (ν0 : 0 ≤ ν) (c : TNormKind) : 0 ≤ TNormKind.slack ρ u ν c := by
  unfold TNormKind.slack
  have := ρ.eps_pos
  split_ifs <;> positivity

/-- **C88.**  The fuzzy output of a block of rules at a point. -/
theorem output_near_partial {b : RuleBlock (Flt ρ)} {c c' : TNormKind} {d d' : SNormKind} {f g f' g' : ℚ → ℚ → ℚ} (hc : c.exact? = some f) (hd : d.exact? = some g)
    (hc' : c'.exact? = some f') (hd' : d'.exact? = some g')
    (bc : b.conjunction = some (.builtin c)) (bd : b.disjunction = some (.builtin d)) (bi : b.implication = some (.builtin c'))
    {w : World (Flt ρ)} {μ : VarRef → Option Nat → ℚ} {n m : ℕ} {δ η : ℚ} (d0 : 0 ≤ δ) (η0 : 0 ≤ η) {i : ℕ} {o : OutputVariable (Flt ρ)}
    (hr : ∀ r ∈ b.rules, Precise w μ n m δ i o r) (G : Aggregated (Flt ρ)) (hG : G.terms = b.rules.filterMap (b.fired w o))
    (hagg : G.aggregation = some (.builtin d')) (ctx : Ctx (Flt ρ)) (x : Flt ρ) (hx : x ≠ nan) (τ : ℕ → ℚ)
    (hτ : ∀ j t, o.terms[j]? = some t → (0 ≤ τ j ∧ τ j ≤ 1) ∧ ∃ v, t.membership ctx x = .ok v ∧ Close (τ j) η v) :
    (0 ≤ outputExact f' g' o τ (ruleExact w μ f g) b.rules ∧ outputExact f' g' o τ (ruleExact w μ f g) b.rules ≤ 1) ∧
    ∃ y, G.membership ctx x = .ok y ∧ Close (outputExact f' g' o τ (ruleExact w μ f g) b.rules)
      (b.rules.length * (η + ruleError ρ u ν c n m δ + ρ.eps + TNormKind.slack ρ u ν c' + 20 * (u + ν))) y := by
  have hnx : Op.isNaN x = false := (ScalarOrd.isNaN_false_iff x).2 hx
  have u0 := A.u0
  have ν0 := A.ν0
  have ε0 := ρ.eps_pos
  have s0 := slack_nonneg (ρ := ρ) u0 ν0 c'
  unfold Aggregated.membership
  rw [hnx, hagg, hG]
  simp only [Bool.false_eq_true, if_false]
  have key : ∀ (l : List (Rule (Flt ρ))), (∀ r ∈ l, r ∈ b.rules) → ∀ s q D, 0 ≤ q → q ≤ 1 → Close q D s →
      (0 ≤ l.foldl (fun s r => g' s (f' (τ (ruleTerm o r)) (ruleExact w μ f g r))) q ∧ l.foldl (fun s r => g' s (f' (τ (ruleTerm o r)) (ruleExact w μ f g r))) q ≤ 1) ∧
      ∃ y, ((l.filterMap (b.fired w o)).foldlM (fun mu a => do let y ← a.membership ctx x; (SNorm.builtin d').compute mu y) s : Except Err (Flt ρ)) = .ok y ∧
        Close (l.foldl (fun s r => g' s (f' (τ (ruleTerm o r)) (ruleExact w μ f g r))) q)
          (D + l.length * (η + ruleError ρ u ν c n m δ + ρ.eps + TNormKind.slack ρ u ν c' + 20 * (u + ν))) y := by
    intro l
    induction l with
    | nil => intro _ s q D q0 q1 hs; exact ⟨⟨q0, q1⟩, s, rfl, hs.mono (by simp)⟩
    | cons r l ih =>
      intro hl s q D q0 q1 hs
      have hp := hr r (hl r (by simp))
      obtain ⟨-, w0, hω⟩ := Precise.near A hc hd bc bd d0 hp
      have w1 := Precise.exact_le A hc hd d0 hp
      obtain ⟨t, ht, hf⟩ := hp.fired hω
      obtain ⟨⟨t0, t1⟩, v, hv, hcv⟩ := hτ _ _ ht
      obtain ⟨i0, i1⟩ := tnorm_unit hc' t0 t1 w0 w1
      obtain ⟨z0, z1⟩ := snorm_unit hd' q0 q1 i0 i1
      rcases hf with ⟨hf, hω1⟩ | hf
      · have l1 := tnorm_lipschitz hc' (τ (ruleTerm o r)) (τ (ruleTerm o r)) 0 (ruleExact w μ f g r) t0 t1 t0 t1 le_rfl zero_le_one w0 w1
        rw [tnorm_zero hc' t1 t0, sub_zero, sub_zero, sub_self, abs_zero, zero_add, abs_of_nonneg i0, abs_of_nonneg w0] at l1
        have l2 := snorm_lipschitz hd' q q 0 (f' (τ (ruleTerm o r)) (ruleExact w μ f g r)) q0 q1 q0 q1 le_rfl zero_le_one i0 i1
        rw [snorm_zero hd' q1 q0, sub_zero, sub_self, abs_zero, zero_add, abs_of_nonneg i0, _root_.abs_sub_comm] at l2
        obtain ⟨hr, y, hy, hcy⟩ := ih (fun b hb => hl b (by simp [hb])) s _ _ z0 z1
          (hs.of_eq (b := g' q (f' (τ (ruleTerm o r)) (ruleExact w μ f g r))) (E' := D + (ruleError ρ u ν c n m δ + ρ.eps)) (by linarith))
        refine ⟨hr, y, ?_, hcy.mono ?_⟩
        · rw [List.filterMap_cons_none hf]
          exact hy
        · rw [List.length_cons]
          push_cast
          linarith
      · have e : (⟨ruleTerm o r, t, (r.activateWith w b.conjunction b.disjunction).1.degree, b.implication⟩ : Activated (Flt ρ)).membership ctx x =
            .ok (c'.compute v (r.activateWith w b.conjunction b.disjunction).1.degree) := by
          unfold Activated.membership
          simp only [hnx, bi, Bool.false_eq_true, if_false, hv, bind, Except.bind, TNorm.compute]
        have h1 := tnorm_near A hc' t0 t1 w0 w1 hcv hω
        have h2 := snorm_near A hd' q0 q1 i0 i1 hs h1
        obtain ⟨hr, y, hy, hcy⟩ := ih (fun b hb => hl b (by simp [hb])) _ _ _ z0 z1 h2
        refine ⟨hr, y, ?_, hcy.mono ?_⟩
        · rw [List.filterMap_cons_some hf, List.foldlM_cons, e]
          exact hy
        · rw [List.length_cons]
          push_cast
          linarith
  obtain ⟨hr, y, hy, hc⟩ := key b.rules (fun _ h => h) (lit 0) 0 0 le_rfl (by norm_num) ⟨degree_zero, near_zero le_rfl⟩
  exact ⟨hr, y, hy, hc.mono (by linarith)⟩

/-- **C88.**  A block of Mamdani rules.  In exact arithmetic the output is the centre of the fuzzy output at the
sampled points.  The output that is computed differs from it by at most `18 N (u (|a| + |b|) + ν) + 4 D (|a| + |b|) / S`,
for `N` points in the range from `a` to `b`, `K` rules, and degrees of the fuzzy output that add up to `S`. -/
theorem mamdani_near_partial {b : RuleBlock (Flt ρ)} {c c' : TNormKind} {d d' : SNormKind} {f g f' g' : ℚ → ℚ → ℚ} (hc : c.exact? = some f) (hd : d.exact? = some g)
    (hc' : c'.exact? = some f') (hd' : d'.exact? = some g')
    (bc : b.conjunction = some (.builtin c)) (bd : b.disjunction = some (.builtin d)) (bi : b.implication = some (.builtin c'))
    {w : World (Flt ρ)} {μ : VarRef → Option Nat → ℚ} {n m : ℕ} {δ η : ℚ} (d0 : 0 ≤ δ) (η0 : 0 ≤ η) {i : ℕ} {o : OutputVariable (Flt ρ)}
    (hr : ∀ r ∈ b.rules, Precise w μ n m δ i o r) (G : Aggregated (Flt ρ)) (hG : G.terms = b.rules.filterMap (b.fired w o))
    (hagg : G.aggregation = some (.builtin d')) (ctx : Ctx (Flt ρ)) {lo hi : ℚ} {N : ℕ} (H : Sampled ρ u ν Ω lo hi N) (hW : Wide u ν lo hi N)
    (hsize : 8 * N * (|lo| + |hi| + 1) ≤ Ω) {x : ℕ → Flt ρ} (hx : ∀ k, x k = sample (of lo H.lower) (of hi H.upper) N k) (τ : ℕ → Flt ρ → ℚ)
    (hτ : ∀ j t, o.terms[j]? = some t → ∀ k < N, (0 ≤ τ j (x k) ∧ τ j (x k) ≤ 1) ∧ ∃ v, t.membership ctx (x k) = .ok v ∧ Close (τ j (x k)) η v)
    {M : Flt ρ → ℚ} (hM : ∀ x, M x = outputExact f' g' o (fun j => τ j x) (ruleExact w μ f g) b.rules)
    {K : ℕ} (hK : b.rules.length = K) {D S : ℚ} (hD : D = N * (K * (η + ruleError ρ u ν c n m δ + ρ.eps + TNormKind.slack ρ u ν c' + 20 * (u + ν))))
    (hS : S = ((List.range N).map fun k => M (x k)).sum) (S0 : 0 < S) (hSD : 2 * D ≤ S)
    (hν : 2 * (|lo| + |hi| + 2) * ν ≤ (u * (|lo| + |hi|) + ν) * S) :
    ∃ r, Integral.defuzzify .centroid (N : ℤ) (G.membership ctx) (of lo H.lower) (of hi H.upper) = .ok r ∧ Between lo hi r ∧
      Near (((List.range N).map fun k => M (x k) * toRat (x k)).sum / S) (18 * N * (u * (|lo| + |hi|) + ν) + 4 * D * (|lo| + |hi|) / S) r := by
  have u0 := A.u0
  have ν0 := A.ν0
  have ε0 := ρ.eps_pos
  have s0 := slack_nonneg (ρ := ρ) u0 ν0 c'
  have N1 : (1 : ℚ) ≤ N := by exact_mod_cast H.some
  set E : ℚ := K * (η + ruleError ρ u ν c n m δ + ρ.eps + TNormKind.slack ρ u ν c' + 20 * (u + ν)) with hE
  have hp : ∀ k < N, (0 ≤ M (x k) ∧ M (x k) ≤ 1) ∧ ∃ y, G.membership ctx (x k) = .ok y ∧ Close (M (x k)) E y := by
    intro k hk
    have hxk : x k ≠ nan := by
      obtain ⟨q, hq, e, -⟩ := sample_range A.toFine H hk
      rw [hx, e]
      exact (ScalarOrd.isNaN_false_iff _).1 (isNaN_of hq)
    have := output_near_partial A hc hd hc' hd' bc bd bi d0 η0 hr G hG hagg ctx (x k) hxk (fun j => τ j (x k)) (fun j t ht => hτ j t ht k hk)
    rw [← hM, hK] at this
    exact this
  have hy : ∃ y : ℕ → Flt ρ, ∀ k < N, G.membership ctx (x k) = .ok (y k) ∧ Close (M (x k)) E (y k) := by
    refine ⟨fun k => if h : k < N then (hp k h).2.choose else nan, fun k hk => ?_⟩
    simp only [dif_pos hk]
    exact (hp k hk).2.choose_spec
  obtain ⟨y, hy⟩ := hy
  have hl := samples_ok (mu := G.membership ctx) (mn := of lo H.lower) (mx := of hi H.upper) (n := N) y (fun k hk => by rw [← hx]; exact (hy k hk).1)
  have ex : (fun k => (sample (of lo H.lower) (of hi H.upper) N k, y k)) = fun k => (x k, y k) := by
    funext k
    rw [hx]
  rw [ex] at hl
  have K1 : (1 : ℚ) ≤ K := by
    rcases Nat.eq_zero_or_pos K with h | h
    · exfalso
      have : ∀ k, M (x k) = 0 := by
        intro k
        rw [hM, List.length_eq_zero_iff.1 (hK.trans h)]
        rfl
      rw [hS] at S0
      simp [this] at S0
    · exact_mod_cast h
  have R0 : 0 ≤ ruleError ρ u ν c n m δ := by
    cases hb : b.rules with
    | nil => rw [hb] at hK; simp at hK; rw [← hK] at K1; norm_num at K1
    | cons r rs =>
      obtain ⟨-, -, hω⟩ := Precise.near A hc hd bc bd d0 (hr r (by rw [hb]; simp))
      obtain ⟨q, _, _, _, _, h⟩ := hω.cases
      exact (abs_nonneg _).trans h
  have E1 : ρ.eps + 40 * ν ≤ E := by
    have h1 : 20 * (u + ν) ≤ TNormKind.slack ρ u ν c' := by
      unfold TNormKind.slack
      split_ifs <;> linarith
    have h2 := mul_le_mul_of_nonneg_right K1 (show 0 ≤ η + ruleError ρ u ν c n m δ + ρ.eps + TNormKind.slack ρ u ν c' + 20 * (u + ν) by positivity)
    rw [← hE] at h2
    linarith
  have hT : |((List.range N).map fun k => toRat (y k)).sum - S| ≤ D := by
    have h := sum_close (List.range N) (fun k => toRat (y k)) (fun k => M (x k)) (fun _ => E) (fun k hk => by
      obtain ⟨q, hq, e, _, _, h⟩ := (hy k (List.mem_range.1 hk)).2.cases
      rw [e]
      exact h)
    rw [← hS] at h
    simpa [hD] using h
  set T := ((List.range N).map fun k => toRat (y k)).sum with hTd
  have hTS : S / 2 ≤ T := by
    rw [abs_le] at hT
    linarith
  have ND : (N : ℚ) * (40 * ν) ≤ D := by
    rw [hD]
    exact mul_le_mul_of_nonneg_left (by linarith) (by linarith)
  have T0 : 0 < T := by linarith
  obtain ⟨r, h1, h2, h3⟩ := centroid_sound_partial A.toFine H hW (Y := 1) zero_le_one (by linarith) (G.membership ctx) _ hl
    (fun p hp => by
      obtain ⟨k, hk, rfl⟩ := List.mem_map.1 hp
      obtain ⟨q, hq, e, h0, h1, _⟩ := (hy k (List.mem_range.1 hk)).2.cases
      exact ⟨q, hq, e, h0, h1⟩)
    (T := T) (by rw [List.map_map]; rfl) T0
    (by have : 0 ≤ (N : ℚ) * ν := by positivity
        linarith)
    (by have := mul_le_mul_of_nonneg_left hTS (show 0 ≤ u * (|lo| + |hi|) + ν by positivity)
        linarith)
    (E := E) M (fun p h => by
      obtain ⟨k, hk, rfl⟩ := List.mem_map.1 h
      exact ⟨(hp k (List.mem_range.1 hk)).1.1, (hy k (List.mem_range.1 hk)).2.2⟩)
    (by rw [List.map_map]; rw [hS] at S0; exact S0)
  refine ⟨r, h1, h2, ?_⟩
  rw [List.map_map, List.map_map] at h3
  have e1 : ((List.range N).map ((fun p : Flt ρ × Flt ρ => M p.1) ∘ fun k => (x k, y k))).sum = S := hS.symm
  have e2 : ((List.range N).map ((fun p : Flt ρ × Flt ρ => M p.1 * toRat p.1) ∘ fun k => (x k, y k))).sum = ((List.range N).map fun k => M (x k) * toRat (x k)).sum := rfl
  rw [e1, e2] at h3
  refine h3.mono ?_
  have D0 : 0 ≤ D := le_trans (by positivity) ND
  have h4 : 2 * (N : ℚ) * E * (|lo| + |hi|) / T ≤ 4 * D * (|lo| + |hi|) / S := by
    rw [div_le_div_iff₀ T0 S0]
    have e : 2 * (N : ℚ) * E = 2 * D := by rw [hD]; ring
    rw [e]
    have := mul_le_mul_of_nonneg_left (show S ≤ 2 * T by linarith) (show 0 ≤ 2 * D * (|lo| + |hi|) by positivity)
    linarith
  linarith

omit A in
theorem bound_eq {lo hi : ℚ} {rl : ρ.Rep lo} {rh : ρ.Rep hi} {z : Flt ρ} (h : Between lo hi z) : Op.bound z (of lo rl) (of hi rh) = z := by
  obtain ⟨q, hq, rfl, h1, h2⟩ := h
  unfold Op.bound
  rw [if_neg, if_neg]
  · simpa using h1
  · simpa [Scalar.gt] using h2

/-- **C88.**  An engine with one block of Mamdani rules and one output variable, defuzzified with Centroid.  The output
is in the range of the output variable. -/
theorem mamdani_process_partial [Heap (Flt ρ)] {e : Engine (Flt ρ)} {b : RuleBlock (Flt ρ)} {o : OutputVariable (Flt ρ)} {N : ℕ}
    (eb : e.blocks = [b]) (eo : e.outputs = [o]) (ben : b.enabled = true) (ba : b.activation = none ∨ b.activation = some .general)
    (hen : o.enabled = true) (hdef : o.defuzzifier = some (.integral .centroid N)) {c c' : TNormKind} {d d' : SNormKind} {f g f' g' : ℚ → ℚ → ℚ}
    (hc : c.exact? = some f) (hd : d.exact? = some g) (hc' : c'.exact? = some f') (hd' : d'.exact? = some g')
    (bc : b.conjunction = some (.builtin c)) (bd : b.disjunction = some (.builtin d)) (bi : b.implication = some (.builtin c'))
    (hagg : o.fuzzy.aggregation = some (.builtin d')) {w : World (Flt ρ)} (hw : w = ⟨e.inputs, [{ o with fuzzy := { o.fuzzy with terms := [] } }]⟩)
    {μ : VarRef → Option Nat → ℚ} {n m : ℕ} {δ η : ℚ} (d0 : 0 ≤ δ) (η0 : 0 ≤ η) (hr : ∀ r ∈ b.rules, Precise w μ n m δ 0 o r)
    {lo hi : ℚ} (H : Sampled ρ u ν Ω lo hi N) (hW : Wide u ν lo hi N) (hsize : 8 * N * (|lo| + |hi| + 1) ≤ Ω)
    (hlo : o.minimum = of lo H.lower) (hhi : o.maximum = of hi H.upper) {x : ℕ → Flt ρ} (hx : ∀ k, x k = sample o.minimum o.maximum N k) (τ : ℕ → Flt ρ → ℚ)
    (hτ : ∀ j t, o.terms[j]? = some t → ∀ k < N, (0 ≤ τ j (x k) ∧ τ j (x k) ≤ 1) ∧ ∃ v, t.membership w.ctx (x k) = .ok v ∧ Close (τ j (x k)) η v)
    {M : Flt ρ → ℚ} (hM : ∀ x, M x = outputExact f' g' o (fun j => τ j x) (ruleExact w μ f g) b.rules)
    {K : ℕ} (hK : b.rules.length = K) {D S : ℚ} (hD : D = N * (K * (η + ruleError ρ u ν c n m δ + ρ.eps + TNormKind.slack ρ u ν c' + 20 * (u + ν))))
    (hS : S = ((List.range N).map fun k => M (x k)).sum) (S0 : 0 < S) (hSD : 2 * D ≤ S)
    (hν : 2 * (|lo| + |hi| + 2) * ν ≤ (u * (|lo| + |hi|) + ν) * S) :
    e.process.2 = none ∧ ∃ r, e.process.1.outputValues = [r] ∧ Between lo hi r ∧
      Near (((List.range N).map fun k => M (x k) * toRat (x k)).sum / S) (18 * N * (u * (|lo| + |hi|) + ν) + 4 * D * (|lo| + |hi|) / S) r := by
  have hs : ∀ r ∈ b.rules, b.Single w 0 o r := fun r h => (Precise.near A hc hd bc bd d0 (hr r h)).1
  obtain ⟨z, hz, hb, hn⟩ := mamdani_near_partial A hc hd hc' hd' bc bd bi d0 η0 hr { o.fuzzy with terms := b.rules.filterMap (b.fired w o) } rfl hagg w.ctx
    H hW hsize (x := x) (fun k => by rw [hx, hlo, hhi]) τ hτ hM hK hD hS S0 hSD hν
  have a3 : Op.isNaN z = false := by
    obtain ⟨q, hq, rfl, -⟩ := hn
    exact isNaN_of hq
  obtain ⟨p1, p2⟩ := process_single eb eo ben ba hen hdef hw hs (z := z) (by rw [hlo, hhi]; exact hz) a3
  rw [hlo, hhi, bound_eq hb, ite_self] at p2
  exact ⟨p1, z, p2, hb, hn⟩

end

section double
variable (lib1 : Fn1 → Ext ℚ → Ext ℚ) (lib2 : Fn2 → Ext ℚ → Ext ℚ → Ext ℚ)

/-- the error of the degrees of fuzzy outputs in `double`, for each rule -/
def degreeError (c c' : TNormKind) (n m : ℕ) (δ η : ℚ) : ℚ := η + doubleError c n m δ + if c' = .hamacherProduct then 2 / 10 ^ 6 else 0

theorem degreeError_ge (c c' : TNormKind) (n m : ℕ) {δ η : ℚ} (d0 : 0 ≤ δ) (η0 : 0 ≤ η) : 11 / 10 ^ 7 ≤ degreeError c c' n m δ η := by
  unfold degreeError doubleError
  have h3 : (1 : ℚ) ≤ 2 ^ n := one_le_pow₀ (by norm_num)
  have h4 : (0 : ℚ) ≤ (2 ^ n - 1) / 10 ^ 11 := div_nonneg (by linarith) (by norm_num)
  have h5 : ∀ k : TNormKind, (0 : ℚ) ≤ if k = .hamacherProduct then 2 / 10 ^ 6 else 0 := fun k => by split_ifs <;> norm_num
  have h6 : (0 : ℚ) ≤ m * (2 ^ n * δ + (2 ^ n - 1) / 10 ^ 11 + 1 / 10 ^ 14 + if c = .hamacherProduct then 2 / 10 ^ 6 else 0) :=
    mul_nonneg (Nat.cast_nonneg _) (add_nonneg (add_nonneg (add_nonneg (mul_nonneg (by linarith) d0) h4) (by norm_num)) (h5 c))
  have h7 := h5 c'
  linarith

/-- **C88.**  In `double`: an engine with Mamdani rules and up to a million points of its output variable. -/
theorem mamdani_double_partial [Heap (Flt (binary64 lib1 lib2))] {e : Engine (Flt (binary64 lib1 lib2))} {b : RuleBlock (Flt (binary64 lib1 lib2))}
    {o : OutputVariable (Flt (binary64 lib1 lib2))} {N : ℕ}
    (eb : e.blocks = [b]) (eo : e.outputs = [o]) (ben : b.enabled = true) (ba : b.activation = none ∨ b.activation = some .general)
    (hen : o.enabled = true) (hdef : o.defuzzifier = some (.integral .centroid N)) {c c' : TNormKind} {d d' : SNormKind} {f g f' g' : ℚ → ℚ → ℚ}
    (hc : c.exact? = some f) (hd : d.exact? = some g) (hc' : c'.exact? = some f') (hd' : d'.exact? = some g')
    (bc : b.conjunction = some (.builtin c)) (bd : b.disjunction = some (.builtin d)) (bi : b.implication = some (.builtin c'))
    (hagg : o.fuzzy.aggregation = some (.builtin d')) {w : World (Flt (binary64 lib1 lib2))} (hw : w = ⟨e.inputs, [{ o with fuzzy := { o.fuzzy with terms := [] } }]⟩)
    {μ : VarRef → Option Nat → ℚ} {n m : ℕ} {δ η : ℚ} (d0 : 0 ≤ δ) (η0 : 0 ≤ η) (hr : ∀ r ∈ b.rules, Precise w μ n m δ 0 o r)
    {lo hi : ℚ} {rl : (binary64 lib1 lib2).Rep lo} {rh : (binary64 lib1 lib2).Rep hi} (hlo : o.minimum = of lo rl) (hhi : o.maximum = of hi rh)
    (N1 : 1 ≤ N) (N2 : N ≤ 1048576) (large : 1 ≤ |lo| + |hi|) (hl : |lo| ≤ 2 ^ (900 : ℤ)) (hh : |hi| ≤ 2 ^ (900 : ℤ)) (wide : N ^ 2 * (|lo| + |hi|) / 10 ^ 13 ≤ hi - lo)
    {x : ℕ → Flt (binary64 lib1 lib2)} (hx : ∀ k, x k = sample o.minimum o.maximum N k) (τ : ℕ → Flt (binary64 lib1 lib2) → ℚ)
    (hτ : ∀ j t, o.terms[j]? = some t → ∀ k < N, (0 ≤ τ j (x k) ∧ τ j (x k) ≤ 1) ∧ ∃ v, t.membership w.ctx (x k) = .ok v ∧ Close (τ j (x k)) η v)
    {M : Flt (binary64 lib1 lib2) → ℚ} (hM : ∀ x, M x = outputExact f' g' o (fun j => τ j x) (ruleExact w μ f g) b.rules)
    {K : ℕ} (hK : b.rules.length = K) {S : ℚ} (hS : S = ((List.range N).map fun k => M (x k)).sum) (S0 : 0 < S)
    (hSD : 2 * N * K * degreeError c c' n m δ η ≤ S) :
    e.process.2 = none ∧ ∃ r, e.process.1.outputValues = [r] ∧ Between lo hi r ∧
      Near (((List.range N).map fun k => M (x k) * toRat (x k)).sum / S) (N * (|lo| + |hi|) / 10 ^ 14 + 4 * N * K * degreeError c c' n m δ η * (|lo| + |hi|) / S) r := by
  have hu := double_unit
  have he := double_eps lib1 lib2
  have ε0 := (binary64 lib1 lib2).eps_pos
  have hE := ruleError_double lib1 lib2 c n m δ
  have N0 : (1 : ℚ) ≤ N := by exact_mod_cast N1
  have N3 : (N : ℚ) ≤ 1048576 := by exact_mod_cast N2
  have K0 : (0 : ℚ) ≤ K := Nat.cast_nonneg _
  have ν0 : (0 : ℚ) ≤ 2 ^ (-1075 : ℤ) := by positivity
  have u0 : (0 : ℚ) ≤ 2 ^ (-53 : ℤ) := by positivity
  have ν1 : (2 : ℚ) ^ (-1075 : ℤ) ≤ 2 ^ (-100 : ℤ) := zpow_le_zpow_right₀ (by norm_num) (by norm_num)
  have K1 : (1 : ℚ) ≤ K := by
    rcases Nat.eq_zero_or_pos K with h | h
    · exfalso
      have : ∀ k, M (x k) = 0 := by
        intro k
        rw [hM, List.length_eq_zero_iff.1 (hK.trans h)]
        rfl
      rw [hS] at S0
      simp [this] at S0
    · exact_mod_cast h
  have ht : TNormKind.slack (binary64 lib1 lib2) (2 ^ (-53 : ℤ)) (2 ^ (-1075 : ℤ)) c' ≤ 1 / 10 ^ 14 + if c' = .hamacherProduct then 2 / 10 ^ 6 else 0 := by
    unfold TNormKind.slack
    refine add_le_add ?_ ?_
    · norm_num at hu ⊢
      linarith
    · split_ifs
      · refine he.trans ?_
        norm_num
      · exact le_rfl
  have step : η + ruleError (binary64 lib1 lib2) (2 ^ (-53 : ℤ)) (2 ^ (-1075 : ℤ)) c n m δ + (binary64 lib1 lib2).eps +
      TNormKind.slack (binary64 lib1 lib2) (2 ^ (-53 : ℤ)) (2 ^ (-1075 : ℤ)) c' + 20 * (2 ^ (-53 : ℤ) + 2 ^ (-1075 : ℤ)) ≤ degreeError c c' n m δ η := by
    unfold degreeError
    generalize TNormKind.slack (binary64 lib1 lib2) (2 ^ (-53 : ℤ)) (2 ^ (-1075 : ℤ)) c' = k at *
    generalize ruleError (binary64 lib1 lib2) (2 ^ (-53 : ℤ)) (2 ^ (-1075 : ℤ)) c n m δ = k2 at *
    generalize (binary64 lib1 lib2).eps = k3 at *
    generalize (2 : ℚ) ^ (-53 : ℤ) + 2 ^ (-1075 : ℤ) = k4 at *
    generalize (if c' = TNormKind.hamacherProduct then (2 : ℚ) / 10 ^ 6 else 0) = k5 at *
    norm_num at *
    linarith
  have DD := mul_le_mul_of_nonneg_left (mul_le_mul_of_nonneg_left step K0) (show (0 : ℚ) ≤ N by linarith)
  have L0 : 0 ≤ |lo| + |hi| := by positivity
  have hW : Wide (2 ^ (-53 : ℤ)) (2 ^ (-1075 : ℤ)) lo hi N := by
    unfold Wide
    refine le_trans ?_ wide
    have h1 : (2 : ℚ) ^ (-53 : ℤ) * (|lo| + |hi|) + 2 ^ (-1075 : ℤ) ≤ 12 / 10 ^ 17 * (|lo| + |hi|) := by
      have h2 := mul_le_mul_of_nonneg_right hu L0
      have h3 := mul_le_mul_of_nonneg_left large ν0
      linarith
    have h2 := mul_le_mul_of_nonneg_left h1 (show (0 : ℚ) ≤ 256 * N ^ 2 by positivity)
    refine h2.trans ?_
    have e : 256 * (N : ℚ) ^ 2 * (12 / 10 ^ 17 * (|lo| + |hi|)) = 3072 / 10 ^ 17 * (N ^ 2 * (|lo| + |hi|)) := by ring
    rw [e, div_eq_mul_inv ((N : ℚ) ^ 2 * (|lo| + |hi|)), _root_.mul_comm ((N : ℚ) ^ 2 * (|lo| + |hi|))]
    exact mul_le_mul_of_nonneg_right (by norm_num) (by positivity)
  have hsize : 8 * (N : ℚ) * (|lo| + |hi| + 1) ≤ 2 ^ (1000 : ℤ) := by
    have h4 : (1 : ℚ) ≤ 2 ^ (900 : ℤ) := one_le_zpow₀ (by norm_num) (by norm_num)
    rw [pow_split]
    generalize (2 : ℚ) ^ (900 : ℤ) = z at hl hh h4 ⊢
    have h5 := mul_le_mul N3 (show |lo| + |hi| + 1 ≤ 3 * z by linarith) (by linarith) (by positivity)
    norm_num at h5
    linarith
  have hpos : 0 < hi - lo := lt_of_lt_of_le (by positivity) wide
  have H : Sampled (binary64 lib1 lib2) (2 ^ (-53 : ℤ)) (2 ^ (-1075 : ℤ)) (2 ^ (1000 : ℤ)) lo hi N := by
    refine ⟨rl, rh, by linarith, N1, le_trans N2 (by norm_num), ?_, ?_, ?_, ?_⟩
    · have := mul_le_mul N3 (show (2 : ℚ) ^ (-53 : ℤ) ≤ 12 / 10 ^ 17 by linarith) u0 (by norm_num)
      norm_num at this ⊢
      linarith
    · have := mul_le_mul N3 ν1 ν0 (by norm_num)
      generalize (2 : ℚ) ^ (-1075 : ℤ) = z at *
      norm_num at this ⊢
      linarith
    · unfold Wide at hW
      refine le_trans ?_ hW
      have h1 : 0 ≤ (N : ℚ) ^ 2 * (2 ^ (-53 : ℤ) * (|lo| + |hi|)) := by positivity
      have h2 : 0 ≤ (N : ℚ) ^ 2 * 2 ^ (-1075 : ℤ) := by positivity
      linarith
    · refine le_trans ?_ hsize
      have : 0 ≤ (N : ℚ) * (|lo| + |hi| + 1) := by positivity
      linarith
  have S2 : 1 / 2 ^ 20 ≤ S := by
    have h1 : (1 : ℚ) ≤ N * K := by
      have := mul_le_mul N0 K1 zero_le_one (by linarith)
      linarith
    have h2 : 11 / 10 ^ 7 ≤ degreeError c c' n m δ η := degreeError_ge c c' n m d0 η0
    have h3 := mul_le_mul h1 h2 (by norm_num) (by linarith)
    norm_num at h3 ⊢
    linarith
  obtain ⟨h1, r, h2, h3, h4⟩ := mamdani_process_partial (accurate lib1 lib2) eb eo ben ba hen hdef hc hd hc' hd' bc bd bi hagg hw d0 η0 hr H hW hsize hlo hhi hx τ hτ hM hK rfl hS S0
    (by linarith) (by
      have h1 : 2 * (|lo| + |hi| + 2) * 2 ^ (-1075 : ℤ) ≤ 6 * (|lo| + |hi|) * (2 : ℚ) ^ (-100 : ℤ) :=
        mul_le_mul (by linarith) ν1 ν0 (by positivity)
      have h2 : (2 : ℚ) ^ (-53 : ℤ) * (|lo| + |hi|) * (1 / 2 ^ 20) ≤ ((2 : ℚ) ^ (-53 : ℤ) * (|lo| + |hi|) + 2 ^ (-1075 : ℤ)) * S :=
        mul_le_mul (by linarith) S2 (by positivity) (by positivity)
      refine le_trans (h1.trans ?_) h2
      norm_num
      linarith)
  refine ⟨h1, r, h2, h3, h4.mono (add_le_add ?_ ?_)⟩
  · have h4 : (2 : ℚ) ^ (-53 : ℤ) * (|lo| + |hi|) + 2 ^ (-1075 : ℤ) ≤ 12 / 10 ^ 17 * (|lo| + |hi|) := by
      have h5 := mul_le_mul_of_nonneg_right hu L0
      have h6 := mul_le_mul_of_nonneg_left large ν0
      linarith
    have h5 := mul_le_mul_of_nonneg_left h4 (show (0 : ℚ) ≤ 18 * N by linarith)
    refine h5.trans ?_
    have e : 18 * (N : ℚ) * (12 / 10 ^ 17 * (|lo| + |hi|)) = 216 / 10 ^ 17 * (N * (|lo| + |hi|)) := by ring
    rw [e, div_eq_mul_inv ((N : ℚ) * (|lo| + |hi|)), _root_.mul_comm ((N : ℚ) * (|lo| + |hi|))]
    exact mul_le_mul_of_nonneg_right (by norm_num) (by positivity)
  · refine div_le_div_of_nonneg_right ?_ S0.le
    refine mul_le_mul_of_nonneg_right ?_ L0
    linarith

end double

namespace Demo

/-- y is from 0 to 4; small decreases and large increases -/
def power : OutputVariable (Flt dbl) :=
  { OutputVariable.new (cs! "y") (lit 0) (lit 4) [term (cs! "small") (.ramp (lit 3) (lit 0)), term (cs! "large") (.triangle (lit 1) (lit 3) (lit 4))] with
    defuzzifier := some (.integral .centroid 4)
    fuzzy := ⟨cs! "y", lit 0, lit 4, some (.builtin .maximum), []⟩ }

/-- if x is low then y is small; if x is not low then y is large -/
def control : RuleBlock (Flt dbl) :=
  { RuleBlock.new [] with
    conjunction := some (.builtin .minimum)
    disjunction := some (.builtin .maximum)
    implication := some (.builtin .algebraicProduct)
    rules := [conclude [] 0 0, conclude [.builtin .not] 0 1] }

def mamdani : Engine (Flt dbl) := ⟨[], [], [input], [power], [control]⟩

def begin : World (Flt dbl) := ⟨[input], [{ power with fuzzy := { power.fuzzy with terms := [] } }]⟩

/-- the exact degrees of the terms of y -/
def smallLarge (j : ℕ) (x : Flt dbl) : ℚ := if j = 0 then rampExact 3 0 (toRat x) else trapezoidExact 1 3 3 4 (toRat x)

/-- the exact fuzzy output -/
def powerExact (x : Flt dbl) : ℚ := outputExact (· * ·) max power (fun j => smallLarge j x) (ruleExact begin lowHigh min max) control.rules

/-- the four points of y -/
def point (k : ℕ) : Flt dbl := sample power.minimum power.maximum 4 k

local instance : Heap (Flt dbl) := RuleBlock.stableHeap _

/-- in exact arithmetic: the points are 1/2, 3/2, 5/2 and 7/2, and the output is 143/94 -/
example : (List.range 4).map (fun k => toRat (point k)) = [1 / 2, 3 / 2, 5 / 2, 7 / 2] ∧
    (List.range 4).map (fun k => powerExact (point k)) = [5 / 9, 1 / 3, 1 / 4, 1 / 6] ∧
    ((List.range 4).map fun k => powerExact (point k) * toRat (point k)).sum / (47 / 36) = 143 / 94 := by decide +kernel

/-- what is computed -/
example : (mamdani.process.1.outputValues.map fun y => decide (|toRat y - 143 / 94| ≤ 1 / 10 ^ 15)) = [true] := by decide +kernel

theorem control_check (y : Nat) (hy : y < 2) (hs : List (Hedge (Flt dbl))) (h : hs = [] ∨ hs = [.builtin .not]) :
    Precise begin lowHigh 1 1 (1 / 10 ^ 15) 0 power (conclude hs 0 y) := by
  refine ⟨rfl, ⟨_, rfl, fun p hp => ?_, le_rfl, fun p hp => ?_⟩, by show Degree (lit 1 : Flt dbl); decide +kernel, ?_⟩
  · simp only [Expr.props, List.mem_singleton] at hp
    rw [hp]
    exact ⟨0, rfl⟩
  · simp only [Expr.props, List.mem_singleton] at hp
    rw [hp]
    obtain ⟨h1, h2, h3, h4, h5, h6⟩ := fair_check 0 (by omega) hs h
    exact ⟨h1, h2, h3, h4, h5, h6⟩
  · have : y = 0 ∨ y = 1 := by omega
    rcases this with rfl | rfl <;> exact ⟨_, _, rfl, rfl⟩

theorem smallLarge_check (j : ℕ) (t : Term (Flt dbl)) (h : power.terms[j]? = some t) (k : ℕ) (hk : k < 4) :
    (0 ≤ smallLarge j (point k) ∧ smallLarge j (point k) ≤ 1) ∧ ∃ v, t.membership begin.ctx (point k) = .ok v ∧ Close (smallLarge j (point k)) (1 / 10 ^ 15) v := by
  have hj : j < 2 := by
    by_contra hge
    have : power.terms[j]? = none := List.getElem?_eq_none (by show 2 ≤ j; omega)
    rw [this] at h
    cases h
  have : k = 0 ∨ k = 1 ∨ k = 2 ∨ k = 3 := by omega
  have hj' : j = 0 ∨ j = 1 := by omega
  rcases hj' with rfl | rfl <;> cases h <;> rcases this with rfl | rfl | rfl | rfl <;>
    exact ⟨by decide +kernel, _, rfl, by decide +kernel, near_check (by decide +kernel) (by decide +kernel)⟩

/-- the theorem applies to the engine: the output is 143/94 up to a few parts in ten thousand -/
example : ∃ r, mamdani.process.1.outputValues = [r] ∧ Near (143 / 94) (2 / 10 ^ 4) r := by
  have r4 : dbl.Rep 4 := rep_int 4 (by norm_num)
  have h := (mamdani_double_partial _ _ (e := mamdani) (b := control) (o := power) (N := 4) rfl rfl rfl (Or.inl rfl) rfl rfl
    (c := .minimum) (c' := .algebraicProduct) (d := .maximum) (d' := .maximum) rfl rfl rfl rfl rfl rfl rfl rfl (w := begin) rfl
    (μ := lowHigh) (n := 1) (m := 1) (δ := 1 / 10 ^ 15) (η := 1 / 10 ^ 15) (by norm_num) (by norm_num)
    (fun r hr => by
      simp only [control, List.mem_cons, List.not_mem_nil, or_false] at hr
      rcases hr with rfl | rfl
      · exact control_check 0 (by omega) _ (Or.inl rfl)
      · exact control_check 1 (by omega) _ (Or.inr rfl))
    (lo := 0) (hi := 4) (rl := rep_zero) (rh := r4) (lit_rep _) (lit_rep _) (by omega) (by omega) (by norm_num) (by rw [abs_zero]; positivity)
    (le_trans (b := 2 ^ (2 : ℤ)) (by norm_num) (zpow_le_zpow_right₀ (by norm_num) (by norm_num))) (by norm_num)
    (x := point) (fun _ => rfl) smallLarge smallLarge_check (M := powerExact) (fun _ => rfl) (K := 2) rfl (S := 47 / 36) (by decide +kernel)
    (by norm_num) (by decide +kernel)).2
  obtain ⟨r, h1, -, h2⟩ := h
  have e : ((List.range 4).map fun k => powerExact (point k) * toRat (point k)).sum / (47 / 36) = 143 / 94 := by decide +kernel
  rw [e] at h2
  exact ⟨r, h1, h2.mono (by decide +kernel)⟩

/-- an engine with the single rule: if x is high then y is large, for x = 3 / 2^21 -/
def dim : Engine (Flt dbl) :=
  { mamdani with
    inputs := [{ input with value := lit (3 / 2 ^ 21) }]
    blocks := [{ control with rules := [conclude [] 1 1] }] }

end Demo

/-- The degrees have to be above the tolerance: with one rule with a positive degree the centre exists and does not
depend on this degree, but nothing is computed when the degree is below the tolerance. -/
theorem mamdani_violated :
    (Demo.dim.blocks.map fun b => (List.range 4).map fun k => outputExact (· * ·) max Demo.power (fun j => Demo.smallLarge j (Demo.point k))
      (ruleExact ⟨Demo.dim.inputs, Demo.dim.outputs⟩ (fun _ _ => rampExact 0 3 (3 / 2 ^ 21)) min max) b.rules) =
      [[0, 1 / 4 / 2 ^ 21, 3 / 4 / 2 ^ 21, 1 / 2 / 2 ^ 21]] ∧
    letI : Heap (Flt dbl) := RuleBlock.stableHeap _
    Demo.dim.process.2 = none ∧ Demo.dim.process.1.outputValues = [nan] := by
  decide +kernel

end Rounded
end FL
