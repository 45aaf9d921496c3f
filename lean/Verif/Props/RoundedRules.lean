/-
C86: the activation degrees of rules survive rounding.
-/
import Verif.Props.RoundedShape
import Verif.Props.RoundedDefuzzify

namespace FL
open Scalar

/-! ### the operators of mathematics -/

/-- the T-norms of mathematics that are continuous -/
def TNormKind.exact? : TNormKind → Option (ℚ → ℚ → ℚ)
  | .algebraicProduct => some fun a b => a * b
  | .boundedDifference => some fun a b => max 0 (a + b - 1)
  | .einsteinProduct => some fun a b => a * b / (1 + (1 - a) * (1 - b))
  | .hamacherProduct => some fun a b => a * b / (a + b - a * b)
  | .minimum => some min
  | _ => none

/-- the S-norms of mathematics that are continuous -/
def SNormKind.exact? : SNormKind → Option (ℚ → ℚ → ℚ)
  | .algebraicSum => some fun a b => 1 - (1 - a) * (1 - b)
  | .boundedSum => some fun a b => min 1 (a + b)
  | .einsteinSum => some fun a b => (a + b) / (1 + a * b)
  | .maximum => some max
  | .normalizedSum => some fun a b => min 1 (a + b)
  | _ => none

/-- the hedges of mathematics without square roots -/
def HedgeKind.exact? : HedgeKind → Option (ℚ → ℚ)
  | .any => some fun _ => 1
  | .extremely => some fun x => if x ≤ 1 / 2 then 2 * x ^ 2 else 1 - 2 * (1 - x) ^ 2
  | .not => some fun x => 1 - x
  | .very => some fun x => x ^ 2
  | _ => none

/-- the hedge of a proposition as a function of mathematics; hedges without one leave degrees as they are here, and are
excluded below -/
def Hedge.exact {S : Type} : Hedge S → ℚ → ℚ
  | .builtin k => k.exact?.getD id
  | _ => id

/-- a ramp from 0 at `s` to 1 at `e` -/
def rampExact (s e x : ℚ) : ℚ := max 0 (min 1 ((x - s) / (e - s)))

/-- a trapezoid, which is a triangle if `b = c` -/
def trapezoidExact (a b c d x : ℚ) : ℚ :=
  if x < a ∨ d < x then 0 else if x < b then (x - a) / (b - a) else if c < x then (d - x) / (d - c) else 1

/-- the degree of a proposition in exact arithmetic, given the exact degrees of the terms -/
def Proposition.exact {S : Type} (w : World S) (μ : VarRef → Option Nat → ℚ) (p : Proposition S) : ℚ :=
  if w.isEnabled p.var = some true then p.hedges.foldr Hedge.exact (μ p.var p.term) else 0

/-- the degree of an antecedent in exact arithmetic, with the functions of the norms -/
def Expr.exact {S : Type} (w : World S) (μ : VarRef → Option Nat → ℚ) (f g : ℚ → ℚ → ℚ) : Expr S → ℚ
  | .prop p => p.exact w μ
  | .conj l r => f (l.exact w μ f g) (r.exact w μ f g)
  | .disj l r => g (l.exact w μ f g) (r.exact w μ f g)

namespace Rounded
open Flt Format
variable {ρ : Format} {u ν Ω : ℚ}

/-- changes of the arguments change the result by at most their sum -/
def Lipschitz (f : ℚ → ℚ → ℚ) : Prop := ∀ a a' b b', 0 ≤ a → a ≤ 1 → 0 ≤ a' → a' ≤ 1 → 0 ≤ b → b ≤ 1 → 0 ≤ b' → b' ≤ 1 →
  |f a' b' - f a b| ≤ |a' - a| + |b' - b|

theorem lipschitz_of {f : ℚ → ℚ → ℚ} (hc : ∀ a b, f a b = f b a)
    (h : ∀ a a' b, 0 ≤ a → a ≤ 1 → 0 ≤ a' → a' ≤ 1 → 0 ≤ b → b ≤ 1 → |f a' b - f a b| ≤ |a' - a|) : Lipschitz f := by
  intro a a' b b' a0 a1 a0' a1' b0 b1 b0' b1'
  have h1 := h a a' b' a0 a1 a0' a1' b0' b1'
  have h2 := h b b' a b0 b1 b0' b1' a0 a1
  rw [hc b' a, hc b a] at h2
  have : f a' b' - f a b = (f a' b' - f a b') + (f a b' - f a b) := by ring
  rw [this]
  exact (abs_add_le _ _).trans (add_le_add h1 h2)

/-- a change that is scaled down -/
theorem scaled {d k x : ℚ} (h : x = d * k) (k0 : 0 ≤ k) (k1 : k ≤ 1) : |x| ≤ |d| := by
  rw [h, abs_mul, abs_of_nonneg k0]
  exact mul_le_of_le_one_right (abs_nonneg _) k1

theorem tnorm_lipschitz {k : TNormKind} {f : ℚ → ℚ → ℚ} (h : k.exact? = some f) : Lipschitz f := by
  cases k <;> simp only [TNormKind.exact?, Option.some.injEq, reduceCtorEq] at h <;> subst h
  · exact lipschitz_of (fun a b => mul_comm a b) fun a a' b _ _ _ _ b0 b1 => scaled (k := b) (by ring) b0 b1
  · refine lipschitz_of (fun a b => by rw [add_comm a b]) fun a a' b _ _ _ _ b0 b1 => ?_
    rw [max_comm 0, max_comm 0]
    refine (abs_max_sub_max_le_abs _ _ _).trans (le_of_eq ?_)
    congr 1; ring
  · refine lipschitz_of (fun a b => by rw [mul_comm a b, _root_.mul_comm (1 - a)]) fun a a' b a0 a1 a0' a1' b0 b1 => ?_
    have p1 : 0 ≤ (1 - a) * (1 - b) := mul_nonneg (by linarith) (by linarith)
    have p2 : 0 ≤ (1 - a') * (1 - b) := mul_nonneg (by linarith) (by linarith)
    have D0 : 1 ≤ (1 + (1 - a) * (1 - b)) * (1 + (1 - a') * (1 - b)) := by nlinarith
    refine scaled (k := b * (2 - b) / ((1 + (1 - a) * (1 - b)) * (1 + (1 - a') * (1 - b)))) ?_ ?_ ?_
    · rw [div_sub_div _ _ (by linarith) (by linarith), ← mul_div_assoc, div_eq_div_iff (by nlinarith) (by nlinarith)]
      ring
    · exact div_nonneg (mul_nonneg b0 (by linarith)) (by linarith)
    · rw [div_le_one (by linarith)]
      nlinarith [sq_nonneg (1 - b)]
  · refine lipschitz_of (fun a b => by rw [mul_comm a b, add_comm a b]) fun a a' b a0 a1 a0' a1' b0 b1 => ?_
    rcases b0.eq_or_lt with rfl | b0
    · simp
    · have p1 : 0 ≤ a * (1 - b) := mul_nonneg a0 (by linarith)
      have p2 : 0 ≤ a' * (1 - b) := mul_nonneg a0' (by linarith)
      have D1 : b ≤ a + b - a * b := by linarith
      have D2 : b ≤ a' + b - a' * b := by linarith
      have D0 : b * b ≤ (a + b - a * b) * (a' + b - a' * b) := mul_le_mul D1 D2 b0.le (by linarith)
      have bb : 0 < b * b := mul_pos b0 b0
      refine scaled (k := b * b / ((a + b - a * b) * (a' + b - a' * b))) ?_ ?_ ?_
      · rw [div_sub_div _ _ (by linarith) (by linarith), ← mul_div_assoc, div_eq_div_iff (by nlinarith) (by nlinarith)]
        ring
      · exact div_nonneg bb.le (by linarith)
      · rw [div_le_one (by linarith)]
        exact D0
  · intro a a' b b' _ _ _ _ _ _ _ _
    exact (abs_min_sub_min_le_max _ _ _ _).trans (max_le (by linarith [abs_nonneg (b' - b)]) (by linarith [abs_nonneg (a' - a)]))

theorem snorm_lipschitz {k : SNormKind} {f : ℚ → ℚ → ℚ} (h : k.exact? = some f) : Lipschitz f := by
  have bounded : Lipschitz fun a b => min 1 (a + b) := by
    refine lipschitz_of (fun a b => by rw [add_comm a b]) fun a a' b _ _ _ _ b0 b1 => ?_
    refine (abs_min_sub_min_le_max _ _ _ _).trans (max_le (by simp) (le_of_eq ?_))
    congr 1; ring
  cases k <;> simp only [SNormKind.exact?, Option.some.injEq, reduceCtorEq] at h <;> subst h
  · exact lipschitz_of (fun a b => by rw [_root_.mul_comm (1 - a)]) fun a a' b _ _ _ _ b0 b1 =>
      scaled (k := 1 - b) (by ring) (by linarith) (by linarith)
  · exact bounded
  · refine lipschitz_of (fun a b => by rw [mul_comm a b, add_comm a b]) fun a a' b a0 a1 a0' a1' b0 b1 => ?_
    have p1 : 0 ≤ a * b := mul_nonneg a0 b0
    have p2 : 0 ≤ a' * b := mul_nonneg a0' b0
    have D0 : 1 ≤ (1 + a * b) * (1 + a' * b) := by nlinarith
    refine scaled (k := (1 - b) * (1 + b) / ((1 + a * b) * (1 + a' * b))) ?_ ?_ ?_
    · rw [div_sub_div _ _ (by linarith) (by linarith), ← mul_div_assoc, div_eq_div_iff (by nlinarith) (by nlinarith)]
      ring
    · exact div_nonneg (mul_nonneg (by linarith) (by linarith)) (by linarith)
    · rw [div_le_one (by linarith)]
      nlinarith [sq_nonneg b]
  · intro a a' b b' _ _ _ _ _ _ _ _
    exact (abs_max_sub_max_le_max _ _ _ _).trans (max_le (by linarith [abs_nonneg (b' - b)]) (by linarith [abs_nonneg (a' - a)]))
  · exact bounded

/-! ### rounding -/

section
variable (F : ρ.Fine u ν Ω) (hΩ : 4 ≤ Ω)
include F hΩ

/-- the error of a number up to `m` -/
theorem error_le {m x : ℚ} (h : |x| ≤ m) (m1 : 1 ≤ m) (m4 : m ≤ 4) : |ρ.r x - x| ≤ m * (u + ν) := by
  have h1 := (F.err x (h.trans (m4.trans hΩ))).2
  have h2 := mul_le_mul_of_nonneg_right h F.u0
  have h3 := mul_le_mul_of_nonneg_right m1 F.ν0
  linarith

/-- the errors of operands add up -/
theorem error_of {m x y E : ℚ} (h : |x| ≤ m) (m1 : 1 ≤ m) (m4 : m ≤ 4) (hE : |x - y| ≤ E) :
    |ρ.r x - y| ≤ E + m * (u + ν) := by
  have h1 := error_le F hΩ h m1 m4
  have : ρ.r x - y = (ρ.r x - x) + (x - y) := by ring
  rw [this]
  have := abs_add_le (ρ.r x - x) (x - y)
  linarith

omit hΩ F in
theorem quotient_error {p d P D E G : ℚ} (d1 : 1 ≤ d) (D1 : 1 ≤ D) (P0 : 0 ≤ P) (P1 : P ≤ D) (hp : |p - P| ≤ E) (hd : |d - D| ≤ G) :
    |p / d - P / D| ≤ E + G := by
  have e : p / d - P / D = (p - P) / d + P / D * ((D - d) / d) := by
    field_simp
    ring
  rw [e]
  have h1 : |(p - P) / d| ≤ E := by
    rw [abs_div, abs_of_pos (show 0 < d by linarith), div_le_iff₀ (by linarith)]
    have := abs_nonneg (p - P)
    nlinarith
  have h2 : |P / D * ((D - d) / d)| ≤ G := by
    rw [abs_mul, abs_div (D - d), abs_of_pos (show 0 < d by linarith), _root_.abs_sub_comm, abs_of_nonneg (div_nonneg P0 (by linarith))]
    have q1 : P / D ≤ 1 := (div_le_one (by linarith)).2 P1
    have q0 : 0 ≤ P / D := div_nonneg P0 (by linarith)
    have g1 : |d - D| / d ≤ G := by
      rw [div_le_iff₀ (by linarith)]
      have := abs_nonneg (d - D)
      nlinarith
    have g0 : 0 ≤ |d - D| / d := div_nonneg (abs_nonneg _) (by linarith)
    nlinarith
  exact (abs_add_le _ _).trans (add_le_add h1 h2)

theorem tnorm_round (ht : ρ.Tight) {k : TNormKind} {f : ℚ → ℚ → ℚ} (hk : k.exact? = some f) (hh : k ≠ .hamacherProduct) {a b : ℚ}
    (ra : ρ.Rep a) (rb : ρ.Rep b) (a0 : 0 ≤ a) (a1 : a ≤ 1) (b0 : 0 ≤ b) (b1 : b ≤ 1) : Near (f a b) (10 * (u + ν)) (k.compute (of a ra) (of b rb)) := by
  have w0 : 0 ≤ u + ν := add_nonneg F.u0 F.ν0
  have p0 : 0 ≤ a * b := mul_nonneg a0 b0
  have p1 : a * b ≤ 1 := by nlinarith
  have rp := r01 (ρ := ρ) p0 p1
  have rs := r02 (ρ := ρ) (x := a + b) (by linarith) (by linarith)
  have ep : of a ra * of b rb = of (ρ.r (a * b)) (r_rep _) := mul_of ra rb (small_of (by linarith) (by linarith))
  have es : of a ra + of b rb = of (ρ.r (a + b)) (r_rep _) := add_of ra rb (small_of (by linarith) (by linarith))
  have dp := error_le F hΩ (x := a * b) (m := 1) (abs_le.2 ⟨by linarith, by linarith⟩) le_rfl (by norm_num)
  have ds := error_le F hΩ (x := a + b) (m := 2) (abs_le.2 ⟨by linarith, by linarith⟩) (by norm_num) (by norm_num)
  cases k <;> simp only [TNormKind.exact?, Option.some.injEq, reduceCtorEq] at hk <;> subst hk
  · exact ⟨_, _, ep, by linarith⟩
  · simp only [TNormKind.compute]
    rw [es, lit1, lit0, sub_of _ _ (small_of (by linarith) (by linarith))]
    obtain ⟨h, e⟩ := max_of (ρ := ρ) rep_zero (r_rep (ρ := ρ) (ρ.r (a + b) - 1))
    rw [e]
    refine ⟨_, h, rfl, ?_⟩
    have h1 := error_of F hΩ (x := ρ.r (a + b) - 1) (y := a + b - 1) (m := 1) (E := 2 * (u + ν)) (abs_le.2 ⟨by linarith, by linarith⟩) le_rfl
      (by norm_num) (by rw [sub_sub_sub_cancel_right]; exact ds)
    have h2 := abs_max_sub_max_le_abs (ρ.r (ρ.r (a + b) - 1)) (a + b - 1) 0
    rw [max_comm _ (0 : ℚ), max_comm _ (0 : ℚ)] at h2
    linarith
  · simp only [TNormKind.compute]
    rw [es, ep, sub_of _ _ (small_of (by linarith) (by linarith)), lit2]
    have htp := ht.prod a b ra rb a0 a1 b0 b1
    have ht1 : ρ.r (ρ.r (a + b) - ρ.r (a * b)) ≤ 1 := by
      have hs1 : ρ.r (a + b) ≤ ρ.r (1 + ρ.r (a * b)) := r_mono (small_of (by linarith) (by linarith)) (small_of (by linarith) (by linarith)) htp
      have hr1 := r02 (ρ := ρ) (x := 1 + ρ.r (a * b)) (by linarith) (by linarith)
      exact (r_mono (small_of (by linarith) (by linarith)) (small_of (by linarith) (by linarith)) (by linarith)).trans
        (ht.diff _ (r_rep _) rp.1 rp.2)
    have ht0 : -1 ≤ ρ.r (ρ.r (a + b) - ρ.r (a * b)) := by
      have := rep_neg (ρ := ρ) rep_one
      exact le_r (small_of (by norm_num) (by norm_num)) (small_of (by linarith) (by linarith)) this (by linarith)
    rw [sub_of rep_two (r_rep _) (small_of (by linarith) (by linarith))]
    have e1 := error_of F hΩ (x := ρ.r (a + b) - ρ.r (a * b)) (y := a + b - a * b) (m := 2) (E := 3 * (u + ν)) (abs_le.2 ⟨by linarith, by linarith⟩)
      (by norm_num) (by norm_num) (by
        have := abs_sub (ρ.r (a + b) - (a + b)) (ρ.r (a * b) - a * b)
        rw [show ρ.r (a + b) - ρ.r (a * b) - (a + b - a * b) = ρ.r (a + b) - (a + b) - (ρ.r (a * b) - a * b) by ring]
        linarith)
    set t := ρ.r (ρ.r (a + b) - ρ.r (a * b))
    have q0 : 0 ≤ (1 - a) * (1 - b) := mul_nonneg (by linarith) (by linarith)
    have e2 := error_of F hΩ (x := 2 - t) (y := 1 + (1 - a) * (1 - b)) (m := 3) (E := 5 * (u + ν)) (abs_le.2 ⟨by linarith, by linarith⟩)
      (by norm_num) (by norm_num) (by
        rw [show 2 - t - (1 + (1 - a) * (1 - b)) = -(t - (a + b - a * b)) by ring, abs_neg]
        linarith)
    have hd : 1 ≤ ρ.r (2 - t) :=
      le_r (small_of (by norm_num) (by norm_num)) (small_of (by linarith) (by linarith)) rep_one (by linarith)
    have hq : ρ.r (a * b) / ρ.r (2 - t) ≤ ρ.r (a * b) := div_le_self rp.1 hd
    have hq0 : 0 ≤ ρ.r (a * b) / ρ.r (2 - t) := div_nonneg rp.1 (by linarith)
    rw [div_of (r_rep _) (r_rep _) (by linarith) (small_of (by linarith) (by linarith))]
    have e3 := quotient_error hd (show (1 : ℚ) ≤ 1 + (1 - a) * (1 - b) by linarith) p0 (by linarith) dp e2
    have e4 := error_of F hΩ (x := ρ.r (a * b) / ρ.r (2 - t)) (m := 1) (abs_le.2 ⟨by linarith, by linarith⟩) le_rfl (by norm_num) e3
    exact ⟨_, _, rfl, by linarith⟩
  · exact absurd rfl hh
  · obtain ⟨h, e⟩ := min_of ra rb
    exact ⟨_, h, e, by simpa using w0⟩

theorem snorm_round (ht : ρ.Tight) {k : SNormKind} {f : ℚ → ℚ → ℚ} (hk : k.exact? = some f) {a b : ℚ} (ra : ρ.Rep a) (rb : ρ.Rep b)
    (a0 : 0 ≤ a) (a1 : a ≤ 1) (b0 : 0 ≤ b) (b1 : b ≤ 1) : Near (f a b) (10 * (u + ν)) (k.compute (of a ra) (of b rb)) := by
  have w0 : 0 ≤ u + ν := add_nonneg F.u0 F.ν0
  have p0 : 0 ≤ a * b := mul_nonneg a0 b0
  have p1 : a * b ≤ 1 := by nlinarith
  have rp := r01 (ρ := ρ) p0 p1
  have rs := r02 (ρ := ρ) (x := a + b) (by linarith) (by linarith)
  have ep : of a ra * of b rb = of (ρ.r (a * b)) (r_rep _) := mul_of ra rb (small_of (by linarith) (by linarith))
  have es : of a ra + of b rb = of (ρ.r (a + b)) (r_rep _) := add_of ra rb (small_of (by linarith) (by linarith))
  have dp := error_le F hΩ (x := a * b) (m := 1) (abs_le.2 ⟨by linarith, by linarith⟩) le_rfl (by norm_num)
  have ds := error_le F hΩ (x := a + b) (m := 2) (abs_le.2 ⟨by linarith, by linarith⟩) (by norm_num) (by norm_num)
  have dm : |min 1 (ρ.r (a + b)) - min 1 (a + b)| ≤ 2 * (u + ν) :=
    (abs_min_sub_min_le_max _ _ _ _).trans (max_le (by simpa using w0) ds)
  cases k <;> simp only [SNormKind.exact?, Option.some.injEq, reduceCtorEq] at hk <;> subst hk
  · simp only [SNormKind.compute]
    rw [es, ep, sub_of _ _ (small_of (by linarith) (by linarith))]
    have e1 := error_of F hΩ (x := ρ.r (a + b) - ρ.r (a * b)) (y := a + b - a * b) (m := 2) (E := 3 * (u + ν)) (abs_le.2 ⟨by linarith, by linarith⟩)
      (by norm_num) (by norm_num) (by
        have := abs_sub (ρ.r (a + b) - (a + b)) (ρ.r (a * b) - a * b)
        rw [show ρ.r (a + b) - ρ.r (a * b) - (a + b - a * b) = ρ.r (a + b) - (a + b) - (ρ.r (a * b) - a * b) by ring]
        linarith)
    refine ⟨_, _, rfl, ?_⟩
    rw [show 1 - (1 - a) * (1 - b) = a + b - a * b by ring]
    linarith
  · simp only [SNormKind.compute]
    rw [es, lit1]
    obtain ⟨h, e⟩ := min_of (ρ := ρ) rep_one (r_rep (ρ := ρ) (a + b))
    exact ⟨_, h, e, by linarith⟩
  · simp only [SNormKind.compute]
    have e1 := error_of F hΩ (x := 1 + ρ.r (a * b)) (y := 1 + a * b) (m := 2) (E := u + ν) (abs_le.2 ⟨by linarith, by linarith⟩)
      (by norm_num) (by norm_num) (by
        rw [add_sub_add_left_eq_sub]
        linarith)
    have hd : 1 ≤ ρ.r (1 + ρ.r (a * b)) :=
      le_r (small_of (by norm_num) (by norm_num)) (small_of (by linarith) (by linarith)) rep_one (by linarith)
    rw [es, ep, lit1, add_of _ _ (small_of (by linarith) (by linarith))]
    have hq0 : 0 ≤ ρ.r (a + b) / ρ.r (1 + ρ.r (a * b)) := div_nonneg rs.1 (by linarith)
    have hq : ρ.r (a + b) / ρ.r (1 + ρ.r (a * b)) ≤ ρ.r (a + b) := div_le_self rs.1 hd
    rw [div_of (r_rep _) (r_rep _) (by linarith) (small_of (by linarith) (by linarith))]
    have e3 := quotient_error hd (show (1 : ℚ) ≤ 1 + a * b by linarith) (add_nonneg a0 b0) (by nlinarith) ds e1
    have e4 := error_of F hΩ (x := ρ.r (a + b) / ρ.r (1 + ρ.r (a * b))) (m := 2) (abs_le.2 ⟨by linarith, by linarith⟩) (by norm_num) (by norm_num) e3
    exact ⟨_, _, rfl, by linarith⟩
  · obtain ⟨h, e⟩ := max_of ra rb
    exact ⟨_, h, e, by simpa using w0⟩
  · simp only [SNormKind.compute]
    rw [es, lit1]
    obtain ⟨h, e⟩ := max_of (ρ := ρ) rep_one (r_rep (ρ := ρ) (a + b))
    have hm : 1 ≤ max 1 (ρ.r (a + b)) := le_max_left _ _
    have hq : ρ.r (a + b) / max 1 (ρ.r (a + b)) = min 1 (ρ.r (a + b)) := by
      rcases le_total (ρ.r (a + b)) 1 with h | h
      · rw [max_eq_left h, min_eq_right h, div_one]
      · rw [max_eq_right h, min_eq_left h, div_self (by linarith)]
    have hr : ρ.Rep (min 1 (ρ.r (a + b))) := by
      rcases min_choice 1 (ρ.r (a + b)) with h | h <;> rw [h]
      · exact rep_one
      · exact r_rep _
    have m0 : 0 ≤ min 1 (ρ.r (a + b)) := le_min (by norm_num) rs.1
    have m1 : min 1 (ρ.r (a + b)) ≤ 1 := min_le_left _ _
    rw [e, div_of _ _ (by linarith) (small_of (by rw [hq]; linarith) (by rw [hq]; linarith))]
    refine ⟨_, _, rfl, ?_⟩
    rw [hq, r_of_rep hr]
    linarith

/-- HamacherProduct: the tolerance sets results below it to zero -/
theorem hamacher_round (hu : 32 * u ≤ 1) (hν : 8 * ν ≤ u * ρ.eps) {a b : ℚ} (ra : ρ.Rep a) (rb : ρ.Rep b)
    (a0 : 0 ≤ a) (a1 : a ≤ 1) (b0 : 0 ≤ b) (b1 : b ≤ 1) :
    Near (a * b / (a + b - a * b)) (20 * (u + ν) + ρ.eps) (TNormKind.hamacherProduct.compute (of a ra) (of b rb)) := by
  have u0 := F.u0
  have ν0 := F.ν0
  have e0 := ρ.eps_pos
  have p0 : 0 ≤ a * b := mul_nonneg a0 b0
  have pa : a * b ≤ a := by nlinarith
  have pb : a * b ≤ b := by nlinarith
  have rp := r01 (ρ := ρ) p0 (by linarith)
  have rs := r02 (ρ := ρ) (x := a + b) (by linarith) (by linarith)
  have ep : of a ra * of b rb = of (ρ.r (a * b)) (r_rep _) := mul_of ra rb (small_of (by linarith) (by linarith))
  have es : of a ra + of b rb = of (ρ.r (a + b)) (r_rep _) := add_of ra rb (small_of (by linarith) (by linarith))
  have dp := (F.err (a * b) (by rw [abs_of_nonneg p0]; linarith)).2
  have ds := (F.err (a + b) (by rw [abs_of_nonneg (by linarith)]; linarith)).2
  rw [abs_of_nonneg p0] at dp
  rw [abs_of_nonneg (show 0 ≤ a + b by linarith)] at ds
  have D2 : (a + b) / 2 ≤ a + b - a * b := by linarith
  have uA : (a + b) * u ≤ (a + b) * (1 / 32) := mul_le_mul_of_nonneg_left (by linarith) (by linarith)
  have uE : u * ρ.eps ≤ 1 / 32 * ρ.eps := mul_le_mul_of_nonneg_right (by linarith) e0.le
  simp only [TNormKind.compute]
  rw [es, lit0]
  have hg := isEq_of (ρ := ρ) (r_rep (a + b)) rep_zero (small_of (by linarith) (by linarith))
  rw [sub_zero, r_of_rep (r_rep _), abs_of_nonneg rs.1] at hg
  by_cases hz : ρ.r (a + b) < ρ.eps
  · rw [if_pos (hg.2 hz)]
    refine ⟨0, rep_zero, rfl, ?_⟩
    have hA : a + b ≤ 2 * ρ.eps := by linarith [(abs_le.1 ds).1]
    have v0 : 0 ≤ a * b / (a + b - a * b) := div_nonneg p0 (by linarith)
    have v1 : a * b / (a + b - a * b) ≤ ρ.eps := by
      rcases (show 0 ≤ a + b - a * b by linarith).eq_or_lt with h | h
      · rw [← h, div_zero]; exact e0.le
      · rw [div_le_iff₀ h]
        have : a * b * 2 ≤ (a + b) * (a + b - a * b) := by nlinarith [mul_nonneg a0 (show 0 ≤ 1 - b by linarith), mul_nonneg b0 (show 0 ≤ 1 - a by linarith), mul_nonneg p0 (show 0 ≤ 1 - b by linarith), mul_nonneg p0 (show 0 ≤ 1 - a by linarith), sq_nonneg (a - b), mul_nonneg a0 a0]
        nlinarith
    rw [zero_sub, abs_neg, abs_of_nonneg v0]
    linarith
  · rw [if_neg fun h => hz (hg.1 h), ep]
    rw [not_lt] at hz
    have hA : ρ.eps / 2 ≤ a + b := by linarith [(abs_le.1 ds).2]
    set P := a * b
    set D := a + b - P with hD
    have D0 : 0 < D := by linarith
    have νD : ν ≤ u * D / 2 := by
      have : u * (ρ.eps / 4) ≤ u * D := mul_le_mul_of_nonneg_left (by linarith) u0
      linarith
    have uA2 : (a + b) * u ≤ 2 * (u * D) := by nlinarith
    have uP : P * u ≤ u * D := by nlinarith
    have uD : u * D ≤ 1 / 32 * D := mul_le_mul_of_nonneg_right (by linarith) D0.le
    have s1 := abs_le.1 ds
    have s2 := abs_le.1 dp
    have sp : |ρ.r (a + b) - ρ.r P| ≤ 2 * D := abs_le.2 ⟨by linarith, by linarith⟩
    have D1 : D ≤ 1 := by
      have : 0 ≤ (1 - a) * (1 - b) := mul_nonneg (by linarith) (by linarith)
      simp only [hD]
      show a + b - a * b ≤ 1
      linarith
    rw [sub_of _ _ (small_of (by linarith [(abs_le.1 sp).1]) (by linarith [(abs_le.1 sp).2]))]
    have dd := (F.err (ρ.r (a + b) - ρ.r P) (by linarith)).2
    have dd2 : |ρ.r (a + b) - ρ.r P| * u ≤ 2 * D * u := mul_le_mul_of_nonneg_right sp u0
    have d1 := abs_le.1 dd
    set d := ρ.r (ρ.r (a + b) - ρ.r P)
    have hd : |d - D| ≤ 13 / 2 * (u * D) := abs_le.2 ⟨by linarith, by linarith⟩
    have hd' := abs_le.1 hd
    have hd0 : 3 / 4 * D ≤ d := by linarith
    have dpos : 0 < d := by linarith
    have hv : |ρ.r P / d - P / D| ≤ 11 * u := by
      have e : ρ.r P / d - P / D = ((ρ.r P - P) + P / D * (D - d)) / d := by
        field_simp
        ring
      rw [e, abs_div, abs_of_pos dpos, div_le_iff₀ dpos]
      have q1 : P / D ≤ 1 := (div_le_one D0).2 (by linarith)
      have q0 : 0 ≤ P / D := div_nonneg p0 D0.le
      have h1 : |P / D * (D - d)| ≤ 13 / 2 * (u * D) := by
        rw [abs_mul, abs_of_nonneg q0, _root_.abs_sub_comm]
        exact (mul_le_of_le_one_left (abs_nonneg _) q1).trans hd
      have h2 := abs_add_le (ρ.r P - P) (P / D * (D - d))
      have h3 : u * (3 / 4 * D) ≤ u * d := mul_le_mul_of_nonneg_left hd0 u0
      have h4 : 0 ≤ u * D := mul_nonneg u0 D0.le
      linarith
    have q1 : P / D ≤ 1 := (div_le_one D0).2 (by linarith)
    have q0 : 0 ≤ P / D := div_nonneg p0 D0.le
    have hv' := abs_le.1 hv
    rw [div_of _ _ dpos.ne' (small_of (by linarith) (by linarith))]
    refine ⟨_, _, rfl, ?_⟩
    have := error_of F hΩ (x := ρ.r P / d) (m := 2) (abs_le.2 ⟨by linarith, by linarith⟩) (by norm_num) (by norm_num) hv
    linarith

end

/-! ### degrees and their errors -/

/-- a truth degree at a distance of at most `E` from `c` -/
def Close (c E : ℚ) (x : Flt ρ) : Prop := Degree x ∧ Near c E x

theorem Close.mono {c E E' : ℚ} {x : Flt ρ} (h : Close c E x) (hE : E ≤ E') : Close c E' x := ⟨h.1, h.2.mono hE⟩

theorem Close.cases {c E : ℚ} {x : Flt ρ} (h : Close c E x) : ∃ q, ∃ hq : ρ.Rep q, x = of q hq ∧ 0 ≤ q ∧ q ≤ 1 ∧ |q - c| ≤ E := by
  obtain ⟨h1, q, hq, rfl, h2⟩ := h
  obtain ⟨q', hq', e, a, b⟩ := degree_iff.1 h1
  rw [of_inj] at e
  subst e
  exact ⟨q, hq, rfl, a, b, h2⟩

/-- Rounding is accurate, and tight on truth degrees (proved for `double`). -/
structure Accurate (ρ : Format) (u ν Ω : ℚ) : Prop extends ρ.Fine u ν Ω where
  tight : ρ.Tight
  big : 2147483648 ≤ Ω
  hu : 32 * u ≤ 1
  hν : 8 * ν ≤ u * ρ.eps
  heps : ρ.eps ≤ 1 / 5

theorem Accurate.hΩ (A : Accurate ρ u ν Ω) : 4 ≤ Ω := le_trans (by norm_num) A.big

/-- what a norm adds to the errors of its arguments: some roundings and, for HamacherProduct, the tolerance -/
def TNormKind.slack (ρ : Format) (u ν : ℚ) (k : TNormKind) : ℚ := 20 * (u + ν) + if k = .hamacherProduct then ρ.eps else 0

theorem tnorm_unit {k : TNormKind} {f : ℚ → ℚ → ℚ} (h : k.exact? = some f) {a b : ℚ}
    (a0 : 0 ≤ a) (a1 : a ≤ 1) (b0 : 0 ≤ b) (b1 : b ≤ 1) : 0 ≤ f a b ∧ f a b ≤ 1 := by
  have p0 : 0 ≤ a * b := mul_nonneg a0 b0
  have pa : a * b ≤ a := by nlinarith
  have pb : a * b ≤ b := by nlinarith
  have q0 : 0 ≤ (1 - a) * (1 - b) := mul_nonneg (by linarith) (by linarith)
  cases k <;> simp only [TNormKind.exact?, Option.some.injEq, reduceCtorEq] at h <;> subst h
  · exact ⟨p0, by linarith⟩
  · exact ⟨le_max_left _ _, max_le (by norm_num) (by linarith)⟩
  · exact ⟨div_nonneg p0 (by linarith), div_le_one_of_le₀ (by linarith) (by linarith)⟩
  · exact ⟨div_nonneg p0 (by linarith), div_le_one_of_le₀ (by linarith) (by linarith)⟩
  · exact ⟨le_min a0 b0, (min_le_left _ _).trans a1⟩

theorem snorm_unit {k : SNormKind} {f : ℚ → ℚ → ℚ} (h : k.exact? = some f) {a b : ℚ}
    (a0 : 0 ≤ a) (a1 : a ≤ 1) (b0 : 0 ≤ b) (b1 : b ≤ 1) : 0 ≤ f a b ∧ f a b ≤ 1 := by
  have p0 : 0 ≤ a * b := mul_nonneg a0 b0
  have q0 : 0 ≤ (1 - a) * (1 - b) := mul_nonneg (by linarith) (by linarith)
  have q1 : (1 - a) * (1 - b) ≤ 1 := by nlinarith
  cases k <;> simp only [SNormKind.exact?, Option.some.injEq, reduceCtorEq] at h <;> subst h
  · exact ⟨by linarith, by linarith⟩
  · exact ⟨le_min (by norm_num) (by linarith), min_le_left _ _⟩
  · exact ⟨div_nonneg (by linarith) (by linarith), div_le_one_of_le₀ (by linarith) (by linarith)⟩
  · exact ⟨a0.trans (le_max_left _ _), max_le a1 b1⟩
  · exact ⟨le_min (by norm_num) (by linarith), min_le_left _ _⟩

section
variable (A : Accurate ρ u ν Ω)
include A

/-- **C86.**  Continuous T-norms of degrees with errors: the errors add up, with a few roundings. -/
theorem tnorm_near {k : TNormKind} {f : ℚ → ℚ → ℚ} (hk : k.exact? = some f) {a b α β : ℚ} {x y : Flt ρ}
    (a0 : 0 ≤ a) (a1 : a ≤ 1) (b0 : 0 ≤ b) (b1 : b ≤ 1) (hx : Close a α x) (hy : Close b β y) :
    Close (f a b) (α + β + TNormKind.slack ρ u ν k) (k.compute x y) := by
  refine ⟨(tnorm_degree A.tight k x y hx.1 hy.1).1, ?_⟩
  obtain ⟨p, hp, rfl, p0, p1, ep⟩ := hx.cases
  obtain ⟨q, hq, rfl, q0, q1, eq⟩ := hy.cases
  have hl := tnorm_lipschitz hk a p b q a0 a1 p0 p1 b0 b1 q0 q1
  have w0 : 0 ≤ u + ν := add_nonneg A.u0 A.ν0
  have hr : Near (f p q) (TNormKind.slack ρ u ν k) (k.compute (of p hp) (of q hq)) := by
    unfold TNormKind.slack
    by_cases hh : k = .hamacherProduct
    · subst hh
      simp only [TNormKind.exact?, Option.some.injEq] at hk
      subst hk
      rw [if_pos rfl]
      exact hamacher_round A.toFine A.hΩ A.hu A.hν hp hq p0 p1 q0 q1
    · rw [if_neg hh]
      exact (tnorm_round A.toFine A.hΩ A.tight hk hh hp hq p0 p1 q0 q1).mono (by linarith)
  obtain ⟨z, hz, e, hd⟩ := hr
  refine ⟨z, hz, e, ?_⟩
  have := abs_sub_le z (f p q) (f a b)
  linarith

/-- **C86.**  Continuous S-norms of degrees with errors. -/
theorem snorm_near {k : SNormKind} {f : ℚ → ℚ → ℚ} (hk : k.exact? = some f) {a b α β : ℚ} {x y : Flt ρ}
    (a0 : 0 ≤ a) (a1 : a ≤ 1) (b0 : 0 ≤ b) (b1 : b ≤ 1) (hx : Close a α x) (hy : Close b β y) :
    Close (f a b) (α + β + 20 * (u + ν)) (k.compute x y) := by
  have hne : k ≠ .hamacherSum ∧ k ≠ .unboundedSum := by
    constructor <;> rintro rfl <;> simp [SNormKind.exact?] at hk
  refine ⟨(snorm_degree A.tight k x y hx.1 hy.1).1 hne.1 hne.2, ?_⟩
  obtain ⟨p, hp, rfl, p0, p1, ep⟩ := hx.cases
  obtain ⟨q, hq, rfl, q0, q1, eq⟩ := hy.cases
  have hl := snorm_lipschitz hk a p b q a0 a1 p0 p1 b0 b1 q0 q1
  have w0 : 0 ≤ u + ν := add_nonneg A.u0 A.ν0
  obtain ⟨z, hz, e, hd⟩ := snorm_round A.toFine A.hΩ A.tight hk hp hq p0 p1 q0 q1
  refine ⟨z, hz, e, ?_⟩
  have := abs_sub_le z (f p q) (f a b)
  linarith

omit A in
theorem hedge_unit {k : HedgeKind} {g : ℚ → ℚ} (h : k.exact? = some g) {x : ℚ} (x0 : 0 ≤ x) (x1 : x ≤ 1) : 0 ≤ g x ∧ g x ≤ 1 := by
  cases k <;> simp only [HedgeKind.exact?, Option.some.injEq, reduceCtorEq] at h <;> subst h
  · exact ⟨by norm_num, le_rfl⟩
  · simp only
    split_ifs with hx
    · exact ⟨by positivity, by nlinarith⟩
    · rw [not_le] at hx
      exact ⟨by nlinarith, by nlinarith [sq_nonneg (1 - x)]⟩
  · exact ⟨by linarith, by linarith⟩
  · exact ⟨by positivity, by nlinarith⟩

omit A in
theorem hedge_lipschitz {k : HedgeKind} {g : ℚ → ℚ} (h : k.exact? = some g) {x y : ℚ} (x0 : 0 ≤ x) (x1 : x ≤ 1) (y0 : 0 ≤ y) (y1 : y ≤ 1) :
    |g y - g x| ≤ 2 * |y - x| := by
  cases k <;> simp only [HedgeKind.exact?, Option.some.injEq, reduceCtorEq] at h <;> subst h
  · simp
  · -- the two parabolas join at 1/2, where both have slope 2
    have key : ∀ x y : ℚ, 0 ≤ x → x ≤ y → y ≤ 1 →
        |(if y ≤ 1 / 2 then 2 * y ^ 2 else 1 - 2 * (1 - y) ^ 2) - (if x ≤ 1 / 2 then 2 * x ^ 2 else 1 - 2 * (1 - x) ^ 2)| ≤ 2 * |y - x| := by
      intro x y x0 xy y1
      rw [abs_of_nonneg (sub_nonneg.2 xy), abs_le]
      split_ifs with h1 h2 h2
      · constructor <;> nlinarith
      · exact absurd (xy.trans h1) h2
      · rw [not_le] at h1
        constructor <;> nlinarith
      · rw [not_le] at h1 h2
        constructor <;> nlinarith
    rcases le_total x y with h | h
    · exact key x y x0 h y1
    · rw [_root_.abs_sub_comm, _root_.abs_sub_comm y]
      exact key y x y0 h x1
  · rw [show 1 - y - (1 - x) = -(y - x) by ring, abs_neg]
    linarith [abs_nonneg (y - x)]
  · rw [show y ^ 2 - x ^ 2 = (y - x) * (y + x) by ring, abs_mul, abs_of_nonneg (show 0 ≤ y + x by linarith)]
    nlinarith [abs_nonneg (y - x)]

/-- what a hedge adds to twice the error of its argument -/
def hedgeSlack (ρ : Format) (u ν : ℚ) : ℚ := 10 * (u + ν) + 4 * ρ.eps ^ 2

theorem hedge_round {k : HedgeKind} {g : ℚ → ℚ} (hk : k.exact? = some g) {x : ℚ} (rx : ρ.Rep x) (x0 : 0 ≤ x) (x1 : x ≤ 1) :
    Close (g x) (hedgeSlack ρ u ν) (k.hedge (of x rx)) := by
  have w0 : 0 ≤ u + ν := add_nonneg A.u0 A.ν0
  have e0 := ρ.eps_pos
  have e2 : 0 ≤ ρ.eps ^ 2 := by positivity
  have F := A.toFine
  have hΩ := A.hΩ
  have hn := r01 (ρ := ρ) (x := 1 - x) (by linarith) (by linarith)
  have dn := error_le F hΩ (x := 1 - x) (m := 1) (abs_le.2 ⟨by linarith, by linarith⟩) le_rfl (by norm_num)
  have en : lit 1 - of x rx = of (ρ.r (1 - x)) (r_rep _) := by
    rw [lit1, sub_of _ _ (small_of (by linarith) (by linarith))]
  have double : ∀ y : ℚ, ∀ h : ρ.Rep y, 0 ≤ y → y ≤ 1 → ∃ h', lit 2 * of y h = of (2 * y) h' := by
    intro y h h0 h1
    have h2 : ρ.Rep (2 * y) := ρ.rnd_double y (abs_le.2 ⟨by linarith, by linarith⟩) h
    refine ⟨h2, ?_⟩
    rw [lit2, mul_of _ _ (small_of (by linarith) (by linarith)), of_inj]
    exact r_of_rep h2
  cases k <;> simp only [HedgeKind.exact?, Option.some.injEq, reduceCtorEq] at hk <;> subst hk
  · exact ⟨degree_one, 1, rep_one, lit_rep rep_one, by simp [hedgeSlack]; positivity⟩
  · simp only [HedgeKind.hedge]
    by_cases hle : Op.isLE (of x rx) (lit (1 / 2)) = true
    · rw [if_pos hle]
      rw [litHalf, isLE_of _ _ (small_of (by linarith) (by linarith))] at hle
      have hx : x ≤ 1 / 2 + ρ.eps := by
        rcases hle with h | h
        · by_contra hc
          rw [not_le] at hc
          have he := A.heps
          have h1 := le_r (ρ := ρ) (x := ρ.eps) (y := x - 1 / 2) (small_of (by linarith) (by linarith)) (small_of (by linarith) (by linarith))
            rep_eps (by linarith)
          rw [abs_of_nonneg (by linarith)] at h
          linarith
        · linarith
      have he := A.heps
      obtain ⟨h2, e2'⟩ := double x rx x0 x1
      have b0 : 0 ≤ 2 * x * x := by positivity
      have b1 : 2 * x * x ≤ 1 := by nlinarith
      rw [e2', mul_of _ _ (small_of (by linarith) (by linarith))]
      have hd := r01 (ρ := ρ) b0 b1
      refine ⟨degree_of _ hd.1 hd.2, _, _, rfl, ?_⟩
      have h3 := error_of F hΩ (x := 2 * x * x) (y := if x ≤ 1 / 2 then 2 * x ^ 2 else 1 - 2 * (1 - x) ^ 2) (m := 1) (E := 4 * ρ.eps ^ 2)
        (abs_le.2 ⟨by linarith, by linarith⟩) le_rfl (by norm_num) (by
          split_ifs with h
          · rw [show 2 * x * x - 2 * x ^ 2 = 0 by ring, abs_zero]
            positivity
          · rw [not_le] at h
            rw [show 2 * x * x - (1 - 2 * (1 - x) ^ 2) = 4 * (x - 1 / 2) ^ 2 by ring, abs_of_nonneg (by positivity)]
            nlinarith)
      unfold hedgeSlack
      linarith
    · rw [if_neg hle]
      have hx5 : 1 / 2 ≤ x := by
        rw [litHalf, isLE_of _ _ (small_of (by linarith) (by linarith))] at hle
        push Not at hle
        exact hle.2
      have hy : ρ.r (1 - x) ≤ 1 / 2 :=
        r_le (small_of (by linarith) (by linarith)) (small_of (by norm_num) (by norm_num)) rep_half (by linarith)
      rw [en]
      obtain ⟨h2, e2'⟩ := double _ (r_rep _) hn.1 hn.2
      set y := ρ.r (1 - x)
      have b0 : 0 ≤ 2 * y * y := mul_nonneg (by linarith) hn.1
      have b1 : 2 * y * y ≤ 1 := by nlinarith [hn.1]
      rw [e2', mul_of _ _ (small_of (by linarith) (by linarith)), lit1]
      have hz := r01 (ρ := ρ) b0 b1
      rw [sub_of _ _ (small_of (by linarith) (by linarith))]
      have hd := r01 (ρ := ρ) (x := 1 - ρ.r (2 * y * y)) (by linarith) (by linarith)
      refine ⟨degree_of _ hd.1 hd.2, _, _, rfl, ?_⟩
      have h3 := error_of F hΩ (x := 2 * y * y) (y := 2 * (1 - x) ^ 2) (m := 1) (E := 2 * (u + ν))
        (abs_le.2 ⟨by linarith, by linarith⟩) le_rfl (by norm_num) (by
          rw [show 2 * y * y - 2 * (1 - x) ^ 2 = (y - (1 - x)) * (2 * (y + (1 - x))) by ring, abs_mul, abs_of_nonneg (a := 2 * (y + (1 - x))) (by linarith)]
          nlinarith [abs_nonneg (y - (1 - x))])
      have h4 := error_of F hΩ (x := 1 - ρ.r (2 * y * y)) (y := 1 - 2 * (1 - x) ^ 2) (m := 1) (E := 3 * (u + ν))
        (abs_le.2 ⟨by linarith, by linarith⟩) le_rfl (by norm_num) (by
          rw [show 1 - ρ.r (2 * y * y) - (1 - 2 * (1 - x) ^ 2) = -(ρ.r (2 * y * y) - 2 * (1 - x) ^ 2) by ring, abs_neg]
          linarith)
      have h5 : (if x ≤ 1 / 2 then 2 * x ^ 2 else 1 - 2 * (1 - x) ^ 2) = 1 - 2 * (1 - x) ^ 2 := by
        split_ifs with h
        · have : x = 1 / 2 := le_antisymm h hx5
          rw [this]; norm_num
        · rfl
      rw [h5]
      unfold hedgeSlack
      linarith
  · show Close (1 - x) _ (lit 1 - of x rx)
    rw [en]
    refine ⟨degree_of _ hn.1 hn.2, _, _, rfl, ?_⟩
    unfold hedgeSlack
    linarith
  · have b0 : 0 ≤ x * x := mul_nonneg x0 x0
    have b1 : x * x ≤ 1 := by nlinarith
    have hd := r01 (ρ := ρ) b0 b1
    have dm := error_le F hΩ (x := x * x) (m := 1) (abs_le.2 ⟨by linarith, by linarith⟩) le_rfl (by norm_num)
    have hm : HedgeKind.very.hedge (of x rx) = of (ρ.r (x * x)) (r_rep _) := mul_of rx rx (small_of (by linarith) (by linarith))
    rw [hm]
    refine ⟨degree_of _ hd.1 hd.2, _, _, rfl, ?_⟩
    show |ρ.r (x * x) - x ^ 2| ≤ _
    rw [pow_two x]
    unfold hedgeSlack
    linarith

/-- **C86.**  Hedges without square roots of degrees with errors: the error is at most doubled, with a few roundings. -/
theorem hedge_near {k : HedgeKind} {g : ℚ → ℚ} (hk : k.exact? = some g) {a α : ℚ} {x : Flt ρ} (a0 : 0 ≤ a) (a1 : a ≤ 1) (hx : Close a α x) :
    Close (g a) (2 * α + hedgeSlack ρ u ν) (k.hedge x) := by
  obtain ⟨p, hp, rfl, p0, p1, ep⟩ := hx.cases
  have hl := hedge_lipschitz hk a0 a1 p0 p1
  obtain ⟨hd, z, hz, e, hd'⟩ := hedge_round A hk hp p0 p1
  refine ⟨hd, z, hz, e, ?_⟩
  have := abs_sub_le z (g p) (g a)
  linarith


omit A in
theorem hedges_unit {S : Type} (hs : List (Hedge S)) (hb : ∀ h ∈ hs, ∃ k g, h = .builtin k ∧ HedgeKind.exact? k = some g) {a : ℚ}
    (a0 : 0 ≤ a) (a1 : a ≤ 1) : 0 ≤ hs.foldr Hedge.exact a ∧ hs.foldr Hedge.exact a ≤ 1 := by
  induction hs with
  | nil => exact ⟨a0, a1⟩
  | cons h hs ih =>
    obtain ⟨h0, h1⟩ := ih fun x hx => hb x (List.mem_cons_of_mem _ hx)
    obtain ⟨k, g, rfl, hk⟩ := hb h List.mem_cons_self
    rw [List.foldr_cons]
    simp only [Hedge.exact, hk, Option.getD_some]
    exact hedge_unit hk h0 h1

/-- the errors of a list of hedges -/
theorem hedges_near (hs : List (Hedge (Flt ρ))) (hb : ∀ h ∈ hs, ∃ k g, h = .builtin k ∧ HedgeKind.exact? k = some g) {a α : ℚ} {x : Flt ρ}
    (a0 : 0 ≤ a) (a1 : a ≤ 1) (hx : Close a α x) :
    ∃ y, applyHedges hs x = .ok y ∧ Close (hs.foldr Hedge.exact a) (2 ^ hs.length * (α + hedgeSlack ρ u ν) - hedgeSlack ρ u ν) y := by
  induction hs with
  | nil => exact ⟨x, rfl, hx.mono (by simp)⟩
  | cons h hs ih =>
    have hb' : ∀ g ∈ hs, ∃ k f, g = .builtin k ∧ HedgeKind.exact? k = some f := fun g hg => hb g (List.mem_cons_of_mem _ hg)
    obtain ⟨y, hy, hc⟩ := ih hb'
    obtain ⟨h0, h1⟩ := hedges_unit hs hb' a0 a1
    obtain ⟨k, g, rfl, hk⟩ := hb h List.mem_cons_self
    refine ⟨k.hedge y, ?_, ?_⟩
    · rw [applyHedges_cons, hy]
      rfl
    · have := hedge_near A hk h0 h1 hc
      rw [List.foldr_cons]
      simp only [Hedge.exact, hk, Option.getD_some]
      refine this.mono (le_of_eq ?_)
      rw [List.length_cons, pow_succ]
      ring

/-- What is asked of a proposition: at most `n` hedges, all without square roots, a variable that exists, and a term
whose degree has an error of at most `δ`, unless the last hedge is `any`. -/
def Fair (w : World (Flt ρ)) (μ : VarRef → Option Nat → ℚ) (n : ℕ) (δ : ℚ) (p : Proposition (Flt ρ)) : Prop :=
  p.hedges.length ≤ n ∧ (∀ h ∈ p.hedges, ∃ k g, h = .builtin k ∧ HedgeKind.exact? k = some g) ∧ (∃ b, w.isEnabled p.var = some b) ∧
  0 ≤ μ p.var p.term ∧ μ p.var p.term ≤ 1 ∧
  ((p.hedges.getLast?.map Hedge.isAny).getD false = true ∨
    ∃ j x, p.term = some j ∧ w.termDegree p.var j = .ok x ∧ Close (μ p.var p.term) δ x)

theorem proposition_near {w : World (Flt ρ)} {μ : VarRef → Option Nat → ℚ} {n : ℕ} {δ : ℚ} (d0 : 0 ≤ δ) {p : Proposition (Flt ρ)} (hp : Fair w μ n δ p) :
    (0 ≤ p.exact w μ ∧ p.exact w μ ≤ 1) ∧ ∃ y, p.degree w = .ok y ∧ Close (p.exact w μ) (2 ^ n * (δ + hedgeSlack ρ u ν) - hedgeSlack ρ u ν) y := by
  obtain ⟨hn, hb, ⟨b, hen⟩, m0, m1, ht⟩ := hp
  have w0 : 0 ≤ u + ν := add_nonneg A.u0 A.ν0
  have hs0 : 0 ≤ hedgeSlack ρ u ν := by unfold hedgeSlack; positivity
  have err : ∀ k ≤ n, ∀ δ' ≤ δ, 0 ≤ δ' → 2 ^ k * (δ' + hedgeSlack ρ u ν) - hedgeSlack ρ u ν ≤ 2 ^ n * (δ + hedgeSlack ρ u ν) - hedgeSlack ρ u ν := by
    intro k hk δ' hδ h0
    have h1 : (2 : ℚ) ^ k ≤ 2 ^ n := pow_le_pow_right₀ (by norm_num) hk
    have := mul_le_mul h1 (show δ' + hedgeSlack ρ u ν ≤ δ + hedgeSlack ρ u ν by linarith) (by linarith) (by positivity)
    linarith
  unfold Proposition.exact Proposition.degree
  rw [hen]
  cases b with
  | false =>
    simp only [Option.some.injEq, Bool.false_eq_true, if_false]
    exact ⟨⟨le_rfl, by norm_num⟩, _, rfl, degree_zero, near_zero (by
      have := err 0 (Nat.zero_le _) 0 d0 le_rfl
      linarith)⟩
  | true =>
    simp only [if_true]
    refine ⟨hedges_unit _ hb m0 m1, ?_⟩
    by_cases hl : (p.hedges.getLast?.map Hedge.isAny).getD false = true
    · rw [if_pos hl]
      cases hla : p.hedges.getLast? with
      | none => rw [hla] at hl; simp at hl
      | some a =>
        rw [hla] at hl
        simp only [Option.map_some, Option.getD_some] at hl
        rw [isAny_iff] at hl
        subst hl
        obtain ⟨gs, hgs⟩ := List.getLast?_eq_some_iff.1 hla
        have e1 : applyHedges (gs ++ [Hedge.builtin .any]) Scalar.nan = applyHedges gs (lit 1 : Flt ρ) := by
          rw [applyHedges_append]
          simp [applyHedges, Except.bind, bind, pure, Except.pure, Hedge.hedge, HedgeKind.hedge]
        have e2 : (gs ++ [Hedge.builtin .any]).foldr Hedge.exact (μ p.var p.term) = gs.foldr (Hedge.exact (S := Flt ρ)) 1 := by
          rw [List.foldr_append]
          rfl
        rw [hgs, e1, e2]
        obtain ⟨y, hy, hc⟩ := hedges_near A gs (fun h hh => hb h (by rw [hgs]; simp [hh])) (a := 1) (α := 0) (by norm_num) le_rfl
          ⟨degree_one, 1, rep_one, lit_rep rep_one, by simp⟩
        exact ⟨y, hy, hc.mono (err _ (by rw [hgs] at hn; simp at hn; omega) 0 d0 le_rfl)⟩
    · rw [if_neg hl]
      rcases ht with ht | ⟨j, x, hj, hx, hc⟩
      · exact absurd ht hl
      · rw [hj] at hc m0 m1 ⊢
        simp only [hx, bind, Except.bind]
        obtain ⟨y, hy, hc'⟩ := hedges_near A p.hedges hb m0 m1 hc
        exact ⟨y, hy, hc'.mono (err _ hn δ le_rfl d0)⟩

/-- **C86.**  The degree of an antecedent of `m` propositions with up to `n` hedges each, whose terms have degrees with
errors up to `δ`, has an error of at most `m` times `2 ^ n` times these errors and a few roundings. -/
theorem antecedent_near_partial {w : World (Flt ρ)} {c : TNormKind} {d : SNormKind} {f g : ℚ → ℚ → ℚ} (hc : c.exact? = some f) (hd : d.exact? = some g)
    {μ : VarRef → Option Nat → ℚ} {n : ℕ} {δ : ℚ} (d0 : 0 ≤ δ) (e : Expr (Flt ρ)) (he : ∀ p ∈ e.props, Fair w μ n δ p) :
    (0 ≤ e.exact w μ f g ∧ e.exact w μ f g ≤ 1) ∧ ∃ y, e.degree w (some (.builtin c)) (some (.builtin d)) = .ok y ∧
      Close (e.exact w μ f g) (e.props.length * (2 ^ n * (δ + hedgeSlack ρ u ν) - hedgeSlack ρ u ν + TNormKind.slack ρ u ν c)) y := by
  have w0 : 0 ≤ u + ν := add_nonneg A.u0 A.ν0
  have s0 : 20 * (u + ν) ≤ TNormKind.slack ρ u ν c := by
    unfold TNormKind.slack
    split_ifs <;> linarith [ρ.eps_pos]
  suffices h : (0 ≤ e.exact w μ f g ∧ e.exact w μ f g ≤ 1) ∧ ∃ y, e.degree w (some (.builtin c)) (some (.builtin d)) = .ok y ∧
      Close (e.exact w μ f g) (e.props.length * (2 ^ n * (δ + hedgeSlack ρ u ν) - hedgeSlack ρ u ν + TNormKind.slack ρ u ν c) - TNormKind.slack ρ u ν c) y by
    obtain ⟨h1, y, hy, hc⟩ := h
    exact ⟨h1, y, hy, hc.mono (by linarith)⟩
  induction e with
  | prop p =>
    obtain ⟨h1, y, hy, hc⟩ := proposition_near A d0 (he p (by simp [Expr.props]))
    exact ⟨h1, y, hy, hc.mono (by simp [Expr.props])⟩
  | conj l r ihl ihr =>
    obtain ⟨⟨l0, l1⟩, a, hl, ha⟩ := ihl fun p hp => he p (by simp [Expr.props, hp])
    obtain ⟨⟨r0, r1⟩, b, hr, hb⟩ := ihr fun p hp => he p (by simp [Expr.props, hp])
    refine ⟨tnorm_unit hc l0 l1 r0 r1, c.compute a b, ?_, (tnorm_near A hc l0 l1 r0 r1 ha hb).mono ?_⟩
    · simp only [Expr.degree, hl, hr, bind, Except.bind, TNorm.compute]
    · simp only [Expr.props, List.length_append, Nat.cast_add]
      linarith
  | disj l r ihl ihr =>
    obtain ⟨⟨l0, l1⟩, a, hl, ha⟩ := ihl fun p hp => he p (by simp [Expr.props, hp])
    obtain ⟨⟨r0, r1⟩, b, hr, hb⟩ := ihr fun p hp => he p (by simp [Expr.props, hp])
    refine ⟨snorm_unit hd l0 l1 r0 r1, d.compute a b, ?_, (snorm_near A hd l0 l1 r0 r1 ha hb).mono ?_⟩
    · simp only [Expr.degree, hl, hr, bind, Except.bind, SNorm.compute]
    · simp only [Expr.props, List.length_append, Nat.cast_add]
      linarith

/-- **C86.**  The degree of a rule with a weight from 0 to 1. -/
theorem rule_near_partial {w : World (Flt ρ)} {c : TNormKind} {d : SNormKind} {f g : ℚ → ℚ → ℚ} (hc : c.exact? = some f) (hd : d.exact? = some g)
    {μ : VarRef → Option Nat → ℚ} {n : ℕ} {δ : ℚ} (d0 : 0 ≤ δ) (r : Rule (Flt ρ)) (hl : r.isLoaded = true) {e : Expr (Flt ρ)}
    (ha : r.antecedent = some e) (he : ∀ p ∈ e.props, Fair w μ n δ p) {v : ℚ} (hv : Close v 0 r.weight) :
    (r.activateWith w (some (.builtin c)) (some (.builtin d))).2 = none ∧
    Close (v * e.exact w μ f g) (e.props.length * (2 ^ n * (δ + hedgeSlack ρ u ν) - hedgeSlack ρ u ν + TNormKind.slack ρ u ν c) + (u + ν))
      (r.activateWith w (some (.builtin c)) (some (.builtin d))).1.degree := by
  obtain ⟨⟨e0, e1⟩, y, hy, hcl⟩ := antecedent_near_partial A hc hd d0 e he
  unfold Rule.activateWith
  rw [hl, ha]
  simp only [Bool.not_true, Bool.false_eq_true, if_false, hy, true_and]
  obtain ⟨q, hq, rfl, q0, q1, hE⟩ := hcl.cases
  obtain ⟨v', hv', ev, v0, v1, hE'⟩ := hv.cases
  have : v' = v := by
    have := abs_nonpos_iff.1 hE'
    linarith
  subst this
  rw [ev]
  have p0 : 0 ≤ v' * q := mul_nonneg v0 q0
  have p1 : v' * q ≤ 1 := by nlinarith
  rw [mul_of hv' hq (small_of (by linarith) (by linarith))]
  have hd := r01 (ρ := ρ) p0 p1
  refine ⟨degree_of _ hd.1 hd.2, _, _, rfl, ?_⟩
  have h3 := error_of A.toFine A.hΩ (x := v' * q) (y := v' * e.exact w μ f g) (m := 1) (abs_le.2 ⟨by linarith, by linarith⟩) le_rfl (by norm_num)
    (show |v' * q - v' * e.exact w μ f g| ≤ |q - e.exact w μ f g| by
      rw [← mul_sub, abs_mul, abs_of_nonneg v0]
      exact mul_le_of_le_one_left (abs_nonneg _) v1)
  linarith

/-! ### membership functions of straight lines -/

omit A in
theorem quotient_line {p' w' p w e g : ℚ} (hp : |p' - p| ≤ e * w) (hw : |w' - w| ≤ g * w) (hg : g ≤ 1 / 2) (p0 : 0 ≤ p) (pw : p ≤ w) (w0 : 0 < w) :
    |p' / w' - p / w| ≤ 2 * e + 2 * g := by
  have hw' : w / 2 ≤ w' := by
    have h1 := abs_le.1 hw
    have : g * w ≤ 1 / 2 * w := mul_le_mul_of_nonneg_right hg w0.le
    linarith
  have w0' : 0 < w' := by linarith
  have := quotient_error (p := 2 * p' / w) (d := 2 * w' / w) (P := 2 * p / w) (D := 2) (E := 2 * e) (G := 2 * g)
    (by rw [le_div_iff₀ w0]; linarith) (by norm_num) (by positivity) (by rw [div_le_iff₀ w0]; linarith)
    (by
      rw [← sub_div, abs_div, abs_of_pos w0, div_le_iff₀ w0, ← mul_sub, abs_mul, abs_of_pos (by norm_num : (0 : ℚ) < 2)]
      linarith)
    (by
      have : 2 * w' / w - 2 = 2 * (w' - w) / w := by field_simp
      rw [this, abs_div, abs_of_pos w0, div_le_iff₀ w0, abs_mul, abs_of_pos (by norm_num : (0 : ℚ) < 2)]
      linarith)
  have e1 : 2 * p' / w / (2 * w' / w) = p' / w' := by field_simp
  have e2 : 2 * p / w / 2 = p / w := by field_simp
  rwa [e1, e2] at this

theorem tiny {w : ℚ} (hw : ρ.eps ≤ w) : ν ≤ 1 / 8 * (u * w) := by
  have := mul_le_mul_of_nonneg_left hw A.u0
  linarith [A.hν]

theorem err_line {p w : ℚ} (p0 : 0 ≤ p) (pw : p ≤ w) (hw : ρ.eps ≤ w) (sw : w ≤ 2147483648) : |ρ.r p - p| ≤ 9 / 8 * u * w := by
  have h := (A.err p (by rw [abs_of_nonneg p0]; linarith [A.big])).2
  rw [abs_of_nonneg p0] at h
  have h1 := mul_le_mul_of_nonneg_right pw A.u0
  have h2 := tiny A hw
  linarith

/-- a quotient of distances -/
theorem line_error {h p w : ℚ} (h0 : 0 ≤ h) (h1 : h ≤ 1) (p0 : 0 ≤ p) (pw : p ≤ w) (hw : ρ.eps ≤ w) (sw : w ≤ 2147483648) :
    |ρ.r (ρ.r (h * ρ.r p) / ρ.r w) - h * (p / w)| ≤ 10 * u ∧ |ρ.r (h * ρ.r (ρ.r p / ρ.r w)) - h * (p / w)| ≤ 10 * u := by
  have w0 : 0 < w := lt_of_lt_of_le ρ.eps_pos hw
  have u0 := A.u0
  have hu := A.hu
  have sw' : Format.Small w := abs_le.2 ⟨by linarith, by linarith⟩
  have sp : Format.Small p := abs_le.2 ⟨by linarith, by linarith⟩
  have ep := err_line A p0 pw hw sw
  have ew := err_line A w0.le le_rfl hw sw
  have s0 : Format.Small 0 := small_of (by norm_num) (by norm_num)
  have rp0 : 0 ≤ ρ.r p := le_r s0 sp rep_zero p0
  have rpw : ρ.r p ≤ ρ.r w := r_mono sp sw' pw
  have rw0 : 0 < ρ.r w := lt_of_lt_of_le ρ.eps_pos (le_r (small_of (by linarith [ρ.eps_pos]) (by linarith [A.heps])) sw' rep_eps hw)
  have rw1 : ρ.r w ≤ w * (1 + 9 / 8 * u) := by
    have := (abs_le.1 ew).2
    linarith
  have uw : 0 ≤ u * w := mul_nonneg u0 w0.le
  have hν1 := tiny A hw
  have hν2 : ν ≤ 1 / 8 * u := by
    have := mul_le_mul_of_nonneg_left A.heps A.u0
    linarith [A.hν]
  have uu : u * u ≤ 1 / 32 * u := mul_le_mul_of_nonneg_right (by linarith) u0
  have round1 : ∀ {q : ℚ}, 0 ≤ q → q ≤ 1 → |ρ.r q - q| ≤ 9 / 8 * u := fun {q} q0 q1 => by
    have := (A.err q (by rw [abs_of_nonneg q0]; linarith [A.big])).2
    rw [abs_of_nonneg q0] at this
    have h2 := mul_le_mul_of_nonneg_right q1 A.u0
    linarith
  have hq0 : 0 ≤ p / w := div_nonneg p0 w0.le
  have hq1 : p / w ≤ 1 := (div_le_one w0).2 pw
  constructor
  · have m0 : 0 ≤ h * ρ.r p := mul_nonneg h0 rp0
    have m1 : h * ρ.r p ≤ ρ.r p := mul_le_of_le_one_left rp0 h1
    have e1 : |ρ.r (h * ρ.r p) - h * ρ.r p| ≤ 19 / 16 * u * w := by
      have h2 := small_r (ρ := ρ) sw'
      have h := (A.err (h * ρ.r p) (by rw [abs_of_nonneg m0]; linarith [A.big, (abs_le.1 h2).2])).2
      rw [abs_of_nonneg m0] at h
      have h1 := mul_le_mul_of_nonneg_right (m1.trans (rpw.trans rw1)) A.u0
      have h3 : w * (u * u) ≤ w * (1 / 32 * u) := mul_le_mul_of_nonneg_left uu w0.le
      linarith
    have e2 : |ρ.r (h * ρ.r p) - h * p| ≤ 37 / 16 * u * w := by
      have e : ρ.r (h * ρ.r p) - h * p = (ρ.r (h * ρ.r p) - h * ρ.r p) + h * (ρ.r p - p) := by ring
      have h5 : |h * (ρ.r p - p)| ≤ 9 / 8 * u * w := by
        rw [abs_mul, abs_of_nonneg h0]
        exact (mul_le_of_le_one_left (abs_nonneg _) h1).trans ep
      rw [e]
      linarith [abs_add_le (ρ.r (h * ρ.r p) - h * ρ.r p) (h * (ρ.r p - p))]
    have e3 := quotient_line e2 (by linarith [ew] : |ρ.r w - w| ≤ (9 / 8 * u) * w) (by linarith) (mul_nonneg h0 p0)
      ((mul_le_of_le_one_left p0 h1).trans pw) w0
    have sm : Format.Small (h * ρ.r p) := by
      have := small_r (ρ := ρ) sw'
      exact abs_le.2 ⟨by linarith, (m1.trans rpw).trans (abs_le.1 this).2⟩
    have n0 : 0 ≤ ρ.r (h * ρ.r p) := le_r s0 sm rep_zero m0
    have n1 : ρ.r (h * ρ.r p) ≤ ρ.r p := r_le sm (small_r sp) (r_rep _) m1
    have q0 : 0 ≤ ρ.r (h * ρ.r p) / ρ.r w := div_nonneg n0 rw0.le
    have q1 : ρ.r (h * ρ.r p) / ρ.r w ≤ 1 := (div_le_one rw0).2 (n1.trans rpw)
    have e4 := round1 q0 q1
    have e5 := abs_add_le (ρ.r (ρ.r (h * ρ.r p) / ρ.r w) - ρ.r (h * ρ.r p) / ρ.r w) (ρ.r (h * ρ.r p) / ρ.r w - h * p / w)
    rw [sub_add_sub_cancel] at e5
    rw [← mul_div_assoc]
    linarith
  · have e3 := quotient_line (by linarith [ep] : |ρ.r p - p| ≤ (9 / 8 * u) * w) (by linarith [ew] : |ρ.r w - w| ≤ (9 / 8 * u) * w) (by linarith) p0 pw w0
    have q0 : 0 ≤ ρ.r p / ρ.r w := div_nonneg rp0 rw0.le
    have q1 : ρ.r p / ρ.r w ≤ 1 := (div_le_one rw0).2 rpw
    have e4 := round1 q0 q1
    have k := r01 (ρ := ρ) q0 q1
    have m0 : 0 ≤ h * ρ.r (ρ.r p / ρ.r w) := mul_nonneg h0 k.1
    have m1 : h * ρ.r (ρ.r p / ρ.r w) ≤ 1 := by nlinarith [k.2]
    have e5 := round1 m0 m1
    have e6 := abs_add_le (ρ.r (ρ.r p / ρ.r w) - ρ.r p / ρ.r w) (ρ.r p / ρ.r w - p / w)
    rw [sub_add_sub_cancel] at e6
    have e7 : |h * ρ.r (ρ.r p / ρ.r w) - h * (p / w)| ≤ |ρ.r (ρ.r p / ρ.r w) - p / w| := by
      rw [← mul_sub, abs_mul, abs_of_nonneg h0]
      exact mul_le_of_le_one_left (abs_nonneg _) h1
    have e8 := abs_add_le (ρ.r (h * ρ.r (ρ.r p / ρ.r w)) - h * ρ.r (ρ.r p / ρ.r w)) (h * ρ.r (ρ.r p / ρ.r w) - h * (p / w))
    rw [sub_add_sub_cancel] at e8
    linarith

/-- rising lines -/
theorem line_near {h s e x : ℚ} (rh : ρ.Rep h) (rs : ρ.Rep s) (re : ρ.Rep e) (rx : ρ.Rep x) (h0 : 0 ≤ h) (h1 : h ≤ 1)
    (ss : |s| ≤ 1073741824) (se : |e| ≤ 1073741824) (sx : |x| ≤ 1073741824) (hsx : s ≤ x) (hxe : x ≤ e) (hw : ρ.eps ≤ e - s) :
    Close (h * ((x - s) / (e - s))) (10 * u) (of h rh * (of x rx - of s rs) / (of e re - of s rs)) := by
  have e1 := small_sub sx ss
  have e2 := small_sub se ss
  have hd : ρ.eps ≤ ρ.r (e - s) := le_r (small_of (by linarith [ρ.eps_pos]) (by linarith [A.heps])) e2 rep_eps hw
  refine ⟨line_degree rh rs re rx h0 h1 ss se sx hsx hxe (Or.inr hd), ?_⟩
  have p0 : 0 ≤ x - s := by linarith
  have pw : x - s ≤ e - s := by linarith
  have q0 : 0 ≤ ρ.r (x - s) := le_r (small_of (by norm_num) (by norm_num)) e1 rep_zero p0
  have qw : ρ.r (x - s) ≤ ρ.r (e - s) := r_mono e1 e2 pw
  have m0 : 0 ≤ h * ρ.r (x - s) := mul_nonneg h0 q0
  have m1 : h * ρ.r (x - s) ≤ ρ.r (x - s) := mul_le_of_le_one_left q0 h1
  have sm : Format.Small (h * ρ.r (x - s)) := abs_le.2 ⟨by linarith, m1.trans (abs_le.1 (small_r e1)).2⟩
  have n0 : 0 ≤ ρ.r (h * ρ.r (x - s)) := le_r (small_of (by norm_num) (by norm_num)) sm rep_zero m0
  have n1 : ρ.r (h * ρ.r (x - s)) ≤ ρ.r (x - s) := r_le sm (small_r e1) (r_rep _) m1
  have w0 : 0 < ρ.r (e - s) := lt_of_lt_of_le ρ.eps_pos hd
  have d0 := div_nonneg n0 w0.le
  have d1 := (div_le_one w0).2 (n1.trans qw)
  rw [sub_of rx rs e1, sub_of re rs e2, mul_of _ _ sm, div_of _ _ w0.ne' (small_of (by linarith) (by linarith))]
  exact ⟨_, _, rfl, (line_error A h0 h1 p0 pw hw (abs_le.1 e2).2).1⟩

/-- falling lines -/
theorem line_near' {h s e x : ℚ} (rh : ρ.Rep h) (rs : ρ.Rep s) (re : ρ.Rep e) (rx : ρ.Rep x) (h0 : 0 ≤ h) (h1 : h ≤ 1)
    (ss : |s| ≤ 1073741824) (se : |e| ≤ 1073741824) (sx : |x| ≤ 1073741824) (hsx : s ≤ x) (hxe : x ≤ e) (hw : ρ.eps ≤ e - s) :
    Close (h * ((e - x) / (e - s))) (10 * u) (of h rh * (of e re - of x rx) / (of e re - of s rs)) := by
  have e1 := small_sub se sx
  have e2 := small_sub se ss
  have hd : ρ.eps ≤ ρ.r (e - s) := le_r (small_of (by linarith [ρ.eps_pos]) (by linarith [A.heps])) e2 rep_eps hw
  refine ⟨line_degree' rh rs re rx h0 h1 ss se sx hsx hxe (Or.inr hd), ?_⟩
  have p0 : 0 ≤ e - x := by linarith
  have pw : e - x ≤ e - s := by linarith
  have q0 : 0 ≤ ρ.r (e - x) := le_r (small_of (by norm_num) (by norm_num)) e1 rep_zero p0
  have qw : ρ.r (e - x) ≤ ρ.r (e - s) := r_mono e1 e2 pw
  have m0 : 0 ≤ h * ρ.r (e - x) := mul_nonneg h0 q0
  have m1 : h * ρ.r (e - x) ≤ ρ.r (e - x) := mul_le_of_le_one_left q0 h1
  have sm : Format.Small (h * ρ.r (e - x)) := abs_le.2 ⟨by linarith, m1.trans (abs_le.1 (small_r e1)).2⟩
  have n0 : 0 ≤ ρ.r (h * ρ.r (e - x)) := le_r (small_of (by norm_num) (by norm_num)) sm rep_zero m0
  have n1 : ρ.r (h * ρ.r (e - x)) ≤ ρ.r (e - x) := r_le sm (small_r e1) (r_rep _) m1
  have w0 : 0 < ρ.r (e - s) := lt_of_lt_of_le ρ.eps_pos hd
  have d0 := div_nonneg n0 w0.le
  have d1 := (div_le_one w0).2 (n1.trans qw)
  rw [sub_of re rx e1, sub_of re rs e2, mul_of _ _ sm, div_of _ _ w0.ne' (small_of (by linarith) (by linarith))]
  exact ⟨_, _, rfl, (line_error A h0 h1 p0 pw hw (abs_le.1 e2).2).1⟩

/-- rising lines of trapezoids -/
theorem line_near_min {h s e x : ℚ} (rh : ρ.Rep h) (rs : ρ.Rep s) (re : ρ.Rep e) (rx : ρ.Rep x) (h0 : 0 ≤ h) (h1 : h ≤ 1)
    (ss : |s| ≤ 1073741824) (se : |e| ≤ 1073741824) (sx : |x| ≤ 1073741824) (hsx : s ≤ x) (hxe : x ≤ e) (hw : ρ.eps ≤ e - s) :
    Close (h * ((x - s) / (e - s))) (10 * u) (of h rh * Op.min (lit 1) ((of x rx - of s rs) / (of e re - of s rs))) := by
  have e1 := small_sub sx ss
  have e2 := small_sub se ss
  have hd : ρ.eps ≤ ρ.r (e - s) := le_r (small_of (by linarith [ρ.eps_pos]) (by linarith [A.heps])) e2 rep_eps hw
  have p0 : 0 ≤ x - s := by linarith
  have pw : x - s ≤ e - s := by linarith
  have q0 : 0 ≤ ρ.r (x - s) := le_r (small_of (by norm_num) (by norm_num)) e1 rep_zero p0
  have qw : ρ.r (x - s) ≤ ρ.r (e - s) := r_mono e1 e2 pw
  have w0 : 0 < ρ.r (e - s) := lt_of_lt_of_le ρ.eps_pos hd
  have d0 := div_nonneg q0 w0.le
  have d1 := (div_le_one w0).2 qw
  have k := r01 (ρ := ρ) d0 d1
  rw [sub_of rx rs e1, sub_of re rs e2, div_of _ _ w0.ne' (small_of (by linarith) (by linarith)), lit1]
  obtain ⟨hm, em⟩ := min_of (ρ := ρ) rep_one (r_rep (ρ := ρ) (ρ.r (x - s) / ρ.r (e - s)))
  rw [em]
  refine ⟨mul_degree rh hm h0 h1 (le_min (by norm_num) k.1) (min_le_left _ _), ?_⟩
  have hmin : min 1 (ρ.r (ρ.r (x - s) / ρ.r (e - s))) = ρ.r (ρ.r (x - s) / ρ.r (e - s)) := min_eq_right k.2
  have m0 := mul_nonneg h0 k.1
  have m1 : h * ρ.r (ρ.r (x - s) / ρ.r (e - s)) ≤ 1 := by nlinarith [k.2]
  rw [mul_of _ _ (by rw [hmin]; exact small_of (by linarith) (by linarith))]
  refine ⟨_, _, rfl, ?_⟩
  rw [hmin]
  exact (line_error A h0 h1 p0 pw hw (abs_le.1 e2).2).2

omit A in
theorem height_one {h : ℚ} (rh : ρ.Rep h) (h0 : 0 ≤ h) (h1 : h ≤ 1) : Close h 0 (of h rh * lit 1) := by
  rw [lit1, mul_of _ _ (by rw [_root_.mul_one]; exact small_of (by linarith) (by linarith))]
  refine ⟨?_, _, _, rfl, ?_⟩
  · exact degree_of _ (r01 (by linarith) (by linarith)).1 (r01 (by linarith) (by linarith)).2
  · rw [_root_.mul_one, r_of_rep rh, sub_self, abs_zero]

omit A in
theorem height_zero {h : ℚ} (rh : ρ.Rep h) : Close 0 0 (of h rh * lit 0) := by
  rw [lit0, mul_of _ _ (by rw [mul_zero]; exact small_of (by norm_num) (by norm_num))]
  refine ⟨?_, _, _, rfl, ?_⟩
  · exact degree_of _ (r01 (by simp) (by simp)).1 (r01 (by simp) (by simp)).2
  · rw [mul_zero, r_of_rep rep_zero, sub_self, abs_zero]

omit A in
/-- a value known to be near -/
theorem Close.of_eq {a b E E' : ℚ} {x : Flt ρ} (h : Close a E x) (hb : |a - b| + E ≤ E') : Close b E' x := by
  obtain ⟨h1, q, rq, rfl, hq⟩ := h
  refine ⟨h1, q, rq, rfl, ?_⟩
  have := abs_add_le (q - a) (a - b)
  rw [sub_add_sub_cancel] at this
  linarith

/-- numbers equal within the tolerance -/
theorem near_of_isEq {a b : ℚ} (h : Format.Small (a - b)) (hr : |ρ.r (a - b)| < ρ.eps) : |a - b| < ρ.eps := by
  by_contra hc
  push Not at hc
  have se : Format.Small ρ.eps := small_of (by linarith [ρ.eps_pos]) (by linarith [A.heps])
  obtain ⟨s1, s2⟩ := abs_le.1 h
  rcases le_total 0 (a - b) with h0 | h0
  · rw [abs_of_nonneg h0] at hc
    have := le_r se h (rep_eps (ρ := ρ)) hc
    linarith [le_abs_self (ρ.r (a - b))]
  · rw [abs_of_nonpos h0] at hc
    have h' : Format.Small (-(a - b)) := abs_le.2 ⟨by linarith, by linarith⟩
    have := le_r se h' (rep_eps (ρ := ρ)) hc
    rw [r_neg] at this
    linarith [neg_abs_le (ρ.r (a - b))]

omit A in
theorem part_le {p w e : ℚ} (w0 : 0 < w) (e0 : 0 ≤ e) (he : p ≤ e) {W : ℚ} (W0 : 0 < W) (hW : W ≤ w) : p / w ≤ e / W := by
  rw [div_le_div_iff₀ w0 W0]
  exact mul_le_mul he hW W0.le e0

/-- **C86.**  A ramp that rises from `s` to `e`, over at least `W`. -/
theorem ramp_near (h : Flt ρ) {hq : ℚ} (hh : Close hq 0 h) {s e x W : ℚ} (rs : ρ.Rep s) (re : ρ.Rep e) (rx : ρ.Rep x)
    (ss : |s| ≤ 1073741824) (se : |e| ≤ 1073741824) (sx : |x| ≤ 1073741824) (hW : ρ.eps ≤ W) (hse : W ≤ |e - s|) :
    Close (hq * rampExact s e x) (ρ.eps / W + 10 * u) ((Shape.ramp (of s rs) (of e re)).membership h (of x rx)) := by
  obtain ⟨h', rh, rfl, h0, h1, hE⟩ := hh.cases
  have : h' = hq := by
    have := abs_nonpos_iff.1 hE
    linarith
  subst this
  have e0 := ρ.eps_pos
  have W0 : 0 < W := by linarith
  have u0 := A.u0
  have q0 : 0 ≤ ρ.eps / W := by positivity
  have d1 := height_one rh h0 h1
  have d0 := height_zero rh
  have z : ∀ {t : ℚ}, 0 ≤ t → t ≤ ρ.eps / W → |0 - h' * t| + 0 ≤ ρ.eps / W + 10 * u := fun {t} t0 t1 => by
    rw [zero_sub, abs_neg, abs_of_nonneg (mul_nonneg h0 t0)]
    nlinarith
  have o : ∀ {t : ℚ}, t ≤ 1 → 1 - t ≤ ρ.eps / W → |h' - h' * t| + 0 ≤ ρ.eps / W + 10 * u := fun {t} t0 t1 => by
    have e : h' - h' * t = h' * (1 - t) := by ring
    rw [e, abs_of_nonneg (mul_nonneg h0 (by linarith))]
    nlinarith
  have hmem : Op.isEq (of s rs) (of e re) = false := by
    rw [← Bool.not_eq_true, isEq_of rs re (small_sub ss se)]
    intro hc
    have := near_of_isEq A (small_sub ss se) hc
    rw [_root_.abs_sub_comm] at this
    linarith
  simp only [Shape.membership, isNaN_of rx, hmem, Bool.or_self, Bool.false_eq_true, if_false]
  have ns := near_of_isEq A (small_sub sx ss)
  have ne := near_of_isEq A (small_sub sx se)
  rcases le_total s e with hd | hd
  · rw [abs_of_nonneg (by linarith)] at hse
    have w0 : 0 < e - s := by linarith
    have hlt : Op.isLt (of s rs) (of e re) = true := by
      rw [isLt_of rs re (small_sub ss se)]
      refine ⟨by linarith, ?_⟩
      by_contra hc
      push Not at hc
      exact Bool.false_ne_true (hmem.symm.trans ((isEq_of rs re (small_sub ss se)).2 hc))
    rw [if_pos hlt]
    unfold rampExact
    split_ifs with c1 c2
    · rw [isLE_of rx rs (small_sub sx ss)] at c1
      refine d0.of_eq (z (le_max_left _ _) (max_le q0 ((min_le_right _ _).trans (part_le w0 e0.le ?_ W0 hse))))
      rcases c1 with c | c
      · exact (le_abs_self _).trans (ns c).le
      · linarith
    · rw [isGE_of rx re (small_sub sx se)] at c2
      refine d1.of_eq (o (max_le (by norm_num) (min_le_left _ _)) ?_)
      have h5 : 1 - (x - s) / (e - s) ≤ ρ.eps / W := by
        rw [one_sub_div w0.ne']
        refine part_le w0 e0.le ?_ W0 hse
        rcases c2 with c | c
        · linarith [(abs_le.1 (ne c).le).1]
        · linarith
      rcases le_total 1 ((x - s) / (e - s)) with h6 | h6
      · rw [min_eq_left h6]
        have := le_max_right 0 (1 : ℚ)
        linarith
      · rw [min_eq_right h6]
        have := le_max_right 0 ((x - s) / (e - s))
        linarith
    · rw [isLE_of rx rs (small_sub sx ss)] at c1
      rw [isGE_of rx re (small_sub sx se)] at c2
      push Not at c1 c2
      have hx := line_near A rh rs re rx h0 h1 ss se sx c1.2 c2.2 (by linarith)
      have h7 : (x - s) / (e - s) ≤ 1 := (div_le_one w0).2 (by linarith [c2.2])
      have h8 : 0 ≤ (x - s) / (e - s) := div_nonneg (by linarith [c1.2]) w0.le
      rw [min_eq_right h7, max_eq_right h8]
      exact hx.mono (by linarith)
  · rw [abs_of_nonpos (by linarith)] at hse
    have w0 : 0 < s - e := by linarith
    have hlt : ¬ Op.isLt (of s rs) (of e re) = true := by
      rw [isLt_of rs re (small_sub ss se)]
      intro hc
      linarith [hc.1]
    have ex : (x - s) / (e - s) = (s - x) / (s - e) := by
      rw [← neg_sub s x, ← neg_sub s e, neg_div_neg_eq]
    rw [if_neg hlt]
    unfold rampExact
    rw [ex]
    split_ifs with c1 c2
    · rw [isGE_of rx rs (small_sub sx ss)] at c1
      refine d0.of_eq (z (le_max_left _ _) (max_le q0 ((min_le_right _ _).trans (part_le w0 e0.le ?_ W0 (by linarith)))))
      rcases c1 with c | c
      · linarith [(abs_le.1 (ns c).le).1]
      · linarith
    · rw [isLE_of rx re (small_sub sx se)] at c2
      refine d1.of_eq (o (max_le (by norm_num) (min_le_left _ _)) ?_)
      have h5 : 1 - (s - x) / (s - e) ≤ ρ.eps / W := by
        rw [one_sub_div w0.ne']
        refine part_le w0 e0.le ?_ W0 (by linarith)
        rcases c2 with c | c
        · linarith [(abs_le.1 (ne c).le).2]
        · linarith
      rcases le_total 1 ((s - x) / (s - e)) with h6 | h6
      · rw [min_eq_left h6]
        have := le_max_right 0 (1 : ℚ)
        linarith
      · rw [min_eq_right h6]
        have := le_max_right 0 ((s - x) / (s - e))
        linarith
    · rw [isGE_of rx rs (small_sub sx ss)] at c1
      rw [isLE_of rx re (small_sub sx se)] at c2
      push Not at c1 c2
      have hx := line_near' A rh re rs rx h0 h1 se ss sx c2.2 c1.2 (by linarith)
      have h7 : (s - x) / (s - e) ≤ 1 := (div_le_one w0).2 (by linarith [c2.2])
      have h8 : 0 ≤ (s - x) / (s - e) := div_nonneg (by linarith [c1.2]) w0.le
      rw [min_eq_right h7, max_eq_right h8]
      exact hx.mono (by linarith)

/-- **C86.**  Trapezoids and triangles, each side of which is vertical or at least `W` wide, wherever the tolerance
does not extend them. -/
theorem trapezoid_near_partial (h : Flt ρ) {hq : ℚ} (hh : Close hq 0 h) {a b c d x W : ℚ} (ra : ρ.Rep a) (rb : ρ.Rep b) (rc : ρ.Rep c) (rd : ρ.Rep d)
    (rx : ρ.Rep x) (sa : |a| ≤ 1073741824) (sb : |b| ≤ 1073741824) (sc : |c| ≤ 1073741824) (sd : |d| ≤ 1073741824) (sx : |x| ≤ 1073741824)
    (hW : ρ.eps ≤ W) (hab : a = b ∨ W ≤ b - a) (hbc : b ≤ c) (hcd : c = d ∨ W ≤ d - c)
    (hxa : Op.isLt (of x rx) (of a ra) = true ∨ a ≤ x) (hxd : Op.isGt (of x rx) (of d rd) = true ∨ x ≤ d) :
    Close (hq * trapezoidExact a b c d x) (ρ.eps / W + 10 * u) ((Shape.trapezoid (of a ra) (of b rb) (of c rc) (of d rd)).membership h (of x rx)) ∧
    (b = c → Close (hq * trapezoidExact a b c d x) (ρ.eps / W + 10 * u) ((Shape.triangle (of a ra) (of b rb) (of d rd)).membership h (of x rx))) := by
  obtain ⟨h', rh, rfl, h0, h1, hE⟩ := hh.cases
  have : h' = hq := by
    have := abs_nonpos_iff.1 hE
    linarith
  subst this
  have e0 := ρ.eps_pos
  have W0 : 0 < W := by linarith
  have u0 := A.u0
  have q0 : 0 ≤ ρ.eps / W := by positivity
  have d1 := height_one rh h0 h1
  have d0 := height_zero rh
  have z : ∀ {t : ℚ}, 0 ≤ t → t ≤ ρ.eps / W → |0 - h' * t| + 0 ≤ ρ.eps / W + 10 * u := fun {t} t0 t1 => by
    rw [zero_sub, abs_neg, abs_of_nonneg (mul_nonneg h0 t0)]
    nlinarith
  have o : ∀ {t : ℚ}, t ≤ 1 → 1 - t ≤ ρ.eps / W → |h' - h' * t| + 0 ≤ ρ.eps / W + 10 * u := fun {t} t0 t1 => by
    have e : h' - h' * t = h' * (1 - t) := by ring
    rw [e, abs_of_nonneg (mul_nonneg h0 (by linarith))]
    nlinarith
  have la : a ≤ b := by rcases hab with h | h <;> linarith
  have ld : c ≤ d := by rcases hcd with h | h <;> linarith
  have nb := near_of_isEq A (small_sub sx sb)
  have nc := near_of_isEq A (small_sub sx sc)
  have nd := near_of_isEq A (small_sub sx sd)
  have ia := isLt_of rx ra (small_sub sx sa)
  have ib := isLt_of rx rb (small_sub sx sb)
  have ic := isLE_of rx rc (small_sub sx sc)
  have id' := isLt_of rx rd (small_sub sx sd)
  have ig := isGt_of rx rd (small_sub sx sd)
  have iq := isEq_of rx rb (small_sub sx sb)
  -- where the shape is not zero
  have inside : ¬ (Op.isLt (of x rx) (of a ra) || Op.isGt (of x rx) (of d rd)) = true → a ≤ x ∧ x ≤ d ∧ ¬ (x < a ∨ d < x) := fun hc => by
    simp only [Bool.or_eq_true, not_or] at hc
    have h1 := hxa.resolve_left hc.1
    have h2 := hxd.resolve_left hc.2
    exact ⟨h1, h2, fun h => by rcases h with h | h <;> linarith⟩
  have outside : (Op.isLt (of x rx) (of a ra) || Op.isGt (of x rx) (of d rd)) = true → x < a ∨ d < x := fun hc => by
    rcases Bool.or_eq_true _ _ ▸ hc with h | h
    · exact Or.inl (ia.1 h).1
    · exact Or.inr (ig.1 h).1
  -- just below `b`, just above `c`
  have left : a ≤ x → x < b → |ρ.r (x - b)| < ρ.eps → Close (h' * ((x - a) / (b - a))) (ρ.eps / W + 10 * u) (of h' rh * lit 1) := fun hax hxb hr => by
    have hw : W ≤ b - a := hab.resolve_left (by linarith)
    refine d1.of_eq (o ((div_le_one (by linarith)).2 (by linarith)) ?_)
    rw [one_sub_div (by linarith : b - a ≠ 0)]
    exact part_le (by linarith) e0.le (by linarith [(abs_le.1 (nb hr).le).1]) W0 hw
  have right : ∀ k, k = c → x ≤ d → k < x → |ρ.r (x - k)| < ρ.eps → Close (h' * ((d - x) / (d - c))) (ρ.eps / W + 10 * u) (of h' rh * lit 1) := fun k hk hxd hcx hr => by
    subst hk
    have hw : W ≤ d - k := hcd.resolve_left (by linarith)
    refine d1.of_eq (o ((div_le_one (by linarith)).2 (by linarith)) ?_)
    rw [one_sub_div (by linarith : d - k ≠ 0)]
    exact part_le (by linarith) e0.le (by linarith [(abs_le.1 (nc hr).le).2]) W0 hw
  constructor
  · simp only [Shape.membership, isNaN_of rx, Bool.false_eq_true, if_false, eq_ninf_of, eq_inf_of]
    unfold trapezoidExact
    by_cases c1 : (Op.isLt (of x rx) (of a ra) || Op.isGt (of x rx) (of d rd)) = true
    · rw [if_pos c1, if_pos (outside c1), mul_zero]
      exact d0.mono (by linarith)
    · obtain ⟨hax, hxd', hn⟩ := inside c1
      rw [if_neg c1, if_neg hn]
      by_cases c2 : Op.isLt (of x rx) (of b rb) = true
      · have hxb := (ib.1 c2).1
        rw [if_pos c2, if_pos hxb]
        exact (line_near_min A rh ra rb rx h0 h1 sa sb sx hax hxb.le (by rcases hab with h | h <;> linarith)).mono (by linarith)
      · rw [if_neg c2]
        by_cases c3 : Op.isLE (of x rx) (of c rc) = true
        · rw [if_pos c3]
          rcases lt_or_ge x b with hxb | hxb
          · rw [if_pos hxb]
            refine left hax hxb ?_
            by_contra hr
            exact c2 (ib.2 ⟨hxb, not_lt.1 hr⟩)
          · rw [if_neg (not_lt.2 hxb)]
            rcases lt_or_ge c x with hcx | hcx
            · rw [if_pos hcx]
              exact right c rfl hxd' hcx ((ic.1 c3).resolve_right (not_lt.2 hcx.le))
            · rw [if_neg (not_lt.2 hcx), _root_.mul_one]
              exact d1.mono (by linarith)
        · rw [if_neg c3]
          have c3' := c3
          rw [ic, not_or, not_lt, not_lt] at c3'
          have hcx : c < x := by
            rcases c3'.2.lt_or_eq with h | h
            · exact h
            · rw [← h, sub_self, r_of_rep rep_zero, abs_zero] at c3'
              linarith [c3'.1]
          rw [if_neg (by linarith : ¬ x < b), if_pos hcx]
          have hw : W ≤ d - c := hcd.resolve_left (by linarith)
          by_cases c4 : Op.isLt (of x rx) (of d rd) = true
          · rw [if_pos c4]
            exact (line_near' A rh rc rd rx h0 h1 sc sd sx hcx.le hxd' (by linarith)).mono (by linarith)
          · rw [if_neg c4]
            refine d0.of_eq (z (div_nonneg (by linarith) (by linarith)) (part_le (by linarith) e0.le ?_ W0 hw))
            rcases hxd'.lt_or_eq with hl | hl
            · have hr : |ρ.r (x - d)| < ρ.eps := by
                by_contra hr
                exact c4 (id'.2 ⟨hl, not_lt.1 hr⟩)
              linarith [(abs_le.1 (nd hr).le).1]
            · linarith
  · intro hk
    subst hk
    simp only [Shape.membership, isNaN_of rx, Bool.false_eq_true, if_false, eq_ninf_of, eq_inf_of]
    unfold trapezoidExact
    by_cases c1 : (Op.isLt (of x rx) (of a ra) || Op.isGt (of x rx) (of d rd)) = true
    · rw [if_pos c1, if_pos (outside c1), mul_zero]
      exact d0.mono (by linarith)
    · obtain ⟨hax, hxd', hn⟩ := inside c1
      rw [if_neg c1, if_neg hn]
      by_cases c2 : Op.isEq (of x rx) (of b rb) = true
      · rw [if_pos c2]
        rcases lt_trichotomy x b with hxb | hxb | hxb
        · rw [if_pos hxb]
          exact left hax hxb (iq.1 c2)
        · rw [if_neg (by linarith), if_neg (by linarith), _root_.mul_one]
          exact d1.mono (by linarith)
        · rw [if_neg (by linarith), if_pos hxb]
          exact right b rfl hxd' hxb (iq.1 c2)
      · rw [if_neg c2]
        have c2' := c2
        rw [iq, not_lt] at c2'
        by_cases c3 : Op.isLt (of x rx) (of b rb) = true
        · have hxb := (ib.1 c3).1
          rw [if_pos c3, if_pos hxb]
          exact (line_near A rh ra rb rx h0 h1 sa sb sx hax hxb.le (by rcases hab with h | h <;> linarith)).mono (by linarith)
        · rw [if_neg c3]
          have hbx : b < x := by
            by_contra hc
            rcases (not_lt.1 hc).lt_or_eq with h | h
            · exact c3 (ib.2 ⟨h, c2'⟩)
            · rw [h, sub_self, r_of_rep rep_zero, abs_zero] at c2'
              linarith
          rw [if_neg (by linarith : ¬ x < b), if_pos hbx]
          have hw : W ≤ d - b := hcd.resolve_left (by linarith)
          exact (line_near' A rh rb rd rx h0 h1 sb sd sx hbx.le hxd' (by linarith)).mono (by linarith)

end

/-! ### weighted averages of uncertain degrees -/

/-- sums of products of degrees with errors -/
theorem sum_stable {α : Type} (l : List α) (a w z : α → ℚ) {E M : ℚ} (hE : ∀ x ∈ l, |a x - w x| ≤ E) (hz : ∀ x ∈ l, |z x| ≤ M) (M0 : 0 ≤ M) :
    |(l.map fun x => a x * z x).sum - (l.map fun x => w x * z x).sum| ≤ l.length * (E * M) := by
  induction l with
  | nil => simp
  | cons x l ih =>
    have h1 := ih (fun y hy => hE y (List.mem_cons_of_mem _ hy)) (fun y hy => hz y (List.mem_cons_of_mem _ hy))
    have h2 : |a x * z x - w x * z x| ≤ E * M := by
      rw [← sub_mul, abs_mul]
      have h3 := hE x List.mem_cons_self
      exact mul_le_mul h3 (hz x List.mem_cons_self) (abs_nonneg _) ((abs_nonneg _).trans h3)
    simp only [List.map_cons, List.sum_cons, List.length_cons, Nat.cast_add, Nat.cast_one]
    have h4 := abs_add_le (a x * z x - w x * z x) ((l.map fun x => a x * z x).sum - (l.map fun x => w x * z x).sum)
    have e : a x * z x + (l.map fun x => a x * z x).sum - (w x * z x + (l.map fun x => w x * z x).sum) =
      (a x * z x - w x * z x) + ((l.map fun x => a x * z x).sum - (l.map fun x => w x * z x).sum) := by ring
    rw [e]
    linarith

theorem sum_bound {α : Type} (l : List α) (w z : α → ℚ) {M : ℚ} (hw : ∀ x ∈ l, 0 ≤ w x) (hz : ∀ x ∈ l, |z x| ≤ M) :
    |(l.map fun x => w x * z x).sum| ≤ M * (l.map w).sum := by
  induction l with
  | nil => simp
  | cons x l ih =>
    have h1 := ih (fun y hy => hw y (List.mem_cons_of_mem _ hy)) (fun y hy => hz y (List.mem_cons_of_mem _ hy))
    have h2 : |w x * z x| ≤ M * w x := by
      rw [abs_mul, abs_of_nonneg (hw x List.mem_cons_self), _root_.mul_comm M]
      exact mul_le_mul_of_nonneg_left (hz x List.mem_cons_self) (hw x List.mem_cons_self)
    simp only [List.map_cons, List.sum_cons]
    have h4 := abs_add_le (w x * z x) ((l.map fun x => w x * z x).sum)
    linarith

/-- Weighted averages whose weights have errors up to `E`. -/
theorem average_stable {α : Type} (l : List α) (a w z : α → ℚ) {E M : ℚ} (hE : ∀ x ∈ l, |a x - w x| ≤ E) (hw : ∀ x ∈ l, 0 ≤ w x)
    (hz : ∀ x ∈ l, |z x| ≤ M) (M0 : 0 ≤ M) (ha : 0 < (l.map a).sum) (hs : 0 < (l.map w).sum) :
    |(l.map fun x => a x * z x).sum / (l.map a).sum - (l.map fun x => w x * z x).sum / (l.map w).sum| ≤ 2 * l.length * E * M / (l.map a).sum := by
  have h1 := sum_stable l a w z hE hz M0
  have h2 := sum_stable l a w (fun _ => 1) hE (M := 1) (fun _ _ => by simp) (by norm_num)
  simp only [_root_.mul_one] at h2
  have h3 := sum_bound l w z hw hz
  generalize (l.map fun x => a x * z x).sum = P' at *
  generalize (l.map fun x => w x * z x).sum = P at *
  have h2' : |(l.map a).sum - (l.map w).sum| ≤ l.length * E := h2
  generalize (l.map a).sum = T' at *
  generalize (l.map w).sum = T at *
  have e : P' / T' - P / T = (P' - P + P / T * (T - T')) / T' := by
    field_simp
    ring
  rw [e, abs_div, abs_of_pos ha]
  refine div_le_div_of_nonneg_right ?_ ha.le
  have h4 : |P / T| ≤ M := by
    rw [abs_div, abs_of_pos hs, div_le_iff₀ hs]
    exact h3
  have h5 : |P / T * (T - T')| ≤ M * (l.length * E) := by
    rw [abs_mul, _root_.abs_sub_comm]
    exact mul_le_mul h4 h2' (abs_nonneg _) M0
  have := abs_add_le (P' - P) (P / T * (T - T'))
  linarith

/-- **C86.**  Let the degrees of the groups of the fuzzy output have errors up to `E`.  The weighted average has an
error of at most `2 n E M / T` and what rounding adds to the average. -/
theorem weighted_sound (F : ρ.Fine u ν Ω) {M Y : ℚ} (M0 : 0 ≤ M) (Y0 : 0 ≤ Y) (ctx : Ctx (Flt ρ)) (type : WeightedType) (ht : type ≠ .automatic)
    (g g' : Aggregated (Flt ρ)) (hne : g.terms ≠ []) (hg : g.grouped = .ok g') (v : Activated (Flt ρ) → Flt ρ)
    (hv : ∀ a ∈ g'.terms, Weighted.value ctx type a = .ok (v a) ∧ Flt.Bounded M (v a) ∧ Between 0 Y a.degree)
    (hu : 32 * g'.terms.length * u ≤ 1) (hν : 64 * g'.terms.length * ν ≤ 1) (hΩ : 4 * g'.terms.length * (M + 1) * (Y + 1) ≤ Ω)
    {T : ℚ} (hT : T = (g'.terms.map fun a => toRat a.degree).sum) (hT0 : 0 < T) (hT1 : 8 * g'.terms.length * ν ≤ T)
    (hT2 : (M + 2) * ν ≤ (u * M + ν) * T) {E : ℚ} (w : Activated (Flt ρ) → ℚ) (hw : ∀ a ∈ g'.terms, 0 ≤ w a ∧ Near (w a) E a.degree)
    (hS : 0 < (g'.terms.map w).sum) :
    ∃ r, Weighted.defuzzify ctx .average type g = .ok r ∧
      Near ((g'.terms.map fun a => w a * toRat (v a)).sum / (g'.terms.map w).sum)
        (18 * g'.terms.length * (u * M + ν) + 2 * g'.terms.length * E * M / T) r := by
  obtain ⟨⟨r, hr, q, rq, rfl, hq⟩, -⟩ := weighted_near F M0 Y0 ctx type ht g g' hne hg v hv hu hν hΩ rfl hT hT0 hT1 hT2
  refine ⟨_, hr, q, rq, rfl, ?_⟩
  subst hT
  have h1 := average_stable g'.terms (fun a => toRat a.degree) w (fun a => toRat (v a)) (E := E) (M := M)
    (fun a ha => by
      obtain ⟨q, hq, e, h⟩ := (hw a ha).2
      rw [e]
      exact h)
    (fun a ha => (hw a ha).1)
    (fun a ha => by
      obtain ⟨q, hq, e, h⟩ := (hv a ha).2.1
      rw [e]
      exact h) M0 hT0 hS
  have := abs_add_le (q - (g'.terms.map fun a => toRat a.degree * toRat (v a)).sum / (g'.terms.map fun a => toRat a.degree).sum)
    ((g'.terms.map fun a => toRat a.degree * toRat (v a)).sum / (g'.terms.map fun a => toRat a.degree).sum -
      (g'.terms.map fun a => w a * toRat (v a)).sum / (g'.terms.map w).sum)
  rw [sub_add_sub_cancel] at this
  linarith

/-- the membership function of a fuzzy output in exact arithmetic, given the exact degrees of the terms at a point
and the exact degrees to which they are activated -/
def fuzzyExact {S : Type} (f g : ℚ → ℚ → ℚ) (m w : Activated S → ℚ) (l : List (Activated S)) : ℚ := l.foldl (fun s a => g s (f (m a) (w a))) 0

/-- **C86.**  The degree of a fuzzy output at a point: `k` activated terms, whose degrees have errors up to `E` and
whose membership functions have errors up to `δ`, have errors up to `k` times these and two operators. -/
theorem fuzzy_near_partial (A : Accurate ρ u ν Ω) (ctx : Ctx (Flt ρ)) (x : Flt ρ) (hx : x ≠ nan) (o : Aggregated (Flt ρ)) {c : TNormKind} {d : SNormKind}
    {f g : ℚ → ℚ → ℚ} (hc : c.exact? = some f) (hd : d.exact? = some g) (ha : o.aggregation = some (.builtin d)) (m w : Activated (Flt ρ) → ℚ)
    {E δ : ℚ} (hm : ∀ a ∈ o.terms, a.implication = some (.builtin c) ∧ (0 ≤ w a ∧ w a ≤ 1) ∧ Close (w a) E a.degree ∧ (0 ≤ m a ∧ m a ≤ 1) ∧
      ∃ v, a.term.membership ctx x = .ok v ∧ Close (m a) δ v) :
    (0 ≤ fuzzyExact f g m w o.terms ∧ fuzzyExact f g m w o.terms ≤ 1) ∧ ∃ y, o.membership ctx x = .ok y ∧
      Close (fuzzyExact f g m w o.terms) (o.terms.length * (δ + E + TNormKind.slack ρ u ν c + 20 * (u + ν))) y := by
  have hnx : Op.isNaN x = false := (ScalarOrd.isNaN_false_iff x).2 hx
  unfold Aggregated.membership
  rw [hnx, ha]
  simp only [Bool.false_eq_true, if_false]
  have key : ∀ (l : List (Activated (Flt ρ))), (∀ a ∈ l, a ∈ o.terms) → ∀ s q D, 0 ≤ q → q ≤ 1 → Close q D s →
      (0 ≤ l.foldl (fun s a => g s (f (m a) (w a))) q ∧ l.foldl (fun s a => g s (f (m a) (w a))) q ≤ 1) ∧
      ∃ y, (l.foldlM (fun mu a => do let y ← a.membership ctx x; (SNorm.builtin d).compute mu y) s : Except Err (Flt ρ)) = .ok y ∧
        Close (l.foldl (fun s a => g s (f (m a) (w a))) q) (D + l.length * (δ + E + TNormKind.slack ρ u ν c + 20 * (u + ν))) y := by
    intro l
    induction l with
    | nil => intro _ s q D q0 q1 hs; exact ⟨⟨q0, q1⟩, s, rfl, hs.mono (by simp)⟩
    | cons a l ih =>
      intro hl s q D q0 q1 hs
      obtain ⟨hi, ⟨w0, w1⟩, hw, ⟨m0, m1⟩, v, hv, hcv⟩ := hm a (hl a (by simp))
      have e : a.membership ctx x = .ok (c.compute v a.degree) := by
        unfold Activated.membership
        rw [hnx, hi]
        simp only [Bool.false_eq_true, if_false, hv, bind, Except.bind, TNorm.compute]
      have h1 := tnorm_near A hc m0 m1 w0 w1 hcv hw
      obtain ⟨t0, t1⟩ := tnorm_unit hc m0 m1 w0 w1
      have h2 := snorm_near A hd q0 q1 t0 t1 hs h1
      obtain ⟨s0, s1⟩ := snorm_unit hd q0 q1 t0 t1
      obtain ⟨hr, y, hy, hcy⟩ := ih (fun b hb => hl b (by simp [hb])) _ _ _ s0 s1 h2
      refine ⟨hr, y, ?_, hcy.mono ?_⟩
      · rw [List.foldlM_cons, e]
        exact hy
      · rw [List.length_cons]
        push_cast
        linarith
  obtain ⟨hr, y, hy, hc⟩ := key o.terms (fun _ h => h) (lit 0) 0 0 le_rfl (by norm_num) ⟨degree_zero, near_zero le_rfl⟩
  exact ⟨hr, y, hy, hc.mono (by linarith)⟩

/-- **C86.**  Centroid of a membership function with errors up to `E`. -/
theorem centroid_sound_partial (F : ρ.Fine u ν Ω) {a b Y : ℚ} {n : ℕ} (H : Sampled ρ u ν Ω a b n) (hw : Wide u ν a b n) (Y0 : 0 ≤ Y)
    (hY : 4 * n * (|a| + |b| + 1) * (Y + 1) ≤ Ω) (mu : Flt ρ → Except Err (Flt ρ)) (l : List (Flt ρ × Flt ρ))
    (hl : Integral.samples mu (of a H.lower) (of b H.upper) (n : ℤ) = .ok l) (hy : ∀ p ∈ l, Between 0 Y p.2) {T : ℚ} (hT : T = (l.map fun p => toRat p.2).sum)
    (hT0 : 0 < T) (hT1 : 8 * n * ν ≤ T) (hT2 : (|a| + |b| + 2) * ν ≤ (u * (|a| + |b|) + ν) * T)
    {E : ℚ} (m : Flt ρ → ℚ) (hm : ∀ p ∈ l, 0 ≤ m p.1 ∧ Near (m p.1) E p.2) (hS : 0 < (l.map fun p => m p.1).sum) :
    ∃ r, Integral.defuzzify .centroid (n : ℤ) mu (of a H.lower) (of b H.upper) = .ok r ∧ Between a b r ∧
      Near ((l.map fun p => m p.1 * toRat p.1).sum / (l.map fun p => m p.1).sum) (18 * n * (u * (|a| + |b|) + ν) + 2 * n * E * (|a| + |b|) / T) r := by
  have eT : T = weights l := hT
  obtain ⟨r, hr, hb, q, rq, rfl, hq⟩ := centroid_range_partial F H hw Y0 hY mu l hl hy (eT ▸ hT0) (eT ▸ hT1) (eT ▸ hT2)
  refine ⟨_, hr, hb, q, rq, rfl, ?_⟩
  obtain ⟨hlen, hmem⟩ := Integral.samples_mem hl
  have h1 := average_stable l (fun p => toRat p.2) (fun p => m p.1) (fun p => toRat p.1) (E := E) (M := |a| + |b|)
    (fun p hp => by
      obtain ⟨q, hq, e, h⟩ := (hm p hp).2
      rw [e]
      exact h)
    (fun p hp => (hm p hp).1)
    (fun p hp => by
      obtain ⟨i, hi, e, _⟩ := hmem p hp
      obtain ⟨q, hq, e', h⟩ := (sample_range F H hi).bounded (M := |a| + |b|) (by linarith [abs_nonneg b]) (by linarith [abs_nonneg a])
      rw [e, e']
      exact h) (by positivity) (hT ▸ hT0) hS
  have e1 : products l = (l.map fun p => toRat p.2 * toRat p.1).sum := rfl
  have e2 : weights l = (l.map fun p => toRat p.2).sum := rfl
  rw [e1, e2] at hq
  have := abs_add_le (q - (l.map fun p => toRat p.2 * toRat p.1).sum / (l.map fun p => toRat p.2).sum)
    ((l.map fun p => toRat p.2 * toRat p.1).sum / (l.map fun p => toRat p.2).sum -
      (l.map fun p => m p.1 * toRat p.1).sum / (l.map fun p => m p.1).sum)
  rw [sub_add_sub_cancel] at this
  rw [hlen, ← hT] at h1
  rw [← hT] at hq this
  linarith

/-! ### `double` -/

section double
variable (lib1 : Fn1 → Ext ℚ → Ext ℚ) (lib2 : Fn2 → Ext ℚ → Ext ℚ → Ext ℚ)

theorem accurate : Accurate (binary64 lib1 lib2) (2 ^ (-53 : ℤ)) (2 ^ (-1075 : ℤ)) (2 ^ (1000 : ℤ)) where
  toFine := Binary64.fine lib1 lib2
  tight := Binary64.tight lib1 lib2
  big := by
    have : (2 : ℚ) ^ (31 : ℤ) ≤ 2 ^ (1000 : ℤ) := zpow_le_zpow_right₀ (by norm_num) (by norm_num)
    exact le_trans (by norm_num) this
  hu := by norm_num
  hν := by
    have h1 : (2 : ℚ) ^ (-1075 : ℤ) ≤ 2 ^ (-100 : ℤ) := zpow_le_zpow_right₀ (by norm_num) (by norm_num)
    have h2 : 1 / 1048576 ≤ (binary64 lib1 lib2).eps := (double lib1 lib2).heps
    have h3 := mul_le_mul_of_nonneg_left h2 (show (0 : ℚ) ≤ 2 ^ (-53 : ℤ) by positivity)
    refine le_trans ?_ h3
    refine (mul_le_mul_of_nonneg_left h1 (by norm_num)).trans ?_
    norm_num
  heps := by
    change (binary64 (fun _ x => x) (fun _ x _ => x)).eps ≤ (1 / 5 : ℚ)
    decide +kernel

theorem double_eps : (binary64 lib1 lib2).eps ≤ 10001 / 10000000000 := by
  change (binary64 (fun _ x => x) (fun _ x _ => x)).eps ≤ (10001 / 10000000000 : ℚ)
  decide +kernel

theorem double_unit : (2 : ℚ) ^ (-53 : ℤ) + 2 ^ (-1075 : ℤ) ≤ 12 / 10 ^ 17 := by
  have h1 : (2 : ℚ) ^ (-1075 : ℤ) ≤ 2 ^ (-100 : ℤ) := zpow_le_zpow_right₀ (by norm_num) (by norm_num)
  refine (add_le_add_right h1 _).trans ?_
  norm_num

/-- **C86.**  In `double`: the degree of a rule whose antecedent has `m` propositions with up to `n` hedges each. -/
theorem rule_double_partial {w : World (Flt (binary64 lib1 lib2))} {c : TNormKind} {d : SNormKind} {f g : ℚ → ℚ → ℚ} (hc : c.exact? = some f)
    (hd : d.exact? = some g) {μ : VarRef → Option Nat → ℚ} {n : ℕ} {δ : ℚ} (d0 : 0 ≤ δ) (r : Rule (Flt (binary64 lib1 lib2)))
    (hl : r.isLoaded = true) {e : Expr (Flt (binary64 lib1 lib2))} (ha : r.antecedent = some e) (he : ∀ p ∈ e.props, Fair w μ n δ p) {v : ℚ}
    (hv : Close v 0 r.weight) :
    (r.activateWith w (some (.builtin c)) (some (.builtin d))).2 = none ∧
    Close (v * e.exact w μ f g)
      (e.props.length * (2 ^ n * δ + (2 ^ n - 1) / 10 ^ 11 + 1 / 10 ^ 14 + if c = .hamacherProduct then 2 / 10 ^ 6 else 0) + 1 / 10 ^ 15)
      (r.activateWith w (some (.builtin c)) (some (.builtin d))).1.degree := by
  obtain ⟨h1, h2⟩ := rule_near_partial (accurate lib1 lib2) hc hd d0 r hl ha he hv
  refine ⟨h1, h2.mono ?_⟩
  have hu := double_unit
  have he := double_eps lib1 lib2
  have he0 := (binary64 lib1 lib2).eps_pos
  have hs : hedgeSlack (binary64 lib1 lib2) (2 ^ (-53 : ℤ)) (2 ^ (-1075 : ℤ)) ≤ 1 / 10 ^ 11 := by
    unfold hedgeSlack
    have : (binary64 lib1 lib2).eps ^ 2 ≤ (10001 / 10000000000) ^ 2 := pow_le_pow_left₀ he0.le he 2
    norm_num at this ⊢
    norm_num at hu
    linarith
  have ht : TNormKind.slack (binary64 lib1 lib2) (2 ^ (-53 : ℤ)) (2 ^ (-1075 : ℤ)) c ≤ 1 / 10 ^ 14 + if c = .hamacherProduct then 2 / 10 ^ 6 else 0 := by
    unfold TNormKind.slack
    refine add_le_add ?_ ?_
    · norm_num at hu ⊢
      linarith
    · split_ifs
      · refine he.trans ?_
        norm_num
      · exact le_rfl
  have hp : (1 : ℚ) ≤ 2 ^ n := one_le_pow₀ (by norm_num)
  have hm : (0 : ℚ) ≤ e.props.length := Nat.cast_nonneg _
  have hk : (2 ^ n - 1) * hedgeSlack (binary64 lib1 lib2) (2 ^ (-53 : ℤ)) (2 ^ (-1075 : ℤ)) ≤ (2 ^ n - 1) * (1 / 10 ^ 11) :=
    mul_le_mul_of_nonneg_left hs (by linarith)
  refine add_le_add (mul_le_mul_of_nonneg_left ?_ hm) (hu.trans (by norm_num))
  generalize hedgeSlack (binary64 lib1 lib2) (2 ^ (-53 : ℤ)) (2 ^ (-1075 : ℤ)) = s at *
  generalize TNormKind.slack (binary64 lib1 lib2) (2 ^ (-53 : ℤ)) (2 ^ (-1075 : ℤ)) c = k at *
  rw [mul_add]
  linarith

end double

/-- Errors of `somewhat` are not bounded by a multiple of those of its argument; DrasticProduct, NilpotentMinimum,
DrasticSum and NilpotentMaximum are not continuous and test for 1 with the tolerance. -/
theorem smooth_violated :
    (∃ a b : Flt dblRoot, Degree a ∧ Degree b ∧ toRat a - toRat b ≤ 1 / 10 ^ 16 ∧
      1 / 10 ^ 9 ≤ toRat (HedgeKind.somewhat.hedge a) - toRat (HedgeKind.somewhat.hedge b)) ∧
    (TNormKind.drasticProduct.compute (lit (1 - 1 / 10 ^ 7)) (lit (1 / 2)) : Flt dbl) = lit (1 / 2) ∧
    (TNormKind.nilpotentMinimum.compute (lit (1 / 2 + 1 / 10 ^ 7)) (lit (1 / 2)) : Flt dbl) = lit 0 ∧
    (SNormKind.drasticSum.compute (lit (1 / 10 ^ 7)) (lit (1 / 2)) : Flt dbl) = lit (1 / 2) ∧
    (SNormKind.nilpotentMaximum.compute (lit (1 / 2 - 1 / 10 ^ 8)) (lit (1 / 2)) : Flt dbl) = lit 1 :=
  ⟨⟨lit (1 / 10 ^ 16), lit 0, by decide +kernel, by decide +kernel, by decide +kernel, by decide +kernel⟩,
    by decide +kernel, by decide +kernel, by decide +kernel, by decide +kernel⟩

namespace Demo

/-- a term -/
def term (name : Str) (s : Shape (Flt dbl)) : Term (Flt dbl) := ⟨name, lit 1, .shape s⟩

/-- service is 11/16 and food is 3/8 -/
def world : World (Flt dbl) :=
  ⟨[{ Variable.new (cs! "service") (lit 0) (lit 1) [term (cs! "good") (.triangle (lit 0) (lit (1 / 2)) (lit 1))] with value := lit (11 / 16) },
    { Variable.new (cs! "food") (lit 0) (lit 1) [term (cs! "rancid") (.trapezoid (lit 0) (lit 0) (lit (1 / 8)) (lit 1))] with value := lit (3 / 8) }], []⟩

/-- service is very good and food is not rancid -/
def antecedent : Expr (Flt dbl) :=
  .conj (.prop ⟨.input 0, [.builtin .very], some 0⟩) (.prop ⟨.input 1, [.builtin .not], some 0⟩)

/-- if service is very good and food is not rancid then … with 0.75 -/
def rule : Rule (Flt dbl) :=
  { Rule.new [] with weight := lit (3 / 4), antecedent := some antecedent, conclusions := [⟨.output 0, [], some 0⟩] }

/-- the exact degrees: good is 5/8 and rancid is 5/7 -/
def degrees : VarRef → Option Nat → ℚ
  | .input 0, _ => trapezoidExact 0 (1 / 2) (1 / 2) 1 (11 / 16)
  | _, _ => trapezoidExact 0 0 (1 / 8) 1 (3 / 8)

/-- the exact degree of the rule, and the one that is computed -/
example : degrees (.input 0) (some 0) = 5 / 8 ∧ degrees (.input 1) (some 0) = 5 / 7 ∧
    antecedent.exact world degrees (· * ·) max = 25 / 224 ∧
    toRat (rule.activateWith world (some (.builtin .algebraicProduct)) (some (.builtin .maximum))).1.degree ≠ 75 / 896 ∧
    |toRat (rule.activateWith world (some (.builtin .algebraicProduct)) (some (.builtin .maximum))).1.degree - 75 / 896| ≤ 1 / 10 ^ 16 := by
  decide +kernel

theorem near_check {c E : ℚ} {x : Flt ρ} (h : Op.isFinite x = true) (hE : |toRat x - c| ≤ E) : Near c E x := by
  obtain ⟨q, r, rfl⟩ := finite_of h
  exact ⟨q, r, rfl, hE⟩

/-- the theorem applies to it -/
example : Close (3 / 4 * (25 / 224)) (1 / 10 ^ 10)
    (rule.activateWith world (some (.builtin .algebraicProduct)) (some (.builtin .maximum))).1.degree := by
  have h := (rule_double_partial _ _ (w := world) (c := .algebraicProduct) (d := .maximum) rfl rfl (μ := degrees) (n := 1) (δ := 1 / 10 ^ 15) (by norm_num)
    rule (by decide +kernel) (e := antecedent) rfl (by
      intro p hp
      simp only [antecedent, Expr.props, List.mem_append, List.mem_singleton] at hp
      rcases hp with rfl | rfl
      · refine ⟨by decide, fun h hh => ?_, ⟨true, rfl⟩, by decide +kernel, by decide +kernel, Or.inr ⟨0, _, rfl, rfl, by decide +kernel, near_check (by decide +kernel) (by decide +kernel)⟩⟩
        rw [List.mem_singleton.1 hh]
        exact ⟨.very, _, rfl, rfl⟩
      · refine ⟨by decide, fun h hh => ?_, ⟨true, rfl⟩, by decide +kernel, by decide +kernel, Or.inr ⟨0, _, rfl, rfl, by decide +kernel, near_check (by decide +kernel) (by decide +kernel)⟩⟩
        rw [List.mem_singleton.1 hh]
        exact ⟨.not, _, rfl, rfl⟩) (v := 3 / 4) ⟨by decide +kernel, near_check (by decide +kernel) (by decide +kernel)⟩).2
  have e : antecedent.exact world degrees (· * ·) max = 25 / 224 := by decide +kernel
  rw [e] at h
  refine h.mono ?_
  rw [if_neg (by decide)]
  norm_num [antecedent, Expr.props]

/-- a ramp and a triangle: the bounds, and values that are off by almost as much because of the tolerance -/
example : ((Shape.ramp (lit 0) (lit (1 / 1024))).membership (lit 1) (lit (1 / 2 ^ 20)) : Flt dbl) = lit 0 ∧
    rampExact 0 (1 / 1024) (1 / 2 ^ 20) = 1 / 1024 ∧
    ((Shape.triangle (lit 0) (lit (1 / 1024)) (lit 1)).membership (lit 1) (lit (1 / 1024 - 1 / 2 ^ 20)) : Flt dbl) = lit 1 ∧
    trapezoidExact 0 (1 / 1024) (1 / 1024) 1 (1 / 1024 - 1 / 2 ^ 20) = 1023 / 1024 := by decide +kernel

/-- a fuzzy output: a triangle activated with a third, a ramp with two thirds -/
def fuzzy : Aggregated (Flt dbl) :=
  ⟨cs! "tip", lit 0, lit 1, some (.builtin .algebraicSum),
    [⟨0, term (cs! "average") (.triangle (lit 0) (lit (1 / 2)) (lit 1)), lit (1 / 3), some (.builtin .algebraicProduct)⟩,
      ⟨1, term (cs! "generous") (.ramp (lit 0) (lit 1)), lit (2 / 3), some (.builtin .algebraicProduct)⟩]⟩

/-- its degree at 3/8, in exact arithmetic and as computed -/
example : fuzzyExact (· * ·) (fun a b => 1 - (1 - a) * (1 - b)) (fun a => if a.id = 0 then trapezoidExact 0 (1 / 2) (1 / 2) 1 (3 / 8) else rampExact 0 1 (3 / 8))
      (fun a => if a.id = 0 then 1 / 3 else 2 / 3) fuzzy.terms = 7 / 16 ∧
    |toRat (result (fuzzy.membership ⟨[], []⟩ (lit (3 / 8)))) - 7 / 16| ≤ 1 / 10 ^ 15 := by decide +kernel

/-- weights 1/2 and 1/4 with errors up to 1/100, values 3 and 7 -/
example : |([(51 / 100, 3), (26 / 100, 7)] : List (ℚ × ℚ)).foldl (fun s p => s + p.1 * p.2) 0 / (77 / 100) - (1 / 2 * 3 + 1 / 4 * 7) / (3 / 4)| ≤
    2 * 2 * (1 / 100) * 7 / (77 / 100) := by decide +kernel

end Demo

end Rounded
end FL
