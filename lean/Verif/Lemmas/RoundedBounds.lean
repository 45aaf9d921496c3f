/-
Rounded arithmetic: bounds of results that may not be numbers, for all arguments including infinities.
-/
import Verif.Lemmas.Rounded

namespace FL
open Scalar

namespace Flt
open Ext
variable {ρ : Format}

/-- not a number, or between two numbers -/
def In (lo hi : ℚ) (y : Flt ρ) : Prop := y.val = .nan ∨ ∃ q, y.val = .fin q ∧ lo ≤ q ∧ q ≤ hi

/-- not a number, or at least a number -/
def AtLeast (lo : ℚ) (y : Flt ρ) : Prop := y.val = .nan ∨ y.val = .pinf ∨ ∃ q, y.val = .fin q ∧ lo ≤ q

/-- not a number, or at most a number -/
def AtMost (hi : ℚ) (y : Flt ρ) : Prop := y.val = .nan ∨ y.val = .ninf ∨ ∃ q, y.val = .fin q ∧ q ≤ hi

theorem in_mk' {lo hi : ℚ} (rl : ρ.Rep lo) (rh : ρ.Rep hi) {v : Ext ℚ}
    (h : v = .nan ∨ ∃ q, v = .fin q ∧ lo ≤ q ∧ q ≤ hi) : In lo hi (mk' ρ v) := by
  rcases h with rfl | ⟨q, rfl, h1, h2⟩
  · exact Or.inl rfl
  · right
    have a := ρ.rnd_mono lo q h1
    have b := ρ.rnd_mono q hi h2
    rw [rl] at a
    rw [rh] at b
    change ∃ q', ρ.rnd q = .fin q' ∧ _
    cases hr : ρ.rnd q with
    | fin z => rw [hr] at a b; exact ⟨z, rfl, a, b⟩
    | nan => exact absurd hr (ρ.rnd_ne_nan q)
    | pinf => rw [hr] at b; exact absurd b (by simp [Ext.Le])
    | ninf => rw [hr] at a; exact absurd a (by simp [Ext.Le])

theorem atLeast_mk' {lo : ℚ} (rl : ρ.Rep lo) {v : Ext ℚ}
    (h : v = .nan ∨ v = .pinf ∨ ∃ q, v = .fin q ∧ lo ≤ q) : AtLeast lo (mk' ρ v) := by
  rcases h with rfl | rfl | ⟨q, rfl, h1⟩
  · exact Or.inl rfl
  · exact Or.inr (Or.inl rfl)
  · right
    have a := ρ.rnd_mono lo q h1
    rw [rl] at a
    change ρ.rnd q = .pinf ∨ ∃ q', ρ.rnd q = .fin q' ∧ _
    cases hr : ρ.rnd q with
    | fin z => rw [hr] at a; exact Or.inr ⟨z, rfl, a⟩
    | nan => exact absurd hr (ρ.rnd_ne_nan q)
    | pinf => exact Or.inl rfl
    | ninf => rw [hr] at a; exact absurd a (by simp [Ext.Le])

theorem atMost_mk' {hi : ℚ} (rh : ρ.Rep hi) {v : Ext ℚ}
    (h : v = .nan ∨ v = .ninf ∨ ∃ q, v = .fin q ∧ q ≤ hi) : AtMost hi (mk' ρ v) := by
  rcases h with rfl | rfl | ⟨q, rfl, h1⟩
  · exact Or.inl rfl
  · exact Or.inr (Or.inl rfl)
  · right
    have a := ρ.rnd_mono q hi h1
    rw [rh] at a
    change ρ.rnd q = .ninf ∨ ∃ q', ρ.rnd q = .fin q' ∧ _
    cases hr : ρ.rnd q with
    | fin z => rw [hr] at a; exact Or.inr ⟨z, rfl, a⟩
    | nan => exact absurd hr (ρ.rnd_ne_nan q)
    | ninf => exact Or.inl rfl
    | pinf => rw [hr] at a; exact absurd a (by simp [Ext.Le])

theorem val_lit {q : ℚ} (h : ρ.Rep q) : (lit q : Flt ρ).val = .fin q := h

theorem abs_atLeast (y : Flt ρ) : AtLeast 0 (Scalar.abs y) := by
  change AtLeast 0 (mk' ρ (Ext.abs y.val))
  apply atLeast_mk' Format.rep_zero
  cases y.val with
  | nan => exact Or.inl rfl
  | pinf => exact Or.inr (Or.inl rfl)
  | ninf => exact Or.inr (Or.inl rfl)
  | fin q => exact Or.inr (Or.inr ⟨|q|, rfl, abs_nonneg q⟩)

theorem neg_atMost {y : Flt ρ} (h : AtLeast 0 y) : AtMost 0 (-y) := by
  change AtMost 0 (mk' ρ (Ext.neg y.val))
  apply atMost_mk' Format.rep_zero
  rcases h with h | h | ⟨q, h, h0⟩ <;> rw [h]
  · exact Or.inl rfl
  · exact Or.inr (Or.inl rfl)
  · exact Or.inr (Or.inr ⟨-q, rfl, by linarith⟩)

/-- every number is nonnegative or nonpositive or not a number -/
theorem sign_cases (y : Flt ρ) : AtLeast 0 y ∨ AtMost 0 y := by
  unfold AtLeast AtMost
  cases hv : y.val with
  | nan => simp
  | pinf => simp
  | ninf => simp
  | fin q =>
    rcases le_total 0 q with h | h
    · left; right; right; exact ⟨q, rfl, h⟩
    · right; right; right; exact ⟨q, rfl, h⟩

theorem mul_atLeast {a b : Flt ρ} (ha : AtLeast 0 a) (hb : AtLeast 0 b) : AtLeast 0 (a * b) := by
  change AtLeast 0 (mk' ρ (Ext.mul a.val b.val))
  apply atLeast_mk' Format.rep_zero
  rcases ha with h | h | ⟨q, h, h0⟩ <;> rcases hb with k | k | ⟨p, k, k0⟩ <;> rw [h, k]
  · exact Or.inl rfl
  · exact Or.inl rfl
  · exact Or.inl rfl
  · exact Or.inl rfl
  · exact Or.inr (Or.inl rfl)
  · simp only [Ext.mul, signInf]
    split_ifs with c1 c2
    · exact Or.inr (Or.inl rfl)
    · exact absurd c2 (not_lt.2 k0)
    · exact Or.inl rfl
  · exact Or.inl rfl
  · simp only [Ext.mul, signInf]
    split_ifs with c1 c2
    · exact Or.inr (Or.inl rfl)
    · exact absurd c2 (not_lt.2 h0)
    · exact Or.inl rfl
  · exact Or.inr (Or.inr ⟨q * p, rfl, mul_nonneg h0 k0⟩)

theorem mul_atLeast' {a b : Flt ρ} (ha : AtMost 0 a) (hb : AtMost 0 b) : AtLeast 0 (a * b) := by
  change AtLeast 0 (mk' ρ (Ext.mul a.val b.val))
  apply atLeast_mk' Format.rep_zero
  rcases ha with h | h | ⟨q, h, h0⟩ <;> rcases hb with k | k | ⟨p, k, k0⟩ <;> rw [h, k]
  · exact Or.inl rfl
  · exact Or.inl rfl
  · exact Or.inl rfl
  · exact Or.inl rfl
  · exact Or.inr (Or.inl rfl)
  · simp only [Ext.mul, signInf]
    split_ifs with c1 c2
    · exact Or.inr (Or.inl rfl)
    · exact absurd c2 (not_lt.2 (by linarith))
    · exact Or.inl rfl
  · exact Or.inl rfl
  · simp only [Ext.mul, signInf]
    split_ifs with c1 c2
    · exact Or.inr (Or.inl rfl)
    · exact absurd c2 (not_lt.2 (by linarith))
    · exact Or.inl rfl
  · exact Or.inr (Or.inr ⟨q * p, rfl, mul_nonneg_of_nonpos_of_nonpos h0 k0⟩)

theorem mul_atMost {a b : Flt ρ} (ha : AtLeast 0 a) (hb : AtMost 0 b) : AtMost 0 (a * b) := by
  change AtMost 0 (mk' ρ (Ext.mul a.val b.val))
  apply atMost_mk' Format.rep_zero
  rcases ha with h | h | ⟨q, h, h0⟩ <;> rcases hb with k | k | ⟨p, k, k0⟩ <;> rw [h, k]
  · exact Or.inl rfl
  · exact Or.inl rfl
  · exact Or.inl rfl
  · exact Or.inl rfl
  · exact Or.inr (Or.inl rfl)
  · simp only [Ext.mul, signInf]
    split_ifs with c1 c2
    · exact absurd c1 (not_lt.2 k0)
    · exact Or.inr (Or.inl rfl)
    · exact Or.inl rfl
  · exact Or.inl rfl
  · simp only [Ext.mul, signInf]
    split_ifs with c1 c2
    · exact absurd c1 (not_lt.2 (by linarith))
    · exact Or.inr (Or.inl rfl)
    · exact Or.inl rfl
  · exact Or.inr (Or.inr ⟨q * p, rfl, mul_nonpos_of_nonneg_of_nonpos h0 k0⟩)

theorem div_atMost {a b : Flt ρ} (ha : AtMost 0 a) (hb : AtLeast 0 b) : AtMost 0 (a / b) := by
  change AtMost 0 (mk' ρ (Ext.div a.val b.val))
  apply atMost_mk' Format.rep_zero
  rcases ha with h | h | ⟨q, h, h0⟩ <;> rcases hb with k | k | ⟨p, k, k0⟩ <;> rw [h, k]
  · exact Or.inl rfl
  · exact Or.inl rfl
  · exact Or.inl rfl
  · exact Or.inl rfl
  · exact Or.inl rfl
  · simp only [Ext.div]
    rw [if_neg (not_lt.2 k0)]
    exact Or.inr (Or.inl rfl)
  · exact Or.inl rfl
  · exact Or.inr (Or.inr ⟨0, rfl, le_rfl⟩)
  · simp only [Ext.div, signInf]
    split_ifs with c0 c1 c2
    · exact absurd c1 (not_lt.2 h0)
    · exact Or.inr (Or.inl rfl)
    · exact Or.inl rfl
    · exact Or.inr (Or.inr ⟨q / p, rfl, div_nonpos_of_nonpos_of_nonneg h0 k0⟩)

/-- one plus a nonnegative number is at least one -/
theorem one_add {y : Flt ρ} (h : AtLeast 0 y) : AtLeast 1 (lit 1 + y) := by
  change AtLeast 1 (mk' ρ (Ext.add (lit 1 : Flt ρ).val y.val))
  rw [val_lit Format.rep_one]
  apply atLeast_mk' Format.rep_one
  rcases h with h | h | ⟨q, h, h0⟩ <;> rw [h]
  · exact Or.inl rfl
  · exact Or.inr (Or.inl rfl)
  · exact Or.inr (Or.inr ⟨1 + q, rfl, by linarith⟩)

/-- dividing by a number that is at least one -/
theorem div_in {a : ℚ} (ra : ρ.Rep a) (h0 : 0 ≤ a) {y : Flt ρ} (h : AtLeast 1 y) : In 0 a (of a ra / y) := by
  change In 0 a (mk' ρ (Ext.div (.fin a) y.val))
  apply in_mk' Format.rep_zero ra
  rcases h with h | h | ⟨q, h, h1⟩ <;> rw [h]
  · exact Or.inl rfl
  · exact Or.inr ⟨0, rfl, le_rfl, h0⟩
  · simp only [Ext.div]
    rw [if_neg (by linarith)]
    refine Or.inr ⟨a / q, rfl, by positivity, ?_⟩
    rw [div_le_iff₀ (by linarith)]
    nlinarith

/-- multiplying by a truth degree -/
theorem mul_in {a : ℚ} (ra : ρ.Rep a) {x y : Flt ρ} (hx : In 0 a x) (hy : In 0 1 y) : In 0 a (x * y) := by
  change In 0 a (mk' ρ (Ext.mul x.val y.val))
  apply in_mk' Format.rep_zero ra
  rcases hx with h | ⟨q, h, h0, h1⟩ <;> rcases hy with k | ⟨p, k, k0, k1⟩ <;> rw [h, k]
  · exact Or.inl rfl
  · exact Or.inl rfl
  · exact Or.inl rfl
  · exact Or.inr ⟨q * p, rfl, by positivity, by nlinarith⟩

theorem of_in {a : ℚ} (ra : ρ.Rep a) (h0 : 0 ≤ a) : In 0 a (of a ra) := Or.inr ⟨a, rfl, h0, le_rfl⟩

theorem mul_one {a : ℚ} (ra : ρ.Rep a) : of a ra * lit 1 = of a ra := by
  rw [lit_rep Format.rep_one]
  apply Flt.ext
  change ρ.rnd (a * 1) = .fin a
  rw [_root_.mul_one]
  exact ra

theorem mul_ge_one {x y : Flt ρ} (hx : AtLeast 1 x) (hy : AtLeast 1 y) : AtLeast 1 (x * y) := by
  change AtLeast 1 (mk' ρ (Ext.mul x.val y.val))
  apply atLeast_mk' Format.rep_one
  rcases hx with h | h | ⟨q, h, h1⟩ <;> rcases hy with k | k | ⟨p, k, k1⟩ <;> rw [h, k]
  · exact Or.inl rfl
  · exact Or.inl rfl
  · exact Or.inl rfl
  · exact Or.inl rfl
  · exact Or.inr (Or.inl rfl)
  · simp only [Ext.mul, signInf]
    rw [if_pos (by linarith)]
    exact Or.inr (Or.inl rfl)
  · exact Or.inl rfl
  · simp only [Ext.mul, signInf]
    rw [if_pos (by linarith)]
    exact Or.inr (Or.inl rfl)
  · exact Or.inr (Or.inr ⟨q * p, rfl, by nlinarith⟩)

theorem abs_sub_in {x y : Flt ρ} (hx : In 0 1 x) (hy : In 0 1 y) : In 0 1 (Scalar.abs (x - y)) := by
  have h : In (-1) 1 (x - y) := by
    change In (-1) 1 (mk' ρ (Ext.add x.val (Ext.neg y.val)))
    apply in_mk' (by simpa using Format.rep_neg (ρ := ρ) Format.rep_one) Format.rep_one
    rcases hx with h | ⟨q, h, h0, h1⟩ <;> rcases hy with k | ⟨p, k, k0, k1⟩ <;> rw [h, k]
    · exact Or.inl rfl
    · exact Or.inl rfl
    · exact Or.inl rfl
    · exact Or.inr ⟨q + -p, rfl, by linarith, by linarith⟩
  change In 0 1 (mk' ρ (Ext.abs (x - y).val))
  apply in_mk' Format.rep_zero Format.rep_one
  rcases h with h | ⟨q, h, h0, h1⟩ <;> rw [h]
  · exact Or.inl rfl
  · exact Or.inr ⟨|q|, rfl, abs_nonneg q, abs_le.2 ⟨h0, h1⟩⟩

theorem half_in {y : Flt ρ} (hy : In (-1) 1 y) : In 0 1 (lit (1/2) * (lit 1 + y)) := by
  have h : In 0 2 (lit 1 + y) := by
    change In 0 2 (mk' ρ (Ext.add (lit 1 : Flt ρ).val y.val))
    rw [val_lit Format.rep_one]
    apply in_mk' Format.rep_zero Format.rep_two
    rcases hy with k | ⟨p, k, k0, k1⟩ <;> rw [k]
    · exact Or.inl rfl
    · exact Or.inr ⟨1 + p, rfl, by linarith, by linarith⟩
  change In 0 1 (mk' ρ (Ext.mul (lit (1/2) : Flt ρ).val (lit 1 + y).val))
  rw [val_lit Format.rep_half]
  apply in_mk' Format.rep_zero Format.rep_one
  rcases h with h | ⟨q, h, h0, h1⟩ <;> rw [h]
  · exact Or.inl rfl
  · exact Or.inr ⟨1 / 2 * q, rfl, by linarith, by linarith⟩

/-- a square with the sign turned -/
theorem neg_sq_atMost (d : Flt ρ) : AtMost 0 (-d * d) := by
  rcases sign_cases d with h | h
  · have := neg_atMost h
    have e : -d * d = d * -d := Flt.mul_comm _ _
    rw [e]
    exact mul_atMost h this
  · have : AtLeast 0 (-d) := by
      change AtLeast 0 (mk' ρ (Ext.neg d.val))
      apply atLeast_mk' Format.rep_zero
      rcases h with h | h | ⟨q, h, h0⟩ <;> rw [h]
      · exact Or.inl rfl
      · exact Or.inr (Or.inl rfl)
      · exact Or.inr (Or.inr ⟨-q, rfl, by linarith⟩)
    exact mul_atMost this h

theorem twice_sq_atLeast (d : Flt ρ) : AtLeast 0 (lit 2 * d * d) := by
  have h2 : AtLeast 0 (lit 2 : Flt ρ) := Or.inr (Or.inr ⟨2, val_lit Format.rep_two, by norm_num⟩)
  rcases sign_cases d with h | h
  · exact mul_atLeast (mul_atLeast h2 h) h
  · exact mul_atLeast' (mul_atMost h2 h) h

end Flt
end FL
