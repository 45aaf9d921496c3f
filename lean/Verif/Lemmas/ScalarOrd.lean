/-
Order laws of IEEE comparison, as a law class over `Scalar`.  They hold for
doubles (with the two zeros identified); they are proved for `Ext ℝ` below.
-/
import Verif.Lemmas.Ext

namespace FL
open Scalar

/-- `<` is a strict order that is total outside NaN; NaN is unordered and
unequal to everything including itself; `==` is identity outside NaN; literals are not NaN. -/
class ScalarOrd (S : Type) extends Scalar S where
  eq_iff : ∀ a b : S, eq a b = true ↔ a = b ∧ a ≠ nan
  lt_irrefl : ∀ a : S, lt a a = false
  lt_trans : ∀ a b c : S, lt a b = true → lt b c = true → lt a c = true
  lt_nan : ∀ a : S, lt a nan = false ∧ lt nan a = false
  lt_total : ∀ a b : S, a ≠ nan → b ≠ nan → lt a b = true ∨ a = b ∨ lt b a = true
  lit_ne_nan : ∀ q : Rat, ofRat q ≠ nan

noncomputable instance [Tol ℝ] : ScalarOrd (Ext ℝ) where
  toScalar := Ext.instScalarReal
  eq_iff := by
    intro a b
    cases a <;> cases b <;> simp
  lt_irrefl := by intro a; cases a <;> simp
  lt_trans := by
    intro a b c
    cases a <;> cases b <;> cases c <;> simp
    exact _root_.lt_trans
  lt_nan := by intro a; simp
  lt_total := by
    intro a b
    cases a <;> cases b <;> simp
    exact lt_trichotomy _ _
  lit_ne_nan := by intro q; simp

namespace ScalarOrd
variable {S : Type} [ScalarOrd S]

theorem isNaN_iff (x : S) : Op.isNaN x = true ↔ x = nan := by
  unfold Op.isNaN
  rw [Bool.not_eq_true', ← Bool.not_eq_true, eq_iff]
  simp

theorem isNaN_false_iff (x : S) : Op.isNaN x = false ↔ x ≠ nan := by
  rw [← Bool.not_eq_true, isNaN_iff]

theorem lt_asymm {a b : S} (h : lt a b = true) : lt b a = false := by
  by_contra hc
  have := lt_trans a b a h (by simpa using hc)
  rw [lt_irrefl] at this; exact Bool.noConfusion this

theorem ne_nan_of_lt {a b : S} (h : lt a b = true) : a ≠ nan ∧ b ≠ nan := by
  constructor <;> rintro rfl
  · rw [(lt_nan _).2] at h; exact Bool.noConfusion h
  · rw [(lt_nan _).1] at h; exact Bool.noConfusion h

theorem le_iff (a b : S) : le a b = true ↔ lt a b = true ∨ (a = b ∧ a ≠ nan) := by
  simp [Scalar.le, eq_iff]

theorem le_of_not_lt {a b : S} (ha : a ≠ nan) (hb : b ≠ nan) (h : lt a b = false) :
    le b a = true := by
  rw [le_iff]
  rcases lt_total a b ha hb with h1 | h1 | h1
  · rw [h] at h1; exact Bool.noConfusion h1
  · exact Or.inr ⟨h1.symm, hb⟩
  · exact Or.inl h1

theorem not_lt_of_le {a b : S} (h : le a b = true) : lt b a = false := by
  rcases (le_iff a b).mp h with h | ⟨rfl, _⟩
  · exact lt_asymm h
  · exact lt_irrefl a

theorem le_refl {a : S} (h : a ≠ nan) : le a a = true := (le_iff a a).mpr (Or.inr ⟨rfl, h⟩)

theorem le_trans {a b c : S} (h1 : le a b = true) (h2 : le b c = true) : le a c = true := by
  rw [le_iff] at *
  rcases h1 with h1 | ⟨rfl, h1⟩ <;> rcases h2 with h2 | ⟨rfl, h2⟩
  · exact Or.inl (lt_trans _ _ _ h1 h2)
  · exact Or.inl h1
  · exact Or.inl h2
  · exact Or.inr ⟨rfl, h1⟩

theorem le_antisymm {a b : S} (h1 : le a b = true) (h2 : le b a = true) : a = b := by
  rcases (le_iff a b).mp h1 with h | ⟨h, _⟩
  · rw [not_lt_of_le h2] at h; exact Bool.noConfusion h
  · exact h

theorem le_total (a b : S) (ha : a ≠ nan) (hb : b ≠ nan) : le a b = true ∨ le b a = true := by
  rcases lt_total a b ha hb with h | h | h
  · exact Or.inl ((le_iff _ _).mpr (Or.inl h))
  · exact Or.inl ((le_iff _ _).mpr (Or.inr ⟨h, ha⟩))
  · exact Or.inr ((le_iff _ _).mpr (Or.inl h))

theorem lt_of_lt_of_le {a b c : S} (h1 : lt a b = true) (h2 : le b c = true) : lt a c = true := by
  rcases (le_iff b c).mp h2 with h | ⟨rfl, _⟩
  · exact lt_trans _ _ _ h1 h
  · exact h1

theorem lt_of_le_of_lt {a b c : S} (h1 : le a b = true) (h2 : lt b c = true) : lt a c = true := by
  rcases (le_iff a b).mp h1 with h | ⟨rfl, _⟩
  · exact lt_trans _ _ _ h h2
  · exact h2

theorem ne_nan_of_le {a b : S} (h : le a b = true) : a ≠ nan ∧ b ≠ nan := by
  rcases (le_iff a b).mp h with h | ⟨rfl, h'⟩
  · exact ne_nan_of_lt h
  · exact ⟨h', h'⟩

end ScalarOrd
end FL
