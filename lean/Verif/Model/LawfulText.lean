/-
What is assumed of the conversions between text and scalars in the theorems about text round trips.
-/
import Verif.Model.Formula

namespace FL

/-- Numbers are written as words without blanks and without the comment character, and what is
written can be read.  The scalar `y` read may differ from the scalar `x` written (three decimals are
written), but both are written alike.  `Ext ℚ` satisfies this (`instLawfulTextRat` in
`Verif.Lemmas.Decimal`). -/
class LawfulText (S : Type) [ScalarText S] : Prop where
  str_ne : ∀ x : S, ScalarText.str x ≠ []
  str_char : ∀ x : S, ∀ c ∈ ScalarText.str x, isSpace c = false ∧ c ≠ '#'
  reads : ∀ x : S, ∃ y : S, ScalarText.ofText (ScalarText.str x) = some y ∧ ScalarText.str y = ScalarText.str x

end FL
