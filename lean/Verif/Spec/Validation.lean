import Verif.Model.Validation

/-!
# Specification of parameter checks
-/

namespace Verif.Spec

/-- The call succeeds if the condition holds and raises `ValueError` otherwise. -/
def Accepts {α : Type} (r : Except Err α) (condition : Prop) : Prop :=
  (condition → ∃ a, r = .ok a) ∧ (¬condition → r = .error .valueError)

/-- Exactly one of three propositions holds. -/
def ExactlyOne (a b c : Prop) : Prop := (a ∧ ¬b ∧ ¬c) ∨ (¬a ∧ b ∧ ¬c) ∨ (¬a ∧ ¬b ∧ c)

/-- The number has been given, is not NaN and is positive. -/
def GivenPositive (x : Option PyFloat) : Prop := ∃ v : EReal, x = some (.num v) ∧ 0 < v

/-- The argument is not NaN. -/
def NotNan (x : Option PyFloat) : Prop := x ≠ some .nan

end Verif.Spec
