import Verif.Model.Builder
import Mathlib.Data.Real.Basic

/-!
# Model of the budget of one step of gradient descent (`dp_auditorium/mechanisms/mechanisms_utils.py`)
-/

namespace Verif

/-- `get_wrong_one_step_gd_budget`, `mechanisms_utils.py:19-39`. A noise multiplier of zero raises `ZeroDivisionError`. -/
noncomputable def wrongOneStepGdBudget (noiseMultiplier alpha : ℝ) : Except Err ℝ :=
  if 2 * noiseMultiplier ^ 2 = 0 then .error .zeroDivisionError else .ok (alpha / (2 * noiseMultiplier ^ 2))

end Verif
