import Verif.Model.Builder
import Mathlib.Data.EReal.Basic

/-!
# Model of the parameter checks

`dp_accounting/pld/common.py`, `dp_auditorium/configs/privacy_property.py`, `dp_auditorium/testers/property_tester_utils.py` and
`learning/clustering/clustering_params.py`. Here floats may be NaN.
-/

namespace Verif

/-- A Python float or int: NaN or an extended real number. The values checked in `testers/property_tester_utils.py:51-135`. -/
inductive PyFloat where
  | nan
  | num (x : EReal)

namespace PyFloat

/-- `a < b`: false if one of them is NaN. Used in `testers/property_tester_utils.py:98`. -/
def lt : PyFloat → PyFloat → Prop
  | num x, num y => x < y
  | _, _ => False

/-- `a <= b`: false if one of them is NaN. Used in `testers/property_tester_utils.py:57`, `62`, `65`, `69`, `78`, `131`. -/
def le : PyFloat → PyFloat → Prop
  | num x, num y => x ≤ y
  | _, _ => False

/-- `not a` for an optional number: `None` and zero are false, NaN is true. `testers/property_tester_utils.py:56`, `61`, `65`, `68`, `76`, `127`. -/
def falsy : Option PyFloat → Prop
  | none => True
  | some nan => False
  | some (num x) => x = 0

end PyFloat

open Classical PyFloat

namespace Validation

/-- `DifferentialPrivacyParameters.__post_init__`, `pld/common.py:39-43`. -/
noncomputable def dpParameters (epsilon delta : PyFloat) : Except Err Unit :=
  if lt epsilon (num 0) then .error .valueError
  else if lt delta (num 0) ∨ lt (num 1) delta then .error .valueError
  else .ok ()

/-- `PrivacyProperty.__post_init__`, `configs/privacy_property.py:62-74`. -/
def privacyProperty {P R A : Type} (pureDp : Option P) (renyiDp : Option R) (approximateDp : Option A) : Except Err Unit :=
  let n := (if pureDp.isSome then 1 else 0) + (if renyiDp.isSome then 1 else 0) + (if approximateDp.isSome then 1 else 0)
  if n ≠ 1 then .error .valueError else .ok ()

/-- `TreeParam.__post_init__`, `clustering_params.py:137-144`. -/
def treeParam (minBranching minNode _maxDepth : ℤ) : Except Err Unit :=
  if minNode < 1 then .error .valueError
  else if minBranching < minNode then .error .valueError
  else .ok ()

/-- `PrivacyBudgetSplit.__post_init__`, `clustering_params.py:57-65`. -/
noncomputable def budgetSplit (fracSum fracGroupCount : ℝ) : Except Err Unit :=
  if 1 < fracSum + fracGroupCount then .error .valueError else .ok ()

/-- One of the checks of `validate_training_config`: `not x or x <= 0`. -/
noncomputable def positive (x : Option PyFloat) : Except Err Unit :=
  if falsy x then .error .valueError
  else match x with
    | none => .error .typeError
    | some v => if le v (num 0) then .error .valueError else .ok ()

/-- `validate_training_config`, `property_tester_utils.py:51-73`. -/
noncomputable def trainingConfig (learningRate epochs batchSize bound : Option PyFloat) : Except Err Unit := do
  positive learningRate
  positive epochs
  positive batchSize
  positive bound

/-- `_validate_epsilon_parameter`, `property_tester_utils.py:76-81`. -/
noncomputable def epsilonParameter (epsilon : Option PyFloat) : Except Err Unit := positive epsilon

/-- `validate_approximate_dp_property`, `property_tester_utils.py:84-101`. -/
noncomputable def approximateDp (epsilon delta : Option PyFloat) : Except Err Unit := do
  epsilonParameter epsilon
  match delta with
  | none => .error .valueError
  | some d => if lt d (num 0) then .error .valueError else .ok ()

/-- `validate_pure_dp_property`, `property_tester_utils.py:104-113`. -/
noncomputable def pureDp (epsilon : Option PyFloat) : Except Err Unit := epsilonParameter epsilon

/-- `validate_renyi_dp_property`, `property_tester_utils.py:116-132`. -/
noncomputable def renyiDp (epsilon alpha : Option PyFloat) : Except Err Unit := do
  epsilonParameter epsilon
  if falsy alpha then .error .valueError
  else match alpha with
    | none => .error .typeError
    | some a => if le a (num 1) then .error .valueError else .ok ()

end Validation
end Verif
