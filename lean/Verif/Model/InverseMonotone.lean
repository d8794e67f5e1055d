import Mathlib.Data.EReal.Operations
import Mathlib.Algebra.Order.Floor.Ring
import Mathlib.Algebra.Order.Archimedean.Basic

/-!
# Model of `inverse_monotone_function` (`pld/common.py:46-123`)

Bounds are `EReal` (`±inf` allowed), the function is evaluated at reals only.  Loops take fuel.
-/

namespace Verif

/-- `BinarySearchParameters`, `pld/common.py:46-63`. -/
structure SearchParams where
  lowerBound : EReal
  upperBound : EReal
  initialGuess : Option ℝ
  tolerance : ℝ
  discrete : Bool

/-- Outcome of `inverse_monotone_function`: `None`, a value, a search started on an infinite interval (python then
evaluates the function at `±inf` or loops; not modelled further), or not finished within the fuel. `pld/common.py:66-123`. -/
inductive InvRes where
  | notFound
  | found (x : ℝ)
  | infiniteInterval
  | outOfFuel

namespace InverseMonotone

/-- `check`, `pld/common.py:90, 94`. -/
def check (increasing : Bool) (funcValue value : ℝ) : Prop :=
  if increasing then funcValue ≤ value else funcValue > value

open Classical in
/-- The doubling loop, `pld/common.py:98-102`: returns the new lower end and the guess at loop exit. -/
noncomputable def guessLoop (inc : Bool) (func : ℝ → ℝ) (value : ℝ) (upper : EReal) :
    (fuel : ℕ) → (lower : EReal) → (guess : ℝ) → Option (EReal × ℝ)
  | fuel, lower, guess =>
    if (guess : EReal) < upper ∧ check inc (func guess) value then
      match fuel with
      | 0 => none
      | fuel + 1 => guessLoop inc func value upper fuel guess (guess * 2)
    else some (lower, guess)

/-- `mid_x`, `pld/common.py:110-113`. -/
noncomputable def mid (discrete : Bool) (lower upper : ℝ) : ℝ :=
  if discrete then (⌊(upper + lower) / 2⌋ : ℝ) else (upper + lower) / 2

open Classical in
/-- The binary search loop, `pld/common.py:109-118`: final `(lower_x, upper_x)`. -/
noncomputable def searchLoop (inc discrete : Bool) (func : ℝ → ℝ) (value tol : ℝ) :
    (fuel : ℕ) → (lower upper : ℝ) → Option (ℝ × ℝ)
  | fuel, lower, upper =>
    if upper - lower > tol then
      match fuel with
      | 0 => none
      | fuel + 1 =>
        if check inc (func (mid discrete lower upper)) value then
          searchLoop inc discrete func value tol fuel (mid discrete lower upper) upper
        else searchLoop inc discrete func value tol fuel lower (mid discrete lower upper)
    else some (lower, upper)

open Classical in
/-- The part after the initial guess, `pld/common.py:104-123`, on the interval `[lower, upper]`. -/
noncomputable def finish (fuel : ℕ) (inc : Bool) (func : ℝ → ℝ) (value : ℝ) (p : SearchParams)
    (lower upper : EReal) : InvRes :=
  if lower = ⊥ ∨ lower = ⊤ ∨ upper = ⊥ ∨ upper = ⊤ then .infiniteInterval
  else
    match searchLoop inc p.discrete func value (if p.discrete then 1 else p.tolerance) fuel lower.toReal
      upper.toReal with
    | none => .outOfFuel
    | some (l, u) => .found (if inc then l else u)

/-- `pld/common.py:91-92, 95-96`: the range contains no feasible point. -/
def infeasible (inc : Bool) (func : ℝ → ℝ) (value : ℝ) (p : SearchParams) : Prop :=
  if inc then ∃ l : ℝ, p.lowerBound = l ∧ func l > value
  else ∃ u : ℝ, p.upperBound = u ∧ func u > value

open Classical in
/-- `inverse_monotone_function`, `pld/common.py:66-123`. -/
noncomputable def inverse (fuel : ℕ) (func : ℝ → ℝ) (value : ℝ) (p : SearchParams) (inc : Bool) : InvRes :=
  if infeasible inc func value p then .notFound
  else
    match p.initialGuess with
    | none => finish fuel inc func value p p.lowerBound p.upperBound
    | some g =>
      match guessLoop inc func value p.upperBound fuel p.lowerBound g with
      | none => .outOfFuel
      | some (lower, guess) => finish fuel inc func value p lower (min p.upperBound guess)

end InverseMonotone
end Verif
