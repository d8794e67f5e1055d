import Verif.Model.InverseMonotone
import Mathlib.Analysis.SpecialFunctions.Exp
import Mathlib.Data.Nat.Choose.Basic

/-!
# Model of the advanced-composition functions of `pld/accountant.py`

Floats are reals. `special.binom(k, l)` is only called with integers `0 <= l < k` and is the binomial coefficient.
-/

namespace Verif
namespace Advanced

/-- The inner loop and division, `accountant.py:264-268`: `delta_i` for a given `i`. -/
noncomputable def deltaI (epsilon : ℝ) (k i : ℕ) : ℝ :=
  ((List.range i).foldl (fun (acc : ℝ) (l : ℕ) =>
    acc + (k.choose l : ℝ) * (Real.exp (epsilon * ((k : ℝ) - l)) - Real.exp (epsilon * ((k : ℝ) - 2 * i + l)))) 0)
    / (1 + Real.exp epsilon) ^ k

open Classical in
/-- The outer loop `for i in range(k // 2, -1, -1)` from `i` downwards, `accountant.py:263-271`. -/
noncomputable def loop (epsilon delta totalDelta : ℝ) (k : ℕ) : ℕ → Option ℝ
  | 0 =>
    if 1 - (1 - delta) ^ k * (1 - deltaI epsilon k 0) ≤ totalDelta then some (epsilon * ((k : ℝ) - 2 * (0 : ℕ)))
    else none
  | i + 1 =>
    if 1 - (1 - delta) ^ k * (1 - deltaI epsilon k (i + 1)) ≤ totalDelta then
      some (epsilon * ((k : ℝ) - 2 * (i + 1 : ℕ)))
    else loop epsilon delta totalDelta k i

/-- `advanced_composition`, `accountant.py:227-271`. For a negative number of queries the range is empty. -/
noncomputable def advancedComposition (epsilon delta : ℝ) (numQueries : ℤ) (totalDelta : ℝ) : Option ℝ :=
  if numQueries < 0 then none else loop epsilon delta totalDelta numQueries.toNat (numQueries.toNat / 2)

/-- Outcome of `get_smallest_epsilon_from_advanced_composition`. `pld/accountant.py:274-315`. -/
inductive SmallestRes where
  | none
  | zeroDivision
  | search (r : InvRes)

open Classical in
/-- `get_smallest_epsilon_from_advanced_composition`, `accountant.py:274-315`, for `numQueries >= 0` and privacy parameters
in their range (`DifferentialPrivacyParameters` rejects others). The searched function is only compared with a number if it
is not `None`; see `C27_smallest_defined` for why it never is `None` here (`getD` is not reached). -/
noncomputable def smallestEpsilon (fuel : ℕ) (totalEpsilon totalDelta : ℝ) (numQueries : ℕ) (delta : ℝ) : SmallestRes :=
  if 1 - (1 - delta) ^ numQueries > totalDelta then .none
  else if numQueries = 0 then .zeroDivision
  else
    .search (InverseMonotone.inverse fuel
      (fun epsilon => (advancedComposition epsilon delta numQueries totalDelta).getD 0) totalEpsilon
      ⟨((totalEpsilon / numQueries : ℝ) : EReal), (totalEpsilon : EReal), Option.none, 1e-7, false⟩ true)

end Advanced
end Verif
